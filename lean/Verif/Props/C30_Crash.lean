import Verif.Spec.Crash
import Verif.Props.C34_C35_C61_Checkpoints
/-!
# C30: dying in the middle of a block import
-/
namespace Verif.Node
open Verif Verif.Db Verif.Node.Witness Verif.Witness

section
variable {E : Env} {t : Nat} {vals : List Validator} {bs : List Block} {a0 : State}
  {body : Option (List AggAtt)} {K : Header → Prop} {root : Root} {anchor : State}
  {X : State → Prop} {ops : List Db.Op} {s : Store}

/-- The first batch of `update_checkpoints` alone also keeps the invariant. -/
theorem NInv.cut (I : NInv E t vals a0 body K root anchor X ops s) {r : Root}
    {f : Option Checkpoint} {s' : Store} {ops' : List Db.Op} (ha : HAnc s.mem.db.headers root r)
    (e : Node.setCheckpoints s r none f = .ok s')
    (I' : NInv E t vals a0 body K root anchor X ops' s')
    (hst : stateOf root anchor ops' = stateOf root anchor ops) :
    ∃ db, checkpointBatch s.mem.db r none f = .ok db ∧
      NInv E t vals a0 body K root anchor X (.checkpointBatch r none f :: ops)
        { s with mem := { s.mem with db := db } } := by
  obtain ⟨hu, -⟩ := setCheckpoints_split e
  obtain ⟨f1, f2, f3, f4, f5, f6, f7, f8⟩ := updateCheckpoints_frame hu
  have hb := checkpointBatch_ok hu
  have hq := stateOf_quiet (root := root) (anchor := anchor) (ops := ops)
    (op := .checkpointBatch r none f) trivial
  have C := I'.cp
  have T := I.tree
  rw [hst] at C
  rw [← f1] at T
  refine ⟨{ s'.mem.db with liveChain := s.mem.db.liveChain }, hb,
    I.run.step (op := .checkpointBatch r none f) ha ?_,
    fun h hh => I.opsK h (seen_quiet (by exact trivial) hh), ?_, ?_,
    ⟨I.buf.new, I.buf.known, I.buf.gossip, I.buf.gossipBound⟩⟩
  · show (match checkpointBatch s.mem.db r none f with
      | .error e => .error e | .ok db => .ok { s.mem with db := db } : P Mem) = _
    rw [hb]
  · rw [hq]
    exact T
  · rw [hq]
    refine ⟨I.cp.live, ?_, C.just, C.justMax, C.justOf, C.fin, C.finLe, C.head, C.safe, C.finHead,
      C.finOf⟩
    intro x st hx hle
    refine I.cp.liveFull x st hx ?_
    have : s'.mem.db.justified = s.mem.db.justified := f7
    rw [← this]
    exact hle

theorem NInv.updateHeadCut (W : World E t vals bs a0 K)
    (A : AnchorOk E.H (State.fromGenesis E.H t vals) K root anchor)
    (I : NInv E t vals a0 body K root anchor X ops s) :
    ∃ s' ops', updateHeadCut s = .ok s' ∧ NInv E t vals a0 body K root anchor X ops' s' := by
  obtain ⟨s2, ops2, e2, I2, h3, -⟩ := I.updateHead W A
  obtain ⟨s1, g1, g2, -, I1⟩ := I.getState W (ghostHead s)
  obtain ⟨st, hst, -⟩ := I.ghost W (Votes.headVotes s.fc) 0
  have hst : stateOf root anchor ops (ghostHead s) = some st := hst
  have q := stateOf_quiet (root := root) (anchor := anchor) (ops := ops)
    (op := .readState (ghostHead s)) trivial
  unfold Node.updateHead at e2
  unfold Node.updateHeadCut
  simp only at e2 ⊢
  rw [g1, hst] at e2 ⊢
  simp only at e2 ⊢
  have ha : HAnc s1.mem.db.headers root (ghostHead s) := by
    rw [g2]; exact I.tree.hanc _ _ hst
  obtain ⟨db, e3, I3⟩ := I1.cut ha e2 I2 (by rw [h3, q])
  rw [e3]
  exact ⟨_, _, rfl, I3⟩

/-- The writes of an import up to any point except directly after the block has been stored. -/
theorem NInv.commitUpTo (W : World E t vals bs a0 K)
    (A : AnchorOk E.H (State.fromGenesis E.H t vals) K root anchor)
    {p st : State} {sb : SignedBlock}
    (I : NInv E t vals a0 body K root anchor X ops s)
    (hp : stateOf root anchor ops sb.block.parentRoot = some p)
    (hi : importState E.H p sb.block = .ok st)
    (hnew : stateOf root anchor ops (sb.block.root E.H) = none) (hk : K (sb.block.header E.H))
    {pt : CrashPoint} (hpt : pt ≠ .block) :
    ∃ s' ops' Y, commitUpTo E.H s sb st pt = .ok s' ∧
      NInv E t vals a0 body K root anchor Y ops' s' := by
  have C := I.tree.child A W.stateNZ hp hi
  obtain ⟨s1, ops1, e1, I1, g1, h1, j1, x1⟩ := I.raise W C
  unfold Node.commitUpTo
  rw [e1]
  simp only
  by_cases h : pt = .justified
  · rw [if_pos h]; exact ⟨_, _, _, rfl, I1⟩
  rw [if_neg h, if_neg hpt]
  rw [← g1] at hp hnew
  rw [← g1, ← h1] at C
  obtain ⟨s2, ops2, e2, I2, x2, n2⟩ := I1.store W A hp C hnew hk j1
  rw [e2]
  simp only
  by_cases h : pt = .state
  · rw [if_pos h]; exact ⟨_, _, _, rfl, I2⟩
  rw [if_neg h]
  by_cases h : pt = .head
  · rw [if_pos h]
    obtain ⟨s3, ops3, e3, I3⟩ := I2.updateHeadCut W A
    exact ⟨_, _, _, e3, I3⟩
  · rw [if_neg h]
    obtain ⟨s3, ops3, e3, I3, -⟩ := I2.updateHead W A
    exact ⟨_, _, _, e3, I3⟩

theorem checkBlock_import {E : Env} {s : Store} {p st : State} {sb : SignedBlock}
    (hc : checkBlock E s p sb = .ok st) : importState E.H p sb.block = .ok st := by
  unfold checkBlock at hc
  split at hc
  · cases hc
  split at hc
  · cases hc
  split at hc
  · cases hc
  split at hc
  · cases hc
  split at hc
  · cases hc
  split at hc
  · cases hc
  next h => cases hc; exact h

theorem NInv.crash (W : World E t vals bs a0 K)
    (A : AnchorOk E.H (State.fromGenesis E.H t vals) K root anchor)
    (I : NInv E t vals a0 body K root anchor X ops s) (sb : SignedBlock)
    (hk : K (sb.block.header E.H)) {pt : CrashPoint} (hpt : pt ≠ .block) :
    ∃ s' ops' Y, crash E s sb pt = .ok s' ∧
      NInv E t vals a0 body K root anchor Y ops' s' := by
  have key : ∃ s' ops' Y, importUpTo E s sb pt = .ok s' ∧
      NInv E t vals a0 body K root anchor Y ops' s' := by
    unfold importUpTo
    by_cases hh : hasState s.mem.db (sb.block.root E.H) = true
    · rw [if_pos hh]; exact ⟨s, ops, _, rfl, I⟩
    · rw [if_neg hh]
      obtain ⟨s1, g1, g2, -, I1⟩ := I.getState W sb.block.parentRoot
      rw [g1]
      have q := stateOf_quiet (root := root) (anchor := anchor) (ops := ops)
        (op := .readState sb.block.parentRoot) trivial
      have hnew : stateOf root anchor ops (sb.block.root E.H) = none := by
        rw [hasState_iff (I.inv W).repr] at hh
        cases h : stateOf root anchor ops (sb.block.root E.H) with
        | none => rfl
        | some x => rw [h] at hh; exact absurd rfl hh
      cases hp : stateOf root anchor ops sb.block.parentRoot with
      | none => exact ⟨s1, _, _, rfl, I1⟩
      | some p =>
        simp only
        cases hc : checkBlock E s1 p sb with
        | error e => exact ⟨s1, _, _, rfl, I1⟩
        | ok st =>
          exact I1.commitUpTo W A (by rw [q]; exact hp) (checkBlock_import hc)
            (by rw [q]; exact hnew) hk hpt
  obtain ⟨s1, ops1, Y, e1, I1⟩ := key
  obtain ⟨s2, ops2, e2, I2, -⟩ := I1.succeeds_restart
  exact ⟨s2, ops2, Y, by unfold Node.crash; rw [e1]; exact e2, I2⟩

end

/-- In histories whose crashes come at any point but directly after the block has been stored, the
invariant holds (with some post-states computed and lost). -/
theorem creach_ninv {E : Env} {t : Nat} {vals : List Validator} {bs : List Block} {a0 : State}
    {body : Option (List AggAtt)} {K : Header → Prop} (W : World E t vals bs a0 K)
    {evs : List CEvent} {s : Store}
    (h : CReach E a0 body evs s) (hk : ∀ ev ∈ evs, EventK E.H K ev.plain)
    (hpt : ∀ sb, CEvent.crash sb .block ∉ evs) :
    ∃ root anchor X ops, AnchorOk E.H (State.fromGenesis E.H t vals) K root anchor ∧
      NInv E t vals a0 body K root anchor X ops s := by
  induction h with
  | init hi =>
    obtain ⟨root, anchor, A, I, -⟩ := init_ninv W hi
    exact ⟨root, anchor, _, _, A, I⟩
  | step hr hs ih =>
    rename_i evs s0 s1 ev
    obtain ⟨root, anchor, X, ops, A, I⟩ := ih (fun e he => hk e (List.mem_cons_of_mem _ he))
      (fun sb hb => hpt sb (List.mem_cons_of_mem _ hb))
    have hkev := hk _ List.mem_cons_self
    cases ev with
    | ev e =>
      obtain ⟨s', ops', e', I', -⟩ := I.step W A e hkev
      have hs : step E s0 e = .ok s1 := hs
      rw [e'] at hs
      cases hs
      exact ⟨root, anchor, X, ops', A, I'⟩
    | crash sb pt =>
      obtain ⟨s', ops', Y, e', I'⟩ := I.crash W A sb hkev (pt := pt)
        (fun h => hpt sb (by rw [← h]; exact List.mem_cons_self))
      have hs : crash E s0 sb pt = .ok s1 := hs
      rw [e'] at hs
      cases hs
      exact ⟨root, anchor, Y, ops', A, I'⟩

/-- The head has a state that can be read back. -/
def HeadReadable (s : Store) : Prop := ∃ st, Reads s s.mem.db.head st

/-- **C30, the crash points that are safe.** Take any history of a node, with any number of crashes
during imports, none of them between `insert_signed_block` and `insert_state`. Then the head can be
recomputed, its state can be read, and every next event or crash is handled without a panic.
Missing for C30 in full: a crash between those two commits, where it is false (`C30_false`). -/
theorem C30_partial {E : Env} {t : Nat} {vals : List Validator} {bs : List Block} {a0 : State}
    {body : Option (List AggAtt)} {evs : List CEvent} {s : Store} (ev : CEvent)
    (W : World E t vals bs a0 (Known E.H (State.fromGenesis E.H t vals) bs
      ((ev :: evs).map CEvent.plain)))
    (h : CReach E a0 body evs s) (hpt : ∀ sb, CEvent.crash sb .block ∉ ev :: evs) :
    HeadReadable s ∧
    (∃ s', updateHead s = .ok s' ∧ HeadReadable s' ∧
      HAnc s'.mem.db.headers s'.mem.db.justified.root s'.mem.db.head) ∧
    ∃ s', cstep E s ev = .ok s' := by
  have hk : ∀ e ∈ ev :: evs, EventK E.H (Known E.H (State.fromGenesis E.H t vals) bs
      ((ev :: evs).map CEvent.plain)) e.plain :=
    fun e he => eventK_known _ (List.mem_map_of_mem he)
  obtain ⟨root, anchor, X, ops, A, I⟩ := creach_ninv W h
    (fun e he => hk e (List.mem_cons_of_mem _ he)) (fun sb hb => hpt sb (List.mem_cons_of_mem _ hb))
  refine ⟨?_, ?_, ?_⟩
  · obtain ⟨st, hst⟩ := I.cp.head
    exact ⟨st, (I.reads W _ _).2 hst⟩
  · obtain ⟨s', ops', e, I', -, -, -, hanc, -⟩ := I.updateHead W A
    obtain ⟨st, hst⟩ := I'.cp.head
    exact ⟨s', e, ⟨st, (I'.reads W _ _).2 hst⟩, hanc⟩
  · cases ev with
    | ev e =>
      obtain ⟨s', _, e', -⟩ := I.step W A e (hk _ List.mem_cons_self)
      exact ⟨s', e'⟩
    | crash sb pt =>
      obtain ⟨s', _, _, e', -⟩ := I.crash W A sb (hk _ List.mem_cons_self) (pt := pt)
        (fun h => hpt sb (by rw [← h]; exact List.mem_cons_self))
      exact ⟨s', e'⟩

/-! ## Witnesses -/
namespace Witness

def cfold (E : Env) (s : Store) : List CEvent → P Store
  | [] => .ok s
  | ev :: evs => match cfold E s evs with
    | .error e => .error e
    | .ok s => cstep E s ev

def crashRun (evs : List CEvent) : P Store := match init wE wG (some []) with
  | .error e => .error e
  | .ok s => cfold wE s evs

theorem crashRun_reach {evs : List CEvent} {s : Store} (h : crashRun evs = .ok s) :
    CReach wE wG (some []) evs s := by
  unfold crashRun at h
  split at h
  · cases h
  next s0 h0 =>
    induction evs generalizing s with
    | nil => cases h; exact .init h0
    | cons ev evs ih =>
      unfold cfold at h
      split at h
      · cases h
      next s1 h1 => exact (ih h1).step h

/-- Block 1 is imported normally; the node dies after storing block 3. -/
def cutEvs (pt : CrashPoint) : List CEvent :=
  [ .crash (sgn (mkBlock 3 1 [vote [true, true, true] 0 1])) pt,
    .ev (.block (sgn (mkBlock 1 0 []))), .ev (.tick 32000 false) ]

def dies {α : Type} : P α → Bool
  | .error e => decide (e = 1736)
  | .ok _ => false

end Witness
open Witness

/-- **C30, refuted.** The node dies after `insert_signed_block` and before `insert_state`. After the
restart the next recomputation of the head (`accept_new_attestations`) selects the stored block, which
has no state. From then on everything that needs the head state panics (`head_state`, line 1736);
here the next tick past interval 3 of a slot, in the whole node already the next tick
(`crates/blockchain/src/lib.rs` 317). Restarting again does not help, because the head is in the
database. -/
theorem C30_false :
    ∃ (E : Env) (t : Nat) (vals : List Validator) (a0 : State) (body : Option (List AggAtt))
      (evs : List CEvent) (s : Store),
      World E t vals [] a0 (Known E.H (State.fromGenesis E.H t vals) [] (evs.map CEvent.plain)) ∧
      CReach E a0 body evs s ∧
      ¬ HeadReadable s ∧ headState s = .error 1736 ∧
      step E s (.tick 40000 false) = .error 1736 ∧
      ∃ s', step E s .restart = .ok s' ∧ ¬ HeadReadable s' ∧
        step E s' (.tick 40000 false) = .error 1736 := by
  have key : (match crashRun (.ev .accept :: cutEvs .block) with
    | .error _ => false
    | .ok s =>
      (match getState s.mem s.mem.db.head with | .ok (none, _) => true | _ => false) &&
      dies (headState s) &&
      dies (step wE s (.tick 40000 false)) &&
      (match step wE s .restart with
        | .error _ => false
        | .ok s' =>
          (match getState s'.mem s'.mem.db.head with | .ok (none, _) => true | _ => false) &&
          dies (step wE s' (.tick 40000 false)))) = true := by decide +kernel
  have nr : ∀ s : Store, (match getState s.mem s.mem.db.head with
      | .ok (none, _) => true | _ => false) = true → ¬ HeadReadable s := by
    rintro s h ⟨st, m, hm⟩
    rw [hm] at h
    cases h
  have er : ∀ {α : Type} (r : P α), dies r = true → r = .error 1736 := by
    intro α r h
    cases r with
    | error e => rw [of_decide_eq_true h]
    | ok _ => cases h
  cases e : crashRun (.ev .accept :: cutEvs .block) with
  | error z => rw [e] at key; cases key
  | ok s =>
    rw [e] at key
    simp only [Bool.and_eq_true] at key
    obtain ⟨⟨⟨h1, h2⟩, h3⟩, h4⟩ := key
    refine ⟨wE, 0, wVals, wG, some [], _, s, world_of_list (by decide +kernel) (by decide +kernel),
      crashRun_reach e, nr s h1, er _ h2, er _ h3, ?_⟩
    cases e2 : step wE s .restart with
    | error z => rw [e2] at h4; cases h4
    | ok s' =>
      rw [e2] at h4
      simp only [Bool.and_eq_true] at h4
      exact ⟨s', rfl, nr s' h4.1, er _ h4.2⟩

/-- Non-vacuity of `C30_partial`: the same history with a crash at another point, after which the
justified checkpoint is already 1 although block 3 is not stored. -/
example : (match crashRun (cutEvs .justified) with
    | .error _ => false
    | .ok s => decide (s.mem.db.justified.slot = 1) && !hasState s.mem.db 4 &&
        hasState s.mem.db 2) = true ∧
    (∀ sb, CEvent.crash sb .block ∉ CEvent.ev .accept :: cutEvs .justified) ∧
    World wE 0 wVals [] wG (Known wE.H (State.fromGenesis wE.H 0 wVals) []
      ((CEvent.ev .accept :: cutEvs .justified).map CEvent.plain)) :=
  ⟨by decide +kernel, by intro sb h; simp [cutEvs] at h,
    world_of_list (by decide +kernel) (by decide +kernel)⟩

end Verif.Node
