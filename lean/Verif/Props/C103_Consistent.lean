import Verif.Props.C102_Late
import Verif.Props.C34_C35_C61_Checkpoints
import Verif.Props.C37_C62_Target
/-!
# C103: a validator that follows the protocol never contradicts itself
-/
namespace Verif.Node
open Verif Verif.Db Verif.Sync Verif.Buffers

section
variable {ι : Type} {X : Crypto} {H : Hash} {m : ι → Site} {t : Nat} {vals : List Validator} {s : Nat}
  {N : ι → VNode} {L : ι → List Signed}

/-- **C103, when messages are in time.** In a punctual network no validator ever signs two votes that
together are a Casper offence.
Missing: late messages, where it is false (`C103_late_false`). -/
theorem C103_punctual_partial (M : Manned X H m vals) (hv : 2 ≤ vals.length)
    (hv' : vals.length ≤ 2048) (h : Fleet X H m t vals s N L) (hL : AllClean H t vals L)
    (hs : s ≤ historicalRootsLimit) : Consistent L := by
  obtain ⟨j0, -⟩ := M.aggregates
  obtain ⟨root, anchor, f, top, A, V, -, -, hvotes⟩ := fleet_steady M
    (hL.world.resolve_right (fun h => h.false j0))
    hL.votes hv hv' h hs (fun i d h => ⟨i, h⟩) (fun i sb h => ⟨i, .inr ⟨sb, h, rfl⟩⟩)
  intro i j v d d' sig sig' h1 h2
  obtain ⟨k, -, rfl⟩ := hvotes _ _ _ _ h1
  obtain ⟨k', -, rfl⟩ := hvotes _ _ _ _ h2
  rintro (⟨h3, h4⟩ | ⟨h3, h4⟩ | ⟨h3, h4⟩) <;> simp only [lineVote] at h3 h4
  · rw [h3] at h4
    exact h4 rfl
  · omega
  · omega

end

section
variable {E : Env} {t : Nat} {vals : List Validator} {bs : List Block} {a0 : State}
  {body : Option (List AggAtt)} {root : Root} {anchor : State} {K : Header → Prop}

theorem Reach.unique {evs : List Event} {s s' : Store} (h : Reach E a0 body evs s)
    (h' : Reach E a0 body evs s') : s = s' := by
  induction h generalizing s' with
  | init hi =>
    cases h' with
    | init hi' => rw [hi] at hi'; exact Except.ok.inj hi'
  | step hr hs ih =>
    cases h' with
    | step hr' hs' =>
      rw [ih hr', hs'] at hs
      exact (Except.ok.inj hs).symm

/-- What a later store still has. -/
theorem reach_later (W : World E t vals bs a0 K) {evs : List Event} {s : Store}
    (h : Reach E a0 body evs s) : ∀ (later : List Event) {s' : Store},
    Reach E a0 body (later ++ evs) s' → (∀ ev ∈ later ++ evs, EventK E.H K ev) →
    ∃ root anchor ops ops', AnchorOk E.H (State.fromGenesis E.H t vals) K root anchor ∧
      NInv E t vals a0 body K root anchor NoX ops s ∧ Settled s ∧
      NInv E t vals a0 body K root anchor NoX ops' s' ∧ Settled s' ∧
      (∀ r st, stateOf root anchor ops r = some st → stateOf root anchor ops' r = some st) ∧
      (∀ r h, s.mem.db.headers.get? r = some h → s'.mem.db.headers.get? r = some h) ∧
      s.mem.db.justified.slot ≤ s'.mem.db.justified.slot
  | [], s', h', hk => by
    obtain rfl := h.unique h'
    obtain ⟨root, anchor, ops, A, I, S, -⟩ := reach_ninv W h hk
    exact ⟨root, anchor, ops, ops, A, I, S, I, S, fun _ _ h => h, fun _ _ h => h, Nat.le_refl _⟩
  | ev :: later, s', h', hk => by
    cases h' with
    | @step _ s1 _ _ hr hs =>
    obtain ⟨root, anchor, ops, ops', A, I, S, I', S', g1, g2, g3⟩ := reach_later W h later hr
      (fun e he => hk e (List.mem_cons_of_mem _ he))
    obtain ⟨s2, ops2, e, I2, x⟩ := I'.step W A ev (hk _ List.mem_cons_self)
    rw [e] at hs
    cases hs
    refine ⟨root, anchor, ops, ops2, A, I, S, I2, ?_, fun r st h => x.states _ _ (g1 _ _ h),
      fun r h hh => x.headers _ _ (g2 _ _ hh), ?_⟩
    · rcases x.keep with ⟨k1, k2⟩ | k
      · unfold Settled at *
        rw [k1, k2]
        exact S'.mono x.headers
      · exact k
    · rcases x.just with k | k
      · rw [k]; exact g3
      · omega

theorem NInv.just_mono {X : State → Prop} {ops : List Db.Op} {s : Store}
    (I : NInv E t vals a0 body K root anchor X ops s) {a b : Root}
    (h : HAnc s.mem.db.headers a b) : ∀ {sa sb : State}, stateOf root anchor ops a = some sa →
    stateOf root anchor ops b = some sb → sa.latestJustified.slot ≤ sb.latestJustified.slot := by
  induction h with
  | self _ => intro sa sb h1 h2; rw [h1] at h2; cases h2; exact Nat.le_refl _
  | @up b hd pd e1 e2 e3 h ih =>
    intro sa sb h1 h2
    by_cases hb : b = root
    · have : a = b := by
        subst hb
        exact HAnc.antisymm (.up e1 e2 e3 h) (I.tree.hanc _ _ h1)
      rw [this, h2] at h1
      cases h1
      exact Nat.le_refl _
    · obtain ⟨p, p1, -, -, b', p2⟩ := I.tree.parentOf _ _ h2 hb
      have := (I.tree.own _ _ h2).2
      rw [e1] at this
      cases this
      exact Nat.le_trans (ih h1 p1) (import_frame p2).just

end

/-- **C103, a node that stays on its branch.** Whatever happened to a node before, between and after:
of two votes it makes, the later of which is made on a head that is or descends from the head the
earlier was made on, the earlier surrounds the later or there is no offence. So there is none if the
target slot does not fall.
Missing: a change of branch, and a target slot that falls; in both cases it is false
(`C103_late_false`, `C103_one_chain_false`). -/
theorem C103_same_branch_partial {E : Env} {t : Nat} {vals : List Validator} {bs : List Block}
    {a0 : State} {body : Option (List AggAtt)} {evs later : List Event} {s1 s2 s1' s2' : Store}
    {k1 k2 : Nat} {d1 d2 : AttData}
    (W : World E t vals bs a0 (Known E.H (State.fromGenesis E.H t vals) bs (later ++ evs)))
    (h1 : Reach E a0 body evs s1) (h2 : Reach E a0 body (later ++ evs) s2)
    (v1 : produceAttestationData s1 k1 = .ok (d1, s1'))
    (v2 : produceAttestationData s2 k2 = .ok (d2, s2'))
    (branch : HAnc s2.mem.db.headers d1.head.root d2.head.root) :
    Slashable d1 d2 ↔ d1.source.slot < d2.source.slot ∧ d2.target.slot < d1.target.slot := by
  obtain ⟨root, anchor, ops, ops', A, I, S, I', S', g1, g2, g3⟩ := reach_later W h1 later h2
    eventK_known
  obtain ⟨sh, c, sc, w, a1, a2, -, -, a3, a4, a5, -⟩ := I.produce W S k1
  obtain ⟨sh', c', sc', w', b1, b2, -, -, b3, b4, b5, -⟩ := I'.produce W S' k2
  rw [v1] at a2
  rw [v2] at b2
  have a2 := congrArg Prod.fst (Except.ok.inj a2)
  have b2 := congrArg Prod.fst (Except.ok.inj b2)
  simp only at a2 b2
  subst a2
  subst b2
  simp only at branch
  have hsrc : sh.latestJustified.slot ≤ sh'.latestJustified.slot :=
    I'.just_mono branch (g1 _ _ a1) b1
  have e1 : (if sh.latestJustified.root = 0 then
      { sh.latestJustified with root := s1.mem.db.head } else sh.latestJustified).slot =
      sh.latestJustified.slot := by split <;> rfl
  have e2 : (if sh'.latestJustified.root = 0 then
      { sh'.latestJustified with root := s2.mem.db.head } else sh'.latestJustified).slot =
      sh'.latestJustified.slot := by split <;> rfl
  refine ⟨?_, fun h => .inr (.inl h)⟩
  rintro (⟨h3, h4⟩ | h | ⟨h3, h4⟩)
  · refine absurd ?_ h4
    have x1 : HAnc s2.mem.db.headers c.root s2.mem.db.head := (a5.mono g2).trans branch
    have y1 := slotOf_eq (I'.tree.own _ _ (g1 _ _ a3)).2
    have y2 := slotOf_eq (I'.tree.own _ _ b3).2
    rw [I'.tree.slotEq _ _ (g1 _ _ a3), a4] at y1
    rw [I'.tree.slotEq _ _ b3, b4] at y2
    simp only at h3
    show c.root = c'.root
    have h3 : slotOf s2.mem.db.headers c.root = slotOf s2.mem.db.headers c'.root := by
      rw [y1, y2]; exact h3
    exact HAnc.antisymm (x1.le_of_slot b5 (Nat.le_of_eq h3)) (b5.le_of_slot x1 (Nat.le_of_eq h3.symm))
  · exact h
  · simp only [e1, e2] at h3
    omega

/-- **C103, what holds of any two votes of a node.** The later vote is never for a target below the
source of the earlier one. -/
theorem C103_target_after_source {E : Env} {t : Nat} {vals : List Validator} {bs : List Block}
    {a0 : State} {body : Option (List AggAtt)} {evs later : List Event} {s1 s2 s1' s2' : Store}
    {k1 k2 : Nat} {d1 d2 : AttData}
    (W : World E t vals bs a0 (Known E.H (State.fromGenesis E.H t vals) bs (later ++ evs)))
    (h1 : Reach E a0 body evs s1) (h2 : Reach E a0 body (later ++ evs) s2)
    (v1 : produceAttestationData s1 k1 = .ok (d1, s1'))
    (v2 : produceAttestationData s2 k2 = .ok (d2, s2')) : d1.source.slot ≤ d2.target.slot := by
  obtain ⟨root, anchor, ops, ops', A, I, S, I', S', g1, g2, g3⟩ := reach_later W h1 later h2
    eventK_known
  obtain ⟨sh, c, sc, w, a1, a2, -⟩ := I.produce W S k1
  obtain ⟨sh', c', sc', w', -, b2, -, -, -, -, -, b6⟩ := I'.produce W S' k2
  rw [v1] at a2
  rw [v2] at b2
  have a2 := congrArg Prod.fst (Except.ok.inj a2)
  have b2 := congrArg Prod.fst (Except.ok.inj b2)
  simp only at a2 b2
  subst a2
  subst b2
  have := I.cp.justMax _ _ a1
  have e1 : (if sh.latestJustified.root = 0 then
      { sh.latestJustified with root := s1.mem.db.head } else sh.latestJustified).slot =
      sh.latestJustified.slot := by split <;> rfl
  simp only [e1]
  omega

theorem produced_ok {s : Store} {k : Nat} {d : AttData} (h : produced s k = some d) :
    ∃ s', produceAttestationData s k = .ok (d, s') := by
  unfold produced at h
  cases e : produceAttestationData s k with
  | error x => rw [e] at h; cases h
  | ok x =>
    rw [e] at h
    have h := Option.some.inj h
    exact ⟨x.2, by rw [← h]⟩

open Witness in
/-- Votes before and after a block that justifies and finalizes: blocks 1 to 3, then block 4 on top. -/
example : ∃ d1 d2, produced (after forkEvs.tail) 3 = some d1 ∧ produced (after forkEvs) 4 = some d2 ∧
    HAnc (after forkEvs).mem.db.headers d1.head.root d2.head.root ∧
    d1.source.slot < d2.source.slot ∧ d1.target.slot ≤ d2.target.slot ∧ ¬ Slashable d1 d2 := by
  have q1 : isOk (run forkEvs.tail) = true := by decide +kernel
  have q2 : isOk (run forkEvs) = true := by decide +kernel
  have q : ∃ d1, produced (after forkEvs.tail) 3 = some d1 := by
    rw [← Option.isSome_iff_exists]; decide +kernel
  have q' : ∃ d2, produced (after forkEvs) 4 = some d2 := by
    rw [← Option.isSome_iff_exists]; decide +kernel
  obtain ⟨d1, hd1⟩ := q
  obtain ⟨d2, hd2⟩ := q'
  have z1 : (produced (after forkEvs.tail) 3).map (fun d => (d.head.root, d.source.slot, d.target.slot)) =
    some (4, 1, 1) := by decide +kernel
  have z2 : (produced (after forkEvs) 4).map (fun d => (d.head.root, d.source.slot, d.target.slot)) =
    some (5, 2, 2) := by decide +kernel
  rw [hd1] at z1
  rw [hd2] at z2
  simp only [Option.map_some, Option.some.injEq, Prod.mk.injEq] at z1 z2
  have hb : HAnc (after forkEvs).mem.db.headers d1.head.root d2.head.root := by
    rw [z1.1, z2.1]
    exact .up (hd := (mkBlock 4 3 [vote [true, true, true] 1 2]).header Verif.Witness.wH)
      (pd := (mkBlock 3 2 []).header Verif.Witness.wH) (by decide +kernel) (by decide +kernel)
      (by decide +kernel) (.self (hd := (mkBlock 3 2 []).header Verif.Witness.wH) (by decide +kernel))
  refine ⟨d1, d2, hd1, hd2, hb, by omega, by omega, fun h => ?_⟩
  obtain ⟨s1, p1⟩ := produced_ok hd1
  obtain ⟨s2, p2⟩ := produced_ok hd2
  have := (C103_same_branch_partial (later := [forkEvs.head (by decide)])
    (world_of_list (evs := forkEvs) (by decide +kernel) (by decide +kernel))
    (reach_after q1) (reach_after q2) p1 p2 hb).1 h
  omega

namespace LateRun
open Desc

/-- Every block arrives in its slot, most votes and all aggregates are lost. -/
def lossPlan (k : Nat) (i : Fin 3) : List Desc :=
  (if k % 5 = 0 then [block (k / 5)] else []) ++
  match k / 5, k % 5, i.val with
  | 5, 1, 0 => [vote 1 5]
  | 6, 1, 1 => [vote 2 6]
  | _, _, _ => []

/-- Two votes of validator 0 (node 0): one surrounds the other. -/
def surround (l : List Signed) : Bool :=
  l.any (fun x => l.any (fun y =>
    match x, y with
    | .vote v d _, .vote v' d' _ => decide (v = v' ∧ d.source.slot < d'.source.slot ∧
        d'.target.slot < d.target.slot)
    | _, _ => false))

theorem surround_sound {l : List Signed} (h : surround l = true) :
    ∃ v d d' sig sig', Signed.vote v d sig ∈ l ∧ Signed.vote v d' sig' ∈ l ∧ Slashable d d' := by
  unfold surround at h
  obtain ⟨x, hx, h⟩ := List.any_eq_true.1 h
  obtain ⟨y, hy, h⟩ := List.any_eq_true.1 h
  cases x with
  | block => cases h
  | vote v d sig =>
  cases y with
  | block => cases h
  | vote v' d' sig' =>
  obtain ⟨rfl, h1, h2⟩ := of_decide_eq_true h
  exact ⟨v, d, d', sig, sig', hx, hy, .inr (.inl ⟨h1, h2⟩)⟩

/-- All headers are ancestors of one another. -/
def inLine (S : Net) : Bool :=
  let l := S.links
  l.all (fun a => l.all (fun b => (ancestors l l.length a.1).contains b.1 ||
    (ancestors l l.length b.1).contains a.1))

theorem inLine_sound {S : Net} (h : inLine S = true) :
    OneChain lateHash (State.fromGenesis lateHash 0 Verif.Witness.wVals) S.signed.get := by
  intro i j a b ha hb
  unfold inLine at h
  have ha : (lateHash.header a, a.parentRoot) ∈ S.links := List.mem_map.2 ⟨_, made_mem ha, rfl⟩
  have hb : (lateHash.header b, b.parentRoot) ∈ S.links := List.mem_map.2 ⟨_, made_mem hb, rfl⟩
  have := List.all_eq_true.1 (List.all_eq_true.1 h _ ha) _ hb
  rcases Bool.or_eq_true_iff.1 this with h | h
  · exact .inr (ancestors_sound (List.contains_iff_mem.1 h))
  · exact .inl (ancestors_sound (List.contains_iff_mem.1 h))

set_option maxRecDepth 100000 in
theorem lossPlan_surrounds :
    (match run (fun _ => true) lossPlan 40 with
      | .ok S => surround S.signed.a && inLine S | .error _ => false) = true := by decide +kernel

set_option maxRecDepth 100000 in
theorem forkPlan_surrounds :
    (match run (fun i => decide (i ≠ 0)) forkPlan 61 with
      | .ok S => surround S.signed.a | .error _ => false) = true := by decide +kernel

end LateRun

open LateRun Verif.Witness in
/-- **C103 is false,** even if every block arrives in time and there are no forks: three nodes with a
validator each follow the protocol, some votes and aggregates are lost, and after 8 slots a validator
has signed a vote and another one that surrounds it. -/
theorem C103_one_chain_false :
    ∃ (X : Crypto) (H : Hash) (m : Fin 3 → Site) (vals : List Validator) (N : Fin 3 → VNode)
      (L : Fin 3 → List Signed) (O : Fin 3 → List (AttData × Agg)),
      vals.length = 3 ∧ Manned X H m vals ∧ Ideal H ∧ Late X H m 0 vals 40 N L O ∧
      OneChain H (State.fromGenesis H 0 vals) L ∧ ¬ Consistent L := by
  obtain ⟨S, h, hp⟩ := run_check (p := fun S => surround S.signed.a && inLine S) lossPlan_surrounds
  rw [Bool.and_eq_true] at hp
  refine ⟨_, _, _, _, _, _, _, rfl, site_manned ⟨1, rfl⟩, lateHash_ideal, run_late h,
    inLine_sound hp.2, fun hC => ?_⟩
  obtain ⟨v, d, d', sig, sig', h1, h2, h3⟩ := surround_sound hp.1
  exact hC 0 0 v d d' sig sig' h1 h2 h3

open LateRun Verif.Witness in
/-- **C103 is false after a change of branch:** in the run of `C102_late_false` a validator has signed
such votes before slot 13. -/
theorem C103_late_false :
    ∃ (X : Crypto) (H : Hash) (m : Fin 3 → Site) (vals : List Validator) (N : Fin 3 → VNode)
      (L : Fin 3 → List Signed) (O : Fin 3 → List (AttData × Agg)),
      vals.length = 3 ∧ Manned X H m vals ∧ Ideal H ∧ Late X H m 0 vals 61 N L O ∧ ¬ Consistent L := by
  obtain ⟨S, h, hp⟩ := run_check (p := fun S => surround S.signed.a) forkPlan_surrounds
  refine ⟨_, _, _, _, _, _, _, rfl, site_manned ⟨1, rfl⟩, lateHash_ideal, run_late h, fun hC => ?_⟩
  obtain ⟨v, d, d', sig, sig', h1, h2, h3⟩ := surround_sound hp
  exact hC 0 0 v d d' sig sig' h1 h2 h3

end Verif.Node
