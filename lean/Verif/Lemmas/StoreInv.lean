import Verif.Lemmas.StoreTree
import Verif.Props.C14_C17_ForkChoice
import Verif.Props.C20_C21_Payloads
import Verif.Props.C28_Index
import Verif.Lemmas.Gossip
/-!
# The node invariant
-/
namespace Verif.Node
open Verif Verif.Db Verif.Buffers

/-- Checkpoints, head and live chain against the imported blocks. `X` are
post-states that were computed but not stored. -/
structure CInv (root : Root) (anchor : State) (G : Root → Option State) (X : State → Prop)
    (db : Db) : Prop where
  live : ∀ n r p, ((n, r), p) ∈ db.liveChain →
    ∃ st, G r = some st ∧ st.slot = n ∧ st.latestBlockHeader.parentRoot = p
  liveFull : ∀ r st, G r = some st → db.justified.slot ≤ st.slot →
    ((st.slot, r), st.latestBlockHeader.parentRoot) ∈ db.liveChain
  just : ∃ st, G db.justified.root = some st ∧ st.slot = db.justified.slot
  justMax : ∀ r st, G r = some st → st.latestJustified.slot ≤ db.justified.slot
  justOf : db.justified = ⟨root, anchor.slot⟩ ∨
    ∃ st, (X st ∨ ∃ r, G r = some st) ∧ st.latestJustified = db.justified
  fin : ∃ st, G db.finalized.root = some st ∧ st.slot = db.finalized.slot
  finLe : db.finalized.slot ≤ db.justified.slot
  head : ∃ st, G db.head = some st
  safe : ∃ st, G db.safeTarget = some st
  finHead : ∀ st, G db.head = some st → (db.headers.get? st.latestFinalized.root).isSome →
    db.finalized = st.latestFinalized
  finOf : db.finalized = ⟨root, anchor.slot⟩ ∨
    ∃ r st, G r = some st ∧ st.latestFinalized = db.finalized

/-- No post-states on the way. -/
def NoX : State → Prop := fun _ => False

/-- One more post-state on the way. -/
def Plus (X : State → Prop) (st : State) : State → Prop := fun x => x = st ∨ X x

/-- The buffers are consistent. -/
structure BInv (H : Hash) (s : Store) : Prop where
  new : Good H 64 s.newP
  known : Good H 512 s.knownP
  gossip : GInv H s.gossip
  gossipBound : s.gossip.total ≤ s.gossip.capacity

/-- Everything the node keeps true, relative to the storage calls `ops` made so far. -/
structure NInv (E : Env) (t : Nat) (vals : List Validator) (a0 : State)
    (body : Option (List AggAtt)) (K : Header → Prop) (root : Root) (anchor : State)
    (X : State → Prop) (ops : List Db.Op) (s : Store) : Prop where
  run : Db.Run E.H a0 body root anchor ops s.mem
  opsK : ∀ h, seen E.H anchor ops h → K h
  tree : TInv E.H (State.fromGenesis E.H t vals) root anchor (stateOf root anchor ops)
    s.mem.db.headers
  cp : CInv root anchor (stateOf root anchor ops) X s.mem.db
  buf : BInv E.H s

/-! ## Live chain -/

theorem mem_insert_of_ne {κ α : Type} [DecidableEq κ] {m : AMap κ α} {k : κ} {v : α} {e : κ × α}
    (h : e ∈ m) (hne : e.1 ≠ k) : e ∈ m.insert k v := by
  induction m with
  | nil => cases h
  | cons x m ih =>
    obtain ⟨k', v'⟩ := x
    unfold AMap.insert
    split
    next e' =>
      rcases List.mem_cons.1 h with h | h
      · rw [h] at hne; exact absurd e' hne
      · exact List.mem_cons_of_mem _ h
    · rcases List.mem_cons.1 h with h | h
      · rw [h]; exact List.mem_cons_self
      · exact List.mem_cons_of_mem _ (ih h)

theorem mem_insert_imp {κ α : Type} [DecidableEq κ] {m : AMap κ α} {k : κ} {v : α} {e : κ × α}
    (h : e ∈ m.insert k v) : e = (k, v) ∨ e ∈ m := by
  induction m with
  | nil => simp [AMap.insert] at h; exact .inl h
  | cons x m ih =>
    obtain ⟨k', v'⟩ := x
    unfold AMap.insert at h
    split at h
    · rcases List.mem_cons.1 h with h | h
      · exact .inl h
      · exact .inr (List.mem_cons_of_mem _ h)
    · rcases List.mem_cons.1 h with h | h
      · rw [h]; exact .inr List.mem_cons_self
      · rcases ih h with h | h
        · exact .inl h
        · exact .inr (List.mem_cons_of_mem _ h)

theorem mem_insert_self {κ α : Type} [DecidableEq κ] (m : AMap κ α) (k : κ) (v : α) :
    (k, v) ∈ m.insert k v := AMap.mem_of_get? (AMap.get?_insert_self m k v)

/-- Folding the live chain into a map keyed by root. -/
theorem getLive_spec (lc : AMap (Nat × Root) Root) (f : Root → Nat × Root)
    (hf : ∀ n r p, ((n, r), p) ∈ lc → (n, p) = f r) :
    ∀ acc : AMap Root (Nat × Root), acc.keys.Nodup → (∀ r v, acc.get? r = some v → v = f r) →
    let m := lc.foldl (fun m e => m.insert e.1.2 (e.1.1, e.2)) acc
    m.keys.Nodup ∧ ∀ r v, m.get? r = some v ↔
      v = f r ∧ (acc.get? r = some v ∨ ((v.1, r), v.2) ∈ lc) := by
  induction lc with
  | nil =>
    intro acc hn ha
    refine ⟨hn, fun r v => ?_⟩
    simp only [List.foldl_nil, List.not_mem_nil, or_false]
    exact ⟨fun h => ⟨ha r v h, h⟩, fun h => h.2⟩
  | cons e lc ih =>
    intro acc hn ha
    obtain ⟨⟨n, r0⟩, p⟩ := e
    have he := hf n r0 p List.mem_cons_self
    have ih := ih (fun n r p h => hf n r p (List.mem_cons_of_mem _ h)) (acc.insert r0 (n, p))
      (AMap.nodup_insert hn _ _) (by
        intro r v h
        rw [AMap.get?_insert] at h
        split at h
        next e => cases h; rw [← e]; exact he
        · exact ha r v h)
    refine ⟨ih.1, fun r v => ?_⟩
    have := ih.2 r v
    simp only [List.foldl_cons]
    rw [this, AMap.get?_insert]
    constructor
    · rintro ⟨h1, h2⟩
      refine ⟨h1, ?_⟩
      rcases h2 with h2 | h2
      · split at h2
        next e => cases h2; subst e; exact .inr List.mem_cons_self
        · exact .inl h2
      · exact .inr (List.mem_cons_of_mem _ h2)
    · rintro ⟨h1, h2⟩
      refine ⟨h1, ?_⟩
      by_cases hr : r0 = r
      · left; rw [if_pos hr, he, h1, hr]
      · rw [if_neg hr]
        rcases h2 with h2 | h2
        · exact .inl h2
        · rcases List.mem_cons.1 h2 with h2 | h2
          · cases h2; exact absurd rfl hr
          · exact .inr h2

variable {E : Env} {t : Nat} {vals : List Validator} {bs : List Block} {a0 : State}
  {body : Option (List AggAtt)} {K : Header → Prop} {root : Root} {anchor : State}
  {X : State → Prop} {ops : List Db.Op} {s : Store}

theorem CInv.getLive {G : Root → Option State} {db : Db} (C : CInv root anchor G X db) :
    (getLiveChain db).keys.Nodup ∧ ∀ r n p, (getLiveChain db).get? r = some (n, p) ↔
      ((n, r), p) ∈ db.liveChain := by
  have key := getLive_spec db.liveChain (fun r => match G r with
    | some st => (st.slot, st.latestBlockHeader.parentRoot)
    | none => (0, 0)) (by
      intro n r p h
      obtain ⟨st, h1, h2, h3⟩ := C.live n r p h
      simp only [h1, h2, h3]) [] (by simp [AMap.keys]) (by intro r v h; cases h)
  refine ⟨key.1, fun r n p => ?_⟩
  have := key.2 r (n, p)
  unfold getLiveChain
  rw [this]
  constructor
  · rintro ⟨-, h | h⟩
    · cases h
    · exact h
  · intro h
    obtain ⟨st, h1, h2, h3⟩ := C.live n r p h
    refine ⟨?_, .inr h⟩
    simp only [h1, h2, h3]

theorem NInv.collisionFree (W : World E t vals bs a0 K)
    (I : NInv E t vals a0 body K root anchor X ops s) : CollisionFree E.H anchor ops :=
  fun a b ha hb => W.collisionFree a b (I.opsK a ha) (I.opsK b hb)

theorem NInv.inv (W : World E t vals bs a0 K) (I : NInv E t vals a0 body K root anchor X ops s) :
    RunInv E.H root anchor ops s.mem := run_inv I.run (I.collisionFree W)

theorem NInv.hdrK (W : World E t vals bs a0 K) (I : NInv E t vals a0 body K root anchor X ops s)
    (r : Root) (h : Header) (e : s.mem.db.headers.get? r = some h) :
    K h ∧ E.H.header h = r :=
  ⟨I.opsK h ((I.inv W).seen r h e), (I.inv W).repr.hdr r h e⟩

/-- An ancestor has no larger rank. -/
theorem rank_le {rank : Root → Nat} {hs : AMap Root Header}
    (hr : ∀ r h, hs.get? r = some h → rank h.parentRoot < rank r) {a b : Root}
    (h : HAnc hs a b) : rank a ≤ rank b := by
  induction h with
  | self _ => exact Nat.le_refl _
  | up e1 _ _ _ ih => have := hr _ _ e1; omega

theorem NInv.rank (W : World E t vals bs a0 K) (I : NInv E t vals a0 body K root anchor X ops s) :
    ∃ rank : Root → Nat, ∀ r h, s.mem.db.headers.get? r = some h → rank h.parentRoot < rank r := by
  obtain ⟨rank, hr⟩ := W.acyclic
  refine ⟨rank, fun r h e => ?_⟩
  obtain ⟨h1, h2⟩ := I.hdrK W r h e
  rw [← h2]
  exact hr h h1

/-- The live chain is a well-formed block map. -/
theorem NInv.wf (W : World E t vals bs a0 K) (I : NInv E t vals a0 body K root anchor X ops s) :
    ForkChoice.WF (getLiveChain s.mem.db) := by
  obtain ⟨h1, h2⟩ := I.cp.getLive
  refine ⟨h1, ?_⟩
  intro r n p n' p' e1 e2
  obtain ⟨st, a1, a2, a3⟩ := I.cp.live _ _ _ ((h2 _ _ _).1 e1)
  obtain ⟨sp, b1, b2, b3⟩ := I.cp.live _ _ _ ((h2 _ _ _).1 e2)
  by_cases hr : r = root
  · exfalso
    obtain ⟨rank, hrk⟩ := I.rank W
    have hl := rank_le hrk (I.tree.hanc _ _ b1)
    have hlt := hrk _ _ (I.tree.own _ _ a1).2
    rw [a3, hr] at hlt
    omega
  · obtain ⟨q, c1, c2, -⟩ := I.tree.parentOf _ _ a1 hr
    rw [a3, b1] at c1
    cases c1
    omega

/-- Fork choice from the justified root stays inside the imported blocks. -/
theorem NInv.ghost (W : World E t vals bs a0 K) (I : NInv E t vals a0 body K root anchor X ops s)
    (votes : AMap Nat AttData) (minScore : Nat) :
    ∃ st, stateOf root anchor ops (ForkChoice.computeLmdGhostHead s.mem.db.justified.root
      (getLiveChain s.mem.db) votes minScore).1 = some st ∧
      HAnc s.mem.db.headers s.mem.db.justified.root
        (ForkChoice.computeLmdGhostHead s.mem.db.justified.root
          (getLiveChain s.mem.db) votes minScore).1 := by
  obtain ⟨h1, h2⟩ := I.cp.getLive
  obtain ⟨sj, j1, j2⟩ := I.cp.just
  have hmem := I.cp.liveFull _ _ j1 (by omega)
  have h0 : s.mem.db.justified.root ≠ 0 := by
    rw [← (I.tree.own _ _ j1).1]; exact W.headerNZ _
  have hd := ForkChoice.C15_head_descends (I.wf W) h0 ((h2 _ _ _).2 hmem) votes minScore
  generalize (ForkChoice.computeLmdGhostHead s.mem.db.justified.root
      (getLiveChain s.mem.db) votes minScore).1 = x at hd
  have main : ∀ y, ForkChoice.Anc (getLiveChain s.mem.db) s.mem.db.justified.root y →
      HAnc s.mem.db.headers s.mem.db.justified.root y := by
    intro y hy
    induction hy with
    | self hg => exact .self (I.tree.own _ _ j1).2
    | @up z n p hg ha ih =>
      obtain ⟨st, a1, a2, a3⟩ := I.cp.live _ _ _ ((h2 _ _ _).1 hg)
      by_cases hz : z = root
      · exfalso
        obtain ⟨rank, hrk⟩ := I.rank W
        have e1 := rank_le hrk ih
        have e2 := rank_le hrk (I.tree.hanc _ _ j1)
        have e3 := hrk _ _ (I.tree.own _ _ a1).2
        rw [a3, hz] at e3
        omega
      · obtain ⟨q, c1, c2, -⟩ := I.tree.parentOf _ _ a1 hz
        rw [a3] at c1
        refine .up (I.tree.own _ _ a1).2 (pd := q.latestBlockHeader) ?_ ?_ ?_
        · rw [a3]; exact (I.tree.own _ _ c1).2
        · rw [I.tree.slotEq _ _ c1, I.tree.slotEq _ _ a1]; exact c2
        · rw [a3]; exact ih
  have : ∃ n p, (getLiveChain s.mem.db).get? x = some (n, p) := by
    cases hd with
    | self hg => exact ⟨_, _, hg⟩
    | up hg _ => exact ⟨_, _, hg⟩
  obtain ⟨n, p, hx⟩ := this
  obtain ⟨st, a1, -⟩ := I.cp.live _ _ _ ((h2 _ _ _).1 hx)
  exact ⟨st, a1, main x hd⟩

/-! ## Elementary steps -/

/-- A storage call that stores no block. -/
def Quiet : Db.Op → Prop
  | .insertPending _ => False
  | .insertSigned _ => False
  | .insertState _ _ => False
  | _ => True

theorem stateOf_quiet {op : Db.Op} (h : Quiet op) :
    stateOf root anchor (op :: ops) = stateOf root anchor ops := by
  cases op <;> first | rfl | exact h.elim

theorem seen_quiet {H : Hash} {op : Db.Op} (h : Quiet op) {hd : Header}
    (hs : seen H anchor (op :: ops) hd) : seen H anchor ops hd := by
  rcases hs with rfl | ⟨sb, h1 | h1, e⟩
  · exact .inl rfl
  · rcases List.mem_cons.1 h1 with h1 | h1
    · subst h1; exact h.elim
    · exact .inr ⟨sb, .inl h1, e⟩
  · rcases List.mem_cons.1 h1 with h1 | h1
    · subst h1; exact h.elim
    · exact .inr ⟨sb, .inr h1, e⟩

theorem NInv.quiet (I : NInv E t vals a0 body K root anchor X ops s) {op : Db.Op} (hq : Quiet op)
    {s' : Store} (ha : Allowed E.H root anchor ops s.mem op)
    (hs : Db.step E.H s.mem op = .ok s'.mem) (hh : s'.mem.db.headers = s.mem.db.headers)
    (hc : CInv root anchor (stateOf root anchor ops) X s'.mem.db) (hb : BInv E.H s') :
    NInv E t vals a0 body K root anchor X (op :: ops) s' := by
  refine ⟨I.run.step ha hs, fun h hh => I.opsK h (seen_quiet hq hh), ?_, ?_, hb⟩
  · rw [stateOf_quiet hq, hh]; exact I.tree
  · rw [stateOf_quiet hq]; exact hc

/-- Reading a state. -/
theorem NInv.getState (W : World E t vals bs a0 K)
    (I : NInv E t vals a0 body K root anchor X ops s) (r : Root) :
    ∃ s', s.getState r = .ok (stateOf root anchor ops r, s') ∧ s'.mem.db = s.mem.db ∧
      s'.fc = s.fc ∧ NInv E t vals a0 body K root anchor X (.readState r :: ops) s' := by
  obtain ⟨c, hg, -⟩ := getState_repr (I.inv W).repr r
  refine ⟨{ s with mem := { s.mem with cache := c } }, ?_, rfl, rfl, ?_⟩
  · unfold Store.getState; rw [hg]
  · refine I.quiet (by exact trivial) (by exact trivial) ?_ rfl I.cp ⟨I.buf.new, I.buf.known, I.buf.gossip,
      I.buf.gossipBound⟩
    show (match Db.getState s.mem r with | .error e => .error e | .ok (_, m) => .ok m : P Mem) = _
    rw [hg]

theorem updateCheckpoints_live {db db' : Db} {h : Root} {j f : Option Checkpoint}
    (e : updateCheckpoints db h j f = .ok db') :
    db'.liveChain = db.liveChain ∨
      ∃ c, f = some c ∧ db'.liveChain = pruneLive db.liveChain c.slot := by
  unfold updateCheckpoints at e
  split at e
  · cases e
  · cases e
  · simp only at e
    split at e
    · split at e
      · cases e; exact .inr ⟨_, rfl, rfl⟩
      · cases e; exact .inl rfl
    · cases e; exact .inl rfl

theorem good_prune {H : Hash} {c : Nat} {b : PayloadBuffer} (h : Good H c b) (f : Nat) :
    ∃ b' n, b.prune f = some (b', n) ∧ Good H c b' := by
  obtain ⟨b', n, h1, h2, h3, h4, -⟩ := prune_spec PEntry.size (POk H)
    (fun e => decide (e.data.target.slot > f)) b h.inv
  exact ⟨b', n, h1, h2, by have := h.bound; omega, h4.trans h.cap⟩

theorem BInv.prune {H : Hash} (B : BInv H s) (f : Nat) :
    ∃ s', pruneBuffers s f = .ok s' ∧ BInv H s' ∧ s'.mem = s.mem := by
  obtain ⟨n, k1, e1, g1⟩ := good_prune B.new f
  obtain ⟨k, k2, e2, g2⟩ := good_prune B.known f
  obtain ⟨g, k3, e3, g3, g4, g5, -⟩ := prune_spec GEntry.size (GOk H)
    (fun e => decide (e.data.slot > f)) s.gossip B.gossip
  have e3 : s.gossip.prune f = some (g, k3) := e3
  refine ⟨{ s with gossip := g, newP := n, knownP := k }, ?_, ⟨g1, g2, g3, ?_⟩, rfl⟩
  · unfold pruneBuffers
    rw [e1, e2, e3]
  · show g.total ≤ g.capacity
    have := B.gossipBound
    omega

/-- Moving the head to an imported block, with a higher justified checkpoint or a finalized one. -/
theorem NInv.setCheckpoints (W : World E t vals bs a0 K)
    (I : NInv E t vals a0 body K root anchor X ops s) {Y : State → Prop} {r : Root}
    {j f : Option Checkpoint}
    (hr : ∃ st, stateOf root anchor ops r = some st)
    (hj : ∀ c, j = some c → s.mem.db.justified.slot < c.slot ∧
      (∃ st, stateOf root anchor ops c.root = some st ∧ st.slot = c.slot) ∧
      ∃ st, Y st ∧ st.latestJustified = c)
    (hY : j = none → Y = X)
    (hf : ∀ c, f = some c → (∃ st, stateOf root anchor ops c.root = some st ∧ st.slot = c.slot) ∧
      c.slot ≤ s.mem.db.justified.slot ∧
      ∃ x st, stateOf root anchor ops x = some st ∧ st.latestFinalized = c)
    (hF : ∀ st, stateOf root anchor ops r = some st →
      (s.mem.db.headers.get? st.latestFinalized.root).isSome →
      f.getD s.mem.db.finalized = st.latestFinalized) :
    ∃ s', setCheckpoints s r j f = .ok s' ∧
      NInv E t vals a0 body K root anchor Y (.updateCheckpoints r j f :: ops) s' ∧
      s'.mem.db.headers = s.mem.db.headers ∧ s'.mem.db.head = r ∧
      s'.mem.db.justified = j.getD s.mem.db.justified ∧
      s'.mem.db.finalized = f.getD s.mem.db.finalized ∧ s'.fc = s.fc := by
  obtain ⟨sr, hr⟩ := hr
  have ha := I.tree.hanc _ _ hr
  obtain ⟨m', hm, -⟩ := C28_update_succeeds I.run (I.collisionFree W) (j := j) (f := f) ha
  have hu : ∃ db', updateCheckpoints s.mem.db r j f = .ok db' := by
    have hm : (match updateCheckpoints s.mem.db r j f with
      | .error e => .error e | .ok db => .ok { s.mem with db := db } : P Mem) = .ok m' := hm
    split at hm
    · cases hm
    next db' e => exact ⟨db', e⟩
  obtain ⟨db', hu⟩ := hu
  have hfr := updateCheckpoints_frame hu
  have htm := updateCheckpoints_time hu
  obtain ⟨f1, f2, f3, f4, f5, f6, f7, f8⟩ := hfr
  have hjge : s.mem.db.justified.slot ≤ db'.justified.slot := by
    rw [f7]
    cases j with
    | none => exact Nat.le_refl _
    | some c => exact Nat.le_of_lt (hj c rfl).1
  have hC : CInv root anchor (stateOf root anchor ops) Y db' := by
    refine ⟨?_, ?_, ?_, ?_, ?_, ?_, ?_, ?_, ?_, ?_, ?_⟩
    · intro n x p h
      refine I.cp.live n x p ?_
      rcases updateCheckpoints_live hu with e | ⟨c, -, e⟩
      · rw [← e]; exact h
      · rw [e] at h; exact (List.mem_filter.1 h).1
    · intro x st hx hle
      have hm := I.cp.liveFull x st hx (by omega)
      rcases updateCheckpoints_live hu with e | ⟨c, hc, e⟩
      · rw [e]; exact hm
      · rw [e]
        refine List.mem_filter.2 ⟨hm, ?_⟩
        have := (hf c hc).2.1
        simp only [decide_eq_true_eq]
        omega
    · rw [f7]
      cases j with
      | none => exact I.cp.just
      | some c => exact (hj c rfl).2.1
    · intro x st hx
      exact Nat.le_trans (I.cp.justMax x st hx) hjge
    · rw [f7]
      cases j with
      | none => rw [hY rfl]; exact I.cp.justOf
      | some c =>
        obtain ⟨st, h1, h2⟩ := (hj c rfl).2.2
        exact .inr ⟨st, .inl h1, h2⟩
    · rw [f8]
      cases f with
      | none => exact I.cp.fin
      | some c => exact (hf c rfl).1
    · rw [f8]
      cases f with
      | none => exact Nat.le_trans I.cp.finLe hjge
      | some c => exact Nat.le_trans (hf c rfl).2.1 hjge
    · rw [f6]; exact ⟨sr, hr⟩
    · rw [htm.2]; exact I.cp.safe
    · rw [f6, f8, f1]; exact hF
    · rw [f8]
      cases f with
      | none => exact I.cp.finOf
      | some c => exact .inr (hf c rfl).2.2
  have hstep : Db.step E.H s.mem (.updateCheckpoints r j f) = .ok { s.mem with db := db' } := by
    show (match updateCheckpoints s.mem.db r j f with
      | .error e => .error e | .ok db => .ok { s.mem with db := db } : P Mem) = _
    rw [hu]
  have pack : ∀ s' : Store, s'.mem = { s.mem with db := db' } → BInv E.H s' →
      NInv E t vals a0 body K root anchor Y (.updateCheckpoints r j f :: ops) s' := by
    intro s' e B
    refine ⟨I.run.step ha (by rw [e]; exact hstep), fun h hh => I.opsK h (seen_quiet (by exact trivial) hh),
      ?_, ?_, B⟩
    · rw [stateOf_quiet (by exact trivial), e]
      show TInv _ _ _ _ _ db'.headers
      rw [f1]; exact I.tree
    · rw [stateOf_quiet (by exact trivial), e]; exact hC
  unfold Node.setCheckpoints
  rw [hu]
  simp only
  have B1 : BInv E.H { s with mem := { s.mem with db := db' } } :=
    ⟨I.buf.new, I.buf.known, I.buf.gossip, I.buf.gossipBound⟩
  cases f with
  | none => exact ⟨_, rfl, pack _ rfl B1, f1, f6, f7, f8, rfl⟩
  | some c =>
    simp only
    by_cases hc : c.slot > s.mem.db.finalized.slot
    · rw [if_pos hc]
      obtain ⟨s', e1, e2, e3⟩ := B1.prune c.slot
      refine ⟨s', e1, pack _ e3 e2, ?_, ?_, ?_, ?_, (pruneBuffers_frame e1).2.1⟩ <;> rw [e3]
      · exact f1
      · exact f6
      · exact f7
      · exact f8
    · rw [if_neg hc]
      exact ⟨_, rfl, pack _ rfl B1, f1, f6, f7, f8, rfl⟩

/-- `update_head` succeeds and keeps the invariant. The new head descends from the justified block;
the finalized checkpoint becomes the head state's if that block is known. -/
theorem NInv.updateHead (W : World E t vals bs a0 K)
    (A : AnchorOk E.H (State.fromGenesis E.H t vals) K root anchor)
    (I : NInv E t vals a0 body K root anchor X ops s) :
    ∃ s' ops', updateHead s = .ok s' ∧ NInv E t vals a0 body K root anchor X ops' s' ∧
      stateOf root anchor ops' = stateOf root anchor ops ∧
      s'.mem.db.headers = s.mem.db.headers ∧ s'.mem.db.justified = s.mem.db.justified ∧
      HAnc s'.mem.db.headers s'.mem.db.justified.root s'.mem.db.head ∧
      (∃ st, stateOf root anchor ops s'.mem.db.head = some st ∧
        s'.mem.db.finalized = (if (s.header st.latestFinalized.root).isSome
          then st.latestFinalized else s.mem.db.finalized)) := by
  obtain ⟨st, h1, hanc⟩ := I.ghost W (Votes.headVotes s.fc) 0
  obtain ⟨s1, g1, g2, -, I1⟩ := I.getState W (ghostHead s)
  have hst : stateOf root anchor ops (ghostHead s) = some st := h1
  rw [hst] at g1
  have q := stateOf_quiet (root := root) (anchor := anchor) (ops := ops)
    (op := .readState (ghostHead s)) trivial
  have hf : ∀ c, (if (s.header st.latestFinalized.root).isSome then some st.latestFinalized
      else none) = some c →
      (∃ sx, stateOf root anchor (.readState (ghostHead s) :: ops) c.root = some sx ∧
        sx.slot = c.slot) ∧ c.slot ≤ s1.mem.db.justified.slot ∧
      ∃ x st, stateOf root anchor (.readState (ghostHead s) :: ops) x = some st ∧
        st.latestFinalized = c := by
    intro c hc
    split at hc
    next hh =>
      cases hc
      obtain ⟨-, a2, a3⟩ := I.tree.finalized A rfl W.headerNZ (I.hdrK W) W.collisionFree hst hh
      have := I.cp.justMax _ _ hst
      rw [g2, q]
      exact ⟨a2, by omega, _, st, hst, rfl⟩
    · cases hc
  obtain ⟨s', e1, I', e2, e3, e4, e5, -⟩ := I1.setCheckpoints W (Y := X) (r := ghostHead s)
    (j := none) (by rw [q]; exact ⟨st, hst⟩) (fun c hc => by cases hc) (fun _ => rfl) hf
    (by
      intro x hx hk
      rw [q, hst] at hx
      cases hx
      rw [g2] at hk
      have hk : (s.header st.latestFinalized.root).isSome := hk
      rw [if_pos hk]; rfl)
  refine ⟨s', _, ?_, I', ?_, ?_, ?_, ?_, st, ?_, ?_⟩
  · unfold Node.updateHead
    simp only
    rw [g1]
    simp only
    have : ∀ x, s1.header x = s.header x := by intro x; unfold Store.header; rw [g2]
    rw [this]
    exact e1
  · rw [stateOf_quiet (by exact trivial), stateOf_quiet (by exact trivial)]
  · rw [e2, g2]
  · rw [e4, g2]; rfl
  · rw [e2, e3, e4, g2]; exact hanc
  · rw [e3]; exact hst
  · rw [e5, g2]
    split <;> rfl

end Verif.Node
