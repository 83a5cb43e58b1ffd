import Verif.Props.C37_C62_Target
import Verif.Lemmas.Verified
import Verif.Lemmas.Held
import Verif.Lemmas.Bounds
/-!
# A store whose blocks form a line without gaps
-/
namespace Verif.Node
open Verif Verif.Db Verif.Buffers

/-- The stored blocks are `f 0, …, f s`, one per slot, each the parent of the next. -/
structure Line (hs : AMap Root Header) (f : Nat → Root) (s : Nat) : Prop where
  mem : ∀ i, i ≤ s → ∃ h, hs.get? (f i) = some h ∧ h.slot = i
  up : ∀ i h, i < s → hs.get? (f (i + 1)) = some h → h.parentRoot = f i
  only : ∀ r h, hs.get? r = some h → h.slot ≤ s ∧ r = f h.slot

namespace Line
variable {hs : AMap Root Header} {f : Nat → Root} {s : Nat}

theorem anc (L : Line hs f s) {i : Nat} (d : Nat) (h : i + d ≤ s) : HAnc hs (f i) (f (i + d)) := by
  induction d with
  | zero =>
    obtain ⟨x, h1, -⟩ := L.mem i (by omega)
    exact .self h1
  | succ d ih =>
    obtain ⟨x, h1, h2⟩ := L.mem (i + (d + 1)) h
    obtain ⟨y, h3, h4⟩ := L.mem (i + d) (by omega)
    have hp := L.up (i + d) x (by omega) h1
    refine .up h1 (pd := y) (by rw [hp]; exact h3) (by omega) ?_
    rw [hp]
    exact ih (by omega)

theorem anc' (L : Line hs f s) {i j : Nat} (h : i ≤ j) (hj : j ≤ s) : HAnc hs (f i) (f j) := by
  obtain ⟨d, rfl⟩ := Nat.exists_eq_add_of_le h
  exact L.anc d hj

end Line

/-- A store on such a line, with the post-states of all blocks. -/
structure Rails (E : Env) (t : Nat) (vals : List Validator) (K : Header → Prop) (root : Root)
    (anchor : State) (f : Nat → Root) (s : Nat) (ops : List Db.Op) (σ : Store) : Prop where
  inv : NInv E t vals (State.fromGenesis E.H t vals) (some []) K root anchor NoX ops σ
  line : Line σ.mem.db.headers f s
  states : ∀ i, i ≤ s → ∃ st, stateOf root anchor ops (f i) = some st

/-- Such a store with the last block as head, the checkpoints two and three slots behind it, in the
store and in the head state, where every slot up to the justified one is justified. -/
structure Row (E : Env) (t : Nat) (vals : List Validator) (K : Header → Prop) (root : Root)
    (anchor : State) (f : Nat → Root) (s : Nat) (top : State) (ops : List Db.Op) (σ : Store) : Prop
    extends Rails E t vals K root anchor f s ops σ where
  head : σ.mem.db.head = f s
  just : σ.mem.db.justified.slot = s - 2
  fin : σ.mem.db.finalized.slot = s - 3
  topIs : stateOf root anchor ops (f s) = some top
  tip : ∀ st, stateOf root anchor ops (f s) = some st → st.latestJustified.slot = s - 2 ∧
    st.latestFinalized.slot = s - 3 ∧ (∀ i, i < s → st.historicalBlockHashes[i]? = some (f i)) ∧
    ∀ k, Build.jst st.justifiedSlots st.latestFinalized.slot k = true ↔ k ≤ s - 2

/-- Everything but the database is the same. -/
structure SameMem (σ σ' : Store) : Prop where
  fc : σ'.fc = σ.fc
  newP : σ'.newP = σ.newP
  knownP : σ'.knownP = σ.knownP
  gossip : σ'.gossip = σ.gossip
  genesis : σ'.genesisTime = σ.genesisTime

theorem SameMem.trans {a b c : Store} (h : SameMem a b) (k : SameMem b c) : SameMem a c :=
  ⟨k.fc.trans h.fc, k.newP.trans h.newP, k.knownP.trans h.knownP, k.gossip.trans h.gossip,
    k.genesis.trans h.genesis⟩

theorem SameMem.refl (a : Store) : SameMem a a := ⟨rfl, rfl, rfl, rfl, rfl⟩

section
variable {E : Env} {t : Nat} {vals : List Validator} {K : Header → Prop} {root : Root}
  {anchor : State} {f : Nat → Root} {s : Nat} {top : State} {ops : List Db.Op} {σ : Store}

namespace Rails

theorem slot (R : Rails E t vals K root anchor f s ops σ) {i : Nat} (hi : i ≤ s) {st : State}
    (h : stateOf root anchor ops (f i) = some st) : st.slot = i := by
  obtain ⟨x, h1, h2⟩ := R.line.mem i hi
  rw [(R.inv.tree.own _ _ h).2] at h1
  cases h1
  rw [← R.inv.tree.slotEq _ _ h, h2]

theorem root_eq (R : Rails E t vals K root anchor f s ops σ) {r : Root} {st : State}
    (h : stateOf root anchor ops r = some st) : st.slot ≤ s ∧ r = f st.slot := by
  have := R.line.only _ _ (R.inv.tree.own _ _ h).2
  rw [R.inv.tree.slotEq _ _ h] at this
  exact this

/-- Fork choice on a line ends at its last block, if enough votes are for it. -/
theorem ghost (W : World E t vals [] (State.fromGenesis E.H t vals) K)
    (R : Rails E t vals K root anchor f s ops σ) (votes : AMap Nat AttData) (m : Nat)
    (hv : m = 0 ∨ (m ≤ votes.length ∧ ∀ e ∈ votes, e.2.head.root = f s)) :
    (ForkChoice.computeLmdGhostHead σ.mem.db.justified.root (getLiveChain σ.mem.db) votes m).1 =
      f s := by
  have I := R.inv
  obtain ⟨h1, h2⟩ := I.cp.getLive
  obtain ⟨sj, j1, j2⟩ := I.cp.just
  have hmem := (h2 _ _ _).2 (I.cp.liveFull _ _ j1 (by omega))
  have h0 : σ.mem.db.justified.root ≠ 0 := by
    rw [← (I.tree.own _ _ j1).1]; exact W.headerNZ _
  obtain ⟨-, hl⟩ := ForkChoice.C15_head_is_greedy_leaf (I.wf W) h0 hmem votes m
  obtain ⟨st, q1, q2⟩ := I.ghost W votes m
  generalize (ForkChoice.computeLmdGhostHead σ.mem.db.justified.root
      (getLiveChain σ.mem.db) votes m).1 = x at hl q1 q2
  obtain ⟨hle, hx⟩ := R.root_eq q1
  have hge : σ.mem.db.justified.slot ≤ st.slot := by
    have := q2.slot_le
    rw [I.tree.slotOf q1, I.tree.slotOf j1] at this
    omega
  rcases Nat.lt_or_ge st.slot s with hlt | hge'
  · exfalso
    -- the live chain above the justified block
    have live : ∀ i, σ.mem.db.justified.slot ≤ i → i + 1 ≤ s →
        (getLiveChain σ.mem.db).get? (f (i + 1)) = some (i + 1, f i) := by
      intro i hi his
      obtain ⟨sc, c1⟩ := R.states (i + 1) his
      have c2 := R.slot his c1
      have := I.cp.liveFull _ _ c1 (by omega)
      rw [c2, R.line.up i _ his (I.tree.own _ _ c1).2] at this
      exact (h2 _ _ _).2 this
    refine hl (f (st.slot + 1)) ⟨⟨st.slot + 1, ?_⟩, ?_, fun hm => ?_⟩
    · rw [hx]
      exact live st.slot hge hlt
    · rw [← (I.tree.own _ _ q1).1]; exact W.headerNZ _
    · obtain ⟨v1, v2⟩ := hv.resolve_left (by omega)
      have anc : ∀ d, st.slot + 1 + d ≤ s →
          ForkChoice.Anc (getLiveChain σ.mem.db) (f (st.slot + 1)) (f (st.slot + 1 + d)) := by
        intro d hd
        induction d with
        | zero => exact .self (live st.slot hge hlt)
        | succ d ih => exact .up (live (st.slot + 1 + d) (by omega) (by omega)) (ih (by omega))
      refine Nat.le_trans v1 (Nat.le_of_eq ?_)
      unfold ForkChoice.supportCount
      symm
      rw [List.countP_eq_length]
      intro e he
      simp only [decide_eq_true_iff]
      refine ⟨?_, st.slot + 1, f st.slot, live st.slot hge hlt, by omega⟩
      rw [v2 e he]
      have := anc (s - (st.slot + 1)) (by omega)
      rwa [show st.slot + 1 + (s - (st.slot + 1)) = s by omega] at this
  · rw [hx, show st.slot = s by omega]

end Rails

namespace Row

theorem justRoot (R : Row E t vals K root anchor f s top ops σ) :
    σ.mem.db.justified.root = f (s - 2) := by
  obtain ⟨st, h1, h2⟩ := R.inv.cp.just
  rw [(R.root_eq h1).2, h2, R.just]

theorem settled (R : Row E t vals K root anchor f s top ops σ) : Settled σ := by
  unfold Settled
  rw [R.head, R.justRoot]
  exact R.line.anc' (by omega) (by omega)

/-- The invariant only depends on these parts. -/
theorem congr (R : Row E t vals K root anchor f s top ops σ) {ops' : List Db.Op} {σ' : Store}
    (I : NInv E t vals (State.fromGenesis E.H t vals) (some []) K root anchor NoX ops' σ')
    (hG : stateOf root anchor ops' = stateOf root anchor ops)
    (h1 : σ'.mem.db.headers = σ.mem.db.headers) (h2 : σ'.mem.db.head = σ.mem.db.head)
    (h3 : σ'.mem.db.justified.slot = σ.mem.db.justified.slot)
    (h4 : σ'.mem.db.finalized.slot = σ.mem.db.finalized.slot) :
    Row E t vals K root anchor f s top ops' σ' :=
  ⟨⟨I, by rw [h1]; exact R.line, by rw [hG]; exact R.states⟩, by rw [h2]; exact R.head,
    by rw [h3]; exact R.just, by rw [h4]; exact R.fin, by rw [hG]; exact R.topIs,
    by rw [hG]; exact R.tip⟩

theorem buffers (R : Row E t vals K root anchor f s top ops σ) {σ' : Store} (hm : σ'.mem = σ.mem)
    (hb : BInv E.H σ') : Row E t vals K root anchor f s top ops σ' :=
  R.congr (R.inv.buffers hm hb) rfl (by rw [hm]) (by rw [hm]) (by rw [hm]) (by rw [hm])

theorem setTime (R : Row E t vals K root anchor f s top ops σ) (n : Nat) :
    Row E t vals K root anchor f s top (.setTime n :: ops) (σ.setTime n) :=
  R.congr (R.inv.setTime n) (stateOf_quiet (by exact trivial)) rfl rfl rfl rfl

theorem getState (W : World E t vals [] (State.fromGenesis E.H t vals) K)
    (R : Row E t vals K root anchor f s top ops σ) (r : Root) :
    ∃ σ', σ.getState r = .ok (stateOf root anchor ops r, σ') ∧ σ'.mem.db = σ.mem.db ∧
      SameMem σ σ' ∧ Row E t vals K root anchor f s top (.readState r :: ops) σ' := by
  obtain ⟨σ', h1, h2, -, I⟩ := R.inv.getState W r
  obtain ⟨-, g1, g2, g3, g4, g5⟩ := getState_frame h1
  exact ⟨σ', h1, h2, ⟨g1, g2, g3, g4, g5⟩, R.congr I (stateOf_quiet (by exact trivial)) (by rw [h2])
    (by rw [h2]) (by rw [h2]) (by rw [h2])⟩

theorem headState (W : World E t vals [] (State.fromGenesis E.H t vals) K)
    (R : Row E t vals K root anchor f s top ops σ) :
    ∃ st σ' ops', headState σ = .ok (st, σ') ∧ stateOf root anchor ops (f s) = some st ∧
      σ'.mem.db = σ.mem.db ∧ SameMem σ σ' ∧ Row E t vals K root anchor f s top ops' σ' := by
  obtain ⟨st, h1⟩ := R.states s (Nat.le_refl _)
  obtain ⟨σ', g1, g2, g3, R'⟩ := R.getState W σ.mem.db.head
  refine ⟨st, σ', _, ?_, h1, g2, g3, R'⟩
  unfold Node.headState
  rw [g1, R.head, h1]

theorem setCheckpoints_calm {a b : Store} {h : Root} {fc : Option Checkpoint}
    (hf : ∀ x, fc = some x → x.slot ≤ a.mem.db.finalized.slot)
    (e : setCheckpoints a h none fc = .ok b) : SameMem a b := by
  unfold setCheckpoints at e
  split at e
  · cases e
  · simp only at e
    cases fc with
    | some c =>
      simp only at e
      rw [if_neg (by have := hf c rfl; omega)] at e
      cases e
      exact ⟨rfl, rfl, rfl, rfl, rfl⟩
    | none =>
      cases e
      exact ⟨rfl, rfl, rfl, rfl, rfl⟩

/-- Recomputing the head changes nothing. -/
theorem updateHead (W : World E t vals [] (State.fromGenesis E.H t vals) K)
    (A : AnchorOk E.H (State.fromGenesis E.H t vals) K root anchor)
    (R : Row E t vals K root anchor f s top ops σ) :
    ∃ σ' ops', updateHead σ = .ok σ' ∧ SameMem σ σ' ∧ σ'.mem.db.time = σ.mem.db.time ∧
      σ'.mem.db.safeTarget = σ.mem.db.safeTarget ∧
      stateOf root anchor ops' = stateOf root anchor ops ∧
      Row E t vals K root anchor f s top ops' σ' := by
  have hg : ghostHead σ = f s := R.ghost W _ 0 (.inl rfl)
  obtain ⟨σ', ops', h1, h2, h3, h4, h5, h6, st, h7, h8⟩ := R.inv.updateHead W A
  have fr := updateHead_frame h1
  have hh : σ'.mem.db.head = f s := by rw [fr.2.2.2.2.2.2.1, hg]
  rw [hh] at h7
  obtain ⟨-, tf, -⟩ := R.tip st h7
  refine ⟨σ', ops', h1, ?_, fr.1, fr.2.2.2.2.2.2.2.2, h3, R.congr h2 h3 h4 (by rw [hh, R.head])
    (by rw [h5]) ?_⟩
  · obtain ⟨x, m1, fo, e1, e2, e3⟩ := updateHead_split h1
    obtain ⟨σ1, g1, g2, g3, -⟩ := R.getState W (ghostHead σ)
    have e1' : σ.getState (ghostHead σ) = .ok (x, { σ with mem := m1 }) := by
      unfold Store.getState; rw [e1]
    rw [g1] at e1'
    have hx : x = some st := by
      have := congrArg Prod.fst (Except.ok.inj e1')
      simp only at this
      rw [← this, hg, h7]
    have hdb : m1.db = σ.mem.db := by
      have := congrArg Prod.snd (Except.ok.inj e1')
      simp only at this
      rw [← g2, this]
    subst hx
    have hm : SameMem { σ with mem := m1 } σ' := by
      refine setCheckpoints_calm ?_ e3
      intro y hy
      rw [e2] at hy
      simp only at hy
      split at hy
      · cases hy
        simp only [hdb, R.fin, tf]
        exact Nat.le_refl _
      · cases hy
    exact ⟨hm.fc, hm.newP, hm.knownP, hm.gossip, hm.genesis⟩
  · rw [h8]
    split
    · rw [tf, R.fin]
    · rfl

/-- The safe target becomes the head when all pending votes are for it. -/
theorem updateSafeTarget (W : World E t vals [] (State.fromGenesis E.H t vals) K)
    (R : Row E t vals K root anchor f s top ops σ)
    (hv : (vals.length * 2 + 2) / 3 ≤ σ.fc.new.length)
    (hf : ∀ e ∈ σ.fc.new, e.2.head.root = f s) :
    ∃ σ' ops', updateSafeTarget σ = .ok σ' ∧ SameMem σ σ' ∧ σ'.mem.db.time = σ.mem.db.time ∧
      σ'.mem.db.safeTarget = f s ∧ Row E t vals K root anchor f s top ops' σ' := by
  obtain ⟨σ', ops', h1, h2, h3⟩ := R.inv.succeeds_updateSafeTarget W
  obtain ⟨st, m1, e1, e2⟩ := updateSafeTarget_split h1
  obtain ⟨st', g1⟩ := R.states s (Nat.le_refl _)
  have hst : st' = st := by
    have := (R.inv.reads W σ.mem.db.head st).1 ⟨m1, e1⟩
    rw [R.head, g1] at this
    exact Option.some.inj this
  have hvl : st.validators = vals := by
    rw [← hst]
    exact state_vals W R.inv g1
  refine ⟨σ', ops', h1, ?_, ?_, ?_, ?_⟩
  · rw [e2]; exact ⟨rfl, rfl, rfl, rfl, rfl⟩
  · rw [e2]
  · rw [e2]
    show (ForkChoice.computeLmdGhostHead _ _ _ _).1 = f s
    rw [hvl]
    exact R.ghost W _ _ (.inr ⟨hv, hf⟩)
  · refine ⟨⟨h2, by rw [e2]; exact R.line, ?_⟩, by rw [e2]; exact R.head, by rw [e2]; exact R.just,
      by rw [e2]; exact R.fin, h3.states _ _ R.topIs, ?_⟩
    · intro i hi
      obtain ⟨x, hx⟩ := R.states i hi
      exact ⟨x, h3.states _ _ hx⟩
    · intro x hx
      rw [h3.states _ _ g1] at hx
      exact R.tip x (by rw [g1]; exact hx)

end Row
end

end Verif.Node
