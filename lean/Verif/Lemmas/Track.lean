import Verif.Lemmas.SoloRun
/-!
# A store on a line, wherever its checkpoints are
-/
namespace Verif.Node
open Verif Verif.Db Verif.Sync Verif.Buffers Verif.Build

/-- A store whose blocks form a line that ends in its head; its checkpoints are those of the head
state, and nothing above the justified one is justified. -/
structure Track (E : Env) (t : Nat) (vals : List Validator) (K : Header → Prop) (root : Root)
    (anchor : State) (f : Nat → Root) (s : Nat) (top : State) (ops : List Db.Op) (σ : Store) : Prop
    extends Rails E t vals K root anchor f s ops σ where
  head : σ.mem.db.head = f s
  just : σ.mem.db.justified.slot = top.latestJustified.slot
  fin : σ.mem.db.finalized.slot = top.latestFinalized.slot
  topIs : stateOf root anchor ops (f s) = some top
  hist : ∀ i, i < s → top.historicalBlockHashes[i]? = some (f i)
  cap : ∀ k, jst top.justifiedSlots top.latestFinalized.slot k = true → k ≤ top.latestJustified.slot
  pos : 1 ≤ top.latestJustified.slot

theorem Row.track {E : Env} {t : Nat} {vals : List Validator} {K : Header → Prop} {root : Root}
    {anchor : State} {f : Nat → Root} {s : Nat} {top : State} {ops : List Db.Op} {σ : Store}
    (R : Row E t vals K root anchor f s top ops σ) (hs : 3 ≤ s) :
    Track E t vals K root anchor f s top ops σ := by
  obtain ⟨t1, t2, t3, t4⟩ := R.tip top R.topIs
  exact ⟨R.toRails, R.head, by rw [R.just, t1], by rw [R.fin, t2], R.topIs, t3,
    fun k hk => by rw [t1]; exact (t4 k).1 hk, by omega⟩

section
variable {E : Env} {t : Nat} {vals : List Validator} {K : Header → Prop} {root : Root}
  {anchor : State} {f : Nat → Root} {s : Nat} {top : State} {ops : List Db.Op} {σ : Store}

/-- Without votes, fork choice with a threshold stays at the justified block. -/
theorem Rails.ghostNone (W : World E t vals [] (State.fromGenesis E.H t vals) K)
    (R : Rails E t vals K root anchor f s ops σ) {m : Nat} (hm : 0 < m) :
    (ForkChoice.computeLmdGhostHead σ.mem.db.justified.root (getLiveChain σ.mem.db) [] m).1 =
      σ.mem.db.justified.root := by
  have I := R.inv
  obtain ⟨h1, h2⟩ := I.cp.getLive
  obtain ⟨sj, j1, j2⟩ := I.cp.just
  have hmem := (h2 _ _ _).2 (I.cp.liveFull _ _ j1 (by omega))
  have h0 : σ.mem.db.justified.root ≠ 0 := by
    rw [← (I.tree.own _ _ j1).1]; exact W.headerNZ _
  obtain ⟨hg, -⟩ := ForkChoice.C15_head_is_greedy_leaf (I.wf W) h0 hmem [] m
  generalize (ForkChoice.computeLmdGhostHead σ.mem.db.justified.root (getLiveChain σ.mem.db) []
    m).1 = x at hg
  cases hg with
  | start => rfl
  | step _ hb =>
    have := hb.1.2.2 hm
    simp [ForkChoice.supportCount] at this
    omega

namespace Track

/-- The head state belongs to a chain of blocks. -/
theorem chain (R : Track E t vals K root anchor f s top ops σ) :
    ∃ cs, cs ≠ [] ∧ Chain E.H (State.fromGenesis E.H t vals) cs top := by
  by_cases hq : f s = root
  · exfalso
    have hst : top = anchor := by
      have := R.topIs
      rw [hq, R.inv.tree.anc] at this
      exact (Option.some.inj this).symm
    obtain ⟨z1, z2⟩ := genesis_head R.inv.run
    have := R.pos
    rw [hst, z2] at this
    exact absurd this (by decide)
  · exact R.inv.tree.good _ _ R.topIs hq

theorem order (R : Track E t vals K root anchor f s top ops σ) :
    top.latestFinalized.slot ≤ top.latestJustified.slot ∧ top.latestJustified.slot < s := by
  obtain ⟨cs, h1, h2⟩ := R.chain
  have := C05_checkpoints_ordered h2 h1
  rwa [R.slot (Nat.le_refl _) R.topIs] at this

theorem isJust (R : Track E t vals K root anchor f s top ops σ) :
    jst top.justifiedSlots top.latestFinalized.slot top.latestJustified.slot = true := by
  obtain ⟨cs, h1, h2⟩ := R.chain
  have := (chain_inv h2 h1).justJ
  unfold jst
  rw [this]
  rfl

theorem justRoot (R : Track E t vals K root anchor f s top ops σ) :
    σ.mem.db.justified.root = f top.latestJustified.slot := by
  obtain ⟨st, h1, h2⟩ := R.inv.cp.just
  rw [(R.root_eq h1).2, h2, R.just]

/-- The invariant only depends on these parts. -/
theorem congr (R : Track E t vals K root anchor f s top ops σ) {ops' : List Db.Op} {σ' : Store}
    (I : NInv E t vals (State.fromGenesis E.H t vals) (some []) K root anchor NoX ops' σ')
    (hG : stateOf root anchor ops' = stateOf root anchor ops)
    (h1 : σ'.mem.db.headers = σ.mem.db.headers) (h2 : σ'.mem.db.head = σ.mem.db.head)
    (h3 : σ'.mem.db.justified.slot = σ.mem.db.justified.slot)
    (h4 : σ'.mem.db.finalized.slot = σ.mem.db.finalized.slot) :
    Track E t vals K root anchor f s top ops' σ' :=
  ⟨⟨I, by rw [h1]; exact R.line, by rw [hG]; exact R.states⟩, by rw [h2]; exact R.head,
    by rw [h3]; exact R.just, by rw [h4]; exact R.fin, by rw [hG]; exact R.topIs, R.hist, R.cap,
    R.pos⟩

theorem buffers (R : Track E t vals K root anchor f s top ops σ) {σ' : Store} (hm : σ'.mem = σ.mem)
    (hb : BInv E.H σ') : Track E t vals K root anchor f s top ops σ' :=
  R.congr (R.inv.buffers hm hb) rfl (by rw [hm]) (by rw [hm]) (by rw [hm]) (by rw [hm])

theorem setTime (R : Track E t vals K root anchor f s top ops σ) (n : Nat) :
    Track E t vals K root anchor f s top (.setTime n :: ops) (σ.setTime n) :=
  R.congr (R.inv.setTime n) (stateOf_quiet (by exact trivial)) rfl rfl rfl rfl

theorem getState (W : World E t vals [] (State.fromGenesis E.H t vals) K)
    (R : Track E t vals K root anchor f s top ops σ) (r : Root) :
    ∃ σ', σ.getState r = .ok (stateOf root anchor ops r, σ') ∧ σ'.mem.db = σ.mem.db ∧
      SameMem σ σ' ∧ Track E t vals K root anchor f s top (.readState r :: ops) σ' := by
  obtain ⟨σ', h1, h2, -, I⟩ := R.inv.getState W r
  obtain ⟨-, g1, g2, g3, g4, g5⟩ := getState_frame h1
  exact ⟨σ', h1, h2, ⟨g1, g2, g3, g4, g5⟩, R.congr I (stateOf_quiet (by exact trivial)) (by rw [h2])
    (by rw [h2]) (by rw [h2]) (by rw [h2])⟩

theorem headState (W : World E t vals [] (State.fromGenesis E.H t vals) K)
    (R : Track E t vals K root anchor f s top ops σ) :
    ∃ σ' ops', headState σ = .ok (top, σ') ∧ σ'.mem.db = σ.mem.db ∧ SameMem σ σ' ∧ Track E t vals K root anchor f s top ops' σ' := by
  obtain ⟨σ', g1, g2, g3, R'⟩ := R.getState W σ.mem.db.head
  refine ⟨σ', _, ?_, g2, g3, R'⟩
  unfold Node.headState
  rw [g1, R.head, R.topIs]

/-- Recomputing the head changes nothing. -/
theorem updateHead (W : World E t vals [] (State.fromGenesis E.H t vals) K)
    (A : AnchorOk E.H (State.fromGenesis E.H t vals) K root anchor)
    (R : Track E t vals K root anchor f s top ops σ) :
    ∃ σ' ops', updateHead σ = .ok σ' ∧ SameMem σ σ' ∧ σ'.mem.db.time = σ.mem.db.time ∧
      σ'.mem.db.safeTarget = σ.mem.db.safeTarget ∧
      stateOf root anchor ops' = stateOf root anchor ops ∧
      Track E t vals K root anchor f s top ops' σ' := by
  have hg : ghostHead σ = f s := R.ghost W _ 0 (.inl rfl)
  obtain ⟨σ', ops', h1, h2, h3, h4, h5, h6, st, h7, h8⟩ := R.inv.updateHead W A
  have fr := updateHead_frame h1
  have hh : σ'.mem.db.head = f s := by rw [fr.2.2.2.2.2.2.1, hg]
  rw [hh] at h7
  have tf : st.latestFinalized.slot = top.latestFinalized.slot := by
    have h7' := h7
    rw [R.topIs] at h7'
    rw [Option.some.inj h7']
  refine ⟨σ', ops', h1, ?_, fr.1, fr.2.2.2.2.2.2.2.2, h3, R.congr h2 h3 h4 (by rw [hh, R.head])
    (by rw [h5]) ?_⟩
  · obtain ⟨x, m1, fo, e1, e2, e3⟩ := updateHead_split h1
    obtain ⟨σ1, g1, g2, g3, -⟩ := R.getState W (ghostHead σ)
    have e1' : σ.getState (ghostHead σ) = .ok (x, { σ with mem := m1 }) := by
      unfold Store.getState; rw [e1]
    rw [g1] at e1'
    have hx : x = some st := by
      have := congrArg Prod.fst (Except.ok.inj e1')
      simp only at this
      rw [← this, hg, h7]
    have hdb : m1.db = σ.mem.db := by
      have := congrArg Prod.snd (Except.ok.inj e1')
      simp only at this
      rw [← g2, this]
    subst hx
    have hm : SameMem { σ with mem := m1 } σ' := by
      refine Row.setCheckpoints_calm ?_ e3
      intro y hy
      rw [e2] at hy
      simp only at hy
      split at hy
      · cases hy
        simp only [hdb, R.fin, tf]
        exact Nat.le_refl _
      · cases hy
    exact ⟨hm.fc, hm.newP, hm.knownP, hm.gossip, hm.genesis⟩
  · rw [h8]
    split
    · rw [tf, R.fin]
    · rfl

/-- The safe target is what fork choice says about the pending votes. -/
theorem updateSafeTarget (W : World E t vals [] (State.fromGenesis E.H t vals) K)
    (R : Track E t vals K root anchor f s top ops σ) {x : Root}
    (hx : (ForkChoice.computeLmdGhostHead σ.mem.db.justified.root (getLiveChain σ.mem.db) σ.fc.new
      ((vals.length * 2 + 2) / 3)).1 = x) :
    ∃ σ' ops', updateSafeTarget σ = .ok σ' ∧ SameMem σ σ' ∧ σ'.mem.db.time = σ.mem.db.time ∧
      σ'.mem.db.safeTarget = x ∧ Track E t vals K root anchor f s top ops' σ' := by
  obtain ⟨σ', ops', h1, h2, h3⟩ := R.inv.succeeds_updateSafeTarget W
  obtain ⟨st, m1, e1, e2⟩ := updateSafeTarget_split h1
  have hst : top = st := by
    have := (R.inv.reads W σ.mem.db.head st).1 ⟨m1, e1⟩
    rw [R.head, R.topIs] at this
    exact Option.some.inj this
  have hvl : st.validators = vals := by
    rw [← hst]
    exact state_vals W R.inv R.topIs
  refine ⟨σ', ops', h1, ?_, ?_, ?_, ?_⟩
  · rw [e2]; exact ⟨rfl, rfl, rfl, rfl, rfl⟩
  · rw [e2]
  · rw [e2]
    show (ForkChoice.computeLmdGhostHead _ _ _ _).1 = x
    rw [hvl]
    exact hx
  · refine ⟨⟨h2, by rw [e2]; exact R.line, ?_⟩, by rw [e2]; exact R.head, by rw [e2]; exact R.just,
      by rw [e2]; exact R.fin, h3.states _ _ R.topIs, R.hist, R.cap, R.pos⟩
    intro i hi
    obtain ⟨x, hx⟩ := R.states i hi
    exact ⟨x, h3.states _ _ hx⟩

theorem mono {K' : Header → Prop} (hK : ∀ h, K h → K' h)
    (R : Track E t vals K root anchor f s top ops σ) :
    Track E t vals K' root anchor f s top ops σ :=
  ⟨⟨R.inv.mono hK, R.line, R.states⟩, R.head, R.just, R.fin, R.topIs, R.hist, R.cap, R.pos⟩

theorem inj (R : Track E t vals K root anchor f s top ops σ) {i j : Nat} (hi : i ≤ s) (hj : j ≤ s)
    (h : f i = f j) : i = j := by
  obtain ⟨x, x1, x2⟩ := R.line.mem i hi
  obtain ⟨y, y1, y2⟩ := R.line.mem j hj
  rw [h, y1] at x1
  cases x1
  omega

theorem nz (W : World E t vals [] (State.fromGenesis E.H t vals) K)
    (R : Track E t vals K root anchor f s top ops σ) {i : Nat} (hi : i ≤ s) : f i ≠ 0 := by
  obtain ⟨st, h⟩ := R.states i hi
  rw [← (R.inv.tree.own _ _ h).1]
  exact W.headerNZ _

theorem headSlot (R : Track E t vals K root anchor f s top ops σ) : Node.headSlot σ = .ok s := by
  obtain ⟨h, h1, h2⟩ := R.line.mem s (Nat.le_refl _)
  unfold Node.headSlot Store.header
  rw [R.head, h1]
  simp only [h2]

theorem live (R : Track E t vals K root anchor f s top ops σ) :
    f s ∈ σ.mem.db.liveChain.map (fun e => e.1.2) := by
  have h := R.order
  have := R.inv.cp.liveFull _ _ R.topIs (by rw [R.slot (Nat.le_refl _) R.topIs, R.just]; omega)
  exact List.mem_map.2 ⟨_, this, rfl⟩

end Track
end

end Verif.Node
