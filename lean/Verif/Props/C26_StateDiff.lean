import Verif.Lemmas.StateDiff
import Verif.Spec.Witness
/-!
# C26: state diffs reconstruct the exact state
-/
namespace Verif.Db
open Verif Verif.Witness

/-- **C26.** The diff of a valid child exists, and applied to the parent it gives the child back,
every field included. -/
theorem C26_single {H : Hash} {p c : State} (h : ValidChild H p c) :
    ∃ d, fromStates H p c = .ok d ∧ reconstruct p [d] c.latestBlockHeader = some c :=
  ⟨diffOf H p c, fromStates_valid h, ((Leads.refl p).snoc h).reconstruct (by simp)⟩

/-- `DiffChain H s0 ds s`: a chain of states from `s0` to `s`, each a valid child of the one
before, with the diffs the code computes (oldest first). -/
inductive DiffChain (H : Hash) (s0 : State) : List StateDiff → State → Prop
  | nil : DiffChain H s0 [] s0
  | snoc {ds p c d} : DiffChain H s0 ds p → ValidChild H p c → fromStates H p c = .ok d →
      DiffChain H s0 (ds ++ [d]) c

/-- **C26.** Replaying a non-empty chain of diffs of any length from the state it starts at gives
its last state exactly. -/
theorem C26_chain {H : Hash} {s0 s : State} {ds : List StateDiff} (h : DiffChain H s0 ds s)
    (hne : ds ≠ []) : reconstruct s0 ds s.latestBlockHeader = some s := by
  have key : ∀ {ds s}, DiffChain H s0 ds s → Leads s0 ds s := by
    intro ds s h
    induction h with
    | nil => exact .refl _
    | snoc _ hv hd ih =>
      rw [fromStates_valid hv] at hd
      cases hd
      exact ih.snoc hv
  exact (key h).reconstruct hne

/-- **C26.** Computing a diff succeeds exactly when the post-state's history has the shape the
replay regenerates: the parent root, then zeros, one entry per slot of the gap. -/
theorem C26_refuses_other_histories {H : Hash} {p c : State} :
    (∃ d, fromStates H p c = .ok d) ↔
      p.slot < c.slot ∧ ∃ pre, pre.length = p.historicalBlockHashes.length ∧
        c.historicalBlockHashes = pre ++
          H.header p.latestBlockHeader :: List.replicate (c.slot - p.slot - 1) 0 := by
  constructor
  · rintro ⟨d, hd⟩
    unfold fromStates at hd
    split at hd
    · cases hd
    next hs =>
    split at hd
    · cases hd
    next hv =>
    unfold validateHistoryAppend at hv
    split at hv
    · cases hv
    next hlen =>
    simp only at hv
    split at hv
    · cases hv
    next happ =>
    split at hv
    · cases hv
    next hfirst =>
    split at hv
    · cases hv
    next hz =>
    have hz : ((c.historicalBlockHashes.drop p.historicalBlockHashes.length).drop 1).all
        (fun h => decide (h = 0)) = true := Classical.not_not.1 hz
    have hfirst : (c.historicalBlockHashes.drop p.historicalBlockHashes.length).head? =
        some (H.header p.latestBlockHeader) := Classical.not_not.1 hfirst
    have happ : (c.historicalBlockHashes.drop p.historicalBlockHashes.length).length =
        c.slot - p.slot := Classical.not_not.1 happ
    have hsplit := List.take_append_drop p.historicalBlockHashes.length c.historicalBlockHashes
    generalize c.historicalBlockHashes.drop p.historicalBlockHashes.length = app at *
    cases app with
    | nil => simp at hfirst
    | cons x xs =>
      simp only [List.head?_cons, Option.some.injEq] at hfirst
      simp only [List.length_cons] at happ
      refine ⟨by omega, c.historicalBlockHashes.take p.historicalBlockHashes.length, ?_, ?_⟩
      · rw [List.length_take]; omega
      · simp only [List.drop_succ_cons, List.drop_zero, List.all_eq_true, decide_eq_true_eq] at hz
        have hxs : xs = List.replicate (c.slot - p.slot - 1) 0 := by
          rw [List.eq_replicate_iff]; exact ⟨by omega, hz⟩
        rw [← hxs, ← hfirst, hsplit]
  · rintro ⟨hs, pre, hl, hh⟩
    unfold fromStates
    obtain ⟨k, e⟩ : ∃ k, c.slot - p.slot = k + 1 := ⟨c.slot - p.slot - 1, by omega⟩
    rw [if_neg (by omega), hh, ← hl, e, Nat.add_sub_cancel, validate_ok]
    exact ⟨_, rfl⟩

/-- **C26.** Every state the node computes for an imported block is a valid child of its parent's
state, so the theorems above apply to all of them. The parent's header has its state root filled
in and its slot is the state's slot, as for every stored state. -/
theorem C26_import_is_valid_child {H : Hash} {s s' : State} {b : Block}
    (h : importState H s b = .ok s') (hr : s.latestBlockHeader.stateRoot ≠ 0)
    (hs : s.latestBlockHeader.slot = s.slot) :
    ValidChild H s s' ∧ (b.stateRoot ≠ 0 → s'.latestBlockHeader.stateRoot ≠ 0) ∧
      s'.latestBlockHeader.slot = s'.slot := by
  have f := import_frame h
  have hf : filledHeader H s = s.latestBlockHeader := by unfold filledHeader; rw [if_neg hr]
  refine ⟨⟨?_, f.time, f.vals, ?_, f.histLen, ?_⟩, ?_, ?_⟩
  · rw [f.slot]; exact f.slotLt
  · rw [f.hist, f.parent, hf, f.slot, hs]
  · rw [f.hdr, ← hf]; exact f.parent
  · rw [f.stateRoot]; exact id
  · rw [f.hdr, f.slot]; rfl

/-- Non-vacuity: the witness chain with its skipped slot 4; the diff of the block at slot 5 on the
state at slot 3 regenerates the zero entry. -/
example : ValidChild wH wState3 wState ∧
    (∃ d, fromStates wH wState3 wState = .ok d ∧
      reconstruct wState3 [d] wState.latestBlockHeader = some wState) := by
  have h : importState wH wState3
      (mkBlock 5 3 [vote [true, false, false] 2 3, vote [true, true, false] 2 3]) = .ok wState := by
    decide +kernel
  have hv := (C26_import_is_valid_child h (by decide +kernel) (by decide +kernel)).1
  exact ⟨hv, C26_single hv⟩

end Verif.Db
