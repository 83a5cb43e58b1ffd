import Verif.Lemmas.StfChain
import Verif.Spec.Witness
/-!
# C03: applying a block advances the slot and appends exactly the right history
-/
namespace Verif

/-- One accepted block on any chain: the slot moves to the block's slot, the history keeps its
old entries, records the parent at the parent's slot and zero at each skipped slot, and nothing
else is recorded; validators and configuration stay. -/
theorem C03_block_appends_history {H : Hash} {t : Nat} {vals : List Validator}
    {bs : List Block} {s s' : State} {b : Block}
    (hc : Chain H (State.fromGenesis H t vals) bs s) (hi : importState H s b = .ok s') :
    s'.slot = b.slot ∧ s.slot < b.slot ∧ s'.historicalBlockHashes.length = b.slot ∧
    (∀ k, k < s.slot → s'.historicalBlockHashes[k]? = s.historicalBlockHashes[k]?) ∧
    s'.historicalBlockHashes[s.slot]? = some b.parentRoot ∧
    (∀ k, s.slot < k → k < b.slot → s'.historicalBlockHashes[k]? = some 0) ∧
    s'.validators = s.validators ∧ s'.genesisTime = s.genesisTime := by
  cases bs with
  | nil =>
    cases hc
    obtain ⟨h1, h2, h3, h4, h5, h6, h7, -⟩ :=
      import_genesis (V := fun _ _ => True) (fun _ _ _ _ => trivial) hi
    have hs0 : (State.fromGenesis H t vals).slot = 0 := rfl
    rw [hs0]
    refine ⟨h3, h2, ?_, ?_, ?_, ?_, h6, h7⟩
    · rw [h4]; simp; omega
    · intro k hk; omega
    · rw [h4, h5]; rfl
    · intro k hk hkb
      rw [h4, List.getElem?_cons, if_neg (by omega), List.getElem?_replicate, if_pos (by omega)]
  | cons b0 bs0 =>
    have hinv := (chain_inv hc (by simp)).weaken (W := fun _ _ => True) (fun _ _ _ => trivial)
    obtain ⟨s1, -, -, -, h3, h4, h5, h6, h7, h8, -⟩ :=
      import_inv hinv (fun _ _ _ _ => trivial) hi
    have hl := hinv.histLen
    refine ⟨h4, h3, ?_, ?_, ?_, ?_, h7, h8⟩
    · rw [h5]; simp; omega
    · intro k hk
      rw [h5, List.getElem?_append_left (by omega)]
    · rw [h5, List.getElem?_append_right (by omega), h6, hl]; simp
    · intro k hk hkb
      rw [h5, List.getElem?_append_right (by omega), List.getElem?_cons, if_neg (by omega),
        List.getElem?_replicate, if_pos (by omega)]

theorem chain_slots {H : Hash} {t : Nat} {vals : List Validator} {bs : List Block} {s : State}
    (hc : Chain H (State.fromGenesis H t vals) bs s) :
    (∀ b ∈ bs, b.slot ≤ s.slot ∧ 0 < b.slot) ∧
    (∀ b0 bs0, bs = b0 :: bs0 → b0.slot = s.slot ∧ s.latestBlockHeader = b0.header H) := by
  induction hc with
  | nil => constructor <;> simp
  | @cons bs s s' b hc hi ih =>
    obtain ⟨h1, h2, -⟩ := C03_block_appends_history hc hi
    refine ⟨?_, ?_⟩
    · intro b' hb'
      rcases List.mem_cons.1 hb' with rfl | hb'
      · omega
      · have := ih.1 b' hb'; omega
    · intro b0 bs0 h0
      cases h0
      refine ⟨h1.symm, ?_⟩
      cases bs with
      | nil =>
        cases hc
        exact (import_genesis (V := fun _ _ => True) (fun _ _ _ _ => trivial) hi).2.2.2.2.2.2.2.1
      | cons b1 bs1 =>
        have hinv := (chain_inv hc (by simp)).weaken (W := fun _ _ => True) (fun _ _ _ => trivial)
        obtain ⟨s1, -, -, -, -, -, -, -, -, -, h9, -⟩ :=
          import_inv hinv (fun _ _ _ _ => trivial) hi
        exact h9

/-- The accepted block's parent root is the root of the chain's tip (state roots are never the
zero hash). -/
theorem C03_parent_is_tip {H : Hash} (hz : ∀ s, H.state s ≠ 0) {t : Nat} {vals : List Validator}
    {bs : List Block} {s s' : State} {b : Block}
    (hc : Chain H (State.fromGenesis H t vals) bs s) (hi : importState H s b = .ok s') :
    b.parentRoot = tipRoot H (State.fromGenesis H t vals) bs := by
  cases hc with
  | nil =>
    exact (import_genesis (V := fun _ _ => True) (fun _ _ _ _ => trivial) hi).2.2.2.2.1
  | @cons bs0 s0 _ b0 hc0 hi0 =>
    have hc : Chain H (State.fromGenesis H t vals) (b0 :: bs0) s := .cons hc0 hi0
    have hinv := (chain_inv hc (by simp)).weaken (W := fun _ _ => True) (fun _ _ _ => trivial)
    obtain ⟨s1, e1, -, -, -, -, -, h6, -⟩ :=
      import_inv hinv (fun _ _ _ _ => trivial) hi
    rw [h6]
    obtain ⟨-, h9⟩ := (chain_slots hc).2 b0 bs0 rfl
    obtain ⟨_, _, s3, _, _, _, hr, _⟩ := importState_ok hi0
    have hnz : s.latestBlockHeader.stateRoot ≠ 0 := by
      rw [h9]; show b0.stateRoot ≠ 0; rw [hr]; exact hz s3
    unfold processSlots at e1
    split at e1
    · cases e1
    · simp only [Except.ok.injEq] at e1
      rw [← e1]
      show H.header s.latestBlockHeader = b0.root H
      rw [h9]; rfl

/-- After any chain, the history has one entry per slot below the tip's slot, and that entry is
the root of the chain's block at that slot, or zero when the slot was skipped. -/
theorem C03_history_is_chain {H : Hash} (hz : ∀ s, H.state s ≠ 0) {t : Nat}
    {vals : List Validator} {b : Block} {bs : List Block} {s : State}
    (hc : Chain H (State.fromGenesis H t vals) (b :: bs) s) :
    s.slot = b.slot ∧ s.historicalBlockHashes.length = b.slot ∧
    ∀ k, k < b.slot →
      s.historicalBlockHashes[k]? = some (rootAt H (State.fromGenesis H t vals) bs k) := by
  generalize hbs : b :: bs = l at hc
  induction hc generalizing b bs with
  | nil => cases hbs
  | @cons bs0 s0 s' b0 hc0 hi0 ih =>
    cases hbs
    obtain ⟨h1, h2, h3, h4, h5, h6, -⟩ := C03_block_appends_history hc0 hi0
    refine ⟨h1, h3, ?_⟩
    intro k hk
    have hp := C03_parent_is_tip hz hc0 hi0
    rcases Nat.lt_trichotomy k s0.slot with hlt | heq | hgt
    · rw [h4 k hlt]
      cases bs0 with
      | nil => cases hc0; exact absurd hlt (by simp [State.fromGenesis])
      | cons b1 bs1 =>
        obtain ⟨e1, e2, e3⟩ := ih (b := b1) (bs := bs1) rfl
        rw [e3 k (by omega)]
        congr 1
        unfold rootAt
        rw [List.find?_cons_of_neg]
        simp; omega
    · subst heq
      rw [h5, hp]
      congr 1
      cases bs0 with
      | nil => cases hc0; rfl
      | cons b1 bs1 =>
        obtain ⟨e1, -⟩ := (chain_slots hc0).2 b1 bs1 rfl
        unfold rootAt tipRoot
        rw [List.find?_cons_of_pos (by simpa using e1)]
    · rw [h6 k hgt hk]
      congr 1
      have hn : bs0.find? (fun b => decide (b.slot = k)) = none := by
        rw [List.find?_eq_none]
        intro b' hb'
        have := (chain_slots hc0).1 b' hb'
        simp; omega
      unfold rootAt
      rw [hn]
      simp only
      rw [if_neg (by omega)]

/-- Non-vacuity: the witness chain (with a skipped slot 4) meets the hypotheses. -/
example : (∀ s, Witness.wH.state s ≠ 0) ∧
    Chain Witness.wH (State.fromGenesis Witness.wH 0 Witness.wVals) Witness.wBlocks.reverse
      Witness.wState ∧ Witness.wState.historicalBlockHashes = [1, 2, 3, 4, 0] :=
  ⟨fun _ => Nat.one_ne_zero, Witness.wChain, Witness.wFacts.2.2.2.1⟩

end Verif
