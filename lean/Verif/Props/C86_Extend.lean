import Verif.Props.C85_PlausibleLiveness
/-!
# C86: extending a chain
-/
namespace Verif

/-- The property in full: on every chain, a valid block can be made for every later slot. -/
def AlwaysExtensible (H : Hash) : Prop :=
  ∀ (t : Nat) (vals : List Validator) (bs : List Block) (s : State),
    0 < vals.length → vals.length ≤ validatorRegistryLimit →
    Chain H (State.fromGenesis H t vals) bs s → ∀ k, s.slot < k →
    ∃ b s', b.slot = k ∧ importState H s b = .ok s'

/-- **C86**, as far as it holds: a valid block can be made for every later slot up to `2^18`. It
may be left empty, so nothing is needed from the other validators. -/
theorem C86_extensible_partial {H : Hash} (hz : ∀ s, H.state s ≠ 0) {t : Nat}
    {vals : List Validator} {bs : List Block} {s : State} (hv : 0 < vals.length)
    (hvl : vals.length ≤ validatorRegistryLimit)
    (hc : Chain H (State.fromGenesis H t vals) bs s) {k : Nat} (hk : s.slot < k)
    (hlim : k ≤ 2 ^ 18) : ∃ b s', b.slot = k ∧ b.body = [] ∧ importState H s b = .ok s' := by
  obtain ⟨b, s', h1, h2, h3, -⟩ := extend_empty hz hc hk (Nat.le_trans hlim (by decide)) hv hvl
  exact ⟨b, s', h1, h2, h3⟩

/-- No chain contains a block beyond slot `2^18`, whoever makes it and whatever is in it. -/
theorem C86_ends {H : Hash} {t : Nat} {vals : List Validator} {bs : List Block} {s : State}
    (hc : Chain H (State.fromGenesis H t vals) bs s) : ∀ b ∈ bs, b.slot ≤ 2 ^ 18 := by
  induction hc with
  | nil => intro b hb; cases hb
  | @cons bs s s' b hc hi ih =>
    intro b' hb'
    rcases List.mem_cons.1 hb' with rfl | hb'
    · have hlim : historicalRootsLimit = 2 ^ 18 := by decide
      rw [← hlim]
      cases bs with
      | nil =>
        cases hc
        obtain ⟨-, -, -, -, -, -, -, -, -, -, h, -⟩ :=
          import_genesis (V := fun _ _ => True) (fun _ _ _ _ => trivial) hi
        exact h
      | cons b0 bs0 =>
        have hinv := (chain_inv hc (by simp)).weaken (W := fun _ _ => True) (fun _ _ _ => trivial)
        obtain ⟨_, -, -, -, -, -, -, -, -, -, -, -, -, h⟩ :=
          import_inv hinv (fun _ _ _ _ => trivial) hi
        exact h
    · exact ih b' hb'

/-- So the property is false, for every hash. -/
theorem C86_extensible_false (H : Hash) : ¬ AlwaysExtensible H := by
  intro h
  obtain ⟨b, s', h1, h2⟩ := h 0 Witness.wVals [] _ (by decide) (by decide) .nil (2 ^ 18 + 1)
    (Nat.succ_pos _)
  have := C86_ends (Chain.cons .nil h2) b List.mem_cons_self
  omega

/-- A concrete case: a chain of three blocks has room. -/
example : Chain Witness.wH Witness.wG Witness.wBlocks.reverse Witness.wState ∧
    Witness.wState.slot < 1000 ∧ 0 < Witness.wVals.length :=
  ⟨Witness.wChain, by decide +kernel, by decide⟩

end Verif
