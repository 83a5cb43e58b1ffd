import Verif.Lemmas.Bits
/-!
# C57: the byte-wise subset test on participation bitfields is set inclusion
-/
namespace Verif

/-- `bits_is_subset(a, b)` holds exactly when every validator in `a` is in `b`, for bitfields of
any two lengths. -/
theorem C57_subset_iff (a b : Bits) :
    bitsIsSubset a b = true ↔ ∀ v ∈ validatorIndices a, v ∈ validatorIndices b :=
  bitsIsSubset_iff_indices a b

/-- `validator_indices` lists exactly the set bits, in ascending order, without repetition. -/
theorem C57_indices (bits : Bits) :
    (∀ v : Nat, v ∈ validatorIndices bits ↔ bits[v]? = some true) ∧
    (validatorIndices bits).Pairwise (· < ·) := by
  refine ⟨fun v => mem_validatorIndices, ?_⟩
  exact List.Pairwise.filter _ List.pairwise_lt_range

/-- A set that differs only in the second byte, a shorter superset, and a longer non-subset. -/
example : bitsIsSubset [true, false, false, false, false, false, false, false, false, false]
      [true, true] = true ∧
    bitsIsSubset [true, false, false, false, false, false, false, false, false, true]
      [true, true] = false ∧
    validatorIndices [true, false, false, true] = [0, 3] := by decide +kernel

end Verif
