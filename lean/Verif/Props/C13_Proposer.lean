import Verif.Model.StateTransition
/-!
# C13: exactly one proposer per slot, round-robin
-/
namespace Verif

/-- With at least one validator, every slot has exactly one proposer, a registered index. -/
theorem C13_unique_proposer (slot n : Nat) (hn : 0 < n) :
    ∃ v, v < n ∧ isProposer v slot n = true ∧ ∀ w, isProposer w slot n = true → w = v := by
  refine ⟨slot % n, Nat.mod_lt _ hn, ?_, ?_⟩
  · simp [isProposer, currentProposer, hn]
  · intro w hw
    simp only [isProposer, currentProposer, hn, if_true, decide_eq_true_eq,
      Option.some.injEq] at hw
    exact hw.symm

/-- With no validators nobody proposes. -/
theorem C13_no_validators (v slot : Nat) : isProposer v slot 0 = false := by
  simp [isProposer, currentProposer]

/-- In any window of `n` consecutive slots every validator proposes in exactly one slot. -/
theorem C13_round_robin (start n v : Nat) (hv : v < n) :
    ∃ k, start ≤ k ∧ k < start + n ∧ isProposer v k n = true ∧
      ∀ m, start ≤ m → m < start + n → isProposer v m n = true → m = k := by
  have hn : 0 < n := by omega
  have key : ∀ m, isProposer v m n = true ↔ m % n = v := by
    intro m; simp [isProposer, currentProposer, hn]
  have hd := Nat.div_add_mod start n
  have hm := Nat.mod_lt start hn
  -- the first slot ≥ start congruent to v
  by_cases hle : start % n ≤ v
  · refine ⟨start + (v - start % n), by omega, by omega, ?_, ?_⟩
    · rw [key]
      have : start + (v - start % n) = n * (start / n) + v := by omega
      rw [this, Nat.mul_add_mod]
      exact Nat.mod_eq_of_lt hv
    · intro m h1 h2 h3
      rw [key] at h3
      have hdm := Nat.div_add_mod m n
      rw [h3] at hdm
      have hq : m / n = start / n := by
        apply Nat.le_antisymm
        · by_contra hc
          have : n * (start / n + 1) ≤ n * (m / n) := Nat.mul_le_mul_left n (by omega)
          rw [Nat.mul_add] at this
          omega
        · exact Nat.div_le_div_right h1
      rw [hq] at hdm
      omega
  · refine ⟨start + (v + n - start % n), by omega, by omega, ?_, ?_⟩
    · rw [key]
      have : start + (v + n - start % n) = n * (start / n + 1) + v := by
        rw [Nat.mul_add]; omega
      rw [this, Nat.mul_add_mod]
      exact Nat.mod_eq_of_lt hv
    · intro m h1 h2 h3
      rw [key] at h3
      have hdm := Nat.div_add_mod m n
      rw [h3] at hdm
      have hq : m / n = start / n + 1 := by
        apply Nat.le_antisymm
        · by_contra hc
          have : n * (start / n + 2) ≤ n * (m / n) := Nat.mul_le_mul_left n (by omega)
          rw [Nat.mul_add] at this
          omega
        · by_contra hc
          have : n * (m / n) ≤ n * (start / n) := Nat.mul_le_mul_left n (by omega)
          omega
      rw [hq, Nat.mul_add] at hdm
      omega

/-- A block whose proposer index is not the slot's proposer is rejected. -/
theorem C13_wrong_proposer_rejected (H : Hash) (s : State) (b : Block)
    (h : isProposer b.proposerIndex b.slot s.validators.length = false) :
    ∃ e, stateTransition H s b = .error e := by
  unfold stateTransition
  split
  · exact ⟨_, rfl⟩
  · next s1 h1 =>
    have hv : s1.validators = s.validators := by
      unfold processSlots at h1
      split at h1
      · cases h1
      · cases h1; simp only; split <;> rfl
    have : ∃ e, processBlock H s1 b = .error e := by
      unfold processBlock
      have : ∃ e, processBlockHeader H s1 b = .error e := by
        unfold processBlockHeader
        simp only
        split
        · exact ⟨_, rfl⟩
        split
        · exact ⟨_, rfl⟩
        split
        · exact ⟨_, rfl⟩
        · next ex hex =>
          rw [if_pos]
          · exact ⟨_, rfl⟩
          · intro hc
            rw [hv] at hex
            simp only [isProposer, decide_eq_false_iff_not] at h
            rw [hex, hc] at h
            exact h rfl
      obtain ⟨e, he⟩ := this
      rw [he]
      exact ⟨e, rfl⟩
    obtain ⟨e, he⟩ := this
    rw [he]
    exact ⟨e, rfl⟩

/-- Non-vacuity. -/
example : isProposer 2 5 3 = true ∧ isProposer 1 5 3 = false ∧ (2 : Nat) < 3 := by decide

end Verif
