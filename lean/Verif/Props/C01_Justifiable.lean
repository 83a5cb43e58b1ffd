import Verif.Model.Justifiable
import Mathlib.Data.Nat.Sqrt
import Mathlib.Tactic.Ring
import Mathlib.Tactic.Linarith
/-!
# C01 — justifiable slots are exactly the 3SF-mini set
-/
namespace Verif

/-- Specification: distance `d` is at most five, a perfect square, or pronic. -/
def JustifiableDistance (d : Nat) : Prop :=
  d ≤ 5 ∨ (∃ k, d = k * k) ∨ (∃ k, d = k * (k + 1))

theorem sqrt_sq_eq_iff (d : Nat) : Nat.sqrt d ^ 2 = d ↔ ∃ k, d = k * k := by
  rw [pow_two, ← Nat.exists_mul_self]
  exact ⟨fun ⟨k, h⟩ => ⟨k, h.symm⟩, fun ⟨k, h⟩ => ⟨k, h.symm⟩⟩

theorem odd_square_iff_pronic (d : Nat) :
    (Nat.sqrt (d * 4 + 1) ^ 2 = d * 4 + 1 ∧ (d * 4 + 1) % 2 = 1) ↔ ∃ k, d = k * (k + 1) := by
  rw [sqrt_sq_eq_iff]
  constructor
  · rintro ⟨⟨m, hm⟩, -⟩
    have hodd : m % 2 = 1 := by
      rcases Nat.mod_two_eq_zero_or_one m with h | h
      · exfalso
        obtain ⟨c, rfl⟩ : ∃ c, m = 2 * c := ⟨m / 2, by omega⟩
        have : 2 * c * (2 * c) = 2 * (2 * (c * c)) := by ring
        omega
      · exact h
    obtain ⟨c, rfl⟩ : ∃ c, m = 2 * c + 1 := ⟨m / 2, by omega⟩
    refine ⟨c, ?_⟩
    have : (2 * c + 1) * (2 * c + 1) = 4 * (c * (c + 1)) + 1 := by ring
    omega
  · rintro ⟨k, rfl⟩
    refine ⟨⟨2 * k + 1, by ring⟩, by omega⟩

/-- C01. For every pair of slots: if `4·distance + 1` fits in 64 bits the answer is exactly the
3SF-mini rule. -/
theorem C01_justifiable_iff (slot fin : Nat) (h : 4 * (slot - fin) + 1 < 2 ^ 64) :
    slotIsJustifiableAfter slot fin = true ↔ fin ≤ slot ∧ JustifiableDistance (slot - fin) := by
  unfold slotIsJustifiableAfter JustifiableDistance
  by_cases hlt : slot < fin
  · simp [hlt]
  · have h1 : checkedU64 ((slot - fin) * 4) = some ((slot - fin) * 4) := by
      unfold checkedU64; rw [if_pos (by omega)]
    have h2 : checkedU64 ((slot - fin) * 4 + 1) = some ((slot - fin) * 4 + 1) := by
      unfold checkedU64; rw [if_pos (by omega)]
    simp only [hlt, if_false, h1, Option.bind_some, h2, Bool.or_eq_true, decide_eq_true_eq]
    rw [odd_square_iff_pronic, sqrt_sq_eq_iff]
    have : fin ≤ slot := by omega
    tauto

/-- C01. For the remaining 64-bit distances the checked arithmetic drops the pronic rule: the
answer is exactly "a perfect square". So there is never a false positive at any distance. -/
theorem C01_justifiable_huge_distance (slot fin : Nat) (h : 2 ^ 64 ≤ 4 * (slot - fin) + 1) :
    slotIsJustifiableAfter slot fin = true ↔ ∃ k, slot - fin = k * k := by
  unfold slotIsJustifiableAfter
  have hlt : ¬ slot < fin := by omega
  have hb : (checkedU64 ((slot - fin) * 4)).bind (fun v => checkedU64 (v + 1)) = none := by
    unfold checkedU64
    by_cases h4 : (slot - fin) * 4 < 2 ^ 64
    · rw [if_pos h4, Option.bind_some, if_neg (by omega)]
    · rw [if_neg h4, Option.bind_none]
  simp only [hlt, if_false, hb, Bool.or_eq_true, decide_eq_true_eq, sqrt_sq_eq_iff]
  constructor
  · rintro ((h5 | hk) | hf)
    · omega
    · exact hk
    · exact absurd hf (by simp)
  · intro hk; exact Or.inl (Or.inr hk)

/-- Soundness for every pair of slots, without any bound. -/
theorem C01_justifiable_sound (slot fin : Nat) (h : slotIsJustifiableAfter slot fin = true) :
    fin ≤ slot ∧ JustifiableDistance (slot - fin) := by
  by_cases hb : 4 * (slot - fin) + 1 < 2 ^ 64
  · exact (C01_justifiable_iff slot fin hb).1 h
  · have hk := (C01_justifiable_huge_distance slot fin (by omega)).1 h
    exact ⟨by omega, Or.inr (Or.inl hk)⟩

/-- Finding: at distance `2³¹·(2³¹+1)`, which is pronic, the 64-bit implementation answers
"not justifiable" because `4·distance` overflows. -/
theorem C01_pronic_missed_at_overflow :
    JustifiableDistance (2 ^ 31 * (2 ^ 31 + 1)) ∧
    slotIsJustifiableAfter (2 ^ 31 * (2 ^ 31 + 1)) 0 = false ∧
    2 ^ 31 * (2 ^ 31 + 1) < 2 ^ 64 := by
  refine ⟨Or.inr (Or.inr ⟨2 ^ 31, rfl⟩), ?_, by norm_num⟩
  rw [Bool.eq_false_iff]
  intro h
  obtain ⟨k, hk⟩ := (C01_justifiable_huge_distance _ _ (by norm_num)).1 h
  have hk' : 2 ^ 31 * (2 ^ 31 + 1) = k * k := by simpa using hk
  rcases Nat.lt_or_ge k (2 ^ 31 + 1) with h1 | h1
  · have : k * k ≤ 2 ^ 31 * 2 ^ 31 := Nat.mul_le_mul (by omega) (by omega)
    omega
  · have : (2 ^ 31 + 1) * (2 ^ 31 + 1) ≤ k * k := Nat.mul_le_mul h1 h1
    omega

/-- The first few justifiable distances, non-trivial instances of the hypotheses. -/
example : slotIsJustifiableAfter 112 100 = true ∧ slotIsJustifiableAfter 109 100 = true
    ∧ slotIsJustifiableAfter 107 100 = false ∧ slotIsJustifiableAfter 99 100 = false := by
  refine ⟨?_, ?_, ?_, ?_⟩
  · exact (C01_justifiable_iff 112 100 (by norm_num)).2 ⟨by norm_num, Or.inr (Or.inr ⟨3, rfl⟩)⟩
  · exact (C01_justifiable_iff 109 100 (by norm_num)).2 ⟨by norm_num, Or.inr (Or.inl ⟨3, rfl⟩)⟩
  · decide +kernel
  · decide

end Verif
