import Verif.Lemmas.TrackRun
import Verif.Lemmas.PaceProgress
/-!
# The recurrence when the role is on, and after three slots without it
-/
namespace Verif.Node
open Verif

section
variable {on : Nat → Bool}

theorem pace_ok (on : Nat → Bool) (s : Nat) : (pace on s).Ok := by
  unfold pace
  generalize s - 3 = k
  induction k with
  | zero => exact ⟨Nat.zero_le _, show 1 < 3 by decide, .inr rfl⟩
  | succ k ih => exact ih.step _

theorem pace_slot (on : Nat → Bool) {s : Nat} (hs : 3 ≤ s) : (pace on s).slot = s := by
  unfold pace
  obtain ⟨k, rfl⟩ : ∃ k, s = k + 3 := ⟨s - 3, by omega⟩
  rw [Nat.add_sub_cancel]
  clear hs
  induction k with
  | zero => rfl
  | succ k ih =>
    unfold paceFrom
    rw [Pace.step_slot, ih]

theorem pace_run {a : Nat} (ha : 3 ≤ a) : ∀ n, (∀ i, a ≤ i → i < a + n → on i = true) →
    pace on (a + n) = Pace.run n (pace on a)
  | 0, _ => rfl
  | n + 1, h => by
    rw [Pace.run_add n 1, ← pace_run ha n (fun i h1 h2 => h i h1 (by omega)),
      show a + (n + 1) = a + n + 1 by omega, pace_succ (by omega), h (a + n) (by omega) (by omega)]
    rfl

theorem pace_before {a s : Nat} (h3 : 3 ≤ s) (hs : s ≤ a) :
    pace (offThree a) s = (Pace.mk 3 1 0 2).shift (s - 3) := by
  have h := pace_run (on := offThree a) (Nat.le_refl 3) (s - 3) (by
    intro i h1 h2
    unfold offThree
    simp only [Bool.not_eq_true', Bool.and_eq_false_iff, decide_eq_false_iff_not]
    omega)
  rw [show 3 + (s - 3) = s by omega] at h
  rw [h]
  show Pace.run (s - 3) ⟨3, 1, 0, 2⟩ = _
  clear h hs h3
  generalize s - 3 = k
  induction k with
  | zero => rfl
  | succ k ih =>
    rw [Pace.run_add k 1, ih, Pace.run_shift]
    have : Pace.run 1 (Pace.mk 3 1 0 2) = (Pace.mk 3 1 0 2).shift 1 := by decide +kernel
    rw [this]
    unfold Pace.shift
    simp only [Pace.mk.injEq]
    omega

theorem pace_slow_start {a : Nat} (ha : 3 ≤ a) :
    pace (offThree a) (a + 4) = (Pace.mk 7 3 0 6).shift (a - 3) := by
  have off : ∀ i, a ≤ i → i < a + 3 → offThree a i = false := by
    intro i h1 h2
    unfold offThree
    simp [h1, h2]
  have hon : offThree a (a + 3) = true := by
    unfold offThree
    simp
  rw [show a + 4 = a + 1 + 1 + 1 + 1 by omega, pace_succ (by omega), pace_succ (by omega),
    pace_succ (by omega), pace_succ ha, pace_before ha (Nat.le_refl _), off a (by omega) (by omega),
    off (a + 1) (by omega) (by omega), off (a + 1 + 1) (by omega) (by omega),
    show a + 1 + 1 + 1 = a + 3 by omega, hon, Pace.step_shift, Pace.step_shift, Pace.step_shift,
    Pace.step_shift]
  congr 1

theorem pace_slow {a : Nat} (ha : 3 ≤ a) (q : Nat) :
    pace (offThree a) (a + 4 + 6 * q) = (Pace.mk 7 3 0 6).shift (a - 3 + 6 * q) := by
  have h := pace_run (on := offThree a) (a := a + 4) (by omega) (6 * q) (by
    intro i h1 h2
    unfold offThree
    simp only [Bool.not_eq_true', Bool.and_eq_false_iff, decide_eq_false_iff_not]
    omega)
  rw [h, pace_slow_start ha, Pace.run_shift]
  clear h
  have : Pace.run (6 * q) (Pace.mk 7 3 0 6) = (Pace.mk 7 3 0 6).shift (6 * q) := by
    induction q with
    | zero => rfl
    | succ q ih =>
      rw [show 6 * (q + 1) = 6 * q + 6 by omega, Pace.run_add, ih, Pace.run_shift]
      have : Pace.run 6 (Pace.mk 7 3 0 6) = (Pace.mk 7 3 0 6).shift 6 := by decide +kernel
      rw [this]
      unfold Pace.shift
      simp only [Pace.mk.injEq]
      omega
  rw [this]
  unfold Pace.shift
  simp only [Pace.mk.injEq]
  omega

theorem pace_slow_fin {a s : Nat} (ha : 3 ≤ a) (hs : a + 4 ≤ s) :
    (pace (offThree a) s).fin + 7 + (s - (a + 4)) % 6 = s := by
  obtain ⟨q, r, hr, rfl⟩ : ∃ q r, r < 6 ∧ s = a + 4 + 6 * q + r :=
    ⟨(s - (a + 4)) / 6, (s - (a + 4)) % 6, Nat.mod_lt _ (by omega), by omega⟩
  have h := pace_run (on := offThree a) (a := a + 4 + 6 * q) (by omega) r (by
    intro i h1 h2
    unfold offThree
    simp only [Bool.not_eq_true', Bool.and_eq_false_iff, decide_eq_false_iff_not]
    omega)
  rw [h, pace_slow ha, Pace.run_shift]
  have h6 : ∀ r, r < 6 → (Pace.run r (Pace.mk 7 3 0 6)).fin = 0 := by decide +kernel
  show (Pace.run r (Pace.mk 7 3 0 6)).fin + (a - 3 + 6 * q) + 7 + _ = _
  rw [h6 r hr]
  omega

end
end Verif.Node
