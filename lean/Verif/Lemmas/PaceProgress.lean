import Verif.Lemmas.PaceFacts
/-!
# Large lags shrink
-/
namespace Verif.Node
open Verif

theorem lastJustifiable_ge {fin x : Nat} (hx : slotIsJustifiableAfter x fin = true) :
    ∀ k, x ≤ k → x ≤ lastJustifiable fin k
  | 0, h => by omega
  | k + 1, h => by
    unfold lastJustifiable
    split
    · exact h
    next hc =>
      rcases Nat.lt_or_ge k x with hlt | hge
      · obtain rfl : x = k + 1 := by omega
        exact absurd (.inr hx) hc
      · exact lastJustifiable_ge hx k hge

/-- Consecutive distances that may be justified. -/
theorem no_between {k d : Nat} (hk : 7 ≤ k) (h1 : k * k < d) (h2 : d ≤ k * k + k + 3)
    (h3 : d ≠ k * k + k) : ¬ JustifiableDistance d := by
  rintro (h | ⟨m, rfl⟩ | ⟨m, rfl⟩)
  · nlinarith
  · have a : k < m := by
      by_contra hc
      have : m * m ≤ k * k := Nat.mul_le_mul (by omega) (by omega)
      omega
    have b : (k + 1) * (k + 1) ≤ m * m := Nat.mul_le_mul a a
    nlinarith
  · have a : k ≤ m := by
      by_contra hc
      have : m * (m + 1) ≤ k * k := Nat.mul_le_mul (by omega) (by omega)
      omega
    rcases Nat.lt_or_ge k m with hlt | hge
    · have b : (k + 1) * (k + 2) ≤ m * (m + 1) := Nat.mul_le_mul hlt (by omega)
      nlinarith
    · obtain rfl : m = k := by omega
      apply h3
      ring

theorem square_ok {f k : Nat} (hk : k < 2 ^ 30) : slotIsJustifiableAfter (f + k * k) f = true := by
  rw [C01_justifiable_iff _ _ (by
    rw [Nat.add_sub_cancel_left]
    have : k * k ≤ 2 ^ 30 * 2 ^ 30 := Nat.mul_le_mul (by omega) (by omega)
    omega)]
  refine ⟨by omega, .inr (.inl ⟨k, by omega⟩)⟩

theorem pronic_ok {f k : Nat} (hk : k < 2 ^ 30) :
    slotIsJustifiableAfter (f + k * (k + 1)) f = true := by
  rw [C01_justifiable_iff _ _ (by
    rw [Nat.add_sub_cancel_left]
    have : k * (k + 1) ≤ 2 ^ 30 * 2 ^ 30 := Nat.mul_le_mul (by omega) (by omega)
    omega)]
  refine ⟨by omega, .inr (.inr ⟨k, by omega⟩)⟩

theorem Pace.not_closes {p : Pace} {x : Nat} (h1 : p.just < x) (h2 : x < p.aim)
    (hx : slotIsJustifiableAfter x p.fin = true) : p.closes = false := by
  unfold Pace.closes
  rw [Bool.not_eq_false', List.any_eq_true]
  exact ⟨x, List.mem_range'_1.2 ⟨by omega, by omega⟩, hx⟩

theorem Pace.closes_of {p : Pace}
    (h : ∀ x, p.just < x → x < p.aim → slotIsJustifiableAfter x p.fin = false) : p.closes = true := by
  unfold Pace.closes
  rw [Bool.not_eq_true', List.any_eq_false]
  intro x hx
  have := List.mem_range'_1.1 hx
  rw [h x (by omega) (by omega)]
  simp

/-- A slot either keeps the finalized slot, or finalizes the justified one, because the target is the
first slot after it that may be justified. -/
theorem Pace.step_fin (p : Pace) : (p.step true).fin = p.fin ∨
    ((p.step true).fin = p.just ∧ p.just < p.aim ∧ p.closes = true) := by
  unfold Pace.step
  split
  next hc =>
    cases hcl : p.closes with
    | true => exact .inr ⟨by simp, hc.2, rfl⟩
    | false => exact .inl (by simp)
  · exact .inl rfl

theorem Pace.step_just (p : Pace) : (p.step true).just = p.aim := by
  have := p.just_le
  unfold Pace.step
  split
  · rfl
  next hc =>
    show p.just = p.aim
    have : ¬ p.just < p.aim := fun h => hc ⟨rfl, h⟩
    omega

/-- Before slot `f + k² + 3`: finality moves close to the head, or the slot `f + k²` is justified. -/
theorem early {f k : Nat} (hk : 7 ≤ k) (hk' : k < 2 ^ 30) : ∀ (m : Nat) {p : Pace}, p.Ok → p.fin = f →
    f + (k - 1) * (k - 1) + 3 < p.slot → p.slot + m = f + k * k + 4 → 1 ≤ m →
    (∃ n, 1 ≤ n ∧ n ≤ m ∧ (Pace.run n p).lag ≤ 3 * k + 2) ∨
    ((Pace.run m p).fin = f ∧ f + k * k ≤ (Pace.run m p).just)
  | 0, p, _, _, _, _, h => by omega
  | m + 1, p, h, hf, hlo, hhi, _ => by
    obtain ⟨q, rfl⟩ : ∃ q, k = q + 1 := ⟨k - 1, by omega⟩
    rw [Nat.add_sub_cancel] at hlo
    rcases p.step_fin with hs | ⟨hs, hlt, hcl⟩
    · cases m with
      | zero =>
        refine .inr ⟨by show (p.step true).fin = f; rw [hs, hf], ?_⟩
        show _ ≤ (p.step true).just
        rw [p.step_just]
        unfold Pace.aim
        have := lastJustifiable_ge (square_ok (f := p.fin) hk') (max p.safe (p.slot - 3))
          (by omega)
        omega
      | succ m =>
        rcases early hk hk' (m + 1) (h.step true) (hs.trans hf)
            (by rw [Pace.step_slot, Nat.add_sub_cancel]; omega)
            (by rw [Pace.step_slot]; omega) (by omega) with ⟨n, h1, h2, h3⟩ | h1
        · exact .inl ⟨n + 1, by omega, by omega, h3⟩
        · exact .inr h1
    · refine .inl ⟨1, Nat.le_refl _, by omega, ?_⟩
      show (p.step true).lag ≤ _
      unfold Pace.lag
      rw [Pace.step_slot, hs]
      have haim : f + q * q ≤ p.aim := by
        unfold Pace.aim
        have := lastJustifiable_ge (square_ok (f := p.fin) (k := q) (by omega))
          (max p.safe (p.slot - 3)) (by omega)
        omega
      obtain ⟨r, rfl⟩ : ∃ r, q = r + 1 := ⟨q - 1, by omega⟩
      have hj : f + r * (r + 1) ≤ p.just := by
        by_contra hc
        have := Pace.not_closes (p := p) (x := p.fin + r * (r + 1)) (by omega) (by
          have : r * (r + 1) < (r + 1) * (r + 1) := by nlinarith
          omega) (pronic_ok (by omega))
        rw [hcl] at this
        cases this
      have e1 : (r + 1 + 1) * (r + 1 + 1) = r * r + 4 * r + 4 := by ring
      have e2 : r * (r + 1) = r * r + r := by ring
      omega

/-- After it, finality moves by slot `f + k² + k + 3`. -/
theorem late {f k : Nat} (hk : 7 ≤ k) (hk' : k < 2 ^ 30) : ∀ (m : Nat) {p : Pace}, p.Ok → p.fin = f →
    f + k * k ≤ p.just → p.just ≤ f + k * k + 3 → f + k * k + 4 ≤ p.slot →
    p.slot + m = f + k * k + k + 4 → 1 ≤ m →
    ∃ n, 1 ≤ n ∧ n ≤ m ∧ (Pace.run n p).lag ≤ k + 4
  | 0, p, _, _, _, _, _, _, h => by omega
  | m + 1, p, h, hf, hj1, hj2, hs1, hs2, _ => by
    have hsafe := h.safe
    have hjs := h.just
    have hle := lastJustifiable_le p.fin (max p.safe (p.slot - 3))
    have hok := lastJustifiable_ok p.fin (max p.safe (p.slot - 3))
    have haim : p.aim = max p.just (lastJustifiable p.fin (max p.safe (p.slot - 3))) := rfl
    have hnone : ∀ x, f + k * k < x → x ≤ f + k * k + k + 3 → x ≠ f + k * k + k →
        slotIsJustifiableAfter x p.fin = false := by
      intro x h1 h2 h3
      cases hx : slotIsJustifiableAfter x p.fin with
      | false => rfl
      | true =>
        have := (C01_justifiable_sound _ _ hx).2
        rw [hf] at this
        exact absurd this (no_between hk (by omega) (by omega) (by omega))
    by_cases hlt : p.just < p.aim
    · have hjl : lastJustifiable p.fin (max p.safe (p.slot - 3)) = p.aim := by omega
      have hx : p.aim = f + k * k + k := by
        by_contra hne
        rcases hok with hok | hok
        · omega
        · rw [hjl, hnone p.aim (by omega) (by omega) hne] at hok
          cases hok
      have hcl : p.closes = true := Pace.closes_of (fun x h1 h2 => hnone x (by omega) (by omega) (by omega))
      refine ⟨1, Nat.le_refl _, by omega, ?_⟩
      show (p.step true).lag ≤ _
      unfold Pace.lag
      rw [Pace.step_slot]
      have : (p.step true).fin = p.just := by
        unfold Pace.step
        rw [if_pos ⟨rfl, hlt⟩]
        simp [hcl]
      omega
    · have haj : p.aim = p.just := by have := p.just_le; omega
      cases m with
      | zero =>
        have hp : slotIsJustifiableAfter (f + k * k + k) p.fin = true := by
          have := pronic_ok (f := f) hk'
          rw [show f + k * (k + 1) = f + k * k + k by ring] at this
          rw [hf]; exact this
        have := lastJustifiable_ge hp (max p.safe (p.slot - 3)) (by omega)
        omega
      | succ m =>
        have hstep : p.step true = ⟨p.slot + 1, p.just, p.fin, p.just⟩ := by
          unfold Pace.step
          rw [if_neg (fun h => hlt h.2)]
        obtain ⟨n, h1, h2, h3⟩ := late (f := f) hk hk' (m + 1) (h.step true) (by rw [hstep]; exact hf)
          (by rw [hstep]; exact hj1) (by rw [hstep]; exact hj2)
          (by rw [hstep]; show _ ≤ p.slot + 1; omega) (by rw [hstep]; show p.slot + 1 + _ = _; omega)
          (by omega)
        exact ⟨n + 1, by omega, by omega, h3⟩

/-- A large lag shrinks, and soon. -/
theorem large_shrinks {p : Pace} (h : p.Ok) (hl : 40 ≤ p.lag) (hs : p.slot ≤ 2 ^ 32) :
    ∃ n, 1 ≤ n ∧ (Pace.run n p).lag + n ≤ p.lag := by
  obtain ⟨q, hq1, hq2⟩ : ∃ q, q * q < p.lag - 3 ∧ p.lag - 3 ≤ (q + 1) * (q + 1) := by
    refine ⟨Nat.sqrt (p.lag - 4), ?_, ?_⟩
    · have := Nat.sqrt_le (p.lag - 4)
      omega
    · have := Nat.lt_succ_sqrt (p.lag - 4)
      have : p.lag - 4 < (Nat.sqrt (p.lag - 4) + 1) * (Nat.sqrt (p.lag - 4) + 1) := this
      omega
  have hq : 6 ≤ q := by
    by_contra hc
    have : (q + 1) * (q + 1) ≤ 6 * 6 := Nat.mul_le_mul (by omega) (by omega)
    omega
  have hf := h.fin
  have hj := h.just
  have hd : p.slot = p.fin + p.lag := by unfold Pace.lag; omega
  have hk' : q + 1 < 2 ^ 30 := by
    by_contra hc
    have : (2 ^ 29) * (2 ^ 29) ≤ q * q := Nat.mul_le_mul (by omega) (by omega)
    omega
  have e1 : (q + 1) * (q + 1) = q * q + 2 * q + 1 := by ring
  have e2 : 6 * q ≤ q * q := Nat.mul_le_mul hq (Nat.le_refl _)
  obtain ⟨m, hm⟩ : ∃ m, p.slot + m = p.fin + (q + 1) * (q + 1) + 4 :=
    ⟨p.fin + (q + 1) * (q + 1) + 4 - p.slot, by omega⟩
  rcases early (f := p.fin) (k := q + 1) (by omega) hk' m h rfl
      (by rw [Nat.add_sub_cancel]; omega) hm (by omega) with ⟨n, h1, h2, h3⟩ | ⟨h1, h2⟩
  · exact ⟨n, h1, by omega⟩
  · have hr := h.run m
    have hsl := Pace.run_slot m p
    have := hr.just
    obtain ⟨n, h3, h4, h5⟩ := late (f := p.fin) (k := q + 1) (by omega) hk' (q + 1) hr h1 h2 (by omega)
      (by omega) (by omega) (by omega)
    refine ⟨m + n, by omega, ?_⟩
    rw [Pace.run_add]
    omega

/-- Whatever the lag, after as many slots it is at most twelve, for good. -/
theorem settles {p : Pace} (h : p.Ok) {n : Nat} (hn : p.lag ≤ n) (hs : p.slot + n ≤ 2 ^ 32) :
    (Pace.run n p).lag ≤ 12 := by
  suffices H : ∀ (b : Nat) (p : Pace), p.lag ≤ b → p.Ok → ∀ n, p.lag ≤ n → p.slot + n ≤ 2 ^ 32 →
      (Pace.run n p).lag ≤ 12 from H _ p (Nat.le_refl _) h n hn hs
  intro b
  induction b with
  | zero => intro p hb h n hn _; exact small_settles h (by omega) hn
  | succ b ih =>
    intro p hb h n hn hs
    rcases Nat.lt_or_ge p.lag 40 with hlt | hge
    · exact small_settles h (by omega) hn
    · obtain ⟨k, k1, k2⟩ := large_shrinks h hge (by omega)
      obtain ⟨m, rfl⟩ : ∃ m, n = k + m := ⟨n - k, by omega⟩
      rw [Pace.run_add]
      exact ih _ (by omega) (h.run k) m (by omega) (by rw [Pace.run_slot]; omega)

end Verif.Node
