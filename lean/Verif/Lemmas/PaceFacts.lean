import Verif.Lemmas.TrackVote
import Verif.Props.C01_Justifiable
/-!
# Facts about the recurrence of justification
-/
namespace Verif.Node
open Verif

/-- `n` slots in which the votes are aggregated. -/
def Pace.run : Nat → Pace → Pace
  | 0, p => p
  | n + 1, p => Pace.run n (p.step true)

/-- How far the finalized slot is behind. -/
def Pace.lag (p : Pace) : Nat := p.slot - p.fin

def Pace.shift (m : Nat) (p : Pace) : Pace := ⟨p.slot + m, p.just + m, p.fin + m, p.safe + m⟩

def Pace.norm (p : Pace) : Pace := ⟨p.slot - p.fin, p.just - p.fin, 0, p.safe - p.fin⟩

/-- What holds at the start of every slot. -/
structure Pace.Ok (p : Pace) : Prop where
  fin : p.fin ≤ p.just
  just : p.just < p.slot
  safe : p.safe = p.just ∨ p.safe + 1 = p.slot

theorem Pace.run_add (m n : Nat) (p : Pace) : Pace.run (m + n) p = Pace.run n (Pace.run m p) := by
  induction m generalizing p with
  | zero => rw [Nat.zero_add]; rfl
  | succ m ih =>
    rw [Nat.succ_add]
    exact ih _

theorem lastJustifiable_shift (m fin k : Nat) :
    lastJustifiable (fin + m) (k + m) = lastJustifiable fin k + m := by
  have hj : ∀ x, slotIsJustifiableAfter (x + m) (fin + m) = slotIsJustifiableAfter x fin := by
    intro x
    unfold slotIsJustifiableAfter
    rw [Nat.add_sub_add_right]
    by_cases h : x < fin
    · rw [if_pos h, if_pos (by omega)]
    · rw [if_neg h, if_neg (by omega)]
  induction k with
  | zero =>
    rw [Nat.zero_add]
    cases m with
    | zero => rfl
    | succ m =>
      unfold lastJustifiable
      rw [if_pos (.inl (by omega))]
      omega
  | succ k ih =>
    rw [show k + 1 + m = k + m + 1 by omega]
    unfold lastJustifiable
    rw [show k + m + 1 = k + 1 + m by omega, hj]
    by_cases h : k + 1 ≤ fin ∨ slotIsJustifiableAfter (k + 1) fin = true
    · rw [if_pos h, if_pos (h.imp (fun x => by omega) id)]
    · rw [if_neg h, if_neg (fun x => h (x.imp (fun x => by omega) id)), ih]

theorem Pace.aim_shift (m : Nat) (p : Pace) : (p.shift m).aim = p.aim + m := by
  unfold Pace.aim Pace.shift
  simp only
  rw [show max (p.safe + m) (p.slot + m - 3) = max p.safe (p.slot - 3) + m by omega,
    lastJustifiable_shift]
  omega

theorem Pace.closes_shift (m : Nat) (p : Pace) : (p.shift m).closes = p.closes := by
  have hj : ∀ x, slotIsJustifiableAfter (x + m) (p.fin + m) = slotIsJustifiableAfter x p.fin := by
    intro x
    unfold slotIsJustifiableAfter
    rw [Nat.add_sub_add_right]
    by_cases h : x < p.fin
    · rw [if_pos h, if_pos (by omega)]
    · rw [if_neg h, if_neg (by omega)]
  unfold Pace.closes
  rw [Pace.aim_shift]
  congr 1
  have : List.range' ((p.shift m).just + 1) (p.aim + m - ((p.shift m).just + 1)) =
      (List.range' (p.just + 1) (p.aim - (p.just + 1))).map (m + ·) := by
    rw [List.map_add_range']
    congr 1
    · show p.just + m + 1 = _; omega
    · show _ - (p.just + m + 1) = _; omega
  rw [this, List.any_map]
  congr 1
  funext x
  show slotIsJustifiableAfter (m + x) (p.fin + m) = _
  rw [Nat.add_comm]
  exact hj x

theorem Pace.step_shift (b : Bool) (m : Nat) (p : Pace) : (p.shift m).step b = (p.step b).shift m := by
  unfold Pace.step
  rw [Pace.aim_shift, Pace.closes_shift]
  by_cases h : b = true ∧ p.just < p.aim
  · rw [if_pos h, if_pos ⟨h.1, by show p.just + m < _; omega⟩]
    unfold Pace.shift
    simp only [Pace.mk.injEq]
    refine ⟨by omega, trivial, ?_, trivial⟩
    split <;> rfl
  · rw [if_neg h, if_neg (fun h' => h ⟨h'.1, by
      have : p.just + m < p.aim + m := h'.2
      omega⟩)]
    unfold Pace.shift
    simp only [Pace.mk.injEq]
    exact ⟨by omega, trivial, trivial, trivial⟩

theorem Pace.run_shift (n m : Nat) (p : Pace) : Pace.run n (p.shift m) = (Pace.run n p).shift m := by
  induction n generalizing p with
  | zero => rfl
  | succ n ih =>
    show Pace.run n ((p.shift m).step true) = _
    rw [Pace.step_shift, ih]
    rfl

theorem Pace.lag_shift (m : Nat) (p : Pace) : (p.shift m).lag = p.lag := by
  unfold Pace.lag Pace.shift
  simp only
  omega

theorem Pace.Ok.norm {p : Pace} (h : p.Ok) : p.norm.shift p.fin = p := by
  obtain ⟨s, j, f, z⟩ := p
  have h1 := h.fin
  have h2 := h.just
  have h3 := h.safe
  unfold Pace.norm Pace.shift
  simp only at *
  simp only [Pace.mk.injEq]
  omega

theorem Pace.fin_step (p : Pace) (b : Bool) (h : p.Ok) : p.fin ≤ (p.step b).fin := by
  have := h.fin
  unfold Pace.step
  split
  · show _ ≤ if _ then _ else _
    split <;> omega
  · exact Nat.le_refl _

theorem Pace.Ok.ofNorm {p : Pace} (h : p.Ok) : p.norm.Ok := by
  have h1 := h.fin
  have h2 := h.just
  have h3 := h.safe
  refine ⟨Nat.zero_le _, ?_, ?_⟩
  · show p.just - p.fin < p.slot - p.fin
    omega
  · show p.safe - p.fin = p.just - p.fin ∨ p.safe - p.fin + 1 = p.slot - p.fin
    omega

theorem Pace.Ok.step {p : Pace} (h : p.Ok) (b : Bool) : (p.step b).Ok := by
  have h1 := h.fin
  have h2 := h.just
  have h3 := h.safe
  have h4 := Pace.aim_le (p := p) (by omega) (by omega)
  unfold Pace.step
  split
  next hc =>
    refine ⟨?_, ?_, .inr rfl⟩
    · show (if _ then _ else _) ≤ p.aim
      have := hc.2
      split <;> omega
    · show p.aim < p.slot + 1
      omega
  · exact ⟨h1, by show p.just < p.slot + 1; omega, .inl rfl⟩

theorem Pace.Ok.run {p : Pace} (h : p.Ok) (n : Nat) : (Pace.run n p).Ok := by
  induction n generalizing p with
  | zero => exact h
  | succ n ih => exact ih (h.step true)

theorem Pace.step_slot (b : Bool) (p : Pace) : (p.step b).slot = p.slot + 1 := by
  unfold Pace.step
  split <;> rfl

theorem Pace.run_slot (n : Nat) (p : Pace) : (Pace.run n p).slot = p.slot + n := by
  induction n generalizing p with
  | zero => rfl
  | succ n ih =>
    show (Pace.run n (p.step true)).slot = _
    rw [ih, Pace.step_slot]
    omega

/-! ## Small lags -/

/-- Relative positions with a lag up to `b`. -/
def smallPaces (b : Nat) : List Pace :=
  (List.range (b + 1)).flatMap fun d => (List.range d).flatMap fun j =>
    [⟨d, j, 0, j⟩, ⟨d, j, 0, d - 1⟩]

theorem smallPaces_mem {p : Pace} (h : p.Ok) {b : Nat} (hb : p.lag ≤ b) : p.norm ∈ smallPaces b := by
  have h1 := h.fin
  have h2 := h.just
  have h3 := h.safe
  unfold Pace.lag at hb
  refine List.mem_flatMap.2 ⟨p.slot - p.fin, List.mem_range.2 (by omega),
    List.mem_flatMap.2 ⟨p.just - p.fin, List.mem_range.2 (by omega), ?_⟩⟩
  unfold Pace.norm
  rcases h3 with h3 | h3
  · rw [h3]; exact List.mem_cons_self
  · rw [show p.safe - p.fin = p.slot - p.fin - 1 by omega]
    exact List.mem_cons_of_mem _ List.mem_cons_self

/-- The relative positions that small lags lead to. -/
def tame (p : Pace) : Bool :=
  decide (p.slot ≤ 9) || [⟨10, 6, 0, 6⟩, ⟨10, 6, 0, 9⟩, ⟨10, 7, 0, 7⟩, ⟨10, 8, 0, 8⟩, ⟨11, 6, 0, 6⟩,
    ⟨11, 7, 0, 7⟩, ⟨11, 8, 0, 8⟩, ⟨12, 6, 0, 6⟩, ⟨12, 7, 0, 7⟩, ⟨12, 8, 0, 8⟩].contains p

/-- Distances that may be justified, up to 60. -/
def okTab (d : Nat) : Bool := decide (d ≤ 5) || [6, 9, 12, 16, 20, 25, 30, 36, 42, 49, 56].contains d

theorem okTab_eq : ∀ d, d < 60 → slotIsJustifiableAfter d 0 = okTab d := by
  decide +kernel

def lastTab : Nat → Nat
  | 0 => 0
  | k + 1 => if okTab (k + 1) = true then k + 1 else lastTab k

theorem lastTab_eq : ∀ k, k < 60 → lastJustifiable 0 k = lastTab k
  | 0, _ => rfl
  | k + 1, h => by
    unfold lastJustifiable lastTab
    rw [okTab_eq _ h, lastTab_eq k (by omega)]
    by_cases hc : okTab (k + 1) = true
    · rw [if_pos hc, if_pos (.inr hc)]
    · rw [if_neg hc, if_neg (by rintro (h | h); · omega
                                · exact hc h)]

/-- A slot, for small lags, with the relative position afterwards. -/
def stepTab (p : Pace) : Pace :=
  let aim := max p.just (lastTab (max p.safe (p.slot - 3)))
  if p.just < aim then
    if (List.range' (p.just + 1) (aim - (p.just + 1))).any okTab then ⟨p.slot + 1, aim, 0, p.slot⟩
    else ⟨p.slot + 1 - p.just, aim - p.just, 0, p.slot - p.just⟩
  else ⟨p.slot + 1, p.just, 0, p.just⟩

theorem stepTab_eq {p : Pace} (h : p.Ok) (hf : p.fin = 0) (hs : p.slot < 60) :
    (p.step true).norm = stepTab p := by
  obtain ⟨s, j, f, z⟩ := p
  obtain rfl : f = 0 := hf
  have h2 : j < s := h.just
  have h3 : z = j ∨ z + 1 = s := h.safe
  have hs : s < 60 := hs
  have ha : (Pace.mk s j 0 z).aim = max j (lastTab (max z (s - 3))) := by
    unfold Pace.aim
    rw [← lastTab_eq _ (by omega)]
  have hle := Pace.aim_le (p := Pace.mk s j 0 z) (by show j ≤ s; omega) (by show z ≤ s; omega)
  have hle : (Pace.mk s j 0 z).aim ≤ s := hle
  have hany : (List.range' (j + 1) ((Pace.mk s j 0 z).aim - (j + 1))).any
        (fun k => slotIsJustifiableAfter k 0) =
      (List.range' (j + 1) ((Pace.mk s j 0 z).aim - (j + 1))).any okTab := by
    apply Bool.eq_iff_iff.2
    simp only [List.any_eq_true]
    constructor <;> rintro ⟨x, hx, h⟩ <;> refine ⟨x, hx, ?_⟩
    · rw [← okTab_eq x (by have := List.mem_range'_1.1 hx; omega)]; exact h
    · rw [okTab_eq x (by have := List.mem_range'_1.1 hx; omega)]; exact h
  have hcl : (Pace.mk s j 0 z).closes =
      !(List.range' (j + 1) ((Pace.mk s j 0 z).aim - (j + 1))).any okTab := by
    rw [← hany]; rfl
  unfold Pace.step stepTab
  simp only
  rw [hcl, ← ha]
  by_cases hc : j < (Pace.mk s j 0 z).aim
  · rw [if_pos ⟨trivial, hc⟩, if_pos hc]
    cases (List.range' (j + 1) ((Pace.mk s j 0 z).aim - (j + 1))).any okTab <;>
      simp [Pace.norm]
  · rw [if_neg (fun h => hc h.2), if_neg hc]
    simp [Pace.norm]

/-- They are reached within `n` slots. -/
def soon : Nat → Pace → Bool
  | 0, p => tame p
  | n + 1, p => tame p || soon n (stepTab p)

theorem tame_closed : (smallPaces 12).all (fun p => !tame p || tame (stepTab p)) = true := by
  decide +kernel

/-- Every small lag leads there soon. -/
theorem tame_soon : (smallPaces 39).all (soon 10) = true := by
  decide +kernel

theorem norm_shift (m : Nat) (p : Pace) : (p.shift m).norm = p.norm := by
  unfold Pace.norm Pace.shift
  simp only [Nat.add_sub_add_right]

theorem Pace.Ok.step_norm {p : Pace} (h : p.Ok) (b : Bool) :
    (p.norm.step b).norm = (p.step b).norm := by
  rw [← norm_shift p.fin, ← Pace.step_shift, h.norm]

theorem tame_lag {p : Pace} (hp : tame p.norm = true) : p.lag ≤ 12 := by
  unfold tame at hp
  simp only [Bool.or_eq_true, decide_eq_true_eq, List.contains_cons, List.contains_nil,
    beq_iff_eq, Bool.or_false] at hp
  show p.norm.slot ≤ 12
  rcases hp with hp | hp | hp | hp | hp | hp | hp | hp | hp | hp | hp <;>
    first | omega | simp [hp]

theorem tame_stays {p : Pace} (h : p.Ok) (hp : tame p.norm = true) (n : Nat) :
    (Pace.run n p).lag ≤ 12 := by
  induction n generalizing p with
  | zero => exact tame_lag hp
  | succ n ih =>
    refine ih (h.step true) ?_
    have := List.all_eq_true.1 tame_closed _ (smallPaces_mem h (tame_lag hp))
    rw [hp, ← stepTab_eq h.ofNorm rfl
      (Nat.lt_of_le_of_lt (show p.norm.slot ≤ 12 from tame_lag hp) (by omega)), h.step_norm] at this
    exact this

theorem soon_spec {p : Pace} (h : p.Ok) : ∀ {n : Nat}, p.lag + n < 60 → soon n p.norm = true →
    ∃ k, k ≤ n ∧ tame (Pace.run k p).norm = true
  | 0, _, hn => ⟨0, Nat.le_refl _, hn⟩
  | n + 1, hl, hn => by
    unfold soon at hn
    rcases Bool.or_eq_true_iff.1 hn with hn | hn
    · exact ⟨0, Nat.zero_le _, hn⟩
    · rw [← stepTab_eq h.ofNorm rfl (by show p.lag < 60; omega), h.step_norm] at hn
      have hm : (p.step true).lag ≤ p.lag + 1 := by
        have := h.fin
        have := p.fin_step true h
        unfold Pace.lag
        rw [Pace.step_slot]
        omega
      obtain ⟨k, h1, h2⟩ := soon_spec (h.step true) (by omega) hn
      exact ⟨k + 1, by omega, h2⟩

theorem small_settles {p : Pace} (h : p.Ok) (hl : p.lag ≤ 39) {n : Nat} (hn : p.lag ≤ n) :
    (Pace.run n p).lag ≤ 12 := by
  obtain ⟨k, hk, ht⟩ : ∃ k, k ≤ p.lag ∧ tame (Pace.run k p).norm = true := by
    by_cases hs : p.lag ≤ 9
    · refine ⟨0, Nat.zero_le _, ?_⟩
      show tame p.norm = true
      unfold tame
      rw [decide_eq_true (show p.norm.slot ≤ 9 from hs)]
      rfl
    · obtain ⟨k, h1, h2⟩ := soon_spec h (n := 10) (by omega) (List.all_eq_true.1 tame_soon _ (smallPaces_mem h hl))
      exact ⟨k, by omega, h2⟩
  obtain ⟨m, rfl⟩ := Nat.le.dest (Nat.le_trans hk hn)
  rw [Pace.run_add]
  exact tame_stays (h.run k) ht m

end Verif.Node
