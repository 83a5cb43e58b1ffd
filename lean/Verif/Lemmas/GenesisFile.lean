import Verif.Spec.GenesisFile

namespace Verif.Genesis

open Verif
open Verif.Net (Bytes)

theorem digit_toNat : ∀ n, n < 16 → (digit n).toNat = if n < 10 then 48 + n else 87 + n := by decide

theorem toNat_inj {c d : Char} (h : c.toNat = d.toNat) : c = d := by
  rw [← Char.ofNat_toNat c, ← Char.ofNat_toNat d, h]

theorem lower_toNat (c : Char) :
    (lower c).toNat = if 65 ≤ c.toNat ∧ c.toNat ≤ 70 then c.toNat + 32 else c.toNat := by
  unfold lower
  split
  next h =>
    have : ∀ n, n < 71 → (Char.ofNat (n + 32)).toNat = n + 32 := by decide
    exact this _ (by omega)
  · rfl

theorem hexDigit_iff (c : Char) (n : Nat) : hexDigit c = some n ↔ n < 16 ∧ lower c = digit n := by
  have key : n < 16 → (lower c = digit n ↔ (lower c).toNat = (digit n).toNat) := fun _ =>
    ⟨fun h => by rw [h], toNat_inj⟩
  constructor
  · intro h
    have hn : n < 16 := by
      unfold hexDigit at h
      split at h
      · cases h; omega
      · split at h
        · cases h; omega
        · split at h
          · cases h; omega
          · cases h
    refine ⟨hn, (key hn).2 ?_⟩
    rw [lower_toNat, digit_toNat n hn]
    unfold hexDigit at h
    split at h
    · cases h; split <;> split <;> omega
    · split at h
      · cases h; split <;> split <;> omega
      · split at h
        · cases h; split <;> split <;> omega
        · cases h
  · rintro ⟨hn, h⟩
    have h := (key hn).1 h
    rw [lower_toNat, digit_toNat n hn] at h
    unfold hexDigit
    split
    next h1 => congr 1; split at h <;> split at h <;> omega
    next h1 =>
      split
      next h2 => congr 1; split at h <;> split at h <;> omega
      next h2 =>
        split
        next h3 => congr 1; split at h <;> split at h <;> omega
        next h3 => exfalso; split at h <;> split at h <;> omega

theorem digit_inj {m n : Nat} (hm : m < 16) (hn : n < 16) (h : digit m = digit n) : m = n := by
  have := congrArg Char.toNat h
  rw [digit_toNat m hm, digit_toNat n hn] at this
  split at this <;> split at this <;> omega

theorem hexDecode_iff : ∀ (l : List Char) (b : Bytes), hexDecode l = some b ↔ l.map lower = hexText b
  | [], b => by
    cases b with
    | nil => simp [hexDecode, hexText]
    | cons x b => simp [hexDecode, hexText]
  | [c], b => by
    cases b with
    | nil => simp [hexDecode, hexText]
    | cons x b => simp [hexDecode, hexText]
  | c :: d :: l, b => by
    have ih := hexDecode_iff l
    constructor
    · intro h
      unfold hexDecode at h
      split at h
      next x y bs hx hy hb =>
        cases h
        obtain ⟨x1, x2⟩ := (hexDigit_iff c x).1 hx
        obtain ⟨y1, y2⟩ := (hexDigit_iff d y).1 hy
        have e : (UInt8.ofNat (16 * x + y)).toNat = 16 * x + y := by
          rw [UInt8.toNat_ofNat']; omega
        show lower c :: lower d :: l.map lower = digit ((UInt8.ofNat (16 * x + y)).toNat / 16) ::
          digit ((UInt8.ofNat (16 * x + y)).toNat % 16) :: hexText bs
        rw [e, x2, y2, (ih bs).1 hb, show (16 * x + y) / 16 = x by omega, show (16 * x + y) % 16 = y by omega]
      · cases h
    · intro h
      cases b with
      | nil => simp [hexText] at h
      | cons x b =>
        have h : lower c :: lower d :: l.map lower = digit (x.toNat / 16) :: digit (x.toNat % 16) :: hexText b := h
        injection h with h1 h
        injection h with h2 h3
        have hx : x.toNat < 256 := x.toNat_lt
        have e1 := (hexDigit_iff c (x.toNat / 16)).2 ⟨by omega, h1⟩
        have e2 := (hexDigit_iff d (x.toNat % 16)).2 ⟨by omega, h2⟩
        have e3 := (ih b).2 h3
        unfold hexDecode
        rw [e1, e2, e3]
        dsimp only
        rw [Nat.div_add_mod, UInt8.ofNat_toNat]

theorem stripHex_cases (s : List Char) :
    (∃ l, s = '0' :: 'x' :: l ∧ stripHex s = l) ∨ ((∀ l, s ≠ '0' :: 'x' :: l) ∧ stripHex s = s) := by
  unfold stripHex
  split
  next l => exact .inl ⟨l, rfl, rfl⟩
  next h => exact .inr ⟨fun l e => h l e, rfl⟩

theorem no_prefix {l m : List Char} {b : Bytes} (h : l.map lower = hexText b) : l ≠ '0' :: 'x' :: m := by
  rintro rfl
  have := (hexDecode_iff _ b).2 h
  unfold hexDecode at this
  have hx : hexDigit 'x' = none := by decide
  rw [hx] at this
  split at this
  next h _ => cases h
  · cases this

theorem decode_key (s : List Char) (b : Bytes) :
    (hexDecode (stripHex s) = some b ∧ b.length = 52) ↔ KeyText s b := by
  unfold KeyText
  rw [hexDecode_iff, and_comm]
  refine and_congr_right fun _ => ?_
  rcases stripHex_cases s with ⟨l, e1, e2⟩ | ⟨e1, e2⟩
  · rw [e2]
    refine ⟨fun h => ⟨l, .inr e1, h⟩, ?_⟩
    rintro ⟨m, hm | hm, h⟩
    · subst hm
      exact absurd e1 (no_prefix h)
    · rw [e1] at hm
      cases hm
      exact h
  · rw [e2]
    refine ⟨fun h => ⟨s, .inl rfl, h⟩, ?_⟩
    rintro ⟨m, hm | hm, h⟩
    · subst hm; exact h
    · exact absurd hm (e1 m)

theorem unle_inj : ∀ {b b' : Bytes}, b.length = b'.length → Ssz.unle b = Ssz.unle b' → b = b'
  | [], [], _, _ => rfl
  | [], _ :: _, h, _ => by simp at h
  | _ :: _, [], h, _ => by simp at h
  | x :: b, y :: b', h, e => by
    have e : x.toNat + 256 * Ssz.unle b = y.toNat + 256 * Ssz.unle b' := e
    have hx : x.toNat < 256 := x.toNat_lt
    have hy : y.toNat < 256 := y.toNat_lt
    have e1 : x = y := UInt8.toNat_inj.1 (by omega)
    have e2 := unle_inj (b := b) (b' := b') (by simpa using h) (by omega)
    rw [e1, e2]

end Verif.Genesis
