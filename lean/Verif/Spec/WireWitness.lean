import Verif.Spec.Wire

/-
A concrete framing that satisfies what is assumed of the crate `snap` (`SnappyOk`): every chunk is
stored uncompressed (chunk type 1), at most 65536 bytes each, with a zero checksum.  It shows that the
assumption can be met and gives the examples something to run on.
-/

namespace Verif.Net.Wire

/-- One uncompressed chunk. -/
def rawChunk (d : Bytes) : Bytes :=
  let n := d.length + 4
  (1 : UInt8) :: UInt8.ofNat (n % 256) :: UInt8.ofNat (n / 256 % 256) :: UInt8.ofNat (n / 65536) ::
    ([0, 0, 0, 0] ++ d)

def rawEncFuel : Nat → Bytes → Bytes
  | 0, _ => []
  | fuel + 1, d =>
    if d.length = 0 then [] else rawChunk (d.take 65536) ++ rawEncFuel fuel (d.drop 65536)

def rawDecFuel : Nat → Bytes → Bytes
  | 0, _ => []
  | fuel + 1, s =>
    if s.length = 0 then []
    else
      let n := chunkBodyLen (s.take 4)
      (((s.drop 4).take n).drop 4) ++ rawDecFuel fuel ((s.drop 4).drop n)

def raw : Snappy where
  enc d := rawEncFuel d.length d
  blockLen _ := none
  dec s n := let d := rawDecFuel s.length s; if d.length = n then some d else none

theorem ofNat_toNat (n : Nat) (h : n < 256) : (UInt8.ofNat n).toNat = n := by
  simp [UInt8.toNat_ofNat']; omega

theorem rawChunk_isChunk (d : Bytes) (h : d.length ≤ 65536) : IsChunk raw (rawChunk d) d.length := by
  refine ⟨_, _, _, _, _, rfl, ?_, ?_⟩
  · rw [ofNat_toNat _ (by omega), ofNat_toNat _ (by omega), ofNat_toNat _ (by omega)]
    simp only [List.length_append, List.length_cons, List.length_nil]
    omega
  · exact .inr (.inl ⟨rfl, by simp only [List.length_append, List.length_cons, List.length_nil]⟩)

theorem rawChunk_length (d : Bytes) : (rawChunk d).length = d.length + 8 := by
  simp [rawChunk]

theorem rawEnc_frame : ∀ (fuel : Nat) (d : Bytes), d.length ≤ fuel → d ≠ [] →
    IsFrame raw d.length (rawEncFuel fuel d) := by
  intro fuel
  induction fuel with
  | zero => intro d h hd; exact absurd (List.length_eq_zero_iff.mp (by omega)) hd
  | succ fuel ih =>
    intro d h hd
    have h0 : d.length ≠ 0 := fun h => hd (List.length_eq_zero_iff.mp h)
    simp only [rawEncFuel]
    rw [if_neg h0]
    by_cases hs : d.length ≤ 65536
    · have ht : d.take 65536 = d := List.take_of_length_le hs
      have hdr : d.drop 65536 = [] := List.drop_eq_nil_of_le hs
      have he : rawEncFuel fuel [] = [] := by cases fuel <;> simp [rawEncFuel]
      rw [ht, hdr, he, List.append_nil]
      exact IsFrame.last _ _ (by omega) (rawChunk_isChunk d hs)
    · have hl : (d.take 65536).length = 65536 := by rw [List.length_take]; omega
      have hl2 : (d.drop 65536).length = d.length - 65536 := List.length_drop
      have hc := rawChunk_isChunk (d.take 65536) (by omega)
      rw [hl] at hc
      refine IsFrame.cons _ 65536 _ _ (by omega) hc ?_
      rw [← hl2]
      refine ih _ (by omega) ?_
      intro hn
      rw [hn] at hl2
      simp at hl2
      omega

theorem rawEnc_length : ∀ (fuel : Nat) (d : Bytes),
    65536 * (rawEncFuel fuel d).length ≤ 65544 * d.length + 8 * 65536 := by
  intro fuel
  induction fuel with
  | zero => intro d; simp [rawEncFuel]
  | succ fuel ih =>
    intro d
    simp only [rawEncFuel]
    by_cases h0 : d.length = 0
    · rw [if_pos h0]; simp
    · rw [if_neg h0]
      have hl : (d.take 65536).length = min 65536 d.length := List.length_take
      have hl2 : (d.drop 65536).length = d.length - 65536 := List.length_drop
      have := ih (d.drop 65536)
      simp only [List.length_append, rawChunk_length]
      by_cases hs : d.length ≤ 65536
      · have hdr : d.drop 65536 = [] := List.drop_eq_nil_of_le hs
        have he : rawEncFuel fuel [] = [] := by cases fuel <;> simp [rawEncFuel]
        rw [hdr, he, hl]
        simp only [List.length_nil]
        omega
      · omega

theorem rawDec_enc : ∀ (fuel : Nat) (d : Bytes) (m : Nat), d.length ≤ fuel →
    (rawEncFuel fuel d).length ≤ m → rawDecFuel m (rawEncFuel fuel d) = d := by
  intro fuel
  induction fuel with
  | zero =>
    intro d m h _
    have : d = [] := List.length_eq_zero_iff.mp (by omega)
    subst this
    cases m <;> simp [rawEncFuel, rawDecFuel]
  | succ fuel ih =>
    intro d m h hm
    simp only [rawEncFuel] at hm ⊢
    by_cases h0 : d.length = 0
    · have : d = [] := List.length_eq_zero_iff.mp h0
      subst this
      cases m <;> simp [rawDecFuel]
    · rw [if_neg h0] at hm ⊢
      have hl : (d.take 65536).length = min 65536 d.length := List.length_take
      have hl2 : (d.drop 65536).length = d.length - 65536 := List.length_drop
      simp only [List.length_append, rawChunk_length] at hm
      match m, (by omega : 0 < m) with
      | m + 1, _ =>
        obtain ⟨ty, a, b, c, data, hc, hlen, _⟩ := rawChunk_isChunk (d.take 65536) (by omega)
        have hdata : data = [0, 0, 0, 0] ++ d.take 65536 := by
          simp only [rawChunk, List.cons.injEq] at hc
          exact hc.2.2.2.2.symm
        simp only [rawDecFuel]
        rw [hc, if_neg (by simp)]
        have hh : chunkBodyLen ((ty :: a :: b :: c :: data ++ rawEncFuel fuel (d.drop 65536)).take 4)
            = data.length := by
          rw [hlen]; simp [chunkBodyLen]
        have hd4 : (ty :: a :: b :: c :: data ++ rawEncFuel fuel (d.drop 65536)).drop 4
            = data ++ rawEncFuel fuel (d.drop 65536) := by simp
        rw [hh, hd4, List.take_left, List.drop_left]
        rw [ih (d.drop 65536) m (by omega) (by omega), hdata]
        simp

theorem raw_ok : SnappyOk raw where
  empty := rfl
  frame d hd _ := rawEnc_frame _ d (Nat.le_refl _) hd
  size d hd := by
    have h1 := rawEnc_length d.length d
    have h2 : maxSend = 10484736 := maxSend_eq
    have h3 : maxCompressed = 12234442 := maxCompressed_eq
    show (rawEncFuel d.length d).length ≤ _
    omega
  inverse d _ := by
    simp only [raw]
    rw [rawDec_enc _ d _ (Nat.le_refl _) (Nat.le_refl _), if_pos rfl]

end Verif.Net.Wire
