import Verif.Lemmas.Wire

/-
C51 — length prefixes round-trip on the wire.

Full statement: encoding a 32-bit length and decoding it returns the length and leaves the following
bytes alone, and every accepted prefix is the canonical encoding of the returned length.

The second half is false (`C51_not_canonical`, `C51_wraps`): superfluous zero digits are accepted, and
the fifth byte's bits above bit 31 are dropped, so the prefix of the number 2^32 is read as 0.
`C51_canonical_partial` says what is left: an accepted prefix has one to five bytes, the returned
length is its value modulo 2^32, and it is the canonical encoding exactly when it has no superfluous
digit and its value fits 32 bits.
-/

namespace Verif.Net

open Wire

/-- Any 32-bit length survives encoding and decoding, from a buffer and from a stream, and what follows
it is left untouched. -/
theorem C51_round_trip (v : Nat) (hv : v < 2 ^ 32) (rest : Bytes) :
    decodeVarint (encodeVarint v ++ rest) = .ok (v, rest) ∧
    readVarint (encodeVarint v ++ rest) = .ok (v, rest) := by
  obtain ⟨ms, l, he, hm, hl, hn, hval, _⟩ := encode_spec v hv
  have hd := decode_spec rest hl hm hn
  have hr := read_spec rest hl hm hn
  rw [hval, Nat.mod_eq_of_lt hv] at hd hr
  rw [he, List.append_assoc]
  exact ⟨hd, hr⟩

example : decodeVarint (encodeVarint 300 ++ [7, 8]) = .ok (300, [7, 8]) := by decide +kernel
example : encodeVarint 300 = [0xAC, 0x02] := by decide +kernel
example : readVarint (encodeVarint (2 ^ 32 - 1) ++ [7, 8]) = .ok (2 ^ 32 - 1, [7, 8]) := by
  decide +kernel

/-- Two lengths never have the same encoding, not even when one is followed by other bytes: the
encoding is prefix-free. -/
theorem C51_prefix_free (v w : Nat) (hv : v < 2 ^ 32) (hw : w < 2 ^ 32) (r q : Bytes)
    (h : encodeVarint v ++ r = encodeVarint w ++ q) : v = w ∧ r = q := by
  have h1 := (C51_round_trip v hv r).1
  have h2 := (C51_round_trip w hw q).1
  rw [h, h2] at h1
  simp only [Except.ok.injEq, Prod.mk.injEq] at h1
  exact ⟨h1.1.symm, h1.2.symm⟩

/-- The encoder uses between one and five bytes and no superfluous digit. -/
theorem C51_encoding_minimal (v : Nat) (hv : v < 2 ^ 32) :
    IsPrefix (encodeVarint v) ∧ Minimal (encodeVarint v) ∧ value (encodeVarint v) = v := by
  obtain ⟨ms, l, he, hm, hl, hn, hval, hmin⟩ := encode_spec v hv
  rw [he]
  refine ⟨⟨ms, l, rfl, hm, hl, hn⟩, ?_, hval⟩
  intro ms' l' h
  obtain ⟨h1, h2⟩ := List.append_inj' h rfl
  simp only [List.cons.injEq, and_true] at h2
  rw [← h1, ← h2]; exact hmin

/-- Reading never panics (the shift in `decode_varint` stays below 32), whatever the peer sends. -/
theorem C51_no_panic (s : Bytes) : readVarint s ≠ .error .shiftOverflow := by
  have key : ∀ (n : Nat) (buf s : Bytes), (∀ m ∈ buf, 128 ≤ m.toNat) → buf.length + n = 5 →
      readVarintLoop n buf s ≠ .error .shiftOverflow := by
    intro n
    induction n with
    | zero => intro buf s _ _; simp [readVarintLoop]
    | succ n ih =>
      intro buf s hb hn
      match s with
      | [] => simp [readVarintLoop]
      | b :: s =>
        simp only [readVarintLoop]
        by_cases h : b.toNat &&& 0x80 = 0
        · rw [if_pos h, decode_spec [] ((cont_iff b).mp h) hb (by omega)]
          simp
        · rw [if_neg h]
          refine ih _ _ ?_ (by simp; omega)
          intro x hx
          rcases List.mem_append.mp hx with h1 | h1
          · exact hb x h1
          · rw [List.mem_singleton.mp h1]
            rw [cont_iff] at h; omega
  exact key 5 [] s (by simp) (by simp)

/-- The second half of the claim fails: `80 00` is accepted as a length prefix although the encoding of
the length it stands for is `00`. -/
theorem C51_not_canonical : ∃ (p rest : Bytes) (v : Nat),
    readVarint (p ++ rest) = .ok (v, rest) ∧ p ≠ encodeVarint v :=
  ⟨[0x80, 0x00], [9], 0, by decide +kernel, by decide +kernel⟩

/-- It also fails for a prefix without superfluous digits: the prefix of 2^32 is read as 0. -/
theorem C51_wraps : ∃ (p rest : Bytes), Minimal p ∧ value p = 2 ^ 32 ∧
    readVarint (p ++ rest) = .ok (0, rest) := by
  refine ⟨[0x80, 0x80, 0x80, 0x80, 0x10], [9], ?_, by decide +kernel, by decide +kernel⟩
  intro ms l h
  right
  have := congrArg List.getLast? h
  simp at this
  rw [← this]; decide

/-- What does hold of every accepted prefix.  Missing from the full statement: that the two conditions
on the right of the last line always hold. -/
theorem C51_canonical_partial (s rest : Bytes) (v : Nat) (h : readVarint s = .ok (v, rest)) :
    ∃ p, s = p ++ rest ∧ IsPrefix p ∧ v = value p % 2 ^ 32 ∧
      (p = encodeVarint v ↔ Minimal p ∧ value p < 2 ^ 32) := by
  obtain ⟨ms, l, hs, hm, hl, hn, hv⟩ := read_inv h
  refine ⟨ms ++ [l], by simp [hs], ⟨ms, l, rfl, hm, hl, hn⟩, hv, ?_, ?_⟩
  · intro he
    have hlt : v < 2 ^ 32 := by rw [hv]; exact Nat.mod_lt _ (by decide)
    obtain ⟨_, h2, h3⟩ := C51_encoding_minimal v hlt
    rw [← he] at h2 h3
    exact ⟨h2, by rw [h3]; exact hlt⟩
  · rintro ⟨hmin, hlt⟩
    rw [Nat.mod_eq_of_lt hlt] at hv
    rw [hv]
    exact (encode_fuel_minimal ms l 5 hm hl (by omega) (hmin ms l rfl)).symm

example : readVarint [0xAC, 0x02, 1, 2, 3] = .ok (300, [1, 2, 3]) := by decide +kernel
example : readVarint [0xAC, 0xFF] = .error .eof := by decide +kernel
example : readVarint [0x80, 0x80, 0x80, 0x80, 0x80, 0x01] = .error .invalid := by decide +kernel

end Verif.Net
