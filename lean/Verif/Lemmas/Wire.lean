import Verif.Spec.Wire

namespace Verif.Net.Wire

theorem low7 (n : Nat) : n &&& 0x7F = n % 128 := Nat.and_two_pow_sub_one_eq_mod n 7

theorem high_bit : ∀ n < 256, (n &&& 0x80 = 0 ↔ n < 128) := by decide +kernel

theorem cont_iff (b : UInt8) : b.toNat &&& 0x80 = 0 ↔ b.toNat < 128 := high_bit _ b.toNat_lt

theorem or_mul (k acc a : Nat) (h : acc < 2 ^ k) : acc ||| (2 ^ k * a) = acc + 2 ^ k * a := by
  have := Nat.two_pow_add_eq_or_of_lt h a
  rw [Nat.or_comm, ← this]; omega

theorem shl_mod (k v : Nat) (hk : k ≤ 32) :
    (v <<< k) % 2 ^ 32 = 2 ^ k * (v % 2 ^ (32 - k)) := by
  rw [Nat.shiftLeft_eq, Nat.mul_comm v]
  have : 2 ^ 32 = 2 ^ k * 2 ^ (32 - k) := by rw [← Nat.pow_add]; congr 1; omega
  rw [this, Nat.mul_mod_mul_left]

theorem step_acc (i acc : Nat) (b : UInt8) (hi : i ≤ 4) (ha : acc < 2 ^ (7 * i)) :
    acc ||| (((b.toNat &&& 0x7F) <<< (7 * i)) % 2 ^ 32)
      = acc + 2 ^ (7 * i) * (b.toNat % 128 % 2 ^ (32 - 7 * i)) := by
  rw [low7, shl_mod _ _ (by omega), or_mul _ _ _ ha]

theorem wrap (k acc l : Nat) (hk : k ≤ 32) (ha : acc < 2 ^ k) :
    (acc + 2 ^ k * l) % 2 ^ 32 = acc + 2 ^ k * (l % 2 ^ (32 - k)) := by
  have h : 2 ^ 32 = 2 ^ k * 2 ^ (32 - k) := by rw [← Nat.pow_add]; congr 1; omega
  rw [h, Nat.mod_mul, Nat.add_mul_mod_self_left, Nat.mod_eq_of_lt ha,
    Nat.add_mul_div_left _ _ (Nat.pow_pos (by decide)), Nat.div_eq_of_lt ha, Nat.zero_add]

theorem decodeLoop_spec (l : UInt8) (hl : l.toNat < 128) (rest : Bytes) :
    ∀ (ms : Bytes) (i acc : Nat), (∀ m ∈ ms, 128 ≤ m.toNat) → i + ms.length ≤ 4 →
      acc < 2 ^ (7 * i) →
      decodeVarintLoop (ms ++ l :: rest) i acc
        = .ok ((acc + 2 ^ (7 * i) * value (ms ++ [l])) % 2 ^ 32, rest) := by
  intro ms
  induction ms with
  | nil =>
    intro i acc _ hi ha
    simp only [List.length_nil, Nat.add_zero] at hi
    simp only [List.nil_append, decodeVarintLoop]
    rw [if_neg (by omega), if_pos ((cont_iff l).mpr hl), step_acc i acc l hi ha]
    simp only [value]
    have hl2 : l.toNat % 128 = l.toNat := Nat.mod_eq_of_lt hl
    rw [hl2]
    rw [Nat.mul_zero, Nat.add_zero, wrap _ _ _ (by omega) ha]
  | cons m ms ih =>
    intro i acc hm hi ha
    simp only [List.length_cons] at hi
    have hm0 : 128 ≤ m.toNat := hm m List.mem_cons_self
    simp only [List.cons_append, decodeVarintLoop]
    rw [if_neg (by omega), if_neg (by rw [cont_iff]; omega), step_acc i acc m (by omega) ha]
    have hmod : m.toNat % 128 % 2 ^ (32 - 7 * i) = m.toNat % 128 := by
      apply Nat.mod_eq_of_lt
      have h1 : m.toNat % 128 < 2 ^ 7 := Nat.mod_lt _ (by decide)
      exact Nat.lt_of_lt_of_le h1 (Nat.pow_le_pow_right (by decide) (by omega))
    rw [hmod]
    have hb : m.toNat % 128 < 128 := Nat.mod_lt _ (by decide)
    have hp : 2 ^ (7 * (i + 1)) = 2 ^ (7 * i) * 128 := by
      rw [show 7 * (i + 1) = 7 * i + 7 by omega, Nat.pow_add]
    have hlt : acc + 2 ^ (7 * i) * (m.toNat % 128) < 2 ^ (7 * (i + 1)) := by
      rw [hp]
      have : 2 ^ (7 * i) * (m.toNat % 128 + 1) ≤ 2 ^ (7 * i) * 128 :=
        Nat.mul_le_mul_left _ (by omega)
      rw [Nat.mul_add] at this
      omega
    rw [ih (i + 1) _ (fun x hx => hm x (List.mem_cons_of_mem _ hx)) (by omega) hlt]
    simp only [value, hp]
    congr 2
    rw [Nat.mul_add, Nat.mul_assoc, Nat.add_assoc]

theorem decode_spec {ms : Bytes} {l : UInt8} (rest : Bytes) (hl : l.toNat < 128)
    (hm : ∀ m ∈ ms, 128 ≤ m.toNat) (hn : ms.length ≤ 4) :
    decodeVarint (ms ++ l :: rest) = .ok (value (ms ++ [l]) % 2 ^ 32, rest) := by
  have := decodeLoop_spec l hl rest ms 0 0 hm (by omega) (by decide)
  simpa [decodeVarint] using this

theorem readLoop_spec (l : UInt8) (hl : l.toNat < 128) (rest : Bytes) :
    ∀ (ms buf : Bytes) (n : Nat), (∀ m ∈ ms, 128 ≤ m.toNat) → (∀ m ∈ buf, 128 ≤ m.toNat) →
      ms.length < n → buf.length + n = 5 →
      readVarintLoop n buf (ms ++ l :: rest) = .ok (value (buf ++ ms ++ [l]) % 2 ^ 32, rest) := by
  intro ms
  induction ms with
  | nil =>
    intro buf n _ hbuf hn hlen
    match n, hn with
    | n + 1, _ =>
      simp only [List.nil_append, readVarintLoop]
      rw [if_pos ((cont_iff l).mpr hl)]
      have := decode_spec (ms := buf) (l := l) [] hl hbuf (by omega)
      rw [this]
      simp
  | cons m ms ih =>
    intro buf n hm hbuf hn hlen
    match n, hn with
    | n + 1, hn =>
      simp only [List.cons_append, readVarintLoop]
      rw [if_neg (by rw [cont_iff]; have := hm m List.mem_cons_self; omega)]
      rw [ih (buf ++ [m]) n (fun x hx => hm x (List.mem_cons_of_mem _ hx)) ?_
        (by simpa using hn) (by simp; omega)]
      · simp
      · intro x hx
        rcases List.mem_append.mp hx with h | h
        · exact hbuf x h
        · rw [List.mem_singleton.mp h]; exact hm m List.mem_cons_self

theorem read_spec {ms : Bytes} {l : UInt8} (rest : Bytes) (hl : l.toNat < 128)
    (hm : ∀ m ∈ ms, 128 ≤ m.toNat) (hn : ms.length ≤ 4) :
    readVarint (ms ++ l :: rest) = .ok (value (ms ++ [l]) % 2 ^ 32, rest) := by
  have := readLoop_spec l hl rest ms [] 5 hm (by simp) (by omega) (by simp)
  simpa [readVarint] using this

/-- Whatever the reader accepts is a varint prefix. -/
theorem readLoop_inv :
    ∀ (n : Nat) (buf s : Bytes) (v : Nat) (rest : Bytes), (∀ m ∈ buf, 128 ≤ m.toNat) →
      buf.length + n = 5 → readVarintLoop n buf s = .ok (v, rest) →
      ∃ ms l, s = ms ++ l :: rest ∧ (∀ m ∈ ms, 128 ≤ m.toNat) ∧ l.toNat < 128 ∧ ms.length < n := by
  intro n
  induction n with
  | zero => intro buf s v rest _ _ h; simp [readVarintLoop] at h
  | succ n ih =>
    intro buf s v rest hbuf hlen h
    match s with
    | [] => simp [readVarintLoop] at h
    | b :: s =>
      simp only [readVarintLoop] at h
      by_cases hb : b.toNat &&& 0x80 = 0
      · rw [if_pos hb] at h
        have hb' := (cont_iff b).mp hb
        have hd := decode_spec (ms := buf) (l := b) [] hb' hbuf (by omega)
        rw [hd] at h
        simp only [Except.ok.injEq, Prod.mk.injEq] at h
        refine ⟨[], b, by simp [h.2], by simp, hb', by simp⟩
      · rw [if_neg hb] at h
        have hb' : 128 ≤ b.toNat := by rw [cont_iff] at hb; omega
        obtain ⟨ms, l, hs, hm, hl, hn⟩ := ih (buf ++ [b]) s v rest
          (by
            intro x hx
            rcases List.mem_append.mp hx with h | h
            · exact hbuf x h
            · rw [List.mem_singleton.mp h]; exact hb')
          (by simp; omega) h
        refine ⟨b :: ms, l, by simp [hs], ?_, hl, by simpa using hn⟩
        intro x hx
        rcases List.mem_cons.mp hx with h | h
        · rw [h]; exact hb'
        · exact hm x h

theorem read_inv {s rest : Bytes} {v : Nat} (h : readVarint s = .ok (v, rest)) :
    ∃ ms l, s = ms ++ l :: rest ∧ (∀ m ∈ ms, 128 ≤ m.toNat) ∧ l.toNat < 128 ∧ ms.length ≤ 4 ∧
      v = value (ms ++ [l]) % 2 ^ 32 := by
  obtain ⟨ms, l, hs, hm, hl, hn⟩ := readLoop_inv 5 [] s v rest (by simp) (by simp) h
  refine ⟨ms, l, hs, hm, hl, by omega, ?_⟩
  have := read_spec rest hl hm (by omega : ms.length ≤ 4)
  rw [← hs, h] at this
  simp only [Except.ok.injEq, Prod.mk.injEq] at this
  exact this.1

theorem toNat_ofNat_small (n : Nat) (h : n < 256) : (UInt8.ofNat n).toNat = n := by
  simp [UInt8.toNat_ofNat']; omega

theorem or_high (n : Nat) : n % 128 ||| 0x80 = n % 128 + 128 := by
  have h : n % 128 < 2 ^ 7 := Nat.mod_lt _ (by decide)
  have := or_mul 7 (n % 128) 1 h
  simpa using this

/-- The encoder writes a minimal varint prefix of its argument. -/
theorem encode_fuel_spec : ∀ (n v : Nat), v < 128 ^ n → 0 < n →
    ∃ ms l, encodeVarintFuel n v = ms ++ [l] ∧ (∀ m ∈ ms, 128 ≤ m.toNat) ∧ l.toNat < 128 ∧
      ms.length < n ∧ value (ms ++ [l]) = v ∧ (ms = [] ∨ l.toNat ≠ 0) := by
  intro n
  induction n with
  | zero => intro v _ h; omega
  | succ n ih =>
    intro v hv _
    simp only [encodeVarintFuel, low7, or_high, Nat.shiftRight_eq_div_pow]
    have h128 : (2 : Nat) ^ 7 = 128 := rfl
    rw [h128]
    have hm : v % 128 < 128 := Nat.mod_lt _ (by decide)
    by_cases h : v / 128 = 0
    · rw [if_pos h]
      refine ⟨[], _, rfl, by simp, ?_, by simp, ?_, Or.inl rfl⟩
      · rw [toNat_ofNat_small _ (by omega)]; exact hm
      · simp only [List.nil_append, value]
        rw [toNat_ofNat_small _ (by omega)]; omega
    · rw [if_neg h]
      have hn : 0 < n := by
        rcases Nat.eq_zero_or_pos n with h0 | h0
        · subst h0; simp at hv; omega
        · exact h0
      have hlt : v / 128 < 128 ^ n := by
        rw [Nat.div_lt_iff_lt_mul (by decide)]; rwa [Nat.pow_succ] at hv
      obtain ⟨ms, l, he, hms, hl, hlen, hval, hmin⟩ := ih (v / 128) hlt hn
      refine ⟨_ :: ms, l, by rw [he]; rfl, ?_, hl, by simpa using hlen, ?_, ?_⟩
      · intro x hx
        rcases List.mem_cons.mp hx with h | h
        · rw [h, toNat_ofNat_small _ (by omega)]; omega
        · exact hms x h
      · simp only [List.cons_append, value]
        rw [hval, toNat_ofNat_small _ (by omega)]; omega
      · right
        rcases hmin with h0 | h0
        · subst h0
          simp only [List.nil_append, value] at hval
          omega
        · exact h0

theorem encode_spec (v : Nat) (hv : v < 2 ^ 32) :
    ∃ ms l, encodeVarint v = ms ++ [l] ∧ (∀ m ∈ ms, 128 ≤ m.toNat) ∧ l.toNat < 128 ∧
      ms.length ≤ 4 ∧ value (ms ++ [l]) = v ∧ (ms = [] ∨ l.toNat ≠ 0) := by
  obtain ⟨ms, l, h1, h2, h3, h4, h5, h6⟩ := encode_fuel_spec 5 v (by omega) (by decide)
  exact ⟨ms, l, h1, h2, h3, by omega, h5, h6⟩

/-- A minimal varint prefix is what the encoder writes for its value. -/
theorem encode_fuel_minimal : ∀ (ms : Bytes) (l : UInt8) (n : Nat), (∀ m ∈ ms, 128 ≤ m.toNat) →
    l.toNat < 128 → ms.length < n → (ms = [] ∨ l.toNat ≠ 0) →
    encodeVarintFuel n (value (ms ++ [l])) = ms ++ [l] := by
  intro ms
  induction ms with
  | nil =>
    intro l n _ hl hn _
    match n, hn with
    | n + 1, _ =>
      simp only [List.nil_append, value, encodeVarintFuel, low7, Nat.shiftRight_eq_div_pow]
      rw [if_pos (by omega)]
      congr 1
      apply UInt8.toNat_inj.mp
      rw [toNat_ofNat_small _ (by omega)]; omega
  | cons m ms ih =>
    intro l n hm hl hn hmin
    match n, hn with
    | n + 1, hn =>
      have hl0 : l.toNat ≠ 0 := by
        rcases hmin with h | h
        · simp at h
        · exact h
      have hm0 := hm m List.mem_cons_self
      have hpos : ∀ ms : Bytes, 0 < value (ms ++ [l]) := by
        intro ms
        induction ms with
        | nil => simp only [List.nil_append, value]; omega
        | cons a as ih => simp only [List.cons_append, value]; omega
      simp only [List.cons_append, value, encodeVarintFuel, low7, or_high,
        Nat.shiftRight_eq_div_pow]
      have h128 : (2 : Nat) ^ 7 = 128 := rfl
      have hp := hpos ms
      have hml : m.toNat % 128 < 128 := Nat.mod_lt _ (by decide)
      rw [h128, if_neg (by omega)]
      have h1 : (m.toNat % 128 + 128 * value (ms ++ [l])) / 128 = value (ms ++ [l]) := by omega
      have h2 : (m.toNat % 128 + 128 * value (ms ++ [l])) % 128 = m.toNat % 128 := by omega
      rw [h1, h2, ih l n (fun x hx => hm x (List.mem_cons_of_mem _ hx)) hl (by simpa using hn)
        (Or.inr hl0)]
      congr 1
      apply UInt8.toNat_inj.mp
      have := m.toNat_lt
      rw [toNat_ofNat_small _ (by omega)]; omega

end Verif.Net.Wire

namespace Verif.Net.Wire

/-! ### More bytes after an accepted prefix change nothing -/

theorem read_append {s r : Bytes} {v : Nat} (h : readVarint s = .ok (v, r)) (t : Bytes) :
    readVarint (s ++ t) = .ok (v, r ++ t) := by
  obtain ⟨ms, l, hs, hm, hl, hn, hv⟩ := read_inv h
  have := read_spec (r ++ t) hl hm hn
  rw [hs, hv]
  simpa using this

theorem readExact_ok {n : Nat} {s a r : Bytes} (h : readExact n s = .ok (a, r)) :
    s = a ++ r ∧ a.length = n := by
  unfold readExact at h
  split at h
  · simp only [Except.ok.injEq, Prod.mk.injEq] at h
    refine ⟨by rw [← h.1, ← h.2, List.take_append_drop], ?_⟩
    rw [← h.1, List.length_take]; omega
  · cases h

theorem readExact_append (a r : Bytes) : readExact a.length (a ++ r) = .ok (a, r) := by
  unfold readExact
  rw [if_pos (by simp)]
  simp

theorem readFrameLoop_append (Z : Snappy) (expected : Nat) (t : Bytes) :
    ∀ (fuel : Nat) (frame : Bytes) (ulen : Nat) (s f r : Bytes),
      readFrameLoop Z expected fuel frame ulen s = .ok (f, r) → ∀ fuel', fuel ≤ fuel' →
      readFrameLoop Z expected fuel' frame ulen (s ++ t) = .ok (f, r ++ t) := by
  intro fuel
  induction fuel with
  | zero => intro frame ulen s f r h; simp [readFrameLoop] at h
  | succ fuel ih =>
    intro frame ulen s f r h fuel' hle
    match fuel', hle with
    | fuel' + 1, hle =>
      simp only [readFrameLoop] at h ⊢
      by_cases hu : ulen < expected
      · rw [if_pos hu] at h ⊢
        match h4 : readExact 4 s with
        | .error e => rw [h4] at h; cases h
        | .ok (hdr, s1) =>
          obtain ⟨hs, hlen⟩ := readExact_ok h4
          have h4' : readExact 4 (s ++ t) = .ok (hdr, s1 ++ t) := by
            rw [hs, List.append_assoc, ← hlen]; exact readExact_append _ _
          rw [h4] at h
          rw [h4']
          simp only at h ⊢
          by_cases hbig : frame.length + 4 + chunkBodyLen hdr > maxCompressed
          · rw [if_pos hbig] at h; cases h
          · rw [if_neg hbig] at h ⊢
            match h5 : readExact (chunkBodyLen hdr) s1 with
            | .error e => rw [h5] at h; cases h
            | .ok (data, s2) =>
              obtain ⟨hs2, hlen2⟩ := readExact_ok h5
              have h5' : readExact (chunkBodyLen hdr) (s1 ++ t) = .ok (data, s2 ++ t) := by
                rw [hs2, List.append_assoc, ← hlen2]; exact readExact_append _ _
              rw [h5] at h
              rw [h5']
              simp only at h ⊢
              match h6 : chunkUncompressed Z (hdr[0]?.getD 0) data with
              | none => rw [h6] at h; cases h
              | some u =>
                rw [h6] at h
                simp only at h ⊢
                by_cases hov : ulen + u > expected
                · rw [if_pos hov] at h; cases h
                · rw [if_neg hov] at h ⊢
                  exact ih _ _ _ _ _ h _ (by omega)
      · rw [if_neg hu] at h ⊢
        simp only [Except.ok.injEq, Prod.mk.injEq] at h ⊢
        exact ⟨h.1, by rw [h.2]⟩

/-- With more fuel than bytes the outcome does not depend on the fuel: running out of fuel is never
the reason for a failure. -/
theorem readFrame_fuel (Z : Snappy) (expected : Nat) :
    ∀ (n1 : Nat) (n2 : Nat) (frame : Bytes) (ulen : Nat) (s : Bytes), s.length < n1 →
      s.length < n2 →
      readFrameLoop Z expected n1 frame ulen s = readFrameLoop Z expected n2 frame ulen s := by
  intro n1
  induction n1 with
  | zero => intro n2 frame ulen s h; omega
  | succ n1 ih =>
    intro n2 frame ulen s h1 h2
    match n2, h2 with
    | n2 + 1, h2 =>
      simp only [readFrameLoop]
      by_cases hu : ulen < expected
      · rw [if_pos hu, if_pos hu]
        match h4 : readExact 4 s with
        | .error e => rfl
        | .ok (hdr, s1) =>
          obtain ⟨hs, hlen⟩ := readExact_ok h4
          simp only
          by_cases hbig : frame.length + 4 + chunkBodyLen hdr > maxCompressed
          · rw [if_pos hbig, if_pos hbig]
          · rw [if_neg hbig, if_neg hbig]
            match h5 : readExact (chunkBodyLen hdr) s1 with
            | .error e => rfl
            | .ok (data, s2) =>
              obtain ⟨hs2, hlen2⟩ := readExact_ok h5
              simp only
              match h6 : chunkUncompressed Z (hdr[0]?.getD 0) data with
              | none => rfl
              | some u =>
                simp only
                by_cases hov : ulen + u > expected
                · rw [if_pos hov, if_pos hov]
                · rw [if_neg hov, if_neg hov]
                  have : s.length = hdr.length + (data.length + s2.length) := by
                    rw [hs, hs2]; simp
                  exact ih _ _ _ _ (by omega) (by omega)
      · rw [if_neg hu, if_neg hu]

theorem readFrame_append {Z : Snappy} {n : Nat} {s d r : Bytes} {c : Nat}
    (h : readFrame Z n s = .ok (d, c, r)) (t : Bytes) :
    readFrame Z n (s ++ t) = .ok (d, c, r ++ t) := by
  unfold readFrame at h ⊢
  match h1 : readFrameLoop Z n (s.length + 1) [] 0 s with
  | .error e => rw [h1] at h; cases h
  | .ok (f, r1) =>
    rw [h1] at h
    rw [readFrameLoop_append Z n t _ _ _ _ _ _ h1 ((s ++ t).length + 1) (by simp)]
    simp only at h ⊢
    match h2 : Z.dec f n with
    | none => rw [h2] at h; cases h
    | some d' =>
      rw [h2] at h
      simp only [Except.ok.injEq, Prod.mk.injEq] at h ⊢
      exact ⟨h.1, h.2.1, by rw [h.2.2]⟩

theorem decodePayload_append {Z : Snappy} {s d r : Bytes} {c : Nat}
    (h : decodePayload Z s = .ok (d, c, r)) (t : Bytes) :
    decodePayload Z (s ++ t) = .ok (d, c, r ++ t) := by
  unfold decodePayload at h ⊢
  match h1 : readVarint s with
  | .error e => rw [h1] at h; cases h
  | .ok (v, s1) =>
    rw [h1] at h
    rw [read_append h1 t]
    simp only at h ⊢
    by_cases hb : v > maxPayload
    · rw [if_pos hb] at h; cases h
    · rw [if_neg hb] at h ⊢
      by_cases h0 : v = 0
      · rw [if_pos h0] at h ⊢
        simp only [Except.ok.injEq, Prod.mk.injEq] at h ⊢
        exact ⟨h.1, h.2.1, by rw [h.2.2]⟩
      · rw [if_neg h0] at h ⊢
        exact readFrame_append h t

/-! ### Accepted frames -/

theorem readFrameLoop_ok (Z : Snappy) (expected : Nat) :
    ∀ (fuel : Nat) (frame : Bytes) (ulen : Nat) (s f r : Bytes),
      readFrameLoop Z expected fuel frame ulen s = .ok (f, r) →
      frame.length ≤ maxCompressed →
      f.length ≤ maxCompressed ∧ r.length ≤ s.length := by
  intro fuel
  induction fuel with
  | zero => intro frame ulen s f r h; simp [readFrameLoop] at h
  | succ fuel ih =>
    intro frame ulen s f r h hf
    simp only [readFrameLoop] at h
    by_cases hu : ulen < expected
    · rw [if_pos hu] at h
      match h4 : readExact 4 s with
      | .error e => rw [h4] at h; cases h
      | .ok (hdr, s1) =>
        obtain ⟨hs, hlen⟩ := readExact_ok h4
        rw [h4] at h
        simp only at h
        by_cases hbig : frame.length + 4 + chunkBodyLen hdr > maxCompressed
        · rw [if_pos hbig] at h; cases h
        · rw [if_neg hbig] at h
          match h5 : readExact (chunkBodyLen hdr) s1 with
          | .error e => rw [h5] at h; cases h
          | .ok (data, s2) =>
            obtain ⟨hs2, hlen2⟩ := readExact_ok h5
            rw [h5] at h
            simp only at h
            match h6 : chunkUncompressed Z (hdr[0]?.getD 0) data with
            | none => rw [h6] at h; cases h
            | some u =>
              rw [h6] at h
              simp only at h
              by_cases hov : ulen + u > expected
              · rw [if_pos hov] at h; cases h
              · rw [if_neg hov] at h
                have hl : s.length = hdr.length + (data.length + s2.length) := by
                  rw [hs, hs2]; simp
                have := ih _ _ _ _ _ h (by simp only [List.length_append]; omega)
                exact ⟨this.1, by omega⟩
    · rw [if_neg hu] at h
      simp only [Except.ok.injEq, Prod.mk.injEq] at h
      exact ⟨by rw [← h.1]; exact hf, by rw [h.2]; exact Nat.le_refl _⟩

theorem decodePayload_shrinks {Z : Snappy} {s d r : Bytes} {c : Nat}
    (h : decodePayload Z s = .ok (d, c, r)) : r.length < s.length := by
  unfold decodePayload at h
  match h1 : readVarint s with
  | .error e => rw [h1] at h; cases h
  | .ok (v, s1) =>
    rw [h1] at h
    obtain ⟨ms, l, hs, _⟩ := read_inv h1
    have hl : s1.length < s.length := by rw [hs]; simp; omega
    simp only at h
    by_cases hb : v > maxPayload
    · rw [if_pos hb] at h; cases h
    · rw [if_neg hb] at h
      by_cases h0 : v = 0
      · rw [if_pos h0] at h
        simp only [Except.ok.injEq, Prod.mk.injEq] at h
        rw [← h.2.2]; exact hl
      · rw [if_neg h0] at h
        unfold readFrame at h
        match h2 : readFrameLoop Z v (s1.length + 1) [] 0 s1 with
        | .error e => rw [h2] at h; cases h
        | .ok (f, r1) =>
          rw [h2] at h
          simp only at h
          match h3 : Z.dec f v with
          | none => rw [h3] at h; cases h
          | some d' =>
            rw [h3] at h
            simp only [Except.ok.injEq, Prod.mk.injEq] at h
            have := (readFrameLoop_ok Z v _ _ _ _ _ _ h2 (by simp)).2
            rw [← h.2.2]; omega

/-! ### Written frames are accepted -/

theorem stands_iff {Z : Snappy} {ty : UInt8} {data : Bytes} {u : Nat} :
    Stands Z ty data u ↔ chunkUncompressed Z ty data = some u := by
  have e0 : ty = 0 ↔ ty.toNat = 0 := UInt8.toNat_inj.symm
  have e1 : ty = 1 ↔ ty.toNat = 1 := UInt8.toNat_inj.symm
  have e2 : (0x80 ≤ ty) ↔ 128 ≤ ty.toNat := UInt8.le_iff_toNat_le
  unfold Stands chunkUncompressed
  simp only [e0, e1, e2]
  by_cases h0 : ty.toNat = 0
  · rw [if_pos h0]
    by_cases h4 : data.length < 4
    · rw [if_pos h4]
      constructor
      · rintro (⟨_, h, _⟩ | ⟨h, _⟩ | ⟨h, _⟩) <;> omega
      · intro h; cases h
    · rw [if_neg h4]
      constructor
      · rintro (⟨_, _, h⟩ | ⟨h, _⟩ | ⟨h, _⟩)
        · exact h
        · omega
        · omega
      · exact fun h => .inl ⟨h0, by omega, h⟩
  · rw [if_neg h0]
    by_cases h1 : ty.toNat = 1
    · rw [if_pos h1]
      by_cases h4 : data.length < 4
      · rw [if_pos h4]
        constructor
        · rintro (⟨h, _, _⟩ | ⟨_, h⟩ | ⟨h, _⟩) <;> omega
        · intro h; cases h
      · rw [if_neg h4, Option.some.injEq]
        constructor
        · rintro (⟨h, _, _⟩ | ⟨_, h⟩ | ⟨h, _⟩) <;> omega
        · intro h; exact .inr (.inl ⟨h1, by omega⟩)
    · rw [if_neg h1]
      by_cases h2 : 128 ≤ ty.toNat
      · rw [if_pos h2, Option.some.injEq]
        constructor
        · rintro (⟨h, _, _⟩ | ⟨h, _⟩ | ⟨_, h⟩) <;> omega
        · intro h; exact .inr (.inr ⟨h2, h.symm⟩)
      · rw [if_neg h2]
        constructor
        · rintro (⟨h, _, _⟩ | ⟨h, _⟩ | ⟨h, _⟩) <;> omega
        · intro h; cases h

theorem chunk_step {Z : Snappy} {expected fuel ulen u : Nat} {frame c : Bytes} (s : Bytes)
    (hc : IsChunk Z c u) (h1 : ulen < expected) (h2 : ulen + u ≤ expected)
    (h3 : frame.length + c.length ≤ maxCompressed) :
    readFrameLoop Z expected (fuel + 1) frame ulen (c ++ s)
      = readFrameLoop Z expected fuel (frame ++ c) (ulen + u) s := by
  obtain ⟨ty, a, b, e, data, rfl, hlen, hu⟩ := hc
  simp only [readFrameLoop]
  rw [if_pos h1]
  have h4 : readExact 4 ((ty :: a :: b :: e :: data) ++ s) = .ok ([ty, a, b, e], data ++ s) := by
    have := readExact_append [ty, a, b, e] (data ++ s)
    simpa using this
  rw [h4]
  have hcl : chunkBodyLen [ty, a, b, e] = data.length := by
    rw [hlen]; simp [chunkBodyLen]
  simp only [hcl]
  simp only [List.length_cons] at h3
  rw [if_neg (by omega), readExact_append]
  have : ([ty, a, b, e][0]?.getD 0) = ty := rfl
  simp only [this, stands_iff.1 hu]
  rw [if_neg (by omega)]
  congr 1
  simp

theorem frame_accepted {Z : Snappy} {n : Nat} {f : Bytes} (hf : IsFrame Z n f) :
    ∀ (expected fuel ulen : Nat) (frame s : Bytes), ulen + n = expected →
      frame.length + f.length ≤ maxCompressed → (f ++ s).length < fuel →
      readFrameLoop Z expected fuel frame ulen (f ++ s) = .ok (frame ++ f, s) := by
  induction hf with
  | last n c hn hc =>
    intro expected fuel ulen frame s he hsz hfuel
    match fuel, hfuel with
    | fuel + 1, hfuel =>
      rw [chunk_step s hc (by omega) (by omega) hsz]
      have hc4 : 4 ≤ c.length := by
        obtain ⟨_, _, _, _, _, rfl, _⟩ := hc
        simp
      match fuel, (by simp at hfuel; omega : 0 < fuel) with
      | fuel + 1, _ =>
        simp only [readFrameLoop]
        rw [if_neg (by omega)]
  | cons n u c f hu hc _ ih =>
    intro expected fuel ulen frame s he hsz hfuel
    match fuel, hfuel with
    | fuel + 1, hfuel =>
      have hc4 : 4 ≤ c.length := by
        obtain ⟨_, _, _, _, _, rfl, _⟩ := hc
        simp
      simp only [List.length_append] at hsz hfuel
      rw [List.append_assoc, chunk_step (f ++ s) hc (by omega) (by omega) (by omega)]
      rw [ih expected fuel (ulen + u) (frame ++ c) s (by omega)
        (by simp only [List.length_append]; omega) (by simp only [List.length_append]; omega)]
      simp

/-- A payload of any sender. -/
theorem foreign_accepted {Z : Snappy} {d f : Bytes} (s : Bytes) (hd : d ≠ []) (hle : d.length ≤ maxPayload)
    (hf : IsFrame Z d.length f) (hsz : f.length ≤ maxCompressed) (hdec : Z.dec f d.length = some d) :
    decodePayload Z (encodeVarint d.length ++ f ++ s) = .ok (d, f.length, s) := by
  have hmax : maxPayload = 10485760 := maxPayload_eq
  obtain ⟨ms, l, he, hm, hl, hn, hv, _⟩ := encode_spec d.length (by omega)
  have hr : readVarint (encodeVarint d.length ++ f ++ s) = .ok (d.length, f ++ s) := by
    have := read_spec (f ++ s) hl hm hn
    rw [he, List.append_assoc, List.append_assoc]
    simp only [List.singleton_append]
    rw [this, hv, Nat.mod_eq_of_lt (by omega)]
  unfold decodePayload
  rw [hr]
  simp only
  rw [if_neg (by omega), if_neg (fun h0 => hd (List.length_eq_zero_iff.mp h0))]
  unfold readFrame
  rw [frame_accepted hf d.length _ 0 [] s (by omega) (by simpa using hsz) (by omega)]
  simp only [List.nil_append, hdec]

theorem payload_accepted {Z : Snappy} (hZ : SnappyOk Z) {d p : Bytes} (s : Bytes)
    (h : writePayload Z d = .ok p) :
    decodePayload Z (p ++ s) = .ok (d, (Z.enc d).length, s) := by
  unfold writePayload at h
  by_cases hb : d.length > maxSend
  · rw [if_pos hb] at h; cases h
  · rw [if_neg hb] at h
    simp only [Except.ok.injEq] at h
    subst h
    have hle : d.length ≤ maxSend := by omega
    have hmax : maxPayload = 10485760 := maxPayload_eq
    have hsend : maxSend = 10484736 := maxSend_eq
    by_cases hd : d = []
    · subst hd
      rw [hZ.empty]
      rfl
    · exact foreign_accepted s hd (by omega) (hZ.frame d hd hle) (hZ.size d hle) (hZ.inverse d hle)

/-! ### Block responses -/

theorem decodeBlocks_fuel (Z : Snappy) {B : Type} (unssz : Bytes → Option B) :
    ∀ (n1 n2 : Nat) (s : Bytes), s.length < n1 → s.length < n2 →
      decodeBlocksLoop Z unssz n1 s = decodeBlocksLoop Z unssz n2 s := by
  intro n1
  induction n1 with
  | zero => intro n2 s h; omega
  | succ n1 ih =>
    intro n2 s h1 h2
    match n2, h2 with
    | n2 + 1, h2 =>
      match s with
      | [] => simp [decodeBlocksLoop]
      | code :: s =>
        simp only [decodeBlocksLoop]
        match hp : decodePayload Z s with
        | .error e => rfl
        | .ok (p, c, r) =>
          have hlt := decodePayload_shrinks hp
          simp only [List.length_cons] at h1 h2
          simp only
          rw [ih n2 r (by omega) (by omega)]

theorem decodeBlocks_cons (Z : Snappy) {B : Type} (unssz : Bytes → Option B) (code : UInt8)
    (s : Bytes) :
    decodeBlocks Z unssz (code :: s) =
      match decodePayload Z s with
      | .error e => .error e
      | .ok (payload, _, r) =>
        if code ≠ 0 then decodeBlocks Z unssz r
        else match unssz payload with
          | none => .error .invalid
          | some b =>
            match decodeBlocks Z unssz r with
            | .error e => .error e
            | .ok bs => .ok (b :: bs) := by
  rw [decodeBlocks]
  simp only [decodeBlocksLoop]
  match hp : decodePayload Z s with
  | .error e => rfl
  | .ok (p, c, r) =>
    have hlt := decodePayload_shrinks hp
    have : decodeBlocksLoop Z unssz (code :: s).length r = decodeBlocks Z unssz r :=
      decodeBlocks_fuel Z unssz _ _ r (by simp; omega) (by omega)
    simp only [this]
    rfl

end Verif.Net.Wire
