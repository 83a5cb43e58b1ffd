import Verif.Model.Ssz

/-
Helper lemmas for C118: the pieces of SSZ read back what was written.
-/

namespace Verif.Ssz

open Verif.Net (Bytes)

/-! ### Numbers -/

@[simp] theorem le_length (k n : Nat) : (le k n).length = k := by
  induction k generalizing n with
  | zero => rfl
  | succ k ih => simp [le, ih]

theorem unle_le (k n : Nat) (h : n < 256 ^ k) : unle (le k n) = n := by
  induction k generalizing n with
  | zero => simp at h; subst h; rfl
  | succ k ih =>
    have h2 : n / 256 < 256 ^ k := by
      rw [Nat.div_lt_iff_lt_mul (by omega)]; rw [Nat.pow_succ] at h; exact h
    simp only [le, unle]
    rw [ih _ h2]
    simp only [UInt8.toNat_ofNat']
    have := Nat.div_add_mod n 256
    omega

theorem unle_lt (bs : Bytes) : unle bs < 256 ^ bs.length := by
  induction bs with
  | nil => simp [unle]
  | cons b bs ih =>
    simp only [unle, List.length_cons, Nat.pow_succ]
    have := b.toNat_lt
    omega

/-! ### Containers -/

theorem heads_length (o : Nat) (ps : List Part) : (heads o ps).length = headLen (ps.map Part.size) := by
  induction ps generalizing o with
  | nil => rfl
  | cons p ps ih =>
    cases p <;> simp [heads, headLen, Part.size, ih]

/-- Total size. -/
theorem assemble_length (ps : List Part) :
    (assemble ps).length = headLen (ps.map Part.size) + (tails ps).length := by
  simp [assemble, heads_length]

/-- The slots of the first part. -/
def slots : Nat → List Part → List (Bytes ⊕ Nat)
  | _, [] => []
  | o, .fixed b :: ps => .inl b :: slots o ps
  | o, .var b :: ps => .inr o :: slots (o + b.length) ps

theorem readHeads_heads (o : Nat) (ps : List Part) (rest : Bytes) (h : o + (tails ps).length < 2 ^ 32) :
    readHeads (ps.map Part.size) (heads o ps ++ rest) = slots o ps := by
  induction ps generalizing o with
  | nil => rfl
  | cons p ps ih =>
    cases p with
    | fixed b =>
      simp only [tails] at h
      simp [heads, slots, Part.size, readHeads, ih o h]
    | var b =>
      simp only [tails, List.length_append] at h
      have ih := ih (o + b.length) (by omega)
      simp only [heads, slots, Part.size, readHeads, List.map_cons, List.append_assoc]
      rw [List.take_left' (by simp), List.drop_left' (by simp), unle_le 4 o (by omega), ih]

/-- The contents of the variable fields. -/
def vars : List Part → List Bytes
  | [] => []
  | .fixed _ :: ps => vars ps
  | .var b :: ps => b :: vars ps

theorem fill_slots (o : Nat) (ps : List Part) : fill (slots o ps) (vars ps) = ps.map Part.bytes := by
  induction ps generalizing o with
  | nil => rfl
  | cons p ps ih => cases p <;> simp [slots, vars, fill, Part.bytes, ih]

theorem offsets_nil (o : Nat) (ps : List Part) (h : offsets (slots o ps) = []) : tails ps = [] ∧ vars ps = [] := by
  induction ps generalizing o with
  | nil => exact ⟨rfl, rfl⟩
  | cons p ps ih =>
    cases p with
    | fixed b => exact ih o h
    | var b => simp [slots, offsets] at h

theorem slices_tails (o : Nat) (ps : List Part) (x : Bytes) :
    slices o (x ++ tails ps) (offsets (slots (o + x.length) ps)) = some (x :: vars ps) := by
  induction ps generalizing o x with
  | nil => simp [slots, offsets, slices, tails, vars]
  | cons p ps ih =>
    cases p with
    | fixed b => exact ih o x
    | var b =>
      have := ih (o + x.length) b
      simp only [slots, offsets, slices, tails, vars]
      rw [if_pos ⟨by omega, by simp⟩]
      have e : o + x.length - o = x.length := by omega
      rw [e, List.drop_left' rfl, List.take_left' rfl, this]

theorem offsets_cons (o : Nat) (ps : List Part) {p : Nat} {os : List Nat} (h : offsets (slots o ps) = p :: os) :
    p = o ∧ slices o (tails ps) os = some (vars ps) := by
  induction ps generalizing o with
  | nil => simp [slots, offsets] at h
  | cons q ps ih =>
    cases q with
    | fixed b => exact ih o h
    | var b =>
      simp only [slots, offsets, List.cons.injEq] at h
      refine ⟨h.1.symm, ?_⟩
      rw [← h.2]
      exact slices_tails o ps b

/-- A container is read back as its fields. -/
theorem split_assemble (ps : List Part) (h : (assemble ps).length < 2 ^ 32) :
    split (ps.map Part.size) (assemble ps) = some (ps.map Part.bytes) := by
  rw [assemble_length] at h
  unfold split
  rw [if_neg (by rw [assemble_length]; omega)]
  have hr : readHeads (ps.map Part.size) (assemble ps) = slots (headLen (ps.map Part.size)) ps :=
    readHeads_heads _ ps _ h
  have hd : (assemble ps).drop (headLen (ps.map Part.size)) = tails ps := by
    unfold assemble; rw [List.drop_left' (heads_length _ ps)]
  simp only [hr, hd]
  cases ho : offsets (slots (headLen (ps.map Part.size)) ps) with
  | nil =>
    obtain ⟨h1, h2⟩ := offsets_nil _ ps ho
    simp only [h1, if_true]
    rw [← h2, fill_slots]
  | cons p os =>
    obtain ⟨rfl, h2⟩ := offsets_cons _ ps ho
    simp only [ne_eq, not_true_eq_false, if_false, h2, fill_slots]

/-- The same with the layout as it is written in the decoder. -/
theorem split_assemble' {l : List (Option Nat)} (ps : List Part) (hl : ps.map Part.size = l)
    (h : (assemble ps).length < 2 ^ 32) : split l (assemble ps) = some (ps.map Part.bytes) := by
  rw [← hl]; exact split_assemble ps h

/-! ### Lists -/

theorem mapM_map {α : Type} (enc : α → Bytes) (dec : Bytes → Option α) (xs : List α)
    (h : ∀ x ∈ xs, dec (enc x) = some x) : (xs.map enc).mapM dec = some xs := by
  induction xs with
  | nil => rfl
  | cons x xs ih =>
    rw [List.map_cons, List.mapM_cons, h x (by simp), ih (fun y hy => h y (by simp [hy]))]
    rfl

theorem flatMap_length {α : Type} (enc : α → Bytes) (k : Nat) (xs : List α) (h : ∀ x ∈ xs, (enc x).length = k) :
    (xs.flatMap enc).length = k * xs.length := by
  induction xs with
  | nil => simp
  | cons x xs ih =>
    rw [List.flatMap_cons, List.length_append, h x (by simp), ih (fun y hy => h y (by simp [hy])), List.length_cons,
      Nat.mul_add, Nat.mul_one, Nat.add_comm]

theorem chunks_flatMap {α : Type} (enc : α → Bytes) (k : Nat) (xs : List α) (h : ∀ x ∈ xs, (enc x).length = k) :
    chunks k xs.length (xs.flatMap enc) = xs.map enc := by
  induction xs with
  | nil => rfl
  | cons x xs ih =>
    have hx := h x (by simp)
    simp only [List.flatMap_cons, List.length_cons, chunks, List.map_cons]
    rw [List.take_left' hx, List.drop_left' hx, ih (fun y hy => h y (by simp [hy]))]

theorem unfixedList_enc {α : Type} {enc : α → Bytes} {dec : Bytes → Option α} {k max : Nat} (hk : 0 < k) {xs : List α}
    (hl : ∀ x ∈ xs, (enc x).length = k) (hd : ∀ x ∈ xs, dec (enc x) = some x) (hm : xs.length ≤ max) :
    unfixedList k max dec (xs.flatMap enc) = some xs := by
  unfold unfixedList
  have e := flatMap_length enc k xs hl
  have e2 : (xs.flatMap enc).length / k = xs.length := by rw [e, Nat.mul_div_cancel_left _ hk]
  rw [e2, if_pos ⟨by rw [e]; exact Nat.mul_mod_right _ _, hm⟩, chunks_flatMap enc k xs hl]
  exact mapM_map enc dec xs hd

theorem headLen_vars {α : Type} (enc : α → Bytes) (xs : List α) :
    headLen ((xs.map (fun a => Part.var (enc a))).map Part.size) = 4 * xs.length := by
  induction xs with
  | nil => rfl
  | cons x xs ih =>
    simp only [List.map_cons, headLen, Part.size, List.length_cons, ih]
    simp; omega

theorem sizes_vars {α : Type} (enc : α → Bytes) (xs : List α) :
    (xs.map (fun a => Part.var (enc a))).map Part.size = List.replicate xs.length none := by
  induction xs with
  | nil => rfl
  | cons x xs ih =>
    simp only [List.map_cons, List.length_cons, List.replicate_succ, ih]
    rfl

theorem bytes_vars {α : Type} (enc : α → Bytes) (xs : List α) :
    (xs.map (fun a => Part.var (enc a))).map Part.bytes = xs.map enc := by
  induction xs with
  | nil => rfl
  | cons x xs ih => simp only [List.map_cons, ih]; rfl

theorem tails_vars_le {α : Type} (enc : α → Bytes) (m : Nat) (xs : List α) (h : ∀ x ∈ xs, (enc x).length ≤ m) :
    (tails (xs.map (fun a => Part.var (enc a)))).length ≤ m * xs.length := by
  induction xs with
  | nil => simp [tails]
  | cons x xs ih =>
    have := ih (fun y hy => h y (by simp [hy]))
    have := h x (by simp)
    simp only [List.map_cons, tails, List.length_append, List.length_cons, Nat.mul_add]
    omega

theorem unvarList_enc {α : Type} {enc : α → Bytes} {dec : Bytes → Option α} {max : Nat} {xs : List α}
    (hd : ∀ x ∈ xs, dec (enc x) = some x) (hm : xs.length ≤ max)
    (hs : (assemble (xs.map (fun a => .var (enc a)))).length < 2 ^ 32) :
    unvarList max dec (assemble (xs.map (fun a => .var (enc a)))) = some xs := by
  cases xs with
  | nil => rfl
  | cons x xs =>
    have hlen := assemble_length ((x :: xs).map (fun a => Part.var (enc a)))
    rw [headLen_vars] at hlen
    have ho : unle ((assemble ((x :: xs).map (fun a => Part.var (enc a)))).take 4) = 4 * (xs.length + 1) := by
      have e : assemble ((x :: xs).map (fun a => Part.var (enc a)))
          = le 4 (headLen (((x :: xs).map (fun a => Part.var (enc a))).map Part.size)) ++
            (heads (headLen (((x :: xs).map (fun a => Part.var (enc a))).map Part.size) + (enc x).length)
              (xs.map (fun a => Part.var (enc a))) ++ tails ((x :: xs).map (fun a => Part.var (enc a)))) := by
        simp only [assemble, List.map_cons, heads, List.append_assoc]
      rw [e, List.take_left' (by simp), unle_le, headLen_vars]
      · simp
      · rw [headLen_vars]; simp only [List.length_cons] at hlen ⊢; omega
    unfold unvarList
    rw [if_neg (fun e => by rw [e] at hlen; simp at hlen; omega)]
    simp only [ho]
    have e4 : 4 * (xs.length + 1) / 4 = (x :: xs).length := by simp
    rw [e4, if_pos ⟨by omega, by simp, hm⟩, ← sizes_vars enc (x :: xs), split_assemble _ hs, bytes_vars]
    exact mapM_map enc dec (x :: xs) hd

/-! ### Bit lists -/

theorem byteOf_lt (bits : List Bool) : byteOf bits < 2 ^ bits.length := by
  induction bits with
  | nil => simp [byteOf]
  | cons b bs ih =>
    simp only [byteOf, List.length_cons, Nat.pow_succ]
    have : b.toNat ≤ 1 := by cases b <;> simp
    omega

theorem bitsOf_byteOf (k : Nat) (bits : List Bool) (h : bits.length ≤ k) :
    bitsOf k (byteOf bits) = bits ++ List.replicate (k - bits.length) false := by
  induction k generalizing bits with
  | zero => have : bits = [] := by simpa using h
            subst this; rfl
  | succ k ih =>
    cases bits with
    | nil =>
      have := ih [] (by simp)
      simp only [byteOf, List.length_nil, List.nil_append, Nat.sub_zero] at this ⊢
      simp [bitsOf, List.replicate_succ, this]
    | cons b bs =>
      have := ih bs (by simpa using h)
      simp only [List.length_cons, List.cons_append, Nat.add_sub_add_right]
      show decide ((b.toNat + 2 * byteOf bs) % 2 = 1) :: bitsOf k ((b.toNat + 2 * byteOf bs) / 2) = _
      have e1 : (b.toNat + 2 * byteOf bs) / 2 = byteOf bs := by cases b <;> simp <;> omega
      have e2 : decide ((b.toNat + 2 * byteOf bs) % 2 = 1) = b := by cases b <;> simp <;> omega
      rw [e1, e2, this]

theorem pack_length (n : Nat) (bits : List Bool) (h : bits.length ≤ 8 * n) :
    (pack n bits).length = (bits.length + 7) / 8 := by
  induction n generalizing bits with
  | zero => have : bits = [] := by simpa using h
            subst this; rfl
  | succ n ih =>
    unfold pack
    by_cases hb : bits = []
    · subst hb; rfl
    · have hp : 0 < bits.length := List.length_pos_iff.mpr hb
      rw [if_neg hb, List.length_cons, ih _ (by rw [List.length_drop]; omega), List.length_drop]
      omega

/-- The size of a bit list: one byte for every eight bits, and one for the rest. -/
theorem bitlist_length (bits : List Bool) : (bitlist bits).length = bits.length / 8 + 1 := by
  unfold bitlist
  rw [pack_length _ _ (by simp; omega)]
  simp; omega

theorem unpack_pack (n : Nat) (bits : List Bool) (h : bits.length ≤ 8 * n) :
    ∃ k, k < 8 ∧ unpack (pack n bits) = bits ++ List.replicate k false := by
  induction n generalizing bits with
  | zero => have : bits = [] := by simpa using h
            subst this; exact ⟨0, by omega, rfl⟩
  | succ n ih =>
    unfold pack
    by_cases hb : bits = []
    · subst hb; exact ⟨0, by omega, rfl⟩
    · have hp : 0 < bits.length := List.length_pos_iff.mpr hb
      rw [if_neg hb]
      obtain ⟨k, hk, e⟩ := ih (bits.drop 8) (by rw [List.length_drop]; omega)
      have hlt : byteOf (bits.take 8) < 256 := by
        have h1 := byteOf_lt (bits.take 8)
        have h2 : (bits.take 8).length ≤ 8 := by simp; omega
        have h3 : 2 ^ (bits.take 8).length ≤ 2 ^ 8 := Nat.pow_le_pow_right (by omega) h2
        omega
      have e1 : unpack (UInt8.ofNat (byteOf (bits.take 8)) :: pack n (bits.drop 8))
          = bitsOf 8 (byteOf (bits.take 8)) ++ unpack (pack n (bits.drop 8)) := by
        simp only [unpack, List.flatMap_cons, UInt8.toNat_ofNat']
        rw [Nat.mod_eq_of_lt hlt]
      rw [e1, e, bitsOf_byteOf 8 _ (by simp; omega)]
      by_cases h8 : 8 ≤ bits.length
      · refine ⟨k, hk, ?_⟩
        have : (bits.take 8).length = 8 := by simp; omega
        rw [this]
        simp only [Nat.sub_self, List.replicate_zero, List.append_nil]
        rw [← List.append_assoc, List.take_append_drop]
      · refine ⟨8 - bits.length, by omega, ?_⟩
        have d0 : bits.drop 8 = [] := by simp; omega
        have t0 : bits.take 8 = bits := by rw [List.take_of_length_le]; omega
        rw [d0] at e ⊢
        rw [t0]
        have : unpack (pack n []) = [] := by cases n <;> rfl
        rw [this] at e
        rw [← e, List.append_nil]

theorem unpack_zero (bs : Bytes) : unpack (bs ++ [0]) = unpack bs ++ List.replicate 8 false := by
  unfold unpack
  rw [List.flatMap_append]
  rfl

theorem dropWhile_replicate (k : Nat) (l : List Bool) :
    (List.replicate k false ++ true :: l).dropWhile (fun x => !x) = true :: l := by
  induction k with
  | zero => simp
  | succ k ih => simp [List.replicate_succ]

/-- A bit list is read back. -/
theorem unbitlist_bitlist {max : Nat} (bits : List Bool) (h : bits.length ≤ max) :
    unbitlist max (bitlist bits) = some bits := by
  obtain ⟨k, hk, e⟩ := unpack_pack (bits.length / 8 + 1) (bits ++ [true]) (by simp; omega)
  have hne : bitlist bits ≠ [] := fun h0 => by
    have := bitlist_length bits
    rw [h0] at this; simp at this
  unfold unbitlist
  have e : unpack (bitlist bits) = bits ++ [true] ++ List.replicate k false := e
  rw [List.getLast?_eq_some_getLast hne]
  simp only
  have hlast : (bitlist bits).getLast hne ≠ 0 := by
    intro h0
    have h1 : bitlist bits = (bitlist bits).dropLast ++ [0] := by
      rw [← h0, List.dropLast_concat_getLast]
    rw [h1, unpack_zero] at e
    have e2 := congrArg List.reverse e
    simp only [List.reverse_append, List.reverse_replicate, List.reverse_cons, List.reverse_nil, List.nil_append,
      List.singleton_append] at e2
    have e3 := congrArg (fun l => l[k]?) e2
    rw [List.getElem?_append_left (by simpa using hk), List.getElem?_append_right (by simp)] at e3
    rw [List.getElem?_replicate, if_pos hk] at e3
    simp at e3
  rw [if_neg hlast, e]
  have e4 : (bits ++ [true] ++ List.replicate k false).reverse = List.replicate k false ++ true :: bits.reverse := by
    simp
  simp only [e4, dropWhile_replicate, List.tail_cons, List.reverse_reverse]
  rw [if_pos h]

end Verif.Ssz
