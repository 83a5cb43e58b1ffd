import Verif.Lemmas.SszTypes

/-
Helper lemmas for C118: the encoder writes the bytes of `Layout`.
-/

namespace Verif.Ssz

open Verif.Net (Bytes)

theorem le_num (k n : Nat) : le k n = Layout.num k n := by
  induction k generalizing n with
  | zero => rfl
  | succ k ih =>
    unfold Layout.num
    rw [List.range_succ_eq_map, List.map_cons, List.map_map]
    simp only [le, ih, Layout.num, Nat.pow_zero, Nat.div_one, List.cons.injEq, true_and]
    apply List.map_congr_left
    intro i _
    simp only [Function.comp, Nat.pow_succ, Nat.div_div_eq_div_mul, Nat.mul_comm]

@[simp] theorem num_length (k n : Nat) : (Layout.num k n).length = k := by simp [Layout.num]

/-- Bit `i` of a list of bits. -/
def bitAt (l : List Bool) (i : Nat) : Nat := if l[i]? = some true then 1 else 0

theorem byteOf_take (l : List Bool) : byteOf (l.take 8) = bitAt l 0 + 2 * bitAt l 1 + 4 * bitAt l 2 + 8 * bitAt l 3 +
    16 * bitAt l 4 + 32 * bitAt l 5 + 64 * bitAt l 6 + 128 * bitAt l 7 := by
  have step : ∀ (k : Nat) (l : List Bool), byteOf (l.take (k + 1)) = bitAt l 0 + 2 * byteOf ((l.drop 1).take k) := by
    intro k l
    cases l with
    | nil => simp [byteOf, bitAt]
    | cons b l => cases b <;> simp [byteOf, bitAt]
  have hd : ∀ (l : List Bool) (i j : Nat), bitAt (l.drop i) j = bitAt l (i + j) := by
    intro l i j; simp [bitAt]
  simp only [step, List.drop_drop, hd, Nat.add_zero, List.take_zero, byteOf, Nat.reduceAdd]
  omega

theorem pack_range (n : Nat) (bits : List Bool) (h : bits.length ≤ 8 * n) (h2 : 8 * n < bits.length + 8) :
    pack n bits = (List.range n).map (fun j => UInt8.ofNat (byteOf ((bits.drop (8 * j)).take 8))) := by
  induction n generalizing bits with
  | zero => rfl
  | succ n ih =>
    have hne : bits ≠ [] := fun e => by subst e; simp at h2; omega
    unfold pack
    rw [if_neg hne, List.range_succ_eq_map, List.map_cons, List.map_map]
    simp only [Nat.mul_zero, List.drop_zero, List.cons.injEq, true_and]
    by_cases hn : n = 0
    · subst hn; rfl
    · rw [ih _ (by rw [List.length_drop]; omega) (by rw [List.length_drop]; omega)]
      apply List.map_congr_left
      intro j _
      simp only [Function.comp, List.drop_drop]
      rw [show 8 + 8 * j = 8 * (j + 1) by omega]

theorem bitAt_bit (l : List Bool) (i : Nat) : bitAt (l ++ [true]) i = Layout.bit l i := by
  unfold bitAt Layout.bit
  by_cases h : i < l.length
  · rw [if_pos h, List.getElem?_append_left h]
  · rw [if_neg h, List.getElem?_append_right (by omega)]
    by_cases e : i = l.length
    · simp [e]
    · rw [if_neg e, List.getElem?_eq_none (by simp; omega)]; simp

theorem bitlist_layout (l : List Bool) : bitlist l = Layout.bits l := by
  unfold bitlist Layout.bits
  rw [pack_range _ _ (by simp; omega) (by simp; omega)]
  apply List.map_congr_left
  intro j _
  rw [byteOf_take]
  have hd : ∀ i, bitAt ((l ++ [true]).drop (8 * j)) i = Layout.bit l (8 * j + i) := by
    intro i; rw [← bitAt_bit]; simp [bitAt]
  simp only [hd, Nat.add_zero]

theorem checkpoint_layout (c : Checkpoint) : encCheckpoint c = Layout.checkpoint c := by
  simp [encCheckpoint, Layout.checkpoint, assemble, heads, tails, le_num]

theorem data_layout (d : AttData) : encData d = Layout.data d := by
  simp [encData, Layout.data, assemble, heads, tails, le_num, checkpoint_layout]

theorem att_layout (a : AggAtt) : encAtt a = Layout.att a := by
  have hd := encData_length a.data
  rw [data_layout] at hd
  simp [encAtt, Layout.att, assemble, heads, tails, headLen, Part.size, le_num, data_layout, bitlist_layout, hd]

theorem heads_vars (as : List AggAtt) (o : Nat) : heads o (as.map (fun a => .var (encAtt a))) =
    (List.range as.length).flatMap (fun i => Layout.num 4 (o + ((as.take i).map (fun a => (Layout.att a).length)).sum)) := by
  induction as generalizing o with
  | nil => rfl
  | cons a as ih =>
    rw [List.length_cons, List.range_succ_eq_map, List.flatMap_cons, List.flatMap_map]
    simp only [List.map_cons, heads, ih]
    simp only [le_num, List.take_zero, List.map_nil, List.sum_nil, Nat.add_zero, List.take_succ_cons, List.map_cons,
      List.sum_cons, att_layout, Nat.add_assoc]

theorem tails_vars (as : List AggAtt) : tails (as.map (fun a => .var (encAtt a))) = as.flatMap Layout.att := by
  induction as with
  | nil => rfl
  | cons a as ih => simp only [List.map_cons, tails, List.flatMap_cons, ih]; rw [att_layout]

theorem atts_layout (as : List AggAtt) : encAtts as = Layout.atts as := by
  unfold encAtts assemble Layout.atts
  rw [headLen_vars, heads_vars, tails_vars]

theorem block_layout (b : Block) : encBlock b = Layout.block b := by
  simp [encBlock, encBody, Layout.block, assemble, heads, tails, headLen, Part.size, le_num, atts_layout]

theorem signed_layout (b : Signed) : encSigned b = Layout.signed b := by
  simp [encSigned, Layout.signed, assemble, heads, tails, headLen, Part.size, le_num, block_layout]

end Verif.Ssz
