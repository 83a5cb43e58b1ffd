import Verif.Model.Bits
import Mathlib.Data.Nat.Bitwise
/-!
# Lemmas about participation bitfields
-/
namespace Verif

theorem testBit_packByte (l : List Bool) (i : Nat) : (packByte l).testBit i = (l[i]?).getD false := by
  induction l generalizing i with
  | nil => simp [packByte]
  | cons b l ih =>
    have h2 : packByte (b :: l) = 2 * packByte l + b.toNat := by
      rw [packByte.eq_2]; cases b <;> simp [Nat.add_comm]
    rw [h2]
    cases i with
    | zero => cases b <;> simp [Nat.testBit_zero]
    | succ i =>
      rw [Nat.testBit_succ, show (2 * packByte l + b.toNat) / 2 = packByte l by
        cases b <;> simp <;> omega]
      simp [ih]

theorem packByte_lt (l : List Bool) (n : Nat) (h : l.length ≤ n) : packByte l < 2 ^ n := by
  induction l generalizing n with
  | nil => exact Nat.two_pow_pos n
  | cons b l ih =>
    cases n with
    | zero => simp at h
    | succ n =>
      have := ih n (by simpa using h)
      unfold packByte
      rw [Nat.pow_succ]
      split <;> omega

theorem bytesSubsetFrom_iff (b as : List Nat) (i : Nat) :
    bytesSubsetFrom b as i = true ↔
      ∀ k (hk : k < as.length), as[k] &&& (255 ^^^ ((b[i + k]?).getD 0)) = 0 := by
  induction as generalizing i with
  | nil => simp [bytesSubsetFrom]
  | cons a as ih =>
    unfold bytesSubsetFrom
    have hshift : (∀ k (hk : k < (a :: as).length),
        (a :: as)[k] &&& (255 ^^^ ((b[i + k]?).getD 0)) = 0) ↔
        (a &&& (255 ^^^ ((b[i]?).getD 0)) = 0) ∧
        ∀ k (hk : k < as.length), as[k] &&& (255 ^^^ ((b[i + 1 + k]?).getD 0)) = 0 := by
      constructor
      · intro h
        refine ⟨h 0 (by simp), ?_⟩
        intro k hk
        have := h (k + 1) (by simpa using hk)
        rw [show i + (k + 1) = i + 1 + k by omega] at this
        simpa using this
      · rintro ⟨h0, h1⟩ k hk
        cases k with
        | zero => simpa using h0
        | succ k =>
          rw [show i + (k + 1) = i + 1 + k by omega]
          simpa using h1 k (by simpa using hk)
    rw [hshift, ← ih]
    split
    · next h => subst h; simp
    · split
      · next h => simp [h]
      · next h => simp at h; simp [h]

theorem asBytes_getElem? (l : Bits) (k : Nat) :
    ((asBytes l)[k]?).getD 0 = packByte ((l.drop (8 * k)).take 8) := by
  unfold asBytes
  rw [List.getElem?_map]
  by_cases hk : k < (l.length + 7) / 8
  · simp [hk]
  · rw [List.getElem?_eq_none (by simp; omega)]
    rw [List.drop_eq_nil_of_le (by omega)]
    simp [packByte]

theorem byte_subset_iff (x y : Nat) (hx : x < 256) :
    x &&& (255 ^^^ y) = 0 ↔ ∀ i, i < 8 → x.testBit i = true → y.testBit i = true := by
  constructor
  · intro h i hi hxi
    have := congrArg (fun n => n.testBit i) h
    simp only [Nat.testBit_and, Nat.testBit_xor, Nat.zero_testBit, hxi, Bool.true_and] at this
    have h255 : Nat.testBit 255 i = true := by
      rw [show 255 = 2 ^ 8 - 1 by rfl, Nat.testBit_two_pow_sub_one]; simpa using hi
    rw [h255] at this
    cases hy : y.testBit i
    · rw [hy] at this; simp at this
    · rfl
  · intro h
    apply Nat.eq_of_testBit_eq
    intro i
    rw [Nat.testBit_and, Nat.testBit_xor, Nat.zero_testBit]
    rw [show 255 = 2 ^ 8 - 1 by rfl, Nat.testBit_two_pow_sub_one]
    by_cases hi : i < 8
    · cases hxi : x.testBit i
      · simp
      · simp [hi, h i hi hxi]
    · have : x.testBit i = false := Nat.testBit_lt_two_pow
        (Nat.lt_of_lt_of_le (show x < 2 ^ 8 by omega) (Nat.pow_le_pow_right (by omega) (by omega)))
      simp [this]

/-- The byte-wise test is set inclusion. -/
theorem bitsIsSubset_iff (a b : Bits) :
    bitsIsSubset a b = true ↔ ∀ i : Nat, a[i]? = some true → b[i]? = some true := by
  have conv : ∀ (l : Bits) (k i : Nat), i < 8 →
      ((((l.drop (8 * k)).take 8)[i]?).getD false = true ↔ l[8 * k + i]? = some true) := by
    intro l k i hi
    rw [List.getElem?_take_of_lt hi, List.getElem?_drop]
    cases l[8 * k + i]? with
    | none => simp
    | some b => simp
  unfold bitsIsSubset
  rw [bytesSubsetFrom_iff]
  have hlen : (asBytes a).length = (a.length + 7) / 8 := by simp [asBytes]
  constructor
  · intro h i hi
    have hia : i < a.length := by
      by_contra hc; rw [List.getElem?_eq_none (by omega)] at hi; cases hi
    have hk : i / 8 < (asBytes a).length := by rw [hlen]; omega
    have h1 := h (i / 8) hk
    have he : (asBytes a)[i / 8] = packByte ((a.drop (8 * (i / 8))).take 8) := by
      have := asBytes_getElem? a (i / 8)
      rw [List.getElem?_eq_getElem hk] at this
      simpa using this
    rw [he, Nat.zero_add, asBytes_getElem?, byte_subset_iff _ _
      (packByte_lt _ 8 (by simp; omega))] at h1
    have h2 := h1 (i % 8) (Nat.mod_lt _ (by omega))
    rw [testBit_packByte, testBit_packByte, conv _ _ _ (Nat.mod_lt _ (by omega)),
      conv _ _ _ (Nat.mod_lt _ (by omega)), Nat.div_add_mod] at h2
    exact h2 hi
  · intro h k hk
    have he : (asBytes a)[k] = packByte ((a.drop (8 * k)).take 8) := by
      have := asBytes_getElem? a k
      rw [List.getElem?_eq_getElem hk] at this
      simpa using this
    rw [he, Nat.zero_add, asBytes_getElem?, byte_subset_iff _ _ (packByte_lt _ 8 (by simp; omega))]
    intro i hi
    rw [testBit_packByte, testBit_packByte, conv _ _ _ hi, conv _ _ _ hi]
    exact h _

theorem mem_validatorIndices {bits : Bits} {v : Nat} :
    v ∈ validatorIndices bits ↔ bits[v]? = some true := by
  unfold validatorIndices
  rw [List.mem_filter, List.mem_range]
  constructor
  · rintro ⟨_, h⟩; simpa using h
  · intro h
    refine ⟨?_, by simpa using h⟩
    by_contra hc
    rw [List.getElem?_eq_none (by omega)] at h; cases h

theorem bitsIsSubset_iff_indices (a b : Bits) :
    bitsIsSubset a b = true ↔ ∀ v ∈ validatorIndices a, v ∈ validatorIndices b := by
  rw [bitsIsSubset_iff]
  constructor
  · intro h v hv; exact mem_validatorIndices.2 (h v (mem_validatorIndices.1 hv))
  · intro h v hv; exact mem_validatorIndices.1 (h v (mem_validatorIndices.2 hv))

theorem bitsIsSubset_refl (a : Bits) : bitsIsSubset a a = true := (bitsIsSubset_iff a a).2 (fun _ h => h)

theorem bitsIsSubset_trans {a b c : Bits} (h1 : bitsIsSubset a b = true)
    (h2 : bitsIsSubset b c = true) : bitsIsSubset a c = true := by
  rw [bitsIsSubset_iff] at *
  exact fun i h => h2 i (h1 i h)

end Verif
