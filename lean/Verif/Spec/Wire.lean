import Verif.Model.Wire

/-
What the wire format means, without reference to the encoder or decoder.
-/

namespace Verif.Net.Wire

instance {ε α : Type} [DecidableEq ε] [DecidableEq α] : DecidableEq (Except ε α) := fun a b =>
  match a, b with
  | .ok x, .ok y => if h : x = y then .isTrue (by rw [h]) else .isFalse (fun e => h (Except.ok.inj e))
  | .error x, .error y =>
    if h : x = y then .isTrue (by rw [h]) else .isFalse (fun e => h (Except.error.inj e))
  | .ok _, .error _ => .isFalse (fun e => by cases e)
  | .error _, .ok _ => .isFalse (fun e => by cases e)

theorem maxPayload_eq : maxPayload = 10485760 := by unfold maxPayload; rfl

theorem maxSend_eq : maxSend = 10484736 := by unfold maxSend; rw [maxPayload_eq]

theorem maxCompressed_eq : maxCompressed = 12234442 := by
  unfold maxCompressed; rw [maxPayload_eq]

/-- The number a little-endian base-128 digit string stands for (high bit of each byte ignored). -/
def value : Bytes → Nat
  | [] => 0
  | b :: bs => b.toNat % 128 + 128 * value bs

/-- A varint prefix: one to five bytes, all but the last with the high bit set. -/
def IsPrefix (p : Bytes) : Prop :=
  ∃ ms l, p = ms ++ [l] ∧ (∀ m ∈ ms, 128 ≤ m.toNat) ∧ l.toNat < 128 ∧ ms.length ≤ 4

/-- No superfluous digit: a prefix of several bytes does not end with a zero digit. -/
def Minimal (p : Bytes) : Prop := ∀ ms l, p = ms ++ [l] → ms = [] ∨ l.toNat ≠ 0

/-- What a chunk of the snappy framing format stands for, by its type: compressed data and plain data, both after a
checksum of four bytes, or padding and reserved chunks that a reader has to skip (types from 0x80). -/
def Stands (Z : Snappy) (ty : UInt8) (data : Bytes) (u : Nat) : Prop :=
  (ty.toNat = 0 ∧ 4 ≤ data.length ∧ Z.blockLen (data.drop 4) = some u) ∨
  (ty.toNat = 1 ∧ data.length = 4 + u) ∨
  (128 ≤ ty.toNat ∧ u = 0)

/-- The bytes `c` form one snappy chunk standing for `u` uncompressed bytes. -/
def IsChunk (Z : Snappy) (c : Bytes) (u : Nat) : Prop :=
  ∃ ty h1 h2 h3 data, c = ty :: h1 :: h2 :: h3 :: data ∧
    data.length = h1.toNat + 256 * h2.toNat + 65536 * h3.toNat ∧
    Stands Z ty data u

/-- A sequence of chunks standing for exactly `n` bytes, of which no proper prefix stands for `n`
bytes. -/
inductive IsFrame (Z : Snappy) : Nat → Bytes → Prop
  | last (n : Nat) (c : Bytes) : 0 < n → IsChunk Z c n → IsFrame Z n c
  | cons (n u : Nat) (c f : Bytes) : u < n → IsChunk Z c u → IsFrame Z (n - u) f →
      IsFrame Z n (c ++ f)

/-- What is assumed of the crate `snap`: the frame encoder writes nothing for an empty input; for any
other input that may be sent it writes a sequence of chunks that announce the right number of bytes,
whose total size is within the limit for compressed messages, and the frame decoder inverts it. -/
structure SnappyOk (Z : Snappy) : Prop where
  empty : Z.enc [] = []
  frame : ∀ d : Bytes, d ≠ [] → d.length ≤ maxSend → IsFrame Z d.length (Z.enc d)
  size : ∀ d : Bytes, d.length ≤ maxSend → (Z.enc d).length ≤ maxCompressed
  inverse : ∀ d : Bytes, d.length ≤ maxSend → Z.dec (Z.enc d) d.length = some d

end Verif.Net.Wire
