import Verif.Model.Types
/-!
# Participation bitfields

`crates/common/types/src/attestation.rs` 113-155.
-/
namespace Verif

/-- `validator_indices` (128-137): the indices of set bits, ascending. -/
def validatorIndices (bits : Bits) : List Nat :=
  (List.range bits.length).filter (fun i => bits[i]? == some true)

/-- Eight bits, least significant first, as a byte. Missing bits count as zero. -/
def packByte (bits : List Bool) : Nat :=
  match bits with
  | [] => 0
  | b :: bs => (if b then 1 else 0) + 2 * packByte bs

/-- `SszBitlist::as_bytes` (libssz, not in this repository): the packed bits without the length
delimiter, bit `i` in byte `i / 8` at position `i % 8`. -/
def asBytes (bits : Bits) : List Nat :=
  (List.range ((bits.length + 7) / 8)).map (fun k => packByte ((bits.drop (8 * k)).take 8))

/-- Loop of `bits_is_subset` (140-153) over the bytes of `a` from index `i` on.
`a_byte & !b_byte` on bytes is `a &&& (255 ^^^ b)`. -/
def bytesSubsetFrom (b : List Nat) : List Nat → Nat → Bool
  | [], _ => true
  | aByte :: as, i =>
    if aByte = 0 then bytesSubsetFrom b as (i + 1)
    else if aByte &&& (255 ^^^ ((b[i]?).getD 0)) ≠ 0 then false
    else bytesSubsetFrom b as (i + 1)

/-- `bits_is_subset` (140-153). -/
def bitsIsSubset (a b : Bits) : Bool := bytesSubsetFrom (asBytes b) (asBytes a) 0

end Verif
