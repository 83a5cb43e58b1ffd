import Verif.Model.CheckpointSync
import Verif.Model.Ssz

/-
The genesis file of a network.

Source (read as text, /repo):
* `crates/common/types/src/genesis.rs`  `GenesisValidatorEntry` 25-31, `GenesisConfig` 33-39, `validators` 42-53,
  `deser_pubkey_hex` 114-127
* `hex::decode` (crate `hex`): pairs of digits 0-9, a-f, A-F, an odd number of them is an error

YAML is not modelled: a file is the time and the texts that the YAML parser finds at the two keys of every entry.
-/

namespace Verif.Genesis

open Verif
open Verif.Net (Bytes)

/-- What the YAML parser finds in the file. -/
structure File where
  time : Nat
  entries : List (List Char × List Char)

/-- The value of a hexadecimal digit (`hex::decode`). -/
def hexDigit (c : Char) : Option Nat :=
  if 48 ≤ c.toNat ∧ c.toNat ≤ 57 then some (c.toNat - 48)
  else if 97 ≤ c.toNat ∧ c.toNat ≤ 102 then some (c.toNat - 97 + 10)
  else if 65 ≤ c.toNat ∧ c.toNat ≤ 70 then some (c.toNat - 65 + 10)
  else none

/-- `hex::decode`. -/
def hexDecode : List Char → Option Bytes
  | [] => some []
  | [_] => none
  | a :: b :: l =>
    match hexDigit a, hexDigit b, hexDecode l with
    | some x, some y, some bs => some (UInt8.ofNat (16 * x + y) :: bs)
    | _, _, _ => none

/-- `strip_prefix("0x").unwrap_or` (genesis.rs 121). -/
def stripHex : List Char → List Char
  | '0' :: 'x' :: l => l
  | l => l

/-- `deser_pubkey_hex` (genesis.rs 114-127); a key is the number of its 52 bytes, as in `Verif.Ssz`. -/
def parseKey (s : List Char) : Option Nat :=
  match hexDecode (stripHex s) with
  | none => none
  | some b => if b.length = 52 then some (Ssz.unle b) else none

/-- The entries of the file (genesis.rs 25-39); one bad key is an error for the whole file. -/
def parseEntries : List (List Char × List Char) → Option (List (Nat × Nat))
  | [] => some []
  | (a, p) :: l =>
    match parseKey a, parseKey p, parseEntries l with
    | some x, some y, some es => some ((x, y) :: es)
    | _, _, _ => none

/-- Genesis time and registry (genesis.rs 42-53) of a file; `none` if the file is refused. -/
def File.parse (f : File) : Option (Nat × List Validator) :=
  match parseEntries f.entries with
  | none => none
  | some es => some (f.time, Ckpt.genesisValidators es)

end Verif.Genesis
