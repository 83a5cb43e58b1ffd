import Verif.Model.Aggregation
import Verif.Model.Signatures
/-!
# The prover's part of an aggregation job

Source: `crates/blockchain/src/aggregation.rs`.
-/
namespace Verif.Node
open Verif Verif.Db Verif.Buffers Verif.Build

/-- The children of a job with their participants' keys (`resolve_child_pubkeys` 488-518). The job
only has children whose keys all resolve. -/
def childInputs (X : Crypto) (vals : List Validator) :
    List (List Nat × Nat) → Option (List (List Nat × Nat))
  | [] => some []
  | c :: cs =>
    match attestationKeys X vals c.1 with
    | .error _ => none
    | .ok ks =>
      match childInputs X vals cs with
      | none => none
      | some l => some ((ks, c.2) :: l)

/-- The raw signatures of a job with their signers' keys (426-435, 441-450). The job only has signers
whose keys resolve, and the gossip buffer only holds signatures that decode. -/
def rawInputs (X : Crypto) (vals : List Validator) : List (Nat × Nat) → Option (List (Nat × Nat))
  | [] => some []
  | x :: xs =>
    match vals[x.1]? with
    | none => none
    | some val =>
      match X.decodeKey val.attestationPubkey, X.decodeSig x.2 with
      | some k, some sig =>
        match rawInputs X vals xs with
        | none => none
        | some l => some ((k, sig) :: l)
      | _, _ => none

/-- The call of `aggregate_mixed` in `aggregate_job` (529-543). -/
def proveJob (X : Crypto) (vals : List Validator) (j : Job) : Option Nat :=
  match childInputs X vals j.children, rawInputs X vals j.raw with
  | some l, some raw => aggregateMixed X l raw j.root j.data.slot
  | _, _ => none

end Verif.Node
