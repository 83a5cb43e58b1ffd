import Verif.Model.Keys
import Verif.Model.Buffers
/-!
# Loading the validator keys

`classify_role` and `read_validator_keys` (`bin/ethlambda/src/main.rs` 515-632). The parsed
`annotated_validators.yaml` is the input. Simplified: a path is its last component (`none` if there is
none or it is not UTF-8) with an opaque number that stands for the rest; `resolve` is `resolve_path`
(570-576) and `load` reads and parses a key file (603-608).
-/
namespace Verif.Keys
open Verif

/-- A path as written in the file. -/
structure File where
  name : Option (List Char)
  path : Nat
  deriving DecidableEq

/-- `AnnotatedValidator` (480-488). -/
structure Entry where
  index : Nat
  file : File
  deriving DecidableEq

/-- `ValidatorKeyRole` (504-508). -/
inductive Role
  | attester
  | proposer
  deriving DecidableEq, Repr

/-- Why loading fails. -/
inductive LoadErr
  | nodeNotFound
  | badName
  | ambiguousName
  | duplicate (index : Nat) (r : Role)
  | missing (index : Nat) (r : Role)
  | unreadable (path : Nat)
  deriving DecidableEq, Repr

/-- `str::contains`. -/
def contains (name word : List Char) : Bool := decide (word <:+: name)

/-- `classify_role` (515-532). -/
def classify (f : File) : Except LoadErr Role :=
  match f.name with
  | none => .error .badName
  | some n =>
    match contains n "attester".toList, contains n "proposer".toList with
    | true, false => .ok .attester
    | false, true => .ok .proposer
    | false, false => .error .badName
    | true, true => .error .ambiguousName

/-- `RoleSlots` (534-538). -/
structure RoleSlots where
  attestation : Option Nat
  proposal : Option Nat
  deriving DecidableEq

def RoleSlots.get (s : RoleSlots) : Role → Option Nat
  | .attester => s.attestation
  | .proposer => s.proposal

def RoleSlots.set (s : RoleSlots) (p : Nat) : Role → RoleSlots
  | .attester => { s with attestation := some p }
  | .proposer => { s with proposal := some p }

/-- The grouping loop (579-592). The map is ordered by validator index. -/
def groupFiles (resolve : Nat → Nat) :
    List Entry → Buffers.BMap RoleSlots → Except LoadErr (Buffers.BMap RoleSlots)
  | [], g => .ok g
  | e :: es, g =>
    match classify e.file with
    | .error x => .error x
    | .ok r =>
      let s := (AMap.get? g e.index).getD ⟨none, none⟩
      if (s.get r).isSome then .error (.duplicate e.index r)
      else groupFiles resolve es (Buffers.BMap.insert e.index (s.set (resolve e.file.path) r) g)

/-- The loading loop (601-625). -/
def loadPairs (load : Nat → Option Key) : Buffers.BMap RoleSlots → Except LoadErr Manager
  | [] => .ok []
  | (v, s) :: g =>
    match s.attestation with
    | none => .error (.missing v .attester)
    | some a =>
    match s.proposal with
    | none => .error (.missing v .proposer)
    | some p =>
    match load a with
    | none => .error (.unreadable a)
    | some ka =>
    match load p with
    | none => .error (.unreadable p)
    | some kp =>
    match loadPairs load g with
    | .error e => .error e
    | .ok m => .ok ((v, ⟨ka, kp⟩) :: m)

/-- `read_validator_keys` (540-632). -/
def readKeys (resolve : Nat → Nat) (load : Nat → Option Key)
    (infos : AMap Nat (List Entry)) (node : Nat) : Except LoadErr Manager :=
  match infos.get? node with
  | none => .error .nodeNotFound
  | some es =>
    match groupFiles resolve es [] with
    | .error e => .error e
    | .ok g => loadPairs load g

end Verif.Keys
