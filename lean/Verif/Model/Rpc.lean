import Verif.Model.Store
/-!
# Looking up blocks over HTTP

Source: `crates/net/rpc/src/blocks.rs`. Routing and JSON are left out: a reply is the value that is
rendered, or the status code of an error.
-/
namespace Verif.Rpc
open Verif Verif.Db Verif.Node

/-- One hexadecimal digit of either case (`hex::decode`). -/
def hexVal (c : Char) : Option Nat :=
  if '0' ≤ c ∧ c ≤ '9' then some (c.toNat - 48)
  else if 'a' ≤ c ∧ c ≤ 'f' then some (c.toNat - 87)
  else if 'A' ≤ c ∧ c ≤ 'F' then some (c.toNat - 55)
  else none

/-- `hex::decode`: two digits a byte; an odd length is an error. -/
def hexDecode : List Char → Option (List Nat)
  | [] => some []
  | [_] => none
  | a :: b :: l =>
    match hexVal a, hexVal b, hexDecode l with
    | some x, some y, some r => some ((16 * x + y) :: r)
    | _, _, _ => none

/-- The number with these bytes, most significant first (the order `Root` stands for). -/
def ofBytes (l : List Nat) : Nat := l.foldl (fun n b => 256 * n + b) 0

/-- `parse_root` (71-79). -/
def parseRoot (l : List Char) : Option Root :=
  match hexDecode l with
  | none => none
  | some bytes => if bytes.length ≠ 32 then none else some (ofBytes bytes)

/-- `char::is_ascii_digit`. -/
def isDigit (c : Char) : Bool := decide ('0' ≤ c) && decide (c ≤ '9')

/-- `str::parse::<u64>` on a string of digits: empty strings and numbers from `2^64` on are errors. -/
def parseU64 (l : List Char) : Option Nat :=
  if l.isEmpty then none
  else
    let n := l.foldl (fun n c => 10 * n + (c.toNat - 48)) 0
    if n < 2 ^ 64 then some n else none

/-- `BlockIdError` (92-96), or the `INTERNAL_SERVER_ERROR` of a failed read (which the model of the
database does not have). -/
inductive IdError
  | invalid
  | notFound
  deriving DecidableEq, Repr

/-- `resolve_slot` (81-90). -/
def resolveSlot (s : Store) (slot : Nat) : P (Except IdError Root × Store) :=
  match headState s with
  | .error e => .error e
  | .ok (st, s) =>
    match st.historicalBlockHashes[slot]? with
    | none => .ok (.error .notFound, s)
    | some r => if r = 0 then .ok (.error .notFound, s) else .ok (.ok r, s)

/-- `resolve_block_id` (60-69). -/
def resolveBlockId (s : Store) (id : List Char) : P (Except IdError Root × Store) :=
  match id with
  | '0' :: 'x' :: hex =>
    match parseRoot hex with
    | none => .ok (.error .invalid, s)
    | some r => .ok (.ok r, s)
  | _ =>
    if id.all isDigit then
      match parseU64 id with
      | none => .ok (.error .invalid, s)
      | some slot => resolveSlot s slot
    else .ok (.error .invalid, s)

/-- `get_block` (22-35). -/
def blockReply (H : Hash) (s : Store) (id : List Char) : P (Except IdError Block) :=
  match resolveBlockId s id with
  | .error e => .error e
  | .ok (.error e, _) => .ok (.error e)
  | .ok (.ok r, s) =>
    match getBlock H s.mem.db r with
    | none => .ok (.error .notFound)
    | some b => .ok (.ok b)

/-- `get_block_header` (38-51). -/
def headerReply (s : Store) (id : List Char) : P (Except IdError Header) :=
  match resolveBlockId s id with
  | .error e => .error e
  | .ok (.error e, _) => .ok (.error e)
  | .ok (.ok r, s) =>
    match s.header r with
    | none => .ok (.error .notFound)
    | some h => .ok (.ok h)

/-- A node of the reply of `get_fork_choice` (`crates/net/rpc/src/fork_choice.rs` 27-34). -/
structure FcNode where
  root : Root
  slot : Nat
  parentRoot : Root
  proposer : Nat
  weight : Nat
  deriving DecidableEq, Repr

/-- The nodes of the reply of `get_fork_choice` (36-73). -/
def forkChoiceNodes (s : Store) : List FcNode :=
  let blocks := getLiveChain s.mem.db
  let w := ForkChoice.computeBlockWeights s.mem.db.finalized.slot blocks (Votes.headVotes s.fc)
  blocks.map (fun e => { root := e.1, slot := e.2.1, parentRoot := e.2.2
                         proposer := ((s.header e.1).map Header.proposerIndex).getD 0
                         weight := ForkChoice.weightOf w e.1 })

end Verif.Rpc
