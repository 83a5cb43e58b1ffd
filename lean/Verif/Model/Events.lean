import Verif.Model.Store
/-!
# Chain events

`crates/blockchain/src/events.rs` 205-307 and the three places in `crates/blockchain/src/lib.rs` that
wrap a store call in a snapshot: `on_tick` (362-366), `propose_block` (739-756) and `process_block` (926-951). The gossip topics and the
broadcast channel are in `EventBus`.
-/
namespace Verif.Node
open Verif Verif.Db

/-- `ChainEvent` (95-123), without the gossip events. -/
inductive ChainEvent
  | head (slot : Nat) (block state : Root)
  | block (slot : Nat) (block : Root)
  | justified (slot : Nat) (block state : Root)
  | finalized (slot : Nat) (block state : Root)
  deriving DecidableEq

/-- `HEAD_EVENT_RECENCY_SLOTS` (203). -/
def headRecency : Nat := 32

/-- `ChainEventSnapshot` (221-225). -/
structure Snapshot where
  head : Root
  justified : Checkpoint
  finalized : Checkpoint

/-- `capture` (228-238). -/
def Snapshot.capture (s : Store) : Snapshot :=
  ⟨s.mem.db.head, s.mem.db.justified, s.mem.db.finalized⟩

/-- `diff_and_emit` (247-307): what is emitted, in order. -/
def Snapshot.diff (p : Snapshot) (s : Store) (wall : Nat) : List ChainEvent :=
  (if s.mem.db.head ≠ p.head then
    match s.header s.mem.db.head with
    | some h => if h.slot + headRecency ≥ wall then [.head h.slot s.mem.db.head h.stateRoot] else []
    | none => []
   else []) ++
  (if s.mem.db.justified ≠ p.justified then
    match s.header s.mem.db.justified.root with
    | some h => [.justified s.mem.db.justified.slot s.mem.db.justified.root h.stateRoot]
    | none => []
   else []) ++
  (if s.mem.db.finalized ≠ p.finalized then
    match s.header s.mem.db.finalized.root with
    | some h => [.finalized s.mem.db.finalized.slot s.mem.db.finalized.root h.stateRoot]
    | none => []
   else [])

/-- What the actor publishes when an event takes the store from `s` to `s'`. For a block that reaches
`process_block` (926-951): the `block` event if it is new, then the differences; nothing if the import
fails; a block of the node's own goes straight there (902-909). `accept` is part of the proposer's catch-up, which is wrapped in a snapshot too. -/
def published (E : Env) (s : Store) (ev : Event) (s' : Store) (wall : Nat) : List ChainEvent :=
  match ev with
  | .block sb =>
    if sb.block.slot ≤ s.mem.db.finalized.slot then []
    else if sb.block.slot * intervalsPerSlot > s.mem.db.time + gossipDisparity then []
    else if ¬ hasState s.mem.db sb.block.parentRoot = true then []
    else
      match onBlock E s sb with
      | .ok (_, .ok ()) =>
        (if hasState s.mem.db (sb.block.root E.H) then []
          else [.block sb.block.slot (sb.block.root E.H)]) ++ (Snapshot.capture s).diff s' wall
      | _ => []
  | .own sb =>
    match onBlock E s sb with
    | .ok (_, .ok ()) =>
      (if hasState s.mem.db (sb.block.root E.H) then []
        else [.block sb.block.slot (sb.block.root E.H)]) ++ (Snapshot.capture s).diff s' wall
    | _ => []
  | .tick _ _ => (Snapshot.capture s).diff s' wall
  | .accept => (Snapshot.capture s).diff s' wall
  | _ => []

end Verif.Node
