import Verif.Model.Coverage
import Verif.Model.Race
/-!
# The operator's endpoints

`GET` and `POST /lean/v0/admin/aggregator` (`crates/net/rpc/src/admin.rs` 57-108) with the shared flag
(`crates/common/types/src/aggregator.rs`), and `GET /lean/v0/node/syncing` (`crates/net/rpc/src/node.rs`
38-62) with the shared status (`crates/blockchain/src/sync_status.rs` 17-40), beside a node with its
aggregation sessions. Requests are handled at any time, also while the actor is busy with a message: the
role counts for a message as it was when the actor took the message up. Simplified: the handler of a
vote reads the flag a second time before an early start (`crates/blockchain/src/lib.rs` 585); here both
reads give the same. Not modelled: JSON text, and the answer 503 of a server without a flag, which
`main.rs` does not start.
-/
namespace Verif.Node
open Verif Verif.Db Verif.Sync Verif.Buffers Verif.Build

/-- The body of a `POST`: no JSON, JSON without the field `enabled`, the field not a boolean, or as it
should be (84-97). -/
inductive PostBody
  | notJson | noField | notBool
  | enabled (b : Bool)
  deriving DecidableEq

/-- Answers (59-108; node.rs 55-61). -/
inductive Reply
  | role (isAggregator : Bool)
  | toggled (isAggregator previous : Bool)
  | badRequest
  | syncing (isSyncing : Bool) (headSlot distance finalizedSlot : Nat)
  deriving DecidableEq

/-- `SyncStatus` (`crates/blockchain/src/metrics.rs` 723-727). -/
inductive SyncCode
  | idle | syncing | synced
  deriving DecidableEq

/-- A node, the shared role and status, the role as the actor read it for the message it is handling,
and the role given on the command line. -/
structure Ctl where
  node : ANode
  role : Bool
  status : SyncCode
  inHand : Option Bool
  option : Bool

/-- A node as `main.rs` (218-246) starts it. -/
def ANode.controlled (n : ANode) (option : Bool) : Ctl := ⟨n, option, .idle, none, option⟩

/-- The message as it is handled in that role. -/
def AEvent.inRole (b : Bool) : AEvent → AEvent
  | .timer now _ => .timer now b
  | .attestation v d sig now _ => .attestation v d sig now b
  | .check now _ => .check now b
  | ev => ev

/-- What can happen: the actor takes up a message and reads the role; it handles the message (a restart
comes at any time); requests. -/
inductive OEvent
  | read
  | act (ev : AEvent)
  | get
  | post (body : PostBody)
  | syncing (now : Nat)

/-- `get_syncing` (38-62) with the reads at one moment. -/
def Ctl.syncingNow (m : Ctl) (now : Nat) : P Reply :=
  let s := m.node.node.actor.store
  match headSlot s with
  | .error e => .error e
  | .ok h => .ok (.syncing (decide (m.status = .syncing)) h
      ((now - s.genesisTime * 1000) / msPerSlot - h) s.mem.db.finalized.slot)

/-- `update_sync_status` writes the status on every tick that is handled (`crates/blockchain/src/lib.rs`
324, 1271-1283). A restarted process begins with `idle`. -/
def Ctl.statusAfter (m : Ctl) (n : ANode) : AEvent → SyncCode
  | .timer now _ =>
    if tickLive m.node.node.actor.store now = true then
      (if n.node.sync.syncing then .syncing else .synced)
    else m.status
  | .restart => .idle
  | _ => m.status

/-- What the node did: the event as it was handled, what it signed and published. -/
structure Deed where
  ev : AEvent
  out : List Signed
  pub : List Published

/-- One event: the reply, if it is a request, and what the node did, if it is its turn. -/
def Ctl.step (c : VCtx) (u : Subnets) (m : Ctl) : OEvent → P (Ctl × List Reply × List Deed)
  | .read => .ok ({ m with inHand := some m.role }, [], [])
  | .act .restart =>
    match m.node.step c u .restart with
    | .error e => .error e
    | .ok (n, l, p) => .ok (n.controlled m.option, [], [⟨.restart, l, p⟩])
  | .act ev =>
    match m.inHand with
    | none => .ok (m, [], [])
    | some b =>
      match m.node.step c u (ev.inRole b) with
      | .error e => .error e
      | .ok (n, l, p) =>
        .ok ({ m with node := n, status := m.statusAfter n (ev.inRole b), inHand := none }, [],
          [⟨ev.inRole b, l, p⟩])
  | .get => .ok (m, [.role m.role], [])
  | .post .notJson => .ok (m, [.badRequest], [])
  | .post .noField => .ok (m, [.badRequest], [])
  | .post .notBool => .ok (m, [.badRequest], [])
  | .post (.enabled b) => .ok ({ m with role := b }, [.toggled b m.role], [])
  | .syncing now =>
    match m.syncingNow now with
    | .error e => .error e
    | .ok r => .ok (m, [r], [])

/-- `get_syncing` while the node writes: the head, its header, the finalized checkpoint and the status
are read one after the other. -/
def syncingSeen (see : Nat → Db) (status : SyncCode) (genesisTime now : Nat) : P Reply :=
  match (see 1).headers.get? (see 0).head with
  | none => .error 1720
  | some h => .ok (.syncing (decide (status = .syncing)) h.slot
      ((now - genesisTime * 1000) / msPerSlot - h.slot) (see 2).finalized.slot)

end Verif.Node
