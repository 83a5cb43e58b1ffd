import Verif.Model.Events

/-!
# The event stream

`crates/blockchain/src/events.rs` 33-194 (topics, events, the bus) and
`crates/net/rpc/src/events.rs` 33-113 (the endpoint `/lean/v0/events`). The broadcast channel is tokio's,
by its documentation: a receiver has a position in the sequence of everything sent, and only the last
`capacity` values can still be read. Not modelled: JSON, HTTP framing, keep-alive comments, shutdown.
-/
namespace Verif.Node
open Verif Verif.Db

/-- `Topic` (events.rs 33-44). -/
inductive Topic
  | head | block | justified | finalized | blockGossip | attestation | aggregate
  deriving DecidableEq

/-- `Topic::as_str` (46-57). -/
def Topic.name : Topic → List Char
  | .head => ['h', 'e', 'a', 'd']
  | .block => ['b', 'l', 'o', 'c', 'k']
  | .justified => ['j', 'u', 's', 't', 'i', 'f', 'i', 'e', 'd', '_', 'c', 'h', 'e', 'c', 'k', 'p', 'o',
      'i', 'n', 't']
  | .finalized => ['f', 'i', 'n', 'a', 'l', 'i', 'z', 'e', 'd', '_', 'c', 'h', 'e', 'c', 'k', 'p', 'o',
      'i', 'n', 't']
  | .blockGossip => ['b', 'l', 'o', 'c', 'k', '_', 'g', 'o', 's', 's', 'i', 'p']
  | .attestation => ['a', 't', 't', 'e', 's', 't', 'a', 't', 'i', 'o', 'n']
  | .aggregate => ['a', 'g', 'g', 'r', 'e', 'g', 'a', 't', 'e']

/-- `Topic::from_str` (64-81). -/
def Topic.ofName (s : List Char) : Option Topic :=
  if s = ['h', 'e', 'a', 'd'] then some .head
  else if s = ['b', 'l', 'o', 'c', 'k'] then some .block
  else if s = ['j', 'u', 's', 't', 'i', 'f', 'i', 'e', 'd', '_', 'c', 'h', 'e', 'c', 'k', 'p', 'o',
      'i', 'n', 't'] then some .justified
  else if s = ['f', 'i', 'n', 'a', 'l', 'i', 'z', 'e', 'd', '_', 'c', 'h', 'e', 'c', 'k', 'p', 'o',
      'i', 'n', 't'] then some .finalized
  else if s = ['b', 'l', 'o', 'c', 'k', '_', 'g', 'o', 's', 's', 'i', 'p'] then some .blockGossip
  else if s = ['a', 't', 't', 'e', 's', 't', 'a', 't', 'i', 'o', 'n'] then some .attestation
  else if s = ['a', 'g', 'g', 'r', 'e', 'g', 'a', 't', 'e'] then some .aggregate
  else none

/-- The selection of topics in `get_events` (rpc events.rs 49-61); `none` is the reply 400. -/
def parseTopics : Option (List Char) → Option (List Topic)
  | none => none
  | some [] => none
  | some list => (list.splitOn ',').mapM Topic.ofName

/-- All of `ChainEvent` (95-123). -/
inductive BusEvent
  | chain (e : ChainEvent)
  | blockGossip (slot : Nat) (block : Root)
  | attestation (vid : Nat) (d : AttData)
  | aggregate (participants : List Nat) (d : AttData)
  deriving DecidableEq

/-- `ChainEvent::topic` (126-136). -/
def BusEvent.topic : BusEvent → Topic
  | .chain (.head ..) => .head
  | .chain (.block ..) => .block
  | .chain (.justified ..) => .justified
  | .chain (.finalized ..) => .finalized
  | .blockGossip .. => .blockGossip
  | .attestation .. => .attestation
  | .aggregate .. => .aggregate

/-- A receiver and the topics its client asked for. -/
structure Client where
  topics : List Topic
  next : Nat

/-- The channel: everything sent so far, and the receivers, `none` for those that were dropped. -/
structure Bus where
  log : List BusEvent
  clients : List (Option Client)

/-- `CHAIN_EVENT_CHANNEL_CAPACITY` (152). -/
def eventCapacity : Nat := 8192

/-- What a client is sent: an event under its topic, or the comment that messages were dropped. -/
inductive Frame
  | event (t : Topic) (e : BusEvent)
  | dropped (n : Nat)
  deriving DecidableEq

/-- `EventBus::emit` (178-183). -/
def Bus.emit (b : Bus) (e : BusEvent) : Bus :=
  if b.clients.all Option.isNone then b else { b with log := b.log ++ [e] }

/-- One round of the loop in `event_stream` (rpc events.rs 75-110), of a client that waits for nothing:
the client afterwards and the frame sent, if any. -/
def Client.recv (cap : Nat) (log : List BusEvent) (c : Client) : Client × Option Frame :=
  if log.length - c.next > cap then
    ({ c with next := log.length - cap }, some (.dropped (log.length - cap - c.next)))
  else match log[c.next]? with
    | none => (c, none)
    | some e =>
      ({ c with next := c.next + 1 }, if e.topic ∈ c.topics then some (.event e.topic e) else none)

/-- What happens at the bus: the actor emits, clients come, read and go. -/
inductive BusOp
  | emit (e : BusEvent)
  | subscribe (topics : List Topic)
  | recv (k : Nat)
  | close (k : Nat)
  deriving DecidableEq

/-- One operation; the frame with the number of the client it is sent to. -/
def Bus.step (cap : Nat) (b : Bus) : BusOp → Bus × Option (Nat × Frame)
  | .emit e => (b.emit e, none)
  | .subscribe ts => ({ b with clients := b.clients ++ [some ⟨ts, b.log.length⟩] }, none)
  | .recv k =>
    match b.clients[k]? with
    | some (some c) =>
      let r := c.recv cap b.log
      ({ b with clients := b.clients.set k (some r.1) }, r.2.map (fun f => (k, f)))
    | _ => (b, none)
  | .close k => ({ b with clients := b.clients.set k none }, none)

/-- Any sequence of operations (oldest first): all frames sent, in order. -/
def Bus.run (cap : Nat) (b : Bus) : List BusOp → List (Nat × Frame)
  | [] => []
  | o :: os => (b.step cap o).2.toList ++ (b.step cap o).1.run cap os

/-- A new bus. -/
def Bus.empty : Bus := ⟨[], []⟩

end Verif.Node
