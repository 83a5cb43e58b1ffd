import Verif.Model.P2p
/-!
# Keeping the connections to the bootnodes

`crates/net/p2p/src/lib.rs`: the first dials (299-313), connection events (558-680), the redial timer
(478-497), with the swarm task behind the queues of `swarm_adapter.rs` (108-177).

The swarm is modelled by the documentation of libp2p: `num_established` counts the connections to the
peer after the event; a dial of an address with a peer id ends in a connection or in an
`OutgoingConnectionError` with that id; dialling an address is not conditional on other dials or
connections (`PeerCondition::Always`), and no behaviour of this node refuses dials, so `Swarm::dial`
(154-158) does not fail on the spot. Not modelled: closing of the queues at shutdown.
-/
namespace Verif.Redial
open Verif

abbrev Peer := Nat

/-- `PEER_REDIAL_INTERVAL_SECS` (62) in milliseconds. -/
def redialMs : Nat := 12 * 1000

/-- Events of the swarm. -/
inductive SwarmEvent
  | established (p : Peer) (num : Nat)
  | closed (p : Peer) (num : Nat)
  | dialError (p : Peer)
  deriving DecidableEq

/-- The swarm with its queues (`conns`: established connections; `dialing`: dials in progress), and of
the actor what concerns connections. `now` is the wall clock in milliseconds. -/
structure Node where
  boot : List Peer
  connected : List Peer
  timers : List (Peer × Nat)
  cmds : List Peer
  events : List SwarmEvent
  conns : Peer → Nat
  dialing : Peer → Nat
  now : Nat

/-- `build_swarm` (298-313): every listed bootnode but the node itself is dialled. -/
def start (self : Peer) (listed : List Peer) (now : Nat) : Node :=
  let l := listed.filter (fun p => decide (p ≠ self))
  { boot := l, connected := [], timers := [], cmds := [], events := [], conns := fun _ => 0,
    dialing := fun p => l.count p, now := now }

/-- `f` with another value at `p`. -/
def upd (f : Peer → Nat) (p : Peer) (v : Nat) : Peer → Nat := fun q => if q = p then v else f q

/-- `send_after` of a `RetryPeerRedial` (642-646, 671-675). -/
def Node.schedule (n : Node) (p : Peer) : Node := { n with timers := n.timers ++ [(p, n.now + redialMs)] }

/-- `handle_swarm_event` for connection events (558-680): the node afterwards and the peer a status
request is sent to, if any. -/
def Node.handle (n : Node) : SwarmEvent → Node × Option Peer
  | .established p num =>
    if num = 1 then
      ({ n with connected := if p ∈ n.connected then n.connected else n.connected ++ [p] }, some p)
    else (n, none)
  | .closed p num =>
    if num = 0 then
      let n := { n with connected := n.connected.filter (fun q => decide (q ≠ p)) }
      (if p ∈ n.boot then n.schedule p else n, none)
    else (n, none)
  | .dialError p => (if p ∈ n.boot ∧ p ∉ n.connected then n.schedule p else n, none)

/-- `handle_retry_peer_redial` (478-497). -/
def Node.redial (n : Node) (p : Peer) : Node :=
  if p ∈ n.connected then n
  else if p ∈ n.boot then { n with cmds := n.cmds ++ [p] }
  else n

/-- What can happen: time passes; the swarm takes up a command; a dial succeeds or fails; a peer
connects; a connection is lost; the actor handles the next event of the swarm; a timer that is due
fires. -/
inductive Ev
  | wait (ms : Nat)
  | execute
  | reached (p : Peer)
  | failed (p : Peer)
  | incoming (p : Peer)
  | lost (p : Peer)
  | take
  | fire (k : Nat)
  deriving DecidableEq

/-- One event, with the status request it causes. -/
def Node.step (n : Node) : Ev → Node × Option Peer
  | .wait ms => ({ n with now := n.now + ms }, none)
  | .execute =>
    match n.cmds with
    | [] => (n, none)
    | p :: ps => ({ n with cmds := ps, dialing := upd n.dialing p (n.dialing p + 1) }, none)
  | .reached p =>
    if n.dialing p = 0 then (n, none)
    else ({ n with dialing := upd n.dialing p (n.dialing p - 1), conns := upd n.conns p (n.conns p + 1),
                   events := n.events ++ [.established p (n.conns p + 1)] }, none)
  | .failed p =>
    if n.dialing p = 0 then (n, none)
    else ({ n with dialing := upd n.dialing p (n.dialing p - 1), events := n.events ++ [.dialError p] }, none)
  | .incoming p =>
    ({ n with conns := upd n.conns p (n.conns p + 1),
              events := n.events ++ [.established p (n.conns p + 1)] }, none)
  | .lost p =>
    if n.conns p = 0 then (n, none)
    else ({ n with conns := upd n.conns p (n.conns p - 1),
                   events := n.events ++ [.closed p (n.conns p - 1)] }, none)
  | .take =>
    match n.events with
    | [] => (n, none)
    | e :: es => Node.handle { n with events := es } e
  | .fire k =>
    match n.timers[k]? with
    | none => (n, none)
    | some (p, due) =>
      if n.now < due then (n, none)
      else (Node.redial { n with timers := n.timers.eraseIdx k } p, none)

end Verif.Redial
