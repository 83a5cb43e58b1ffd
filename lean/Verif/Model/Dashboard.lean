import Verif.Model.Monitor

/-
The event monitor and a page that opens.

Source (read as text, /repo):
* `tooling/event-monitor/src/hub.rs`      `HUB_CAPACITY` 18, `record_status` 87-89, `Hub` 146-217
* `tooling/event-monitor/src/server.rs`   `history_handler` 113-115, `stream_handler` 117-134
* `tooling/event-monitor/web/app.js`      `createLiveSource` 52-62, `eventKey` 94-96, `boot` 113-219

A collector publishes in two steps: it records under the lock, then it sends to the broadcast channel.  The page sends
two requests, `GET /stream` (by `new EventSource`, whose connection it does not wait for) and `GET /api/history`; the
server handles them in any order, and the two answers travel on different connections.

Simplified: one page; the connection of the stream does not break; the history request succeeds; the number of events
per second in a status and geometry messages are left out.
-/

namespace Verif.Monitor

open Verif

/-- `HubMessage` (hub.rs 44-49) of one collector, without geometry. -/
inductive Msg where
  | chain (e : Ev)
  | status (s : NodeState)
  deriving DecidableEq

/-- `HUB_CAPACITY` (hub.rs 18). -/
def hubCapacity : Nat := 4096

/-- `eventKey` (app.js 94-96). -/
def Ev.key (e : Ev) : Nat × Node.Topic × Nat × Option Nat × Option Nat × Int :=
  (e.node, e.topic, e.slot, e.id, e.validator, e.arrival)

/-- The hub, what is under way, and the page. -/
structure Desk where
  history : History
  status : Nat → Option NodeState
  /-- What collector `i` has recorded but not sent yet. -/
  flight : Nat → Option Msg
  /-- What the subscriber of the stream has not received yet, with the node; `none` before the subscription. -/
  queue : Option (List (Nat × Msg))
  /-- The subscriber has lost messages. -/
  lagged : Bool
  /-- The answer to the history request. -/
  snap : Option (List Ev × (Nat → Option NodeState))
  /-- The page: `loading`, `liveBuffer`, `liveStatusNodes`, the events ingested (oldest first), the status chips. -/
  loading : Bool
  buffer : List Ev
  live : List Nat
  shown : List Ev
  chips : Nat → Option NodeState

def Desk.init (historySlots : Nat) : Desk :=
  ⟨History.new historySlots, fun _ => none, fun _ => none, none, false, none, true, [], [], [], fun _ => none⟩

/-- `ingestDeduped` (app.js 166-171) over a list, with the events ingested so far. -/
def ingestAll : List Ev → List Ev → List Ev
  | shown, [] => shown
  | shown, e :: l =>
    if e.key ∈ shown.map Ev.key then ingestAll shown l else ingestAll (shown ++ [e]) l

/-- What can happen. -/
inductive DAct where
  /-- Collector `i` records a message (hub.rs 169-171, 178-180). -/
  | record (i : Nat) (m : Msg)
  /-- and sends it (hub.rs 172, 181). -/
  | send (i : Nat)
  /-- The refresher drops the history. -/
  | reset
  /-- The server handles `GET /stream`. -/
  | subscribe
  /-- The server handles `GET /api/history`. -/
  | answer
  /-- The page receives a message of the stream. -/
  | frame
  /-- The page receives the history (app.js 198-218). -/
  | seed
  deriving DecidableEq

/-- Recording under the lock. -/
def Desk.store (d : Desk) (i : Nat) : Msg → Desk
  | .chain e => { d with history := d.history.push e }
  | .status s => { d with status := Function.update d.status i (some s) }

/-- The broadcast channel: a full queue loses its oldest message. -/
def Desk.push (d : Desk) (x : Nat × Msg) : Desk :=
  match d.queue with
  | none => d
  | some l => if l.length < hubCapacity then { d with queue := some (l ++ [x]) }
    else { d with queue := some (l.tail ++ [x]), lagged := true }

/-- The listeners of the page (app.js 173-196). -/
def Desk.receive (d : Desk) : Nat × Msg → Desk
  | (_, .chain e) => if d.loading then { d with buffer := d.buffer ++ [e] } else { d with shown := d.shown ++ [e] }
  | (i, .status s) =>
    { d with chips := Function.update d.chips i (some s), live := if d.loading then i :: d.live else d.live }

/-- One thing happens; `none` if it cannot. -/
def Desk.act (d : Desk) : DAct → Option Desk
  | .record i m => match d.flight i with
    | some _ => none
    | none => some { d.store i m with flight := Function.update d.flight i (some m) }
  | .send i => match d.flight i with
    | none => none
    | some m => some (Desk.push { d with flight := Function.update d.flight i none } (i, m))
  | .reset => some { d with history := d.history.reset }
  | .subscribe => if d.queue.isSome then none else some { d with queue := some [] }
  | .answer => if d.snap.isSome then none else some { d with snap := some (d.history.snapshot, d.status) }
  | .frame => match d.queue with
    | some (x :: l) => some (Desk.receive { d with queue := some l } x)
    | _ => none
  | .seed => match d.snap with
    | none => none
    | some (l, st) =>
      if d.loading then
        some { d with chips := fun i => if i ∈ d.live then d.chips i else (st i).or (d.chips i),
                      shown := ingestAll (ingestAll [] l) d.buffer, buffer := [], loading := false }
      else none

/-- Everything in a list happens, oldest first. -/
def drun (n : Nat) : List DAct → Option Desk
  | acts => acts.foldlM Desk.act (Desk.init n)

end Verif.Monitor
