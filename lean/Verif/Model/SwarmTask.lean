import Verif.Model.P2p

/-
The two tasks of the network side: the actor `P2PServer` and the task that owns the libp2p swarm.

Source (read as text, /repo):
* `crates/net/p2p/src/swarm_adapter.rs`        `SwarmHandle::send_request` 59-80, `start_swarm_adapter` 94-109,
  `swarm_loop` 111-138, `execute_command` 140-177
* `crates/net/p2p/src/lib.rs`                  `spawn_listener` 398 (events of the swarm become messages of the actor)
* `crates/net/p2p/src/req_resp/handlers.rs`    `fetch_block_from_peer` 401-483, `request_next_range_batch` 485-544

`Verif.Net.Server.step` handles an event in one go and assumes that a request has its id at once.  Here a request is a
command in a channel; the actor waits for the id while the swarm goes on, answers and other messages pile up in its
mailbox, and the swarm task may end at any time.  Both channels are unbounded.  The actor handles one message at a time,
also while it waits (`spawned_concurrency`).

Simplified: only requests for blocks are commands here; ids of status requests, which the actor does not record, are
counted separately.  The state of a waiting handler is kept as the state before it and the message, since nobody can
look at the state in between.
-/

namespace Verif.Net

open Verif

/-- The event with the given answer to "did the swarm task take the request". -/
def PEvent.sentAs (b : Bool) : PEvent → PEvent
  | .fetch r pick _ => .fetch r pick b
  | .retry r pick _ => .retry r pick b
  | .status p head ourHead _ => .status p head ourHead b
  | .blocks id p bs _ => .blocks id p bs b
  | e => e

/-- The request that an event answers. -/
def PEvent.answers : PEvent → Option (ReqId × Peer)
  | .blocks id p _ _ => some (id, p)
  | .errorResponse id p => some (id, p)
  | .failure id p => some (id, p)
  | _ => none

/-- Messages from outside: other actors, connections, statuses. -/
def PEvent.outside : PEvent → Bool
  | .connected _ => true
  | .disconnected _ => true
  | .initChain => true
  | .fetch _ _ _ => true
  | .status _ head ourHead _ => decide (head < 2 ^ 64 ∧ ourHead < 2 ^ 64)
  | _ => false

/-- Both tasks with what lies between them. -/
structure Tasks where
  /-- The fields of the actor. -/
  srv : Server
  /-- The message whose handler waits for a request id. -/
  busy : Option PEvent
  /-- Messages for the actor, oldest first. -/
  mailbox : List PEvent
  /-- Requests in the command channel, by peer. -/
  cmds : List Peer
  /-- The `oneshot` channel the handler waits for. -/
  reply : Option ReqId
  /-- The swarm: next id, requests without an answer. -/
  nextId : ReqId
  open_ : List (ReqId × Peer)
  /-- Running timers of the actor (`send_after`). -/
  timers : List Root
  /-- The swarm task has ended. -/
  closed : Bool

def Tasks.init : Tasks := ⟨⟨[], [], [], none, false⟩, none, [], [], none, 0, [], [], false⟩

/-- What can happen next. -/
inductive TAct where
  /-- A message from outside reaches the mailbox. -/
  | arrive (e : PEvent)
  /-- The swarm yields the answer to a request (`swarm_loop` 121-124). -/
  | answer (e : PEvent)
  /-- A timer fires. -/
  | fire (r : Root) (pick : Nat)
  /-- The actor takes the next message. -/
  | begin
  /-- The swarm task takes the next command (`swarm_loop` 125-128, `execute_command` 155-168). -/
  | take
  /-- The handler goes on after waiting. -/
  | resume
  /-- The swarm task ends (`swarm_loop` 122-123, 126, 137). -/
  | close

/-- The peer to which the handler of an event sends a request. -/
def wants (ord : AMap Peer Nat → AMap Peer Nat) (s : Server) (e : PEvent) : Option Peer :=
  match sends (s.step ord 0 (e.sentAs true)).2 with
  | [] => none
  | (_, p) :: _ => some p

/-- The handler of `e` comes to its end; `b` says whether the request was taken, under the id `id`. -/
def Tasks.finish (ord : AMap Peer Nat → AMap Peer Nat) (t : Tasks) (e : PEvent) (id : ReqId) (b : Bool) :
    Tasks × List (PEvent × List POut) :=
  let res := t.srv.step ord id (e.sentAs b)
  ({ t with srv := res.1, busy := none, reply := none, timers := t.timers ++ timersOf res.2 },
    [(e.sentAs b, res.2)])

/-- One thing happens; `none` if it cannot.  The second component lists the handler that ended, if any. -/
def Tasks.act (ord : AMap Peer Nat → AMap Peer Nat) (t : Tasks) : TAct → Option (Tasks × List (PEvent × List POut))
  | .arrive e => if e.outside then some ({ t with mailbox := t.mailbox ++ [e] }, []) else none
  | .answer e =>
    match e.answers with
    | none => none
    | some q =>
      if ¬ t.closed ∧ q ∈ t.open_ then
        some ({ t with mailbox := t.mailbox ++ [e],
                       open_ := t.open_.filter (fun x => decide (x.1 ≠ q.1)) }, [])
      else none
  | .fire r pick =>
    if r ∈ t.timers then
      some ({ t with mailbox := t.mailbox ++ [.retry r pick true], timers := t.timers.erase r }, [])
    else none
  | .begin =>
    match t.busy, t.mailbox with
    | none, e :: l =>
      match wants ord t.srv e with
      | none => some (Tasks.finish ord { t with mailbox := l } e 0 true)
      | some p =>
        if t.closed then some (Tasks.finish ord { t with mailbox := l } e 0 false)
        else some ({ t with mailbox := l, busy := some e, cmds := t.cmds ++ [p] }, [])
    | _, _ => none
  | .take =>
    match t.cmds with
    | [] => none
    | p :: l =>
      if t.closed then none
      else some ({ t with cmds := l, open_ := t.open_ ++ [(t.nextId, p)], nextId := t.nextId + 1,
                          reply := some t.nextId }, [])
  | .resume =>
    match t.busy, t.reply with
    | some e, some id => some (t.finish ord e id true)
    | some e, none => if t.closed then some (t.finish ord e 0 false) else none
    | none, _ => none
  | .close => some ({ t with closed := true, cmds := [] }, [])

/-- Runs of both tasks: what happened, and the handlers that ended, oldest first. -/
inductive TRun (ord : AMap Peer Nat → AMap Peer Nat) : List TAct → List (PEvent × List POut) → Tasks → Prop
  | nil : TRun ord [] [] Tasks.init
  | snoc {acts : List TAct} {tr : List (PEvent × List POut)} {t t' : Tasks} {x : TAct}
      {done : List (PEvent × List POut)} :
      TRun ord acts tr t → t.act ord x = some (t', done) → TRun ord (acts ++ [x]) (tr ++ done) t'

end Verif.Net
