import Verif.Model.Worker
/-!
# A node with its aggregation sessions

`start_aggregation_session`, `maybe_start_early_aggregation`, the worker and the handlers of its
messages (`crates/blockchain/src/lib.rs` 421-434, 482-645, 1398-1422, 1436-1528 and
`crates/blockchain/src/aggregation.rs` 674-760), with the threads and timers that run beside the
actor: a worker takes and finishes its jobs at any time, a message that was sent arrives any time
later, and not before the time it was delayed to. Simplified: the wait for an earlier worker (488-507)
has no effect but time. Not modelled: events, metrics, and failures of the message channels, which only
occur at shutdown.
-/
namespace Verif.Node
open Verif Verif.Db Verif.Sync Verif.Buffers Verif.Build

/-- A worker thread: `run_aggregation_worker` (674-760). `job` is the one it is busy with. -/
structure Running where
  /-- The session id, a slot. -/
  id : Nat
  publishAt : Nat
  vals : List Validator
  jobs : List Job
  job : Option Job
  cancelled : Bool

/-- A message `AggregateProduced` on its way, delivered at `due` or later. -/
structure Produced where
  id : Nat
  out : GroupOut
  due : Nat

/-- The subnets of a node: `attestation_committee_count` and `subscribed_subnets`. -/
structure Subnets where
  committees : Nat
  mine : List Nat

/-- A node, `current_aggregation` (its id and the number of its worker), all workers, and the messages
on their way. -/
structure ANode where
  node : VNode
  current : Option (Nat × Nat)
  workers : List Running
  mail : List Produced

/-- An aggregate that was published, when and by which session. -/
structure Published where
  now : Nat
  id : Nat
  data : AttData
  agg : Agg

/-- The cancellation of the current session (485, 1523). -/
def ANode.cancel (n : ANode) : ANode :=
  match n.current with
  | none => n
  | some (_, k) => { n with workers := n.workers.modify k (fun w => { w with cancelled := true }) }

/-- `start_aggregation_session` (482-571). -/
def ANode.start (c : VCtx) (n : ANode) (slot : Nat) : P ANode :=
  let n := { n.cancel with current := none }
  match sessionJobs c n.node.sync n.node.actor.store slot with
  | .error e => .error e
  | .ok (js, vals, s) =>
    let node : VNode := { n.node with actor := { n.node.actor with store := s } }
    if js.isEmpty then .ok { n with node := node }
    else .ok { n with
      node := node
      current := some (slot, n.workers.length)
      workers := n.workers ++ [⟨slot, s.genesisTime * 1000 + slot * msPerSlot + 2 * msPerInterval,
        vals, js, none, false⟩] }

/-- `maybe_start_early_aggregation` (584-645). The head state is read first here, in the code only once
it is needed (622). -/
def ANode.early (c : VCtx) (u : Subnets) (n : ANode) (now : Nat) (agg : Bool) : P ANode :=
  if ¬ agg then .ok n
  else match headState n.node.actor.store with
  | .error e => .error e
  | .ok (st, s) =>
    let n := { n with node := { n.node with actor := { n.node.actor with store := s } } }
    match earlyStart agg (s.genesisTime * 1000) now (n.current.map Prod.fst)
        s.gossip.maxGroupCountForSlot st.validators.length u.committees u.mine with
    | none => .ok n
    | some slot => n.start c slot

/-- The interval-2 part of `on_tick` (419-434), after the rest of it. The first test says that the tick
was not skipped (302-316). -/
def ANode.tickSession (c : VCtx) (before : Store) (n : ANode) (now : Nat) (agg : Bool) : P ANode :=
  let ms := now - before.genesisTime * 1000
  if before.mem.db.time > 0 ∧ ms / msPerInterval ≤ before.mem.db.time then .ok n
  else if Interval.ofMs ms = some .aggregation ∧ agg = true ∧
      n.current.map Prod.fst ≠ some (ms / msPerSlot) then n.start c (ms / msPerSlot)
  else .ok n

/-- What can happen to an aggregating node. `agg` is the aggregator role at that time, which can be
switched at any moment; `now` is the wall clock. -/
inductive AEvent
  | timer (now : Nat) (agg : Bool)
  | block (sb : SignedBlock)
  | attestation (vid : Nat) (d : AttData) (sig : Nat) (now : Nat) (agg : Bool)
  | aggregate (d : AttData) (a : Agg)
  /-- `EarlyAggregationCheck` (1491-1495). -/
  | check (now : Nat) (agg : Bool)
  /-- A worker begins its next job, unless it was cancelled. -/
  | begin (worker : Nat)
  /-- A worker finishes its job. -/
  | finish (worker : Nat) (now : Nat)
  /-- A message arrives. -/
  | deliver (message : Nat) (now : Nat)
  /-- `AggregationDeadline` (1519-1527). -/
  | deadline (id : Nat)
  | restart

/-- The wall clock of an event, if it reads it. -/
def AEvent.time : AEvent → Option Nat
  | .timer now _ => some now
  | .attestation _ _ _ now _ => some now
  | .check now _ => some now
  | .finish _ now => some now
  | .deliver _ now => some now
  | _ => none

/-- A message from outside, or a restart. -/
def ANode.other (c : VCtx) (n : ANode) (ev : Event) : P ANode :=
  match n.node.step c (.other ev) with
  | .error e => .error e
  | .ok (m, _) => .ok { n with node := m }

/-- The handler of `AggregateProduced` (1436-1489). -/
def ANode.take (c : VCtx) (n : ANode) (p : Produced) (now : Nat) : P (ANode × List Published) :=
  if n.current.map Prod.fst ≠ some p.id then .ok (n, [])
  else match n.other c (.ownAggregate p.out.data p.out.proof p.out.keysToDelete) with
  | .error e => .error e
  | .ok n => .ok (n, [⟨now, p.id, p.out.data, p.out.proof⟩])

/-- The loop of the worker, up to the start of the next job (689-693). -/
def Running.next (w : Running) : Running :=
  match w.job, w.jobs with
  | none, j :: js => if w.cancelled then { w with jobs := [] } else { w with jobs := js, job := some j }
  | _, _ => w

/-- The rest of the round (699-756): the worker afterwards and what it sends. A panic ends the
thread. -/
def Running.done (X : Crypto) (w : Running) (now : Nat) : Running × List Produced :=
  match w.job with
  | none => (w, [])
  | some j =>
    match aggregateJob (proveJob X w.vals) j with
    | .error _ => ({ w with jobs := [], job := none }, [])
    | .ok none => ({ w with job := none }, [])
    | .ok (some o) => ({ w with job := none }, [⟨w.id, o, max now w.publishAt⟩])

/-- One event: the node afterwards, what it asked its keys to sign, and the aggregates it published. A
message that is not due yet does not arrive. -/
def ANode.step (c : VCtx) (u : Subnets) (n : ANode) :
    AEvent → P (ANode × List Signed × List Published)
  | .timer now agg =>
    match n.node.tick c now agg with
    | .error e => .error e
    | .ok (m, l) =>
      match ANode.tickSession c n.node.actor.store { n with node := m } now agg with
      | .error e => .error e
      | .ok n => .ok (n, l, [])
  | .block sb => (n.other c (.block sb)).map (fun n => (n, [], []))
  | .attestation v d sig now agg =>
    match n.other c (.attestation v d sig agg) with
    | .error e => .error e
    | .ok n =>
      if d.slot = n.node.actor.store.currentSlot then (n.early c u now agg).map (fun n => (n, [], []))
      else .ok (n, [], [])
  | .aggregate d a => (n.other c (.aggregate d a)).map (fun n => (n, [], []))
  | .check now agg => (n.early c u now agg).map (fun n => (n, [], []))
  | .begin k => .ok ({ n with workers := n.workers.modify k Running.next }, [], [])
  | .finish k now =>
    match n.workers[k]? with
    | none => .ok (n, [], [])
    | some w =>
      let r := w.done c.X now
      .ok ({ n with workers := n.workers.set k r.1, mail := n.mail ++ r.2 }, [], [])
  | .deliver k now =>
    match n.mail[k]? with
    | none => .ok (n, [], [])
    | some p =>
      if now < p.due then .ok (n, [], [])
      else match ANode.take c { n with mail := n.mail.eraseIdx k } p now with
      | .error e => .error e
      | .ok (n, l) => .ok (n, [], l)
  | .deadline id =>
    .ok (if n.current.map Prod.fst = some id then n.cancel else n, [], [])
  | .restart =>
    (n.other c .restart).map (fun n => ({ n with current := none, workers := [], mail := [] }, [], []))

end Verif.Node
