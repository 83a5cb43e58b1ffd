import Verif.Model.Duties
import Verif.Model.Prove
/-!
# An aggregation session, and a slot of a node whose timers and worker are in time

`start_aggregation_session` (`crates/blockchain/src/lib.rs` 482-571), `run_aggregation_worker`
(`crates/blockchain/src/aggregation.rs` 674-760) and the handler of its results (`lib.rs`
1436-1485). Simplified: the worker is a thread of its own that may be cancelled; here its results are
applied at once, in order, which is what happens when proving is fast enough. What is published is an
output. Not modelled: events, metrics. The early start (584-645) is `earlyStart`.
-/
namespace Verif.Node
open Verif Verif.Db Verif.Sync Verif.Buffers Verif.Build

/-- `MAX_AGGREGATION_JOBS` (`aggregation.rs` 180). -/
def maxAggregationJobs : Nat := 2

/-- The jobs of a session (`lib.rs` 503-519, `aggregation.rs` 206-328). -/
def sessionJobs (c : VCtx) (sync : Tracker) (s : Store) (slot : Nat) :
    P (List Job × List Validator × Store) :=
  match ourProposer c.ids s (slot + 1) with
  | .error e => .error e
  | .ok (p, s) =>
    let maxJobs := if p.isSome && sync.dutiesAllowed then 1 else maxAggregationJobs
    match headState s with
    | .error e => .error e
    | .ok (st, s) =>
      match snapshotJobs c.H (fun b => (c.X.decodeKey b).isSome) st s.mem.db.head
          (s.mem.db.liveChain.map (fun e => e.1.2)) ⟨s.gossip, s.newP, s.knownP⟩ slot maxJobs with
      | none => .error 0
      | some js => .ok (js, st.validators, s)

/-- The loop of the worker (`aggregation.rs` 689-756), each result applied and published as it arrives
(`lib.rs` 1467, 1478-1485). A panic of the worker ends it and nothing else. -/
def runJobs (c : VCtx) (vals : List Validator) : List Job → Store → P (Store × List (AttData × Agg))
  | [], s => .ok (s, [])
  | j :: js, s =>
    match aggregateJob (proveJob c.X vals) j with
    | .error _ => .ok (s, [])
    | .ok none => runJobs c vals js s
    | .ok (some o) =>
      match applyAggregate c.H s o.data o.proof o.keysToDelete with
      | .error e => .error e
      | .ok s =>
        match runJobs c vals js s with
        | .error e => .error e
        | .ok (s, l) => .ok (s, (o.data, o.proof) :: l)

/-- The session of a slot, with the aggregates it publishes. -/
def VNode.session (c : VCtx) (n : VNode) (slot : Nat) : P (VNode × List (AttData × Agg)) :=
  match sessionJobs c n.sync n.actor.store slot with
  | .error e => .error e
  | .ok (js, vals, s) =>
    match runJobs c vals js s with
    | .error e => .error e
    | .ok (s, l) => .ok ({ n with actor := { n.actor with store := s } }, l)

/-- The wall-clock readings of the five timers of a slot. -/
structure Times where
  publication : Nat
  attestation : Nat
  aggregation : Nat
  safeTarget : Nat
  endOfSlot : Nat

/-- A slot of an aggregator: its timer fires once in every interval, and the session it starts in the
third one is done before the fourth. -/
def VNode.slot (c : VCtx) (n : VNode) (slot : Nat) (w : Times) : P (VNode × List Signed) :=
  match n.tick c w.publication true with
  | .error e => .error e
  | .ok (n, l0) =>
  match n.tick c w.attestation true with
  | .error e => .error e
  | .ok (n, l1) =>
  match n.tick c w.aggregation true with
  | .error e => .error e
  | .ok (n, l2) =>
  match n.session c slot with
  | .error e => .error e
  | .ok (n, _) =>
  match n.tick c w.safeTarget true with
  | .error e => .error e
  | .ok (n, l3) =>
  match n.tick c w.endOfSlot true with
  | .error e => .error e
  | .ok (n, l4) => .ok (n, l0 ++ l1 ++ l2 ++ l3 ++ l4)

end Verif.Node
