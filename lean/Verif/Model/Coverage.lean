import Verif.Model.Session
/-!
# The coverage report

The gauges that say how many validators' votes of a round the node saw, through which channel, and
how many of them the head block carries (`crates/blockchain/src/coverage.rs`), and the ticks that take
the snapshot and write the report (`crates/blockchain/src/lib.rs` 334-351, 388-399). Simplified: the
counts are natural numbers (`i64` in the code; they are at most the number of validators), a gauge that
was never written reads 0, and the report is computed from the store after the whole tick, while the
code computes it before the node's own votes are signed (400-404); these only go to the pool of single
signatures, which the report does not read. The reports for the start of a session and for a proposal
are functions here, not tied to the events that call them.
-/
namespace Verif.Node
open Verif Verif.Db Verif.Sync Verif.Buffers Verif.Build

/-- The label `section` (158-161, 189, 210). -/
inductive Section
  | timely | late | block | combined | aggStartNew | proposalCombined
  deriving DecidableEq

/-- The gauges (`crates/blockchain/src/metrics.rs`): validators per section, per section and subnet,
subnets per section, and the two differences. -/
inductive Gauge
  | validators (s : Section)
  | inSubnet (s : Section) (i : Nat)
  | subnets (s : Section)
  | blockOnly
  | timelyOnly
  deriving DecidableEq

abbrev Gauges := Gauge → Nat

/-- Setting a gauge. -/
def Gauges.put (g : Gauges) (k : Gauge) (x : Nat) : Gauges := fun k' => if k' = k then x else g k'

/-- `new_aggregated_payload_participants` (`crates/storage/src/store.rs` 1650-1662). -/
def participantsOf (p : PayloadBuffer) : List (Nat × Bits) :=
  p.data.flatMap (fun e => e.2.proofs.map (fun g => (e.2.data.slot, g.participants)))

/-- `snapshot_new_payloads` (36-42). -/
def snapshotNew (s : Store) : Option (List (Nat × Bits)) :=
  let l := participantsOf s.newP
  if l.isEmpty then none else some l

/-- `seen` and `has_subnet`. -/
abbrev Cov := List Bool × List Bool

/-- `vec![false; n]` twice (107-109). -/
def Cov.zero (n cc : Nat) : Cov := (List.replicate n false, List.replicate cc false)

/-- `cov_add` (44-56). -/
def covAdd (c : Cov) (bits : Bits) : Cov :=
  if c.2.length = 0 then c
  else (validatorIndices bits).foldl (fun c v =>
    if v < c.1.length then (c.1.set v true, c.2.set (v % c.2.length) true) else c) c

/-- The counts per subnet in `cov_record` (65-71). -/
def subnetCounts (seen : List Bool) (cc : Nat) : List Nat :=
  seen.zipIdx.foldl (fun l e => if e.1 then l.modify (e.2 % cc) (· + 1) else l) (List.replicate cc 0)

/-- `cov_record` (58-84). -/
def covRecord (g : Gauges) (s : Section) (c : Cov) : Gauges :=
  let g := g.put (.validators s) (c.1.count true)
  let g := if c.2.length > 0 then
      (subnetCounts c.1 c.2.length).zipIdx.foldl (fun g e => g.put (.inSubnet s e.2) e.1) g
    else g
  g.put (.subnets s) (c.2.count true)

/-- `or_into` (86-90). -/
def orInto (dst src : List Bool) : List Bool := dst.zipWith (· || ·) src

/-- Adding the entries of one round (116-139). -/
def covOf (n cc round : Nat) (l : List (Nat × Bits)) : Cov :=
  l.foldl (fun c e => if e.1 = round then covAdd c e.2 else c) (Cov.zero n cc)

/-- The votes in the head block (133-139). -/
def headVotes (H : Hash) (s : Store) : List (Nat × Bits) :=
  match getBlock H s.mem.db s.mem.db.head with
  | some b => b.body.map (fun a => (a.data.slot, a.bits))
  | none => []

/-- `block_only` and `timely_only` (163-171). -/
def diffCounts (block timely : List Bool) : Nat × Nat :=
  (block.zip timely).foldl (fun d e => match e with
    | (true, false) => (d.1 + 1, d.2)
    | (false, true) => (d.1, d.2 + 1)
    | _ => d) (0, 0)

/-- `emit_post_block_coverage` (96-174). -/
def emitPostBlock (H : Hash) (s : Store) (snap : Option (List (Nat × Bits))) (cc round : Nat)
    (g : Gauges) : P Gauges :=
  match headState s with
  | .error e => .error e
  | .ok (st, _) =>
    let n := st.validators.length
    if n = 0 ∨ cc = 0 then .ok g
    else
      let timely := covOf n cc round (snap.getD [])
      let late := covOf n cc round (participantsOf s.newP)
      let block := covOf n cc round (headVotes H s)
      let combined : Cov := (orInto (orInto timely.1 late.1) block.1, orInto (orInto timely.2 late.2) block.2)
      if ¬ block.1.any id then .ok g
      else
        let g := covRecord g .timely timely
        let g := covRecord g .late late
        let g := covRecord g .block block
        let g := covRecord g .combined combined
        let d := diffCounts block.1 timely.1
        .ok ((g.put .blockOnly d.1).put .timelyOnly d.2)

/-- `emit_agg_start_new_coverage` (178-190). -/
def emitAggStart (s : Store) (cc : Nat) (g : Gauges) : P Gauges :=
  match headState s with
  | .error e => .error e
  | .ok (st, _) =>
    if st.validators.length = 0 ∨ cc = 0 then .ok g
    else .ok (covRecord g .aggStartNew ((participantsOf s.newP).foldl (fun c e => covAdd c e.2)
      (Cov.zero st.validators.length cc)))

/-- `emit_proposal_coverage` (194-211). -/
def emitProposal (s : Store) (cc : Nat) (selected : List AggAtt) (g : Gauges) : P Gauges :=
  match headState s with
  | .error e => .error e
  | .ok (st, _) =>
    if st.validators.length = 0 ∨ cc = 0 then .ok g
    else .ok (covRecord g .proposalCombined (selected.foldl (fun c a => covAdd c a.bits)
      (Cov.zero st.validators.length cc)))

/-- A node with `pre_merge_coverage` and the gauges it exposes. -/
structure Mon where
  node : ANode
  snap : Option (List (Nat × Bits))
  gauges : Gauges

/-- `on_tick` gets past its two guards (302-320). -/
def tickLive (s : Store) (now : Nat) : Bool :=
  let ms := now - s.genesisTime * 1000
  if s.mem.db.time > 0 ∧ ms / msPerInterval ≤ s.mem.db.time then false
  else match headState s with
    | .ok (st, _) => !st.validators.isEmpty
    | .error _ => false

/-- The snapshot after an event (347-351). -/
def Mon.snapAfter (m : Mon) : AEvent → Option (List (Nat × Bits))
  | .timer now _ =>
    let s := m.node.node.actor.store
    if tickLive s now = true ∧ Interval.ofMs (now - s.genesisTime * 1000) = some .endOfSlot then
      match snapshotNew s with
      | some l => some l
      | none => m.snap
    else m.snap
  | .restart => none
  | _ => m.snap

/-- The gauges after an event that leaves the node as `n` (388-399). A restarted process exposes fresh
gauges. -/
def Mon.gaugesAfter (H : Hash) (cc : Nat) (m : Mon) (n : ANode) : AEvent → P Gauges
  | .timer now _ =>
    let s := m.node.node.actor.store
    let ms := now - s.genesisTime * 1000
    if tickLive s now = true ∧ Interval.ofMs ms = some .attestation ∧ ms / msPerSlot > 0 then
      emitPostBlock H n.node.actor.store m.snap cc (ms / msPerSlot - 1) m.gauges
    else .ok m.gauges
  | .restart => .ok (fun _ => 0)
  | _ => .ok m.gauges

/-- One event of a node with its gauges. -/
def Mon.step (c : VCtx) (u : Subnets) (m : Mon) (ev : AEvent) :
    P (Mon × List Signed × List Published) :=
  match m.node.step c u ev with
  | .error e => .error e
  | .ok (n, l, p) =>
    match m.gaugesAfter c.H u.committees n ev with
    | .error e => .error e
    | .ok g => .ok (⟨n, m.snapAfter ev, g⟩, l, p)

end Verif.Node
