import Verif.Model.BlockBuilder
/-!
# Committee-signature aggregation

`crates/blockchain/src/aggregation.rs` 68-572 and the early trigger
`crates/blockchain/src/lib.rs` 584-645. The proof system is a parameter that may fail. A hash map is
an association list in some order. Metrics, tracing and the worker thread (which runs the jobs of a
snapshot in order) are not modelled.
-/
namespace Verif.Build
open Verif Verif.Buffers

/-- Registry lookup plus `ValidatorPublicKey::from_bytes` (428-433, 499-505): does validator `v`
have a usable attestation key? `decodes` says which key bytes decode. -/
def resolves (decodes : Nat → Bool) (vals : List Validator) (v : Nat) : Bool :=
  match vals[v]? with
  | none => false
  | some x => decodes x.attestationPubkey

/-- `AggregationJob` (75-89). `raw` pairs `raw_ids` with `raw_sigs`; a child is its participant ids
(whose keys are passed on) and proof bytes. -/
structure Job where
  data : AttData
  root : Root
  children : List (List Nat × Nat)
  childIds : List Nat
  raw : List (Nat × Nat)
  keysToDelete : List (Nat × Root)

/-- `coverage` (97-103): a hash set. -/
def Job.coverage (j : Job) : List Nat := (j.raw.map Prod.fst ++ j.childIds).dedup

/-- `raw_by_id` (426-435). -/
def rawById (decodes : Nat → Bool) (vals : List Validator) (sigs : List (Nat × Nat)) : AMap Nat Nat :=
  sigs.foldl (fun m x => if resolves decodes vals x.1 then m.insert x.1 x.2 else m) []

/-- `resolve_child_pubkeys` (489-518). -/
def resolveChildren (decodes : Nat → Bool) (vals : List Validator) :
    List Agg → List (List Nat × Nat) × List Nat
  | [] => ([], [])
  | p :: ps =>
    let r := resolveChildren decodes vals ps
    let ids := Agg.ids p
    if (ids.filter (fun v => resolves decodes vals v)).length ≠ ids.length then r
    else ((ids, p.proof) :: r.1, ids ++ r.2)

/-- `resolve_job` (420-484). -/
def resolveJob (decodes : Nat → Bool) (vals : List Validator) (d : AttData) (root : Root)
    (sigs : List (Nat × Nat)) (new known : List Agg) : Option Job :=
  let raws := rawById decodes vals sigs
  let sel := (selectGreedily new known raws.keys).1
  let c := resolveChildren decodes vals sel
  let raw := raws.filter (fun x => decide (x.1 ∉ c.2))
  if raw.isEmpty ∧ c.1.length < 2 then none
  else if c.1.isEmpty ∧ raw.length ≤ 1 then none
  else some { data := d, root := root, children := c.1, childIds := c.2, raw := raw,
              keysToDelete := sigs.map (fun x => (x.1, root)) }

/-- `AggregatedGroupOutput` (114-119). -/
structure GroupOut where
  data : AttData
  proof : Agg
  participants : List Nat
  keysToDelete : List (Nat × Root)

/-- `VALIDATOR_REGISTRY_LIMIT`, the capacity of `AggregationBits`. -/
def registryLimit : Nat := 4096

/-- Insertion into a strictly ascending list. -/
def insertAsc (k : Nat) : List Nat → List Nat
  | [] => [k]
  | a :: l => if k < a then k :: a :: l else if k = a then a :: l else a :: insertAsc k l

/-- `sort_unstable` and `dedup` (549-550): the elements in strictly ascending order. -/
def sortDedup (l : List Nat) : List Nat := l.foldr insertAsc []

/-- `aggregate_job` (524-560). `prove` is `aggregate_mixed`; `.error` is a panic at that line. -/
def aggregateJob (prove : Job → Option Nat) (j : Job) : Except Nat (Option GroupOut) :=
  if j.raw.isEmpty ∧ j.children.length < 2 then .ok none
  else if j.data.slot ≥ 2 ^ 32 then .error 529
  else match prove j with
    | none => .ok none
    | some pr =>
      let ids := sortDedup (j.raw.map Prod.fst ++ j.childIds)
      if ids.any (fun v => decide (registryLimit ≤ v)) then .error 652
      else .ok (some { data := j.data, proof := ⟨bitsFromIndices ids, pr⟩, participants := ids,
                       keysToDelete := j.keysToDelete })

/-- The pools an aggregation session reads and writes. -/
structure Pools where
  gossip : GossipBuffer
  new : PayloadBuffer
  known : PayloadBuffer

/-- `proofs_for_root` (`storage/src/store.rs` 264-268). -/
def proofsFor (b : PayloadBuffer) (r : Root) : List Agg := ((b.data.get? r).map PEntry.proofs).getD []

/-- `apply_aggregated_group` (566-572) on the pools. `none` is a counter underflow. -/
def Pools.apply (H : Hash) (p : Pools) (o : GroupOut) : Option Pools :=
  (p.new.push H o.data o.proof).bind fun new =>
  (p.gossip.delete o.keysToDelete).map fun g => { p with new := new, gossip := g }

/-- The candidate jobs of `snapshot_aggregation_inputs` (220-253). -/
def candidates (H : Hash) (decodes : Nat → Bool) (vals : List Validator) (p : Pools) :
    AMap Root Job :=
  let fromGossip := (p.gossip.snapshot).foldl (fun (m : AMap Root Job) g =>
    let r := H.attData g.1
    match resolveJob decodes vals g.1 r g.2 (proofsFor p.new r) (proofsFor p.known r) with
    | none => m
    | some j => m.insert r j) []
  p.new.data.foldl (fun (m : AMap Root Job) e =>
    if m.has e.1 then m
    else if (proofsFor p.new e.1).length + (proofsFor p.known e.1).length < 2 then m
    else match resolveJob decodes vals e.2.data (H.attData e.2.data) []
        (proofsFor p.new e.1) (proofsFor p.known e.1) with
      | none => m
      | some j => m.insert e.1 j) fromGossip

/-- The score of one candidate: `none` if skipped (351-369). -/
def jobScore (hist known : List Root) (n : Nat) (p : Projected) (j : Job) : Option Score :=
  if ¬ p.passes j.data known hist then none
  else (p.score j.data j.coverage n).map Prod.fst

/-- `candidate_ordering_key` (385-391) compared: current-slot groups first. -/
def jobLt (slot : Nat) (a : Root × Job × Score) (b : Root × Job × Score) : Bool :=
  let bucket := fun (j : Job) => if j.data.slot = slot then 0 else 1
  decide (bucket a.2.1 < bucket b.2.1) ||
    (decide (bucket a.2.1 = bucket b.2.1) && Key.lt (a.2.2.key a.1) (b.2.2.key b.1))

/-- `pick_best_candidate` (339-380). -/
def pickJob (hist known : List Root) (n slot : Nat) (p : Projected) (pool : AMap Root Job) :
    Option (Root × Job × Score) :=
  pool.foldl (fun best e =>
    match jobScore hist known n p e.2 with
    | none => best
    | some sc =>
      match best with
      | none => some (e.1, e.2, sc)
      | some b => if jobLt slot (e.1, e.2, sc) b then some (e.1, e.2, sc) else best) none

/-- The round loop (283-322). `none` is a panic. -/
def jobRounds (hist known : List Root) (n slot : Nat) :
    Nat → AMap Root Job → Projected → Option (List Job)
  | 0, _, _ => some []
  | k + 1, pool, p =>
    match pickJob hist known n slot p pool with
    | none => some []
    | some (r, j, sc) =>
      (p.advance sc.tier j.data j.coverage).bind fun p' =>
        (jobRounds hist known n slot k (pool.erase r) p').map fun js => j :: js

/-- `snapshot_aggregation_inputs` (206-328): the jobs, empty where the code returns `None`. `st` is
the head state, `head` the head root, `known` all block roots of the store. -/
def snapshotJobs (H : Hash) (decodes : Nat → Bool) (st : State) (head : Root) (known : List Root)
    (p : Pools) (slot maxJobs : Nat) : Option (List Job) :=
  jobRounds (st.historicalBlockHashes ++ [head]) known st.validators.length slot maxJobs
    (candidates H decodes st.validators p) (Projected.ofState st)

/-! ## The early trigger -/

/-- `EARLY_AGGREGATION_WINDOW` (`aggregation.rs` 57) in milliseconds. -/
def earlyWindow : Nat := 600

/-- `min_group_sigs` (622-639). `subnets` is a hash set. -/
def minGroupSigs (validators committees : Nat) (subnets : List Nat) : Nat :=
  if committees = 0 then 0
  else
    let expected := ((subnets.filter (fun s => decide (s < committees))).map (fun s =>
      validators / committees + if s < validators % committees then 1 else 0)).sum
    (2 * expected + 2) / 3

/-- `maybe_start_early_aggregation` (584-645): the slot to start a session for, if any. `now` and
`genesis` are milliseconds, `current` the id of the installed session, `maxGroup` is
`max_gossip_group_count_for_slot`. -/
def earlyStart (enabled : Bool) (genesis now : Nat) (current : Option Nat) (maxGroup : Nat → Nat)
    (validators committees : Nat) (subnets : List Nat) : Option Nat :=
  if ¬ enabled then none
  else if now < genesis then none
  else
    let ms := now - genesis
    let into := ms % 4000
    if into < 2 * 800 - earlyWindow ∨ into ≥ 2 * 800 then none
    else
      let slot := ms / 4000
      if current = some slot then none
      else
        let need := minGroupSigs validators committees subnets
        if need = 0 ∨ maxGroup slot < need then none else some slot

/-- What can start a session: the trigger check (after a stored vote, or when the window opens) or
the interval-2 tick of an aggregator (421-434). `jobs` says whether the snapshot yields a job. -/
inductive SessEvent
  | check (enabled : Bool) (now : Nat) (maxGroup : Nat → Nat) (validators : Nat) (jobs : Bool)
  | tick (slot : Nat) (enabled jobs : Bool)

/-- `current_aggregation` after an event, and the slot of the session it installed, if any.
`start_aggregation_session` (482-571) drops the previous session first and installs none when there
is no job. -/
def sessStep (genesis committees : Nat) (subnets : List Nat) (current : Option Nat) :
    SessEvent → Option Nat × Option Nat
  | .check en now mg n jobs =>
    match earlyStart en genesis now current mg n committees subnets with
    | none => (current, none)
    | some slot => if jobs then (some slot, some slot) else (none, none)
  | .tick slot en jobs =>
    if ¬ en ∨ current = some slot then (current, none)
    else if jobs then (some slot, some slot) else (none, none)

/-- The slots of the sessions installed by a sequence of events. -/
def sessRun (genesis committees : Nat) (subnets : List Nat) : Option Nat → List SessEvent → List Nat
  | _, [] => []
  | cur, e :: es =>
    let r := sessStep genesis committees subnets cur e
    r.2.toList ++ sessRun genesis committees subnets r.1 es

end Verif.Build
