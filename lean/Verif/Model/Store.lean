import Verif.Model.Db
import Verif.Model.StateTransition
import Verif.Model.ForkChoice
import Verif.Model.Votes
import Verif.Model.Buffers
import Verif.Model.Justifiable
/-!
# The consensus store

`crates/blockchain/src/store.rs` on top of the storage model. Line numbers refer to that file
unless another one is named. `P` carries panics (the line of the `expect`, `unwrap` or index).
Hash maps are enumerated in the order of their association list; that the results do not depend on
it is C11, C16 and C18.
-/
namespace Verif.Node
open Verif Verif.Db Verif.Votes Verif.Buffers

/-- What is left abstract: the hash functions and the cryptographic checks. `verifyBlock` is
`verify_block_signatures` (1126-1225), `keyOk` is public key decoding, `verifySig` one XMSS
signature, `verifyAgg` an aggregate proof over the given keys. -/
structure Env where
  H : Hash
  verifyBlock : State → SignedBlock → Bool
  keyOk : Nat → Bool
  verifySig : Nat → Nat → Root → Nat → Bool
  verifyAgg : Agg → List Nat → Root → Nat → Bool

/-- `Store` (`crates/storage/src/store.rs` 537-557). -/
structure Store where
  mem : Mem
  fc : FC
  newP : PayloadBuffer
  knownP : PayloadBuffer
  gossip : GossipBuffer
  genesisTime : Nat

/-- `StoreError` (976-1108), the variants that occur below. -/
inductive Err
  | missingParentState | slotGapTooLarge | tooFarInFuture | duplicateData | tooManyData
  | badSignature | stf (e : StfError)
  | unknownSource | unknownTarget | unknownHead | sourceExceedsTarget | headOlderThanTarget
  | sourceSlotMismatch | targetSlotMismatch | headSlotMismatch | sourceNotAncestor
  | targetNotAncestor | headNotFinalizedDescendant | slotBeforeHead | attTooFarInFuture
  | missingTargetState | notInState | pubkey | emptyBits
  deriving DecidableEq

/-- Outcome of a fallible call: the store afterwards and the `Result`. -/
abbrev R := P (Store × Except Err Unit)

/-- `INTERVALS_PER_SLOT` (`crates/common/types/src/constants.rs`). -/
def intervalsPerSlot : Nat := 5
/-- `MILLISECONDS_PER_INTERVAL`. -/
def msPerInterval : Nat := 800
/-- `GOSSIP_DISPARITY_INTERVALS` (`crates/blockchain/src/lib.rs` 86). -/
def gossipDisparity : Nat := 1

/-- `get_block_header`. -/
def Store.header (s : Store) (r : Root) : Option Header := s.mem.db.headers.get? r
/-- `current_slot` (`crates/storage/src/store.rs` 820-822). -/
def Store.currentSlot (s : Store) : Nat := s.mem.db.time / intervalsPerSlot
/-- `set_time`. -/
def Store.setTime (s : Store) (t : Nat) : Store :=
  { s with mem := { s.mem with db := { s.mem.db with time := t } } }

/-- `get_state` at store level. -/
def Store.getState (s : Store) (r : Root) : P (Option State × Store) :=
  match Db.getState s.mem r with
  | .error e => .error e
  | .ok (x, m) => .ok (x, { s with mem := m })

/-- Pruning of the in-memory buffers when finalization advances
(`crates/storage/src/store.rs` 906-918). -/
def pruneBuffers (s : Store) (slot : Nat) : P Store :=
  match s.gossip.prune slot, s.newP.prune slot, s.knownP.prune slot with
  | some g, some n, some k => .ok { s with gossip := g.1, newP := n.1, knownP := k.1 }
  | _, _, _ => .error 906

/-- `update_checkpoints` (`crates/storage/src/store.rs` 874-923) with its in-memory part. -/
def setCheckpoints (s : Store) (head : Root) (j f : Option Checkpoint) : P Store :=
  match Db.updateCheckpoints s.mem.db head j f with
  | .error e => .error e
  | .ok db =>
    let s1 := { s with mem := { s.mem with db := db } }
    match f with
    | some c => if c.slot > s.mem.db.finalized.slot then pruneBuffers s1 c.slot else .ok s1
    | none => .ok s1

/-- The head chosen by `update_head` (65-82). -/
def ghostHead (s : Store) : Root :=
  (ForkChoice.computeLmdGhostHead s.mem.db.justified.root (getLiveChain s.mem.db)
    (headVotes s.fc) 0).1

/-- `update_head` (65-137). The reorg report and the log lines are left out (`reorgDepth` is
modelled below). -/
def updateHead (s : Store) : P Store :=
  let newHead := ghostHead s
  match s.getState newHead with
  | .error e => .error e
  | .ok (st, s) =>
    let finalized := match st with
      | none => none
      | some st => if (s.header st.latestFinalized.root).isSome then some st.latestFinalized
                   else none
    setCheckpoints s newHead none finalized

/-- `promote_new_aggregated_payloads` (`crates/storage/src/store.rs` 1618-1630). -/
def promoteNew (H : Hash) (s : Store) : P Store :=
  let d := s.newP.drain
  match s.knownP.pushBatch H d.1 with
  | none => .error 1629
  | some k => .ok { s with newP := d.2, knownP := k, fc := promote H s.fc s.fc.new }

/-- `accept_new_attestations` (54-59). -/
def acceptNew (H : Hash) (s : Store) : P Store :=
  match promoteNew H s with
  | .error e => .error e
  | .ok s => updateHead s

/-- `head_state` (`crates/storage/src/store.rs` 1733-1737): panics when the state is missing. -/
def headState (s : Store) : P (State × Store) :=
  match s.getState s.mem.db.head with
  | .error e => .error e
  | .ok (none, _) => .error 1736
  | .ok (some st, s) => .ok (st, s)

/-- `update_safe_target` (150-171). -/
def updateSafeTarget (s : Store) : P Store :=
  match headState s with
  | .error e => .error e
  | .ok (st, s) =>
    let r := ForkChoice.safeTarget st.validators.length s.mem.db.justified.root
      (getLiveChain s.mem.db) (safeVotes s.fc)
    .ok { s with mem := { s.mem with db := { s.mem.db with safeTarget := r } } }

/-! ## Ticks -/

/-- `SlotInterval` (`crates/blockchain/src/lib.rs` 88-95). -/
inductive Interval
  | publication | attestation | aggregation | safeTarget | endOfSlot
  deriving DecidableEq, Repr

/-- `from_intervals_since_genesis` (`crates/blockchain/src/lib.rs` 102-111); `none` is the
`unreachable!`. -/
def Interval.ofCount (n : Nat) : Option Interval :=
  match n % intervalsPerSlot with
  | 0 => some .publication
  | 1 => some .attestation
  | 2 => some .aggregation
  | 3 => some .safeTarget
  | 4 => some .endOfSlot
  | _ => none

/-- The work of one interval (363-384). -/
def duty (H : Hash) (s : Store) (i : Interval) (proposal : Bool) : P Store :=
  match i with
  | .publication => if proposal then acceptNew H s else .ok s
  | .attestation => .ok s
  | .aggregation => .ok s
  | .safeTarget => updateSafeTarget s
  | .endOfSlot => acceptNew H s

/-- The loop 343-385, `n` remaining intervals up to `target`. -/
def tickLoop (H : Hash) (target : Nat) (proposal : Bool) : Nat → Store → P Store
  | 0, s => .ok s
  | n + 1, s =>
    let s := s.setTime (s.mem.db.time + 1)
    match Interval.ofCount s.mem.db.time with
    | none => .error 109
    | some i =>
      match duty H s i (proposal && decide (s.mem.db.time = target)) with
      | .error e => .error e
      | .ok s => tickLoop H target proposal n s

/-- The interval number of a timestamp (331-333). -/
def tickTarget (genesisTime timestampMs : Nat) : Nat :=
  (timestampMs - genesisTime * 1000) / msPerInterval

/-- `on_tick` (329-386). -/
def onTick (H : Hash) (s : Store) (timestampMs : Nat) (proposal : Bool) : P Store :=
  let time := tickTarget s.genesisTime timestampMs
  let s := if time - s.mem.db.time > intervalsPerSlot then s.setTime (time - intervalsPerSlot)
           else s
  tickLoop H time proposal (time - s.mem.db.time) s

/-! ## Votes -/

/-- The walk of `checkpoint_is_ancestor` (192-206); `.error 0` is fuel exhaustion. -/
def ancWalk (hs : AMap Root Header) (anc : Checkpoint) : Nat → Root → P Bool
  | 0, _ => .error 0
  | fuel + 1, cur =>
    match hs.get? cur with
    | none => .ok false
    | some h =>
      if h.slot = anc.slot then .ok (decide (cur = anc.root))
      else if h.slot < anc.slot then .ok false
      else ancWalk hs anc fuel h.parentRoot

/-- `checkpoint_is_ancestor` (179-207). -/
def checkpointIsAncestor (hs : AMap Root Header) (anc desc : Checkpoint) (descH : Header) : P Bool :=
  if anc.slot ≥ desc.slot then .ok (decide (anc.slot = desc.slot) && decide (anc.root = desc.root))
  else ancWalk hs anc (hs.length + 1) descH.parentRoot

/-- `validate_attestation_data` (219-321). `saturating_mul` is exact here since the store time is
far below the saturation point. -/
def validateData (s : Store) (d : AttData) : P (Except Err Unit) :=
  match s.header d.source.root with
  | none => .ok (.error .unknownSource)
  | some sh =>
  match s.header d.target.root with
  | none => .ok (.error .unknownTarget)
  | some th =>
  match s.header d.head.root with
  | none => .ok (.error .unknownHead)
  | some hh =>
  if d.source.slot > d.target.slot then .ok (.error .sourceExceedsTarget)
  else if d.head.slot < d.target.slot then .ok (.error .headOlderThanTarget)
  else if sh.slot ≠ d.source.slot then .ok (.error .sourceSlotMismatch)
  else if th.slot ≠ d.target.slot then .ok (.error .targetSlotMismatch)
  else if hh.slot ≠ d.head.slot then .ok (.error .headSlotMismatch)
  else match checkpointIsAncestor s.mem.db.headers d.source d.target th with
  | .error e => .error e
  | .ok false => .ok (.error .sourceNotAncestor)
  | .ok true =>
  match checkpointIsAncestor s.mem.db.headers d.target d.head hh with
  | .error e => .error e
  | .ok false => .ok (.error .targetNotAncestor)
  | .ok true =>
  match checkpointIsAncestor s.mem.db.headers s.mem.db.finalized d.head hh with
  | .error e => .error e
  | .ok false => .ok (.error .headNotFinalizedDescendant)
  | .ok true =>
  if d.slot < d.head.slot then .ok (.error .slotBeforeHead)
  else if d.slot * intervalsPerSlot > s.mem.db.time + gossipDisparity then
    .ok (.error .attTooFarInFuture)
  else .ok (.ok ())

/-- `on_gossip_attestation` (394-463). The conversion of the slot to `u32` (431) cannot fail: the
vote's slot is at most one interval ahead of the store time. -/
def onGossipAttestation (E : Env) (s : Store) (vid : Nat) (d : AttData) (sig : Nat)
    (isAggregator : Bool) : R :=
  match validateData s d with
  | .error e => .error e
  | .ok (.error e) => .ok (s, .error e)
  | .ok (.ok ()) =>
  match s.getState d.target.root with
  | .error e => .error e
  | .ok (none, s) => .ok (s, .error .missingTargetState)
  | .ok (some st, s) =>
  match st.validators[vid]? with
  | none => .ok (s, .error .notInState)
  | some v =>
  if ¬ E.keyOk v.attestationPubkey = true then .ok (s, .error .pubkey)
  else if ¬ E.verifySig v.attestationPubkey d.slot (E.H.attData d) sig = true then
    .ok (s, .error .badSignature)
  else if isAggregator then
    match s.gossip.insert E.H d vid sig with
    | none => .error 445
    | some g => .ok ({ s with gossip := g }, .ok ())
  else .ok (s, .ok ())

/-- `insert_new_aggregated_payload` (`crates/storage/src/store.rs` 1585-1597). -/
def insertNewPayload (H : Hash) (s : Store) (d : AttData) (a : Agg) : P Store :=
  match s.newP.push H d a with
  | none => .error 1596
  | some b => .ok { s with fc := insertNew H s.fc [(a.participants, d)], newP := b }

/-- `on_gossip_aggregated_attestation` (490-563) with verification. -/
def onGossipAggregate (E : Env) (s : Store) (d : AttData) (a : Agg) : R :=
  match validateData s d with
  | .error e => .error e
  | .ok (.error e) => .ok (s, .error e)
  | .ok (.ok ()) =>
  match s.getState d.target.root with
  | .error e => .error e
  | .ok (none, s) => .ok (s, .error .missingTargetState)
  | .ok (some st, s) =>
  let ids := validatorIndices a.participants
  if ids.isEmpty then .ok (s, .error .emptyBits)
  else if ¬ (ids.all (fun v => decide (v < st.validators.length)) = true) then
    .ok (s, .error .notInState)
  else
    let keys := ids.map (fun v => (st.validators.getD v default).attestationPubkey)
    if ¬ (keys.all E.keyOk = true) then .ok (s, .error .pubkey)
    else if ¬ E.verifyAgg a keys (E.H.attData d) d.slot = true then .ok (s, .error .badSignature)
    else match insertNewPayload E.H s d a with
      | .error e => .error e
      | .ok s => .ok (s, .ok ())

/-- `apply_aggregated_group` (`crates/blockchain/src/aggregation.rs` 566-572): an aggregate we
produced. -/
def applyAggregate (H : Hash) (s : Store) (d : AttData) (a : Agg) (keys : List (Nat × Root)) :
    P Store :=
  match insertNewPayload H s d a with
  | .error e => .error e
  | .ok s =>
    match s.gossip.delete keys with
    | none => .error 568
    | some g => .ok { s with gossip := g }

/-! ## Blocks -/

/-- The duplicate check 637-646. -/
def hasDuplicate : List AttData → Bool
  | [] => false
  | d :: ds => ds.contains d || hasDuplicate ds

/-- The checks of `on_block_core` before the writes (603-664), given the parent state. -/
def checkBlock (E : Env) (s : Store) (parent : State) (sb : SignedBlock) : Except Err State :=
  if sb.block.slot - parent.slot > historicalRootsLimit then .error .slotGapTooLarge
  else if sb.block.slot > s.currentSlot + 1 then .error .tooFarInFuture
  else if hasDuplicate (sb.block.body.map AggAtt.data) then .error .duplicateData
  else if sb.block.body.length > maxAttestationsData then .error .tooManyData
  else if ¬ E.verifyBlock parent sb = true then .error .badSignature
  else match importState E.H parent sb.block with
    | .error e => .error (.stf e)
    | .ok st => .ok st

/-- `insert_signed_block` with its vote recording (`crates/storage/src/store.rs` 1183-1202). -/
def insertSigned (H : Hash) (s : Store) (root : Root) (sb : SignedBlock) : Store :=
  { s with
    mem := { s.mem with db := insertSignedBlock H s.mem.db root sb }
    fc := insertKnown H s.fc (sb.block.body.map (fun a => (a.bits, a.data))) }

/-- `insert_state` at store level. -/
def putState (H : Hash) (s : Store) (root : Root) (st : State) : P Store :=
  match Db.insertState H s.mem root st with
  | .error e => .error e
  | .ok m => .ok { s with mem := m }

/-- The justified checkpoint update 678-697. -/
def raiseJustified (s : Store) (st : State) : P Store :=
  if st.latestJustified.slot > s.mem.db.justified.slot then
    setCheckpoints s s.mem.db.head (some st.latestJustified) none
  else .ok s

/-- The writes of `on_block_core` (678-714). -/
def commitBlock (H : Hash) (s : Store) (sb : SignedBlock) (st : State) : P Store :=
  match raiseJustified s st with
  | .error e => .error e
  | .ok s =>
    let s := insertSigned H s (sb.block.root H) sb
    match putState H s (sb.block.root H) st with
    | .error e => .error e
    | .ok s => updateHead s

/-- `on_block_core` (588-727) with signature verification. -/
def onBlock (E : Env) (s : Store) (sb : SignedBlock) : R :=
  if hasState s.mem.db (sb.block.root E.H) then .ok (s, .ok ())
  else
    match s.getState sb.block.parentRoot with
    | .error e => .error e
    | .ok (none, s) => .ok (s, .error .missingParentState)
    | .ok (some parent, s) =>
      match checkBlock E s parent sb with
      | .error e => .ok (s, .error e)
      | .ok st =>
        match commitBlock E.H s sb st with
        | .error e => .error e
        | .ok s => .ok (s, .ok ())

/-! ## Producing votes -/

/-- `JUSTIFICATION_LOOKBACK_SLOTS` (26). -/
def lookback : Nat := 3

/-- The loop 772-783. -/
def walkToSafe (hs : AMap Root Header) (safeSlot : Nat) : Nat → Root → Header → P (Root × Header)
  | 0, r, h => .ok (r, h)
  | n + 1, r, h =>
    if h.slot > safeSlot then
      match hs.get? h.parentRoot with
      | none => .error 778
      | some p => walkToSafe hs safeSlot n h.parentRoot p
    else .ok (r, h)

/-- The loop 791-799; `.error 0` is fuel exhaustion. -/
def walkToJustifiable (hs : AMap Root Header) (finSlot : Nat) : Nat → Root → Header →
    P (Root × Header)
  | 0, _, _ => .error 0
  | n + 1, r, h =>
    if h.slot > finSlot ∧ ¬ slotIsJustifiableAfter h.slot finSlot = true then
      match hs.get? h.parentRoot with
      | none => .error 798
      | some p => walkToJustifiable hs finSlot n h.parentRoot p
    else .ok (r, h)

/-- `get_attestation_target_with_checkpoints` (750-824). -/
def attestationTarget (s : Store) (justified finalized : Checkpoint) : P Checkpoint :=
  match s.header s.mem.db.head with
  | none => .error 760
  | some hh =>
  match s.header s.mem.db.safeTarget with
  | none => .error 766
  | some sh =>
  match walkToSafe s.mem.db.headers sh.slot lookback s.mem.db.head hh with
  | .error e => .error e
  | .ok (r, h) =>
  match walkToJustifiable s.mem.db.headers finalized.slot (s.mem.db.headers.length + 1) r h with
  | .error e => .error e
  | .ok (r, h) =>
    if h.slot < justified.slot then .ok justified
    else .ok { root := r, slot := h.slot }

/-- `produce_attestation_data` (849-881). -/
def produceAttestationData (s : Store) (slot : Nat) : P (AttData × Store) :=
  let headRoot := s.mem.db.head
  match s.getState headRoot with
  | .error e => .error e
  | .ok (none, _) => .error 854
  | .ok (some st, s) =>
    let source : Checkpoint := if st.latestJustified.root = 0
      then { st.latestJustified with root := headRoot } else st.latestJustified
    match s.header headRoot with
    | none => .error 868
    | some h =>
      match attestationTarget s s.mem.db.justified s.mem.db.finalized with
      | .error e => .error e
      | .ok target =>
        .ok ({ slot := slot, head := { root := headRoot, slot := h.slot }, target := target,
               source := source }, s)

/-- `MAX_REORG_DEPTH` (1257). -/
def maxReorgDepth : Nat := 128

/-- The loop 1259-1270, `n` steps left before the cap; `depth` so far. -/
def reorgWalk (hs : AMap Root Header) (targetSlot : Nat) (targetRoot : Root) :
    Nat → Root → Nat → Option Nat
  | 0, _, depth => some depth
  | n + 1, cur, depth =>
    match hs.get? cur with
    | none => none
    | some h =>
      if h.slot ≤ targetSlot then (if cur ≠ targetRoot then some depth else none)
      else reorgWalk hs targetSlot targetRoot n h.parentRoot (depth + 1)

/-- `reorg_depth` (1233-1275). The cap is tested after each step, so `128` headers are examined. -/
def reorgDepth (hs : AMap Root Header) (old new : Root) : Option Nat :=
  if new = old then none
  else match hs.get? old, hs.get? new with
    | some oh, some nh =>
      if nh.slot ≥ oh.slot then reorgWalk hs oh.slot old maxReorgDepth new 0
      else reorgWalk hs nh.slot new maxReorgDepth old 0
    | _, _ => none

/-! ## Events -/

/-- A fresh node: `init_store` (`crates/storage/src/store.rs` 675-782). -/
def init (E : Env) (anchor : State) (body : Option (List AggAtt)) : P Store :=
  match initStore E.H anchor body with
  | .error e => .error e
  | .ok m => .ok
    { mem := m, fc := ⟨[], []⟩, newP := PayloadBuffer.new 64, knownP := PayloadBuffer.new 512
      gossip := GossipBuffer.new 2048, genesisTime := anchor.genesisTime }

/-- Drop the `Result` of a call. -/
def R.store (r : R) : P Store :=
  match r with
  | .error e => .error e
  | .ok (s, _) => .ok s

/-- What `process_or_pend_block` (`crates/blockchain/src/lib.rs` 997-1148) does to the store with one
block: ignore it, keep it as pending, or import it. The in-memory pending maps are modelled in
`Actor`. -/
def processOrPend (E : Env) (s : Store) (sb : SignedBlock) : P Store :=
  if sb.block.slot ≤ s.mem.db.finalized.slot then .ok s
  else if sb.block.slot * intervalsPerSlot > s.mem.db.time + gossipDisparity then .ok s
  else if ¬ hasState s.mem.db sb.block.parentRoot = true then
    .ok { s with mem := { s.mem with
      db := insertPendingBlock E.H s.mem.db (sb.block.root E.H) sb } }
  else R.store (onBlock E s sb)

/-- Everything that changes the store: blocks, ticks, gossip, our own aggregates (including the ones
recovered from blocks, `reaggregate.rs` 226), the proposer's extra promotion (`get_proposal_head`,
887-898), the import of a block the node has built itself (`process_and_publish_block`, `lib.rs`
902-912: no checks of slot or parent before it), reading a state (which fills the cache; done by the
API and by the actor itself), proof pruning and a restart (`from_db_state`). -/
inductive Event
  | block (sb : SignedBlock)
  | tick (timestampMs : Nat) (proposal : Bool)
  | attestation (vid : Nat) (d : AttData) (sig : Nat) (isAggregator : Bool)
  | aggregate (d : AttData) (a : Agg)
  | ownAggregate (d : AttData) (a : Agg) (keys : List (Nat × Root))
  | accept
  | own (sb : SignedBlock)
  | read (root : Root)
  | prune
  | restart

/-- One event. -/
def step (E : Env) (s : Store) : Event → P Store
  | .block sb => processOrPend E s sb
  | .tick t p => onTick E.H s t p
  | .attestation v d sig agg => R.store (onGossipAttestation E s v d sig agg)
  | .aggregate d a => R.store (onGossipAggregate E s d a)
  | .ownAggregate d a keys => applyAggregate E.H s d a keys
  | .accept => acceptNew E.H s
  | .own sb => R.store (onBlock E s sb)
  | .read r =>
    match s.getState r with
    | .error e => .error e
    | .ok (_, s) => .ok s
  | .prune =>
    match pruneOldData s.mem.db with
    | .error e => .error e
    | .ok db => .ok { s with mem := { s.mem with db := db } }
  | .restart => .ok { s with
      mem := Db.restart s.mem, fc := ⟨[], []⟩, newP := PayloadBuffer.new 64
      knownP := PayloadBuffer.new 512, gossip := GossipBuffer.new 2048 }

end Verif.Node
