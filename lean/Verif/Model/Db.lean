import Verif.Model.StateDiff
import Verif.Model.AMap
/-!
# The persistent store

`crates/storage/src/store.rs`. Tables are finite maps from decoded keys to decoded values; that the
byte keys represent `(slot, root)` pairs faithfully is C23, that batches are atomic is C31.
A write batch is therefore one record update. SSZ encoding of values is not modelled.
-/
namespace Verif.Db
open Verif

/-- `SignedBlock` (`crates/common/types/src/block.rs`): the proof is an opaque blob, `0` is
`MultiMessageAggregate::default()`. -/
structure SignedBlock where
  block : Block
  proof : Nat
  deriving DecidableEq, Repr, Inhabited

/-- The database: the tables of `api/tables.rs` 3-39 and the metadata keys (85-95). -/
structure Db where
  time : Nat
  head : Root
  safeTarget : Root
  justified : Checkpoint
  finalized : Checkpoint
  headers : AMap Root Header
  bodies : AMap Root (List AggAtt)
  proofs : AMap (Nat × Root) Nat
  blockRoots : AMap Nat Root
  states : AMap Root State
  diffs : AMap Root StateDiff
  liveChain : AMap (Nat × Root) Root
  deriving DecidableEq

/-- The LRU cache of states, most recently used first. -/
abbrev Cache := List (Root × State)

/-- Persistent part and state cache of `Store` (537-557). The other fields are in `Votes` and
`Buffers`. -/
structure Mem where
  db : Db
  cache : Cache
  deriving DecidableEq

/-- Results with panics; the number is the source line of the panic. -/
abbrev P := Except Nat

/-- `SNAPSHOT_ANCHOR_INTERVAL` (103). -/
def snapshotAnchorInterval : Nat := 1024
/-- `STATE_CACHE_CAPACITY` (111). -/
def stateCacheCapacity : Nat := 32
/-- `BLOCK_PROOF_PRUNING_RANGE` (117). -/
def proofPruningRange : Nat := 21600

/-- `LruCache::put`. -/
def cachePut (c : Cache) (r : Root) (s : State) : Cache :=
  ((r, s) :: c.filter (fun e => decide (e.1 ≠ r))).take stateCacheCapacity

/-- `LruCache::get`: the hit entry moves to the front. -/
def cacheGet (c : Cache) (r : Root) : Option (State × Cache) :=
  match AMap.get? c r with
  | none => none
  | some s => some (s, (r, s) :: c.filter (fun e => decide (e.1 ≠ r)))

/-- `init_store` (675-782). `body` is `anchor_body`. A state root that is neither zero nor the
computed one panics (690-693). -/
def initStore (H : Hash) (anchor : State) (body : Option (List AggAtt)) : P Mem :=
  let original := anchor.latestBlockHeader.stateRoot
  let zeroed : State :=
    { anchor with latestBlockHeader := { anchor.latestBlockHeader with stateRoot := 0 } }
  let sroot := H.state zeroed
  if ¬ (original = 0 ∨ original = sroot) then .error 690
  else
    let hdr : Header := { anchor.latestBlockHeader with stateRoot := sroot }
    let st : State := { anchor with latestBlockHeader := hdr }
    let root := H.header hdr
    let cp : Checkpoint := { root := root, slot := hdr.slot }
    .ok { db :=
            { time := 0, head := root, safeTarget := root, justified := cp, finalized := cp
              headers := [(root, hdr)]
              bodies := match body with | some b => [(root, b)] | none => []
              proofs := []
              blockRoots := [(hdr.slot, root)]
              states := [(root, st)]
              diffs := []
              liveChain := [((hdr.slot, root), hdr.parentRoot)] }
          cache := [] }

/-- Restart: `from_db_state` (616-670) builds a store over the same backend with an empty cache.
The genesis check is modelled separately. -/
def restart (m : Mem) : Mem := { m with cache := [] }

/-! ## Blocks -/

/-- `write_signed_block` (1744-1778). `EMPTY_BODY_ROOT` is the root of the empty body. -/
def writeSignedBlock (H : Hash) (db : Db) (root : Root) (sb : SignedBlock) : Db :=
  let hdr := sb.block.header H
  { db with
    headers := db.headers.insert root hdr
    bodies := if hdr.bodyRoot ≠ H.body [] then db.bodies.insert root sb.block.body else db.bodies
    proofs := db.proofs.insert (hdr.slot, root) sb.proof }

/-- `insert_pending_block` (1165-1174). -/
def insertPendingBlock (H : Hash) (db : Db) (root : Root) (sb : SignedBlock) : Db :=
  writeSignedBlock H db root sb

/-- `insert_signed_block` (1183-1202), without the vote recording (see `Votes.insertKnown`). -/
def insertSignedBlock (H : Hash) (db : Db) (root : Root) (sb : SignedBlock) : Db :=
  let db := writeSignedBlock H db root sb
  { db with liveChain := db.liveChain.insert (sb.block.slot, root) sb.block.parentRoot }

/-- `Block::from_header_and_body` (`crates/common/types/src/block.rs` 226-239). -/
def fromHeaderAndBody (h : Header) (b : List AggAtt) : Block :=
  { slot := h.slot, proposerIndex := h.proposerIndex, parentRoot := h.parentRoot,
    stateRoot := h.stateRoot, body := b }

/-- `get_block` (1208-1228). -/
def getBlock (H : Hash) (db : Db) (root : Root) : Option Block :=
  match db.headers.get? root with
  | none => none
  | some h =>
    if h.bodyRoot = H.body [] then some (fromHeaderAndBody h [])
    else match db.bodies.get? root with
      | none => none
      | some b => some (fromHeaderAndBody h b)

/-- `signed_block_from_view` (1247-1279). -/
def getSignedBlock (H : Hash) (db : Db) (root : Root) : Option SignedBlock :=
  match db.headers.get? root with
  | none => none
  | some h =>
    let body := if h.bodyRoot = H.body [] then some [] else db.bodies.get? root
    match body with
    | none => none
    | some b =>
      match db.proofs.get? (h.slot, root) with
      | some p => some { block := fromHeaderAndBody h b, proof := p }
      | none => if h.slot = 0 then some { block := fromHeaderAndBody h b, proof := 0 } else none

/-- The slots `start, start + 1, …` (`n` of them). -/
def slotsFrom : Nat → Nat → List Nat
  | _, 0 => []
  | start, n + 1 => start :: slotsFrom (start + 1) n

/-- `get_signed_blocks_by_slot_range` (1286-1306); the range is inclusive. -/
def getSignedBlocksBySlotRange (H : Hash) (db : Db) (start stop : Nat) : List SignedBlock :=
  (slotsFrom start (stop + 1 - start)).filterMap (fun slot =>
    match db.blockRoots.get? slot with
    | none => none
    | some root => getSignedBlock H db root)

/-! ## States -/

/-- The walk of `reconstruct_state` (1350-1362), collecting diffs from the target down. `.error 0`
means the fuel ran out: the Rust loop has no bound, C27 shows this never happens. -/
def walkDiffs (db : Db) : Nat → Root → List StateDiff → P (Option (State × List StateDiff))
  | 0, _, _ => .error 0
  | fuel + 1, cursor, acc =>
    match db.states.get? cursor with
    | some snap => .ok (some (snap, acc))
    | none =>
      match db.diffs.get? cursor with
      | none => .ok none
      | some d => walkDiffs db fuel d.baseRoot (d :: acc)

/-- `reconstruct_state` (1347-1380). The accumulator of `walkDiffs` is already in snapshot-to-target
order, which is what `diffs.reverse()` (1366) produces. -/
def reconstructState (db : Db) (root : Root) : P (Option State) :=
  let fuel := match db.diffs.get? root with | some d => d.slot + 2 | none => 1
  match walkDiffs db fuel root [] with
  | .error e => .error e
  | .ok none => .ok none
  | .ok (some (snap, diffs)) =>
    match db.headers.get? root with
    | none => .ok none
    | some h =>
      match reconstruct snap diffs h with
      | none => .error 1375
      | some s => .ok (some s)

/-- `get_state` (1316-1338). -/
def getState (m : Mem) (root : Root) : P (Option State × Mem) :=
  match cacheGet m.cache root with
  | some (s, c) => .ok (some s, { m with cache := c })
  | none =>
    match m.db.states.get? root with
    | some s => .ok (some s, { m with cache := cachePut m.cache root s })
    | none =>
      match reconstructState m.db root with
      | .error e => .error e
      | .ok none => .ok (none, m)
      | .ok (some s) => .ok (some s, { m with cache := cachePut m.cache root s })

/-- `has_state` (1385-1391). -/
def hasState (db : Db) (root : Root) : Bool :=
  (db.states.get? root).isSome || (db.diffs.get? root).isSome

/-- `insert_state` (1413-1445). -/
def insertState (H : Hash) (m : Mem) (root : Root) (st : State) : P Mem :=
  match getState m st.latestBlockHeader.parentRoot with
  | .error e => .error e
  | .ok (none, _) => .error 1420
  | .ok (some parent, m) =>
    let isAnchor :=
      decide (st.slot / snapshotAnchorInterval > parent.slot / snapshotAnchorInterval)
    let cache := cachePut m.cache root st
    match fromStates H parent st with
    | .error _ => .error 1431
    | .ok d =>
      .ok { db := { m.db with
              diffs := m.db.diffs.insert root d
              states := if isAnchor then m.db.states.insert root st else m.db.states }
            cache := cache }

/-! ## Checkpoints and the canonical index -/

/-- The loop of `block_root_index_changes` (981-993): the slots to delete and the entries to put.
`none` is `UnexpectedMissingBlockHeader`; `.error 0` is fuel exhaustion (unreachable, C28). -/
def indexLoop (hs : AMap Root Header) : Nat → Root → Header → Root → Header →
    List Nat → List (Nat × Root) → P (Option (List Nat × List (Nat × Root)))
  | 0, _, _, _, _, _, _ => .error 0
  | fuel + 1, oldR, oldH, newR, newH, dels, ents =>
    if oldR = newR then .ok (some (dels, ents))
    else if oldH.slot < newH.slot then
      match hs.get? newH.parentRoot with
      | none => .ok none
      | some h => indexLoop hs fuel oldR oldH newH.parentRoot h dels (ents ++ [(newH.slot, newR)])
    else
      match hs.get? oldH.parentRoot with
      | none => .ok none
      | some h => indexLoop hs fuel oldH.parentRoot h newR newH (dels ++ [oldH.slot]) ents

/-- `block_root_index_changes` (961-994). -/
def blockRootIndexChanges (hs : AMap Root Header) (oldR newR : Root) :
    P (Option (List Nat × List (Nat × Root))) :=
  match hs.get? oldR, hs.get? newR with
  | some oldH, some newH => indexLoop hs (oldH.slot + newH.slot + 1) oldR oldH newR newH [] []
  | _, _ => .ok none

/-- `prune_live_chain` on decoded keys (1047-1075; the byte-level scan is `Backend.pruneLiveChain`,
C24). -/
def pruneLive (lc : AMap (Nat × Root) Root) (finalizedSlot : Nat) : AMap (Nat × Root) Root :=
  lc.filter (fun e => decide (¬ e.1.1 < finalizedSlot))

/-- `update_checkpoints` (874-923), persistent part. `.error` is the `expect` of the callers on a
missing header. Pruning of the gossip and payload buffers is in `Buffers`. -/
def updateCheckpoints (db : Db) (head : Root) (justified finalized : Option Checkpoint) : P Db :=
  match blockRootIndexChanges db.headers db.head head with
  | .error e => .error e
  | .ok none => .error 879
  | .ok (some (dels, ents)) =>
    let oldFinalizedSlot := db.finalized.slot
    let db1 : Db := { db with
      head := head
      justified := justified.getD db.justified
      finalized := finalized.getD db.finalized
      blockRoots := ents.foldl (fun m e => m.insert e.1 e.2)
        (dels.foldl (fun m k => m.erase k) db.blockRoots) }
    match finalized with
    | some f =>
      if f.slot > oldFinalizedSlot then
        .ok { db1 with liveChain := pruneLive db1.liveChain f.slot }
      else .ok db1
    | none => .ok db1

/-- The first of the two batches of `update_checkpoints` (876-899): a crash may come before the live
chain is pruned (908-910). -/
def checkpointBatch (db : Db) (head : Root) (justified finalized : Option Checkpoint) : P Db :=
  match blockRootIndexChanges db.headers db.head head with
  | .error e => .error e
  | .ok none => .error 879
  | .ok (some (dels, ents)) => .ok { db with
      head := head
      justified := justified.getD db.justified
      finalized := finalized.getD db.finalized
      blockRoots := ents.foldl (fun m e => m.insert e.1 e.2)
        (dels.foldl (fun m k => m.erase k) db.blockRoots) }

/-- `get_live_chain` (1000-1013), keyed by root. -/
def getLiveChain (db : Db) : AMap Root (Nat × Root) :=
  db.liveChain.foldl (fun m e => m.insert e.1.2 (e.1.1, e.2)) []

/-- The body of `prune_old_block_proofs` for a given cut-off. -/
def pruneBelow (db : Db) (finalizedSlot cutoff : Nat) : Db :=
  if cutoff > finalizedSlot ∨ cutoff = 0 then db
  else { db with proofs := db.proofs.filter (fun e => decide (¬ e.1.1 < cutoff)) }

/-- `prune_old_block_proofs` on decoded keys (1115-1143; byte level in `Backend`, C25). -/
def pruneProofs (db : Db) (finalizedSlot tipSlot : Nat) : Db :=
  pruneBelow db finalizedSlot (tipSlot - proofPruningRange)

/-- `prune_old_data` (933-951): a missing head header panics (941). -/
def pruneOldData (db : Db) : P Db :=
  match db.headers.get? db.head with
  | none => .error 941
  | some h => .ok (pruneProofs db db.finalized.slot h.slot)

/-! ## Operations -/

/-- The storage calls that change `Mem`, and a call cut short by a crash (`checkpointBatch`). -/
inductive Op
  | insertPending (sb : SignedBlock)
  | insertSigned (sb : SignedBlock)
  | insertState (root : Root) (st : State)
  | readState (root : Root)
  | updateCheckpoints (head : Root) (justified finalized : Option Checkpoint)
  | checkpointBatch (head : Root) (justified finalized : Option Checkpoint)
  | setSafeTarget (root : Root)
  | setTime (t : Nat)
  | pruneOldData
  | restart

/-- One storage call. Blocks are always stored under their own root
(`crates/blockchain/src/lib.rs` 1062, `crates/blockchain/src/store.rs` 701). -/
def step (H : Hash) (m : Mem) : Op → P Mem
  | .insertPending sb => .ok { m with db := insertPendingBlock H m.db (sb.block.root H) sb }
  | .insertSigned sb => .ok { m with db := insertSignedBlock H m.db (sb.block.root H) sb }
  | .insertState root st => insertState H m root st
  | .readState root =>
    match getState m root with
    | .error e => .error e
    | .ok (_, m) => .ok m
  | .updateCheckpoints h j f =>
    match updateCheckpoints m.db h j f with
    | .error e => .error e
    | .ok db => .ok { m with db := db }
  | .checkpointBatch h j f =>
    match checkpointBatch m.db h j f with
    | .error e => .error e
    | .ok db => .ok { m with db := db }
  | .setSafeTarget r => .ok { m with db := { m.db with safeTarget := r } }
  | .setTime t => .ok { m with db := { m.db with time := t } }
  | .pruneOldData =>
    match pruneOldData m.db with
    | .error e => .error e
    | .ok db => .ok { m with db := db }
  | .restart => .ok (restart m)

end Verif.Db
