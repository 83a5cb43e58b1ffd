import Verif.Model.CheckpointSync
import Verif.Model.Store
/-!
# Starting a node

* `bin/ethlambda/src/main.rs` `fetch_initial_state` 682-763
* `crates/storage/src/store.rs` `from_db_state` 616-670, `get_forkchoice_store` 583-600, `init_store`
  675-782 over a database that may already have content

The data directory is what survives between runs of the process. HTTP replies are arbitrary. Command
line, key files and logging are left out.
-/
namespace Verif.Boot
open Verif Verif.Db Verif.Node Verif.Buffers Verif.Ckpt

/-- A data directory that holds a chain: the tables and metadata, and the persisted `ChainConfig`
(`KEY_CONFIG`), which is the genesis time. -/
structure Disk where
  db : Db
  genesisTime : Nat

/-- Why a start is given up. -/
inductive StartErr
  | missingState
  | genesisMismatch (e : VerifyErr)
  | sync (e : SyncErr)
  | anchorPair
  deriving DecidableEq, Repr

/-- `MAX_RESUMABLE_DB_STATE_AGE` (`crates/storage/src/store.rs` 120). -/
def maxResumableAge : Nat := 450

/-- The `Store` built over a backend that has content (`from_db_state` 638-649): empty caches and
buffers. -/
def openStore (d : Disk) : Store :=
  { mem := { db := d.db, cache := [] }, fc := ⟨[], []⟩, newP := PayloadBuffer.new 64
    knownP := PayloadBuffer.new 512, gossip := GossipBuffer.new 2048, genesisTime := d.genesisTime }

/-- `from_db_state` (616-670). `none` is a backend without `KEY_CONFIG` or `KEY_LATEST_FINALIZED`; both
are written in one batch with everything else (C31). -/
def fromDbState (disk : Option Disk) (genesisTime : Nat) (expected : List Validator) :
    P (Except StartErr (Option Store)) :=
  match disk with
  | none => .ok (.ok none)
  | some d =>
    match (openStore d).getState d.db.finalized.root with
    | .error e => .error e
    | .ok (none, _) => .ok (.error .missingState)
    | .ok (some st, s) =>
      match verifyStateGenesis st genesisTime expected with
      | .error e => .ok (.error (.genesisMismatch e))
      | .ok () => .ok (.ok (some s))

/-- A database without any row. The metadata are overwritten before they are read. -/
def emptyDb : Db :=
  { time := 0, head := 0, safeTarget := 0, justified := ⟨0, 0⟩, finalized := ⟨0, 0⟩, headers := []
    bodies := [], proofs := [], blockRoots := [], states := [], diffs := [], liveChain := [] }

/-- `init_store` (675-782) over the tables `old`: nothing is removed. -/
def initOver (H : Hash) (old : Db) (anchor : State) (body : Option (List AggAtt)) : P Mem :=
  let original := anchor.latestBlockHeader.stateRoot
  let zeroed : State :=
    { anchor with latestBlockHeader := { anchor.latestBlockHeader with stateRoot := 0 } }
  let sroot := H.state zeroed
  if ¬ (original = 0 ∨ original = sroot) then .error 690
  else
    let hdr : Header := { anchor.latestBlockHeader with stateRoot := sroot }
    let st : State := { anchor with latestBlockHeader := hdr }
    let root := H.header hdr
    let cp : Checkpoint := { root := root, slot := hdr.slot }
    .ok { db :=
            { time := 0, head := root, safeTarget := root, justified := cp, finalized := cp
              headers := old.headers.insert root hdr
              bodies := match body with | some b => old.bodies.insert root b | none => old.bodies
              proofs := old.proofs
              blockRoots := old.blockRoots.insert hdr.slot root
              states := old.states.insert root st
              diffs := old.diffs
              liveChain := old.liveChain.insert (hdr.slot, root) hdr.parentRoot }
          cache := [] }

/-- The `Store` around it. -/
def initStoreOver (H : Hash) (old : Db) (anchor : State) (body : Option (List AggAtt)) : P Store :=
  match initOver H old anchor body with
  | .error e => .error e
  | .ok m => .ok
    { mem := m, fc := ⟨[], []⟩, newP := PayloadBuffer.new 64, knownP := PayloadBuffer.new 512
      gossip := GossipBuffer.new 2048, genesisTime := anchor.genesisTime }

/-- `fetch_finalized_anchor` (`checkpoint_sync.rs` 154-181) on what the two requests returned. -/
def anchorOutcome (H : Hash) (genesisTime : Nat) (expected : List Validator)
    (r : Option State × Option SignedBlock) : Outcome (State × SignedBlock) :=
  match r.2 with
  | none => .fail 0
  | some sb =>
    match pairOutcome H genesisTime expected r.1 (some sb.block) with
    | .ok (s, _) => .ok (s, sb)
    | .torn => .torn
    | .fail c => .fail c

/-- What a store leaves on disk. -/
def Store.disk (s : Store) : Disk := { db := s.mem.db, genesisTime := s.genesisTime }

/-- The checkpoint sync path (734-762): `replies n u` is what the `n`-th pair of requests returns if
it goes to URL `u`. -/
def checkpointStart (H : Hash) (disk : Option Disk) (genesisTime : Nat) (expected : List Validator)
    (urls : List Nat) (replies : Nat → Nat → Option State × Option SignedBlock) :
    P (Except StartErr Store × Option Disk) :=
  match (withRetry (fun n u => anchorOutcome H genesisTime expected (replies n u)) urls
      (maxCheckpointAttempts - 1) []).1 with
  | .error e => .ok (.error (.sync e), disk)
  | .ok (st, sb) =>
    if anchorPairIsConsistent H st sb.block then
      match initStoreOver H ((disk.map Disk.db).getD emptyDb) st (some sb.block.body) with
      | .error e => .error e
      | .ok s =>
        let s := insertSigned H s (sb.block.root H) sb
        .ok (.ok s, some (Store.disk s))
    else .ok (.error .anchorPair, disk)

/-- `fetch_initial_state` (682-763): the store the node runs with, and the data directory afterwards.
`now` is the wall clock in milliseconds. -/
def fetchInitialState (H : Hash) (disk : Option Disk) (genesisTime : Nat) (entries : List (Nat × Nat))
    (now : Nat) (urls : List Nat) (replies : Nat → Nat → Option State × Option SignedBlock) :
    P (Except StartErr Store × Option Disk) :=
  let validators := genesisValidators entries
  match fromDbState disk genesisTime validators with
  | .error e => .error e
  | .ok (.error e) => .ok (.error e, disk)
  | .ok (.ok none) =>
    if urls = [] then
      match initStoreOver H emptyDb (State.fromGenesis H genesisTime validators) none with
      | .error e => .error e
      | .ok s => .ok (.ok s, some (Store.disk s))
    else checkpointStart H disk genesisTime validators urls replies
  | .ok (.ok (some s)) =>
    match s.header s.mem.db.head with
    | none => .error 699
    | some h =>
      let gap := (now - genesisTime * 1000) / 4000 - h.slot
      if gap ≤ maxResumableAge ∨ urls = [] then .ok (.ok s, disk)
      else checkpointStart H disk genesisTime validators urls replies

end Verif.Boot
