import Verif.Model.Serve
/-!
# Reading while the node writes

The network and HTTP tasks read the database while the blockchain actor writes to it. A write batch is atomic,
but a read view of the RocksDB backend is only a handle (`crates/storage/src/backend/rocksdb.rs` 66-70, 105-113):
every `get` sees the database as it is at that moment. Below, each read gets its own database; `see i` is the
database at the `i`-th moment. Iterators of RocksDB are snapshots; the live chain, which is read through one,
is not modelled here.
-/
namespace Verif.Race
open Verif Verif.Db

/-- `signed_block_from_view` (`crates/storage/src/store.rs` 1247-1279): three reads; compare
`getSignedBlock`. -/
def blockSeen (H : Hash) (d0 d1 d2 : Db) (root : Root) : Option SignedBlock :=
  match d0.headers.get? root with
  | none => none
  | some h =>
    let body := if h.bodyRoot = H.body [] then some [] else d1.bodies.get? root
    match body with
    | none => none
    | some b =>
      match d2.proofs.get? (h.slot, root) with
      | some p => some { block := fromHeaderAndBody h b, proof := p }
      | none => if h.slot = 0 then some { block := fromHeaderAndBody h b, proof := 0 } else none

/-- `get_signed_blocks_by_slot_range` (1286-1306): up to four reads for each slot; compare
`getSignedBlocksBySlotRange`. -/
def rangeSeen (H : Hash) (see : Nat → Db) (start stop : Nat) : List SignedBlock :=
  (slotsFrom start (stop + 1 - start)).filterMap (fun slot =>
    let i := 4 * (slot - start)
    match (see i).blockRoots.get? slot with
    | none => none
    | some root => blockSeen H (see (i + 1)) (see (i + 2)) (see (i + 3)) root)

/-- The answer to a range request (`crates/net/p2p/src/req_resp/handlers.rs` 224-284); compare
`Serve.answerRange`. -/
def answerSeen (H : Hash) (see : Nat → Db) (start count : Nat) : Option (List SignedBlock) :=
  if count = 0 ∨ count > 1024 then none
  else if start + (count - 1) ≥ 2 ^ 64 then some []
  else some (rangeSeen H see start (start + (count - 1)))

/-- `build_status` (handlers.rs 382-398): the finalized checkpoint, the head and the head's header are read one
after the other. -/
def statusSeen (see : Nat → Db) : P Serve.Status :=
  let finalized := (see 0).finalized
  let head := (see 1).head
  match (see 2).headers.get? head with
  | none => .error 388
  | some h => .ok ⟨finalized, ⟨head, h.slot⟩⟩

/-- The walk of `reconstruct_state` (1350-1362) from the `i`-th moment on; compare `walkDiffs`. The result also
tells the moment at which it ends. -/
def walkSeen (see : Nat → Db) : Nat → Nat → Root → List StateDiff →
    P (Option (State × List StateDiff × Nat))
  | 0, _, _, _ => .error 0
  | fuel + 1, i, cursor, acc =>
    match (see i).states.get? cursor with
    | some snap => .ok (some (snap, acc, i + 1))
    | none =>
      match (see (i + 1)).diffs.get? cursor with
      | none => .ok none
      | some d => walkSeen see fuel (i + 2) d.baseRoot (d :: acc)

/-- `get_state` (1316-1338) with `reconstruct_state` (1347-1380). The cache is behind a lock and read once, at the
first moment; what happens to it afterwards does not matter to the caller. `fuel` bounds the walk, which in
the code has no bound. -/
def stateSeen (fuel : Nat) (cache : Cache) (see : Nat → Db) (root : Root) : P (Option State) :=
  match cacheGet cache root with
  | some (s, _) => .ok (some s)
  | none =>
    match (see 0).states.get? root with
    | some s => .ok (some s)
    | none =>
      match walkSeen see fuel 1 root [] with
      | .error e => .error e
      | .ok none => .ok none
      | .ok (some (snap, diffs, i)) =>
        match (see i).headers.get? root with
        | none => .ok none
        | some h =>
          match reconstruct snap diffs h with
          | none => .error 1375
          | some s => .ok (some s)

/-- `GET /lean/v0/states/finalized` (`crates/net/rpc/src/base.rs` 22-38): the checkpoint is read first, then the
state; a missing state panics (29). The zeroing of the state root is left out. -/
def finalizedStateSeen (fuel : Nat) (cache : Cache) (see : Nat → Db) : P State :=
  match stateSeen fuel cache (fun i => see (i + 1)) (see 0).finalized.root with
  | .error e => .error e
  | .ok none => .error 29
  | .ok (some s) => .ok s

/-- `head_state` (`crates/storage/src/store.rs` 1733-1737), used by `GET /lean/v0/fork_choice`; a missing state
panics. -/
def headStateSeen (fuel : Nat) (cache : Cache) (see : Nat → Db) : P State :=
  match stateSeen fuel cache (fun i => see (i + 1)) (see 0).head with
  | .error e => .error e
  | .ok none => .error 1736
  | .ok (some s) => .ok s

end Verif.Race
