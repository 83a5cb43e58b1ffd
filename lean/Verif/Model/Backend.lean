import Verif.Model.Types
import Verif.Model.AMap
/-!
# Byte keys, tables and write batches

`crates/storage/src/store.rs` 503-518 (keys), `crates/storage/src/backend/in_memory.rs`,
`crates/storage/src/backend/rocksdb.rs` (prefix iterator) and the two pruning scans of
`crates/storage/src/store.rs`.
-/
namespace Verif.Backend
open Verif

/-- `Vec<u8>`. Simplified: a byte is a `Nat`; all bytes built here are below 256. -/
abbrev Bytes := List Nat

/-- `u64::to_be_bytes` for `k = 8`, the 32 bytes of an `H256` for `k = 32`. -/
def beBytes : Nat → Nat → Bytes
  | 0, _ => []
  | k + 1, n => n / 256 ^ k % 256 :: beBytes k n

/-- `u64::from_be_bytes` / the number of an `H256`. -/
def beNat (b : Bytes) : Nat := b.foldl (fun a x => a * 256 + x) 0

/-- `Ord` on `[u8]`: lexicographic, a proper prefix is smaller. -/
def lexLt : Bytes → Bytes → Bool
  | _, [] => false
  | [], _ :: _ => true
  | x :: xs, y :: ys => decide (x < y) || (decide (x = y) && lexLt xs ys)

/-- `encode_slot_root_key` (`store.rs` 503-507). -/
def encodeSlotRoot (slot : Nat) (root : Root) : Bytes := beBytes 8 slot ++ beBytes 32 root

/-- `decode_slot_root_key` (`store.rs` 510-514); `none` is the panic on a wrong length. -/
def decodeSlotRoot (b : Bytes) : Option (Nat × Root) :=
  if b.length = 40 then some (beNat (b.take 8), beNat (b.drop 8)) else none

/-- `encode_block_root_key` (`store.rs` 516-518). -/
def encodeSlot (slot : Nat) : Bytes := beBytes 8 slot

/-! ## Backend -/

/-- `Table` (`api/tables.rs` 3-39). -/
inductive Table
  | blockHeaders | blockBodies | blockProof | blockRoots | states | stateDiffs | metadata
  | liveChain
  deriving DecidableEq, Repr

/-- `TableData` (`in_memory.rs` 8). -/
abbrev TableData := AMap Bytes Bytes

/-- `StorageData` (`in_memory.rs` 9): all tables exist from the start (31-40). -/
abbrev Data := Table → TableData

/-- `PendingOp` (`in_memory.rs` 13-18). -/
inductive Op
  | put (k v : Bytes)
  | delete (k : Bytes)
  | deleteRange (lo hi : Bytes)
  deriving DecidableEq, Repr

/-- One arm of the match in `commit` (`in_memory.rs` 133-146). -/
def applyOp (m : TableData) : Op → TableData
  | .put k v => m.insert k v
  | .delete k => m.erase k
  | .deleteRange lo hi => m.filter (fun e => lexLt e.1 lo || !(lexLt e.1 hi))

/-- `guard.get_mut(&table)` updated with one operation. -/
def applyAt (d : Data) (t : Table) (o : Op) : Data :=
  fun t' => if t' = t then applyOp (d t) o else d t'

/-- `commit` (`in_memory.rs` 128-150). -/
def commit (d : Data) (ops : List (Table × Op)) : Data :=
  ops.foldl (fun d e => applyAt d e.1 e.2) d

/-- A queued call: `put_batch`, `delete_batch`, `delete_range` (`in_memory.rs` 107-126). -/
inductive Call
  | putBatch (t : Table) (kvs : List (Bytes × Bytes))
  | deleteBatch (t : Table) (ks : List Bytes)
  | deleteRange (t : Table) (lo hi : Bytes)

/-- The operations a call pushes. -/
def Call.ops : Call → List (Table × Op)
  | .putBatch t kvs => kvs.map (fun e => (t, .put e.1 e.2))
  | .deleteBatch t ks => ks.map (fun k => (t, .delete k))
  | .deleteRange t lo hi => [(t, .deleteRange lo hi)]

/-- The backend with its open write batches (`begin_write` returns a batch that owns its queue). -/
structure Sys where
  data : Data
  batches : AMap Nat (List (Table × Op))

/-- What a client can do. -/
inductive Act
  | begin (id : Nat)
  | call (id : Nat) (c : Call)
  | commit (id : Nat)
  | drop (id : Nat)

/-- One client action; acting on a batch that is not open has no effect (the Rust type system
rules it out). -/
def step (s : Sys) : Act → Sys
  | .begin id => { s with batches := s.batches.insert id [] }
  | .call id c =>
    match s.batches.get? id with
    | some ops => { s with batches := s.batches.insert id (ops ++ c.ops) }
    | none => s
  | .commit id =>
    match s.batches.get? id with
    | some ops => { data := Backend.commit s.data ops, batches := s.batches.erase id }
    | none => s
  | .drop id => { s with batches := s.batches.erase id }

/-- `view.get(table, key)` (`in_memory.rs` 68-75). -/
def Sys.get (s : Sys) (t : Table) (k : Bytes) : Option Bytes := (s.data t).get? k

/-- `k.starts_with(prefix)`. -/
def startsWith : Bytes → Bytes → Bool
  | _, [] => true
  | [], _ :: _ => false
  | x :: xs, y :: ys => decide (x = y) && startsWith xs ys

/-- Insertion into a key-sorted list of entries. -/
def insertEntry (e : Bytes × Bytes) : List (Bytes × Bytes) → List (Bytes × Bytes)
  | [] => [e]
  | f :: fs => if lexLt e.1 f.1 then e :: f :: fs else f :: insertEntry e fs

/-- `items.sort_by(|a, b| a.0.cmp(&b.0))` (`in_memory.rs` 91). -/
def sortEntries : List (Bytes × Bytes) → List (Bytes × Bytes)
  | [] => []
  | e :: es => insertEntry e (sortEntries es)

/-- `prefix_iterator` of the in-memory backend (`in_memory.rs` 77-98). -/
def prefixIter (m : TableData) (pre : Bytes) : List (Bytes × Bytes) :=
  sortEntries (m.filter (fun e => startsWith e.1 pre))

/-- `prefix_iterator` of the RocksDB backend (`rocksdb.rs` 113-135): the database enumerates its
keys in byte order from the first key not below the prefix, and the adapter stops at the first key
that does not start with it. `sortEntries m` stands for RocksDB's ordered key space. -/
def rocksPrefixIter (m : TableData) (pre : Bytes) : List (Bytes × Bytes) :=
  ((sortEntries m).dropWhile (fun e => lexLt e.1 pre)).takeWhile (fun e => startsWith e.1 pre)

/-! ## Pruning scans -/

/-- `take_while` over decoded keys (`store.rs` 1057-1062), `none` when a key fails to decode. -/
def scanBelow (bound : Nat) : List (Bytes × Bytes) → Option (List Bytes)
  | [] => some []
  | e :: es =>
    match decodeSlotRoot e.1 with
    | none => none
    | some (slot, _) =>
      if slot < bound then (scanBelow bound es).map (e.1 :: ·) else some []

/-- `prune_live_chain` (`store.rs` 1047-1075): the new table and the returned count. -/
def pruneLiveChain (m : TableData) (finalizedSlot : Nat) : Option (TableData × Nat) :=
  match scanBelow finalizedSlot (prefixIter m []) with
  | none => none
  | some ks =>
    if ks.length = 0 then some (m, 0)
    else some (commit (fun _ => m) (Call.ops (.deleteBatch .liveChain ks)) .liveChain, ks.length)

/-- `BLOCK_PROOF_PRUNING_RANGE` (`store.rs` 117). -/
def blockProofPruningRange : Nat := 21600

/-- `prune_old_block_proofs` (`store.rs` 1115-1143): the new table and the returned cutoff. -/
def pruneOldBlockProofs (m : TableData) (finalizedSlot tipSlot : Nat) : TableData × Nat :=
  let cutoff := tipSlot - blockProofPruningRange
  if cutoff > finalizedSlot ∨ cutoff = 0 then (m, 0)
  else (commit (fun _ => m)
    (Call.ops (.deleteRange .blockProof (beBytes 8 0) (beBytes 8 cutoff))) .blockProof, cutoff)

end Verif.Backend
