import Verif.Model.AMap
import Verif.Model.Bits
/-!
# Bounded FIFO buffers of the store

`PayloadBuffer` and `GossipSignatureBuffer`, `crates/storage/src/store.rs` 135-498.
Counters are `usize` in Rust; a subtraction that would underflow is the outcome `none` here.
-/
namespace Verif.Buffers
open Verif

/-- The fields common to `PayloadBuffer` (151-156) and `GossipSignatureBuffer` (337-342): entries
by data root, insertion order of the roots, capacity and a running count. -/
structure Fifo (E : Type) where
  data : AMap Root E
  order : List Root
  capacity : Nat
  total : Nat

/-- `-=` on `usize`. -/
def sub? (a b : Nat) : Option Nat := if b ≤ a then some (a - b) else none

/-- The eviction loop (214-222 and 385-393): while over capacity pop the oldest root and drop its
entry. `size` is the number of proofs (signatures) of an entry. -/
def evict {E : Type} (size : E → Nat) (cap : Nat) :
    List Root → AMap Root E → Nat → Option (List Root × AMap Root E × Nat)
  | [], data, total => some ([], data, total)
  | r :: rest, data, total =>
    if total > cap then
      match data.get? r with
      | some e => (sub? total (size e)).bind (fun t => evict size cap rest (data.erase r) t)
      | none => evict size cap rest data total
    else some (r :: rest, data, total)

/-- Run the eviction loop on a buffer. -/
def Fifo.evict {E : Type} (size : E → Nat) (b : Fifo E) : Option (Fifo E) :=
  (Buffers.evict size b.capacity b.order b.data b.total).map
    (fun x => { b with order := x.1, data := x.2.1, total := x.2.2 })

/-- The `retain` closure of both `prune` functions (289-296, 426-433): enumerate the entries, keep
or drop each, subtracting the size of dropped ones. -/
def retain {E : Type} (size : E → Nat) (keep : E → Bool) :
    AMap Root E → Nat → Option (AMap Root E × Nat)
  | [], t => some ([], t)
  | (r, e) :: m, t =>
    if keep e then (retain size keep m t).map (fun x => ((r, e) :: x.1, x.2))
    else (sub? t (size e)).bind (fun t' => retain size keep m t')

/-- `prune` (286-302 and 424-439) for a given keep predicate; also returns the number of removed
entries. The order list is only cleaned when something was removed. -/
def Fifo.prune {E : Type} (size : E → Nat) (keep : E → Bool) (b : Fifo E) :
    Option (Fifo E × Nat) :=
  (retain size keep b.data b.total).map (fun x =>
    let pruned := b.data.length - x.1.length
    ({ b with data := x.1, total := x.2,
              order := if pruned > 0 then b.order.filter (fun r => x.1.has r) else b.order },
     pruned))

/-! ## Aggregated payloads -/

/-- `SingleMessageAggregate` (`crates/common/types/src/block.rs` 127-132). The proof bytes are
opaque. -/
structure Agg where
  participants : Bits
  proof : Nat
  deriving DecidableEq, Repr

/-- `PayloadEntry` (137-140). -/
structure PEntry where
  data : AttData
  proofs : List Agg

/-- `PayloadBuffer` (151-156). -/
abbrev PayloadBuffer := Fifo PEntry

def PEntry.size (e : PEntry) : Nat := e.proofs.length

/-- `PayloadBuffer::new` (159-166). -/
def PayloadBuffer.new (capacity : Nat) : PayloadBuffer := ⟨[], [], capacity, 0⟩

/-- The scan 182-192: `none` when an existing proof already covers the new one (the early
`return`), otherwise the indices of proofs the new one covers. -/
def scan (proof : Agg) : List Agg → Nat → Option (List Nat)
  | [], _ => some []
  | p :: ps, i =>
    if bitsIsSubset proof.participants p.participants then none
    else (scan proof ps (i + 1)).map (fun is =>
      if bitsIsSubset p.participants proof.participants then i :: is else is)

/-- `Vec::swap_remove(i)`: the last element takes the place of element `i`. -/
def swapRemove {α : Type} (l : List α) (i : Nat) : List α :=
  match l.getLast? with
  | none => l
  | some x => (l.set i x).dropLast

/-- The removal loop 195-198, over the reversed index list. -/
def removeAll : List Nat → List Agg → Nat → Option (List Agg × Nat)
  | [], ps, t => some (ps, t)
  | i :: is, ps, t => (sub? t 1).bind (fun t' => removeAll is (swapRemove ps i) t')

/-- `PayloadBuffer::push` (177-223). `HashedAttestationData` carries `root = hash(data)`. -/
def PayloadBuffer.push (H : Hash) (b : PayloadBuffer) (d : AttData) (proof : Agg) :
    Option PayloadBuffer :=
  let root := H.attData d
  match b.data.get? root with
  | some entry =>
    match scan proof entry.proofs 0 with
    | none => some b
    | some toRemove =>
      (removeAll toRemove.reverse entry.proofs b.total).bind (fun x =>
        Fifo.evict PEntry.size
          { b with data := b.data.insert root { entry with proofs := x.1 ++ [proof] },
                   total := x.2 + 1 })
  | none =>
    Fifo.evict PEntry.size
      { b with data := b.data.insert root ⟨d, [proof]⟩, order := b.order ++ [root],
               total := b.total + 1 }

/-- `push_batch` (226-230). -/
def PayloadBuffer.pushBatch (H : Hash) (b : PayloadBuffer) :
    List (AttData × Agg) → Option PayloadBuffer
  | [] => some b
  | (d, p) :: es => (b.push H d p).bind (fun b' => b'.pushBatch H es)

/-- The loop of `drain` (243-249). -/
def drainLoop : List Root → AMap Root PEntry → List (AttData × Agg)
  | [], _ => []
  | r :: rest, data =>
    match data.get? r with
    | some e => e.proofs.map (fun p => (e.data, p)) ++ drainLoop rest (data.erase r)
    | none => drainLoop rest data

/-- What remains in `data` after the loop of `drain`. -/
def drainRest : List Root → AMap Root PEntry → AMap Root PEntry
  | [], data => data
  | r :: rest, data => drainRest rest (data.erase r)

/-- `drain` (240-251): the drained (data, proof) pairs and the emptied buffer. -/
def PayloadBuffer.drain (b : PayloadBuffer) : List (AttData × Agg) × PayloadBuffer :=
  (drainLoop b.order b.data, { b with data := drainRest b.order b.data, order := [], total := 0 })

/-- `prune` (286-302): drops entries whose target slot is finalized. -/
def PayloadBuffer.prune (b : PayloadBuffer) (finalizedSlot : Nat) : Option (PayloadBuffer × Nat) :=
  Fifo.prune PEntry.size (fun e => decide (e.data.target.slot > finalizedSlot)) b

/-! ## Gossip signatures -/

/-- A `BTreeMap<u64, V>`: entries in ascending key order. -/
abbrev BMap (α : Type) := List (Nat × α)

/-- `BTreeMap::insert`. -/
def BMap.insert {α : Type} (k : Nat) (v : α) : BMap α → BMap α
  | [] => [(k, v)]
  | (k', v') :: m =>
    if k < k' then (k, v) :: (k', v') :: m
    else if k = k' then (k, v) :: m
    else (k', v') :: BMap.insert k v m

/-- `GossipDataEntry` (311-314). Signatures are opaque. -/
structure GEntry where
  data : AttData
  sigs : BMap Nat

/-- `GossipSignatureBuffer` (337-342). -/
abbrev GossipBuffer := Fifo GEntry

def GEntry.size (e : GEntry) : Nat := e.sigs.length

/-- `GossipSignatureBuffer::new` (345-352). -/
def GossipBuffer.new (capacity : Nat) : GossipBuffer := ⟨[], [], capacity, 0⟩

/-- `GossipSignatureBuffer::insert` (357-394). -/
def GossipBuffer.insert (H : Hash) (b : GossipBuffer) (d : AttData) (vid sig : Nat) :
    Option GossipBuffer :=
  let root := H.attData d
  match b.data.get? root with
  | some entry =>
    let isNew := (AMap.get? entry.sigs vid).isNone
    Fifo.evict GEntry.size
      { b with data := b.data.insert root { entry with sigs := BMap.insert vid sig entry.sigs },
               total := if isNew then b.total + 1 else b.total }
  | none =>
    Fifo.evict GEntry.size
      { b with data := b.data.insert root ⟨d, BMap.insert vid sig []⟩, order := b.order ++ [root],
               total := b.total + 1 }

/-- The loop of `delete` (405-415); also accumulates the set of emptied roots. -/
def deleteLoop : List (Nat × Root) → AMap Root GEntry → Nat → List Root →
    Option (AMap Root GEntry × Nat × List Root)
  | [], data, total, emptied => some (data, total, emptied)
  | (vid, root) :: ks, data, total, emptied =>
    match data.get? root with
    | none => deleteLoop ks data total emptied
    | some e =>
      let had := (AMap.get? e.sigs vid).isSome
      let sigs := AMap.erase e.sigs vid
      (sub? total (if had then 1 else 0)).bind (fun t =>
        if sigs.isEmpty then deleteLoop ks (data.erase root) t (root :: emptied)
        else deleteLoop ks (data.insert root { e with sigs := sigs }) t emptied)

/-- `delete` (400-419). -/
def GossipBuffer.delete (b : GossipBuffer) (keys : List (Nat × Root)) : Option GossipBuffer :=
  if keys.isEmpty then some b
  else (deleteLoop keys b.data b.total []).map (fun x =>
    { b with data := x.1, total := x.2.1,
             order := if x.2.2.isEmpty then b.order
               else b.order.filter (fun r => !(x.2.2.contains r)) })

/-- `prune` (424-439): drops entries whose slot is finalized. -/
def GossipBuffer.prune (b : GossipBuffer) (finalizedSlot : Nat) : Option (GossipBuffer × Nat) :=
  Fifo.prune GEntry.size (fun e => decide (e.data.slot > finalizedSlot)) b

/-- `max_group_count_for_slot` (457-464). -/
def GossipBuffer.maxGroupCountForSlot (b : GossipBuffer) (slot : Nat) : Nat :=
  ((b.data.filter (fun x => decide (x.2.data.slot = slot))).map (fun x => x.2.sigs.length)).foldl
    max 0

/-- `snapshot` (442-454). -/
def GossipBuffer.snapshot (b : GossipBuffer) : List (AttData × BMap Nat) :=
  b.data.map (fun x => (x.2.data, x.2.sigs))

end Verif.Buffers
