import Verif.Model.Store
/-!
# The blockchain actor's block handling: pending blocks and cascades

`crates/blockchain/src/lib.rs`. The actor owns the consensus store and two in-memory maps:
`pending_blocks` (parent root → children waiting for it, 227) and `pending_block_parents`
(block → the missing ancestor it waits for, 231). Not modelled: metrics, logging, events, the
network handle (a fetch request is an output).

`HashSet` iteration order is a parameter (`order`), and so are the aggregates the node recovers from
an imported block (`reagg`, `reaggregate.rs`; empty when duties are not allowed).
-/
namespace Verif.Node
open Verif Verif.Db Verif.Buffers

/-- What the actor depends on besides its own state. -/
structure Ctx where
  E : Env
  /-- Enumeration of a hash set. -/
  order : List Root → List Root
  /-- What `run_reaggregate_from_block` (1152-1174) folds into the pool after an import. -/
  reagg : Store → SignedBlock → List (AttData × Agg)

/-- `pending_blocks`. -/
abbrev Pending := AMap Root (List Root)

/-- The actor's state. -/
structure Actor where
  store : Store
  pending : Pending
  parents : AMap Root Root

/-- `pending_blocks.entry(k).or_default().insert(r)`. -/
def addChild (m : Pending) (k r : Root) : Pending :=
  let l := (m.get? k).getD []
  m.insert k (if r ∈ l then l else l ++ [r])

/-- A loop over a list whose body may panic. -/
def foldP {α β : Type} (f : β → α → P β) : β → List α → P β
  | b, [] => .ok b
  | b, a :: l =>
    match f b a with
    | .error e => .error e
    | .ok b => foldP f b l

/-- `discard_pending_subtree` (1222-1230). The fuel bounds the recursion depth; `.error 0` is fuel
exhaustion (shown impossible). -/
def discard (order : List Root → List Root) : Nat → Root → Pending × AMap Root Root →
    P (Pending × AMap Root Root)
  | 0, _, _ => .error 0
  | n + 1, r, (m, ps) =>
    match m.get? r with
    | none => .ok (m, ps)
    | some l =>
      foldP (fun st c => discard order n c (st.1, st.2.erase c)) (m.erase r, ps) (order l)

/-- Discard on the actor. -/
def Actor.discard (c : Ctx) (a : Actor) (r : Root) : P Actor :=
  match Node.discard c.order (a.pending.length + 1) r (a.pending, a.parents) with
  | .error e => .error e
  | .ok (m, ps) => .ok { a with pending := m, parents := ps }

/-- The loop 1053-1056; `.error 0` is fuel exhaustion (the Rust loop has no bound). -/
def climb (ps : AMap Root Root) : Nat → Root → P Root
  | 0, _ => .error 0
  | n + 1, r =>
    match ps.get? r with
    | none => .ok r
    | some a => climb ps n a

/-- How the walk 1075-1104 ends: load a stored block for processing, or fetch one. -/
inductive WalkEnd
  | enqueue (r : Root)
  | fetch (r : Root)

/-- The loop 1075-1104; `.error 0` is fuel exhaustion (the Rust loop has no bound). -/
def walkUp (db : Db) : Nat → Root → Pending → AMap Root Root →
    P (WalkEnd × Pending × AMap Root Root)
  | 0, _, _, _ => .error 0
  | n + 1, r, m, ps =>
    match db.headers.get? r with
    | none => .ok (.fetch r, m, ps)
    | some h =>
      if hasState db h.parentRoot = true then .ok (.enqueue r, m, ps)
      else walkUp db n h.parentRoot (addChild m h.parentRoot r) (ps.insert r h.parentRoot)

/-- `collect_pending_children` (1190-1216): the loop over the children. -/
def loadChildren (H : Hash) (db : Db) : List Root → AMap Root Root → List SignedBlock ×
    AMap Root Root
  | [], ps => ([], ps)
  | r :: rs, ps =>
    let (bs, ps) := loadChildren H db rs (ps.erase r)
    match getSignedBlock H db r with
    | none => (bs, ps)
    | some sb => (sb :: bs, ps)

/-- `collect_pending_children` (1190-1216); returns what is pushed to the queue. -/
def Actor.collect (c : Ctx) (a : Actor) (r : Root) : Actor × List SignedBlock :=
  match a.pending.get? r with
  | none => (a, [])
  | some l =>
    let (bs, ps) := loadChildren c.E.H a.store.mem.db (c.order l) a.parents
    ({ a with pending := a.pending.erase r, parents := ps }, bs)

/-- What one step of the queue loop produces: the new state, blocks pushed to the queue, and roots
requested from the network. -/
structure Out where
  actor : Actor
  push : List SignedBlock
  fetch : List Root

/-- Pending a block whose parent state is missing (1048-1109). -/
def Actor.pend (c : Ctx) (a : Actor) (sb : SignedBlock) : P Out :=
  let root := sb.block.root c.E.H
  match climb a.parents (a.parents.length + 1) sb.block.parentRoot with
  | .error e => .error e
  | .ok missing =>
    let db := insertPendingBlock c.E.H a.store.mem.db root sb
    let store := { a.store with mem := { a.store.mem with db := db } }
    let m := addChild a.pending sb.block.parentRoot root
    let ps := a.parents.insert root missing
    match walkUp db (db.headers.length + 1) missing m ps with
    | .error e => .error e
    | .ok (.fetch r, m, ps) => .ok ⟨⟨store, m, ps⟩, [], [r]⟩
    | .ok (.enqueue r, m, ps) =>
      match getSignedBlock c.E.H db r with
      | none => .error 1091
      | some b => .ok ⟨⟨store, m, ps⟩, [b], []⟩

/-- The aggregates recovered from a block (1130-1132, `reaggregate.rs` 221-227). -/
def foldAggs (H : Hash) (s : Store) (l : List (AttData × Agg)) : P Store :=
  foldP (fun s x => insertNewPayload H s x.1 x.2) s l

/-- `process_or_pend_block` (997-1148). -/
def Actor.process (c : Ctx) (a : Actor) (sb : SignedBlock) : P Out :=
  let root := sb.block.root c.E.H
  if sb.block.slot ≤ a.store.mem.db.finalized.slot then
    match a.discard c root with
    | .error e => .error e
    | .ok a => .ok ⟨a, [], []⟩
  else if sb.block.slot * intervalsPerSlot > a.store.mem.db.time + gossipDisparity then
    match a.discard c root with
    | .error e => .error e
    | .ok a => .ok ⟨a, [], []⟩
  else if ¬ hasState a.store.mem.db sb.block.parentRoot = true then a.pend c sb
  else
    match onBlock c.E a.store sb with
    | .error e => .error e
    | .ok (s, .error _) => .ok ⟨{ a with store := s }, [], []⟩
    | .ok (s, .ok ()) =>
      match foldAggs c.E.H s (c.reagg s sb) with
      | .error e => .error e
      | .ok s =>
        let (a, bs) := ({ a with store := s } : Actor).collect c root
        .ok ⟨a, bs, []⟩

/-- The queue loop of `on_block` (982-984); `.error 0` is fuel exhaustion. -/
def drain (c : Ctx) : Nat → Actor → List SignedBlock → P (Actor × List Root)
  | _, a, [] => .ok (a, [])
  | 0, _, _ :: _ => .error 0
  | n + 1, a, sb :: q =>
    match a.process c sb with
    | .error e => .error e
    | .ok o =>
      match drain c n o.actor (q ++ o.push) with
      | .error e => .error e
      | .ok (a, f) => .ok (a, o.fetch ++ f)

/-- All the children waiting. -/
def waiting (m : Pending) : Nat := (m.map (fun e => e.2.length)).sum

/-- `on_block` (975-992), with the roots requested from the network. -/
def Actor.onBlock (c : Ctx) (a : Actor) (sb : SignedBlock) : P (Actor × List Root) :=
  match drain c (waiting a.pending + a.store.mem.db.headers.length + 5) a [sb] with
  | .error e => .error e
  | .ok (a, f) =>
    match pruneOldData a.store.mem.db with
    | .error e => .error e
    | .ok db => .ok ({ a with store := { a.store with mem := { a.store.mem with db := db } } }, f)

/-- A fresh actor. -/
def Actor.init (c : Ctx) (anchor : State) (body : Option (List AggAtt)) : P Actor :=
  match Node.init c.E anchor body with
  | .error e => .error e
  | .ok s => .ok { store := s, pending := [], parents := [] }

/-- One event. The pending maps live in memory, so a restart empties them. -/
def Actor.step (c : Ctx) (a : Actor) : Event → P (Actor × List Root)
  | .block sb => a.onBlock c sb
  | .restart =>
    match Node.step c.E a.store .restart with
    | .error e => .error e
    | .ok s => .ok ({ store := s, pending := [], parents := [] }, [])
  | ev =>
    match Node.step c.E a.store ev with
    | .error e => .error e
    | .ok s => .ok ({ a with store := s }, [])

end Verif.Node
