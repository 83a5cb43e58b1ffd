import Verif.Model.Worker
import Verif.Spec.Signatures
import Verif.Spec.Pools
/-!
# Specification vocabulary for a node that runs all validators of its network
-/
namespace Verif.Node
open Verif Verif.Db Verif.Sync

/-- The timers of slot `s` fire in their intervals (4 seconds per slot, 0.8 per interval). -/
structure OnTime (genesisTime s : Nat) (w : Times) : Prop where
  publication : (w.publication - genesisTime * 1000) / 800 = 5 * s
  attestation : (w.attestation - genesisTime * 1000) / 800 = 5 * s + 1
  aggregation : (w.aggregation - genesisTime * 1000) / 800 = 5 * s + 2
  safeTarget : (w.safeTarget - genesisTime * 1000) / 800 = 5 * s + 3
  endOfSlot : (w.endOfSlot - genesisTime * 1000) / 800 = 5 * s + 4

/-- The node started at genesis and has been through `s` slots in time, alone; `l` is what it asked
its keys to sign. -/
inductive Solo (c : VCtx) (t : Nat) (vals : List Validator) : Nat → VNode → List Signed → Prop
  | start {a : Actor} (gate : Bool)
      (h : Actor.init c.ctx (State.fromGenesis c.H t vals) (some []) = .ok a) :
      Solo c t vals 0 ⟨a, Tracker.new gate⟩ []
  | slot {s : Nat} {n n' : VNode} {l l' : List Signed} {w : Times} (h : Solo c t vals s n l)
      (hw : OnTime t s w) (hs : n.slot c s w = .ok (n', l')) : Solo c t vals (s + 1) n' (l ++ l')

/-- Some key was asked to sign the vote. -/
def VoteSigned (l : List Signed) (d : AttData) : Prop := ∃ v sig, Signed.vote v d sig ∈ l

/-- The block was made. -/
def BlockMade (l : List Signed) (sb : SignedBlock) : Prop :=
  ∃ vid slot root r, Signed.block vid slot root (some (sb, r)) ∈ l

/-- The headers of the genesis block and of the blocks that were made. -/
def MadeHeader (H : Hash) (g : State) (l : List Signed) (h : Header) : Prop :=
  h = genesisHeader H g ∨ ∃ sb, BlockMade l sb ∧ sb.block.header H = h

/-- Every validator voted in every slot before `s`, and in every slot from 1 to `s` the validator
whose turn it was made a block of that slot, which the node imported. -/
def AllDone (vals : List Validator) (s : Nat) (l : List Signed) : Prop :=
  (∀ i, i < s → ∀ v, v < vals.length → ∃ d sig, d.slot = i ∧ Signed.vote v d (some sig) ∈ l) ∧
  (∀ i, 1 ≤ i → i ≤ s → ∃ r sb, sb.block.slot = i ∧
    Signed.block (i % vals.length) i r (some (sb, .ok ())) ∈ l)

/-- The hash functions behave on what the node made: no zero roots, no collisions among the headers of
its blocks nor among its votes, and no block is its own ancestor. -/
structure Clean (c : VCtx) (t : Nat) (vals : List Validator) (l : List Signed) : Prop where
  headerNZ : ∀ h, c.H.header h ≠ 0
  stateNZ : ∀ s, c.H.state s ≠ 0
  headers : ∀ a b, MadeHeader c.H (State.fromGenesis c.H t vals) l a →
    MadeHeader c.H (State.fromGenesis c.H t vals) l b → c.H.header a = c.H.header b → a = b
  acyclic : ∃ rank : Root → Nat, ∀ h, MadeHeader c.H (State.fromGenesis c.H t vals) l h →
    rank h.parentRoot < rank (c.H.header h)
  votes : ∀ d d', VoteSigned l d → VoteSigned l d' → c.H.attData d = c.H.attData d' → d = d'

/-- The node's keys work, its hash sets enumerate their elements, and it packs votes. -/
structure Able (c : VCtx) (vals : List Validator) : Prop where
  complete : Complete c.X
  live : Live c.X
  keys : KeysDistinct c.X vals
  mine : ∀ v ∈ c.ids, v < vals.length
  once : c.ids.Nodup
  votes : ∀ v ∈ c.ids, ∀ d, ∃ sig, c.sign v d = some sig ∧ ValidSig c.X c.H vals v d sig
  signs : ∀ v ∈ c.ids, SignsWith c.X vals v c.signBlock
  can : ∀ v ∈ c.ids, CanSign c.X vals v c.signBlock
  ord : ∀ r l, (c.ord r l).Perm l
  merges : c.config.aggregate = true
  room : 0 < c.config.maxAtts

/-- The node has all keys as well. -/
structure Equipped (c : VCtx) (vals : List Validator) : Prop extends Able c vals where
  all : ∀ v, v < vals.length → v ∈ c.ids

end Verif.Node
