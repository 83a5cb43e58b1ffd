import Verif.Model.StateTransition
/-!
# Specification vocabulary for chains of blocks

Nothing here is used by the model; these notions only state the properties.
-/
namespace Verif

/-- At least two thirds of the `n` validators satisfy `V` (distinct validators). -/
def SuperMaj (V : Nat → Prop) (n : Nat) : Prop :=
  ∃ vs : List Nat, vs.Nodup ∧ (∀ v ∈ vs, v < n ∧ V v) ∧ 2 * n ≤ 3 * vs.length

/-- `Chain H g bs s`: importing the blocks `bs` (newest first) on top of `g` succeeds and gives
`s`. -/
inductive Chain (H : Hash) (g : State) : List Block → State → Prop
  | nil : Chain H g [] g
  | cons {bs s s' b} : Chain H g bs s → importState H s b = .ok s' → Chain H g (b :: bs) s'

/-- Validator `v` appears in an aggregate with target root `r` in one of the blocks. -/
def VotedIn (bs : List Block) (v : Nat) (r : Root) : Prop :=
  ∃ b ∈ bs, ∃ a ∈ b.body, a.data.target.root = r ∧ a.bits[v]? = some true

/-- The header of the genesis block, whose hash is the genesis block root. -/
def genesisHeader (H : Hash) (g : State) : Header :=
  { g.latestBlockHeader with stateRoot := H.state g }

/-- The root recorded for slot `k` on a chain: the block at that slot if there is one, the
genesis block at slot 0, the zero root for a skipped slot. -/
def rootAt (H : Hash) (g : State) (bs : List Block) (k : Nat) : Root :=
  match bs.find? (fun b => decide (b.slot = k)) with
  | some b => b.root H
  | none => if k = 0 then H.header (genesisHeader H g) else 0

/-- The root of the newest block of a chain (genesis if there is none). -/
def tipRoot (H : Hash) (g : State) : List Block → Root
  | [] => H.header (genesisHeader H g)
  | b :: _ => b.root H

end Verif
