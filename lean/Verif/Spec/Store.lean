import Verif.Model.Store
import Verif.Spec.Chain
/-!
# Specification vocabulary for runs of the node
-/
namespace Verif.Node
open Verif Verif.Db

/-- A history of a node started from the anchor state `a0` (newest event first). -/
inductive Reach (E : Env) (a0 : State) (body : Option (List AggAtt)) : List Event → Store → Prop
  | init {s : Store} : init E a0 body = .ok s → Reach E a0 body [] s
  | step {evs : List Event} {s : Store} {ev : Event} {s' : Store} : Reach E a0 body evs s →
      step E s ev = .ok s' → Reach E a0 body (ev :: evs) s'

/-- The block arrived from the network, or the node built it. -/
def Arrived (evs : List Event) (sb : SignedBlock) : Prop := Event.block sb ∈ evs ∨ Event.own sb ∈ evs

/-- The headers that matter in a history: genesis, the blocks up to the anchor, and the blocks
received or built. -/
def Known (H : Hash) (g : State) (bs : List Block) (evs : List Event) (h : Header) : Prop :=
  h = genesisHeader H g ∨ (∃ b ∈ bs, b.header H = h) ∨
    ∃ sb, Arrived evs sb ∧ sb.block.header H = h

/-- The anchor is the post-state of a chain of blocks from genesis (genesis itself if `bs = []`),
and the hash function behaves on the headers in `K`: never zero, no collisions, and no block is
its own ancestor. -/
structure World (E : Env) (t : Nat) (vals : List Validator) (bs : List Block) (a0 : State)
    (K : Header → Prop) : Prop where
  chain : Chain E.H (State.fromGenesis E.H t vals) bs a0
  headerNZ : ∀ h, E.H.header h ≠ 0
  stateNZ : ∀ s, E.H.state s ≠ 0
  genesis : K (genesisHeader E.H (State.fromGenesis E.H t vals))
  old : ∀ b ∈ bs, K (b.header E.H)
  collisionFree : ∀ a b, K a → K b → E.H.header a = E.H.header b → a = b
  acyclic : ∃ rank : Root → Nat, ∀ h, K h → rank h.parentRoot < rank (E.H.header h)

end Verif.Node
