import Verif.Model.Merkle

/-
What is hashed to compute a root, and what it means that no two of these inputs collide.
-/

namespace Verif.Merkle

open Verif

/-- The pairs of chunks that are hashed to compute the root. -/
def inputs (h : Nat → Nat → Nat) : Tree → List (Nat × Nat)
  | .leaf _ => []
  | .node l r => (root h l, root h r) :: (inputs h l ++ inputs h r)

/-- No input hashed for the first tree collides with a different one hashed for the second. -/
def Safe (h : Nat → Nat → Nat) (t u : Tree) : Prop :=
  ∀ p ∈ inputs h t, ∀ q ∈ inputs h u, h p.1 p.2 = h q.1 q.2 → p = q

/-- No two different inputs of the given set collide. -/
def NoCollisionOn (h : Nat → Nat → Nat) (S : Nat × Nat → Prop) : Prop :=
  ∀ p q, S p → S q → h p.1 p.2 = h q.1 q.2 → p = q

/-- The limits of the types for the attestations of a block (block.rs 254, attestation.rs 117). -/
def Within (l : List AggAtt) : Prop := l.length ≤ 4096 ∧ ∀ a ∈ l, a.bits.length ≤ 4096

/-- The limits of the types for a state (state.rs 43-63). -/
def StateWithin (s : State) : Prop :=
  s.historicalBlockHashes.length ≤ 262144 ∧ s.justifiedSlots.length ≤ 262144 ∧ s.validators.length ≤ 4096 ∧
    s.justificationsRoots.length ≤ 262144 ∧ s.justificationsValidators.length ≤ 262144 * 4096

end Verif.Merkle
