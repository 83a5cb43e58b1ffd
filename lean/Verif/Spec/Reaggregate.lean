import Verif.Spec.Signatures
/-!
# Specification vocabulary for the aggregates a node holds
-/
namespace Verif.Node
open Verif Verif.Db Verif.Buffers

/-- The aggregate `g` for the vote with this root is in one of the two pools. -/
def Holds (s : Store) (r : Root) (g : Agg) : Prop :=
  ∃ e : PEntry, (s.newP.data.get? r = some e ∨ s.knownP.data.get? r = some e) ∧ g ∈ e.proofs

/-- Validator `v` is in some aggregate for the vote with this root. -/
def Covered (s : Store) (r : Root) (v : Nat) : Prop :=
  ∃ g, Holds s r g ∧ g.participants[v]? = some true

open Classical in
/-- The validators that the attestation adds to what the node holds. -/
noncomputable def gains (H : Hash) (s : Store) (a : AggAtt) : List Nat :=
  (List.range a.bits.length).filter (fun v =>
    decide (a.bits[v]? = some true ∧ ¬ Covered s (H.attData a.data) v))

/-- The attestation is worth recovering: its target is beyond the justified checkpoint and it adds a
validator. -/
def Worth (H : Hash) (s : Store) (a : AggAtt) : Prop :=
  s.mem.db.justified.slot < a.data.target.slot ∧ gains H s a ≠ []

end Verif.Node
