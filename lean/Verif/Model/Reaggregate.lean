import Verif.Model.Signatures
import Verif.Model.Aggregation
import Mathlib.Data.List.Sort
/-!
# Recovering aggregates from an imported block

`crates/blockchain/src/reaggregate.rs`. Hash sets are lists. What the caller does with the result is
`foldAggs` in `Actor` (the pool insertion, 221-227); publication is an output and not modelled.
-/
namespace Verif.Node
open Verif Verif.Db Verif.Buffers Verif.Build

/-- `MAX_REAGGREGATIONS_PER_BLOCK` (42). -/
def maxReaggregations : Nat := 4

/-- `Candidate` (232-237), with the attestation beside its index. -/
structure Cand where
  idx : Nat
  att : AggAtt
  root : Root
  fresh : Nat
  locals : List Agg
  deriving Repr

/-- `existing_proofs_for_data` (`crates/storage/src/store.rs` 1641-1651), new before known. -/
def localProofs (s : Store) (r : Root) : List Agg := proofsFor s.newP r ++ proofsFor s.knownP r

/-- One round of the loop of `select_candidates` (252-275). -/
def candOf (H : Hash) (s : Store) (x : AggAtt × Nat) : Option Cand :=
  if x.1.data.target.slot ≤ s.mem.db.justified.slot then none
  else
    let root := H.attData x.1.data
    let loc := localProofs s root
    let union := loc.flatMap Agg.ids
    let parts := validatorIndices x.1.bits
    if parts.all (fun v => decide (v ∈ union)) then none
    else some ⟨x.2, x.1, root, (parts.filter (fun v => v ∉ union)).length, loc⟩

/-- `select_candidates` (246-279): a stable sort by the number of new validators, most first. -/
def selectCands (H : Hash) (s : Store) (atts : List AggAtt) : List Cand :=
  ((atts.zipIdx.filterMap (candOf H s)).insertionSort (fun a b => a.fresh ≥ b.fresh)).take
    maxReaggregations

/-- `pubkeys_per_component` of the attestations (80-97). -/
def componentKeys (X : Crypto) (vals : List Validator) : List AggAtt → Option (List (List Nat))
  | [] => some []
  | a :: as =>
    match attestationKeys X vals (validatorIndices a.bits) with
    | .error _ => none
    | .ok ks =>
      match componentKeys X vals as with
      | none => none
      | some kss => some (ks :: kss)

/-- The body of the loop over the candidates (119-219). The bits of a union are never longer than
the validator registry, so `with_length` (203) does not fail. -/
def recover (X : Crypto) (vals : List Validator) (proof : Nat) (kss : List (List Nat)) (c : Cand) :
    Option (AttData × Agg) :=
  if c.att.data.slot ≥ 2 ^ 32 then none
  else match splitByMessage X proof kss c.root with
  | none => none
  | some q =>
    if c.locals.isEmpty then some (c.att.data, ⟨c.att.bits, q⟩)
    else match mergeInputs X vals c.locals with
    | none => none
    | some l =>
      match aggregateProofs X ((kss.getD c.idx [], q) :: l) c.root c.att.data.slot with
      | none => none
      | some p => some (c.att.data,
          ⟨bitsFromIndices (validatorIndices c.att.bits ++ c.locals.flatMap Agg.ids), p⟩)

/-- `reaggregate_from_block` (50-230). The read of the parent state leaves the database alone. -/
def reaggregate (X : Crypto) (H : Hash) (s : Store) (sb : SignedBlock) : List (AttData × Agg) :=
  let b := sb.block
  if b.body.isEmpty then []
  else match s.getState b.parentRoot with
  | .error _ => []
  | .ok (none, _) => []
  | .ok (some st, _) =>
  match componentKeys X st.validators b.body with
  | none => []
  | some kss =>
  match st.validators[b.proposerIndex]? with
  | none => []
  | some val =>
  match X.decodeKey val.proposalPubkey with
  | none => []
  | some k => (selectCands H s b.body).filterMap (recover X st.validators sb.proof (kss ++ [[k]]))

end Verif.Node
