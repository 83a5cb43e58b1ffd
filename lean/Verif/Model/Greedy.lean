import Verif.Model.Buffers
/-!
# Greedy proof selection and bitfield helpers

`extend_proofs_greedily` and `union_aggregation_bits`
(`crates/blockchain/src/block_builder.rs` 799-866), `select_proofs_greedily` and
`aggregation_bits_from_validator_indices` (`crates/blockchain/src/aggregation.rs` 597-660).
-/
namespace Verif.Build
open Verif Verif.Buffers

/-- `Iterator::max_by_key`: the last element with a maximal key. -/
def maxByKey {α : Type} (key : α → Nat) : List α → Option α
  | [] => none
  | a :: l => some (l.foldl (fun best x => if key x ≥ key best then x else best) a)

/-- `participant_indices` (`crates/common/types/src/block.rs`): the set bits. -/
def Agg.ids (p : Agg) : List Nat := validatorIndices p.participants

/-- The participants of a proof that are not covered yet, in ascending order. -/
def newIds (covered : List Nat) (p : Agg) : List Nat := (Agg.ids p).filter (fun v => v ∉ covered)

/-- The loop of `extend_proofs_greedily` (809-850): the picked indices in order.
`remaining_indices` is a hash set, enumerated in the order `ord remaining`. -/
def greedyLoop (proofs : List Agg) (ord : List Nat → List Nat) :
    Nat → List Nat → List Nat → List Nat
  | 0, _, _ => []
  | fuel + 1, remaining, covered =>
    let count := fun i => (newIds covered (proofs[i]?.getD ⟨[], 0⟩)).length
    match maxByKey count (ord remaining) with
    | none => []
    | some i =>
      if count i = 0 then []
      else i :: greedyLoop proofs ord fuel (remaining.filter (fun j => j ≠ i))
        (covered ++ newIds covered (proofs[i]?.getD ⟨[], 0⟩))

/-- `extend_proofs_greedily` (799-851): the proofs appended to `selected`, in order. Each iteration
removes an index, so `proofs.length` iterations are enough (`C45_builder`: afterwards no proof adds a participant). -/
def extendGreedily (proofs : List Agg) (ord : List Nat → List Nat) : List Agg :=
  (greedyLoop proofs ord proofs.length (List.range proofs.length) []).map
    (fun i => proofs[i]?.getD ⟨[], 0⟩)

/-- `union_aggregation_bits` (854-866). -/
def unionBits (a b : Bits) : Bits :=
  (List.range (max a.length b.length)).map (fun i => a[i]?.getD false || b[i]?.getD false)

/-- `MAX_AGGREGATION_CHILDREN` (`aggregation.rs` 585). -/
def maxChildren : Nat := 2

/-- The inner loop of `select_proofs_greedily` (608-632) over one proof set. -/
def selectLoop : Nat → List Agg → List Agg → List Nat → List Agg × List Nat
  | 0, _, selected, covered => (selected, covered)
  | fuel + 1, remaining, selected, covered =>
    if selected.length < maxChildren then
      match maxByKey (fun i => (newIds covered (remaining[i]?.getD ⟨[], 0⟩)).length)
          (List.range remaining.length) with
      | none => (selected, covered)
      | some i =>
        let p := remaining[i]?.getD ⟨[], 0⟩
        if (newIds covered p).isEmpty then (selected, covered)
        else selectLoop fuel (swapRemove remaining i) (selected ++ [p]) (covered ++ newIds covered p)
    else (selected, covered)

/-- `select_proofs_greedily` (597-639): new proofs first, then known ones. -/
def selectGreedily (new known : List Agg) (seed : List Nat) : List Agg × List Nat :=
  let r := selectLoop new.length new [] seed
  if r.1.length ≥ maxChildren then r
  else selectLoop known.length known r.1 r.2

/-- `aggregation_bits_from_validator_indices` (642-660). The bit list has length `max + 1`. -/
def bitsFromIndices (ids : List Nat) : Bits :=
  match ids.max? with
  | none => []
  | some m => (List.range (m + 1)).map (fun i => decide (i ∈ ids))

end Verif.Build
