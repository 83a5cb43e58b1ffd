import Verif.Model.Types
import Verif.Model.AMap
/-!
# LMD-GHOST fork choice

`crates/blockchain/fork_choice/src/lib.rs`.
-/
namespace Verif.ForkChoice
open Verif

/-- `HashMap<H256, (u64, H256)>`: root ↦ (slot, parent root). -/
abbrev Blocks := AMap Root (Nat × Root)

/-- The loop 17-23 for one attestation, as the list of roots whose weight is incremented.
Simplified: fuel bounds the `while`; with slot-increasing parents `blocks.length + 1` is enough
(theorem `C14_walk_fuel_irrelevant`), on cyclic input the Rust loop would not terminate. -/
def walk (blocks : Blocks) (startSlot : Nat) : Nat → Root → List Root
  | 0, _ => []
  | fuel + 1, r =>
    match blocks.get? r with
    | some (slot, parent) =>
      if slot > startSlot then r :: walk blocks startSlot fuel parent else []
    | none => []

/-- `*weights.entry(r).or_default() += 1` (21). -/
def bump (w : AMap Root Nat) (r : Root) : AMap Root Nat := w.insert r ((w.get? r).getD 0 + 1)

/-- `compute_block_weights` (9-27). `votes` is the map validator ↦ latest attestation. -/
def computeBlockWeights (startSlot : Nat) (blocks : Blocks) (votes : AMap Nat AttData) :
    AMap Root Nat :=
  votes.foldl (fun w e =>
    (walk blocks startSlot (blocks.length + 1) e.2.head.root).foldl bump w) []

/-- `weights.get(r).copied().unwrap_or(0)`. -/
def weightOf (w : AMap Root Nat) (r : Root) : Nat := (w.get? r).getD 0

/-- `children_map.get(&head)` for the map built in 57-67: the enumerated blocks whose parent is
`head`, except blocks with a zero parent and, if `min_score > 0`, blocks below it. An empty list
stands for a missing entry. -/
def children (blocks : Blocks) (w : AMap Root Nat) (minScore : Nat) (head : Root) : List Root :=
  (blocks.filter (fun e => decide (e.2.2 ≠ 0) &&
    !(decide (minScore > 0) && decide (weightOf w e.1 < minScore)) &&
    decide (e.2.2 = head))).map Prod.fst

/-- Order on the key `(weight, root)` of 77 (lexicographic). -/
def keyLe (w : AMap Root Nat) (a b : Root) : Bool :=
  decide (weightOf w a < weightOf w b) || (decide (weightOf w a = weightOf w b) && decide (a ≤ b))

/-- `children.iter().max_by_key(..)` (75-78): the last maximal element. -/
def maxChild (w : AMap Root Nat) : List Root → Option Root
  | [] => none
  | c :: cs => some (cs.foldl (fun best r => if keyLe w best r then r else best) c)

/-- The loop 71-79, with fuel. -/
def headLoop (blocks : Blocks) (w : AMap Root Nat) (minScore : Nat) : Nat → Root → Root
  | 0, h => h
  | fuel + 1, h =>
    match maxChild w (children blocks w minScore h) with
    | none => h
    | some c => headLoop blocks w minScore fuel c

/-- `blocks.iter().min_by_key(slot)` (46-50): the first enumerated entry with the least slot. -/
def minSlotRoot : Blocks → Option Root
  | [] => none
  | e :: es => some (es.foldl (fun best x => if x.2.1 < best.2.1 then x else best) e).1

/-- `compute_lmd_ghost_head` (36-82). -/
def computeLmdGhostHead (startRoot : Root) (blocks : Blocks) (votes : AMap Nat AttData)
    (minScore : Nat) : Root × AMap Root Nat :=
  match minSlotRoot blocks with
  | none => (startRoot, [])
  | some lowest =>
    let start := if startRoot = 0 then lowest else startRoot
    match blocks.get? start with
    | none => (start, [])
    | some (startSlot, _) =>
      let w := computeBlockWeights startSlot blocks votes
      (headLoop blocks w minScore (blocks.length + 1) start, w)

/-- `update_safe_target` (`crates/blockchain/src/store.rs` 150-171) as a function of what it reads
from the store: the head state's validator count, the justified root, the live chain and the
*new* votes. `(2n).div_ceil(3)` is `(2n + 2) / 3`. -/
def safeTarget (numValidators : Nat) (justifiedRoot : Root) (blocks : Blocks)
    (newVotes : AMap Nat AttData) : Root :=
  (computeLmdGhostHead justifiedRoot blocks newVotes ((numValidators * 2 + 2) / 3)).1

end Verif.ForkChoice
