import Verif.Model.ForkChoice
import Mathlib.Data.List.Sort
/-!
# The fork choice tree in the log

`crates/blockchain/src/fork_choice_tree.rs` (12-243), called by the blockchain actor at the end of every slot.
The text is a list of tokens; the three header lines are left out.
-/
namespace Verif.ForkTree
open Verif ForkChoice

/-- `MAX_DISPLAY_DEPTH` (7). -/
def maxDepth : Nat := 20

/-- Pieces of the text. -/
inductive Tok
  /-- `abcd…(slot)` -/
  | node (root : Root) (slot : Nat)
  /-- `[ ]── ` or `[n]── ` -/
  | gap (n : Nat)
  /-- `── ` -/
  | link
  /-- `── ...` -/
  | dots
  /-- ` *` -/
  | star
  /-- `  [w:n]` -/
  | weight (n : Nat)
  /-- ` ─ n branches` -/
  | branches (n : Nat)
  /-- the connector at the beginning of a branch line, `├── ` or `└── ` (last), after the bars of the enclosing
  branches -/
  | conn (bars : List Bool) (last : Bool)
  | newline
  | empty
  deriving DecidableEq, Repr

/-- The panics: an index into the map (113, 172), no root (228). -/
inductive Panic
  | noBlock | noRoot | fuel
  deriving DecidableEq, Repr

structure Tree where
  blocks : Blocks
  weights : AMap Root Nat
  head : Root

/-- The sort order of 60-64: heavier first, then the larger root. -/
def before (w : AMap Root Nat) (a b : Root) : Prop :=
  weightOf w b < weightOf w a ∨ (weightOf w a = weightOf w b ∧ b ≤ a)

instance (w : AMap Root Nat) : DecidableRel (before w) := fun a b => by
  unfold before; infer_instance

/-- `children_map.get(r)` (51-65), sorted; an empty list stands for a missing entry. -/
def Tree.kids (t : Tree) (r : Root) : List Root :=
  ((t.blocks.filter (fun e => decide (e.2.2 ≠ 0) && (t.blocks.get? e.2.2).isSome && decide (e.2.2 = r))).map
    Prod.fst).insertionSort (before t.weights)

/-- `find_tree_root` (221-229). -/
def findRoot (b : Blocks) : Option Root :=
  minSlotRoot (b.filter (fun e => decide (e.2.2 = 0) || !(b.get? e.2.2).isSome))

/-- `render_gap` (232-243). -/
def gapToks (prev : Option Nat) (slot : Nat) : List Tok :=
  match prev with
  | none => []
  | some ps => if slot - ps - 1 = 0 then [] else [.gap (slot - ps - 1)]

/-- `render_trunk` (105-140); returns the text, the tip and the depth. -/
def Tree.trunk (t : Tree) : Nat → Root → Nat → Option Nat → Except Panic (List Tok × Root × Nat)
  | 0, _, _, _ => .error .fuel
  | fuel + 1, cur, depth, prev =>
    match t.blocks.get? cur with
    | none => .error .noBlock
    | some (slot, _) =>
      let g := gapToks prev slot
      let out := g ++ [.node cur slot]
      let depth := depth + g.length + 1
      if depth ≥ maxDepth then .ok (out ++ [.dots], cur, depth)
      else
        match t.kids cur with
        | [c] =>
          match t.trunk fuel c depth (some slot) with
          | .error e => .error e
          | .ok (rest, tip, d) => .ok (out ++ .link :: rest, tip, d)
        | _ => .ok (out, cur, depth)

/-- The loop of `render_branches` (143-157) with a given way to render a line. -/
def drawKids (f : Root → Bool → Except Panic (List Tok)) (bars : List Bool) : List Root →
    Except Panic (List Tok)
  | [] => .ok []
  | c :: cs =>
    let last := cs.isEmpty
    match f c last with
    | .error e => .error e
    | .ok a =>
      match drawKids f bars cs with
      | .error e => .error e
      | .ok b => .ok (.conn bars last :: a ++ b)

/-- The slot of the parent (168-172). -/
def Tree.parentSlot (t : Tree) (r : Root) : Option Nat :=
  match t.blocks.get? r with
  | none => none
  | some (_, p) => (t.blocks.get? p).map Prod.fst

def Tree.mark (t : Tree) (r : Root) : List Tok := if r = t.head then [.star] else []

/-- `render_branch_line` (160-218). `bars` is the prefix, `last` tells the continuation. -/
def Tree.line (t : Tree) : Nat → Root → List Bool → Bool → Nat → Option Nat → Except Panic (List Tok)
  | 0, _, _, _, _, _ => .error .fuel
  | fuel + 1, cur, bars, last, depth, prev =>
    match t.blocks.get? cur with
    | none => .error .noBlock
    | some (slot, _) =>
      let g := gapToks prev slot
      let out := g ++ [.node cur slot]
      let depth := depth + g.length + 1
      if depth ≥ maxDepth then .ok (out ++ [.dots, .newline])
      else
        match t.kids cur with
        | [] => .ok (out ++ t.mark cur ++ [.weight (weightOf t.weights cur), .newline])
        | [c] =>
          match t.line fuel c bars last depth (some slot) with
          | .error e => .error e
          | .ok rest => .ok (out ++ t.mark cur ++ .link :: rest)
        | cs =>
          match drawKids (fun c l => t.line fuel c (bars ++ [!last]) l depth (t.parentSlot c))
              (bars ++ [!last]) cs with
          | .error e => .error e
          | .ok rest => .ok (out ++ t.mark cur ++ [.branches cs.length, .newline] ++ rest)

/-- `format_fork_choice_tree` (12-94) after the header lines. The fuel is enough (C112). -/
def Tree.draw (t : Tree) : Except Panic (List Tok) :=
  if t.blocks.isEmpty then .ok [.empty]
  else
    match findRoot t.blocks with
    | none => .error .noRoot
    | some root =>
      match t.trunk (maxDepth + 1) root 0 none with
      | .error e => .error e
      | .ok (out, tip, depth) =>
        let cs := t.kids tip
        if cs.length > 1 then
          match drawKids (fun c l => t.line (maxDepth + 1) c [] l depth (t.parentSlot c)) [] cs with
          | .error e => .error e
          | .ok rest => .ok (out ++ [.branches cs.length, .newline] ++ rest)
        else .ok (out ++ t.mark tip ++ [.newline])

end Verif.ForkTree
