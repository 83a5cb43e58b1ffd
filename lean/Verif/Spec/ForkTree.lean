import Verif.Model.ForkTree
/-!
# How to read the drawing
-/
namespace Verif.ForkTree
open Verif ForkChoice

/-- `x` is `a` or descends from `a` through blocks of the map. -/
inductive Under (b : Blocks) (a : Root) : Root → Prop
  | self {e} : b.get? a = some e → Under b a a
  | child {p x s} : Under b a p → b.get? x = some (s, p) → p ≠ 0 → Under b a x

/-- The blocks drawn, from left to right and top to bottom. -/
def drawn (l : List Tok) : List Root :=
  l.filterMap (fun t => match t with | .node r _ => some r | _ => none)

/-- The drawing tells the truth about each block. Scanning it: `prev` is the block before on the same line, `gap` the
number of missing slots announced, `fresh` whether only the block (and dots) came since.
* A block is drawn with its slot; on a line each block is the child of the one before.
* The number announced before a block is the number of slots between it and its parent.
* A star comes after the head only. -/
def Reads (b : Blocks) (head : Root) : Option Root → Nat → Bool → List Tok → Prop
  | _, _, _, [] => True
  | prev, gap, _, .node r s :: l =>
    (∃ p, b.get? r = some (s, p) ∧ (∀ q, prev = some q → p = q) ∧
      (∀ ps pp, p ≠ 0 → b.get? p = some (ps, pp) → s - ps - 1 = gap)) ∧ Reads b head (some r) 0 true l
  | _, _, _, .newline :: l => Reads b head none 0 false l
  | prev, _, _, .gap n :: l => Reads b head prev n false l
  | prev, gap, fresh, .dots :: l => Reads b head prev gap fresh l
  | prev, gap, fresh, .star :: l => fresh = true ∧ prev = some head ∧ Reads b head prev gap fresh l
  | prev, gap, _, _ :: l => Reads b head prev gap false l

/-- `r` starts a tree of the map (its parent is not in it), and no other such block has an earlier slot. -/
def Lowest (b : Blocks) (r : Root) : Prop :=
  ∃ s p, b.get? r = some (s, p) ∧ (p = 0 ∨ b.get? p = none) ∧
    ∀ x sx px, b.get? x = some (sx, px) → s ≤ sx

/-- No block is drawn twice, and siblings appear heavier first, then the larger root first. -/
def Ordered (t : Tree) (x y : Root) : Prop :=
  x ≠ y ∧ ∀ sx sy p, t.blocks.get? x = some (sx, p) → t.blocks.get? y = some (sy, p) → p ≠ 0 →
    (t.weights.get? y).getD 0 < (t.weights.get? x).getD 0 ∨
      ((t.weights.get? y).getD 0 = (t.weights.get? x).getD 0 ∧ y ≤ x)

end Verif.ForkTree
