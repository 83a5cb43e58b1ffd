import Verif.Model.ForkChoice
/-!
# Specification vocabulary for block trees
-/
namespace Verif.ForkChoice
open Verif

/-- A block map: one entry per root, and parents have strictly smaller slots. -/
structure WF (blocks : Blocks) : Prop where
  nodup : blocks.keys.Nodup
  parent : ∀ r s p s' p', blocks.get? r = some (s, p) → blocks.get? p = some (s', p') → s' < s

/-- `Anc blocks r h`: block `r` is `h` or an ancestor of `h`, all along known blocks. -/
inductive Anc (blocks : Blocks) : Root → Root → Prop
  | self {h s p} : blocks.get? h = some (s, p) → Anc blocks h h
  | up {r h s p} : blocks.get? h = some (s, p) → Anc blocks r p → Anc blocks r h

/-- The blocks a vote for head `h` supports: ancestors-or-self of `h` above the start slot. -/
def Supports (blocks : Blocks) (startSlot : Nat) (r h : Root) : Prop :=
  Anc blocks r h ∧ ∃ s p, blocks.get? r = some (s, p) ∧ startSlot < s

open Classical in
/-- Number of validators whose latest vote supports `r`. -/
noncomputable def supportCount (blocks : Blocks) (startSlot : Nat) (votes : AMap Nat AttData)
    (r : Root) : Nat :=
  votes.countP (fun e => decide (Supports blocks startSlot r e.2.head.root))

end Verif.ForkChoice

namespace Verif.ForkChoice

/-- `c` is an eligible child of `h`: a known block with parent `h`; blocks with the zero parent are
never children, and a positive `minScore` requires that many supporters. -/
def Eligible (blocks : Blocks) (startSlot : Nat) (votes : AMap Nat AttData) (minScore : Nat)
    (h c : Root) : Prop :=
  (∃ s, blocks.get? c = some (s, h)) ∧ h ≠ 0 ∧
    (minScore > 0 → minScore ≤ supportCount blocks startSlot votes c)

/-- `c` is the best child of `h`: eligible, and every other eligible child has less support, or
the same support and a smaller root. -/
def Best (blocks : Blocks) (startSlot : Nat) (votes : AMap Nat AttData) (minScore : Nat)
    (h c : Root) : Prop :=
  Eligible blocks startSlot votes minScore h c ∧
  ∀ d, Eligible blocks startSlot votes minScore h d → d ≠ c →
    supportCount blocks startSlot votes d < supportCount blocks startSlot votes c ∨
    (supportCount blocks startSlot votes d = supportCount blocks startSlot votes c ∧ Nat.lt d c)

/-- A descent through best children. -/
inductive Greedy (blocks : Blocks) (startSlot : Nat) (votes : AMap Nat AttData) (minScore : Nat)
    (start : Root) : Root → Prop
  | start : Greedy blocks startSlot votes minScore start start
  | step {h c} : Greedy blocks startSlot votes minScore start h →
      Best blocks startSlot votes minScore h c → Greedy blocks startSlot votes minScore start c

/-- Decidable form of `WF`, for examples. -/
def wfCheck (blocks : Blocks) : Bool :=
  decide blocks.keys.Nodup &&
  blocks.all (fun e => match blocks.get? e.2.2 with
    | some (s', _) => decide (s' < e.2.1)
    | none => true)

end Verif.ForkChoice
