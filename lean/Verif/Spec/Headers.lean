import Verif.Model.AMap
import Verif.Model.Types
/-!
# Ancestry in a table of headers
-/
namespace Verif.Node
open Verif

/-- `Back hs r n x`: from `r`, following `n` parent links through stored headers leads to `x`
(all of `r, …, x` are stored). -/
inductive Back (hs : AMap Root Header) : Root → Nat → Root → Prop
  | here {r : Root} {h : Header} : hs.get? r = some h → Back hs r 0 r
  | up {r : Root} {h : Header} {n : Nat} {x : Root} : hs.get? r = some h →
      Back hs h.parentRoot n x → Back hs r (n + 1) x

/-- `a` is `d` or an ancestor of `d`. -/
def Ancestor (hs : AMap Root Header) (a d : Root) : Prop := ∃ n, Back hs d n a

/-- Stored parents have smaller slots. -/
def Increasing (hs : AMap Root Header) : Prop :=
  ∀ r h p, hs.get? r = some h → hs.get? h.parentRoot = some p → p.slot < h.slot

/-- The block of a checkpoint is stored, with the claimed slot. -/
def KnownAt (hs : AMap Root Header) (c : Checkpoint) : Prop :=
  ∃ h, hs.get? c.root = some h ∧ h.slot = c.slot

end Verif.Node
