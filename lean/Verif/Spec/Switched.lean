import Verif.Model.Roles
import Verif.Spec.Solo
/-!
# Specification vocabulary for a node whose aggregator role is switched on and off
-/
namespace Verif.Node
open Verif Verif.Db Verif.Sync

/-- The node started at genesis and has been through `s` slots in time, alone; in slot `i` it was an
aggregator if `on i`. `l` is what it asked its keys to sign. -/
inductive Switched (c : VCtx) (t : Nat) (vals : List Validator) (on : Nat → Bool) :
    Nat → VNode → List Signed → Prop
  | start {a : Actor} (gate : Bool)
      (h : Actor.init c.ctx (State.fromGenesis c.H t vals) (some []) = .ok a) :
      Switched c t vals on 0 ⟨a, Tracker.new gate⟩ []
  | slot {s : Nat} {n n' : VNode} {l l' : List Signed} {w : Times}
      (h : Switched c t vals on s n l) (hw : OnTime t s w)
      (hs : n.slotAs c (on s) s w = .ok (n', l')) : Switched c t vals on (s + 1) n' (l ++ l')

end Verif.Node
