import Verif.Model.EventBus
/-!
# Specification vocabulary for the event stream
-/
namespace Verif.Node
open Verif Verif.Db

/-- The events emitted, in order. -/
def emitted (ops : List BusOp) : List BusEvent :=
  ops.filterMap fun | .emit e => some e | _ => none

/-- The number of clients that came. -/
def arrivals (ops : List BusOp) : Nat :=
  (ops.filter fun | .subscribe _ => true | _ => false).length

/-- The frames sent to client `k`, in order. -/
def framesOf (k : Nat) (l : List (Nat × Frame)) : List Frame :=
  l.filterMap fun x => if x.1 = k then some x.2 else none

/-- How far client `k` is behind: one more with each event, one less with each read, except that a read
from more than `cap` behind leaves `cap`. -/
def behind (cap k : Nat) (ops : List BusOp) : Nat :=
  ops.foldl (fun n o => match o with
    | .emit _ => n + 1
    | .recv j => if j = k then (if n > cap then cap else n - 1) else n
    | _ => n) 0

/-- The frames tell these events to a client with these topics: each event is either shown under its
topic, or of no interest, or in a gap that is announced with its length. -/
inductive Tells (ts : List Topic) : List BusEvent → List Frame → Prop
  | nil : Tells ts [] []
  | shown {e : BusEvent} {l : List BusEvent} {fs : List Frame} : e.topic ∈ ts → Tells ts l fs →
      Tells ts (e :: l) (.event e.topic e :: fs)
  | hidden {e : BusEvent} {l : List BusEvent} {fs : List Frame} : e.topic ∉ ts → Tells ts l fs →
      Tells ts (e :: l) fs
  | gap {g l : List BusEvent} {fs : List Frame} : g ≠ [] → Tells ts l fs →
      Tells ts (g ++ l) (.dropped g.length :: fs)

end Verif.Node
