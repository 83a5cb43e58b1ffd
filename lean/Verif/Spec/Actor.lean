import Verif.Model.Actor
import Verif.Spec.Store
/-!
# Specification vocabulary for runs of the blockchain actor
-/
namespace Verif.Node
open Verif Verif.Db

/-- A history of an actor started from the anchor state `a0` (newest event first). -/
inductive AReach (c : Ctx) (a0 : State) (body : Option (List AggAtt)) : List Event → Actor → Prop
  | init {a : Actor} : Actor.init c a0 body = .ok a → AReach c a0 body [] a
  | step {evs : List Event} {a : Actor} {ev : Event} {a' : Actor} {f : List Root} :
      AReach c a0 body evs a → a.step c ev = .ok (a', f) → AReach c a0 body (ev :: evs) a'

/-- Some more events (newest first). -/
inductive ARun (c : Ctx) (a : Actor) : List Event → Actor → Prop
  | nil : ARun c a [] a
  | step {evs : List Event} {b : Actor} {ev : Event} {b' : Actor} {f : List Root} :
      ARun c a evs b → b.step c ev = .ok (b', f) → ARun c a (ev :: evs) b'

end Verif.Node
