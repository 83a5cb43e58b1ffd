import Verif.Model.Crash
import Verif.Spec.Store
/-!
# Specification vocabulary for runs with crashes
-/
namespace Verif.Node
open Verif Verif.Db

/-- A history with crashes (newest first). -/
inductive CReach (E : Env) (a0 : State) (body : Option (List AggAtt)) : List CEvent → Store → Prop
  | init {s : Store} : init E a0 body = .ok s → CReach E a0 body [] s
  | step {evs : List CEvent} {s s' : Store} {ev : CEvent} :
      CReach E a0 body evs s → cstep E s ev = .ok s' → CReach E a0 body (ev :: evs) s'

/-- The same history without the crashes (only its blocks matter for `Known`). -/
def CEvent.plain : CEvent → Event
  | .ev e => e
  | .crash sb _ => .block sb

end Verif.Node
