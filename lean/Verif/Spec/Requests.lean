import Verif.Model.Actor
/-!
# Specification vocabulary for what the actor asks the network for
-/
namespace Verif.Node
open Verif Verif.Db

/-- Going from block `x` to its parent and on, over blocks that are stored but not imported, the
first block that is not stored is `r`. -/
inductive FirstMissing (db : Db) : Root → Root → Prop
  | here {x : Root} : db.headers.get? x = none → FirstMissing db x x
  | up {x : Root} {h : Header} {r : Root} : db.headers.get? x = some h → hasState db x = false →
      FirstMissing db h.parentRoot r → FirstMissing db x r

end Verif.Node
