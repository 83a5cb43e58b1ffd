import Verif.Model.Race
import Verif.Lemmas.DbIndex
/-!
# Specification vocabulary for reads that race with writes
-/
namespace Verif.Race
open Verif Verif.Db

/-- `see i` is the database at the `i`-th moment of a reader, while the owner of the store makes storage calls:
`ops i` are all calls made up to then (newest first) and `m i` is the store after them. Any number of calls,
none included, can fall between two moments. The live chain is left open, so that the moment between the two
write batches of `update_checkpoints` is covered as well. -/
structure Moments (H : Hash) (a0 : State) (body : Option (List AggAtt)) (root : Root) (anchor : State)
    (see : Nat → Db) (ops : Nat → List Op) (m : Nat → Mem) : Prop where
  run : ∀ i, Run H a0 body root anchor (ops i) (m i)
  grow : ∀ i, ∃ later, ops (i + 1) = later ++ ops i
  apart : ∀ i, CollisionFree H anchor (ops i)
  see : ∀ i, see i = { (m i).db with liveChain := (see i).liveChain }

/-- The head only moves to descendants between the moments. -/
def NoReorg (see : Nat → Db) : Prop :=
  ∀ i, HAnc (see (i + 1)).headers (see i).head (see (i + 1)).head

end Verif.Race
