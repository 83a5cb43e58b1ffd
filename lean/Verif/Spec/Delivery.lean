import Verif.Spec.Actor

/-
Vocabulary for C39: blocks that can be imported.
-/

namespace Verif.Node
open Verif Verif.Db

/-- `sb` is a valid block on top of the state `p`: all the checks of `on_block_core` except the clock
(store.rs 603-664) pass. -/
structure ValidOn (E : Env) (p : State) (sb : SignedBlock) : Prop where
  gap : sb.block.slot - p.slot ≤ historicalRootsLimit
  nodup : (sb.block.body.map AggAtt.data).Nodup
  few : sb.block.body.length ≤ maxAttestationsData
  signature : E.verifyBlock p sb = true
  transition : ∃ st, importState E.H p sb.block = .ok st

end Verif.Node
