import Verif.Model.Worker
/-!
# A slot of a node whose aggregator role may be off

The actor reads the role at every tick (`crates/blockchain/src/lib.rs` 330); the admin API may switch
it at any time. Without it the node files no signatures of its own (683-695) and starts no session
(419-434). Here the role is the same in the five ticks of a slot.
-/
namespace Verif.Node
open Verif Verif.Db Verif.Sync

/-- A slot in which the node is an aggregator (`agg`), or not. -/
def VNode.slotAs (c : VCtx) (agg : Bool) (n : VNode) (slot : Nat) (w : Times) :
    P (VNode × List Signed) :=
  match n.tick c w.publication agg with
  | .error e => .error e
  | .ok (n, l0) =>
  match n.tick c w.attestation agg with
  | .error e => .error e
  | .ok (n, l1) =>
  match n.tick c w.aggregation agg with
  | .error e => .error e
  | .ok (n, l2) =>
  match (if agg then n.session c slot else .ok (n, [])) with
  | .error e => .error e
  | .ok (n, _) =>
  match n.tick c w.safeTarget agg with
  | .error e => .error e
  | .ok (n, l3) =>
  match n.tick c w.endOfSlot agg with
  | .error e => .error e
  | .ok (n, l4) => .ok (n, l0 ++ l1 ++ l2 ++ l3 ++ l4)

end Verif.Node
