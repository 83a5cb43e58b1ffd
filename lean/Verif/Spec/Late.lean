import Verif.Spec.Fleet
import Verif.Spec.Safety
/-!
# Specification vocabulary for a network of nodes whose messages may be late

As in `Fleet`, every timer fires in time and every aggregator is done in time. The messages are late:
in every interval each node gets any of the messages published so far, in any order and any number of
times, and need never get some of them.
-/
namespace Verif.Node
open Verif Verif.Db Verif.Sync Verif.Buffers

section
variable {ι : Type}

/-- What can arrive at node `m` in interval `k`, `L` being what the nodes asked their keys to sign and
`O` the aggregates they published. A block is published when its slot begins. -/
inductive Sent (m : Site) (k : Nat) (L : ι → List Signed) (O : ι → List (AttData × Agg)) :
    Event → Prop
  | block {j : ι} {v s : Nat} {r : Root} {sb : SignedBlock} (time : 5 * s ≤ k)
      (h : Signed.block v s r (some (sb, .ok ())) ∈ L j) : Sent m k L O (.block sb)
  | vote {j : ι} {v : Nat} {d : AttData} {sig : Nat} (h : Signed.vote v d (some sig) ∈ L j) :
      Sent m k L O (.attestation v d sig m.aggregator)
  | aggregate {j : ι} {d : AttData} {a : Agg} (h : (d, a) ∈ O j) : Sent m k L O (.aggregate d a)

/-- The nodes started at genesis and `k` intervals (0.8 seconds) have passed. -/
inductive Late (X : Crypto) (H : Hash) (m : ι → Site) (t : Nat) (vals : List Validator) :
    Nat → (ι → VNode) → (ι → List Signed) → (ι → List (AttData × Agg)) → Prop
  | start {a : ι → Actor} (gate : ι → Bool)
      (init : ∀ i, Actor.init ((m i).ctx X H).ctx (State.fromGenesis H t vals) (some []) = .ok (a i)) :
      Late X H m t vals 0 (fun i => ⟨a i, Tracker.new (gate i)⟩) (fun _ => []) (fun _ => [])
  | next {k : Nat} {now : ι → Nat} {N N1 N2 N3 : ι → VNode} {L l : ι → List Signed}
      {O o : ι → List (AttData × Agg)} {e : ι → List Event} (h : Late X H m t vals k N L O)
      (clock : ∀ i, (now i - t * 1000) / 800 = k) (timers : Tick X H m now N N1 l)
      (sessions : if k % 5 = 2 then Sessions X H m (k / 5) N1 N2 o
        else N2 = N1 ∧ o = fun _ => [])
      (sent : ∀ i, ∀ x ∈ e i, Sent (m i) k (fun i => L i ++ l i) (fun i => O i ++ o i) x)
      (hear : Hear X H m e N2 N3) :
      Late X H m t vals (k + 1) N3 (fun i => L i ++ l i) (fun i => O i ++ o i)

/-- The block `a` is `b` or an ancestor of it, going by the blocks the nodes made. -/
inductive Under (H : Hash) (g : State) (L : ι → List Signed) (a : Root) : Root → Prop
  | self : Under H g L a a
  | up {h : Header} (i : ι) (made : MadeHeader H g (L i) h) (parent : Under H g L a h.parentRoot) :
      Under H g L a (H.header h)

/-- No two nodes have finalized blocks of different branches. -/
def Agree (H : Hash) (g : State) (N : ι → VNode) (L : ι → List Signed) : Prop :=
  ∀ i j, Under H g L (N i).actor.store.mem.db.finalized.root (N j).actor.store.mem.db.finalized.root ∨
    Under H g L (N j).actor.store.mem.db.finalized.root (N i).actor.store.mem.db.finalized.root

/-- No validator signed two votes that together are a Casper offence. -/
def Consistent (L : ι → List Signed) : Prop :=
  ∀ i j v d d' sig sig', Signed.vote v d sig ∈ L i → Signed.vote v d' sig' ∈ L j → ¬ Slashable d d'

/-- No node has taken its head away from a branch: all the blocks the nodes made are on one chain. -/
def OneChain (H : Hash) (g : State) (L : ι → List Signed) : Prop :=
  ∀ i j h h', MadeHeader H g (L i) h → MadeHeader H g (L j) h' →
    Under H g L (H.header h) (H.header h') ∨ Under H g L (H.header h') (H.header h)

end
end Verif.Node
