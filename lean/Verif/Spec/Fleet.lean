import Verif.Spec.Solo
import Verif.Model.Reaggregate
/-!
# Specification vocabulary for a network of nodes whose messages arrive in time

The nodes are indexed by `ι`. In every interval all timers fire, in any order, and then the messages
sent in that interval arrive, in any order and any number of times, before the next timers fire. A
block is made at the end of a slot and is published when the next one begins (`propose_block`,
`crates/blockchain/src/lib.rs` 718-898, sleeps until then).
-/
namespace Verif.Node
open Verif Verif.Db Verif.Sync Verif.Buffers

/-- What a node has of its own; see `VCtx`. -/
structure Site where
  order : List Root → List Root
  /-- Whether it looks for votes in an imported block (`lib.rs` 1130). -/
  recovers : Store → SignedBlock → Bool
  ord : Root → List Nat → List Nat
  config : Build.Config
  ids : List Nat
  sign : Nat → AttData → Option Nat
  signBlock : Nat → Nat → Root → Option Nat
  aggregator : Bool

/-- The parameters of a node. -/
abbrev Site.ctx (X : Crypto) (H : Hash) (m : Site) : VCtx where
  X := X
  H := H
  order := m.order
  reagg s sb := if m.recovers s sb then reaggregate X H s sb else []
  ord := m.ord
  config := m.config
  ids := m.ids
  sign := m.sign
  signBlock := m.signBlock

/-- Messages arrive one after the other. -/
def VNode.hear (c : VCtx) : VNode → List Event → P VNode
  | n, [] => .ok n
  | n, e :: es =>
    match n.step c (.other e) with
    | .error x => .error x
    | .ok (n, _) => VNode.hear c n es

section
variable {ι : Type}

/-- `e i` are blocks of slot `s` that some node published, and all those of other nodes, in any order
and any number of times. -/
structure BlocksReach (s : Nat) (L : ι → List Signed) (e : ι → List Event) : Prop where
  sent : ∀ i, ∀ x ∈ e i, ∃ j v r sb, x = .block sb ∧ Signed.block v s r (some (sb, .ok ())) ∈ L j
  arrive : ∀ i j, j ≠ i → ∀ v r sb, Signed.block v s r (some (sb, .ok ())) ∈ L j →
    Event.block sb ∈ e i

/-- The same for votes; those that do not aggregate may miss some. -/
structure VotesReach (m : ι → Site) (l : ι → List Signed) (e : ι → List Event) : Prop where
  sent : ∀ i, ∀ x ∈ e i, ∃ j v d sig, x = .attestation v d sig (m i).aggregator ∧
    Signed.vote v d (some sig) ∈ l j
  arrive : ∀ i, (m i).aggregator = true → ∀ j, j ≠ i → ∀ v d sig,
    Signed.vote v d (some sig) ∈ l j → Event.attestation v d sig true ∈ e i

/-- The same for aggregates. -/
structure AggregatesReach (o : ι → List (AttData × Agg)) (e : ι → List Event) : Prop where
  sent : ∀ i, ∀ x ∈ e i, ∃ j d a, x = .aggregate d a ∧ (d, a) ∈ o j
  arrive : ∀ i j, j ≠ i → ∀ d a, (d, a) ∈ o j → Event.aggregate d a ∈ e i

/-- All timers fire. -/
def Tick (X : Crypto) (H : Hash) (m : ι → Site) (now : ι → Nat) (N N' : ι → VNode)
    (l : ι → List Signed) : Prop :=
  ∀ i, (N i).tick ((m i).ctx X H) (now i) (m i).aggregator = .ok (N' i, l i)

/-- All nodes get messages. -/
def Hear (X : Crypto) (H : Hash) (m : ι → Site) (e : ι → List Event) (N N' : ι → VNode) : Prop :=
  ∀ i, (N i).hear ((m i).ctx X H) (e i) = .ok (N' i)

/-- The aggregators aggregate. -/
def Sessions (X : Crypto) (H : Hash) (m : ι → Site) (s : Nat) (N N' : ι → VNode)
    (o : ι → List (AttData × Agg)) : Prop :=
  ∀ i, if (m i).aggregator then (N i).session ((m i).ctx X H) s = .ok (N' i, o i)
    else N' i = N i ∧ o i = []

/-- A slot begins: the publication timers fire and the blocks of the slot arrive at all other nodes.
`L` is what the nodes asked their keys to sign so far, `l` what they ask now. -/
inductive Opens (X : Crypto) (H : Hash) (m : ι → Site) (s : Nat) (w : ι → Times)
    (L : ι → List Signed) (N : ι → VNode) : (ι → VNode) → (ι → List Signed) → Prop
  | mk {N1 N2 : ι → VNode} {l : ι → List Signed} {e : ι → List Event}
      (publication : Tick X H m (fun i => (w i).publication) N N1 l)
      (reach : BlocksReach s L e) (blocks : Hear X H m e N1 N2) :
      Opens X H m s w L N N2 l

/-- The rest of a slot: the nodes vote, and all votes arrive at the aggregators; these aggregate, and
the aggregates arrive at all other nodes; the safe target is updated; the votes are accepted and the
next block is made. -/
inductive Closes (X : Crypto) (H : Hash) (m : ι → Site) (s : Nat) (w : ι → Times) (N : ι → VNode) :
    (ι → VNode) → (ι → List Signed) → Prop
  | mk {N1 N2 N3 N4 N5 N6 N7 : ι → VNode} {l1 l3 l6 l7 : ι → List Signed}
      {o : ι → List (AttData × Agg)} {e e' : ι → List Event}
      (attestation : Tick X H m (fun i => (w i).attestation) N N1 l1)
      (reach : VotesReach m l1 e) (votes : Hear X H m e N1 N2)
      (aggregation : Tick X H m (fun i => (w i).aggregation) N2 N3 l3)
      (sessions : Sessions X H m s N3 N4 o)
      (reach' : AggregatesReach o e') (aggregates : Hear X H m e' N4 N5)
      (safeTarget : Tick X H m (fun i => (w i).safeTarget) N5 N6 l6)
      (endOfSlot : Tick X H m (fun i => (w i).endOfSlot) N6 N7 l7) :
      Closes X H m s w N N7 (fun i => l1 i ++ l3 i ++ l6 i ++ l7 i)

/-- Nothing fails in the rest of slot `s` and when the next one begins, in whatever order the messages
arrive. -/
def Continues (X : Crypto) (H : Hash) (m : ι → Site) (s : Nat) (w w' : ι → Times) (N : ι → VNode)
    (L : ι → List Signed) : Prop :=
  ∃ N1 l1, Tick X H m (fun i => (w i).attestation) N N1 l1 ∧ ∀ e, VotesReach m l1 e →
  ∃ N2 N3 l3 N4 o, Hear X H m e N1 N2 ∧ Tick X H m (fun i => (w i).aggregation) N2 N3 l3 ∧
    Sessions X H m s N3 N4 o ∧ ∀ e', AggregatesReach o e' →
  ∃ N5 N6 l6 N7 l7 N8 l8, Hear X H m e' N4 N5 ∧
    Tick X H m (fun i => (w i).safeTarget) N5 N6 l6 ∧
    Tick X H m (fun i => (w i).endOfSlot) N6 N7 l7 ∧
    Tick X H m (fun i => (w' i).publication) N7 N8 l8 ∧
    ∀ e'', BlocksReach (s + 1) (fun i => L i ++ (l1 i ++ l3 i ++ l6 i ++ l7 i)) e'' →
  ∃ N9, Hear X H m e'' N8 N9

/-- The nodes started at genesis and slot `s` has begun; `L` is what they asked their keys to sign. -/
inductive Fleet (X : Crypto) (H : Hash) (m : ι → Site) (t : Nat) (vals : List Validator) :
    Nat → (ι → VNode) → (ι → List Signed) → Prop
  | start {a : ι → Actor} {w : ι → Times} {N : ι → VNode} {l : ι → List Signed} (gate : ι → Bool)
      (init : ∀ i, Actor.init ((m i).ctx X H).ctx (State.fromGenesis H t vals) (some []) = .ok (a i))
      (time : ∀ i, OnTime t 0 (w i))
      (begins : Opens X H m 0 w (fun _ => []) (fun i => ⟨a i, Tracker.new (gate i)⟩) N l) :
      Fleet X H m t vals 0 N l
  | next {s : Nat} {w w' : ι → Times} {N N1 N2 : ι → VNode} {L l l' : ι → List Signed}
      (h : Fleet X H m t vals s N L) (time : ∀ i, OnTime t s (w i))
      (ends : Closes X H m s w N N1 l) (time' : ∀ i, OnTime t (s + 1) (w' i))
      (begins : Opens X H m (s + 1) w' (fun i => L i ++ l i) N1 N2 l') :
      Fleet X H m t vals (s + 1) N2 (fun i => L i ++ l i ++ l' i)

/-- The hash functions behave on what the nodes made; see `Clean`. -/
structure AllClean (H : Hash) (t : Nat) (vals : List Validator) (L : ι → List Signed) : Prop where
  headerNZ : ∀ h, H.header h ≠ 0
  stateNZ : ∀ s, H.state s ≠ 0
  headers : ∀ a b, (∃ i, MadeHeader H (State.fromGenesis H t vals) (L i) a) →
    (∃ i, MadeHeader H (State.fromGenesis H t vals) (L i) b) → H.header a = H.header b → a = b
  acyclic : ∃ rank : Root → Nat, ∀ h, (∃ i, MadeHeader H (State.fromGenesis H t vals) (L i) h) →
    rank h.parentRoot < rank (H.header h)
  votes : ∀ d d', (∃ i, VoteSigned (L i) d) → (∃ i, VoteSigned (L i) d') →
    H.attData d = H.attData d' → d = d'

/-- Hash functions without collisions. -/
structure Ideal (H : Hash) : Prop where
  headerNZ : ∀ h, H.header h ≠ 0
  stateNZ : ∀ s, H.state s ≠ 0
  headers : ∀ a b, H.header a = H.header b → a = b
  acyclic : ∃ rank : Root → Nat, ∀ h, rank h.parentRoot < rank (H.header h)
  votes : ∀ d d', H.attData d = H.attData d' → d = d'

/-- Every validator belongs to exactly one node, all nodes work, and some of them aggregate. -/
structure Manned (X : Crypto) (H : Hash) (m : ι → Site) (vals : List Validator) : Prop where
  able : ∀ i, Able ((m i).ctx X H) vals
  all : ∀ v, v < vals.length → ∃ i, v ∈ (m i).ids
  one : ∀ v i j, v ∈ (m i).ids → v ∈ (m j).ids → i = j
  aggregates : ∃ i, (m i).aggregator = true

/-- Every validator voted in every slot before `s`, and in every slot from 1 to `s` the validator
whose turn it was made a block of that slot, which its node imported. -/
def AllServed (vals : List Validator) (s : Nat) (L : ι → List Signed) : Prop :=
  (∀ k, k < s → ∀ v, v < vals.length →
    ∃ i d sig, d.slot = k ∧ Signed.vote v d (some sig) ∈ L i) ∧
  (∀ k, 1 ≤ k → k ≤ s → ∃ i r sb, sb.block.slot = k ∧
    Signed.block (k % vals.length) k r (some (sb, .ok ())) ∈ L i)

end
end Verif.Node
