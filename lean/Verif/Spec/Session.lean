import Verif.Model.Session
import Verif.Spec.Pools
/-!
# Specification vocabulary for nodes that aggregate
-/
namespace Verif.Node
open Verif Verif.Db Verif.Sync Verif.Buffers Verif.Build

/-- Any sequence of events of an aggregating node (newest first), with everything it signed and every
aggregate it published (oldest first). -/
inductive ANRun (c : VCtx) (u : Subnets) (n : ANode) :
    List AEvent → ANode → List Signed → List Published → Prop
  | nil : ANRun c u n [] n [] []
  | step {evs : List AEvent} {m : ANode} {out : List Signed} {pub : List Published} {ev : AEvent}
      {m' : ANode} {l : List Signed} {p : List Published} : ANRun c u n evs m out pub →
      m.step c u ev = .ok (m', l, p) → ANRun c u n (ev :: evs) m' (out ++ l) (pub ++ p)

/-- A node that just started from the anchor `a0`: no session, no worker, no message. -/
structure ANode.Fresh (n : ANode) (c : VCtx) (a0 : State) (body : Option (List AggAtt)) : Prop where
  init : Actor.init c.ctx a0 body = .ok n.node.actor
  current : n.current = none
  workers : n.workers = []
  mail : n.mail = []

/-- What an event brings from outside. -/
def AEvent.outer : AEvent → Option Event
  | .block sb => some (.block sb)
  | .attestation v d sig _ agg => some (.attestation v d sig agg)
  | .aggregate d a => some (.aggregate d a)
  | .restart => some .restart
  | _ => none

/-- The block came from outside or was made by the node. -/
def Brought (evs : List AEvent) (out : List Signed) (sb : SignedBlock) : Prop :=
  AEvent.block sb ∈ evs ∨ ∃ vid slot root r, Signed.block vid slot root (some (sb, r)) ∈ out

/-- The vote came from outside, in a block, alone or in an aggregate, or was cast by the node. -/
def VoteIn (evs : List AEvent) (out : List Signed) (d : AttData) : Prop :=
  (∃ sb, Brought evs out sb ∧ ∃ a ∈ sb.block.body, a.data = d) ∨
  (∃ v sig now agg, AEvent.attestation v d sig now agg ∈ evs) ∨ (∃ g, AEvent.aggregate d g ∈ evs) ∨
  ∃ v sig, Signed.vote v d (some sig) ∈ out

/-- The headers of the run: genesis, the blocks below the anchor, and the blocks brought. -/
def HeaderIn (H : Hash) (g : State) (bs : List Block) (evs : List AEvent) (out : List Signed)
    (h : Header) : Prop :=
  h = genesisHeader H g ∨ (∃ b ∈ bs, b.header H = h) ∨
    ∃ sb, Brought evs out sb ∧ sb.block.header H = h

/-- The hash function does not collide on the votes and block bodies of the run. -/
structure RunInjective (H : Hash) (evs : List AEvent) (out : List Signed) : Prop where
  votes : ∀ d d', VoteIn evs out d → VoteIn evs out d' → H.attData d = H.attData d' → d = d'
  bodies : ∀ l l', (l = [] ∨ ∃ sb, Brought evs out sb ∧ sb.block.body = l) →
    (l' = [] ∨ ∃ sb, Brought evs out sb ∧ sb.block.body = l') → H.body l = H.body l' → l = l'

/-- The wall clock does not go back. -/
def ClockForward (evs : List AEvent) : Prop := (evs.filterMap AEvent.time).Pairwise (· ≥ ·)

end Verif.Node
