import Verif.Model.Signatures
import Verif.Model.Aggregation
import Verif.Model.Actor
import Verif.Spec.Store
import Verif.Spec.Actor
/-!
# Specification vocabulary for what arrives at a node
-/
namespace Verif.Node
open Verif Verif.Db Verif.Buffers Verif.Build

/-- The vote `d` arrived, in a block, as a gossiped vote or in a gossiped aggregate. -/
def Occurs (evs : List Event) (d : AttData) : Prop :=
  (∃ sb, Arrived evs sb ∧ ∃ a ∈ sb.block.body, a.data = d) ∨
  (∃ v sig agg, Event.attestation v d sig agg ∈ evs) ∨ ∃ g, Event.aggregate d g ∈ evs

/-- This list of attestations is the body of a block that arrived, or empty. -/
def BodyIn (evs : List Event) (l : List AggAtt) : Prop :=
  l = [] ∨ ∃ sb, Arrived evs sb ∧ sb.block.body = l

/-- The hash function does not collide on the votes and block bodies that arrived. -/
structure NoCollision (H : Hash) (evs : List Event) : Prop where
  votes : ∀ d d', Occurs evs d → Occurs evs d' → H.attData d = H.attData d' → d = d'
  bodies : ∀ l l', BodyIn evs l → BodyIn evs l' → H.body l = H.body l' → l = l'

/-- The aggregates the node publishes itself are the outputs of its aggregation worker, run with the
prover `prove` on jobs snapshotted earlier in the same execution. -/
def OwnMade (X : Crypto) (c : Ctx) (prove : List Validator → Job → Option Nat) (a0 : State)
    (body : Option (List AggAtt)) (evs : List Event) : Prop :=
  ∀ d g keys evs1, Event.ownAggregate d g keys :: evs1 <:+ evs →
    ∃ evs0 a1 st known slot n jobs j out, evs0 <:+ evs1 ∧ AReach c a0 body evs0 a1 ∧
      (∃ m, Db.getState a1.store.mem a1.store.mem.db.head = .ok (some st, m)) ∧
      snapshotJobs c.E.H (fun b => (X.decodeKey b).isSome) st a1.store.mem.db.head known
        ⟨a1.store.gossip, a1.store.newP, a1.store.knownP⟩ slot n = some jobs ∧
      j ∈ jobs ∧ aggregateJob (prove st.validators) j = .ok (some out) ∧
      out.data = d ∧ out.proof = g

/-- The signature is valid under the validator's attestation key. -/
def ValidSig (X : Crypto) (H : Hash) (vals : List Validator) (v : Nat) (d : AttData) (sig : Nat) :
    Prop :=
  ∃ val k sg, vals[v]? = some val ∧ X.decodeKey val.attestationPubkey = some k ∧
    X.decodeSig sig = some sg ∧ X.xmss k d.slot (H.attData d) sg = true

/-- Distinct validators have distinct attestation keys. -/
def KeysDistinct (X : Crypto) (vals : List Validator) : Prop :=
  ∀ (v w : Nat) (x y : Validator) (k : Nat), vals[v]? = some x → vals[w]? = some y →
    X.decodeKey x.attestationPubkey = some k → X.decodeKey y.attestationPubkey = some k → v = w

/-- Every block that arrives more than once arrives with the same proof. -/
def OneCopy (evs : List Event) : Prop :=
  ∀ sb sb', Arrived evs sb → Arrived evs sb' → sb.block = sb'.block → sb = sb'

end Verif.Node
