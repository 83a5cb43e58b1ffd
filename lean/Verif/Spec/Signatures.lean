import Verif.Model.Signatures
import Verif.Spec.Chain
import Mathlib.Data.List.Forall2
/-!
# Specification vocabulary for signatures
-/
namespace Verif.Node
open Verif Verif.Db Verif.Buffers

/-- What it means for the primitives to be unforgeable, for any notion `Signs k m s` of "the holder
of key `k` signed message `m` for slot `s`": whatever passes a check was signed by every key it was
checked against, for the message and slot it binds. -/
structure Sound (X : Crypto) (Signs : Nat → Root → Nat → Prop) : Prop where
  one : ∀ k s m sig, X.xmss k s m sig = true → Signs k m s
  single : ∀ p ks m s, X.info1 p ks = some (m, s) → X.check1 p ks = true → ∀ k ∈ ks, Signs k m s
  multi : ∀ (p : Nat) (kss : List (List Nat)) (info : List (Root × Nat)), X.info2 p kss = some info →
    X.check2 p kss = true → ∀ (i : Nat) (ks : List Nat) (b : Root × Nat), kss[i]? = some ks →
      info[i]? = some b → ∀ k ∈ ks, Signs k b.1 b.2

/-- The key with these bytes decodes, and its holder signed `m` for slot `s`. -/
def SignedBy (X : Crypto) (Signs : Nat → Root → Nat → Prop) (bytes : Nat) (m : Root) (s : Nat) :
    Prop := ∃ k, X.decodeKey bytes = some k ∧ Signs k m s

/-- Validator `v` signed the vote `d` with its attestation key. -/
def SignedVote (X : Crypto) (H : Hash) (Signs : Nat → Root → Nat → Prop) (vals : List Validator)
    (v : Nat) (d : AttData) : Prop :=
  ∃ val, vals[v]? = some val ∧ SignedBy X Signs val.attestationPubkey (H.attData d) d.slot

/-- The proposer named by the block signed its root with its proposal key. -/
def SignedProposal (X : Crypto) (H : Hash) (Signs : Nat → Root → Nat → Prop)
    (vals : List Validator) (b : Block) : Prop :=
  ∃ val, vals[b.proposerIndex]? = some val ∧
    SignedBy X Signs val.proposalPubkey (b.root H) b.slot

/-- The keys a vote aggregate in a block has to be checked against: the attestation keys of exactly
the validators whose bit is set, in order of their index. -/
def VoteKeys (X : Crypto) (vals : List Validator) (a : AggAtt) (ks : List Nat) : Prop :=
  List.Forall₂ (fun v k => ∃ val, vals[v]? = some val ∧ X.decodeKey val.attestationPubkey = some k)
    ((List.range a.bits.length).filter (fun v => a.bits[v]? == some true)) ks

/-- The block's proof is a valid proof of: per attestation of the body, its participants'
attestation keys signing its data for its slot, then the proposer's proposal key signing the block
root for the block's slot. -/
def ProofOf (X : Crypto) (H : Hash) (vals : List Validator) (sb : SignedBlock) : Prop :=
  ∃ kss val k, List.Forall₂ (VoteKeys X vals) sb.block.body kss ∧
    vals[sb.block.proposerIndex]? = some val ∧ X.decodeKey val.proposalPubkey = some k ∧
    X.info2 sb.proof (kss ++ [[k]]) = some
      (sb.block.body.map (fun a => (H.attData a.data, a.data.slot)) ++
        [(sb.block.root H, sb.block.slot)]) ∧
    X.check2 sb.proof (kss ++ [[k]]) = true

/-- The node's signer for validator `v` uses the proposal key registered for it: what it signs is
valid under that key. -/
def SignsWith (X : Crypto) (vals : List Validator) (v : Nat) (sign : Nat → Nat → Root → Option Nat) :
    Prop :=
  ∀ s m raw sig val k, sign v s m = some raw → X.decodeSig raw = some sig → vals[v]? = some val →
    X.decodeKey val.proposalPubkey = some k → X.xmss k s m sig = true

/-- The proof is valid for the keys and binds message and slot. -/
def Valid1 (X : Crypto) (p : Nat) (ks : List Nat) (b : Root × Nat) : Prop :=
  X.info1 p ks = some b ∧ X.check1 p ks = true

/-- The aggregate is a valid proof that exactly its participants voted for `d`. -/
def ValidAgg (X : Crypto) (H : Hash) (vals : List Validator) (d : AttData) (g : Agg) : Prop :=
  ∃ ks, VoteKeys X vals ⟨g.participants, d⟩ ks ∧ Valid1 X g.proof ks (H.attData d, d.slot)

/-- What it means for the provers to be complete: an aggregate made from valid aggregates and valid
raw signatures for the same message and slot is valid for all their keys together, provided that no
key is used both raw and in a child, or twice raw; a merge of valid aggregates is valid for the same
keys and bindings; a component split out of a valid merged proof is valid for its keys and binding. -/
structure Complete (X : Crypto) : Prop where
  single : ∀ (l : List (List Nat × Nat)) (raw : List (Nat × Nat)) (m : Root) (s p : Nat),
    (∀ x ∈ l, Valid1 X x.2 x.1 (m, s)) → (∀ x ∈ raw, X.xmss x.1 s m x.2 = true) →
    (raw.map Prod.fst).Nodup → (∀ x ∈ raw, ∀ y ∈ l, x.1 ∉ y.1) →
    X.prove1 l raw m s = some p →
    ∀ ks, (∀ k, k ∈ ks ↔ (∃ x ∈ l, k ∈ x.1) ∨ ∃ x ∈ raw, k = x.1) → Valid1 X p ks (m, s)
  multi : ∀ (l : List (List Nat × Nat)) (bs : List (Root × Nat)) (p : Nat),
    List.Forall₂ (fun x b => Valid1 X x.2 x.1 b) l bs → X.prove2 l = some p →
    X.info2 p (l.map Prod.fst) = some bs ∧ X.check2 p (l.map Prod.fst) = true
  split : ∀ (p : Nat) (kss : List (List Nat)) (info : List (Root × Nat)) (i q : Nat) (ks : List Nat)
    (b : Root × Nat), X.info2 p kss = some info → X.check2 p kss = true → kss[i]? = some ks →
    info[i]? = some b → X.split p kss i = some q → Valid1 X q ks b

/-- The provers do not fail on valid inputs. -/
structure Live (X : Crypto) : Prop where
  single : ∀ (l : List (List Nat × Nat)) (raw : List (Nat × Nat)) (m : Root) (s : Nat),
    (∀ x ∈ l, Valid1 X x.2 x.1 (m, s)) → (∀ x ∈ raw, X.xmss x.1 s m x.2 = true) →
    (raw.map Prod.fst).Nodup → (∀ x ∈ raw, ∀ y ∈ l, x.1 ∉ y.1) → X.prove1 l raw m s ≠ none
  multi : ∀ (l : List (List Nat × Nat)) (bs : List (Root × Nat)),
    List.Forall₂ (fun x b => Valid1 X x.2 x.1 b) l bs → X.prove2 l ≠ none

/-- The signer has a key for validator `v`, and the key registered for it decodes. -/
structure CanSign (X : Crypto) (vals : List Validator) (v : Nat)
    (sign : Nat → Nat → Root → Option Nat) : Prop where
  sign : ∀ s m, ∃ raw sig, sign v s m = some raw ∧ X.decodeSig raw = some sig
  key : ∀ val, vals[v]? = some val → ∃ k, X.decodeKey val.proposalPubkey = some k

end Verif.Node
