import Verif.Model.Store
/-!
# Signature verification and proof assembly

`verify_block_signatures` (`crates/blockchain/src/store.rs` 1126-1225), the wrappers of
`crates/common/crypto/src/lib.rs`, and the assembly of a block's proof in `propose_block`
(`crates/blockchain/src/lib.rs` 760-872). The primitives of `leansig` and `lean-multisig` (outside
this repository) are the fields of `Crypto`. Byte strings and decoded keys are numbers; slots are
numbers with the conversion to `u32` explicit. Not modelled: timing, logging, and the
`shadow-integration` feature, which skips all verification.
-/
namespace Verif.Node
open Verif Verif.Db Verif.Buffers

/-- The primitives. A decoded proof carries the `(message, slot)` it binds per component. -/
structure Crypto where
  /-- `ValidatorPublicKey::from_bytes`. -/
  decodeKey : Nat → Option Nat
  /-- `ValidatorSignature::from_bytes`. -/
  decodeSig : Nat → Option Nat
  /-- `ValidatorSignature::is_valid`: key, slot, message, signature. -/
  xmss : Nat → Nat → Root → Nat → Bool
  /-- `SingleMessageAggregateSignature::decompress_without_pubkeys`. -/
  info1 : Nat → List Nat → Option (Root × Nat)
  /-- `verify_single_message_aggregate` on the decompressed proof. -/
  check1 : Nat → List Nat → Bool
  /-- `MultiMessageAggregateSignature::decompress_without_pubkeys`. -/
  info2 : Nat → List (List Nat) → Option (List (Root × Nat))
  /-- `verify_multi_message_aggregate` on the decompressed proof. -/
  check2 : Nat → List (List Nat) → Bool
  /-- `aggregate_single_message_signatures`, with decompression of the children (keys and proof)
  and compression of the result; then the raw keys and signatures, message and slot. -/
  prove1 : List (List Nat × Nat) → List (Nat × Nat) → Root → Nat → Option Nat
  /-- `merge_single_message_aggregates`, with decompression and compression. -/
  prove2 : List (List Nat × Nat) → Option Nat
  /-- `split_multi_message_aggregate` on the decompressed proof, with compression. -/
  split : Nat → List (List Nat) → Nat → Option Nat

/-- `StoreError` and `VerificationError`, the variants that occur here. -/
inductive SigErr
  | attesterRange (v : Nat) | proposerRange (v : Nat) | pubkey (v : Nat) | slotRange (s : Nat)
  | count | deserialize | binding | proof
  deriving DecidableEq, Repr

/-- `u32::try_from`. -/
def toU32 (s : Nat) : Except SigErr Nat := if s < 2 ^ 32 then .ok s else .error (.slotRange s)

/-- `verify_aggregated_signature` (`crypto` 318-349). -/
def verifyType1 (X : Crypto) (proof : Nat) (keys : List Nat) (msg : Root) (slot : Nat) :
    Except SigErr Unit :=
  match X.info1 proof keys with
  | none => .error .deserialize
  | some (m, s) =>
    if m ≠ msg ∨ s ≠ slot then .error .binding
    else if X.check1 proof keys then .ok () else .error .proof

/-- The loop over the bindings (`crypto` 440-455): each expected one against the one carried. -/
def bindingsMatch : List (Root × Nat) → List (Root × Nat) → Bool
  | e :: es, i :: is => if i.1 ≠ e.1 ∨ i.2 ≠ e.2 then false else bindingsMatch es is
  | _, _ => true

/-- `verify_type_2_signature` (`crypto` 405-459). -/
def verifyType2 (X : Crypto) (proof : Nat) (keys : List (List Nat)) (expected : List (Root × Nat)) :
    Except SigErr Unit :=
  if expected.length ≠ keys.length then .error .count
  else match X.info2 proof keys with
    | none => .error .deserialize
    | some info =>
      if info.length ≠ expected.length then .error .count
      else if ¬ bindingsMatch expected info = true then .error .binding
      else if X.check2 proof keys then .ok () else .error .proof

/-- The first participant out of range (`store.rs` 1143-1152). -/
def boundsCheck (n : Nat) : List AggAtt → Except SigErr Unit
  | [] => .ok ()
  | a :: as =>
    match (validatorIndices a.bits).find? (fun v => decide (v ≥ n)) with
    | some v => .error (.attesterRange v)
    | none => boundsCheck n as

/-- The attestation keys of the participants (`store.rs` 1176-1187). -/
def attestationKeys (X : Crypto) (vals : List Validator) : List Nat → Except SigErr (List Nat)
  | [] => .ok []
  | v :: vs =>
    match vals[v]? with
    | none => .error (.attesterRange v)
    | some val =>
      match X.decodeKey val.attestationPubkey with
      | none => .error (.pubkey v)
      | some k =>
        match attestationKeys X vals vs with
        | .error e => .error e
        | .ok ks => .ok (k :: ks)

/-- Keys and bindings of the attestations (`store.rs` 1174-1192). -/
def attestationComponents (X : Crypto) (H : Hash) (vals : List Validator) :
    List AggAtt → Except SigErr (List (List Nat) × List (Root × Nat))
  | [] => .ok ([], [])
  | a :: as =>
    match attestationKeys X vals (validatorIndices a.bits) with
    | .error e => .error e
    | .ok ks =>
      match toU32 a.data.slot with
      | .error e => .error e
      | .ok s =>
        match attestationComponents X H vals as with
        | .error e => .error e
        | .ok (kss, bs) => .ok (ks :: kss, (H.attData a.data, s) :: bs)

/-- `verify_block_signatures` (`store.rs` 1126-1225). -/
def verifyBlockSignatures (X : Crypto) (H : Hash) (st : State) (sb : SignedBlock) :
    Except SigErr Unit :=
  let b := sb.block
  match boundsCheck st.validators.length b.body with
  | .error e => .error e
  | .ok () =>
  if b.proposerIndex ≥ st.validators.length then .error (.proposerRange b.proposerIndex)
  else
  match attestationComponents X H st.validators b.body with
  | .error e => .error e
  | .ok (kss, bs) =>
  match st.validators[b.proposerIndex]? with
  | none => .error (.proposerRange b.proposerIndex)
  | some val =>
  match X.decodeKey val.proposalPubkey with
  | none => .error (.pubkey b.proposerIndex)
  | some k =>
  match toU32 b.slot with
  | .error e => .error e
  | .ok s => verifyType2 X sb.proof (kss ++ [[k]]) (bs ++ [(b.root H, s)])

/-- A `Result` as a boolean. -/
def accepted (r : Except SigErr Unit) : Bool :=
  match r with
  | .ok () => true
  | .error _ => false

/-- Decode all keys; `none` if one fails. -/
def decodeAll (X : Crypto) : List Nat → Option (List Nat)
  | [] => some []
  | b :: bs =>
    match X.decodeKey b with
    | none => none
    | some k =>
      match decodeAll X bs with
      | none => none
      | some ks => some (k :: ks)

/-- The checks of the store in terms of the primitives: `verify_block_signatures`,
`on_gossip_attestation` (`store.rs` 417-441) and `on_gossip_aggregated_attestation` (518-545). A
slot beyond `u32` panics there (431, 531) and cannot pass `validate_attestation_data` before the
year 2500; here it is refused. -/
def envOf (X : Crypto) (H : Hash) : Env where
  H := H
  verifyBlock st sb := accepted (verifyBlockSignatures X H st sb)
  keyOk b := (X.decodeKey b).isSome
  verifySig b slot msg sig :=
    match X.decodeKey b, X.decodeSig sig with
    | some k, some s => decide (slot < 2 ^ 32) && X.xmss k slot msg s
    | _, _ => false
  verifyAgg a bs msg slot :=
    match decodeAll X bs with
    | some ks => decide (slot < 2 ^ 32) && accepted (verifyType1 X a.proof ks msg slot)
    | none => false

/-! ## Assembling the proof of a block -/

/-- `aggregate_signatures` (`crypto` 153-194). -/
def aggregateSignatures (X : Crypto) (keys sigs : List Nat) (msg : Root) (slot : Nat) :
    Option Nat :=
  if keys.length ≠ sigs.length then none
  else if keys.isEmpty then none
  else X.prove1 [] (keys.zip sigs) msg slot

/-- `merge_type_1s_into_type_2` (`crypto` 363-397). -/
def mergeType1s (X : Crypto) (l : List (List Nat × Nat)) : Option Nat :=
  if l.isEmpty then none else X.prove2 l

/-- The merge inputs of the attestations (`lib.rs` 806-836): the keys of each aggregate's
participants and its proof. -/
def mergeInputs (X : Crypto) (vals : List Validator) : List Agg → Option (List (List Nat × Nat))
  | [] => some []
  | a :: as =>
    match attestationKeys X vals (validatorIndices a.participants) with
    | .error _ => none
    | .ok ks =>
      match mergeInputs X vals as with
      | none => none
      | some l => some ((ks, a.proof) :: l)

/-- `aggregate_proofs` (`crypto` 268-311). -/
def aggregateProofs (X : Crypto) (l : List (List Nat × Nat)) (msg : Root) (slot : Nat) :
    Option Nat :=
  if l.length < 2 then none else X.prove1 l [] msg slot

/-- `aggregate_mixed` (`crypto` 205-262), raw keys and signatures already paired. -/
def aggregateMixed (X : Crypto) (l : List (List Nat × Nat)) (raw : List (Nat × Nat)) (msg : Root)
    (slot : Nat) : Option Nat :=
  if raw.isEmpty ∧ l.length < 2 then none else X.prove1 l raw msg slot

/-- `split_type_2_by_message` (`crypto` 468-508): exactly one component must carry the message. -/
def splitByMessage (X : Crypto) (proof : Nat) (keys : List (List Nat)) (msg : Root) : Option Nat :=
  match X.info2 proof keys with
  | none => none
  | some info =>
    match (List.range info.length).filter (fun i => (info[i]?.map Prod.fst) == some msg) with
    | [i] => X.split proof keys i
    | _ => none

/-- The merging of proofs with equal data in `compact_attestations`
(`crates/blockchain/src/block_builder.rs` 661-685). The conversion of the slot (683) panics from
`2^32` on; here it fails. -/
def mergeProofs (X : Crypto) (H : Hash) (vals : List Validator) (d : AttData) (aggs : List Agg) :
    Option Nat :=
  match mergeInputs X vals aggs with
  | none => none
  | some l => if d.slot < 2 ^ 32 then aggregateProofs X l (H.attData d) d.slot else none

/-- The proof of a freshly built block (`lib.rs` 760-866): `head` is the head state, `sign` is
`sign_block_root`, `aggs` the aggregates the builder selected. `slot as u32` truncates. -/
def assembleProof (X : Crypto) (H : Hash) (head : State) (sign : Nat → Nat → Root → Option Nat)
    (slot vid : Nat) (b : Block) (aggs : List Agg) : Option SignedBlock :=
  let root := b.root H
  match sign vid (slot % 2 ^ 32) root with
  | none => none
  | some raw =>
  match head.validators[vid]? with
  | none => none
  | some val =>
  match X.decodeKey val.proposalPubkey with
  | none => none
  | some k =>
  match X.decodeSig raw with
  | none => none
  | some sig =>
  match aggregateSignatures X [k] [sig] root (slot % 2 ^ 32) with
  | none => none
  | some p =>
  match mergeInputs X head.validators aggs with
  | none => none
  | some l =>
  match mergeType1s X (l ++ [([k], p)]) with
  | none => none
  | some proof => some { block := b, proof := proof }

end Verif.Node
