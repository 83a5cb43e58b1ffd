import Verif.Model.Ssz

/-
What the values of the network types are (ranges of the Rust types) and which bytes stand for a signed block, without
reference to the encoder.
-/

namespace Verif.Ssz

open Verif.Net (Bytes)

/-! ### Ranges of the types -/

/-- A 32 byte root and a `u64`. -/
def CpOk (c : Checkpoint) : Prop := c.root < 2 ^ 256 ∧ c.slot < 2 ^ 64

def DataOk (d : AttData) : Prop := d.slot < 2 ^ 64 ∧ CpOk d.head ∧ CpOk d.target ∧ CpOk d.source

/-- At most 4096 bits (attestation.rs 117). -/
def AttOk (a : AggAtt) : Prop := a.bits.length ≤ 4096 ∧ DataOk a.data

/-- At most 4096 attestations (block.rs 254). -/
def BlockOk (b : Block) : Prop :=
  b.slot < 2 ^ 64 ∧ b.proposerIndex < 2 ^ 64 ∧ b.parentRoot < 2 ^ 256 ∧ b.stateRoot < 2 ^ 256 ∧
    b.body.length ≤ 4096 ∧ ∀ a ∈ b.body, AttOk a

/-- A proof of at most 512 KiB (block.rs 47). -/
def SignedOk (b : Signed) : Prop := BlockOk b.message ∧ b.proof.length ≤ 524288

/-- A signature of 2536 bytes (attestation.rs 62). -/
def VoteOk (v : SignedVote) : Prop := v.validator < 2 ^ 64 ∧ DataOk v.data ∧ v.signature.length = 2536

def AggOk (a : SignedAgg) : Prop := DataOk a.data ∧ a.participants.length ≤ 4096 ∧ a.proof.length ≤ 524288

def HeaderOk (h : Header) : Prop :=
  h.slot < 2 ^ 64 ∧ h.proposerIndex < 2 ^ 64 ∧ h.parentRoot < 2 ^ 256 ∧ h.stateRoot < 2 ^ 256 ∧ h.bodyRoot < 2 ^ 256

/-- Keys of 52 bytes (state.rs 87). -/
def ValidatorOk (v : Validator) : Prop :=
  v.attestationPubkey < 256 ^ 52 ∧ v.proposalPubkey < 256 ^ 52 ∧ v.index < 2 ^ 64

/-- The limits of state.rs 43-63. -/
structure StateOk (s : State) : Prop where
  genesisTime : s.genesisTime < 2 ^ 64
  slot : s.slot < 2 ^ 64
  header : HeaderOk s.latestBlockHeader
  justified : CpOk s.latestJustified
  finalized : CpOk s.latestFinalized
  hashes : s.historicalBlockHashes.length ≤ 262144 ∧ ∀ r ∈ s.historicalBlockHashes, r < 2 ^ 256
  justifiedSlots : s.justifiedSlots.length ≤ 262144
  validators : s.validators.length ≤ 4096 ∧ ∀ v ∈ s.validators, ValidatorOk v
  roots : s.justificationsRoots.length ≤ 262144 ∧ ∀ r ∈ s.justificationsRoots, r < 2 ^ 256
  votes : s.justificationsValidators.length ≤ 262144 * 4096

/-! ### The bytes of a signed block, field by field -/

namespace Layout

/-- `k` bytes, byte `i` being the `i`-th digit to the base 256. -/
def num (k n : Nat) : Bytes := (List.range k).map (fun i => UInt8.ofNat (n / 256 ^ i % 256))

def checkpoint (c : Checkpoint) : Bytes := num 32 c.root ++ num 8 c.slot

def data (d : AttData) : Bytes := num 8 d.slot ++ checkpoint d.head ++ checkpoint d.target ++ checkpoint d.source

/-- Bit `i`: of the list, then a one, then zeros. -/
def bit (l : List Bool) (i : Nat) : Nat :=
  if i < l.length then (if l[i]? = some true then 1 else 0) else if i = l.length then 1 else 0

/-- Byte `j` holds bits `8 j` to `8 j + 7`, lowest first. -/
def bits (l : List Bool) : Bytes :=
  (List.range (l.length / 8 + 1)).map (fun j => UInt8.ofNat
    (bit l (8 * j) + 2 * bit l (8 * j + 1) + 4 * bit l (8 * j + 2) + 8 * bit l (8 * j + 3) + 16 * bit l (8 * j + 4) +
      32 * bit l (8 * j + 5) + 64 * bit l (8 * j + 6) + 128 * bit l (8 * j + 7)))

/-- Offset of the bits (4 + 128), the vote, the bits. -/
def att (a : AggAtt) : Bytes := num 4 132 ++ data a.data ++ bits a.bits

/-- One offset for every attestation, then the attestations. -/
def atts (as : List AggAtt) : Bytes :=
  (List.range as.length).flatMap (fun i =>
    num 4 (4 * as.length + ((as.take i).map (fun a => (att a).length)).sum)) ++ as.flatMap att

def block (b : Block) : Bytes :=
  num 8 b.slot ++ num 8 b.proposerIndex ++ num 32 b.parentRoot ++ num 32 b.stateRoot ++ num 4 84 ++ num 4 4 ++
    atts b.body

def signed (b : Signed) : Bytes :=
  num 4 8 ++ num 4 (8 + (block b.message).length) ++ block b.message ++ num 4 4 ++ b.proof

end Layout

/-! ### The raw snappy format -/

/-- What is assumed of the crate `snap`: a compressed message announces its size, decompresses to the original, and is
at most `max_compress_len` = 32 + n + n / 6 bytes long. -/
structure RawOk (Z : RawCodec) : Prop where
  len : ∀ d, Z.len (Z.enc d) = some d.length
  inverse : ∀ d, Z.dec (Z.enc d) = some d
  size : ∀ d, (Z.enc d).length ≤ 32 + d.length + d.length / 6

end Verif.Ssz
