/-!
# Shared data types

Plain structures mirroring `crates/common/types/src/*.rs`.
-/

namespace Verif

/-- `H256` (`crates/common/types/src/primitives.rs`). Simplified: a 32-byte hash is a `Nat`;
`0` is `H256::ZERO`. Rust orders `H256` bytewise, i.e. as a big-endian number. -/
abbrev Root := Nat

/-- `Checkpoint` (`crates/common/types/src/checkpoint.rs` 8-26). -/
structure Checkpoint where
  root : Root
  slot : Nat
  deriving DecidableEq, Repr, Inhabited

/-- `AttestationData` (`crates/common/types/src/attestation.rs` 23-36). -/
structure AttData where
  slot : Nat
  head : Checkpoint
  target : Checkpoint
  source : Checkpoint
  deriving DecidableEq, Repr, Inhabited

/-- `AggregationBits` (`crates/common/types/src/attestation.rs` 113-117). Simplified: an SSZ
bitlist is the list of its bits; `bits[i]? = some true` is `bits.get(i) == Some(true)`. -/
abbrev Bits := List Bool

/-- `AggregatedAttestation` (`crates/common/types/src/attestation.rs` 97-111). -/
structure AggAtt where
  bits : Bits
  data : AttData
  deriving DecidableEq, Repr, Inhabited

/-- `Validator` (`crates/common/types/src/state.rs` 67-78). Keys are opaque. -/
structure Validator where
  attestationPubkey : Nat
  proposalPubkey : Nat
  index : Nat
  deriving DecidableEq, Repr, Inhabited

/-- `BlockHeader` (`crates/common/types/src/block.rs` 181-193). -/
structure Header where
  slot : Nat
  proposerIndex : Nat
  parentRoot : Root
  stateRoot : Root
  bodyRoot : Root
  deriving DecidableEq, Repr, Inhabited

/-- `Block` (`crates/common/types/src/block.rs` 196-208). Simplified: `BlockBody` has the
attestation list as its only field, so the body *is* that list. -/
structure Block where
  slot : Nat
  proposerIndex : Nat
  parentRoot : Root
  stateRoot : Root
  body : List AggAtt
  deriving DecidableEq, Repr, Inhabited

/-- `State` (`crates/common/types/src/state.rs` 16-37). `config` only holds `genesis_time`. -/
structure State where
  genesisTime : Nat
  slot : Nat
  latestBlockHeader : Header
  latestJustified : Checkpoint
  latestFinalized : Checkpoint
  historicalBlockHashes : List Root
  justifiedSlots : List Bool
  validators : List Validator
  justificationsRoots : List Root
  justificationsValidators : List Bool
  deriving DecidableEq, Repr, Inhabited

/-- The `hash_tree_root` functions, left abstract. Nothing is assumed about them unless a
theorem says so. `Block::hash_tree_root` is not a separate field: by SSZ merkleization the
root of a block is the root of its header (`block.header()`), see `Block.root`. -/
structure Hash where
  state : State → Root
  header : Header → Root
  body : List AggAtt → Root
  attData : AttData → Root

/-- `Block::header` (`crates/common/types/src/block.rs` 212-220). -/
def Block.header (H : Hash) (b : Block) : Header :=
  { slot := b.slot, proposerIndex := b.proposerIndex, parentRoot := b.parentRoot,
    stateRoot := b.stateRoot, bodyRoot := H.body b.body }

/-- `block.hash_tree_root()`; equal to the header's root by SSZ merkleization (both containers
have the same field roots). -/
def Block.root (H : Hash) (b : Block) : Root := H.header (b.header H)

/-- `HISTORICAL_ROOTS_LIMIT` (`crates/common/types/src/state.rs` 43). -/
def historicalRootsLimit : Nat := 262144
/-- `VALIDATOR_REGISTRY_LIMIT` (`crates/common/types/src/state.rs` 55). -/
def validatorRegistryLimit : Nat := 4096
/-- `MAX_ATTESTATIONS_DATA` (`crates/common/types/src/block.rs` 109). -/
def maxAttestationsData : Nat := 8

/-- `State::from_genesis` (`crates/common/types/src/state.rs` 90-114). -/
def State.fromGenesis (H : Hash) (genesisTime : Nat) (validators : List Validator) : State :=
  { genesisTime := genesisTime
    slot := 0
    latestBlockHeader :=
      { slot := 0, proposerIndex := 0, parentRoot := 0, stateRoot := 0, bodyRoot := H.body [] }
    latestJustified := { root := 0, slot := 0 }
    latestFinalized := { root := 0, slot := 0 }
    historicalBlockHashes := []
    justifiedSlots := []
    validators := validators
    justificationsRoots := []
    justificationsValidators := [] }

end Verif
