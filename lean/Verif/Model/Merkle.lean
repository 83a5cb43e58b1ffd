import Verif.Model.Types
import Verif.Model.Ssz

/-
`hash_tree_root` of votes, block bodies, headers, blocks and states.

Source (read as text, /repo):
* `crates/common/types/src/primitives.rs` 1-15 (`HashTreeRoot` with SHA-256), 31-45 (`H256` is its 32 bytes)
* the types with `#[derive(HashTreeRoot)]`: `Checkpoint` (checkpoint.rs 8-27), `AttestationData`,
  `AggregatedAttestation`, `AggregationBits` (attestation.rs 23-36, 97-117), `BlockHeader`, `Block`, `BlockBody`,
  `AggregatedAttestations` (block.rs 181-254), `State`, `Validator`, `ChainConfig` (state.rs 16-87, 116-119)

The crate `libssz_merkle` is not part of the source, so this is the rule of the SSZ specification: values become chunks
of 32 bytes, chunks the leaves of a binary tree whose depth depends on the type only (missing leaves are zero), a list is
hashed together with its length, and a container is the tree of the roots of its fields.

A chunk is the number of its 32 little-endian bytes, so a `u64` and a root are chunks as they are.  `h x y` stands for
SHA-256 of the 64 bytes of two chunks.  The tree is built first (`Tree`) and then hashed (`root`); subtrees without
leaves are not cut short, which changes no root.
-/

namespace Verif.Merkle

open Verif

inductive Tree where
  | leaf (n : Nat)
  | node (l r : Tree)

/-- The hash of a tree. -/
def root (h : Nat → Nat → Nat) : Tree → Nat
  | .leaf n => n
  | .node l r => h (root h l) (root h r)

/-- The tree of depth `d` over the given subtrees. -/
def merkle : Nat → List Tree → Tree
  | 0, ts => ts.headD (.leaf 0)
  | d + 1, ts => .node (merkle d (ts.take (2 ^ d))) (merkle d (ts.drop (2 ^ d)))

/-- `mix_in_length`. -/
def withLength (t : Tree) (n : Nat) : Tree := .node t (.leaf n)

/-- Bits to chunks of 256; `n` bounds the number of chunks. -/
def packBits : Nat → List Bool → List Nat
  | 0, _ => []
  | n + 1, bits => if bits = [] then [] else Ssz.byteOf (bits.take 256) :: packBits n (bits.drop 256)

/-- `SszBitlist` with at most `2 ^ d` chunks. -/
def bitsTree (d : Nat) (bits : List Bool) : Tree :=
  withLength (merkle d ((packBits (bits.length / 256 + 1) bits).map .leaf)) bits.length

/-- `SszList` with at most `2 ^ d` elements that are no basic values. -/
def listTree {α : Type} (d : Nat) (f : α → Tree) (xs : List α) : Tree := withLength (merkle d (xs.map f)) xs.length

/-- `Checkpoint` (checkpoint.rs 8-27). -/
def cpTree (c : Checkpoint) : Tree := merkle 1 [.leaf c.root, .leaf c.slot]

/-- `AttestationData` (attestation.rs 23-36). -/
def dataTree (d : AttData) : Tree := merkle 2 [.leaf d.slot, cpTree d.head, cpTree d.target, cpTree d.source]

/-- `AggregatedAttestation` (attestation.rs 97-111); 4096 bits are 16 chunks. -/
def attTree (a : AggAtt) : Tree := merkle 1 [bitsTree 4 a.bits, dataTree a.data]

/-- `BlockBody` (block.rs 243-254), a container of one list of at most 4096 attestations. -/
def bodyTree (as : List AggAtt) : Tree := merkle 0 [listTree 12 attTree as]

/-- `BlockHeader` (block.rs 181-193). -/
def headerTree (x : Header) : Tree :=
  merkle 3 [.leaf x.slot, .leaf x.proposerIndex, .leaf x.parentRoot, .leaf x.stateRoot, .leaf x.bodyRoot]

/-- `Block` (block.rs 196-208). -/
def blockTree (b : Block) : Tree :=
  merkle 3 [.leaf b.slot, .leaf b.proposerIndex, .leaf b.parentRoot, .leaf b.stateRoot, bodyTree b.body]

/-- `[u8; 52]` (state.rs 87): two chunks. -/
def keyTree (k : Nat) : Tree := merkle 1 [.leaf (k % 2 ^ 256), .leaf (k / 2 ^ 256)]

/-- `Validator` (state.rs 71-78). -/
def validatorTree (v : Validator) : Tree :=
  merkle 2 [keyTree v.attestationPubkey, keyTree v.proposalPubkey, .leaf v.index]

/-- `State` (state.rs 16-37); limits of 2^18 roots and bits, 4096 validators and 2^30 bits. -/
def stateTree (s : State) : Tree :=
  merkle 4 [merkle 0 [.leaf s.genesisTime], .leaf s.slot, headerTree s.latestBlockHeader, cpTree s.latestJustified,
    cpTree s.latestFinalized, listTree 18 .leaf s.historicalBlockHashes, bitsTree 10 s.justifiedSlots,
    listTree 12 validatorTree s.validators, listTree 18 .leaf s.justificationsRoots,
    bitsTree 22 s.justificationsValidators]

/-- The hash functions of the other models, computed with `h`. -/
def treeHash (h : Nat → Nat → Nat) : Hash where
  state s := root h (stateTree s)
  header x := root h (headerTree x)
  body as := root h (bodyTree as)
  attData d := root h (dataTree d)

end Verif.Merkle
