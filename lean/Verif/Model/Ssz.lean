import Verif.Model.Types
import Verif.Model.Gossip

/-
SSZ bytes of the values that nodes exchange.

Source (read as text, /repo):
* `crates/common/types/src/block.rs`        `SignedBlock` 25-32, `ByteList512KiB` 47, `MultiMessageAggregate` 57-61,
  `SingleMessageAggregate` 128-134, `BlockHeader` 181-193, `Block` 196-208, `BlockBody` 243-251,
  `AggregatedAttestations` 254
* `crates/common/types/src/attestation.rs`  `AttestationData` 23-36, `SignedAttestation` 47-55, `SIGNATURE_SIZE` 62,
  `AggregatedAttestation` 97-111, `AggregationBits` 117, `SignedAggregatedAttestation` 160-164
* `crates/common/types/src/checkpoint.rs`   `Checkpoint` 8-27
* `crates/common/types/src/state.rs`        `State` 16-37, limits 43-63, `Validator` 71-78, `ValidatorPubkeyBytes` 87
* `crates/net/p2p/src/req_resp/messages.rs` `Status`, `RequestedBlockRoots`, `BlocksByRootRequest`,
  `BlocksByRangeRequest`
* `crates/net/p2p/src/gossipsub/handler.rs` `publish_attestation` 138-171, `publish_block` 173-202,
  `publish_aggregated_attestation` 204-231, decoding of received messages 30-128
* `crates/net/p2p/src/gossipsub/encoding.rs` `compress_message` 43-51

The code derives encoder and decoder (`SszEncode`, `SszDecode` of the crate `libssz`) from the order and the types of
the fields.  The crate is not part of the source, so what is written here is the rule of the SSZ specification: a
container is the sequence of its fields, a field of variable size is replaced by a four byte offset and its content
follows at the end; numbers are little-endian; a bit list ends with an additional one bit.  The decoder is the strict
one: offsets start where the fixed part ends, never go back, and limits of lists are enforced.

A 32 byte root is the number `Root` of the other models, a 52 byte key likewise; which number stands for which bytes
does not matter.
-/

namespace Verif.Ssz

open Verif.Net (Bytes)

/-! ### Numbers and containers -/

/-- `k` little-endian bytes. -/
def le : Nat → Nat → Bytes
  | 0, _ => []
  | k + 1, n => UInt8.ofNat (n % 256) :: le k (n / 256)

/-- The number of little-endian bytes. -/
def unle : Bytes → Nat
  | [] => 0
  | b :: bs => b.toNat + 256 * unle bs

/-- A field of a container: of fixed or of variable size. -/
inductive Part where
  | fixed (b : Bytes)
  | var (b : Bytes)

def Part.bytes : Part → Bytes
  | .fixed b => b
  | .var b => b

/-- The size the decoder expects: `none` for variable. -/
def Part.size : Part → Option Nat
  | .fixed b => some b.length
  | .var _ => none

/-- Size of the first part of a container. -/
def headLen : List (Option Nat) → Nat
  | [] => 0
  | n :: l => n.getD 4 + headLen l

/-- The first part: fixed fields, and offsets beginning at `o`. -/
def heads : Nat → List Part → Bytes
  | _, [] => []
  | o, .fixed b :: ps => b ++ heads o ps
  | o, .var b :: ps => le 4 o ++ heads (o + b.length) ps

/-- The contents of the variable fields. -/
def tails : List Part → Bytes
  | [] => []
  | .fixed _ :: ps => tails ps
  | .var b :: ps => b ++ tails ps

/-- The bytes of a container. -/
def assemble (ps : List Part) : Bytes := heads (headLen (ps.map Part.size)) ps ++ tails ps

/-- Reading the first part: `.inl` a fixed field, `.inr` an offset. -/
def readHeads : List (Option Nat) → Bytes → List (Bytes ⊕ Nat)
  | [], _ => []
  | some n :: l, bs => .inl (bs.take n) :: readHeads l (bs.drop n)
  | none :: l, bs => .inr (unle (bs.take 4)) :: readHeads l (bs.drop 4)

/-- The offsets of the first part. -/
def offsets : List (Bytes ⊕ Nat) → List Nat
  | [] => []
  | .inl _ :: l => offsets l
  | .inr o :: l => o :: offsets l

/-- Cuts the rest of the bytes, which begins at `p`, at the given offsets. -/
def slices : Nat → Bytes → List Nat → Option (List Bytes)
  | _, rest, [] => some [rest]
  | p, rest, o :: os =>
    if p ≤ o ∧ o - p ≤ rest.length then
      match slices o (rest.drop (o - p)) os with
      | none => none
      | some l => some (rest.take (o - p) :: l)
    else none

/-- Puts the contents in the place of the offsets. -/
def fill : List (Bytes ⊕ Nat) → List Bytes → List Bytes
  | [], _ => []
  | .inl b :: l, vs => b :: fill l vs
  | .inr _ :: l, v :: vs => v :: fill l vs
  | .inr _ :: _, [] => []

/-- The fields of a container with the given layout. -/
def split (l : List (Option Nat)) (bs : Bytes) : Option (List Bytes) :=
  if bs.length < headLen l then none
  else
    let hs := readHeads l bs
    let rest := bs.drop (headLen l)
    match offsets hs with
    | [] => if rest = [] then some (fill hs []) else none
    | o :: os =>
      if o ≠ headLen l then none
      else match slices o rest os with
        | none => none
        | some vs => some (fill hs vs)

/-! ### Lists -/

/-- Elements of `k` bytes each, one after the other. -/
def chunks (k : Nat) : Nat → Bytes → List Bytes
  | 0, _ => []
  | n + 1, bs => bs.take k :: chunks k n (bs.drop k)

/-- `SszList<T, max>` for `T` of `k` bytes. -/
def unfixedList {α : Type} (k max : Nat) (f : Bytes → Option α) (bs : Bytes) : Option (List α) :=
  if bs.length % k = 0 ∧ bs.length / k ≤ max then (chunks k (bs.length / k) bs).mapM f else none

/-- `SszList<T, max>` for `T` of variable size: offsets first. -/
def unvarList {α : Type} (max : Nat) (f : Bytes → Option α) (bs : Bytes) : Option (List α) :=
  if bs = [] then some []
  else
    let o := unle (bs.take 4)
    if o % 4 = 0 ∧ o / 4 ≠ 0 ∧ o / 4 ≤ max then
      match split (List.replicate (o / 4) none) bs with
      | none => none
      | some vs => vs.mapM f
    else none

/-- The byte of the first (up to eight) bits, lowest first. -/
def byteOf : List Bool → Nat
  | [] => 0
  | b :: bs => b.toNat + 2 * byteOf bs

/-- Eight bits to a byte; `n` bounds the number of bytes. -/
def pack : Nat → List Bool → Bytes
  | 0, _ => []
  | n + 1, bits =>
    if bits = [] then [] else UInt8.ofNat (byteOf (bits.take 8)) :: pack n (bits.drop 8)

/-- `SszBitlist`: the bits and a final one, packed. -/
def bitlist (bits : List Bool) : Bytes := pack (bits.length / 8 + 1) (bits ++ [true])

/-- The `k` lowest bits of a number. -/
def bitsOf : Nat → Nat → List Bool
  | 0, _ => []
  | k + 1, n => decide (n % 2 = 1) :: bitsOf k (n / 2)

/-- All bits of the bytes. -/
def unpack (bs : Bytes) : List Bool := bs.flatMap (fun b => bitsOf 8 b.toNat)

/-- `SszBitlist<max>`: the last byte holds the final one bit. -/
def unbitlist (max : Nat) (bs : Bytes) : Option (List Bool) :=
  match bs.getLast? with
  | none => none
  | some b =>
    if b = 0 then none
    else
      let bits := ((unpack bs).reverse.dropWhile (fun x => !x)).tail.reverse
      if bits.length ≤ max then some bits else none

/-! ### The types of the code -/

/-- `Checkpoint` (checkpoint.rs 8-27). -/
def encCheckpoint (c : Checkpoint) : Bytes := assemble [.fixed (le 32 c.root), .fixed (le 8 c.slot)]

def decCheckpoint (bs : Bytes) : Option Checkpoint :=
  match split [some 32, some 8] bs with
  | some [r, s] => some ⟨unle r, unle s⟩
  | _ => none

/-- `AttestationData` (attestation.rs 23-36). -/
def encData (d : AttData) : Bytes :=
  assemble [.fixed (le 8 d.slot), .fixed (encCheckpoint d.head), .fixed (encCheckpoint d.target),
    .fixed (encCheckpoint d.source)]

def decData (bs : Bytes) : Option AttData :=
  match split [some 8, some 40, some 40, some 40] bs with
  | some [s, h, t, c] => do
    let h ← decCheckpoint h
    let t ← decCheckpoint t
    let c ← decCheckpoint c
    some ⟨unle s, h, t, c⟩
  | _ => none

/-- `AggregatedAttestation` (attestation.rs 97-111). -/
def encAtt (a : AggAtt) : Bytes := assemble [.var (bitlist a.bits), .fixed (encData a.data)]

def decAtt (bs : Bytes) : Option AggAtt :=
  match split [none, some 128] bs with
  | some [b, d] => do
    let b ← unbitlist 4096 b
    let d ← decData d
    some ⟨b, d⟩
  | _ => none

/-- `AggregatedAttestations` (block.rs 254). -/
def encAtts (as : List AggAtt) : Bytes := assemble (as.map (fun a => .var (encAtt a)))

def decAtts (bs : Bytes) : Option (List AggAtt) := unvarList 4096 decAtt bs

/-- `BlockBody` (block.rs 243-251). -/
def encBody (as : List AggAtt) : Bytes := assemble [.var (encAtts as)]

def decBody (bs : Bytes) : Option (List AggAtt) :=
  match split [none] bs with
  | some [b] => decAtts b
  | _ => none

/-- `Block` (block.rs 196-208). -/
def encBlock (b : Block) : Bytes :=
  assemble [.fixed (le 8 b.slot), .fixed (le 8 b.proposerIndex), .fixed (le 32 b.parentRoot),
    .fixed (le 32 b.stateRoot), .var (encBody b.body)]

def decBlock (bs : Bytes) : Option Block :=
  match split [some 8, some 8, some 32, some 32, none] bs with
  | some [s, p, r, t, b] => do
    let b ← decBody b
    some ⟨unle s, unle p, unle r, unle t, b⟩
  | _ => none

/-- `ByteList512KiB` (block.rs 47). -/
def decProof (bs : Bytes) : Option Bytes := if bs.length ≤ 524288 then some bs else none

/-- `SignedBlock` (block.rs 25-32) with the bytes of its proof. -/
structure Signed where
  message : Block
  proof : Bytes
  deriving DecidableEq

/-- `SignedBlock`; the proof is a container of one byte list (`MultiMessageAggregate`, block.rs 57-61). -/
def encSigned (b : Signed) : Bytes :=
  assemble [.var (encBlock b.message), .var (assemble [.var b.proof])]

def decSigned (bs : Bytes) : Option Signed :=
  match split [none, none] bs with
  | some [m, p] => do
    let m ← decBlock m
    match split [none] p with
    | some [p] => do
      let p ← decProof p
      some ⟨m, p⟩
    | _ => none
  | _ => none

/-- `SignedAttestation` (attestation.rs 47-55) with the bytes of its signature. -/
structure SignedVote where
  validator : Nat
  data : AttData
  signature : Bytes
  deriving DecidableEq

def encVote (v : SignedVote) : Bytes :=
  assemble [.fixed (le 8 v.validator), .fixed (encData v.data), .fixed v.signature]

def decVote (bs : Bytes) : Option SignedVote :=
  match split [some 8, some 128, some 2536] bs with
  | some [v, d, s] => do
    let d ← decData d
    some ⟨unle v, d, s⟩
  | _ => none

/-- `SignedAggregatedAttestation` (attestation.rs 160-164), with the fields of `SingleMessageAggregate` (block.rs
128-134). -/
structure SignedAgg where
  data : AttData
  participants : Bits
  proof : Bytes
  deriving DecidableEq

def encAgg (a : SignedAgg) : Bytes :=
  assemble [.fixed (encData a.data), .var (assemble [.var (bitlist a.participants), .var a.proof])]

def decAgg (bs : Bytes) : Option SignedAgg :=
  match split [some 128, none] bs with
  | some [d, p] => do
    let d ← decData d
    match split [none, none] p with
    | some [b, p] => do
      let b ← unbitlist 4096 b
      let p ← decProof p
      some ⟨d, b, p⟩
    | _ => none
  | _ => none

/-- `Status` (messages.rs): finalized checkpoint, then head. -/
def encStatus (s : Checkpoint × Checkpoint) : Bytes :=
  assemble [.fixed (encCheckpoint s.1), .fixed (encCheckpoint s.2)]

def decStatus (bs : Bytes) : Option (Checkpoint × Checkpoint) :=
  match split [some 40, some 40] bs with
  | some [f, h] => do
    let f ← decCheckpoint f
    let h ← decCheckpoint h
    some (f, h)
  | _ => none

/-- A list of roots. -/
def encRoots (rs : List Root) : Bytes := rs.flatMap (le 32)

def decRoots (max : Nat) (bs : Bytes) : Option (List Root) := unfixedList 32 max (fun b => some (unle b)) bs

/-- `BlocksByRootRequest` (messages.rs): a list of at most 1024 roots. -/
def encByRoot (rs : List Root) : Bytes := assemble [.var (encRoots rs)]

def decByRoot (bs : Bytes) : Option (List Root) :=
  match split [none] bs with
  | some [b] => decRoots 1024 b
  | _ => none

/-- `BlocksByRangeRequest` (messages.rs): start slot, count. -/
def encByRange (r : Nat × Nat) : Bytes := assemble [.fixed (le 8 r.1), .fixed (le 8 r.2)]

def decByRange (bs : Bytes) : Option (Nat × Nat) :=
  match split [some 8, some 8] bs with
  | some [s, c] => some (unle s, unle c)
  | _ => none

/-- `BlockHeader` (block.rs 181-193). -/
def encHeader (h : Header) : Bytes :=
  assemble [.fixed (le 8 h.slot), .fixed (le 8 h.proposerIndex), .fixed (le 32 h.parentRoot),
    .fixed (le 32 h.stateRoot), .fixed (le 32 h.bodyRoot)]

def decHeader (bs : Bytes) : Option Header :=
  match split [some 8, some 8, some 32, some 32, some 32] bs with
  | some [s, p, r, t, b] => some ⟨unle s, unle p, unle r, unle t, unle b⟩
  | _ => none

/-- `Validator` (state.rs 71-78). -/
def encValidator (v : Validator) : Bytes :=
  assemble [.fixed (le 52 v.attestationPubkey), .fixed (le 52 v.proposalPubkey), .fixed (le 8 v.index)]

def decValidator (bs : Bytes) : Option Validator :=
  match split [some 52, some 52, some 8] bs with
  | some [a, p, i] => some ⟨unle a, unle p, unle i⟩
  | _ => none

/-- `State` (state.rs 16-37). -/
def encState (s : State) : Bytes :=
  assemble [.fixed (le 8 s.genesisTime), .fixed (le 8 s.slot), .fixed (encHeader s.latestBlockHeader),
    .fixed (encCheckpoint s.latestJustified), .fixed (encCheckpoint s.latestFinalized),
    .var (encRoots s.historicalBlockHashes), .var (bitlist s.justifiedSlots),
    .var (s.validators.flatMap encValidator), .var (encRoots s.justificationsRoots),
    .var (bitlist s.justificationsValidators)]

def decState (bs : Bytes) : Option State :=
  match split [some 8, some 8, some 112, some 40, some 40, none, none, none, none, none] bs with
  | some [g, s, h, j, f, hh, js, vs, jr, jv] => do
    let h ← decHeader h
    let j ← decCheckpoint j
    let f ← decCheckpoint f
    let hh ← decRoots 262144 hh
    let js ← unbitlist 262144 js
    let vs ← unfixedList 112 4096 decValidator vs
    let jr ← decRoots 262144 jr
    let jv ← unbitlist (262144 * 4096) jv
    some ⟨unle g, unle s, h, j, f, hh, js, vs, jr, jv⟩
  | _ => none

/-! ### Gossip -/

/-- `compress_message` (gossipsub/encoding.rs 43-51) and its inverse in the crate `snap`. -/
structure RawCodec extends Verif.Net.RawSnappy where
  enc : Bytes → Bytes

/-- The message `publish_block`, `publish_attestation` and `publish_aggregated_attestation` hand to gossipsub
(handler.rs 147-150, 180-183, 211-214). -/
def publish (Z : RawCodec) {α : Type} (enc : α → Bytes) (x : α) : Bytes := Z.enc (enc x)

/-- What `handle_gossipsub_message` makes of a message (handler.rs 33-44, 69-80, 100-111). -/
def receive (Z : RawCodec) {α : Type} (dec : Bytes → Option α) (data : Bytes) : Option α :=
  match Verif.Net.decompressMessage Z.toRawSnappy data with
  | none => none
  | some d => dec d

end Verif.Ssz
