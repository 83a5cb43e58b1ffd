/-
Request/response wire format of the peer-to-peer layer.

Source (read as text, /repo):
* `crates/net/p2p/src/req_resp/encoding.rs`  `encode_varint` 171-184, `decode_varint` 187-207,
  `read_varint` 50-68, `read_snappy_frame` 70-137, `decode_payload` 22-48, `write_payload` 143-167
* `crates/net/p2p/src/req_resp/codec.rs`     `write_response` 120-187 (`Blocks` arm 145-172),
  `decode_blocks_response` 266-305

Bytes are `UInt8`, a stream is the list of the bytes still to be read.  Only two kinds of failure are
kept apart: the stream ended (`UnexpectedEof`) and the bytes were refused (`InvalidData`).

Not modelled: the snappy compression itself (crate `snap`) and the SSZ encoding of a block (crate
`libssz`); both are parameters (`Snappy`, and the `ssz`/`unssz` functions).
-/

namespace Verif.Net

abbrev Bytes := List UInt8

/-- `io::ErrorKind::UnexpectedEof`, `io::ErrorKind::InvalidData`; `shiftOverflow` is the arithmetic
panic of `value << (7 * i)` for `i ≥ 5` (encoding.rs 193). -/
inductive WireErr where
  | eof
  | invalid
  | shiftOverflow
  deriving DecidableEq, Repr

/-- `MAX_PAYLOAD_SIZE` (encoding.rs 6). -/
@[irreducible] def maxPayload : Nat := 10 * 1024 * 1024

/-- `MAX_COMPRESSED_PAYLOAD_SIZE` (encoding.rs 9). -/
@[irreducible] def maxCompressed : Nat := 32 + maxPayload + maxPayload / 6 + 1024

/-- `MAX_PAYLOAD_SIZE - 1024`, the largest payload a node sends (encoding.rs 150, codec.rs 153). -/
@[irreducible] def maxSend : Nat := maxPayload - 1024

/-! ### Varint -/

/-- `encode_varint` (encoding.rs 171-184); `n` is the number of loop iterations left. -/
def encodeVarintFuel : Nat → Nat → Bytes
  | 0, _ => []
  | n + 1, value =>
    let low := value &&& 0x7F
    let rest := value >>> 7
    if rest = 0 then [UInt8.ofNat low]
    else UInt8.ofNat (low ||| 0x80) :: encodeVarintFuel n rest

def encodeVarint (value : Nat) : Bytes := encodeVarintFuel 5 value

/-- The loop of `decode_varint` (encoding.rs 191-198): `i` is the position, `acc` the 32-bit result so
far.  Bits shifted beyond bit 31 are lost (`u32 << n`); a shift by 32 or more panics. -/
def decodeVarintLoop : Bytes → Nat → Nat → Except WireErr (Nat × Bytes)
  | [], _, _ => .error .invalid
  | b :: bs, i, acc =>
    if 32 ≤ 7 * i then .error .shiftOverflow
    else
      let acc := acc ||| (((b.toNat &&& 0x7F) <<< (7 * i)) % 2 ^ 32)
      if b.toNat &&& 0x80 = 0 then .ok (acc, bs) else decodeVarintLoop bs (i + 1) acc

/-- `decode_varint` (encoding.rs 187-207). -/
def decodeVarint (buf : Bytes) : Except WireErr (Nat × Bytes) := decodeVarintLoop buf 0 0

/-- `read_varint` (encoding.rs 50-68): collects at most five bytes up to the first one without the
continuation bit, then decodes the collected bytes.  `n` is the number of iterations left. -/
def readVarintLoop : Nat → Bytes → Bytes → Except WireErr (Nat × Bytes)
  | 0, _, _ => .error .invalid
  | _ + 1, _, [] => .error .eof
  | n + 1, buf, b :: s =>
    if b.toNat &&& 0x80 = 0 then
      match decodeVarint (buf ++ [b]) with
      | .ok (size, _) => .ok (size, s)
      | .error e => .error e
    else readVarintLoop n (buf ++ [b]) s

def readVarint (s : Bytes) : Except WireErr (Nat × Bytes) := readVarintLoop 5 [] s

/-! ### Snappy frames -/

/-- The parts of the crate `snap` the code calls: `FrameEncoder` (whole output for an input),
`raw::decompress_len`, and `FrameDecoder` followed by `read_exact` of `n` bytes. -/
structure Snappy where
  enc : Bytes → Bytes
  blockLen : Bytes → Option Nat
  dec : Bytes → Nat → Option Bytes

/-- `read_exact` of `n` bytes. -/
def readExact (n : Nat) (s : Bytes) : Except WireErr (Bytes × Bytes) :=
  if n ≤ s.length then .ok (s.take n, s.drop n) else .error .eof

/-- `u32::from_le_bytes([h1, h2, h3, 0])` (encoding.rs 84). -/
def chunkBodyLen (hdr : Bytes) : Nat :=
  ((hdr[1]?.getD 0).toNat) + 256 * ((hdr[2]?.getD 0).toNat) + 65536 * ((hdr[3]?.getD 0).toNat)

/-- How many uncompressed bytes a chunk stands for (encoding.rs 100-119). -/
def chunkUncompressed (Z : Snappy) (ty : UInt8) (data : Bytes) : Option Nat :=
  if ty = 0x00 then (if data.length < 4 then none else Z.blockLen (data.drop 4))
  else if ty = 0x01 then (if data.length < 4 then none else some (data.length - 4))
  else if 0x80 ≤ ty then some 0
  else none

/-- The loop of `read_snappy_frame` (encoding.rs 80-131), returning the collected frame and the rest
of the stream.  Every iteration reads at least four bytes, so `fuel` never runs out when it exceeds
the length of the stream (`readFrame_fuel`).  `checked_add` (121-125) cannot fail: the sum is below
`2 * u32::MAX`. -/
def readFrameLoop (Z : Snappy) (expected : Nat) :
    Nat → Bytes → Nat → Bytes → Except WireErr (Bytes × Bytes)
  | 0, _, _, _ => .error .eof
  | fuel + 1, frame, ulen, s =>
    if ulen < expected then
      match readExact 4 s with
      | .error e => .error e
      | .ok (hdr, s) =>
        let len := chunkBodyLen hdr
        if frame.length + 4 + len > maxCompressed then .error .invalid
        else match readExact len s with
          | .error e => .error e
          | .ok (data, s) =>
            match chunkUncompressed Z (hdr[0]?.getD 0) data with
            | none => .error .invalid
            | some u =>
              if ulen + u > expected then .error .invalid
              else readFrameLoop Z expected fuel (frame ++ hdr ++ data) (ulen + u) s
    else .ok (frame, s)

/-- `read_snappy_frame` (encoding.rs 70-137). -/
def readFrame (Z : Snappy) (expected : Nat) (s : Bytes) : Except WireErr (Bytes × Nat × Bytes) :=
  match readFrameLoop Z expected (s.length + 1) [] 0 s with
  | .error e => .error e
  | .ok (frame, s) =>
    match Z.dec frame expected with
    | none => .error .invalid
    | some data => .ok (data, frame.length, s)

/-- `decode_payload` (encoding.rs 22-48): payload, compressed size, rest of the stream. -/
def decodePayload (Z : Snappy) (s : Bytes) : Except WireErr (Bytes × Nat × Bytes) :=
  match readVarint s with
  | .error e => .error e
  | .ok (size, s) =>
    if size > maxPayload then .error .invalid
    else if size = 0 then .ok ([], 0, s)
    else readFrame Z size s

/-- `write_payload` (encoding.rs 143-167): the bytes written. -/
def writePayload (Z : Snappy) (data : Bytes) : Except WireErr Bytes :=
  if data.length > maxSend then .error .invalid
  else .ok (encodeVarint data.length ++ Z.enc data)

/-! ### Block responses -/

/-- The `Blocks` arm of `write_response` (codec.rs 145-172): every block that is not too large is a
chunk of its own, `SUCCESS` byte first. -/
def writeBlocks (Z : Snappy) {B : Type} (ssz : B → Bytes) : List B → Except WireErr Bytes
  | [] => .ok []
  | b :: bs =>
    let encoded := ssz b
    if encoded.length > maxSend then writeBlocks Z ssz bs
    else match writePayload Z encoded with
      | .error e => .error e
      | .ok p =>
        match writeBlocks Z ssz bs with
        | .error e => .error e
        | .ok rest => .ok ((0 : UInt8) :: (p ++ rest))

/-- `decode_blocks_response` (codec.rs 266-305).  Every chunk takes at least one byte, so `fuel` never
runs out when it exceeds the length of the stream. -/
def decodeBlocksLoop (Z : Snappy) {B : Type} (unssz : Bytes → Option B) :
    Nat → Bytes → Except WireErr (List B)
  | 0, _ => .error .eof
  | _ + 1, [] => .ok []
  | fuel + 1, code :: s =>
    match decodePayload Z s with
    | .error e => .error e
    | .ok (payload, _, s) =>
      if code ≠ 0 then decodeBlocksLoop Z unssz fuel s
      else match unssz payload with
        | none => .error .invalid
        | some b =>
          match decodeBlocksLoop Z unssz fuel s with
          | .error e => .error e
          | .ok bs => .ok (b :: bs)

def decodeBlocks (Z : Snappy) {B : Type} (unssz : Bytes → Option B) (s : Bytes) :
    Except WireErr (List B) := decodeBlocksLoop Z unssz (s.length + 1) s

end Verif.Net
