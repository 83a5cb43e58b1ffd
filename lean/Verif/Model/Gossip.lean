import Verif.Model.Wire

/-
Gossip topics, message ids and attestation subnets.

Source (read as text, /repo):
* `crates/net/p2p/src/lib.rs`                 `compute_message_id` 787-808,
  `attestation_subscription_subnets` 183-205
* `crates/net/p2p/src/gossipsub/encoding.rs`  `decompress_message` 29-40
* `crates/net/p2p/src/gossipsub/messages.rs`  topics 1-33
* `crates/net/p2p/src/gossipsub/handler.rs`   routing by topic kind 30-134, `publish_attestation`
  138-171
* `crates/common/types/src/constants.rs` 10   `FORK_DIGEST`

Topic names are lists of characters; the message id is computed from their bytes.
-/

namespace Verif.Net

/-! ### Message ids -/

/-- `snap::raw::decompress_len` and `snap::raw::Decoder::decompress` into a buffer of that size. -/
structure RawSnappy where
  len : Bytes → Option Nat
  dec : Bytes → Option Bytes

/-- `decompress_message` (gossipsub/encoding.rs 29-40). -/
def decompressMessage (Z : RawSnappy) (data : Bytes) : Option Bytes :=
  match Z.len data with
  | none => none
  | some n => if n > maxPayload then none else Z.dec data

/-- `u64::to_le_bytes`. -/
def leBytes64 (n : Nat) : Bytes := (List.range 8).map (fun i => UInt8.ofNat (n / 256 ^ i % 256))

/-- The bytes fed to SHA-256 by `compute_message_id` (lib.rs 791-804). -/
def messageIdInput (Z : RawSnappy) (topic data : Bytes) : Bytes :=
  match decompressMessage Z data with
  | some d => [1, 0, 0, 0] ++ leBytes64 topic.length ++ topic ++ d
  | none => [0, 0, 0, 0] ++ leBytes64 topic.length ++ topic ++ data

/-- `compute_message_id` (lib.rs 787-808); `H` is SHA-256 cut to 20 bytes. -/
def messageId {I : Type} (H : Bytes → I) (Z : RawSnappy) (topic data : Bytes) : I :=
  H (messageIdInput Z topic data)

/-! ### Topics -/

/-- `FORK_DIGEST` (constants.rs 10). -/
def forkDigest : List Char := "12345678".toList

/-- `format!("/leanconsensus/{FORK_DIGEST}/{kind}/ssz_snappy")` (messages.rs 14-33). -/
def topicOf (kind : List Char) : List Char :=
  "/leanconsensus/".toList ++ forkDigest ++ "/".toList ++ kind ++ "/ssz_snappy".toList

/-- `block_topic` (messages.rs 15-19). -/
def blockTopic : List Char := topicOf "block".toList

/-- `aggregation_topic` (messages.rs 22-26). -/
def aggregationTopic : List Char := topicOf "aggregation".toList

/-- `attestation_subnet_topic` (messages.rs 29-33). -/
def attestationTopic (subnet : Nat) : List Char :=
  topicOf ("attestation".toList ++ "_".toList ++ Nat.toDigits 10 subnet)

/-- `str::split("/")`. -/
def splitSlash : List Char → List (List Char)
  | [] => [[]]
  | c :: cs =>
    if c = '/' then [] :: splitSlash cs
    else match splitSlash cs with
      | [] => [[c]]
      | w :: ws => (c :: w) :: ws

inductive Route where
  | block
  | aggregation
  | attestation
  | unknown
  deriving DecidableEq, Repr

/-- The `match topic_kind` of `handle_gossipsub_message` (handler.rs 30-134). -/
def routeOf (topic : List Char) : Route :=
  match (splitSlash topic)[3]? with
  | none => .unknown
  | some kind =>
    if kind = "block".toList then .block
    else if kind = "aggregation".toList then .aggregation
    else if "attestation".toList.isPrefixOf kind then .attestation
    else .unknown

/-! ### Subnets -/

/-- `attestation_subscription_subnets` (lib.rs 183-205).  The set is a list.  The committee count is at
least one (checked at start-up, `bin/ethlambda/src/main.rs` 175-178), otherwise `%` would panic. -/
def subscriptionSubnets (validators : List Nat) (committees : Nat) (isAggregator : Bool)
    (aggregateSubnets : Option (List Nat)) : List Nat :=
  let subnets := validators.map (· % committees)
  if isAggregator then
    let subnets := match aggregateSubnets with
      | some ids => subnets ++ ids
      | none => subnets
    if subnets.isEmpty then [0] else subnets
  else subnets

/-- The subnet `publish_attestation` uses (handler.rs 141). -/
def publishSubnet (validator committees : Nat) : Nat := validator % committees

end Verif.Net
