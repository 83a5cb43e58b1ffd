import Verif.Lemmas.SszLayout
import Verif.Props.C66_Wire

/-
C118 — every block, vote and aggregate fits the wire and is read back exactly.

The ranges of the Rust types (`SignedOk` and so on, Spec/Ssz) are the only hypotheses on the values; of the crate `snap`
the properties `SnappyOk` and `RawOk` are assumed, of `libssz` that it implements the SSZ rules (Model/Ssz).
-/

namespace Verif.Ssz

open Verif.Net (Bytes Snappy writeBlocks decodeBlocks writePayload decodePayload maxSend maxCompressed)
open Verif.Net.Wire (SnappyOk maxSend_eq maxCompressed_eq maxPayload_eq)

/-- **C118.** The bytes of a signed block, field by field: the order of the fields and the offsets are those of the
specification. -/
theorem C118_layout (b : Signed) : encSigned b = Layout.signed b := signed_layout b

/-- **C118.** Every block, vote and aggregated vote is read back from its bytes exactly as it was. -/
theorem C118_read_back :
    (∀ b, SignedOk b → decSigned (encSigned b) = some b) ∧
    (∀ v, VoteOk v → decVote (encVote v) = some v) ∧
    (∀ a, AggOk a → decAgg (encAgg a) = some a) :=
  ⟨fun _ => dec_signed, fun _ => dec_vote, fun _ => dec_agg⟩

/-- **C118.** Whatever bytes arrive: what is decoded respects the limits (number of attestations, number of bits, size
of proof and signature). -/
theorem C118_in_range (bs : Bytes) :
    (∀ b, decSigned bs = some b → SignedOk b) ∧
    (∀ v, decVote bs = some v → VoteOk v) ∧
    (∀ a, decAgg bs = some a → AggOk a) :=
  ⟨fun _ => signed_ok, fun _ => vote_ok, fun _ => agg_ok⟩

/-- **C118.** Sizes: a block has at most 3 182 692 bytes, one with at most eight attestations (the limit for accepted
blocks) at most 529 580, a vote exactly 2672, an aggregated vote at most 524 941. -/
theorem C118_sizes :
    (∀ b, SignedOk b → (encSigned b).length ≤ 3182692) ∧
    (∀ b, SignedOk b → b.message.body.length ≤ 8 → (encSigned b).length ≤ 529580) ∧
    (∀ v, VoteOk v → (encVote v).length = 2672) ∧
    (∀ a, AggOk a → (encAgg a).length ≤ 524941) := by
  refine ⟨fun b h => ?_, fun b h hb => ?_, fun v h => encVote_length h, fun a h => ?_⟩
  · have := encSigned_length h
    have := h.1.2.2.2.2.1
    have := h.2
    omega
  · have := encSigned_length h
    have := h.2
    omega
  · have := encAgg_length h
    have := h.2.2
    omega

/-- A response, every block of which is small enough and is read back. -/
theorem blocks_all {Z : Snappy} (hZ : SnappyOk Z) {B : Type} (ssz : B → Bytes) (unssz : Bytes → Option B) (bs : List B)
    (hs : ∀ b ∈ bs, unssz (ssz b) = some b ∧ (ssz b).length ≤ maxSend) :
    ∃ q, writeBlocks Z ssz bs = .ok q ∧ decodeBlocks Z unssz q = .ok bs := by
  induction bs with
  | nil => exact ⟨[], rfl, rfl⟩
  | cons b bs ih =>
    obtain ⟨r, hr, hd⟩ := ih (fun x hx => hs x (by simp [hx]))
    obtain ⟨h1, hb⟩ := hs b (by simp)
    obtain ⟨p, hp, hpd⟩ := Verif.Net.C66_payload hZ (ssz b) hb
    refine ⟨(0 : UInt8) :: (p ++ r), ?_, ?_⟩
    · simp only [writeBlocks]
      rw [if_neg (by omega), hp, hr]
    · rw [Verif.Net.Wire.decodeBlocks_cons, hpd r]
      simp only [ne_eq, not_true_eq_false, if_false, h1, hd]

/-- **C118.** No block is ever left out of a response because of its size: the peer that asked reads exactly the blocks
that were served, all of them and in order. -/
theorem C118_served {Z : Snappy} (hZ : SnappyOk Z) (bs : List Signed) (h : ∀ b ∈ bs, SignedOk b) :
    ∃ q, writeBlocks Z encSigned bs = .ok q ∧ decodeBlocks Z decSigned q = .ok bs := by
  refine blocks_all hZ encSigned decSigned bs (fun b hb => ⟨dec_signed (h b hb), ?_⟩)
  have := C118_sizes.1 b (h b hb)
  rw [maxSend_eq]; omega

theorem gossip {Z : RawCodec} (hZ : RawOk Z) {α : Type} (enc : α → Bytes) (dec : Bytes → Option α) (x : α)
    (hd : dec (enc x) = some x) (hs : (enc x).length ≤ 3182692) :
    receive Z dec (publish Z enc x) = some x ∧ (publish Z enc x).length + 1024 ≤ maxCompressed := by
  constructor
  · unfold receive publish Verif.Net.decompressMessage
    rw [hZ.len]
    simp only
    rw [if_neg (by rw [maxPayload_eq]; omega), hZ.inverse]
    exact hd
  · have := hZ.size (enc x)
    rw [maxCompressed_eq]
    unfold publish
    omega

/-- **C118.** Gossip: what a node publishes, a node that receives the message decodes to the same block, vote or
aggregated vote, and the message stays below the transmission limit of gossipsub with a KiB to spare (for the topic). -/
theorem C118_gossip {Z : RawCodec} (hZ : RawOk Z) :
    (∀ b, SignedOk b → receive Z decSigned (publish Z encSigned b) = some b ∧
      (publish Z encSigned b).length + 1024 ≤ maxCompressed) ∧
    (∀ v, VoteOk v → receive Z decVote (publish Z encVote v) = some v ∧
      (publish Z encVote v).length + 1024 ≤ maxCompressed) ∧
    (∀ a, AggOk a → receive Z decAgg (publish Z encAgg a) = some a ∧
      (publish Z encAgg a).length + 1024 ≤ maxCompressed) := by
  obtain ⟨s1, _, s3, s4⟩ := C118_sizes
  refine ⟨fun b h => gossip hZ _ _ b (dec_signed h) (s1 b h), fun v h => gossip hZ _ _ v (dec_vote h) ?_,
    fun a h => gossip hZ _ _ a (dec_agg h) ?_⟩
  · rw [s3 v h]; omega
  · have := s4 a h; omega

/-- **C118.** Requests and status messages: the other side reads from the stream what was asked. -/
theorem C118_requests {Z : Snappy} (hZ : SnappyOk Z) :
    (∀ rs : List Root, (∀ r ∈ rs, r < 2 ^ 256) → rs.length ≤ 1024 →
      ∃ q, writePayload Z (encByRoot rs) = .ok q ∧
        ∀ s, ∃ d c, decodePayload Z (q ++ s) = .ok (d, c, s) ∧ decByRoot d = some rs) ∧
    (∀ r : Nat × Nat, r.1 < 2 ^ 64 → r.2 < 2 ^ 64 →
      ∃ q, writePayload Z (encByRange r) = .ok q ∧
        ∀ s, ∃ d c, decodePayload Z (q ++ s) = .ok (d, c, s) ∧ decByRange d = some r) ∧
    (∀ t : Checkpoint × Checkpoint, CpOk t.1 → CpOk t.2 →
      ∃ q, writePayload Z (encStatus t) = .ok q ∧
        ∀ s, ∃ d c, decodePayload Z (q ++ s) = .ok (d, c, s) ∧ decStatus d = some t) := by
  have hm := maxSend_eq
  refine ⟨fun rs h hl => ?_, fun r h1 h2 => ?_, fun t h1 h2 => ?_⟩
  · obtain ⟨e1, e2⟩ := dec_byRoot h hl
    obtain ⟨q, hq, hd⟩ := Verif.Net.C66_payload hZ (encByRoot rs) (by omega)
    exact ⟨q, hq, fun s => ⟨_, _, hd s, e1⟩⟩
  · obtain ⟨e1, e2⟩ := dec_byRange h1 h2
    obtain ⟨q, hq, hd⟩ := Verif.Net.C66_payload hZ (encByRange r) (by omega)
    exact ⟨q, hq, fun s => ⟨_, _, hd s, e1⟩⟩
  · have e := encStatus_length t
    obtain ⟨q, hq, hd⟩ := Verif.Net.C66_payload hZ (encStatus t) (by omega)
    exact ⟨q, hq, fun s => ⟨_, _, hd s, dec_status h1 h2⟩⟩

/-- **C118.** States, which are stored and handed to nodes that start from a checkpoint, are read back exactly. -/
theorem C118_state (s : State) (h : StateOk s) : decState (encState s) = some s := dec_state h

/-- **C118.** Different blocks have different bytes. -/
theorem C118_injective (a b : Signed) (ha : SignedOk a) (hb : SignedOk b) (h : encSigned a = encSigned b) : a = b := by
  have e := dec_signed ha
  rw [h, dec_signed hb] at e
  exact (Option.some.inj e).symm

/-! A block of slot 5 with two attestations, of nine and of no validators, and a proof of three bytes. -/

def sampleData : AttData := ⟨4, ⟨700, 4⟩, ⟨600, 3⟩, ⟨500, 1⟩⟩

def sampleBlock : Signed :=
  ⟨⟨5, 1, 700, 2 ^ 255 + 9, [⟨[true, false, false, true, false, false, false, false, true], sampleData⟩, ⟨[], sampleData⟩]⟩,
    [7, 8, 9]⟩

example : SignedOk sampleBlock := by
  refine ⟨⟨by decide, by decide, by decide, by decide, by decide, ?_⟩, by decide⟩
  intro a ha
  simp only [sampleBlock, List.mem_cons, List.not_mem_nil, or_false] at ha
  rcases ha with rfl | rfl <;> exact ⟨by decide, by decide, ⟨by decide, by decide⟩, ⟨by decide, by decide⟩, by decide, by decide⟩

example : bitlist [true, false, false, true, false, false, false, false, true] = [9, 3] := by decide +kernel

/-- 8 + 84 + 4 bytes, two offsets, attestations of 134 and 133 bytes, and 4 + 3 bytes of proof. -/
example : (encSigned sampleBlock).length = 378 ∧ decSigned (encSigned sampleBlock) = some sampleBlock := by
  decide +kernel

/-- A block cut short, or with one byte more in front, is refused. -/
example : decSigned ((encSigned sampleBlock).take 90) = none ∧ decSigned (0 :: encSigned sampleBlock) = none := by
  decide +kernel

/-- The identity meets `RawOk`. -/
example : RawOk ⟨⟨fun d => some d.length, some⟩, id⟩ :=
  ⟨fun _ => rfl, fun _ => rfl, fun d => by show d.length ≤ _; omega⟩

def sampleState : State :=
  ⟨3, 1, ⟨1, 0, 5, 6, 7⟩, ⟨5, 0⟩, ⟨5, 0⟩, [5], [true], [⟨1, 2, 0⟩], [], []⟩

example : StateOk sampleState := by
  refine ⟨by decide, by decide, by unfold HeaderOk; decide, by unfold CpOk; decide, by unfold CpOk; decide, by decide,
    by decide, ⟨by decide, ?_⟩, by decide, by decide⟩
  intro v hv
  simp only [sampleState, List.mem_cons, List.not_mem_nil, or_false] at hv
  subst hv
  exact ⟨by decide +kernel, by decide +kernel, by decide⟩

end Verif.Ssz
