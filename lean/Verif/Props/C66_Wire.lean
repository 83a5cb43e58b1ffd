import Verif.Lemmas.Wire
import Verif.Spec.WireWitness

/-
C66 — payloads and block responses survive the wire; a cut connection only loses blocks from the end.

Assumed of the crates the code calls: `SnappyOk` (Spec/Wire) of `snap`, and that SSZ decoding inverts
SSZ encoding on blocks.  `Wire.raw_ok` shows that `SnappyOk` can be met.
-/

namespace Verif.Net

open Wire

/-- A payload that `write_payload` accepts is read back by `decode_payload`, together with its
compressed size, and the bytes after it stay in the stream. -/
theorem C66_payload {Z : Snappy} (hZ : SnappyOk Z) (d : Bytes) (hd : d.length ≤ maxSend) :
    ∃ p, writePayload Z d = .ok p ∧
      ∀ rest, decodePayload Z (p ++ rest) = .ok (d, (Z.enc d).length, rest) := by
  refine ⟨_, if_neg (by omega), fun rest => payload_accepted hZ rest (if_neg (by omega))⟩

/-- **C66.** Payloads of other implementations are read as well, up to the full 10 MiB: any sequence of chunks of the
framing format, compressed, plain, or to be skipped (such as the stream identifier and padding), that ends with the last
byte of data. -/
theorem C66_foreign {Z : Snappy} {d f : Bytes} (hd : d ≠ []) (hle : d.length ≤ 10485760)
    (hf : IsFrame Z d.length f) (hsz : f.length ≤ maxCompressed) (hdec : Z.dec f d.length = some d) (rest : Bytes) :
    decodePayload Z (encodeVarint d.length ++ f ++ rest) = .ok (d, f.length, rest) :=
  foreign_accepted rest hd (by rw [maxPayload_eq]; exact hle) hf hsz hdec

/-- A decoder that skips chunks of other types than 1. -/
def skipDec : Nat → Bytes → Bytes
  | 0, _ => []
  | _ + 1, [] => []
  | fuel + 1, s =>
    let n := chunkBodyLen (s.take 4)
    (if s.head? = some 1 then ((s.drop 4).take n).drop 4 else []) ++ skipDec fuel (s.drop (4 + n))

def skipping : Snappy := ⟨raw.enc, fun _ => none, fun s n =>
  let d := skipDec s.length s; if d.length = n then some d else none⟩

/-- The stream identifier, a reserved chunk of type 0x80, and two chunks of data. -/
theorem C66_foreign_instance : decodePayload skipping
      (encodeVarint 3 ++ ([255, 2, 0, 0, 115, 78] ++ ([128, 1, 0, 0, 9] ++ ([1, 5, 0, 0, 0, 0, 0, 0, 1] ++
        [1, 6, 0, 0, 0, 0, 0, 0, 2, 3]))) ++ [7]) = .ok ([1, 2, 3], 30, [7]) := by
  refine C66_foreign (d := [1, 2, 3]) (by decide) (by decide) ?_
    (by rw [maxCompressed_eq]; decide) (by decide +kernel) [7]
  refine .cons _ 0 _ _ (by decide) ⟨_, _, _, _, _, rfl, by decide, .inr (.inr ⟨by decide, rfl⟩)⟩ ?_
  refine .cons _ 0 _ _ (by decide) ⟨_, _, _, _, _, rfl, by decide, .inr (.inr ⟨by decide, rfl⟩)⟩ ?_
  refine .cons _ 1 _ _ (by decide) ⟨_, _, _, _, _, rfl, by decide, .inr (.inl ⟨by decide, rfl⟩)⟩ ?_
  exact .last _ _ (by decide) ⟨_, _, _, _, _, rfl, by decide, .inr (.inl ⟨by decide, rfl⟩)⟩

example : ∃ p, writePayload raw [1, 2, 3] = .ok p ∧
    decodePayload raw (p ++ [7]) = .ok ([1, 2, 3], 11, [7]) :=
  ⟨[3, 1, 7, 0, 0, 0, 0, 0, 0, 1, 2, 3], by decide +kernel, by decide +kernel⟩

/-- Whatever bytes a peer sends, an accepted payload is at most `MAX_PAYLOAD_SIZE` bytes and at most
`MAX_COMPRESSED_PAYLOAD_SIZE` bytes of compressed data were buffered for it.  Assumed: the frame
decoder followed by `read_exact` of `n` bytes yields `n` bytes. -/
theorem C66_bounded (Z : Snappy) (hlen : ∀ f n d, Z.dec f n = some d → d.length = n)
    (s d rest : Bytes) (c : Nat) (h : decodePayload Z s = .ok (d, c, rest)) :
    d.length ≤ maxPayload ∧ c ≤ maxCompressed := by
  unfold decodePayload at h
  match h1 : readVarint s with
  | .error e => rw [h1] at h; cases h
  | .ok (v, s1) =>
    rw [h1] at h
    simp only at h
    by_cases hb : v > maxPayload
    · rw [if_pos hb] at h; cases h
    · rw [if_neg hb] at h
      by_cases h0 : v = 0
      · rw [if_pos h0] at h
        simp only [Except.ok.injEq, Prod.mk.injEq] at h
        rw [← h.1, ← h.2.1]; simp
      · rw [if_neg h0] at h
        unfold readFrame at h
        match h2 : readFrameLoop Z v (s1.length + 1) [] 0 s1 with
        | .error e => rw [h2] at h; cases h
        | .ok (f, r1) =>
          rw [h2] at h
          simp only at h
          match h3 : Z.dec f v with
          | none => rw [h3] at h; cases h
          | some d' =>
            rw [h3] at h
            simp only [Except.ok.injEq, Prod.mk.injEq] at h
            have := (readFrameLoop_ok Z v _ _ _ _ _ _ h2 (by simp)).1
            rw [← h.1, ← h.2.1, hlen _ _ _ h3]
            omega

example (f : Bytes) (n : Nat) (d : Bytes) (h : raw.dec f n = some d) : d.length = n := by
  simp only [raw] at h
  split at h
  · rw [← Option.some.inj h]; assumption
  · cases h

/-- The blocks that are small enough to be sent. -/
def Sendable {B : Type} (ssz : B → Bytes) (bs : List B) : List B :=
  bs.filter (fun b => decide ((ssz b).length ≤ maxSend))

theorem writeBlocks_cons_big {Z : Snappy} {B : Type} {ssz : B → Bytes} {b : B} (bs : List B)
    (h : ¬ (ssz b).length ≤ maxSend) : writeBlocks Z ssz (b :: bs) = writeBlocks Z ssz bs := by
  simp only [writeBlocks]
  rw [if_pos (by omega)]

theorem writeBlocks_cons_small {Z : Snappy} {B : Type} {ssz : B → Bytes} {b : B} {bs : List B}
    {q : Bytes} (h : (ssz b).length ≤ maxSend) (hq : writeBlocks Z ssz (b :: bs) = .ok q) :
    ∃ p rest, writePayload Z (ssz b) = .ok p ∧ writeBlocks Z ssz bs = .ok rest ∧
      q = (0 : UInt8) :: (p ++ rest) := by
  simp only [writeBlocks] at hq
  rw [if_neg (by omega)] at hq
  match hp : writePayload Z (ssz b) with
  | .error e => rw [hp] at hq; cases hq
  | .ok p =>
    rw [hp] at hq
    simp only at hq
    match hr : writeBlocks Z ssz bs with
    | .error e => rw [hr] at hq; cases hq
    | .ok rest =>
      rw [hr] at hq
      simp only [Except.ok.injEq] at hq
      exact ⟨p, rest, rfl, rfl, hq.symm⟩

/-- A block response is always written, and the receiver reads exactly the blocks that were small
enough, in order. -/
theorem C66_blocks {Z : Snappy} (hZ : SnappyOk Z) {B : Type} (ssz : B → Bytes)
    (unssz : Bytes → Option B) (hs : ∀ b, unssz (ssz b) = some b) (bs : List B) :
    ∃ q, writeBlocks Z ssz bs = .ok q ∧ decodeBlocks Z unssz q = .ok (Sendable ssz bs) := by
  induction bs with
  | nil => exact ⟨[], rfl, rfl⟩
  | cons b bs ih =>
    obtain ⟨r, hr, hd⟩ := ih
    by_cases hb : (ssz b).length ≤ maxSend
    · obtain ⟨p, hp, hpd⟩ := C66_payload hZ (ssz b) hb
      refine ⟨(0 : UInt8) :: (p ++ r), ?_, ?_⟩
      · simp only [writeBlocks]
        rw [if_neg (by omega), hp, hr]
      · rw [decodeBlocks_cons, hpd r]
        simp only [ne_eq, not_true_eq_false, if_false, hs, hd]
        simp [Sendable, hb]
    · refine ⟨r, by rw [writeBlocks_cons_big bs hb]; exact hr, ?_⟩
      rw [hd]
      simp [Sendable, hb]

/-- If the connection is cut anywhere, the receiver either reports an error or returns the first few of
the blocks; it never returns anything else. -/
theorem C66_cut {Z : Snappy} (hZ : SnappyOk Z) {B : Type} (ssz : B → Bytes)
    (unssz : Bytes → Option B) (hs : ∀ b, unssz (ssz b) = some b) (bs : List B) :
    ∀ (q : Bytes), writeBlocks Z ssz bs = .ok q → ∀ (k : Nat) (got : List B),
      decodeBlocks Z unssz (q.take k) = .ok got →
      got <+: Sendable ssz bs ∧ (k < q.length → got.length < (Sendable ssz bs).length) := by
  induction bs with
  | nil =>
    intro q hq k got h
    simp only [writeBlocks, Except.ok.injEq] at hq
    subst hq
    simp only [List.take_nil] at h
    have : got = [] := by
      have h2 : decodeBlocks Z unssz [] = .ok [] := rfl
      rw [h2] at h; exact (Except.ok.inj h).symm
    subst this
    exact ⟨List.nil_prefix, fun h => by simp at h⟩
  | cons b bs ih =>
    intro q hq k got h
    by_cases hb : (ssz b).length ≤ maxSend
    · obtain ⟨p, rest, hp, hr, rfl⟩ := writeBlocks_cons_small hb hq
      have hS : Sendable ssz (b :: bs) = b :: Sendable ssz bs := by
        simp [Sendable, hb]
      rw [hS]
      match k with
      | 0 =>
        have h2 : decodeBlocks Z unssz ([] : Bytes) = .ok [] := rfl
        simp only [List.take_zero] at h
        rw [h2] at h
        have := Except.ok.inj h
        subst this
        exact ⟨List.nil_prefix, fun _ => by simp⟩
      | k + 1 =>
        simp only [List.take_succ_cons] at h
        rw [decodeBlocks_cons] at h
        match hd : decodePayload Z ((p ++ rest).take k) with
        | .error e => rw [hd] at h; cases h
        | .ok (d, c, r) =>
          have happ := decodePayload_append hd ((p ++ rest).drop k)
          rw [List.take_append_drop, payload_accepted hZ rest hp] at happ
          simp only [Except.ok.injEq, Prod.mk.injEq] at happ
          obtain ⟨h1, _, h3⟩ := happ
          rw [hd] at h
          simp only [ne_eq, not_true_eq_false, if_false] at h
          rw [← h1, hs b] at h
          simp only at h
          have hrt : r = rest.take r.length := by rw [h3]; simp
          have hk : r.length + (p ++ rest).length = rest.length + min k (p ++ rest).length := by
            have := congrArg List.length h3
            simp only [List.length_append, List.length_drop] at this
            simp only [List.length_append]
            omega
          match hg : decodeBlocks Z unssz r with
          | .error e => rw [hg] at h; cases h
          | .ok gs =>
            rw [hg] at h
            simp only [Except.ok.injEq] at h
            subst h
            rw [hrt] at hg
            obtain ⟨i1, i2⟩ := ih rest hr r.length gs hg
            refine ⟨?_, ?_⟩
            · rw [List.cons_prefix_cons]; exact ⟨rfl, i1⟩
            · intro hlt
              simp only [List.length_cons] at hlt ⊢
              have := i2 (by omega)
              omega
    · rw [writeBlocks_cons_big bs hb] at hq
      have hS : Sendable ssz (b :: bs) = Sendable ssz bs := by
        simp [Sendable, hb]
      rw [hS]
      exact ih q hq k got h

/-! A response of two "blocks" (their own bytes), whole and cut. -/

example : writeBlocks raw (fun b : Bytes => b) [[5, 6], [7]]
    = .ok [0, 2, 1, 6, 0, 0, 0, 0, 0, 0, 5, 6, 0, 1, 1, 5, 0, 0, 0, 0, 0, 0, 7] := by decide +kernel

example : decodeBlocks raw some [0, 2, 1, 6, 0, 0, 0, 0, 0, 0, 5, 6, 0, 1, 1, 5, 0, 0, 0, 0, 0, 0, 7]
    = .ok [[5, 6], [7]] := by decide +kernel

example : decodeBlocks raw some [0, 2, 1, 6, 0, 0, 0, 0, 0, 0, 5, 6, 0, 1, 1]
    = .error .eof := by decide +kernel

example : decodeBlocks raw some [0, 2, 1, 6, 0, 0, 0, 0, 0, 0, 5, 6]
    = .ok [[5, 6]] := by decide +kernel

/-- A chunk with another response code is skipped. -/
example : decodeBlocks raw some [3, 2, 1, 6, 0, 0, 0, 0, 0, 0, 5, 6, 0, 1, 1, 5, 0, 0, 0, 0, 0, 0, 7]
    = .ok [[7]] := by decide +kernel

end Verif.Net
