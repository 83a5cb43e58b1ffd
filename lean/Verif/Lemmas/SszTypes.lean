import Verif.Lemmas.Ssz
import Verif.Spec.Ssz

/-
Helper lemmas for C118: the types of the code are read back, and their sizes.
-/

namespace Verif.Ssz

open Verif.Net (Bytes)

theorem le8 {n : Nat} (h : n < 2 ^ 64) : unle (le 8 n) = n := unle_le 8 n (by simpa using h)
theorem le32 {n : Nat} (h : n < 2 ^ 256) : unle (le 32 n) = n := unle_le 32 n (by simpa using h)
theorem le52 {n : Nat} (h : n < 256 ^ 52) : unle (le 52 n) = n := unle_le 52 n h

@[simp] theorem encCheckpoint_length (c : Checkpoint) : (encCheckpoint c).length = 40 := by
  simp [encCheckpoint, assemble_length, headLen, Part.size, tails]

theorem dec_checkpoint {c : Checkpoint} (h : CpOk c) : decCheckpoint (encCheckpoint c) = some c := by
  have hs := encCheckpoint_length c
  unfold encCheckpoint at hs
  unfold decCheckpoint encCheckpoint
  rw [split_assemble' _ (by simp [Part.size]) (by rw [hs]; omega)]
  simp [Part.bytes, le8 h.2, le32 h.1]

@[simp] theorem encData_length (d : AttData) : (encData d).length = 128 := by
  simp [encData, assemble_length, headLen, Part.size, tails]

theorem dec_data {d : AttData} (h : DataOk d) : decData (encData d) = some d := by
  have hs := encData_length d
  unfold encData at hs
  unfold decData encData
  rw [split_assemble' _ (by simp [Part.size]) (by rw [hs]; omega)]
  simp [Part.bytes, le8 h.1, dec_checkpoint h.2.1, dec_checkpoint h.2.2.1, dec_checkpoint h.2.2.2]

theorem encAtt_length (a : AggAtt) : (encAtt a).length = 133 + a.bits.length / 8 := by
  simp [encAtt, assemble_length, headLen, Part.size, tails, bitlist_length]; omega

theorem dec_att {a : AggAtt} (h : AttOk a) : decAtt (encAtt a) = some a := by
  have hs := encAtt_length a
  have hb := h.1
  unfold encAtt at hs
  unfold decAtt encAtt
  rw [split_assemble' _ (by simp [Part.size]) (by rw [hs]; omega)]
  simp [Part.bytes, unbitlist_bitlist a.bits h.1, dec_data h.2]

theorem encAtts_length {as : List AggAtt} (h : ∀ a ∈ as, AttOk a) : (encAtts as).length ≤ 649 * as.length := by
  unfold encAtts
  rw [assemble_length, headLen_vars]
  have := tails_vars_le encAtt 645 as (fun a ha => by
    have := (h a ha).1
    rw [encAtt_length]; omega)
  omega

theorem dec_atts {as : List AggAtt} (h : ∀ a ∈ as, AttOk a) (hl : as.length ≤ 4096) :
    decAtts (encAtts as) = some as := by
  have := encAtts_length h
  unfold encAtts at this
  exact unvarList_enc (fun a ha => dec_att (h a ha)) hl (by omega)

theorem encBody_length {as : List AggAtt} (h : ∀ a ∈ as, AttOk a) : (encBody as).length ≤ 4 + 649 * as.length := by
  have := encAtts_length h
  simp [encBody, assemble_length, headLen, Part.size, tails]; omega

theorem dec_body {as : List AggAtt} (h : ∀ a ∈ as, AttOk a) (hl : as.length ≤ 4096) :
    decBody (encBody as) = some as := by
  have hs := encBody_length h
  unfold encBody at hs
  unfold decBody encBody
  rw [split_assemble' _ (by simp [Part.size]) (by omega)]
  simp [Part.bytes, dec_atts h hl]

theorem encBlock_length {b : Block} (h : BlockOk b) : (encBlock b).length ≤ 88 + 649 * b.body.length := by
  have := encBody_length h.2.2.2.2.2
  simp [encBlock, assemble_length, headLen, Part.size, tails]; omega

theorem dec_block {b : Block} (h : BlockOk b) : decBlock (encBlock b) = some b := by
  have hs := encBlock_length h
  obtain ⟨h1, h2, h3, h4, h5, h6⟩ := h
  unfold encBlock at hs
  unfold decBlock encBlock
  rw [split_assemble' _ (by simp [Part.size]) (by omega)]
  simp [Part.bytes, dec_body h6 h5, le8 h1, le8 h2, le32 h3, le32 h4]

theorem proof_length (p : Bytes) : (assemble [.var p]).length = 4 + p.length := by
  simp [assemble_length, headLen, Part.size, tails]

theorem dec_proof {p : Bytes} (h : p.length ≤ 524288) : split [none] (assemble [.var p]) = some [p] := by
  rw [split_assemble' _ (by simp [Part.size]) (by rw [proof_length]; omega)]
  simp [Part.bytes]

theorem encSigned_length {b : Signed} (h : SignedOk b) :
    (encSigned b).length ≤ 100 + 649 * b.message.body.length + b.proof.length := by
  have := encBlock_length h.1
  have e := proof_length b.proof
  unfold encSigned
  rw [assemble_length]
  simp only [tails, List.length_append, e, List.map_cons, List.map_nil, headLen, Part.size, List.length_nil]
  simp; omega

theorem dec_signed {b : Signed} (h : SignedOk b) : decSigned (encSigned b) = some b := by
  have hs := encSigned_length h
  have h1 := h.1.2.2.2.2.1
  have h2 := h.2
  unfold encSigned at hs
  unfold decSigned encSigned
  rw [split_assemble' _ (by simp [Part.size]) (by omega)]
  simp [Part.bytes, dec_block h.1, dec_proof h2, decProof, h2]

theorem encVote_length {v : SignedVote} (h : VoteOk v) : (encVote v).length = 2672 := by
  simp [encVote, assemble_length, headLen, Part.size, tails, h.2.2]

theorem dec_vote {v : SignedVote} (h : VoteOk v) : decVote (encVote v) = some v := by
  have hs := encVote_length h
  unfold encVote at hs
  unfold decVote encVote
  rw [split_assemble' _ (by simp [Part.size, h.2.2]) (by rw [hs]; omega)]
  simp [Part.bytes, le8 h.1, dec_data h.2.1]

theorem pair_length (x y : Bytes) : (assemble [.var x, .var y]).length = 8 + x.length + y.length := by
  simp [assemble_length, headLen, Part.size, tails]; omega

theorem encAgg_length {a : SignedAgg} (h : AggOk a) : (encAgg a).length ≤ 653 + a.proof.length := by
  have e := pair_length (bitlist a.participants) a.proof
  have hb := bitlist_length a.participants
  have h1 := h.2.1
  unfold encAgg
  rw [assemble_length]
  simp only [tails, List.length_append, e, List.map_cons, List.map_nil, headLen, Part.size, List.length_nil,
    encData_length]
  simp; omega

theorem dec_agg {a : SignedAgg} (h : AggOk a) : decAgg (encAgg a) = some a := by
  have hs := encAgg_length h
  have e := pair_length (bitlist a.participants) a.proof
  have hb := bitlist_length a.participants
  obtain ⟨h1, h2, h3⟩ := h
  have hp : split [none, none] (assemble [.var (bitlist a.participants), .var a.proof])
      = some [bitlist a.participants, a.proof] := by
    rw [split_assemble' _ (by simp [Part.size]) (by omega)]
    simp [Part.bytes]
  unfold encAgg at hs
  unfold decAgg encAgg
  rw [split_assemble' _ (by simp [Part.size]) (by omega)]
  simp [Part.bytes, dec_data h1, hp, unbitlist_bitlist _ h2, decProof, h3]

theorem encStatus_length (s : Checkpoint × Checkpoint) : (encStatus s).length = 80 := by
  simp [encStatus, assemble_length, headLen, Part.size, tails]

theorem dec_status {s : Checkpoint × Checkpoint} (h1 : CpOk s.1) (h2 : CpOk s.2) :
    decStatus (encStatus s) = some s := by
  have hs := encStatus_length s
  unfold encStatus at hs
  unfold decStatus encStatus
  rw [split_assemble' _ (by simp [Part.size]) (by rw [hs]; omega)]
  simp [Part.bytes, dec_checkpoint h1, dec_checkpoint h2]

theorem encRoots_length (rs : List Root) : (encRoots rs).length = 32 * rs.length :=
  flatMap_length _ 32 rs (fun _ _ => le_length _ _)

theorem dec_roots {max : Nat} {rs : List Root} (h : ∀ r ∈ rs, r < 2 ^ 256) (hl : rs.length ≤ max) :
    decRoots max (encRoots rs) = some rs :=
  unfixedList_enc (by omega) (fun _ _ => le_length _ _) (fun r hr => by rw [le32 (h r hr)]) hl

theorem dec_byRoot {rs : List Root} (h : ∀ r ∈ rs, r < 2 ^ 256) (hl : rs.length ≤ 1024) :
    decByRoot (encByRoot rs) = some rs ∧ (encByRoot rs).length ≤ 32772 := by
  have e := encRoots_length rs
  have e2 : (encByRoot rs).length = 4 + (encRoots rs).length := proof_length _
  refine ⟨?_, by omega⟩
  unfold encByRoot at e2
  unfold decByRoot encByRoot
  rw [split_assemble' _ (by simp [Part.size]) (by omega)]
  simp [Part.bytes, dec_roots h hl]

theorem dec_byRange {r : Nat × Nat} (h1 : r.1 < 2 ^ 64) (h2 : r.2 < 2 ^ 64) :
    decByRange (encByRange r) = some r ∧ (encByRange r).length = 16 := by
  have e : (encByRange r).length = 16 := by simp [encByRange, assemble_length, headLen, Part.size, tails]
  refine ⟨?_, e⟩
  unfold encByRange at e
  unfold decByRange encByRange
  rw [split_assemble' _ (by simp [Part.size]) (by omega)]
  simp [Part.bytes, le8 h1, le8 h2]

@[simp] theorem encHeader_length (h : Header) : (encHeader h).length = 112 := by
  simp [encHeader, assemble_length, headLen, Part.size, tails]

theorem dec_header {h : Header} (hh : HeaderOk h) : decHeader (encHeader h) = some h := by
  have hs := encHeader_length h
  obtain ⟨h1, h2, h3, h4, h5⟩ := hh
  unfold encHeader at hs
  unfold decHeader encHeader
  rw [split_assemble' _ (by simp [Part.size]) (by rw [hs]; omega)]
  simp [Part.bytes, le8 h1, le8 h2, le32 h3, le32 h4, le32 h5]

theorem encValidator_length (v : Validator) : (encValidator v).length = 112 := by
  simp [encValidator, assemble_length, headLen, Part.size, tails]

theorem dec_validator {v : Validator} (h : ValidatorOk v) : decValidator (encValidator v) = some v := by
  have hs := encValidator_length v
  obtain ⟨h1, h2, h3⟩ := h
  unfold encValidator at hs
  unfold decValidator encValidator
  rw [split_assemble' _ (by simp [Part.size]) (by rw [hs]; omega)]
  simp [Part.bytes, le52 h1, le52 h2, le8 h3]

theorem encState_length (s : State) : (encState s).length = 230 + 32 * s.historicalBlockHashes.length +
    s.justifiedSlots.length / 8 + 112 * s.validators.length + 32 * s.justificationsRoots.length +
      s.justificationsValidators.length / 8 := by
  have e := flatMap_length encValidator 112 s.validators (fun _ _ => encValidator_length _)
  unfold encState
  rw [assemble_length]
  simp only [tails, List.length_append, List.map_cons, List.map_nil, headLen, Part.size, List.length_nil,
    encRoots_length, bitlist_length, e, encHeader_length, encCheckpoint_length, le_length]
  simp; omega

theorem dec_state {s : State} (h : StateOk s) : decState (encState s) = some s := by
  have hs := encState_length s
  have hv : unfixedList 112 4096 decValidator (s.validators.flatMap encValidator) = some s.validators :=
    unfixedList_enc (by omega) (fun _ _ => encValidator_length _) (fun v hv => dec_validator (h.validators.2 v hv))
      h.validators.1
  have b1 := h.hashes.1
  have b2 := h.justifiedSlots
  have b3 := h.validators.1
  have b4 := h.roots.1
  have b5 := h.votes
  unfold encState at hs
  unfold decState encState
  rw [split_assemble' _ (by simp [Part.size]) (by omega)]
  simp only [Part.bytes, List.map_cons, List.map_nil, dec_header h.header, dec_checkpoint h.justified,
    dec_checkpoint h.finalized, dec_roots h.hashes.2 h.hashes.1, unbitlist_bitlist _ h.justifiedSlots, hv,
    dec_roots h.roots.2 h.roots.1, unbitlist_bitlist _ h.votes, le8 h.genesisTime, le8 h.slot]
  rfl

/-! ### What is accepted is in range -/

theorem readHeads_fill (l : List (Option Nat)) (bs : Bytes) (vs : List Bytes) (h : headLen l ≤ bs.length)
    {i n : Nat} {v : Bytes} (hi : l[i]? = some (some n)) (hv : (fill (readHeads l bs) vs)[i]? = some v) :
    v.length = n := by
  induction l generalizing bs vs i with
  | nil => simp at hi
  | cons a l ih =>
    cases a with
    | some m =>
      simp only [headLen, Option.getD_some] at h
      simp only [readHeads, fill] at hv
      cases i with
      | zero =>
        simp only [List.getElem?_cons_zero, Option.some.injEq] at hi hv
        rw [← hv, ← hi, List.length_take]; omega
      | succ i =>
        simp only [List.getElem?_cons_succ] at hi hv
        exact ih _ _ (by rw [List.length_drop]; omega) hi hv
    | none =>
      simp only [headLen, Option.getD_none] at h
      cases i with
      | zero => simp at hi
      | succ i =>
        cases vs with
        | nil => simp [readHeads, fill] at hv
        | cons w vs =>
          simp only [readHeads, fill, List.getElem?_cons_succ] at hi hv
          exact ih _ _ (by rw [List.length_drop]; omega) hi hv

/-- A field of fixed size has that size. -/
theorem split_fixed {l : List (Option Nat)} {bs : Bytes} {vs : List Bytes} (h : split l bs = some vs) {i n : Nat}
    {v : Bytes} (hi : l[i]? = some (some n)) (hv : vs[i]? = some v) : v.length = n := by
  unfold split at h
  split at h
  · cases h
  · simp only at h
    split at h
    · split at h
      · rw [← Option.some.inj h] at hv; exact readHeads_fill l bs _ (by omega) hi hv
      · cases h
    · split at h
      · cases h
      · split at h
        · cases h
        · rw [← Option.some.inj h] at hv; exact readHeads_fill l bs _ (by omega) hi hv

theorem unle8 {v : Bytes} (h : v.length = 8) : unle v < 2 ^ 64 := by
  have := unle_lt v; rw [h] at this; simpa using this

theorem unle32 {v : Bytes} (h : v.length = 32) : unle v < 2 ^ 256 := by
  have := unle_lt v; rw [h] at this; simpa using this

theorem checkpoint_ok {bs : Bytes} {c : Checkpoint} (h : decCheckpoint bs = some c) : CpOk c := by
  unfold decCheckpoint at h
  split at h
  · next r s e =>
    rw [← Option.some.inj h]
    exact ⟨unle32 (split_fixed e (i := 0) rfl rfl), unle8 (split_fixed e (i := 1) rfl rfl)⟩
  · cases h

theorem data_ok {bs : Bytes} {d : AttData} (h : decData bs = some d) : DataOk d := by
  unfold decData at h
  split at h
  · next s hd t c e =>
    simp only [Option.bind_eq_bind, Option.bind_eq_some_iff, Option.some.injEq] at h
    obtain ⟨a, ha, b, hb, c', hc, rfl⟩ := h
    exact ⟨unle8 (split_fixed e (i := 0) rfl rfl), checkpoint_ok ha, checkpoint_ok hb, checkpoint_ok hc⟩
  · cases h

theorem bitlist_ok {max : Nat} {bs : Bytes} {b : List Bool} (h : unbitlist max bs = some b) : b.length ≤ max := by
  unfold unbitlist at h
  split at h
  · cases h
  · split at h
    · cases h
    · simp only at h
      split at h
      · rw [← Option.some.inj h]; assumption
      · cases h

theorem proof_ok {bs p : Bytes} (h : decProof bs = some p) : p.length ≤ 524288 := by
  unfold decProof at h
  split at h
  · rw [← Option.some.inj h]; assumption
  · cases h

theorem att_ok {bs : Bytes} {a : AggAtt} (h : decAtt bs = some a) : AttOk a := by
  unfold decAtt at h
  split at h
  · simp only [Option.bind_eq_bind, Option.bind_eq_some_iff, Option.some.injEq] at h
    obtain ⟨b, hb, d, hd, rfl⟩ := h
    exact ⟨bitlist_ok hb, data_ok hd⟩
  · cases h

theorem mapM_ok {α : Type} (f : Bytes → Option α) (l : List Bytes) (xs : List α) (h : l.mapM f = some xs) :
    xs.length = l.length ∧ ∀ x ∈ xs, ∃ b, f b = some x := by
  induction l generalizing xs with
  | nil =>
    have : xs = [] := by simpa using h.symm
    subst this; simp
  | cons b l ih =>
    rw [List.mapM_cons] at h
    simp only [Option.bind_eq_bind, Option.bind_eq_some_iff] at h
    obtain ⟨x, hx, ys, hy, e⟩ := h
    have e : xs = x :: ys := (Option.some.inj e).symm
    subst e
    obtain ⟨i1, i2⟩ := ih ys hy
    refine ⟨by simp [i1], fun z hz => ?_⟩
    rcases List.mem_cons.mp hz with rfl | hz
    · exact ⟨b, hx⟩
    · exact i2 z hz

theorem fill_le (hs : List (Bytes ⊕ Nat)) (vs : List Bytes) : (fill hs vs).length ≤ hs.length := by
  induction hs generalizing vs with
  | nil => simp [fill]
  | cons a hs ih =>
    cases a with
    | inl b => simp [fill, ih]
    | inr o =>
      cases vs with
      | nil => simp [fill]
      | cons v vs => simp [fill, ih]

theorem readHeads_length (l : List (Option Nat)) (bs : Bytes) : (readHeads l bs).length = l.length := by
  induction l generalizing bs with
  | nil => rfl
  | cons a l ih => cases a <;> simp [readHeads, ih]

theorem split_le {l : List (Option Nat)} {bs : Bytes} {vs : List Bytes} (h : split l bs = some vs) :
    vs.length ≤ l.length := by
  have hf := fun ws => fill_le (readHeads l bs) ws
  rw [readHeads_length] at hf
  unfold split at h
  split at h
  · cases h
  · simp only at h
    split at h
    · split at h
      · rw [← Option.some.inj h]; exact hf _
      · cases h
    · split at h
      · cases h
      · split at h
        · cases h
        · rw [← Option.some.inj h]; exact hf _

theorem atts_ok {bs : Bytes} {as : List AggAtt} (h : decAtts bs = some as) :
    as.length ≤ 4096 ∧ ∀ a ∈ as, AttOk a := by
  unfold decAtts unvarList at h
  split at h
  · rw [← Option.some.inj h]; simp
  · simp only at h
    split at h
    · next hc =>
      split at h
      · cases h
      · next vs hv =>
        obtain ⟨h1, h2⟩ := mapM_ok _ _ _ h
        have h3 := split_le hv
        rw [List.length_replicate] at h3
        refine ⟨by omega, fun a ha => ?_⟩
        obtain ⟨b, hb⟩ := h2 a ha
        exact att_ok hb
    · cases h

theorem block_ok {bs : Bytes} {b : Block} (h : decBlock bs = some b) : BlockOk b := by
  unfold decBlock at h
  split at h
  · next s p r t x e =>
    simp only [Option.bind_eq_bind, Option.bind_eq_some_iff, Option.some.injEq] at h
    obtain ⟨as, ha, rfl⟩ := h
    unfold decBody at ha
    split at ha
    · obtain ⟨a1, a2⟩ := atts_ok ha
      exact ⟨unle8 (split_fixed e (i := 0) rfl rfl), unle8 (split_fixed e (i := 1) rfl rfl),
        unle32 (split_fixed e (i := 2) rfl rfl), unle32 (split_fixed e (i := 3) rfl rfl), a1, a2⟩
    · cases ha
  · cases h

theorem signed_ok {bs : Bytes} {b : Signed} (h : decSigned bs = some b) : SignedOk b := by
  unfold decSigned at h
  split at h
  · simp only [Option.bind_eq_bind, Option.bind_eq_some_iff] at h
    obtain ⟨m, hm, h⟩ := h
    split at h
    · simp only [Option.bind_eq_some_iff, Option.some.injEq] at h
      obtain ⟨p, hp, rfl⟩ := h
      exact ⟨block_ok hm, proof_ok hp⟩
    · cases h
  · cases h

theorem vote_ok {bs : Bytes} {v : SignedVote} (h : decVote bs = some v) : VoteOk v := by
  unfold decVote at h
  split at h
  · next e =>
    simp only [Option.bind_eq_bind, Option.bind_eq_some_iff, Option.some.injEq] at h
    obtain ⟨d, hd, rfl⟩ := h
    exact ⟨unle8 (split_fixed e (i := 0) rfl rfl), data_ok hd, split_fixed e (i := 2) rfl rfl⟩
  · cases h

theorem agg_ok {bs : Bytes} {a : SignedAgg} (h : decAgg bs = some a) : AggOk a := by
  unfold decAgg at h
  split at h
  · simp only [Option.bind_eq_bind, Option.bind_eq_some_iff] at h
    obtain ⟨d, hd, h⟩ := h
    split at h
    · simp only [Option.bind_eq_some_iff, Option.some.injEq] at h
      obtain ⟨b, hb, p, hp, rfl⟩ := h
      exact ⟨data_ok hd, bitlist_ok hb, proof_ok hp⟩
    · cases h
  · cases h

end Verif.Ssz
