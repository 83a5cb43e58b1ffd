import Verif.Props.C64_Counted
import Verif.Props.C01_Justifiable
import Verif.Spec.Witness
/-!
# C85: two thirds of the validators can always finalize something new
-/
namespace Verif
open JustifiedSlots Build

/-- The bits of an aggregate in which exactly the validators of `Q` take part. -/
def bitsOf (n : Nat) (Q : List Nat) : List Bool := (List.range n).map (fun v => decide (v ∈ Q))

theorem bitsOf_get {n : Nat} {Q : List Nat} {v : Nat} :
    (bitsOf n Q)[v]? = some true ↔ v < n ∧ v ∈ Q := by
  unfold bitsOf
  rw [List.getElem?_map]
  by_cases hv : v < n
  · rw [List.getElem?_range hv]; simp [hv]
  · rw [List.getElem?_eq_none (by simp; omega)]; simp [hv]

theorem header_just {H : Hash} {s s1 s2 : State} {b : Block}
    (h1 : processSlots H s b.slot = .ok s1) (h2 : processBlockHeader H s1 b = .ok s2) :
    s2.latestJustified.slot = s.latestJustified.slot := by
  unfold processSlots at h1
  split at h1
  · cases h1
  simp only [Except.ok.injEq] at h1
  have e1 : s1 = { s with slot := b.slot, latestBlockHeader := s1.latestBlockHeader } := by
    rw [← h1]; split <;> rfl
  clear h1
  unfold processBlockHeader at h2
  simp only at h2
  split at h2
  · cases h2
  split at h2
  · cases h2
  split at h2
  · cases h2
  split at h2
  · cases h2
  split at h2
  · cases h2
  by_cases h0 : s1.latestBlockHeader.slot = 0
  · simp only [if_pos h0] at h2
    split at h2
    · cases h2
    split at h2
    · cases h2
    cases h2
    rw [e1]
  · simp only [if_neg h0] at h2
    split at h2
    · cases h2
    split at h2
    · cases h2
    cases h2
    rw [e1]

/-- Any body can be put into a block on the head of a chain; what remains is to process its
attestations. -/
theorem build_block {H : Hash} (hz : ∀ s, H.state s ≠ 0) {t : Nat} {vals : List Validator}
    {bs : List Block} {s : State} (hc : Chain H (State.fromGenesis H t vals) bs s) {k : Nat}
    (hk : s.slot < k) (hlim : k ≤ historicalRootsLimit) (hv : 0 < vals.length)
    (body : List AggAtt) :
    ∃ s2 : State, SInv (fun _ _ => True) s2 ∧ s2.validators = vals ∧ s2.slot = k ∧
      s2.historicalBlockHashes =
        extendedHist s k (tipRoot H (State.fromGenesis H t vals) bs) ∧
      s2.latestFinalized.slot = s.latestFinalized.slot ∧
      s2.latestJustified.slot = s.latestJustified.slot ∧
      (bs ≠ [] → s2.latestJustified = s.latestJustified) ∧
      extendToSlot s.justifiedSlots s.latestFinalized.slot (k - 1) = some s2.justifiedSlots ∧
      ∀ s3, processAttestations s2 body = .ok s3 →
        ∃ b s', b.slot = k ∧ b.body = body ∧ importState H s b = .ok s' ∧
          s'.latestJustified = s3.latestJustified ∧
          s'.latestFinalized = s3.latestFinalized := by
  let b0 : Block := ⟨k, k % vals.length, tipRoot H (State.fromGenesis H t vals) bs, 0, body⟩
  obtain ⟨-, -, s1, s2, h1, h2, h3, h4, h5, h6⟩ :=
    chain_header hz (b := b0) hc hk hlim hv rfl rfl
  obtain ⟨f1, f2, -, -, -⟩ := header_frame h1 h2
  have hj := header_just h1 h2
  refine ⟨s2, h3, h4, ?_, h5, f1, hj, ?_, f2, ?_⟩
  · rw [← h3.histLen, h6]
  · intro hne
    have hinv := (chain_inv hc hne).weaken (W := fun _ _ => True) (fun _ _ _ => trivial)
    exact (header_inv hinv h1 h2).2.1.justSame hj
  · intro s3 h7
    refine ⟨{ b0 with stateRoot := H.state s3 },
      { s3 with latestBlockHeader := { s3.latestBlockHeader with stateRoot := H.state s3 } },
      rfl, rfl, ?_, rfl, rfl⟩
    have h1' : processSlots H s ({ b0 with stateRoot := H.state s3 } : Block).slot = .ok s1 := h1
    have h2' : processBlockHeader H s1 ({ b0 with stateRoot := H.state s3 } : Block) = .ok s2 := h2
    unfold importState stateTransition processBlock
    rw [h1']
    simp only
    rw [h2']
    simp only
    have h7' : processAttestations s2 ({ b0 with stateRoot := H.state s3 } : Block).body = .ok s3 :=
      h7
    rw [h7']
    simp

/-- A block without votes changes neither checkpoint's slot. -/
theorem extend_empty {H : Hash} (hz : ∀ s, H.state s ≠ 0) {t : Nat} {vals : List Validator}
    {bs : List Block} {s : State} (hc : Chain H (State.fromGenesis H t vals) bs s) {k : Nat}
    (hk : s.slot < k) (hlim : k ≤ historicalRootsLimit) (hv : 0 < vals.length)
    (hvl : vals.length ≤ validatorRegistryLimit) :
    ∃ b s', b.slot = k ∧ b.body = [] ∧ importState H s b = .ok s' ∧
      s'.latestJustified.slot = s.latestJustified.slot ∧
      s'.latestFinalized.slot = s.latestFinalized.slot := by
  obtain ⟨s2, i1, i2, i3, i4, i5, i6, i7, i8, i9⟩ := build_block hz hc hk hlim hv []
  obtain ⟨s3, h3⟩ := processAttestations_succeeds (as := []) i1 (by rw [i2]; exact hv)
    (by rw [i2]; exact hvl) (by rw [i1.histLen, i3]; exact hlim) (by decide) (by simp)
  have h3' := h3
  unfold processAttestations at h3'
  split at h3'
  · cases h3'
  simp only at h3'
  split at h3'
  · cases h3'
  split at h3'
  · cases h3'
  split at h3'
  · cases h3'
  simp only [attLoop] at h3'
  unfold serializeJustifications at h3'
  simp only at h3'
  split at h3'
  · cases h3'
  split at h3'
  · cases h3'
  split at h3'
  · cases h3'
  obtain ⟨b, s', a1, a2, a3, a4, a5⟩ := i9 s3 h3
  cases h3'
  exact ⟨b, s', a1, a2, a3, by rw [a4]; exact i6, by rw [a5]; exact i5⟩

/-- At least as many validators are recorded as the aggregate brings. -/
theorem recordVotes_count {votes : List Bool} {n : Nat} (hl : votes.length = n) {Q : List Nat}
    (hq : Q.Nodup) (hqn : ∀ v ∈ Q, v < n) :
    Q.length ≤ (recordVotes votes (bitsOf n Q)).count true := by
  rw [count_true_eq_filter_length]
  apply List.Subperm.length_le
  apply List.Nodup.subperm hq
  intro v hv
  simp only [List.mem_filter, List.mem_range, decide_eq_true_eq, recordVotes_length]
  have hvn := hqn v hv
  refine ⟨by omega, ?_⟩
  rw [recordVotes_get?, bitsOf_get.2 ⟨hvn, hv⟩, List.getElem?_eq_getElem (by omega)]
  simp

/-- The latest justified checkpoint is not final, and no slot between it and the head is
justifiable. -/
def Consecutive (s : State) : Prop :=
  s.latestFinalized.slot < s.latestJustified.slot ∧
  ∀ m, s.latestJustified.slot < m → m < s.slot →
    slotIsJustifiableAfter m s.latestFinalized.slot = false

/-- Two thirds of the validators vote, from the latest justified checkpoint, for the newest block
of the chain: that block becomes the latest justified, and the source is finalized if it is not
yet and no justifiable slot lies between. -/
theorem extend_vote {H : Hash} (hz : ∀ s, H.state s ≠ 0) (hzh : ∀ h, H.header h ≠ 0) {t : Nat}
    {vals : List Validator} {bs : List Block} {b0 : Block} {s : State}
    (hc : Chain H (State.fromGenesis H t vals) (b0 :: bs) s) {k : Nat}
    (hk : s.slot < k) (hlim : k ≤ historicalRootsLimit) (hv : 0 < vals.length)
    (hvl : vals.length ≤ validatorRegistryLimit) {Q : List Nat} (hq : Q.Nodup)
    (hqn : ∀ v ∈ Q, v < vals.length) (hq3 : 2 * vals.length ≤ 3 * Q.length)
    (hj : slotIsJustifiableAfter s.slot s.latestFinalized.slot = true) :
    let a : AggAtt := ⟨bitsOf vals.length Q, ⟨s.slot, ⟨b0.root H, b0.slot⟩, ⟨b0.root H, b0.slot⟩,
      s.latestJustified⟩⟩
    ∃ b s', b.slot = k ∧ b.body = [a] ∧ importState H s b = .ok s' ∧
      s'.latestJustified = ⟨b0.root H, b0.slot⟩ ∧
      (Consecutive s → s'.latestFinalized = s.latestJustified) ∧
      (¬ Consecutive s → s'.latestFinalized.slot = s.latestFinalized.slot) := by
  intro a
  have hinv := (chain_inv hc (by simp)).weaken (W := fun _ _ => True) (fun _ _ _ => trivial)
  obtain ⟨hs0, -⟩ := (chain_slots hc).2 b0 bs rfl
  obtain ⟨s2, i1, i2, i3, i4, i5, i6, i7, i8, i9⟩ := build_block hz hc hk hlim hv [a]
  have i7 := i7 (by simp)
  have hlen := hinv.histLen
  have hwin := hinv.win
  have hpos := hinv.slotPos
  have hjl := hinv.justLt
  obtain ⟨js', e1, e2, e3, e4⟩ := extendToSlot_spec (js := s.justifiedSlots)
    (f := s.latestFinalized.slot) (k := k - 1) (by omega) (by omega)
  rw [e1, Option.some.injEq] at i8
  have hon : s2.historicalBlockHashes[s.slot]? = some (b0.root H) := by
    rw [i4]; unfold extendedHist
    rw [List.append_assoc, List.getElem?_append_right (by omega)]
    simp [hlen, tipRoot]
  have F : ValidVoteFacts s2 a.data := {
    srcJust := by
      show isSlotJustified s2.justifiedSlots _ s.latestJustified.slot = _
      rw [← i7]; exact i1.justJ
    tgtNot := by
      show isSlotJustified s2.justifiedSlots _ b0.slot = _
      rw [← i8, i5, hs0]
      exact e4 _ (by omega) (by omega)
    srcNZ := (chain_checkpoint_nonzero hzh hc (by simp)).2
    tgtNZ := hzh _
    headNZ := hzh _
    srcOn := by
      show s2.historicalBlockHashes[s.latestJustified.slot]? = some s.latestJustified.root
      rw [← i7]; exact i1.justOn
    tgtOn := by show s2.historicalBlockHashes[b0.slot]? = _; rw [hs0]; exact hon
    headOn := by show s2.historicalBlockHashes[b0.slot]? = _; rw [hs0]; exact hon
    lt := by show s.latestJustified.slot < b0.slot; omega
    justifiable := by
      show slotIsJustifiableAfter b0.slot _ = true
      rw [hs0, i5]; exact hj }
  have hQ : 0 < Q.length := by omega
  obtain ⟨v0, hv0⟩ := List.exists_mem_of_length_pos hQ
  obtain ⟨s3, h3⟩ := processAttestations_succeeds (as := [a]) i1 (by rw [i2]; exact hv)
    (by rw [i2]; exact hvl) (by rw [i1.histLen, i3]; exact hlim) (by
      have := distinctDataCount_le [a]
      have : ([a] : List AggAtt).length = 1 := rfl
      have : 1 ≤ maxAttestationsData := by decide
      omega) (by
      intro x hx
      rw [List.mem_singleton] at hx
      subst hx
      have g1 := getElem?_lt F.srcOn
      have g2 := getElem?_lt F.tgtOn
      refine ⟨g1, g2, ⟨v0, bitsOf_get.2 ⟨hqn _ hv0, hv0⟩⟩, ?_⟩
      intro v hvv
      rw [i2]; exact (bitsOf_get.1 hvv).1)
  obtain ⟨b, s', a1, a2, a3, a4, a5⟩ := i9 s3 h3
  refine ⟨b, s', a1, a2, a3, ?_⟩
  rw [a4, a5]
  clear i9 a1 a2 a3 a4 a5
  have hloop := i1.loopInv
  unfold processAttestations at h3
  split at h3
  · cases h3
  simp only at h3
  split at h3
  · cases h3
  split at h3
  · cases h3
  split at h3
  · cases h3
  have hstep : ∃ js t', attStep s2.validators.length
      (rootToSlot s2.historicalBlockHashes s2.latestFinalized.slot)
      (s2, unpackTally s2.validators.length s2.justificationsRoots s2.justificationsValidators) a
      = .ok (tryFinalize { s2 with
          latestJustified := maxBySlot s2.latestJustified a.data.target
          justifiedSlots := js } a.data.source a.data.target t'
          (rootToSlot s2.historicalBlockHashes s2.latestFinalized.slot)) := by
    unfold attStep
    rw [(isValidVote_true_iff _ _).2 F]
    simp only
    rw [if_neg, if_neg]
    · have hl := (newVotes_spec hloop a (fun _ _ => trivial)).1
      rw [recordVotes_length] at hl
      have hcount := recordVotes_count hl hq (by rw [i2]; exact hqn)
      have hbits : a.bits = bitsOf s2.validators.length Q := by rw [i2]
      rw [← hbits] at hcount
      rw [if_pos (by
        have : 2 * s2.validators.length ≤ 3 * Q.length := by rw [i2]; exact hq3
        exact Nat.le_trans this (Nat.mul_le_mul_left 3 hcount))]
      have htf : s2.latestFinalized.slot < a.data.target.slot := by
        show _ < b0.slot
        have := hinv.finLeJust
        omega
      obtain ⟨js, hset, -⟩ := setJustified_spec (js := s2.justifiedSlots) htf (by
        show b0.slot ≤ _
        have := i1.win
        omega)
      rw [hset]
      exact ⟨_, _, rfl⟩
    · simp only [List.any_eq_true, decide_eq_true_eq, not_exists, not_and]
      intro i hi hbi
      have g1 := (List.mem_range'_1.1 hi).1
      have g2 := (bitsOf_get.1 hbi).1
      rw [i2] at g1
      omega
    · rw [List.count_eq_zero]
      exact fun hm => hm (List.mem_of_getElem? (bitsOf_get.2 ⟨hqn _ hv0, hv0⟩))
  obtain ⟨js, t', hstep⟩ := hstep
  simp only [attLoop, hstep] at h3
  have hmax : maxBySlot s2.latestJustified a.data.target = ⟨b0.root H, b0.slot⟩ := by
    unfold maxBySlot
    rw [if_neg]
    show ¬ s2.latestJustified.slot > b0.slot
    omega
  have hser : s3.latestJustified = (tryFinalize { s2 with
          latestJustified := maxBySlot s2.latestJustified a.data.target
          justifiedSlots := js } a.data.source a.data.target t'
          (rootToSlot s2.historicalBlockHashes s2.latestFinalized.slot)).1.latestJustified ∧
      s3.latestFinalized = (tryFinalize { s2 with
          latestJustified := maxBySlot s2.latestJustified a.data.target
          justifiedSlots := js } a.data.source a.data.target t'
          (rootToSlot s2.historicalBlockHashes s2.latestFinalized.slot)).1.latestFinalized := by
    unfold serializeJustifications at h3
    simp only at h3
    split at h3
    · cases h3
    split at h3
    · cases h3
    split at h3
    · cases h3
    cases h3
    exact ⟨rfl, rfl⟩
  rw [hser.1, hser.2, hmax]
  unfold tryFinalize
  simp only
  have hsrc : a.data.source = s.latestJustified := rfl
  have htgt : a.data.target.slot = s.slot := hs0
  rw [hsrc, htgt, i5]
  split
  · next hle => exact ⟨rfl, fun hh => by have := hh.1; omega, fun _ => i5⟩
  · next hle =>
    split
    · next hany =>
      refine ⟨rfl, fun hh => ?_, fun _ => i5⟩
      exfalso
      simp only [List.any_eq_true, List.mem_range'_1] at hany
      obtain ⟨m, ⟨m1, m2⟩, m3⟩ := hany
      rw [hh.2 m (by omega) (by omega)] at m3
      cases m3
    · next hnone =>
      refine ⟨rfl, fun _ => rfl, fun hh => ?_⟩
      exfalso
      apply hh
      refine ⟨by omega, fun m m1 m2 => ?_⟩
      simp only [List.any_eq_true, List.mem_range'_1, not_exists, not_and] at hnone
      simpa using hnone m ⟨by omega, by omega⟩

/-- A justifiable slot lies ahead, at most twice the square root of the distance away. -/
theorem justifiable_ahead {f x : Nat} (hx : f ≤ x) (hb : x ≤ historicalRootsLimit) :
    ∃ y, x < y ∧ y ≤ x + 2 * Nat.sqrt (x - f) + 1 ∧ slotIsJustifiableAfter y f = true := by
  have h1 := Nat.sqrt_le' (x - f)
  have h2 := Nat.lt_succ_sqrt' (x - f)
  have h3 : Nat.sqrt (x - f) ≤ x - f := Nat.sqrt_le_self _
  have hlim : historicalRootsLimit = 262144 := by decide
  generalize Nat.sqrt (x - f) = r at *
  have e : (r + 1) ^ 2 = r ^ 2 + 2 * r + 1 := by ring
  rw [Nat.succ_eq_add_one] at h2
  refine ⟨f + (r + 1) ^ 2, by omega, by omega, ?_⟩
  rw [C01_justifiable_iff _ _ (by omega)]
  exact ⟨by omega, Or.inr (Or.inl ⟨r + 1, by rw [Nat.add_sub_cancel_left]; ring⟩)⟩

/-- **C85.** Take any chain of valid blocks, whatever votes and gaps it contains, and any set `Q`
of at least two thirds of its validators. If no hash is zero and the history limit is not yet in
reach, then three more blocks, carrying votes of `Q` alone, finalize the first of them. The last
of the three comes at most `4 * sqrt d + 5` slots after the head, `d` being the distance from the
last finalized slot to the head. Every vote is cast from the latest justified checkpoint of the
chain it is included in, for the block before the one including it, after the old head. -/
theorem C85_can_finalize {H : Hash} (hz : ∀ s, H.state s ≠ 0) (hzh : ∀ h, H.header h ≠ 0) {t : Nat}
    {vals : List Validator} {bs : List Block} {s : State}
    (hc : Chain H (State.fromGenesis H t vals) bs s) (hv : 0 < vals.length)
    (hvl : vals.length ≤ validatorRegistryLimit) {Q : List Nat} (hq : Q.Nodup)
    (hqn : ∀ v ∈ Q, v < vals.length) (hq3 : 2 * vals.length ≤ 3 * Q.length)
    (hroom : s.slot + 4 * Nat.sqrt (s.slot - s.latestFinalized.slot) + 5 ≤ historicalRootsLimit) :
    ∃ (b1 b2 b3 : Block) (s1 s2 s3 : State),
      importState H s b1 = .ok s1 ∧ importState H s1 b2 = .ok s2 ∧ importState H s2 b3 = .ok s3 ∧
      s.slot < b1.slot ∧
      b3.slot ≤ s.slot + 4 * Nat.sqrt (s.slot - s.latestFinalized.slot) + 5 ∧
      s3.latestFinalized = ⟨b1.root H, b1.slot⟩ ∧ s3.latestJustified = ⟨b2.root H, b2.slot⟩ ∧
      b1.body = [] ∧
      (∃ a, b2.body = [a] ∧ (∀ v : Nat, a.bits[v]? = some true ↔ v ∈ Q) ∧
        a.data.source = s1.latestJustified ∧ a.data.target = ⟨b1.root H, b1.slot⟩ ∧
        a.data.head = ⟨b1.root H, b1.slot⟩ ∧ s.slot < a.data.slot) ∧
      (∃ a, b3.body = [a] ∧ (∀ v : Nat, a.bits[v]? = some true ↔ v ∈ Q) ∧
        a.data.source = s2.latestJustified ∧ a.data.target = ⟨b2.root H, b2.slot⟩ ∧
        a.data.head = ⟨b2.root H, b2.slot⟩ ∧ b1.slot < a.data.slot) := by
  have hbits : ∀ v : Nat, (bitsOf vals.length Q)[v]? = some true ↔ v ∈ Q := fun v => by
    rw [bitsOf_get]; exact ⟨fun h => h.2, fun h => ⟨hqn v h, h⟩⟩
  have hfs : s.latestFinalized.slot ≤ s.latestJustified.slot ∧ s.latestJustified.slot ≤ s.slot := by
    cases bs with
    | nil => cases hc; exact ⟨Nat.le_refl _, Nat.le_refl _⟩
    | cons b bs =>
      have := chain_inv hc (by simp)
      exact ⟨this.finLeJust, Nat.le_of_lt this.justLt⟩
  obtain ⟨t1, x1, x2, x3⟩ := justifiable_ahead (f := s.latestFinalized.slot) (x := s.slot)
    (by omega) (by omega)
  obtain ⟨b1, s1, p1, p2, p3, p4, p5⟩ := extend_empty hz hc x1 (by omega) hv hvl
  have hc1 := Chain.cons hc p3
  obtain ⟨q1, -⟩ := (chain_slots hc1).2 b1 bs rfl
  -- which checkpoint the first vote finalizes does not depend on the slot of its block
  have hfirst : ∃ f, s.latestFinalized.slot ≤ f ∧ f < t1 ∧ ∀ k, t1 < k → k ≤ historicalRootsLimit →
      ∃ b s', b.slot = k ∧ b.body = [⟨bitsOf vals.length Q, ⟨s1.slot, ⟨b1.root H, b1.slot⟩,
        ⟨b1.root H, b1.slot⟩, s1.latestJustified⟩⟩] ∧ importState H s1 b = .ok s' ∧
        s'.latestJustified = ⟨b1.root H, b1.slot⟩ ∧ s'.latestFinalized.slot = f := by
    have ev := fun k (h1 : t1 < k) h2 => extend_vote hz hzh hc1 (k := k) (by omega) h2 hv hvl hq hqn
      hq3 (by rw [← q1, p1, p5]; exact x3)
    simp only at ev
    by_cases hcond : Consecutive s1
    · refine ⟨s1.latestJustified.slot, by omega, by omega, fun k h1 h2 => ?_⟩
      obtain ⟨b, s', c1, c2, c3, c4, c5, -⟩ := ev k h1 h2
      exact ⟨b, s', c1, c2, c3, c4, by rw [c5 hcond]⟩
    · refine ⟨s.latestFinalized.slot, by omega, by omega, fun k h1 h2 => ?_⟩
      obtain ⟨b, s', c1, c2, c3, c4, -, c6⟩ := ev k h1 h2
      exact ⟨b, s', c1, c2, c3, c4, by rw [c6 hcond, p5]⟩
  obtain ⟨f, y1, y2, y3⟩ := hfirst
  -- the next justifiable slot after the first target
  have hsq : Nat.sqrt (t1 - f) ≤ Nat.sqrt (s.slot - s.latestFinalized.slot) + 1 := by
    have h2 := Nat.lt_succ_sqrt' (s.slot - s.latestFinalized.slot)
    rw [Nat.succ_eq_add_one] at h2
    apply Nat.le_of_lt_succ
    rw [Nat.sqrt_lt']
    generalize Nat.sqrt (s.slot - s.latestFinalized.slot) = r at *
    have e1 : (r + 1) ^ 2 = r ^ 2 + 2 * r + 1 := by ring
    have e2 : (r + 1).succ ^ 2 = r ^ 2 + 4 * r + 4 := by rw [Nat.succ_eq_add_one]; ring
    omega
  have hex : ∃ y, t1 < y ∧ slotIsJustifiableAfter y f = true := by
    obtain ⟨y, z1, -, z3⟩ := justifiable_ahead (f := f) (x := t1) (by omega) (by omega)
    exact ⟨y, z1, z3⟩
  have hle : Nat.find hex ≤ t1 + 2 * Nat.sqrt (t1 - f) + 1 := by
    obtain ⟨y, z1, z2, z3⟩ := justifiable_ahead (f := f) (x := t1) (by omega) (by omega)
    exact (Nat.find_min' hex ⟨z1, z3⟩).trans z2
  obtain ⟨w1, w2⟩ := Nat.find_spec hex
  have hmin : ∀ m, t1 < m → m < Nat.find hex → slotIsJustifiableAfter m f = false := by
    intro m m1 m2
    have := Nat.find_min hex m2
    simp only [not_and, m1, true_implies] at this
    simpa using this
  generalize Nat.find hex = t2 at *
  obtain ⟨b2, s2, r1, r2, r3, r4, r5⟩ := y3 t2 w1 (by omega)
  have hc2 := Chain.cons hc1 r3
  obtain ⟨q2, -⟩ := (chain_slots hc2).2 b2 _ rfl
  have hj2 : s2.latestJustified.slot = t1 := by rw [r4]; exact p1
  obtain ⟨b3, s3, u1, u2, u3, u4, u5, -⟩ := extend_vote hz hzh hc2 (k := t2 + 1) (by omega)
    (by omega) hv hvl hq hqn hq3 (by rw [← q2, r1, r5]; exact w2)
  refine ⟨b1, b2, b3, s1, s2, s3, p3, r3, u3, by omega, by omega, ?_, u4, p2,
    ⟨_, r2, hbits, rfl, rfl, rfl, ?_⟩, ⟨_, u2, hbits, rfl, rfl, rfl, ?_⟩⟩
  · rw [u5 ⟨by omega, fun m m1 m2 => by rw [r5]; exact hmin m (by omega) (by omega)⟩, r4]
  · show s.slot < s1.slot; omega
  · show b1.slot < s2.slot; omega

/-! ## A concrete case: two of the three validators of the witness chain -/

example : ∃ (Q : List Nat) (s : State), Q.Nodup ∧ (∀ v ∈ Q, v < Witness.wVals.length) ∧
    2 * Witness.wVals.length ≤ 3 * Q.length ∧
    Chain Witness.wH Witness.wG Witness.wBlocks.reverse s ∧
    (∀ x, Witness.wH.state x ≠ 0) ∧ (∀ h, Witness.wH.header h ≠ 0) ∧
    s.slot + 4 * Nat.sqrt (s.slot - s.latestFinalized.slot) + 5 ≤ historicalRootsLimit :=
  ⟨[0, 2], Witness.wState, by decide, by decide, by decide, Witness.wChain,
    fun _ => Nat.one_ne_zero, fun h => Nat.succ_ne_zero h.slot, by decide +kernel⟩

end Verif
