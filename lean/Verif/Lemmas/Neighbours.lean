import Verif.Props.C85_PlausibleLiveness
import Verif.Props.C87_NothingWasted
import Verif.Lemmas.Bounds
/-!
# The first finalization after a given state

Whatever votes blocks carry, the first checkpoint finalized after a state has a justifiable
neighbour with a block.
-/
namespace Verif
open JustifiedSlots Build

/-- The finalized slot is still `f`, the slots `J` are still justified, and every other slot
justified meanwhile is justifiable after `f`. -/
structure Quiet (J : Nat → Prop) (f : Nat) (s : State) : Prop where
  fin : s.latestFinalized.slot = f
  keep : ∀ k, J k → jst s.justifiedSlots f k = true
  only : ∀ k, f < k → jst s.justifiedSlots f k = true → J k ∨ slotIsJustifiableAfter k f = true

/-- Two slots with blocks, neighbours among the slots justifiable after `f`. -/
structure Abut (J : Nat → Prop) (f : Nat) (hist : List Root) (a b : Nat) : Prop where
  ha : f < a
  hab : a < b
  ja : J a ∨ slotIsJustifiableAfter a f = true
  jb : slotIsJustifiableAfter b f = true
  nb : ¬ J b
  on_a : ∃ r, r ≠ 0 ∧ hist[a]? = some r
  on_b : ∃ r, r ≠ 0 ∧ hist[b]? = some r
  none : ∀ m, a < m → m < b → slotIsJustifiableAfter m f = false

theorem attStep_quiet {J : Nat → Prop} {f n : Nat} {rts : Root → Option Nat}
    {st st' : State × Tally} {a : AggAtt} (h : Quiet J f st.1)
    (hs : attStep n rts st a = .ok st') :
    st'.1.historicalBlockHashes = st.1.historicalBlockHashes ∧
    (Quiet J f st'.1 ∨ ∃ x y, Abut J f st.1.historicalBlockHashes x y) := by
  unfold attStep at hs
  split at hs
  · cases hs
  · cases hs; exact ⟨rfl, .inl h⟩
  next hvalid =>
  have F := (isValidVote_true_iff _ _).1 hvalid
  split at hs
  · cases hs
  split at hs
  · cases hs
  simp only at hs
  split at hs
  swap
  · cases hs; exact ⟨rfl, .inl h⟩
  split at hs
  · cases hs
  next js hset =>
  have htf : st.1.latestFinalized.slot < a.data.target.slot := by
    by_contra hc
    have := F.tgtNot
    rw [isSlotJustified_le (by omega)] at this
    cases this
  have hj := jst_set htf hset
  have hfin := h.fin
  have htj := F.justifiable
  rw [hfin] at htf hj htj
  have h1 : Quiet J f { st.1 with
      latestJustified := maxBySlot st.1.latestJustified a.data.target
      justifiedSlots := js } := by
    refine ⟨hfin, fun k hk => ?_, fun k hk hjk => ?_⟩
    · simp only [hj]
      split
      · rfl
      · exact h.keep k hk
    · simp only [hj] at hjk
      split at hjk
      next he => rw [he]; exact .inr htj
      · exact h.only k hk hjk
  have hs := (Except.ok.inj hs).symm
  subst hs
  unfold tryFinalize
  split
  · exact ⟨rfl, .inl h1⟩
  next hsf =>
  split
  · exact ⟨rfl, .inl h1⟩
  next hnone =>
  simp only [hfin] at hsf hnone
  refine ⟨rfl, .inr ⟨a.data.source.slot, a.data.target.slot, by omega, F.lt, ?_, htj, ?_,
    ⟨_, F.srcNZ, F.srcOn⟩, ⟨_, F.tgtNZ, F.tgtOn⟩, ?_⟩⟩
  · apply h.only _ (by omega)
    have := F.srcJust
    rw [hfin] at this
    unfold jst; rw [this]; rfl
  · intro hJ
    have h1 := h.keep _ hJ
    have h2 := F.tgtNot
    rw [hfin] at h2
    unfold jst at h1
    rw [h2] at h1
    cases h1
  · intro m m1 m2
    simp only [List.any_eq_true, List.mem_range'_1, not_exists, not_and] at hnone
    simpa using hnone m ⟨by omega, by omega⟩

theorem attLoop_quiet {J : Nat → Prop} {f n : Nat} {rts : Root → Option Nat} (as : List AggAtt)
    {st st' : State × Tally} (h : Quiet J f st.1) (hs : attLoop n rts as st = .ok st') :
    Quiet J f st'.1 ∨ ∃ x y, Abut J f st.1.historicalBlockHashes x y := by
  induction as generalizing st with
  | nil => cases hs; exact .inl h
  | cons a as ih =>
    unfold attLoop at hs
    split at hs
    · cases hs
    next st1 h1 =>
    obtain ⟨e, h2 | h2⟩ := attStep_quiet h h1
    · rw [← e]; exact ih h2 hs
    · exact .inr h2

/-- What processing attestations leaves alone, and what it takes from the loop. -/
theorem processAttestations_loop {s s' : State} {as : List AggAtt}
    (h : processAttestations s as = .ok s') :
    ∃ st, attLoop s.validators.length (rootToSlot s.historicalBlockHashes s.latestFinalized.slot) as
        (s, unpackTally s.validators.length s.justificationsRoots s.justificationsValidators)
        = .ok st ∧
      s'.latestFinalized = st.1.latestFinalized ∧ s'.latestJustified = st.1.latestJustified ∧
      s'.justifiedSlots = st.1.justifiedSlots ∧
      s'.historicalBlockHashes = st.1.historicalBlockHashes := by
  unfold processAttestations at h
  split at h
  · cases h
  simp only at h
  split at h
  · cases h
  split at h
  · cases h
  split at h
  · cases h
  split at h
  · cases h
  next s4 t4 h4 =>
  refine ⟨_, h4, ?_⟩
  unfold serializeJustifications at h
  simp only at h
  split at h
  · cases h
  split at h
  · cases h
  split at h
  · cases h
  cases h
  exact ⟨rfl, rfl, rfl, rfl⟩

theorem attLoop_hist {n : Nat} {rts : Root → Option Nat} (as : List AggAtt)
    {st st' : State × Tally} (hs : attLoop n rts as st = .ok st') :
    st'.1.historicalBlockHashes = st.1.historicalBlockHashes := by
  induction as generalizing st with
  | nil => cases hs; rfl
  | cons a as ih =>
    unfold attLoop at hs
    split at hs
    · cases hs
    next st1 h1 =>
    rw [ih hs]
    exact (attStep_quiet (J := fun k => jst st.1.justifiedSlots st.1.latestFinalized.slot k = true)
      ⟨rfl, fun _ h => h, fun _ _ h => .inl h⟩ h1).1

theorem import_quiet {H : Hash} {J : Nat → Prop} {f : Nat} {s s' : State} {b : Block}
    (h : Quiet J f s) (hs : importState H s b = .ok s') :
    Quiet J f s' ∨ ∃ x y, Abut J f s'.historicalBlockHashes x y := by
  obtain ⟨s1, s2, s3, h1, h2, h3, -, rfl⟩ := importState_ok hs
  obtain ⟨f1, f2, -⟩ := header_frame h1 h2
  have hj := jst_extend f2
  have hq : Quiet J f s2 := by
    rw [h.fin] at hj
    refine ⟨by rw [f1, h.fin], fun k hk => ?_, fun k hk hjk => ?_⟩
    · rw [hj]; exact h.keep k hk
    · rw [hj] at hjk; exact h.only k hk hjk
  obtain ⟨st, g1, g2, -, g4, g5⟩ := processAttestations_loop h3
  have g6 := attLoop_hist _ g1
  rcases attLoop_quiet _ hq g1 with hh | hh
  · left
    refine ⟨?_, fun k hk => ?_, fun k hk hjk => ?_⟩
    · show s3.latestFinalized.slot = f
      rw [g2]; exact hh.fin
    · show jst s3.justifiedSlots f k = true
      rw [g4]; exact hh.keep k hk
    · apply hh.only k hk
      rw [← g4]; exact hjk
  · right
    show ∃ x y, Abut J f s3.historicalBlockHashes x y
    rw [g5, g6]; exact hh

/-- The blocks of an extension come after the head, in order, each by the proposer of its slot. -/
theorem extension_blocks {H : Hash} {t : Nat} {vals : List Validator} {bs cs : List Block}
    {s s' : State} (hc : Chain H (State.fromGenesis H t vals) bs s) (hx : Chain H s cs s') :
    s.slot ≤ s'.slot ∧ ∀ x ∈ cs, s.slot < x.slot ∧ x.slot ≤ s'.slot ∧
      x.proposerIndex = x.slot % vals.length ∧ x.slot ≤ historicalRootsLimit := by
  induction hx with
  | nil => exact ⟨Nat.le_refl _, by simp⟩
  | @cons cs0 s0 s' b hx hi ih =>
    obtain ⟨h1, h2, -⟩ := C03_block_appends_history (hc.append hx) hi
    refine ⟨by omega, fun x hx' => ?_⟩
    rcases List.mem_cons.1 hx' with rfl | hm
    · refine ⟨by omega, by omega, ?_⟩
      have hcc := hc.append hx
      generalize cs0 ++ bs = l at hcc
      cases l with
      | nil =>
        cases hcc
        obtain ⟨-, -, -, -, -, -, -, -, g1, -, g2, -⟩ :=
          import_genesis (V := fun _ _ => True) (fun _ _ _ _ => trivial) hi
        exact ⟨g1, g2⟩
      | cons b0 bs0 =>
        have hinv := (chain_inv hcc (by simp)).weaken (W := fun _ _ => True)
          (fun _ _ _ => trivial)
        obtain ⟨-, -, -, -, -, -, -, -, -, -, -, g1, -, g2⟩ :=
          import_inv hinv (fun _ _ _ _ => trivial) hi
        rw [chain_validators hcc] at g1
        exact ⟨g1, g2⟩
    · obtain ⟨g1, g2, g3⟩ := ih.2 x hm
      exact ⟨g1, by omega, g3⟩

/-- Follow an extension of a chain: either nothing new is finalized, or two neighbouring slots
have blocks, with a later block in the extension. -/
theorem extension_first {H : Hash} (hzs : ∀ s, H.state s ≠ 0) {t : Nat} {vals : List Validator}
    {bs cs : List Block} {s s' : State} {J : Nat → Prop} {f : Nat}
    (hc : Chain H (State.fromGenesis H t vals) bs s) (hx : Chain H s cs s') (hq : Quiet J f s) :
    Quiet J f s' ∨ ∃ a b, f < a ∧ a < b ∧ (J a ∨ slotIsJustifiableAfter a f = true) ∧
      slotIsJustifiableAfter b f = true ∧ ¬ J b ∧
      (∀ m, a < m → m < b → slotIsJustifiableAfter m f = false) ∧
      (∃ x ∈ cs ++ bs, x.slot = a) ∧ (∃ x ∈ cs ++ bs, x.slot = b) ∧
      ∃ z ∈ cs, b < z.slot := by
  induction hx with
  | nil => exact .inl hq
  | @cons cs0 s0 s' z hx hi ih =>
    rcases ih with ih | ⟨a, b, h1, h2, h3, h4, h5, h6, ⟨x, x1, x2⟩, ⟨y, y1, y2⟩, ⟨w, w1, w2⟩⟩
    · rcases import_quiet ih hi with hh | ⟨a, b, g⟩
      · exact .inl hh
      · right
        have hcc := Chain.cons (hc.append hx) hi
        have hlen := (C03_block_appends_history (hc.append hx) hi).2.2.1
        obtain ⟨ra, ra1, ra2⟩ := g.on_a
        obtain ⟨rb, rb1, rb2⟩ := g.on_b
        have na := namesBlock_of_hist hzs hcc (c := ⟨ra, a⟩) ra1 ra2
        have nb := namesBlock_of_hist hzs hcc (c := ⟨rb, b⟩) rb1 rb2
        have hlt := getElem?_lt rb2
        have l1 := g.ha
        have l2 := g.hab
        refine ⟨a, b, g.ha, g.hab, g.ja, g.jb, g.nb, g.none, ?_, ?_,
          ⟨z, List.mem_cons_self, by omega⟩⟩
        · rcases na with ⟨e, -⟩ | ⟨x, hm, e, -⟩
          · simp only at e; omega
          · exact ⟨x, List.mem_cons_of_mem _ hm, e⟩
        · rcases nb with ⟨e, -⟩ | ⟨x, hm, e, -⟩
          · simp only at e; omega
          · exact ⟨x, List.mem_cons_of_mem _ hm, e⟩
    · exact .inr ⟨a, b, h1, h2, h3, h4, h5, h6, ⟨x, List.mem_cons_of_mem _ x1, x2⟩,
        ⟨y, List.mem_cons_of_mem _ y1, y2⟩, ⟨w, List.mem_cons_of_mem _ w1, w2⟩⟩

/-! ## Building the extension -/

theorem import_empty_just {H : Hash} {s s' : State} {b : Block} (hb : b.body = [])
    (hs : importState H s b = .ok s') : s'.latestFinalized.slot = s.latestFinalized.slot ∧
      ∀ k, jst s'.justifiedSlots s.latestFinalized.slot k
        = jst s.justifiedSlots s.latestFinalized.slot k := by
  obtain ⟨s1, s2, s3, h1, h2, h3, -, rfl⟩ := importState_ok hs
  obtain ⟨f1, f2, -⟩ := header_frame h1 h2
  obtain ⟨st, g1, g2, -, g4, g5⟩ := processAttestations_loop h3
  rw [hb] at g1
  simp only [attLoop, Except.ok.injEq] at g1
  subst g1
  simp only at g2 g4
  refine ⟨by simp only [g2, f1], fun k => ?_⟩
  simp only [g4]
  exact jst_extend f2 k

/-- Make sure there is a block at slot `k`. -/
theorem ensure_block {H : Hash} (hz : ∀ s, H.state s ≠ 0) {t : Nat} {vals : List Validator}
    {bs : List Block} {s : State} (hc : Chain H (State.fromGenesis H t vals) bs s) {k : Nat}
    (hlim : k ≤ historicalRootsLimit) (hv : 0 < vals.length)
    (hvl : vals.length ≤ validatorRegistryLimit)
    (hk : (∃ x ∈ bs, x.slot = k) ∨ s.slot < k) :
    ∃ cs s', Chain H s cs s' ∧ (∃ x ∈ cs ++ bs, x.slot = k) ∧
      (∀ x ∈ cs, x.slot = k ∧ s.slot < k ∧ x.body = []) ∧ s'.slot = max s.slot k ∧
      s'.latestFinalized.slot = s.latestFinalized.slot ∧
      ∀ m, jst s'.justifiedSlots s.latestFinalized.slot m
        = jst s.justifiedSlots s.latestFinalized.slot m := by
  rcases hk with ⟨x, hx, hxk⟩ | hk
  · have := ((chain_slots hc).1 x hx).1
    exact ⟨[], s, .nil, ⟨x, by simpa using hx, hxk⟩, by simp, by omega, rfl, fun _ => rfl⟩
  · obtain ⟨b, s', h1, h2, h3, -, -⟩ := extend_empty hz hc hk hlim hv hvl
    obtain ⟨g1, g2⟩ := import_empty_just h2 h3
    have := (C03_block_appends_history hc h3).1
    refine ⟨[b], s', .cons .nil h3, ⟨b, by simp, h1⟩, ?_, by omega, g1, g2⟩
    intro x hx
    rw [List.mem_singleton] at hx
    subst hx
    exact ⟨h1, hk, h2⟩

/-- A block of the chain is recorded in the history its next block sees. -/
theorem extendedHist_on {H : Hash} (hz : ∀ s, H.state s ≠ 0) (hzh : ∀ h, H.header h ≠ 0) {t : Nat}
    {vals : List Validator} {bs : List Block} {s : State}
    (hc : Chain H (State.fromGenesis H t vals) bs s) {x : Block} (hx : x ∈ bs) (k : Nat) :
    ∃ r, r ≠ 0 ∧ (extendedHist s k (tipRoot H (State.fromGenesis H t vals) bs))[x.slot]? = some r := by
  cases bs with
  | nil => cases hx
  | cons b0 bs0 =>
    obtain ⟨h1, h2, h3⟩ := C03_history_is_chain hz hc
    have hle := ((chain_slots hc).1 x hx).1
    rcases Nat.lt_or_ge x.slot b0.slot with hlt | hge
    · have h4 := h3 x.slot hlt
      have hmem : x ∈ bs0 := by
        rcases List.mem_cons.1 hx with rfl | h
        · omega
        · exact h
      refine ⟨rootAt H (State.fromGenesis H t vals) bs0 x.slot, ?_, ?_⟩
      · unfold rootAt
        split
        · exact hzh _
        next hn =>
          rw [List.find?_eq_none] at hn
          exact absurd (hn x hmem) (by simp)
      · unfold extendedHist
        rw [List.append_assoc, List.getElem?_append_left (by omega)]
        exact h4
    · refine ⟨b0.root H, hzh _, ?_⟩
      unfold extendedHist
      rw [List.append_assoc, List.getElem?_append_right (by omega)]
      have : x.slot - s.historicalBlockHashes.length = 0 := by omega
      rw [this]
      simp [tipRoot]

/-- A valid aggregate of two thirds of the validators justifies its target. -/
theorem attStep_quorum {s0 : State} {rts : Root → Option Nat} {st : State × Tally} {d : AttData}
    (h : LoopInv s0 rts (fun _ _ => True) st) (F : ValidVoteFacts st.1 d) {Q : List Nat}
    (hq : Q.Nodup) (hqn : ∀ v ∈ Q, v < s0.validators.length) (hn : 0 < s0.validators.length)
    (hq3 : 2 * s0.validators.length ≤ 3 * Q.length) :
    ∃ js t', setJustified st.1.justifiedSlots st.1.latestFinalized.slot d.target.slot = some js ∧
      attStep s0.validators.length rts st ⟨bitsOf s0.validators.length Q, d⟩ = .ok (tryFinalize
        { st.1 with
          latestJustified := maxBySlot st.1.latestJustified d.target
          justifiedSlots := js } d.source d.target t' rts) := by
  have hQ : 0 < Q.length := by omega
  obtain ⟨v0, hv0⟩ := List.exists_mem_of_length_pos hQ
  unfold attStep
  rw [(isValidVote_true_iff _ _).2 F]
  simp only
  have htf : st.1.latestFinalized.slot < d.target.slot := by
    by_contra hc
    have := F.tgtNot
    rw [isSlotJustified_le (by omega)] at this
    cases this
  obtain ⟨js, hset, -⟩ := setJustified_spec (js := st.1.justifiedSlots) htf (by
    have h1 := h.win
    have h2 := getElem?_lt F.tgtOn
    rw [h.hist] at h2
    omega)
  rw [if_neg, if_neg]
  · have hl := (newVotes_spec h ⟨bitsOf s0.validators.length Q, d⟩ (fun _ _ => trivial)).1
    rw [recordVotes_length] at hl
    have hcount := recordVotes_count hl hq hqn
    rw [if_pos (Nat.le_trans hq3 (Nat.mul_le_mul_left 3 hcount)), hset]
    exact ⟨_, _, rfl, rfl⟩
  · simp only [List.any_eq_true, decide_eq_true_eq, not_exists, not_and]
    intro i hi hbi
    have g1 := (List.mem_range'_1.1 hi).1
    have g2 := (bitsOf_get.1 hbi).1
    omega
  · rw [List.count_eq_zero]
    exact fun hm => hm (List.mem_of_getElem? (bitsOf_get.2 ⟨hqn _ hv0, hv0⟩))

/-- With blocks at two neighbouring slots, one more block whose votes are of two thirds of the
validators finalizes the earlier one. -/
theorem finalize_pair {H : Hash} (hz : ∀ s, H.state s ≠ 0) (hzh : ∀ h, H.header h ≠ 0) {t : Nat}
    {vals : List Validator} {bs : List Block} {s : State}
    (hc : Chain H (State.fromGenesis H t vals) bs s) (hv : 0 < vals.length)
    (hvl : vals.length ≤ validatorRegistryLimit) {Q : List Nat} (hq : Q.Nodup)
    (hqn : ∀ v ∈ Q, v < vals.length) (hq3 : 2 * vals.length ≤ 3 * Q.length) {a b c : Nat}
    (hfa : s.latestFinalized.slot < a) (hab : a < b) (hsc : s.slot < c)
    (hlim : c ≤ historicalRootsLimit)
    (hxa : ∃ x ∈ bs, x.slot = a) (hxb : ∃ x ∈ bs, x.slot = b)
    (hja : jst s.justifiedSlots s.latestFinalized.slot a = true ∨
      slotIsJustifiableAfter a s.latestFinalized.slot = true)
    (hjb : slotIsJustifiableAfter b s.latestFinalized.slot = true)
    (hnb : jst s.justifiedSlots s.latestFinalized.slot b = false)
    (hnone : ∀ m, a < m → m < b → slotIsJustifiableAfter m s.latestFinalized.slot = false) :
    ∃ z s', z.slot = c ∧ importState H s z = .ok s' ∧ s'.latestFinalized.slot = a ∧
      ∀ y ∈ z.body, ∀ v : Nat, y.bits[v]? = some true → v ∈ Q := by
  have hne : bs ≠ [] := by
    obtain ⟨x, hx, -⟩ := hxa
    intro h; rw [h] at hx; cases hx
  have hinv := (chain_inv hc hne).weaken (W := fun _ _ => True) (fun _ _ _ => trivial)
  obtain ⟨xa, xa1, xa2⟩ := hxa
  obtain ⟨xb, xb1, xb2⟩ := hxb
  have hbs := ((chain_slots hc).1 xb xb1).1
  obtain ⟨ra, ra1, ra2⟩ := extendedHist_on hz hzh hc xa1 c
  obtain ⟨rb, rb1, rb2⟩ := extendedHist_on hz hzh hc xb1 c
  rw [xa2] at ra2
  rw [xb2] at rb2
  have hfin : (extendedHist s c (tipRoot H (State.fromGenesis H t vals) bs))[
      s.latestFinalized.slot]? = some s.latestFinalized.root := by
    unfold extendedHist
    have := getElem?_lt hinv.finOn
    rw [List.append_assoc, List.getElem?_append_left (by omega)]
    exact hinv.finOn
  have hfnz := (chain_checkpoint_nonzero hzh hc hne).1
  let d1 : AttData := ⟨c, ⟨ra, a⟩, ⟨ra, a⟩, s.latestFinalized⟩
  let d2 : AttData := ⟨c, ⟨rb, b⟩, ⟨rb, b⟩, ⟨ra, a⟩⟩
  -- what is common to both bodies
  have key : ∀ (body : List AggAtt), body.length ≤ 2 →
      (∀ y ∈ body, y = ⟨bitsOf vals.length Q, d1⟩ ∨ y = ⟨bitsOf vals.length Q, d2⟩) →
      (∀ s2 : State, SInv (fun _ _ => True) s2 → s2.validators = vals →
        s2.historicalBlockHashes = extendedHist s c (tipRoot H (State.fromGenesis H t vals) bs) →
        s2.latestFinalized.slot = s.latestFinalized.slot →
        (∀ k, jst s2.justifiedSlots s.latestFinalized.slot k
          = jst s.justifiedSlots s.latestFinalized.slot k) →
        (isSlotJustified s2.justifiedSlots s.latestFinalized.slot b = some false) →
        (jst s.justifiedSlots s.latestFinalized.slot a = false →
          isSlotJustified s2.justifiedSlots s.latestFinalized.slot a = some false) →
        ∀ st, attLoop vals.length (rootToSlot s2.historicalBlockHashes s2.latestFinalized.slot) body
          (s2, unpackTally vals.length s2.justificationsRoots s2.justificationsValidators) = .ok st →
          st.1.latestFinalized.slot = a) →
      ∃ z s', z.slot = c ∧ importState H s z = .ok s' ∧ s'.latestFinalized.slot = a ∧
        ∀ y ∈ z.body, ∀ v : Nat, y.bits[v]? = some true → v ∈ Q := by
    intro body hbl hbody hloop
    obtain ⟨s2, i1, i2, i3, i4, i5, -, -, i8, i9⟩ := build_block hz hc hsc hlim hv body
    have hj := jst_extend i8
    have hQ : 0 < Q.length := by omega
    obtain ⟨v0, hv0⟩ := List.exists_mem_of_length_pos hQ
    have hl2 : s2.historicalBlockHashes.length = c := by rw [i1.histLen, i3]
    obtain ⟨s3, h3⟩ := processAttestations_succeeds (as := body) i1 (by rw [i2]; exact hv)
      (by rw [i2]; exact hvl) (by rw [hl2]; exact hlim) (by
        have := distinctDataCount_le body
        have : 2 ≤ maxAttestationsData := by decide
        omega) (by
        intro y hy
        rw [hl2, i2]
        have e : y.bits = bitsOf vals.length Q ∧ y.data.source.slot < c ∧
            y.data.target.slot < c := by
          rcases hbody y hy with rfl | rfl
          · exact ⟨rfl, by show s.latestFinalized.slot < c; omega, by show a < c; omega⟩
          · exact ⟨rfl, by show a < c; omega, by show b < c; omega⟩
        refine ⟨e.2.1, e.2.2, ⟨v0, by rw [e.1]; exact bitsOf_get.2 ⟨hqn _ hv0, hv0⟩⟩, ?_⟩
        intro v hvv
        rw [e.1] at hvv
        exact (bitsOf_get.1 hvv).1)
    obtain ⟨z, s', a1, a2, a3, -, a5⟩ := i9 s3 h3
    obtain ⟨st, g1, g2, -⟩ := processAttestations_loop h3
    refine ⟨z, s', a1, a3, ?_, ?_⟩
    · rw [a5, g2]
      have hdef : ∀ k, s.latestFinalized.slot < k → k < c →
          jst s.justifiedSlots s.latestFinalized.slot k = false →
          isSlotJustified s2.justifiedSlots s.latestFinalized.slot k = some false := by
        intro k k1 k2 k3
        have hw := i1.win
        rw [← hj] at k3
        rw [isSlotJustified_gt k1] at *
        unfold jst at k3
        rw [isSlotJustified_gt k1] at k3
        cases hg : s2.justifiedSlots[k - s.latestFinalized.slot - 1]? with
        | none =>
          rw [List.getElem?_eq_none_iff] at hg
          omega
        | some v => rw [hg] at k3; simp at k3; rw [k3]
      rw [i2] at g1
      exact hloop s2 i1 i2 i4 i5 hj (hdef b (by omega) (by omega) hnb)
        (fun h => hdef a hfa (by omega) h) st g1
    · rw [a2]
      intro y hy v hvv
      rcases hbody y hy with rfl | rfl <;> exact (bitsOf_get.1 hvv).2
  -- the second vote, from any loop state in which the first slot is justified
  have second : ∀ (s2 : State) (st : State × Tally) rts, LoopInv s2 rts (fun _ _ => True) st →
      s2.validators = vals →
      st.1.historicalBlockHashes = extendedHist s c (tipRoot H (State.fromGenesis H t vals) bs) →
      st.1.latestFinalized.slot = s.latestFinalized.slot →
      isSlotJustified st.1.justifiedSlots s.latestFinalized.slot a = some true →
      isSlotJustified st.1.justifiedSlots s.latestFinalized.slot b = some false →
      ∃ st', attStep vals.length rts st ⟨bitsOf vals.length Q, d2⟩ = .ok st' ∧
        st'.1.latestFinalized.slot = a := by
    intro s2 st rts hl hvals hh hf h1 h2
    have F : ValidVoteFacts st.1 d2 := ⟨by rw [hf]; exact h1, by rw [hf]; exact h2, ra1, rb1, rb1,
      by rw [hh]; exact ra2, by rw [hh]; exact rb2, by rw [hh]; exact rb2, hab,
      by rw [hf]; exact hjb⟩
    obtain ⟨js, t', -, e2⟩ := attStep_quorum hl F hq (by rw [hvals]; exact hqn)
      (by rw [hvals]; exact hv) (by rw [hvals]; exact hq3)
    rw [hvals] at e2
    refine ⟨_, e2, ?_⟩
    unfold tryFinalize
    simp only [hf]
    rw [if_neg, if_neg]
    · simp only [List.any_eq_true, List.mem_range'_1, not_exists, not_and]
      intro m hm
      have : slotIsJustifiableAfter m s.latestFinalized.slot = false :=
        hnone m (by show a < m; have : a + 1 ≤ m := hm.1; omega)
          (by have : m < a + 1 + (b - (a + 1)) := hm.2; omega)
      rw [this]; simp
    · show ¬ a ≤ _; omega
  cases haj : jst s.justifiedSlots s.latestFinalized.slot a with
  | true =>
    apply key [⟨bitsOf vals.length Q, d2⟩] (by simp) (by simp)
    intro s2 i1 i2 i3 i4 i5 i6 i7 st hst
    have hloop := i1.loopInv
    rw [i2] at hloop
    obtain ⟨st', e1, e2⟩ := second s2 _ _ hloop i2 i3 i4
      (jst_eq_true (by rw [i5]; exact haj)) i6
    simp only [attLoop, e1, Except.ok.injEq] at hst
    rw [← hst]; exact e2
  | false =>
    have hja' : slotIsJustifiableAfter a s.latestFinalized.slot = true := by
      rcases hja with h | h
      · rw [haj] at h; cases h
      · exact h
    apply key [⟨bitsOf vals.length Q, d1⟩, ⟨bitsOf vals.length Q, d2⟩] (by simp) (by simp)
    intro s2 i1 i2 i3 i4 i5 i6 i7 st hst
    have hloop := i1.loopInv
    have F : ValidVoteFacts s2 d1 := ⟨by rw [i4]; exact isSlotJustified_le (Nat.le_refl _),
      by rw [i4]; exact i7 haj, hfnz, ra1, ra1, by rw [i3]; exact hfin, by rw [i3]; exact ra2,
      by rw [i3]; exact ra2, hfa, by rw [i4]; exact hja'⟩
    obtain ⟨js, t', e1, e2⟩ := attStep_quorum hloop F hq (by rw [i2]; exact hqn)
      (by rw [i2]; exact hv) (by rw [i2]; exact hq3)
    have hl1 := attStep_inv (fun k r h1 h2 => rootToSlot_ge h1 h2) hloop
      (fun _ _ _ => trivial) e2
    have hT : (tryFinalize { s2 with
          latestJustified := maxBySlot s2.latestJustified d1.target
          justifiedSlots := js } d1.source d1.target t'
          (rootToSlot s2.historicalBlockHashes s2.latestFinalized.slot)) = ({ s2 with
          latestJustified := maxBySlot s2.latestJustified d1.target
          justifiedSlots := js }, t') := by
      unfold tryFinalize
      rw [if_pos]
      show s.latestFinalized.slot ≤ s2.latestFinalized.slot
      omega
    rw [hT] at e2 hl1
    have hset := jst_set (by rw [i4]; exact hfa) e1
    rw [i4] at hset
    obtain ⟨js', e1', -, e3⟩ := setJustified_spec (js := s2.justifiedSlots)
      (f := s2.latestFinalized.slot) (k := d1.target.slot) (by rw [i4]; exact hfa) (by
        have h1 := i1.win
        have h2 := i1.histLen
        have h3 := getElem?_lt ra2
        rw [← i3] at h3
        show a ≤ _
        omega)
    rw [e1, Option.some.injEq] at e1'
    subst e1'
    rw [i4] at e3
    obtain ⟨st', g1, g2⟩ := second s2 _
      (rootToSlot s2.historicalBlockHashes s2.latestFinalized.slot) hl1 i2 i3 i4 (by
      have := e3 a
      rw [if_pos rfl] at this
      exact this) (by
      have := e3 b
      rw [if_neg (by show ¬ b = a; omega)] at this
      rw [this]; exact i6)
    rw [i2] at e2 g1
    rw [attLoop, e2] at hst
    simp only at hst
    rw [attLoop, g1] at hst
    simp only [attLoop, Except.ok.injEq] at hst
    rw [← hst]; exact g2

end Verif
