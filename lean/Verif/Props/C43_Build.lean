import Verif.Lemmas.Builder
import Verif.Spec.Witness
import Verif.Props.C03_History
import Verif.Props.C05_C08_Checkpoints
/-!
# C43: a built block is accepted by the state transition
-/
namespace Verif.Build
open Verif Verif.Buffers JustifiedSlots

/-! ## What the selection puts into a block -/

theorem selectAttestations_spec {s : State} {slot : Nat} {parentRoot : Root} {known : List Root}
    {ord : Root → List Nat → List Nat} {pool : Pool} {m : Nat} {sel : List Entry}
    (hn : pool.keys.Nodup) (h : selectAttestations s slot parentRoot known ord pool m = some sel) :
    ∃ ks : List Pick, ks.length ≤ min m maxAttestationsData ∧
      Rounds (extendedHist s slot parentRoot) known s.validators.length pool []
        (Projected.ofState s) ks ∧ sel = ks.flatMap (Pick.entries ord) := by
  unfold selectAttestations at h
  split at h
  · cases h
    exact ⟨[], Nat.zero_le _, .nil, rfl⟩
  · obtain ⟨ks, h1, h2, h3⟩ := selectRounds_rounds hn _ _ _ _ _ h
    exact ⟨ks, h1, h2, by simpa using h3⟩

theorem selectAttestations_run {s : State} {slot : Nat} {parentRoot : Root} {known : List Root}
    {ord : Root → List Nat → List Nat} {pool : Pool} {m : Nat} {sel : List Entry}
    (hn : pool.keys.Nodup) (h : selectAttestations s slot parentRoot known ord pool m = some sel) :
    ∃ (ks : List Pick) (q : Projected),
      Run (extendedHist s slot parentRoot) known s.validators.length pool
        (min m maxAttestationsData) [] (Projected.ofState s) ks q ∧
      sel = ks.flatMap (Pick.entries ord) := by
  unfold selectAttestations at h
  split at h
  next he =>
    cases h
    rw [List.isEmpty_iff] at he
    subst he
    exact ⟨[], _, .stop (.inr rfl), rfl⟩
  · obtain ⟨ks, q, h2, h3⟩ := selectRounds_run hn _ _ _ _ _ h
    exact ⟨ks, q, h2, by simpa using h3⟩

theorem entries_aligned {ord : Root → List Nat → List Nat} {ks : List Pick} :
    ∀ e ∈ ks.flatMap (Pick.entries ord), e.1.bits = e.2.participants := by
  intro e he
  obtain ⟨k, -, hk⟩ := List.mem_flatMap.1 he
  exact (mem_entries hk).2.1

/-- The second phase of building, in both configurations: one entry per data, each entry aligned
with its proof, and every voter of an entry is a voter of a selected entry of the same data. -/
theorem pack_spec {merge : AttData → List Agg → Option Nat} {s : State} {c : Config}
    {sel es : List Entry} (ha : ∀ e ∈ sel, e.1.bits = e.2.participants)
    (h : (if c.aggregate then compact merge sel else some (keepBest (runningVotes s) sel)) = some es) :
    OnePerData sel es ∧ ∀ x ∈ es, x.1.bits = x.2.participants ∧
      (∀ v, Votes x v → ∃ e ∈ sel, e.1.data = x.1.data ∧ Votes e v) ∧
      ((∀ e ∈ sel, ∃ v, Votes e v) → ∃ v, Votes x v) := by
  by_cases hc : c.aggregate = true
  · rw [if_pos hc] at h
    obtain ⟨h1, h2⟩ := C44_compact ha h
    refine ⟨h1, fun x hx => ⟨(h2 x hx).1, fun v hv => ((h2 x hx).2 v).1 hv, fun hne => ?_⟩⟩
    have hd : x.1.data ∈ sel.map (·.1.data) := (h1.same _).1 (List.mem_map_of_mem hx)
    obtain ⟨e, he, hde⟩ := List.mem_map.1 hd
    obtain ⟨v, hv⟩ := hne e he
    exact ⟨v, ((h2 x hx).2 v).2 ⟨e, he, hde, hv⟩⟩
  · rw [if_neg hc] at h
    cases h
    obtain ⟨h1, h2, -⟩ := C44_keep_best s sel
    exact ⟨h1, fun x hx => ⟨ha x (h2 x hx), fun v hv => ⟨x, h2 x hx, rfl, hv⟩,
      fun hne => hne x (h2 x hx)⟩⟩

theorem data_count {sel es : List Entry} {ord : Root → List Nat → List Nat} {ks : List Pick}
    (hs : sel = ks.flatMap (Pick.entries ord)) (h : OnePerData sel es) : es.length ≤ ks.length := by
  have : (es.map (·.1.data)).length ≤ (ks.map Pick.data).length := by
    refine (List.subperm_of_subset h.nodup ?_).length_le
    intro d hd
    obtain ⟨e, he, rfl⟩ := List.mem_map.1 ((h.same d).1 hd)
    rw [hs] at he
    obtain ⟨k, hk, hek⟩ := List.mem_flatMap.1 he
    rw [(mem_entries hek).1]
    exact List.mem_map_of_mem hk
  simpa using this

/-- Greedy packing of a picked entry yields only proofs with participants, all of them from the
pool. -/
theorem extend_mem {proofs : List Agg} {ord : List Nat → List Nat} (ho : ∀ l, (ord l).Perm l)
    {a : Agg} (ha : a ∈ extendGreedily proofs ord) : a ∈ proofs ∧ ∃ v, In v a := by
  obtain ⟨⟨idx, -, h1, h2⟩, -, h3⟩ := C45_builder proofs ord ho
  constructor
  · have : some a ∈ (extendGreedily proofs ord).map some := List.mem_map_of_mem ha
    rw [h2] at this
    obtain ⟨i, -, he⟩ := List.mem_map.1 this
    exact List.mem_of_getElem? he
  · obtain ⟨i, hi, rfl⟩ := List.mem_iff_getElem.1 ha
    have := (h3 i hi).1
    by_contra hc
    have hz : gain [] ((extendGreedily proofs ord).take i) (extendGreedily proofs ord)[i] = 0 := by
      rw [gain_eq_zero]
      intro v hv
      exact absurd ⟨v, hv⟩ hc
    omega

/-! ## C43 -/

/-- **C43, acceptance.** Whenever the builder returns a block, for any head state, pool and
configuration: the block is for the requested slot, proposer and parent; its attestation data are
distinct and at most `min maxAtts 8`; proof `i` covers exactly the participants of attestation
`i`; and the state transition accepts the block on the head state, ending in the post state the
builder computed. -/
theorem C43_accepted {H : Hash} {merge : AttData → List Agg → Option Nat}
    {ord : Root → List Nat → List Nat} {s : State} {slot proposer : Nat} {parentRoot : Root}
    {known : List Root} {pool : Pool} {c : Config} {b : Block} {proofs : List Agg} {post : State}
    (hn : pool.keys.Nodup)
    (h : buildBlock H merge ord s slot proposer parentRoot known pool c = .ok (b, proofs, post)) :
    b.slot = slot ∧ b.proposerIndex = proposer ∧ b.parentRoot = parentRoot ∧
    (b.body.map AggAtt.data).Nodup ∧ b.body.length ≤ c.maxAtts ∧ b.body.length ≤ 8 ∧
    b.body.map AggAtt.bits = proofs.map Agg.participants ∧
    stateTransition H s b = .ok post := by
  unfold buildBlock at h
  cases hsel : selectAttestations s slot parentRoot known ord pool c.maxAtts with
  | none => rw [hsel] at h; cases h
  | some sel =>
  rw [hsel] at h
  simp only at h
  cases hes : (if c.aggregate then compact merge sel else some (keepBest (runningVotes s) sel)) with
  | none => rw [hes] at h; cases h
  | some es =>
  rw [hes] at h
  simp only at h
  obtain ⟨ks, hk1, hk2, hk3⟩ := selectAttestations_spec hn hsel
  obtain ⟨hone, hal⟩ := pack_spec (by rw [hk3]; exact entries_aligned) hes
  have hlen := data_count hk3 hone
  cases hs1 : processSlots H s slot with
  | error e => rw [hs1] at h; cases h
  | ok s1 =>
  rw [hs1] at h
  simp only at h
  generalize hb0 : ({ slot := slot, proposerIndex := proposer, parentRoot := parentRoot,
                      stateRoot := 0, body := es.map Prod.fst } : Block) = b0 at h
  cases hpb : processBlock H s1 b0 with
  | error e => rw [hpb] at h; cases h
  | ok s2 =>
  rw [hpb] at h
  simp only [Except.ok.injEq, Prod.mk.injEq] at h
  obtain ⟨hb, hp, rfl⟩ := h
  subst hb0 hb hp
  simp only [List.length_map, List.map_map]
  refine ⟨trivial, trivial, trivial, hone.nodup, ?_, ?_, ?_, ?_⟩
  · omega
  · have : maxAttestationsData = 8 := rfl
    omega
  · apply List.map_congr_left
    intro x hx
    exact (hal x hx).1
  · unfold stateTransition
    simp only [hs1]
    have : processBlock H s1 ⟨slot, proposer, parentRoot, H.state s2, es.map Prod.fst⟩ = .ok s2 := hpb
    rw [this]
    simp

/-! ## Building succeeds -/

/-- Attestations with in-range slots and non-empty, in-range bits never make the attestation loop
fail. -/
theorem attLoop_succeeds {s0 : State} {rts : Root → Option Nat}
    (hrts : ∀ k r, s0.latestFinalized.slot < k → s0.historicalBlockHashes[k]? = some r →
      ∃ k', rts r = some k' ∧ k ≤ k') :
    ∀ (as : List AggAtt) (st : State × Tally), LoopInv s0 rts (fun _ _ => True) st →
    (∀ a ∈ as, a.data.source.slot < s0.historicalBlockHashes.length ∧
      a.data.target.slot < s0.historicalBlockHashes.length ∧
      (∃ v : Nat, a.bits[v]? = some true) ∧ ∀ v : Nat, a.bits[v]? = some true → v < s0.validators.length) →
    ∃ st', attLoop s0.validators.length rts as st = .ok st' ∧
      LoopInv s0 rts (fun _ _ => True) st'
  | [], st, h, _ => ⟨st, rfl, h⟩
  | a :: as, st, h, ha => by
    obtain ⟨a1, a2, ⟨v, hv⟩, a3⟩ := ha a List.mem_cons_self
    have hwin := h.win
    have inr : ∀ k, k < s0.historicalBlockHashes.length →
        ∃ b, isSlotJustified st.1.justifiedSlots st.1.latestFinalized.slot k = some b := by
      intro k hk
      by_cases hf : k ≤ st.1.latestFinalized.slot
      · exact ⟨_, isSlotJustified_le hf⟩
      · rw [isSlotJustified_gt (by omega)]
        have : k - st.1.latestFinalized.slot - 1 < st.1.justifiedSlots.length := by omega
        exact ⟨_, List.getElem?_eq_getElem this⟩
    have hok : ∃ b, isValidVote st.1 a.data = .ok b := by
      unfold isValidVote
      obtain ⟨b1, h1⟩ := inr _ a1
      obtain ⟨b2, h2⟩ := inr _ a2
      rw [h1]
      cases b1
      · exact ⟨_, rfl⟩
      · simp only
        rw [h2]
        cases b2
        · simp only
          split
          · exact ⟨_, rfl⟩
          split
          · exact ⟨_, rfl⟩
          split <;> exact ⟨_, rfl⟩
        · exact ⟨_, rfl⟩
    have step : ∃ st1, attStep s0.validators.length rts st a = .ok st1 := by
      obtain ⟨b, hb⟩ := hok
      unfold attStep
      rw [hb]
      cases b
      · exact ⟨_, rfl⟩
      · simp only
        have hc : ¬ a.bits.count true = 0 := by
          rw [List.count_eq_zero]
          exact fun hm => hm (List.mem_of_getElem? hv)
        rw [if_neg hc, if_neg]
        · have F := (isValidVote_true_iff _ _).1 hb
          have htf : st.1.latestFinalized.slot < a.data.target.slot := by
            by_contra hcc
            have := F.tgtNot
            rw [isSlotJustified_le (by omega)] at this
            cases this
          obtain ⟨js', hset, -⟩ := setJustified_spec (js := st.1.justifiedSlots) htf (by omega)
          simp only [hset]
          split <;> exact ⟨_, rfl⟩
        · simp only [List.any_eq_true, decide_eq_true_eq, not_exists, not_and]
          intro i hi hbi
          have h1 := (List.mem_range'_1.1 hi).1
          have h2 := a3 i hbi
          omega
    obtain ⟨st1, h1⟩ := step
    have hinv := attStep_inv hrts h (fun _ _ _ => trivial) h1
    unfold attLoop
    rw [h1]
    exact attLoop_succeeds hrts as st1 hinv (fun x hx => ha x (List.mem_cons_of_mem _ hx))

/-- Attestation processing succeeds on well-shaped attestations. -/
theorem processAttestations_succeeds {s : State} {as : List AggAtt} (h : SInv (fun _ _ => True) s)
    (hn : 0 < s.validators.length) (hnl : s.validators.length ≤ validatorRegistryLimit)
    (hl : s.historicalBlockHashes.length ≤ historicalRootsLimit)
    (hd : distinctDataCount as ≤ maxAttestationsData)
    (ha : ∀ a ∈ as, a.data.source.slot < s.historicalBlockHashes.length ∧
      a.data.target.slot < s.historicalBlockHashes.length ∧
      (∃ v : Nat, a.bits[v]? = some true) ∧ ∀ v : Nat, a.bits[v]? = some true → v < s.validators.length) :
    ∃ s', processAttestations s as = .ok s' := by
  unfold processAttestations
  rw [if_neg (by omega)]
  simp only
  rw [if_neg (by omega), if_neg (by rw [h.flatLen]; simp), if_neg]
  · obtain ⟨st', h1, h2⟩ := attLoop_succeeds (fun k r h1 h2 => rootToSlot_ge h1 h2) as _ h.loopInv ha
    rw [h1]
    exact serialize_no_panic h2 hl hnl
  · simp only [List.any_eq_true, decide_eq_true_eq, not_exists, not_and]
    exact fun r hr => h.rootNZ r hr

/-- The head state of a chain, and what header processing makes of it. -/
theorem chain_header {H : Hash} (hz : ∀ s, H.state s ≠ 0) {t : Nat} {vals : List Validator}
    {bs : List Block} {s : State} {b : Block} (hc : Chain H (State.fromGenesis H t vals) bs s)
    (hslot : s.slot < b.slot) (hlim : b.slot ≤ historicalRootsLimit) (hv : 0 < vals.length)
    (hprop : b.proposerIndex = b.slot % vals.length)
    (hpar : b.parentRoot = tipRoot H (State.fromGenesis H t vals) bs) :
    s.validators = vals ∧ s.latestBlockHeader.slot = s.slot ∧
    ∃ s1 s2, processSlots H s b.slot = .ok s1 ∧ processBlockHeader H s1 b = .ok s2 ∧
      SInv (fun _ _ => True) s2 ∧ s2.validators = vals ∧
      s2.historicalBlockHashes = extendedHist s b.slot b.parentRoot ∧
      s2.historicalBlockHashes.length = b.slot := by
  have hslots : ∃ s1, processSlots H s b.slot = .ok s1 := by
    unfold processSlots
    rw [if_neg (by omega)]
    exact ⟨_, rfl⟩
  obtain ⟨s1, hs1⟩ := hslots
  cases hc with
  | nil =>
    refine ⟨rfl, rfl, ?_⟩
    have : ∃ s2, processBlockHeader H s1 b = .ok s2 := by
      have np := genesis_header_no_panic hs1
      have hs1' := hs1
      unfold processSlots at hs1'
      rw [if_neg (by omega)] at hs1'
      simp only [State.fromGenesis, if_true, Except.ok.injEq] at hs1'
      have hpar' : b.parentRoot = H.header s1.latestBlockHeader := by
        rw [hpar, ← hs1']; rfl
      cases hp : processBlockHeader H s1 b with
      | ok s2 => exact ⟨s2, rfl⟩
      | error e =>
        exfalso
        have np := np
        rw [hp] at np
        unfold processBlockHeader at hp
        simp only at hp
        rw [if_neg (by rw [← hs1']; simp)] at hp
        have hpos : 0 < b.slot := hslot
        rw [if_neg (by rw [← hs1']; simp; omega)] at hp
        have hvl : s1.validators.length = vals.length := by rw [← hs1']
        unfold currentProposer at hp
        rw [hvl, if_pos hv] at hp
        simp only at hp
        rw [if_neg (by rw [hprop]; simp), if_neg (by rw [hpar']; simp)] at hp
        have e2 : s1.latestBlockHeader.slot = 0 := by rw [← hs1']
        have e3 : s1.historicalBlockHashes.length = 0 := by rw [← hs1']; rfl
        rw [if_pos e2] at hp
        simp only [e2] at hp
        rw [if_neg (by omega)] at hp
        split at hp
        · cases hp; exact np 211 rfl
        · cases hp
    obtain ⟨s2, hs2⟩ := this
    obtain ⟨i1, i2, i3, -, -, -, i7, i8, i9, -⟩ := genesis_header_inv (V := fun _ _ => True) hs1 hs2
    refine ⟨s1, s2, hs1, hs2, i1, i9, ?_, by rw [i1.histLen, i3]⟩
    rw [i7, i8]
    simp [extendedHist, State.fromGenesis]
  | @cons bs0 s0 _ b0 hc0 hi0 =>
    have hc : Chain H (State.fromGenesis H t vals) (b0 :: bs0) s := .cons hc0 hi0
    have hinv := (chain_inv hc (by simp)).weaken (W := fun _ _ => True) (fun _ _ _ => trivial)
    have hsv : s.validators = vals := chain_validators hc
    refine ⟨hsv, hinv.hdr, ?_⟩
    have hs1' := hs1
    unfold processSlots at hs1'
    rw [if_neg (by omega)] at hs1'
    obtain ⟨-, h9⟩ := (chain_slots hc).2 b0 bs0 rfl
    obtain ⟨_, _, s3, _, _, _, hr, _⟩ := importState_ok hi0
    have hnz : s.latestBlockHeader.stateRoot ≠ 0 := by
      rw [h9]; show b0.stateRoot ≠ 0; rw [hr]; exact hz s3
    rw [if_neg hnz] at hs1'
    simp only [Except.ok.injEq] at hs1'
    have : ∃ s2, processBlockHeader H s1 b = .ok s2 := by
      have np := header_no_panic hinv hs1
      have hpar' : b.parentRoot = H.header s1.latestBlockHeader := by
        rw [hpar, ← hs1']
        show b0.root H = H.header s.latestBlockHeader
        rw [h9]; rfl
      cases hp : processBlockHeader H s1 b with
      | ok s2 => exact ⟨s2, rfl⟩
      | error e =>
        exfalso
        rw [hp] at np
        have hpos := hinv.slotPos
        have e2 : s1.latestBlockHeader.slot = s.slot := by rw [← hs1']; exact hinv.hdr
        have e3 : s1.historicalBlockHashes.length = s.slot := by rw [← hs1']; exact hinv.histLen
        have e4 : s1.slot = b.slot := by rw [← hs1']
        have hvl : s1.validators.length = vals.length := by rw [← hs1']; simp [hsv]
        unfold processBlockHeader at hp
        simp only at hp
        rw [if_neg (by rw [e4]; simp), if_neg (by omega)] at hp
        unfold currentProposer at hp
        rw [hvl, if_pos hv] at hp
        simp only at hp
        have hs0 : ¬ s.slot = 0 := by omega
        rw [if_neg (by rw [hprop]; simp), if_neg (by rw [hpar']; simp), e2] at hp
        simp only [if_neg hs0] at hp
        rw [if_neg (by omega)] at hp
        split at hp
        · cases hp; exact np 211 rfl
        · cases hp
    obtain ⟨s2, hs2⟩ := this
    obtain ⟨i1, -, i3, i4, i5, i6, i7, -⟩ := header_inv hinv hs1 hs2
    refine ⟨s1, s2, hs1, hs2, i1, i7.trans hsv, ?_, by rw [i1.histLen, i4]⟩
    rw [i5, ← i6]
    simp [extendedHist, hinv.hdr]

theorem length_eraseDups_le {α : Type} [BEq α] : ∀ (n : Nat) (l : List α), l.length ≤ n →
    l.eraseDups.length ≤ l.length
  | _, [], _ => by simp
  | 0, _ :: _, h => by simp at h
  | n + 1, a :: l, h => by
    rw [List.eraseDups_cons]
    simp only [List.length_cons] at h ⊢
    have h1 := List.length_filter_le (fun b => !b == a) l
    have h2 := length_eraseDups_le n (l.filter (fun b => !b == a)) (by omega)
    omega

theorem distinctDataCount_le (as : List AggAtt) : distinctDataCount as ≤ as.length := by
  unfold distinctDataCount
  have := length_eraseDups_le _ (as.map AggAtt.data) (Nat.le_refl _)
  simpa using this

/-- **C43, success.** On the head of any valid chain from genesis, for the right proposer, within
the history limit, with a pool whose participants are validators of the chain: building a block
never fails — no panic and no error — whatever is in the pool, whenever proof merging succeeds on
any two or more proofs filed under the same data (or is not used at all). -/
theorem C43_succeeds {H : Hash} (hz : ∀ s, H.state s ≠ 0) {t : Nat} {vals : List Validator}
    {bs : List Block} {s : State} (hc : Chain H (State.fromGenesis H t vals) bs s)
    {merge : AttData → List Agg → Option Nat} {ord : Root → List Nat → List Nat}
    (ho : ∀ r l, (ord r l).Perm l)
    {slot : Nat} (hslot : s.slot < slot) (hlim : slot ≤ historicalRootsLimit)
    (hv : 0 < vals.length) (hvl : vals.length ≤ validatorRegistryLimit)
    {known : List Root} {pool : Pool} (hn : pool.keys.Nodup)
    (hpool : ∀ e ∈ pool, ∀ p ∈ e.2.2, ∀ v, In v p → v < vals.length)
    {c : Config} (hm : c.aggregate = true → ∀ (d : AttData) (ps : List Agg), 2 ≤ ps.length →
      (∀ p ∈ ps, ∃ e ∈ pool, e.2.1 = d ∧ p ∈ e.2.2) → merge d ps ≠ none) :
    ∃ b proofs post, buildBlock H merge ord s slot (slot % vals.length)
      (tipRoot H (State.fromGenesis H t vals) bs) known pool c = .ok (b, proofs, post) := by
  generalize hpr : tipRoot H (State.fromGenesis H t vals) bs = pr
  obtain ⟨hsv, hhdr, -⟩ := chain_header (b := ⟨slot, slot % vals.length, pr, 0, []⟩) hz hc hslot hlim
    hv rfl hpr.symm
  have hhist : (extendedHist s slot pr).length = slot := by
    obtain ⟨-, -, s1, s2, -, -, -, -, h1, h2⟩ := chain_header
      (b := ⟨slot, slot % vals.length, pr, 0, []⟩) hz hc hslot hlim hv rfl hpr.symm
    exact (congrArg List.length h1).symm.trans h2
  unfold buildBlock
  have hsel : ∃ sel, selectAttestations s slot pr known ord pool c.maxAtts = some sel := by
    unfold selectAttestations
    split
    · exact ⟨_, rfl⟩
    · exact selectRounds_isSome hn (by rw [hhist]; exact hlim) _ _ _ _
  obtain ⟨sel, hsel⟩ := hsel
  rw [hsel]
  simp only
  obtain ⟨ks, hk1, hk2, hk3⟩ := selectAttestations_spec hn hsel
  have hes : ∃ es, (if c.aggregate then compact merge sel
      else some (keepBest (runningVotes s) sel)) = some es := by
    by_cases hcA : c.aggregate = true
    · rw [if_pos hcA]
      cases hcm : compact merge sel with
      | some es => exact ⟨es, rfl⟩
      | none =>
        obtain ⟨d, h1, h2⟩ := C44_compact_fails_only_if hcm
        refine absurd h2 (hm hcA _ _ (by rw [List.length_map]; exact h1) ?_)
        intro p hp
        obtain ⟨e, he, rfl⟩ := List.mem_map.1 hp
        obtain ⟨he, hd⟩ := mem_group.1 he
        rw [hk3] at he
        obtain ⟨k, hk, hek⟩ := List.mem_flatMap.1 he
        obtain ⟨g1, -, g3⟩ := mem_entries hek
        exact ⟨_, (hk2.mem k hk).1, g1.symm.trans hd, (extend_mem (ho k.root) g3).1⟩
    · rw [if_neg hcA]; exact ⟨_, rfl⟩
  obtain ⟨es, hes⟩ := hes
  rw [hes]
  simp only
  obtain ⟨hone, hal⟩ := pack_spec (by rw [hk3]; exact entries_aligned) hes
  have hlen := data_count hk3 hone
  obtain ⟨-, -, s1, s2, hs1, hs2, hinv, hvs2, hh2, hl2⟩ := chain_header
    (b := ⟨slot, slot % vals.length, pr, 0, es.map Prod.fst⟩) hz hc hslot hlim hv rfl hpr.symm
  simp only at hs1 hl2 hh2
  rw [hs1]
  simp only
  -- facts about the selected entries
  have hselF : ∀ e ∈ sel, e.1.data.source.slot < slot ∧ e.1.data.target.slot < slot ∧
      (∃ v, Votes e v) ∧ ∀ v, Votes e v → v < vals.length := by
    intro e he
    rw [hk3] at he
    obtain ⟨k, hk, hek⟩ := List.mem_flatMap.1 he
    obtain ⟨g1, g2, g3⟩ := mem_entries hek
    obtain ⟨k1, -, k3, -⟩ := hk2.mem k hk
    obtain ⟨m1, m2⟩ := extend_mem (ho k.root) g3
    have hmc := (matchesChain_iff _ _).1 k3
    have hq1 := getElem?_lt hmc.2.2.2.1
    have hq2 := getElem?_lt hmc.2.2.2.2.1
    rw [hhist] at hq1 hq2
    rw [g1]
    refine ⟨hq1, hq2, ?_, ?_⟩
    · obtain ⟨v, hv⟩ := m2
      exact ⟨v, by unfold Votes; rw [g2]; exact hv⟩
    · intro v hv
      unfold Votes at hv
      rw [g2] at hv
      exact hpool _ k1 _ m1 v hv
  have hatt : ∃ s3, processAttestations s2 (es.map Prod.fst) = .ok s3 := by
    refine processAttestations_succeeds hinv (by rw [hvs2]; exact hv) (by rw [hvs2]; exact hvl)
      (by rw [hl2]; exact hlim) ?_ ?_
    · have hd := distinctDataCount_le (es.map Prod.fst)
      rw [List.length_map] at hd
      omega
    · intro a ha
      obtain ⟨x, hx, rfl⟩ := List.mem_map.1 ha
      obtain ⟨-, x2, x3⟩ := hal x hx
      have hd : x.1.data ∈ sel.map (·.1.data) := (hone.same _).1 (List.mem_map_of_mem hx)
      obtain ⟨e, he, hde⟩ := List.mem_map.1 hd
      obtain ⟨f1, f2, -⟩ := hselF e he
      rw [hl2, hvs2, ← hde]
      refine ⟨f1, f2, x3 (fun e he => (hselF e he).2.2.1), ?_⟩
      intro v hv
      obtain ⟨e', he', -, hv'⟩ := x2 v hv
      exact (hselF e' he').2.2.2 v hv'
  obtain ⟨s3, hs3⟩ := hatt
  have : processBlock H s1 ⟨slot, slot % vals.length, pr, 0, es.map Prod.fst⟩ = .ok s3 := by
    unfold processBlock
    rw [hs2]
    exact hs3
  rw [this]
  exact ⟨_, _, _, rfl⟩

/-! ## A concrete build -/

/-- Two disjoint proofs for a vote `3 → 5`, and one for `3 → 3` that the builder must skip. -/
def bPool : Pool :=
  [ (5, (Witness.vote [] 3 5).data, [⟨[true, true], 1⟩, ⟨[false, false, true], 2⟩]),
    (3, (Witness.vote [] 3 3).data, [⟨[true, true, true], 3⟩]) ]

/-- On the witness chain (tip at slot 5, justified slot 3) the builder packs the vote `3 → 5`,
merged into one attestation of all three validators, and the post state justifies slot 5. -/
example : ∃ b proofs post, buildBlock Witness.wH (fun _ _ => some 9) (fun _ l => l) Witness.wState 7
      (7 % 3) 6 [6, 4] bPool ⟨true, 8⟩ = .ok (b, proofs, post) ∧
    b.body = [Witness.vote [true, true, true] 3 5] ∧ proofs = [⟨[true, true, true], 9⟩] ∧
    post.latestJustified = Witness.cp 5 := by
  refine ⟨⟨7, 1, 6, 1, [Witness.vote [true, true, true] 3 5]⟩, [⟨[true, true, true], 9⟩], ?_⟩
  refine ⟨(match buildBlock Witness.wH (fun _ _ => some 9) (fun _ l => l) Witness.wState 7
      (7 % 3) 6 [6, 4] bPool ⟨true, 8⟩ with | .ok x => x.2.2 | .error _ => Witness.wG), ?_⟩
  decide +kernel

/-- The hypotheses of `C43_succeeds` hold for it. -/
example : (∀ s, Witness.wH.state s ≠ 0) ∧
    Chain Witness.wH (State.fromGenesis Witness.wH 0 Witness.wVals) Witness.wBlocks.reverse
      Witness.wState ∧ Witness.wState.slot < 7 ∧ 7 ≤ historicalRootsLimit ∧
    0 < Witness.wVals.length ∧ Witness.wVals.length ≤ validatorRegistryLimit ∧ bPool.keys.Nodup ∧
    (∀ e ∈ bPool, ∀ p ∈ e.2.2, ∀ v ∈ Agg.ids p, v < Witness.wVals.length) ∧
    tipRoot Witness.wH Witness.wG Witness.wBlocks.reverse = 6 :=
  ⟨fun _ => Nat.one_ne_zero, Witness.wChain, by decide +kernel⟩

end Verif.Build
