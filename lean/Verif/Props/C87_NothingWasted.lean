import Verif.Lemmas.RunSim
/-!
# C87: a proposer never leaves a justification, a finalization or a countable vote behind
-/
namespace Verif.Build
open Verif Verif.Buffers JustifiedSlots

/-- The state keeps validator `v`'s vote for the block `r`. -/
def Recorded (s : State) (r : Root) (v : Nat) : Prop :=
  v < s.validators.length ∧ ∃ i, s.justificationsRoots[i]? = some r ∧
    s.justificationsValidators[i * s.validators.length + v]? = some true

theorem recorded_iff {s : State} (hn : s.justificationsRoots.Nodup) (r : Root) (v : Nat) :
    Recorded s r v ↔ v < s.validators.length ∧
      (votesOf s.validators.length (unpackTally s.validators.length s.justificationsRoots
        s.justificationsValidators) r)[v]? = some true := by
  unfold Recorded
  refine and_congr_right fun hv => ?_
  unfold votesOf
  constructor
  · rintro ⟨i, h1, h2⟩
    rw [unpackTally_get? hn h1, Option.getD_some]
    unfold segment
    simp [List.getElem?_map, List.getElem?_range hv, h2]
  · intro h
    cases hg : (unpackTally s.validators.length s.justificationsRoots
        s.justificationsValidators).get? r with
    | none =>
      rw [hg, Option.getD_none, List.getElem?_replicate, if_pos hv] at h
      cases h
    | some w =>
      rw [hg, Option.getD_some] at h
      obtain ⟨i, h1, h2⟩ := (unpackTally_spec _ _ _).2.1 _ (Tally.mem_of_get? hg)
      refine ⟨i, h1, ?_⟩
      simp only at h2
      rw [h2] at h
      unfold segment at h
      simpa [List.getElem?_map, List.getElem?_range hv] using h

theorem jst_eq_true {js : List Bool} {f k : Nat} (h : jst js f k = true) :
    isSlotJustified js f k = some true := by
  unfold jst at h
  cases hj : isSlotJustified js f k with
  | none => rw [hj] at h; cases h
  | some b => rw [hj] at h; cases h; rfl

/-- A built block, taken apart: rounds, attestation loop and post-state. -/
theorem build_outcome {H : Hash} (hz : ∀ s, H.state s ≠ 0) {t : Nat}
    {vals : List Validator} {bs : List Block} {s : State}
    (hc : Chain H (State.fromGenesis H t vals) bs s)
    {merge : AttData → List Agg → Option Nat} {ord : Root → List Nat → List Nat}
    (ho : ∀ r l, (ord r l).Perm l)
    {slot : Nat} (hslot : s.slot < slot) (hlim : slot ≤ historicalRootsLimit)
    (hv : 0 < vals.length)
    {known : List Root} {pool : Pool} (hn : pool.keys.Nodup)
    (hkey : ∀ e ∈ pool, e.1 = H.attData e.2.1)
    (hpool : ∀ e ∈ pool, ∀ p ∈ e.2.2, ∀ v, In v p → v < vals.length)
    (hu : UniqueRoots (extendedHist s slot (tipRoot H (State.fromGenesis H t vals) bs)))
    {c : Config} (hagg : c.aggregate = true) {b : Block} {proofs : List Agg} {post : State}
    (h : buildBlock H merge ord s slot (slot % vals.length)
      (tipRoot H (State.fromGenesis H t vals) bs) known pool c = .ok (b, proofs, post))
    {s1 s2 : State} (hs1 : processSlots H s b.slot = .ok s1)
    (hs2 : processBlockHeader H s1 b = .ok s2) :
    ∃ (ks : List Pick) (q : Projected) (st : State × Tally),
      Run s2.historicalBlockHashes known s2.validators.length pool
        (min c.maxAtts maxAttestationsData) [] (Projected.ofState s) ks q ∧
      ks.length = b.body.length ∧
      SInv (fun _ _ => True) s2 ∧ UniqueRoots s2.historicalBlockHashes ∧
      s2.historicalBlockHashes.length ≤ historicalRootsLimit ∧ s2.validators = vals ∧
      Open s2.validators.length (unpackTally s2.validators.length s2.justificationsRoots
        s2.justificationsValidators) ∧
      Sim s2.historicalBlockHashes s2.validators.length (Projected.ofState s)
        (s2, unpackTally s2.validators.length s2.justificationsRoots s2.justificationsValidators) ∧
      LoopInv s2 (rootToSlot s2.historicalBlockHashes s2.latestFinalized.slot) (fun _ _ => True) st ∧
      Sim s2.historicalBlockHashes s2.validators.length q st ∧
      serializeJustifications st.1 st.2 s2.validators.length = .ok post := by
  obtain ⟨s1', s2', ks, q, hs1', hs2', hpa, hrun, hF, hinv, hS, hcl, hu2, hvs, -, hl2⟩ :=
    build_picks hz hc ho hslot hlim hv hn hkey hpool hu hagg h
  rw [hs1] at hs1'; cases hs1'
  rw [hs2] at hs2'; cases hs2'
  obtain ⟨st, i1, i2, i3⟩ := run_final (fun k r h1 h2 => rootToSlot_ge h1 h2) hu2
    hl2 hrun _ _ hinv.loopInv hS hcl hF
  have hop := chain_open hc
  obtain ⟨f1, f2, f3, f4, f5⟩ := header_frame hs1 hs2
  rw [← f3, ← f4, ← f5] at hop
  refine ⟨ks, q, st, hrun, hF.length_eq, hinv, hu2, hl2, hvs, hop, hS, i2, i3, ?_⟩
  unfold processAttestations at hpa
  split at hpa
  · cases hpa
  simp only at hpa
  split at hpa
  · cases hpa
  split at hpa
  · cases hpa
  split at hpa
  · cases hpa
  rw [i1] at hpa
  exact hpa

theorem first_pick {s2 : State} {p : Projected} {pool : Pool} {known : List Root} {m : Nat}
    {ks : List Pick} {q : Projected}
    (hrun : Run s2.historicalBlockHashes known s2.validators.length pool m [] p ks q) (hm : 0 < m)
    (hvp : 0 < s2.validators.length) (hinv : SInv (fun _ _ => True) s2) (hl : s2.historicalBlockHashes.length ≤ historicalRootsLimit)
    (hop : Open s2.validators.length (unpackTally s2.validators.length s2.justificationsRoots
        s2.justificationsValidators))
    (hS : Sim s2.historicalBlockHashes s2.validators.length p
        (s2, unpackTally s2.validators.length s2.justificationsRoots s2.justificationsValidators))
    {r : Root} {d : AttData} {ps : List Agg} (he : (r, d, ps) ∈ pool) (hk : d.head.root ∈ known)
    (hcd : Countable s2 d)
    (hsm : SuperMaj (fun v => Recorded s2 d.target.root v ∨ ∃ p ∈ ps, In v p) s2.validators.length) :
    ∃ (k : Pick) (p' : Projected) (ks' : List Pick) (sc : Score) (new : List Nat),
      p.score d (coverage ps) s2.validators.length = some (sc, new) ∧ sc.tier ≠ .build ∧
      (k.score.tier = sc.tier ∨ TierBefore k.score.tier sc.tier) ∧
      p.passes k.data known s2.historicalBlockHashes = true ∧
      p.score k.data (coverage k.proofs) s2.validators.length = some (k.score, k.new) ∧
      p.advance k.score.tier k.data k.new = some p' ∧
      Run s2.historicalBlockHashes known s2.validators.length pool (m - 1) [k.root] p' ks' q := by
  have hnr : s2.justificationsRoots.Nodup := hinv.rootsSorted.imp (fun h => Nat.ne_of_lt h)
  obtain ⟨hp, hg, htf⟩ := passes_of_countable hS hk rfl hl hcd
  have htgt := hcd.onChain d.target (by simp)
  obtain ⟨p1, p2⟩ := hS.votes d.target.slot d.target.root (by rw [hS.fin]; exact htf) htgt.2 htgt.1
  simp only [← recorded_iff hnr] at p2
  obtain ⟨vs, v1, v2, v3⟩ := hsm
  generalize hprior : (p.votes.get? d.target.root).getD [] = prior at *
  generalize hnew : (coverage ps).filter (fun v => decide (v ∉ prior)) = new
  -- the recorded votes alone are not two thirds
  have hfew : 3 * prior.length < 2 * s2.validators.length := by
    cases hgt : (unpackTally s2.validators.length s2.justificationsRoots
        s2.justificationsValidators).get? d.target.root with
    | none =>
      have : prior = [] := by
        rw [List.eq_nil_iff_forall_not_mem]
        intro v hv
        have h1 := (recorded_iff hnr _ _).1 ((p2 v).1 hv)
        unfold votesOf at h1
        rw [hgt, Option.getD_none, List.getElem?_replicate, if_pos h1.1] at h1
        exact absurd h1.2 (by simp)
      rw [this]
      simp only [List.length_nil]
      omega
    | some w =>
      have hm := Tally.mem_of_get? hgt
      have h1 := hop.few _ hm
      have h2 := hop.len _ hm
      simp only at h1 h2
      rw [count_true_eq_filter_length] at h1
      have : prior.Perm ((List.range w.length).filter (fun i => decide (w[i]? = some true))) := by
        rw [List.perm_ext_iff_of_nodup p1 (List.nodup_range.filter _)]
        intro v
        rw [p2, recorded_iff hnr, List.mem_filter, List.mem_range, decide_eq_true_eq, h2]
        unfold votesOf
        rw [hgt, Option.getD_some]
      rw [this.length_eq]
      exact h1
  have hsub : vs ⊆ prior ++ new := by
    intro v hv
    rw [List.mem_append, ← hnew, List.mem_filter, decide_eq_true_eq]
    by_cases hpv : v ∈ prior
    · exact .inl hpv
    · rcases (v2 v hv).2 with h | h
      · exact absurd ((p2 v).2 h) hpv
      · exact .inr ⟨mem_coverage.2 h, hpv⟩
  have hlen : vs.length ≤ prior.length + new.length := by
    rw [← List.length_append]
    exact (List.subperm_of_subset v1 hsub).length_le
  have hne : new ≠ [] := by
    rintro rfl
    simp only [List.length_nil] at hlen
    omega
  obtain ⟨sc, hsc⟩ : ∃ sc, p.score d (coverage ps) s2.validators.length = some (sc, new) := by
    unfold Projected.score
    simp only [hprior, hnew]
    rw [if_neg (by simpa using hne)]
    exact ⟨_, rfl⟩
  have htier : sc.tier ≠ .build := by
    rcases (score_spec hsc).2.2.2 hg with ⟨h, -⟩ | ⟨-, ⟨-, -, h⟩ | ⟨-, h⟩⟩
    · rw [hprior] at h; omega
    · rw [h]; simp
    · rw [h]; simp
  have hbest := C65_best_first (hist := s2.historicalBlockHashes) (known := known)
    (n := s2.validators.length) (done := []) (p := p) (pool := pool)
  cases hrun with
  | stop hstop =>
    rcases hstop with h0 | hnone
    · omega
    · rw [hnone] at hbest
      rcases hbest _ he with h | h | h
      · cases h
      · rw [hp] at h; cases h
      · obtain ⟨v, hv⟩ := List.exists_mem_of_ne_nil _ hne
        rw [← hnew, List.mem_filter, decide_eq_true_eq, ← hprior] at hv
        exact absurd (h v hv.1) hv.2
  | @pick m _ _ p' _ k ks' hpb h1 h2 h3 h4 h5 hr =>
    rw [hpb] at hbest
    have hnb := hbest.2 _ he (by simp) hp sc new hsc
    refine ⟨k, p', ks', sc, new, hsc, htier, ?_, h3, h4, h5, hr⟩
    by_contra hcon
    rw [not_or] at hcon
    apply hnb
    apply Better.tier
    obtain ⟨c1, c2⟩ := hcon
    revert c1 c2
    cases k.score.tier <;> cases sc.tier <;> intro c1 c2 <;>
      first | exact absurd rfl c1 | constructor | exact absurd (by constructor) c2

/-- **C87, justification.** A proposer that merges proofs builds on the head of any valid chain. If
some vote in its pool is countable and the votes kept by the state together with those in the pool are
two thirds of all validators, then its block justifies a slot that was not justified before. -/
theorem C87_justifies {H : Hash} (hz : ∀ s, H.state s ≠ 0) {t : Nat}
    {vals : List Validator} {bs : List Block} {s : State}
    (hc : Chain H (State.fromGenesis H t vals) bs s)
    {merge : AttData → List Agg → Option Nat} {ord : Root → List Nat → List Nat}
    (ho : ∀ r l, (ord r l).Perm l)
    {slot : Nat} (hslot : s.slot < slot) (hlim : slot ≤ historicalRootsLimit)
    (hv : 0 < vals.length)
    {known : List Root} {pool : Pool} (hn : pool.keys.Nodup)
    (hkey : ∀ e ∈ pool, e.1 = H.attData e.2.1)
    (hpool : ∀ e ∈ pool, ∀ p ∈ e.2.2, ∀ v, In v p → v < vals.length)
    (hu : UniqueRoots (extendedHist s slot (tipRoot H (State.fromGenesis H t vals) bs)))
    {c : Config} (hagg : c.aggregate = true) (hmax : 0 < c.maxAtts)
    {b : Block} {proofs : List Agg} {post : State}
    (h : buildBlock H merge ord s slot (slot % vals.length)
      (tipRoot H (State.fromGenesis H t vals) bs) known pool c = .ok (b, proofs, post))
    {s1 s2 : State} (hs1 : processSlots H s b.slot = .ok s1)
    (hs2 : processBlockHeader H s1 b = .ok s2)
    {r : Root} {d : AttData} {ps : List Agg} (he : (r, d, ps) ∈ pool) (hk : d.head.root ∈ known)
    (hcd : Countable s2 d)
    (hsm : SuperMaj (fun v => Recorded s2 d.target.root v ∨ ∃ p ∈ ps, In v p) vals.length) :
    ∃ k, isSlotJustified s2.justifiedSlots s2.latestFinalized.slot k ≠ some true ∧
      isSlotJustified post.justifiedSlots post.latestFinalized.slot k = some true := by
  obtain ⟨ks, q, st, hrun, -, hinv, hu2, hl2, hvs, hop, hS, hI, hSq, hser⟩ :=
    build_outcome hz hc ho hslot hlim hv hn hkey hpool hu hagg h hs1 hs2
  obtain ⟨-, -, hpost⟩ := serialize_inv hinv hI hser
  obtain ⟨k, p', ks', sc, new, -, htier, hkt, h3, h4, h5, hr⟩ := first_pick hrun
    (by unfold maxAttestationsData; omega) (by rw [hvs]; exact hv) hinv hl2 hop hS he hk hcd (by rw [hvs]; exact hsm)
  have hkb : k.score.tier ≠ .build := by
    rcases hkt with h | h
    · rw [h]; exact htier
    · intro hb; rw [hb] at h; cases h
  obtain ⟨e1, e2, e3⟩ := (advance_effect h3 h4 h5).2.2.1 hkb
  refine ⟨k.data.target.slot, ?_, ?_⟩
  · rw [hS.just] at e1
    unfold jst at e1
    intro hj
    simp only at e1
    rw [hj] at e1
    cases e1
  · have := (run_mono hr).2 _ e2
    rw [hSq.just] at this
    rw [hpost]
    exact jst_eq_true this

/-- **C87, finalization.** If moreover the source of that vote is after the finalized slot and no
justifiable slot lies strictly between its source and its target, then the block advances the
finalized slot. -/
theorem C87_finalizes {H : Hash} (hz : ∀ s, H.state s ≠ 0) {t : Nat}
    {vals : List Validator} {bs : List Block} {s : State}
    (hc : Chain H (State.fromGenesis H t vals) bs s)
    {merge : AttData → List Agg → Option Nat} {ord : Root → List Nat → List Nat}
    (ho : ∀ r l, (ord r l).Perm l)
    {slot : Nat} (hslot : s.slot < slot) (hlim : slot ≤ historicalRootsLimit)
    (hv : 0 < vals.length)
    {known : List Root} {pool : Pool} (hn : pool.keys.Nodup)
    (hkey : ∀ e ∈ pool, e.1 = H.attData e.2.1)
    (hpool : ∀ e ∈ pool, ∀ p ∈ e.2.2, ∀ v, In v p → v < vals.length)
    (hu : UniqueRoots (extendedHist s slot (tipRoot H (State.fromGenesis H t vals) bs)))
    {c : Config} (hagg : c.aggregate = true) (hmax : 0 < c.maxAtts)
    {b : Block} {proofs : List Agg} {post : State}
    (h : buildBlock H merge ord s slot (slot % vals.length)
      (tipRoot H (State.fromGenesis H t vals) bs) known pool c = .ok (b, proofs, post))
    {s1 s2 : State} (hs1 : processSlots H s b.slot = .ok s1)
    (hs2 : processBlockHeader H s1 b = .ok s2)
    {r : Root} {d : AttData} {ps : List Agg} (he : (r, d, ps) ∈ pool) (hk : d.head.root ∈ known)
    (hcd : Countable s2 d)
    (hsm : SuperMaj (fun v => Recorded s2 d.target.root v ∨ ∃ p ∈ ps, In v p) vals.length)
    (hsf : s.latestFinalized.slot < d.source.slot)
    (hgap : ∀ k, d.source.slot < k → k < d.target.slot →
      ¬ JustifiableDistance (k - s.latestFinalized.slot)) :
    s.latestFinalized.slot < post.latestFinalized.slot := by
  obtain ⟨ks, q, st, hrun, -, hinv, hu2, hl2, hvs, hop, hS, hI, hSq, hser⟩ :=
    build_outcome hz hc ho hslot hlim hv hn hkey hpool hu hagg h hs1 hs2
  obtain ⟨-, -, hpost⟩ := serialize_inv hinv hI hser
  obtain ⟨k, p', ks', sc, new, hsc, htier, hkt, h3, h4, h5, hr⟩ := first_pick hrun
    (by unfold maxAttestationsData; omega) (by rw [hvs]; exact hv) hinv hl2 hop hS he hk hcd (by rw [hvs]; exact hsm)
  obtain ⟨hp, hg, htf⟩ := passes_of_countable hS hk rfl hl2 hcd
  have htl := getElem?_lt (hcd.onChain d.target (by simp)).2
  have hfin : sc.tier = .finalize := by
    obtain ⟨-, c2, -, c4, -⟩ := C65_tier hsc
    rw [ne_eq, c4, not_or, not_not] at htier
    refine c2.2 ⟨htier.1, htier.2, hsf, fun k k1 k2 => ?_⟩
    have hk3 := hgap k k1 k2
    cases hj : slotIsJustifiableAfter k (Projected.ofState s).finalizedSlot with
    | false => rfl
    | true =>
      unfold historicalRootsLimit at hl2
      rw [C01_justifiable_iff _ _ (by omega)] at hj
      exact absurd hj.2 hk3
  have hkf : k.score.tier = .finalize := by
    rcases hkt with h | h
    · rw [h]; exact hfin
    · rw [hfin, tierBefore_iff] at h
      revert h
      cases k.score.tier <;> decide
  have h6 := (advance_effect h3 h4 h5).2.2.2.1 hkf
  have h7 := (run_mono hr).1
  rw [hpost]
  have h8 := hSq.fin
  have h9 : (Projected.ofState s).finalizedSlot = s.latestFinalized.slot := rfl
  simp only
  omega

/-- **C87, votes.** If a proposer that merges proofs packs fewer data than it may, then it left no
vote behind that could still count: every vote in its pool that is countable in the post-state is
already recorded there. -/
theorem C87_nothing_left {H : Hash} (hz : ∀ s, H.state s ≠ 0) {t : Nat}
    {vals : List Validator} {bs : List Block} {s : State}
    (hc : Chain H (State.fromGenesis H t vals) bs s)
    {merge : AttData → List Agg → Option Nat} {ord : Root → List Nat → List Nat}
    (ho : ∀ r l, (ord r l).Perm l)
    {slot : Nat} (hslot : s.slot < slot) (hlim : slot ≤ historicalRootsLimit)
    (hv : 0 < vals.length)
    {known : List Root} {pool : Pool} (hn : pool.keys.Nodup)
    (hkey : ∀ e ∈ pool, e.1 = H.attData e.2.1)
    (hpool : ∀ e ∈ pool, ∀ p ∈ e.2.2, ∀ v, In v p → v < vals.length)
    (hu : UniqueRoots (extendedHist s slot (tipRoot H (State.fromGenesis H t vals) bs)))
    {c : Config} (hagg : c.aggregate = true)
    {b : Block} {proofs : List Agg} {post : State}
    (h : buildBlock H merge ord s slot (slot % vals.length)
      (tipRoot H (State.fromGenesis H t vals) bs) known pool c = .ok (b, proofs, post))
    (hroom : b.body.length < c.maxAtts ∧ b.body.length < maxAttestationsData)
    {r : Root} {d : AttData} {ps : List Agg} (he : (r, d, ps) ∈ pool) (hk : d.head.root ∈ known)
    (hcd : Countable post d) :
    ∀ p ∈ ps, ∀ v, In v p → Recorded post d.target.root v := by
  obtain ⟨s1, s2, -, -, hs1, hs2, -⟩ :=
    build_picks hz hc ho hslot hlim hv hn hkey hpool hu hagg h
  obtain ⟨ks, q, st, hrun, hlen, hinv, hu2, hl2, hvs, hop, hS, hI, hSq, hser⟩ :=
    build_outcome hz hc ho hslot hlim hv hn hkey hpool hu hagg h hs1 hs2
  obtain ⟨hip, -, hpost⟩ := serialize_inv hinv hI hser
  have hvp : post.validators = s2.validators := by rw [hpost, hI.frame]
  have hcs : Countable st.1 d := by
    rw [hpost] at hcd
    exact ⟨hcd.sourceJustified, hcd.targetOpen, hcd.forward, hcd.onChain, hcd.distance⟩
  obtain ⟨hp, hg, htf⟩ := passes_of_countable hSq hk hI.hist hl2 hcs
  have htgt := hcs.onChain d.target (by simp)
  rw [hI.hist] at htgt
  obtain ⟨-, p2⟩ := hSq.votes d.target.slot d.target.root (by rw [hSq.fin]; exact htf) htgt.2 htgt.1
  have hall : ∀ v ∈ coverage ps, v ∈ (q.votes.get? d.target.root).getD [] := by
    rcases run_end hu2 hn hrun (by intro e _ h; cases h) with h | ⟨done, hP, hnone⟩
    · omega
    have hbest := C65_best_first (hist := s2.historicalBlockHashes) (known := known)
      (n := s2.validators.length) (done := done) (p := q) (pool := pool)
    rw [hnone] at hbest
    rcases hbest _ he with h | h | h
    · rcases (hP _ he h).2 with h | h
      · have h2 := (passes_facts hp).2.2.2 hg
        unfold jst at h
        simp only at h
        rw [h2.2.1] at h
        cases h
      · exact h
    · rw [hp] at h; cases h
    · exact h
  intro p hpp v hvv
  obtain ⟨q1, q2⟩ := (p2 v).1 (hall v (mem_coverage.2 ⟨p, hpp, hvv⟩))
  have hrt := (C11_tally_round_trip hI.keysNodup hI.vecLen hser).2 d.target.root
  rw [recorded_iff (hip.rootsSorted.imp (fun h => Nat.ne_of_lt h)), hvp]
  refine ⟨q1, ?_⟩
  unfold votesOf at q2 ⊢
  rw [hrt]
  exact q2

/-! ## Concrete cases -/

/-- Two thirds of the votes `1 → 2` in two proofs, and one vote `1 → 3`. -/
def fPool : Pool :=
  [ (2, (Witness.vote [] 1 2).data, [⟨[true], 1⟩, ⟨[false, true], 2⟩]),
    (3, (Witness.vote [] 1 3).data, [⟨[true], 4⟩]) ]

/-- The block of slot 4 on top of a chain on which slot 1 is justified. -/
def fBuild : Except BuildError (Block × List Agg × State) :=
  buildBlock Witness.wH (fun _ _ => some 9) (fun _ l => l) Witness.wStateOpen 4 (4 % 3) 4 [3, 4]
    fPool ⟨true, 8⟩

def fOut : Block × List Agg × State :=
  match fBuild with
  | .ok x => x
  | .error _ => (Witness.mkBlock 0 0 [], [], Witness.wG)

def fPre : State :=
  match processSlots Witness.wH Witness.wStateOpen 4 with
  | .ok s1 => s1
  | .error _ => Witness.wG

def fPre2 : State :=
  match processBlockHeader Witness.wH fPre fOut.1 with
  | .ok s2 => s2
  | .error _ => Witness.wG

theorem fUnique : UniqueRoots [1, 2, 3, 4] := by
  intro i j r hi hj _
  have h1 := getElem?_lt hi
  have h2 := getElem?_lt hj
  have : ([1, 2, 3, 4] : List Root).Nodup := by decide +kernel
  exact (List.Nodup.getElem_inj_iff this).1 (by
    rw [List.getElem?_eq_getElem h1] at hi
    rw [List.getElem?_eq_getElem h2] at hj
    exact (Option.some.inj hi).trans (Option.some.inj hj).symm)

/-- The hypotheses of both theorems hold for the votes `1 → 2`, and the block finalizes slot 1. -/
example : Witness.wStateOpen.latestFinalized.slot < fOut.2.2.latestFinalized.slot ∧
    ∃ k, isSlotJustified fPre2.justifiedSlots fPre2.latestFinalized.slot k ≠ some true ∧
      isSlotJustified fOut.2.2.justifiedSlots fOut.2.2.latestFinalized.slot k = some true := by
  have hb : buildBlock Witness.wH (fun _ _ => some 9) (fun _ l => l) Witness.wStateOpen 4
      (4 % Witness.wVals.length)
      (tipRoot Witness.wH (State.fromGenesis Witness.wH 0 Witness.wVals)
        Witness.wBlocksOpen.reverse) [3, 4] fPool ⟨true, 8⟩ = .ok (fOut.1, fOut.2.1, fOut.2.2) := by
    decide +kernel
  have hu : UniqueRoots (extendedHist Witness.wStateOpen 4
      (tipRoot Witness.wH (State.fromGenesis Witness.wH 0 Witness.wVals)
        Witness.wBlocksOpen.reverse)) := by
    have : extendedHist Witness.wStateOpen 4
      (tipRoot Witness.wH (State.fromGenesis Witness.wH 0 Witness.wVals)
        Witness.wBlocksOpen.reverse) = [1, 2, 3, 4] := by decide +kernel
    rw [this]; exact fUnique
  have hcd : Countable fPre2 (Witness.vote [] 1 2).data :=
    (countable_iff _ _ (by decide +kernel)).1 (by decide +kernel)
  have hsm : SuperMaj (fun v => Recorded fPre2 (Witness.vote [] 1 2).data.target.root v ∨
      ∃ p ∈ ([⟨[true], 1⟩, ⟨[false, true], 2⟩] : List Agg), In v p) Witness.wVals.length :=
    ⟨[0, 1], by decide, fun v hv => by
      simp only [List.mem_cons, List.not_mem_nil, or_false] at hv
      rcases hv with rfl | rfl
      · exact ⟨by decide, .inr ⟨⟨[true], 1⟩, by simp, rfl⟩⟩
      · exact ⟨by decide, .inr ⟨⟨[false, true], 2⟩, by simp, rfl⟩⟩, by decide⟩
  have hpool : ∀ e ∈ fPool, ∀ p ∈ e.2.2, ∀ v, In v p → v < Witness.wVals.length := by
    have : ∀ e ∈ fPool, ∀ p ∈ e.2.2, ∀ v ∈ Agg.ids p, v < Witness.wVals.length := by decide +kernel
    exact fun e he p hp v hv => this e he p hp v (mem_ids.2 hv)
  exact ⟨C87_finalizes (fun _ => Nat.one_ne_zero) Witness.wChainOpen (fun _ _ => List.Perm.refl _)
      (by decide +kernel) (by decide) (by decide) (by decide +kernel) (by decide +kernel) hpool hu rfl
      (by decide) hb (s1 := fPre) (s2 := fPre2) (by decide +kernel) (by decide +kernel)
      (r := 2) (by decide +kernel) (by decide +kernel) hcd hsm (by decide +kernel)
      (fun k h1 h2 => by
        have e1 : (Witness.vote [] 1 2).data.source.slot = 1 := rfl
        have e2 : (Witness.vote [] 1 2).data.target.slot = 2 := rfl
        omega),
    C87_justifies (fun _ => Nat.one_ne_zero) Witness.wChainOpen (fun _ _ => List.Perm.refl _)
      (by decide +kernel) (by decide) (by decide) (by decide +kernel) (by decide +kernel) hpool hu rfl
      (by decide) hb (s1 := fPre) (s2 := fPre2) (by decide +kernel) (by decide +kernel)
      (r := 2) (by decide +kernel) (by decide +kernel) hcd hsm⟩

/-- The block of the last theorem: it carries both votes, there is room for more, the vote `1 → 3`
remains countable in the post-state, and is recorded there. -/
example : fOut.1.body = [Witness.vote [true, true] 1 2, Witness.vote [true] 1 3] ∧
    Countable fOut.2.2 (Witness.vote [] 1 3).data ∧ Recorded fOut.2.2 4 0 :=
  ⟨by decide +kernel, (countable_iff _ _ (by decide +kernel)).1 (by decide +kernel),
    by decide +kernel, 0, by decide +kernel, by decide +kernel⟩

end Verif.Build
