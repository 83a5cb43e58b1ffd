import Verif.Props.C05_C08_Checkpoints
/-!
# C12: invalid votes leave everything unchanged; repeating a vote changes nothing
-/
namespace Verif
open JustifiedSlots

/-- When a vote counts, in plain terms: source justified and strictly below the target; target
tracked, not yet justified, at a justifiable distance from the finalized slot; and source, target
and head all name (nonzero) blocks recorded in the state's own history. -/
structure Countable (s : State) (d : AttData) : Prop where
  sourceJustified : isSlotJustified s.justifiedSlots s.latestFinalized.slot d.source.slot
    = some true
  targetOpen : isSlotJustified s.justifiedSlots s.latestFinalized.slot d.target.slot = some false
  forward : d.source.slot < d.target.slot
  onChain : ∀ c ∈ [d.source, d.target, d.head],
    c.root ≠ 0 ∧ s.historicalBlockHashes[c.slot]? = some c.root
  distance : JustifiableDistance (d.target.slot - s.latestFinalized.slot)

theorem countable_iff (s : State) (d : AttData)
    (hl : s.historicalBlockHashes.length ≤ historicalRootsLimit) :
    isValidVote s d = .ok true ↔ Countable s d := by
  rw [isValidVote_true_iff]
  constructor
  · rintro ⟨h1, h2, h3, h4, h5, h6, h7, h8, h9, h10⟩
    have hlt := getElem?_lt h7
    unfold historicalRootsLimit at hl
    rw [C01_justifiable_iff _ _ (by omega)] at h10
    refine ⟨h1, h2, h9, ?_, h10.2⟩
    intro c hc
    simp only [List.mem_cons, List.not_mem_nil, or_false] at hc
    rcases hc with rfl | rfl | rfl
    · exact ⟨h3, h6⟩
    · exact ⟨h4, h7⟩
    · exact ⟨h5, h8⟩
  · rintro ⟨h1, h2, h3, h4, h5⟩
    have a := h4 d.source (by simp)
    have b := h4 d.target (by simp)
    have c := h4 d.head (by simp)
    have hlt := getElem?_lt b.2
    unfold historicalRootsLimit at hl
    refine ⟨h1, h2, a.1, b.1, c.1, a.2, b.2, c.2, h3, ?_⟩
    rw [C01_justifiable_iff _ _ (by omega)]
    refine ⟨?_, h5⟩
    by_contra hc
    rw [isSlotJustified_le (by omega)] at h2
    cases h2

/-- A vote that does not count leaves state and tally exactly as they were, unless it refers to
a slot outside the tracked window, in which case the whole block is rejected. -/
theorem C12_uncountable_vote_ignored (s : State) (t : Tally) (n : Nat) (rts : Root → Option Nat)
    (a : AggAtt) (hl : s.historicalBlockHashes.length ≤ historicalRootsLimit)
    (h : ¬ Countable s a.data) :
    attStep n rts (s, t) a = .ok (s, t) ∨
    (attStep n rts (s, t) a = .error .justifiedSlotOutOfRange ∧
      (s.latestFinalized.slot + s.justifiedSlots.length < a.data.source.slot ∨
       s.latestFinalized.slot + s.justifiedSlots.length < a.data.target.slot)) := by
  rw [← countable_iff s a.data hl] at h
  have none_gt : ∀ k, isSlotJustified s.justifiedSlots s.latestFinalized.slot k = none →
      s.latestFinalized.slot + s.justifiedSlots.length < k := by
    intro k hk
    by_cases hle : k ≤ s.latestFinalized.slot
    · rw [isSlotJustified_le hle] at hk; cases hk
    · rw [isSlotJustified_gt (by omega)] at hk
      have := List.getElem?_eq_none_iff.1 hk
      omega
  unfold attStep
  cases hv : isValidVote s a.data with
  | ok b =>
    cases b with
    | true => exact absurd hv h
    | false => left; rfl
  | error e =>
    right
    unfold isValidVote at hv
    split at hv
    · next hx =>
      cases hv
      exact ⟨rfl, Or.inl (none_gt _ hx)⟩
    · cases hv
    · next hs =>
      split at hv
      · next hx =>
        cases hv
        exact ⟨rfl, Or.inr (none_gt _ hx)⟩
      · cases hv
      · split at hv
        · cases hv
        · split at hv
          · cases hv
          · split at hv <;> cases hv

/-- A vote that counts, with at least one participant and none out of range, is recorded for
exactly its participants; if that gives two thirds the target becomes justified. -/
theorem C12_countable_vote_recorded (s : State) (t : Tally) (n : Nat) (rts : Root → Option Nat)
    (a : AggAtt) (hl : s.historicalBlockHashes.length ≤ historicalRootsLimit)
    (hk : (t.map Prod.fst).Nodup)
    (hwin : s.latestFinalized.slot + s.justifiedSlots.length
      = s.historicalBlockHashes.length - 1)
    (h : Countable s a.data) (hne : ∃ i : Nat, a.bits[i]? = some true)
    (hr : ∀ i : Nat, a.bits[i]? = some true → i < n) :
    ∃ s' t' votes, attStep n rts (s, t) a = .ok (s', t') ∧
      votes.length = ((t.get? a.data.target.root).getD (List.replicate n false)).length ∧
      (∀ i, i < votes.length → (votes[i]? = some true ↔
        ((t.get? a.data.target.root).getD (List.replicate n false))[i]? = some true ∨
        a.bits[i]? = some true)) ∧
      (if 2 * n ≤ 3 * votes.count true then
        a.data.target.slot ≤ s'.latestJustified.slot ∧
        isSlotJustified s'.justifiedSlots s'.latestFinalized.slot a.data.target.slot = some true
      else s' = s ∧ t'.get? a.data.target.root = some votes) := by
  have hv := (countable_iff s a.data hl).2 h
  have htf : s.latestFinalized.slot < a.data.target.slot := by
    by_contra hc
    have := h.targetOpen
    rw [isSlotJustified_le (by omega)] at this
    cases this
  have htgt := (h.onChain a.data.target (by simp)).2
  have hlt := getElem?_lt htgt
  obtain ⟨js', hset, hjl, hjspec⟩ := setJustified_spec (js := s.justifiedSlots) htf (by omega)
  unfold attStep
  simp only [hv]
  rw [if_neg (by
    obtain ⟨i, hi⟩ := hne
    rw [List.count_eq_zero]
    intro hc
    exact hc (List.mem_of_getElem? hi)), if_neg (by
    simp only [List.any_eq_true, List.mem_range'_1, decide_eq_true_eq, not_exists, not_and]
    intro i hi hb
    have := hr i hb
    omega)]
  generalize hv0 : (t.get? a.data.target.root).getD (List.replicate n false) = v0
  have hbits : ∀ i, i < (recordVotes v0 a.bits).length → ((recordVotes v0 a.bits)[i]? = some true ↔
      v0[i]? = some true ∨ a.bits[i]? = some true) := by
    intro i hi
    rw [recordVotes_length] at hi
    rw [recordVotes_get?, List.getElem?_eq_getElem hi]
    simp
  by_cases hsup : 3 * (recordVotes v0 a.bits).count true ≥ 2 * n
  · rw [if_pos hsup, hset]
    simp only
    generalize hres : tryFinalize _ _ _ _ _ = res
    obtain ⟨s', t'⟩ := res
    refine ⟨s', t', recordVotes v0 a.bits, rfl, recordVotes_length _ _, hbits, ?_⟩
    rw [if_pos hsup]
    have hmax : a.data.target.slot ≤ (maxBySlot s.latestJustified a.data.target).slot := by
      rcases maxBySlot_cases s.latestJustified a.data.target with ⟨e, h2⟩ | ⟨e, h2⟩
      · rw [e]; omega
      · rw [e]
    unfold tryFinalize at hres
    simp only at hres
    split at hres
    · cases hres
      refine ⟨hmax, ?_⟩
      simp only; rw [hjspec, if_pos rfl]
    · split at hres
      · cases hres
        refine ⟨hmax, ?_⟩
        simp only; rw [hjspec, if_pos rfl]
      · cases hres
        refine ⟨hmax, ?_⟩
        simp only
        have := h.forward
        rw [C02_finalize_preserves_status _ _ _ (by omega) _ (by omega), hjspec, if_pos rfl]
  · rw [if_neg hsup]
    refine ⟨_, _, recordVotes v0 a.bits, rfl, recordVotes_length _ _, hbits, ?_⟩
    rw [if_neg hsup]
    exact ⟨rfl, Tally.get?_insert_self hk _ _⟩

theorem Tally.insert_insert_self {t : Tally} (hk : (t.map Prod.fst).Nodup) (r : Root)
    (v : List Bool) : (t.insert r v).insert r v = t.insert r v := by
  have hs : ((t.insert r v).lookup r).isSome = true := by
    have := Tally.get?_insert_self hk r v
    unfold Tally.get? at this
    rw [this]; rfl
  have e : (t.insert r v).insert r v
      = (t.insert r v).map (fun e => if e.1 = r then (r, v) else e) := by
    generalize t.insert r v = u at hs ⊢
    unfold Tally.insert
    rw [if_pos hs]
  rw [e]
  conv_rhs => rw [← List.map_id (t.insert r v)]
  apply List.map_congr_left
  intro e he
  simp only [id]
  split
  · next her =>
    rcases Tally.mem_insert.1 he with rfl | ⟨h1, -⟩
    · rfl
    · exact absurd her h1
  · rfl

theorem recordVotes_idem (v bits : List Bool) :
    recordVotes (recordVotes v bits) bits = recordVotes v bits := by
  apply List.ext_getElem?
  intro i
  rw [recordVotes_get?, recordVotes_get?]
  cases v[i]? <;> simp

/-- Processing the same attestation a second time right after the first changes nothing. -/
theorem C12_repeat_vote_idempotent {s s' : State} {t t' : Tally} {n : Nat}
    {rts : Root → Option Nat} {a : AggAtt} (hk : (t.map Prod.fst).Nodup)
    (h : attStep n rts (s, t) a = .ok (s', t')) : attStep n rts (s', t') a = .ok (s', t') := by
  have horig := h
  unfold attStep at h
  split at h
  · cases h
  · next hv => cases h; exact horig
  · next hv =>
    have F := (isValidVote_true_iff _ _).1 hv
    simp only at F hv
    split at h
    · cases h
    next hc1 =>
    split at h
    · cases h
    next hc2 =>
    simp only at h
    split at h
    · next hsup =>
      split at h
      · cases h
      · next js hjs =>
        have htf : s.latestFinalized.slot < a.data.target.slot := by
          by_contra hc
          have := F.tgtNot
          rw [isSlotJustified_le (by omega)] at this
          cases this
        have hil : a.data.target.slot ≤ s.latestFinalized.slot + s.justifiedSlots.length := by
          have := F.tgtNot
          rw [isSlotJustified_gt htf] at this
          have := getElem?_lt this
          omega
        obtain ⟨js', hset, hjl, hjspec⟩ := setJustified_spec htf hil
        have hjj : js' = js := by
          rw [hset] at hjs; exact Option.some.inj hjs
        subst hjj
        -- in the new state the target is justified, so the vote no longer counts
        suffices hinv : isValidVote s' a.data = .ok false by
          unfold attStep; simp only [hinv]
        have hsl := F.lt
        have hsj : isSlotJustified js' s.latestFinalized.slot a.data.source.slot = some true := by
          rw [hjspec]; split
          · rfl
          · exact F.srcJust
        have htj : isSlotJustified js' s.latestFinalized.slot a.data.target.slot = some true := by
          rw [hjspec, if_pos rfl]
        simp only [Except.ok.injEq] at h
        unfold tryFinalize at h
        simp only at h
        split at h
        · cases h
          unfold isValidVote
          simp only [hsj, htj]
        · split at h
          · cases h
            unfold isValidVote
            simp only [hsj, htj]
          · cases h
            unfold isValidVote
            have e1 := isSlotJustified_le (js := shiftWindow js'
              (a.data.source.slot - s.latestFinalized.slot)) (Nat.le_refl a.data.source.slot)
            have e2 : isSlotJustified (shiftWindow js'
                (a.data.source.slot - s.latestFinalized.slot)) a.data.source.slot
                a.data.target.slot = some true := by
              rw [C02_finalize_preserves_status _ _ _ (by omega) _ (by omega)]; exact htj
            simp only [e1, e2]
    · next hsup =>
      cases h
      unfold attStep
      simp only [hv]
      rw [if_neg hc1, if_neg hc2, Tally.get?_insert_self hk, Option.getD_some, recordVotes_idem,
        if_neg hsup, Tally.insert_insert_self hk]

/-- Non-vacuity: a countable vote on the witness state, recorded but not sufficient; and an
uncountable one (its target is already justified). -/
example : Countable Witness.wStateOpen (Witness.vote [true, false, false] 1 2).data ∧
    ¬ Countable Witness.wStateOpen (Witness.vote [true, false, false] 0 1).data ∧
    (attStep 3 (fun _ => none) (Witness.wStateOpen, [])
      (Witness.vote [true, false, false] 1 2)).toOption.map Prod.snd
      = some [(3, [true, false, false])] := by
  have hl : Witness.wStateOpen.historicalBlockHashes.length ≤ historicalRootsLimit := by
    decide +kernel
  refine ⟨?_, ?_, by decide +kernel⟩
  · rw [← countable_iff _ _ hl]; decide +kernel
  · rw [← countable_iff _ _ hl]; decide +kernel

end Verif
