import Verif.Spec.Chain
import Verif.Lemmas.Tally
import Verif.Props.C02_JustifiedSlots
/-!
# Invariant of the attestation loop
-/
namespace Verif
open JustifiedSlots

theorem SuperMaj.mono {V W : Nat → Prop} {n : Nat} (h : SuperMaj V n) (hv : ∀ v, V v → W v) :
    SuperMaj W n := by
  obtain ⟨vs, h1, h2, h3⟩ := h
  exact ⟨vs, h1, fun v hm => ⟨(h2 v hm).1, hv v (h2 v hm).2⟩, h3⟩

theorem count_true_eq_filter_length (votes : List Bool) :
    votes.count true =
      ((List.range votes.length).filter (fun i => decide (votes[i]? = some true))).length := by
  conv_lhs => rw [← map_range_getElem?_eq votes]
  rw [List.count_eq_countP, List.countP_map, List.countP_eq_length_filter]
  congr 1
  apply List.filter_congr
  intro i _
  simp

theorem superMaj_of_votes {V : Nat → Prop} {n : Nat} {votes : List Bool}
    (hl : votes.length = n) (hv : ∀ i, votes[i]? = some true → V i)
    (h : 3 * votes.count true ≥ 2 * n) : SuperMaj V n := by
  refine ⟨(List.range votes.length).filter (fun i => decide (votes[i]? = some true)), ?_, ?_, ?_⟩
  · exact List.Nodup.filter _ List.nodup_range
  · intro v hm
    simp only [List.mem_filter, List.mem_range, decide_eq_true_eq] at hm
    exact ⟨by omega, hv v hm.2⟩
  · rw [← count_true_eq_filter_length]; omega

theorem recordVotes_length (votes bits : List Bool) :
    (recordVotes votes bits).length = votes.length := by
  unfold recordVotes; simp

theorem recordVotes_get? (votes bits : List Bool) (i : Nat) :
    (recordVotes votes bits)[i]? = votes[i]?.map (fun v => v || decide (bits[i]? = some true)) := by
  unfold recordVotes; simp [List.getElem?_mapIdx]

theorem isSlotJustified_le {js : List Bool} {f k : Nat} (h : k ≤ f) :
    isSlotJustified js f k = some true := by
  unfold isSlotJustified; rw [relativeIndex_none h]

theorem isSlotJustified_gt {js : List Bool} {f k : Nat} (h : f < k) :
    isSlotJustified js f k = js[k - f - 1]? := by
  unfold isSlotJustified; rw [relativeIndex_some h]

/-- `set_justified` on a tracked, unfinalized slot. -/
theorem setJustified_spec {js : List Bool} {f k : Nat} (h1 : f < k) (h2 : k ≤ f + js.length) :
    ∃ js', setJustified js f k = some js' ∧ js'.length = js.length ∧
      ∀ m, isSlotJustified js' f m = if m = k then some true else isSlotJustified js f m := by
  unfold setJustified
  rw [relativeIndex_some h1]
  refine ⟨js.set (k - f - 1) true, ?_, by simp, ?_⟩
  · simp only; rw [if_pos (by omega)]
  · intro m
    by_cases hm : m ≤ f
    · rw [isSlotJustified_le hm, isSlotJustified_le hm]; simp
    · rw [isSlotJustified_gt (by omega), isSlotJustified_gt (by omega), List.getElem?_set]
      by_cases hk : m = k
      · subst hk; rw [if_pos rfl, if_pos rfl, if_pos (by omega)]
      · rw [if_neg (by omega), if_neg hk]

structure ValidVoteFacts (s : State) (d : AttData) : Prop where
  srcJust : isSlotJustified s.justifiedSlots s.latestFinalized.slot d.source.slot = some true
  tgtNot : isSlotJustified s.justifiedSlots s.latestFinalized.slot d.target.slot = some false
  srcNZ : d.source.root ≠ 0
  tgtNZ : d.target.root ≠ 0
  headNZ : d.head.root ≠ 0
  srcOn : s.historicalBlockHashes[d.source.slot]? = some d.source.root
  tgtOn : s.historicalBlockHashes[d.target.slot]? = some d.target.root
  headOn : s.historicalBlockHashes[d.head.slot]? = some d.head.root
  lt : d.source.slot < d.target.slot
  justifiable : slotIsJustifiableAfter d.target.slot s.latestFinalized.slot = true

theorem matchesChain_iff (hist : List Root) (d : AttData) :
    attestationDataMatchesChain hist d = true ↔
      d.source.root ≠ 0 ∧ d.target.root ≠ 0 ∧ d.head.root ≠ 0 ∧
      hist[d.source.slot]? = some d.source.root ∧ hist[d.target.slot]? = some d.target.root ∧
      hist[d.head.slot]? = some d.head.root := by
  unfold attestationDataMatchesChain
  split
  · next h => grind
  · next h =>
    have hlt : ∀ {k : Nat} {r : Root}, hist[k]? = some r → k < hist.length := by
      intro k r hk
      by_contra hc
      rw [List.getElem?_eq_none (by omega)] at hk; cases hk
    split
    · next h2 =>
      simp only [Bool.false_eq_true, false_iff]
      rintro ⟨-, -, -, a, b, c⟩
      have := hlt a; have := hlt b; have := hlt c
      omega
    · rw [decide_eq_true_eq]
      constructor
      · rintro ⟨a, b, c⟩; exact ⟨by grind, by grind, by grind, a, b, c⟩
      · rintro ⟨-, -, -, a, b, c⟩; exact ⟨a, b, c⟩

theorem isValidVote_true_iff (s : State) (d : AttData) :
    isValidVote s d = .ok true ↔ ValidVoteFacts s d := by
  constructor
  · intro h
    unfold isValidVote at h
    split at h
    · cases h
    · cases h
    · next hs =>
      split at h
      · cases h
      · cases h
      · next ht =>
        split at h
        · cases h
        · next hm =>
          split at h
          · cases h
          · next hlt =>
            split at h
            · cases h
            · next hj =>
              have hm' : attestationDataMatchesChain s.historicalBlockHashes d = true := by
                simpa using hm
              obtain ⟨a, b, c, e, f, g⟩ := (matchesChain_iff _ _).1 hm'
              exact ⟨hs, ht, a, b, c, e, f, g, by omega, by simpa using hj⟩
  · rintro ⟨hs, ht, a, b, c, e, f, g, hlt, hj⟩
    have hm := (matchesChain_iff s.historicalBlockHashes d).2 ⟨a, b, c, e, f, g⟩
    unfold isValidVote
    rw [hs]; simp only
    rw [ht]; simp only
    rw [if_neg (by simpa using hm), if_neg (by omega), if_neg (by simpa using hj)]

/-- The invariant of the attestation loop. `s0` is the state after header processing, `fin0`,
`just0` its checkpoints; `V v r` says validator `v` is known to have voted for target root `r`. -/
structure LoopInv (s0 : State) (rts : Root → Option Nat) (V : Nat → Root → Prop)
    (st : State × Tally) : Prop where
  frame : st.1 = { s0 with
    latestJustified := st.1.latestJustified
    latestFinalized := st.1.latestFinalized
    justifiedSlots := st.1.justifiedSlots }
  histPos : 0 < s0.historicalBlockHashes.length
  win : st.1.latestFinalized.slot + st.1.justifiedSlots.length
    = s0.historicalBlockHashes.length - 1
  finLeJust : st.1.latestFinalized.slot ≤ st.1.latestJustified.slot
  justLt : st.1.latestJustified.slot < s0.historicalBlockHashes.length
  justJ : isSlotJustified st.1.justifiedSlots st.1.latestFinalized.slot
    st.1.latestJustified.slot = some true
  finOn : s0.historicalBlockHashes[st.1.latestFinalized.slot]? = some st.1.latestFinalized.root
  justOn : s0.historicalBlockHashes[st.1.latestJustified.slot]? = some st.1.latestJustified.root
  finNZ : st.1.latestFinalized = s0.latestFinalized ∨ st.1.latestFinalized.root ≠ 0
  justNZ : st.1.latestJustified = s0.latestJustified ∨ st.1.latestJustified.root ≠ 0
  keysNodup : (st.2.map Prod.fst).Nodup
  vecLen : ∀ e ∈ st.2, e.2.length = s0.validators.length
  keyNZ : ∀ e ∈ st.2, e.1 ≠ 0
  keySlot : ∀ e ∈ st.2, ∃ k, rts e.1 = some k ∧ st.1.latestFinalized.slot < k
  votes : ∀ e ∈ st.2, ∀ i, e.2[i]? = some true → V i e.1
  superJ : ∀ k, st.1.latestFinalized.slot < k →
    isSlotJustified st.1.justifiedSlots st.1.latestFinalized.slot k = some true →
    ∃ r, s0.historicalBlockHashes[k]? = some r ∧ SuperMaj (V · r) s0.validators.length
  superJust : st.1.latestJustified.slot = 0 ∨
    SuperMaj (V · st.1.latestJustified.root) s0.validators.length
  superFin : st.1.latestFinalized.slot = 0 ∨
    SuperMaj (V · st.1.latestFinalized.root) s0.validators.length
  finGe : s0.latestFinalized.slot ≤ st.1.latestFinalized.slot
  justGe : s0.latestJustified.slot ≤ st.1.latestJustified.slot
  finSame : st.1.latestFinalized.slot = s0.latestFinalized.slot →
    st.1.latestFinalized = s0.latestFinalized
  justSame : st.1.latestJustified.slot = s0.latestJustified.slot →
    st.1.latestJustified = s0.latestJustified
  keepJ : ∀ k, isSlotJustified s0.justifiedSlots s0.latestFinalized.slot k = some true →
    isSlotJustified st.1.justifiedSlots st.1.latestFinalized.slot k = some true
  finEv : st.1.latestFinalized = s0.latestFinalized ∨
    ∃ (f : Nat) (T : Checkpoint), s0.latestFinalized.slot ≤ f ∧ f < st.1.latestFinalized.slot ∧
      st.1.latestFinalized.slot < T.slot ∧
      s0.historicalBlockHashes[T.slot]? = some T.root ∧
      isSlotJustified st.1.justifiedSlots st.1.latestFinalized.slot T.slot = some true ∧
      SuperMaj (V · T.root) s0.validators.length ∧
      ∀ k, st.1.latestFinalized.slot < k → k < T.slot → slotIsJustifiableAfter k f = false

theorem LoopInv.hist {s0 rts V st} (h : LoopInv s0 rts V st) :
    st.1.historicalBlockHashes = s0.historicalBlockHashes := by rw [h.frame]

theorem getElem?_lt {α : Type} {l : List α} {k : Nat} {r : α} (hk : l[k]? = some r) :
    k < l.length := by
  by_contra hc
  rw [List.getElem?_eq_none (by omega)] at hk; cases hk

/-- Facts about the tally vector written by one attestation. -/
theorem newVotes_spec {s0 rts V st} (h : LoopInv s0 rts V st) (a : AggAtt)
    (ha : ∀ i, a.bits[i]? = some true → V i a.data.target.root) :
    let votes := recordVotes ((st.2.get? a.data.target.root).getD
      (List.replicate s0.validators.length false)) a.bits
    votes.length = s0.validators.length ∧
    ∀ i, votes[i]? = some true → V i a.data.target.root := by
  have hv0 : ((st.2.get? a.data.target.root).getD
      (List.replicate s0.validators.length false)).length = s0.validators.length ∧
      ∀ i, ((st.2.get? a.data.target.root).getD
      (List.replicate s0.validators.length false))[i]? = some true → V i a.data.target.root := by
    cases hg : st.2.get? a.data.target.root with
    | none =>
      simp only [Option.getD_none, List.length_replicate, true_and]
      intro i hi
      rw [List.getElem?_replicate] at hi
      split at hi <;> simp at hi
    | some v =>
      have hm := Tally.mem_of_get? hg
      exact ⟨h.vecLen _ hm, h.votes _ hm⟩
  refine ⟨by rw [recordVotes_length]; exact hv0.1, ?_⟩
  intro i hi
  rw [recordVotes_get?] at hi
  cases hb : ((st.2.get? a.data.target.root).getD
      (List.replicate s0.validators.length false))[i]? with
  | none => rw [hb] at hi; cases hi
  | some b =>
    rw [hb] at hi
    simp only [Option.map_some, Option.some.injEq, Bool.or_eq_true, decide_eq_true_eq] at hi
    rcases hi with hi | hi
    · subst hi; exact hv0.2 i hb
    · exact ha i hi

theorem maxBySlot_cases (a b : Checkpoint) :
    (maxBySlot a b = a ∧ b.slot < a.slot) ∨ (maxBySlot a b = b ∧ a.slot ≤ b.slot) := by
  unfold maxBySlot; split
  · left; exact ⟨rfl, by omega⟩
  · right; exact ⟨rfl, by omega⟩

/-- One attestation preserves the invariant. -/
theorem attStep_inv {s0 : State} {rts : Root → Option Nat} {V : Nat → Root → Prop}
    {st st' : State × Tally} {a : AggAtt}
    (hrts : ∀ k r, s0.latestFinalized.slot < k → s0.historicalBlockHashes[k]? = some r →
      ∃ k', rts r = some k' ∧ k ≤ k')
    (h : LoopInv s0 rts V st)
    (ha : ValidVoteFacts st.1 a.data → ∀ i, a.bits[i]? = some true → V i a.data.target.root)
    (hs : attStep s0.validators.length rts st a = .ok st') : LoopInv s0 rts V st' := by
  unfold attStep at hs
  split at hs
  · cases hs
  · cases hs; exact h
  · next hvalid =>
    have F := (isValidVote_true_iff _ _).1 hvalid
    split at hs
    · cases hs
    split at hs
    · cases hs
    obtain ⟨hvl, hvV⟩ := newVotes_spec h a (ha F)
    simp only at hs hvl hvV
    generalize hvotes : recordVotes ((st.2.get? a.data.target.root).getD
      (List.replicate s0.validators.length false)) a.bits = votes at hs hvl hvV
    have htf : st.1.latestFinalized.slot < a.data.target.slot := by
      by_contra hc
      have := F.tgtNot
      rw [isSlotJustified_le (by omega)] at this
      cases this
    have htgtOn : s0.historicalBlockHashes[a.data.target.slot]? = some a.data.target.root := by
      have := F.tgtOn; rwa [h.hist] at this
    have hsrcOn : s0.historicalBlockHashes[a.data.source.slot]? = some a.data.source.root := by
      have := F.srcOn; rwa [h.hist] at this
    have htl : a.data.target.slot ≤ st.1.latestFinalized.slot + st.1.justifiedSlots.length := by
      have := getElem?_lt htgtOn; have := h.win; omega
    obtain ⟨k', hk', hkk'⟩ := hrts _ _ (Nat.lt_of_le_of_lt h.finGe htf) htgtOn
    -- facts about the updated tally
    have tally : ∀ e ∈ st.2.insert a.data.target.root votes,
        e.2.length = s0.validators.length ∧ e.1 ≠ 0 ∧
        (∃ k, rts e.1 = some k ∧ st.1.latestFinalized.slot < k) ∧
        ∀ i, e.2[i]? = some true → V i e.1 := by
      intro e he
      rcases Tally.mem_insert.1 he with rfl | ⟨-, he⟩
      · exact ⟨hvl, F.tgtNZ, ⟨k', hk', by omega⟩, hvV⟩
      · exact ⟨h.vecLen e he, h.keyNZ e he, h.keySlot e he, h.votes e he⟩
    split at hs
    · next hsup =>
      obtain ⟨js', hset, hjl, hjspec⟩ := setJustified_spec htf htl
      rw [hset] at hs
      simp only [Except.ok.injEq] at hs
      have hSM : SuperMaj (V · a.data.target.root) s0.validators.length :=
        superMaj_of_votes hvl hvV hsup
      have hjust := maxBySlot_cases st.1.latestJustified a.data.target
      -- the target slot differs from the justified slot, since it was not justified before
      have hne : st.1.latestJustified.slot ≠ a.data.target.slot := by
        intro hc
        have h1 := h.justJ
        rw [hc, F.tgtNot] at h1
        cases h1
      generalize hnj : maxBySlot st.1.latestJustified a.data.target = nj at hs hjust
      have njGe : st.1.latestJustified.slot ≤ nj.slot ∧ a.data.target.slot ≤ nj.slot := by
        rcases hjust with ⟨rfl, _⟩ | ⟨rfl, _⟩ <;> omega
      have njLt : nj.slot < s0.historicalBlockHashes.length := by
        rcases hjust with ⟨rfl, _⟩ | ⟨rfl, _⟩
        · exact h.justLt
        · exact getElem?_lt htgtOn
      have njJ : isSlotJustified js' st.1.latestFinalized.slot nj.slot = some true := by
        rw [hjspec]
        split
        · rfl
        · next hcc =>
          rcases hjust with ⟨hh, _⟩ | ⟨hh, _⟩
          · rw [hh]; exact h.justJ
          · exact absurd (congrArg Checkpoint.slot hh) hcc
      have njOn : s0.historicalBlockHashes[nj.slot]? = some nj.root := by
        rcases hjust with ⟨rfl, _⟩ | ⟨rfl, _⟩
        · exact h.justOn
        · exact htgtOn
      have njNZ : nj = s0.latestJustified ∨ nj.root ≠ 0 := by
        rcases hjust with ⟨rfl, _⟩ | ⟨rfl, _⟩
        · exact h.justNZ
        · exact Or.inr F.tgtNZ
      have njSuper : nj.slot = 0 ∨ SuperMaj (V · nj.root) s0.validators.length := by
        rcases hjust with ⟨rfl, _⟩ | ⟨rfl, _⟩
        · exact h.superJust
        · exact Or.inr hSM
      have njSame : nj.slot = s0.latestJustified.slot → nj = s0.latestJustified := by
        rcases hjust with ⟨rfl, _⟩ | ⟨rfl, h2⟩
        · exact h.justSame
        · intro hc
          have := h.justGe
          exfalso
          omega
      have superJ' : ∀ k, st.1.latestFinalized.slot < k →
          isSlotJustified js' st.1.latestFinalized.slot k = some true →
          ∃ r, s0.historicalBlockHashes[k]? = some r ∧
            SuperMaj (V · r) s0.validators.length := by
        intro k hk hj
        rw [hjspec] at hj
        split at hj
        · next hc => subst hc; exact ⟨_, htgtOn, hSM⟩
        · exact h.superJ k hk hj
      have keepJ' : ∀ k, isSlotJustified s0.justifiedSlots s0.latestFinalized.slot k = some true →
          isSlotJustified js' st.1.latestFinalized.slot k = some true := by
        intro k hk
        rw [hjspec]
        split
        · rfl
        · exact h.keepJ k hk
      have tallyE : ∀ e ∈ (st.2.insert a.data.target.root votes).erase a.data.target.root,
          e.2.length = s0.validators.length ∧ e.1 ≠ 0 ∧
          (∃ k, rts e.1 = some k ∧ st.1.latestFinalized.slot < k) ∧
          ∀ i, e.2[i]? = some true → V i e.1 :=
        fun e he => tally e (Tally.mem_erase.1 he).2
      have nodupE := Tally.nodup_erase (Tally.nodup_insert h.keysNodup a.data.target.root votes)
        a.data.target.root
      have hframe := h.frame
      unfold tryFinalize at hs
      simp only at hs
      split at hs
      · -- the source is not above the finalized slot: justification only
        subst hs
        exact {
          frame := by simp only; rw [hframe]
          histPos := h.histPos
          win := by simp only; rw [hjl]; exact h.win
          finLeJust := by simp only; have := h.finLeJust; omega
          justLt := njLt
          justJ := njJ
          finOn := h.finOn
          justOn := njOn
          finNZ := h.finNZ
          justNZ := njNZ
          keysNodup := nodupE
          vecLen := fun e he => (tallyE e he).1
          keyNZ := fun e he => (tallyE e he).2.1
          keySlot := fun e he => (tallyE e he).2.2.1
          votes := fun e he => (tallyE e he).2.2.2
          superJ := superJ'
          superJust := njSuper
          superFin := h.superFin
          finGe := h.finGe
          justGe := by simp only; have := h.justGe; omega
          finSame := h.finSame
          justSame := njSame
          keepJ := keepJ'
          finEv := by
            rcases h.finEv with h1 | ⟨f, T, h1, h2, h3, h4, h5, h6, h7⟩
            · exact Or.inl h1
            · refine Or.inr ⟨f, T, h1, h2, h3, h4, ?_, h6, h7⟩
              simp only; rw [hjspec]; split
              · rfl
              · exact h5 }
      · next hsf =>
        split at hs
        · subst hs
          exact {
            frame := by simp only; rw [hframe]
            histPos := h.histPos
            win := by simp only; rw [hjl]; exact h.win
            finLeJust := by simp only; have := h.finLeJust; omega
            justLt := njLt
            justJ := njJ
            finOn := h.finOn
            justOn := njOn
            finNZ := h.finNZ
            justNZ := njNZ
            keysNodup := nodupE
            vecLen := fun e he => (tallyE e he).1
            keyNZ := fun e he => (tallyE e he).2.1
            keySlot := fun e he => (tallyE e he).2.2.1
            votes := fun e he => (tallyE e he).2.2.2
            superJ := superJ'
            superJust := njSuper
            superFin := h.superFin
            finGe := h.finGe
            justGe := by simp only; have := h.justGe; omega
            finSame := h.finSame
            justSame := njSame
            keepJ := keepJ'
            finEv := by
              rcases h.finEv with h1 | ⟨f, T, h1, h2, h3, h4, h5, h6, h7⟩
              · exact Or.inl h1
              · refine Or.inr ⟨f, T, h1, h2, h3, h4, ?_, h6, h7⟩
                simp only; rw [hjspec]; split
                · rfl
                · exact h5 }
        · next hnone =>
          -- finalization advances to the source
          have hsl : st.1.latestFinalized.slot < a.data.source.slot := by omega
          have hst := F.lt
          have hjspec2 : ∀ m, isSlotJustified
              (shiftWindow js' (a.data.source.slot - st.1.latestFinalized.slot))
              a.data.source.slot m =
              if m ≤ a.data.source.slot then some true
              else isSlotJustified js' st.1.latestFinalized.slot m := by
            intro m
            split
            · next hm => exact isSlotJustified_le hm
            · next hm =>
              exact C02_finalize_preserves_status _ _ _ (by omega) _ (by omega)
          have hsrcJ : isSlotJustified js' st.1.latestFinalized.slot a.data.source.slot
              = some true := by
            rw [hjspec]; split
            · rfl
            · exact F.srcJust
          have hkeepT : isSlotJustified
              (shiftWindow js' (a.data.source.slot - st.1.latestFinalized.slot))
              a.data.source.slot a.data.target.slot = some true := by
            rw [hjspec2, if_neg (by omega), hjspec, if_pos rfl]
          subst hs
          exact {
            frame := by simp only; rw [hframe]
            histPos := h.histPos
            win := by
              simp only [shiftWindow]
              rw [if_neg (by omega)]
              have := h.win
              have := getElem?_lt htgtOn
              split
              · simp only [List.length_nil]; omega
              · simp only [List.length_drop]; omega
            finLeJust := by simp only; omega
            justLt := njLt
            justJ := by
              simp only
              rw [hjspec2]; split
              · rfl
              · exact njJ
            finOn := hsrcOn
            justOn := njOn
            finNZ := Or.inr F.srcNZ
            justNZ := njNZ
            keysNodup := Tally.nodup_filter nodupE _
            vecLen := fun e he => (tallyE e (List.mem_filter.1 he).1).1
            keyNZ := fun e he => (tallyE e (List.mem_filter.1 he).1).2.1
            keySlot := by
              intro e he
              have hp := (List.mem_filter.1 he).2
              cases hr : rts e.1 with
              | none => rw [hr] at hp; cases hp
              | some k =>
                rw [hr] at hp
                simp only [decide_eq_true_eq] at hp
                exact ⟨k, rfl, hp⟩
            votes := fun e he => (tallyE e (List.mem_filter.1 he).1).2.2.2
            superJ := by
              intro k hk hj
              simp only at hk hj
              rw [hjspec2, if_neg (by omega)] at hj
              exact superJ' k (by omega) hj
            superJust := njSuper
            superFin := by
              right
              obtain ⟨r, hr1, hr2⟩ := superJ' _ hsl hsrcJ
              rw [hsrcOn] at hr1
              cases hr1
              exact hr2
            finGe := by simp only; have := h.finGe; omega
            justGe := by simp only; have := h.justGe; omega
            finSame := by intro hc; simp only at hc; have := h.finGe; omega
            justSame := njSame
            keepJ := by
              intro k hk
              simp only
              rw [hjspec2]; split
              · rfl
              · exact keepJ' k hk
            finEv := by
              right
              refine ⟨st.1.latestFinalized.slot, a.data.target, h.finGe, hsl, hst, htgtOn,
                hkeepT, hSM, ?_⟩
              intro k hk1 hk2
              simp only at hk1
              simp only [List.any_eq_true, List.mem_range'_1, not_exists, not_and] at hnone
              have := hnone k ⟨by omega, by omega⟩
              simpa using this }
    · simp only [Except.ok.injEq] at hs
      subst hs
      exact { h with
        keysNodup := Tally.nodup_insert h.keysNodup _ _
        vecLen := fun e he => (tally e he).1
        keyNZ := fun e he => (tally e he).2.1
        keySlot := fun e he => (tally e he).2.2.1
        votes := fun e he => (tally e he).2.2.2 }

/-- Under the invariant an attestation step never panics. -/
theorem attStep_no_panic {s0 : State} {rts : Root → Option Nat} {V : Nat → Root → Prop}
    {st : State × Tally} {a : AggAtt} (h : LoopInv s0 rts V st) (m : Nat) (line : Nat) :
    attStep m rts st a ≠ .error (.panicked line) := by
  intro hs
  unfold attStep at hs
  split at hs
  · next e he =>
    have : e = .justifiedSlotOutOfRange := by
      unfold isValidVote at he
      split at he
      · cases he; rfl
      · cases he
      · split at he
        · cases he; rfl
        · cases he
        · split at he
          · cases he
          · split at he
            · cases he
            · split at he <;> cases he
    subst this
    cases hs
  · cases hs
  · next hvalid =>
    have F := (isValidVote_true_iff _ _).1 hvalid
    split at hs
    · cases hs
    split at hs
    · cases hs
    simp only at hs
    split at hs
    · have htf : st.1.latestFinalized.slot < a.data.target.slot := by
        by_contra hc
        have := F.tgtNot
        rw [isSlotJustified_le (by omega)] at this
        cases this
      have htgtOn : s0.historicalBlockHashes[a.data.target.slot]? = some a.data.target.root := by
        have := F.tgtOn; rwa [h.hist] at this
      have htl : a.data.target.slot ≤ st.1.latestFinalized.slot + st.1.justifiedSlots.length := by
        have := getElem?_lt htgtOn; have := h.win; omega
      obtain ⟨js', hset, -, -⟩ := setJustified_spec htf htl
      rw [hset] at hs
      cases hs
    · cases hs

/-- The hypothesis on the votes is only needed for valid votes, in states satisfying the
invariant. -/
theorem attLoop_inv' {s0 : State} {rts : Root → Option Nat} {V : Nat → Root → Prop}
    (hrts : ∀ k r, s0.latestFinalized.slot < k → s0.historicalBlockHashes[k]? = some r →
      ∃ k', rts r = some k' ∧ k ≤ k') (as : List AggAtt) {st st' : State × Tally}
    (h : LoopInv s0 rts V st)
    (ha : ∀ a ∈ as, ∀ st, LoopInv s0 rts V st → ValidVoteFacts st.1 a.data →
      ∀ i, a.bits[i]? = some true → V i a.data.target.root)
    (hs : attLoop s0.validators.length rts as st = .ok st') : LoopInv s0 rts V st' := by
  induction as generalizing st with
  | nil => simp only [attLoop, Except.ok.injEq] at hs; subst hs; exact h
  | cons a as ih =>
    simp only [attLoop] at hs
    split at hs
    · cases hs
    · next st1 h1 =>
      exact ih (attStep_inv hrts h (ha a (by simp) st h) h1)
        (fun b hb => ha b (List.mem_cons_of_mem _ hb)) hs

theorem attLoop_inv {s0 : State} {rts : Root → Option Nat} {V : Nat → Root → Prop}
    (hrts : ∀ k r, s0.latestFinalized.slot < k → s0.historicalBlockHashes[k]? = some r →
      ∃ k', rts r = some k' ∧ k ≤ k') (as : List AggAtt) {st st' : State × Tally}
    (h : LoopInv s0 rts V st)
    (ha : ∀ a ∈ as, ∀ i, a.bits[i]? = some true → V i a.data.target.root)
    (hs : attLoop s0.validators.length rts as st = .ok st') : LoopInv s0 rts V st' :=
  attLoop_inv' hrts as h (fun a hm _ _ _ => ha a hm) hs

theorem attLoop_no_panic {s0 : State} {rts : Root → Option Nat} {V : Nat → Root → Prop}
    (hrts : ∀ k r, s0.latestFinalized.slot < k → s0.historicalBlockHashes[k]? = some r →
      ∃ k', rts r = some k' ∧ k ≤ k') (as : List AggAtt) {st : State × Tally}
    (h : LoopInv s0 rts V st)
    (ha : ∀ a ∈ as, ∀ i, a.bits[i]? = some true → V i a.data.target.root) (line : Nat) :
    attLoop s0.validators.length rts as st ≠ .error (.panicked line) := by
  induction as generalizing st with
  | nil => simp [attLoop]
  | cons a as ih =>
    simp only [attLoop]
    split
    · next e he =>
      intro hc
      cases hc
      exact attStep_no_panic h _ _ he
    · next st1 h1 =>
      exact ih (attStep_inv hrts h (fun _ => ha a (by simp)) h1)
        (fun b hb => ha b (List.mem_cons_of_mem _ hb))

end Verif
