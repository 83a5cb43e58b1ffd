import Verif.Lemmas.StfLoop
import Mathlib.Data.List.Perm.Subperm
/-!
# Invariant of chain states, preserved by the state transition
-/
namespace Verif
open JustifiedSlots

theorem rootToSlot_some {hist : List Root} {f : Nat} {r : Root} {k : Nat}
    (h : rootToSlot hist f r = some k) : f < k ∧ hist[k]? = some r := by
  have hm := List.mem_of_getLast? h
  simp only [List.mem_filter, List.mem_range, Bool.and_eq_true, decide_eq_true_eq] at hm
  exact hm.2

theorem pairwise_lt_le_getLast {l : List Nat} (h : l.Pairwise (· < ·)) {m : Nat}
    (hl : l.getLast? = some m) {k : Nat} (hk : k ∈ l) : k ≤ m := by
  induction l with
  | nil => simp at hk
  | cons a l ih =>
    rw [List.pairwise_cons] at h
    cases l with
    | nil => simp at hl hk; omega
    | cons b l =>
      rw [List.getLast?_cons_cons] at hl
      rcases List.mem_cons.1 hk with hka | hk
      · subst hka
        have h1 := h.1 b (by simp)
        have h2 : ∀ x ∈ b :: l, x ≤ m → k ≤ m := fun x hx hxm => by
          have := h.1 x hx; omega
        by_cases hkm : k ≤ m
        · exact hkm
        · exact h2 m (List.mem_of_getLast? hl) (Nat.le_refl _)
      · exact ih h.2 hl hk

theorem rootToSlot_ge {hist : List Root} {f : Nat} {r : Root} {k : Nat}
    (h1 : f < k) (h2 : hist[k]? = some r) : ∃ k', rootToSlot hist f r = some k' ∧ k ≤ k' := by
  have hm : k ∈ (List.range hist.length).filter
      (fun k => decide (f < k) && decide (hist[k]? = some r)) := by
    simp only [List.mem_filter, List.mem_range, Bool.and_eq_true, decide_eq_true_eq]
    exact ⟨getElem?_lt h2, h1, h2⟩
  unfold rootToSlot
  cases hl : ((List.range hist.length).filter
      (fun k => decide (f < k) && decide (hist[k]? = some r))).getLast? with
  | none => rw [List.getLast?_eq_none_iff] at hl; rw [hl] at hm; simp at hm
  | some m =>
    exact ⟨m, rfl, pairwise_lt_le_getLast (List.Pairwise.filter _ List.pairwise_lt_range) hl hm⟩

/-- Invariant of every state reached by importing at least one block. `V v r`: validator `v`
voted for target root `r` in some block of the chain. -/
structure SInv (V : Nat → Root → Prop) (s : State) : Prop where
  slotPos : 0 < s.slot
  hdr : s.latestBlockHeader.slot = s.slot
  histLen : s.historicalBlockHashes.length = s.slot
  win : s.latestFinalized.slot + s.justifiedSlots.length = s.slot - 1
  finLeJust : s.latestFinalized.slot ≤ s.latestJustified.slot
  justLt : s.latestJustified.slot < s.slot
  justJ : isSlotJustified s.justifiedSlots s.latestFinalized.slot s.latestJustified.slot
    = some true
  finOn : s.historicalBlockHashes[s.latestFinalized.slot]? = some s.latestFinalized.root
  justOn : s.historicalBlockHashes[s.latestJustified.slot]? = some s.latestJustified.root
  superJ : ∀ k, s.latestFinalized.slot < k →
    isSlotJustified s.justifiedSlots s.latestFinalized.slot k = some true →
    ∃ r, s.historicalBlockHashes[k]? = some r ∧ SuperMaj (V · r) s.validators.length
  superJust : s.latestJustified.slot = 0 ∨
    SuperMaj (V · s.latestJustified.root) s.validators.length
  superFin : s.latestFinalized.slot = 0 ∨
    SuperMaj (V · s.latestFinalized.root) s.validators.length
  flatLen : s.justificationsValidators.length
    = s.justificationsRoots.length * s.validators.length
  rootsSorted : s.justificationsRoots.Pairwise (· < ·)
  rootNZ : ∀ r ∈ s.justificationsRoots, r ≠ 0
  rootOn : ∀ r ∈ s.justificationsRoots, ∃ k, s.latestFinalized.slot < k ∧
    s.historicalBlockHashes[k]? = some r
  votes : ∀ i r j, s.justificationsRoots[i]? = some r → j < s.validators.length →
    s.justificationsValidators[i * s.validators.length + j]? = some true → V j r

/-- What one block may change, relative to the state before. -/
structure StepRel (V : Nat → Root → Prop) (s s' : State) : Prop where
  finGe : s.latestFinalized.slot ≤ s'.latestFinalized.slot
  justGe : s.latestJustified.slot ≤ s'.latestJustified.slot
  finSame : s'.latestFinalized.slot = s.latestFinalized.slot →
    s'.latestFinalized = s.latestFinalized
  justSame : s'.latestJustified.slot = s.latestJustified.slot →
    s'.latestJustified = s.latestJustified
  finNZ : s'.latestFinalized = s.latestFinalized ∨ s'.latestFinalized.root ≠ 0
  justNZ : s'.latestJustified = s.latestJustified ∨ s'.latestJustified.root ≠ 0
  keepJ : ∀ k, isSlotJustified s.justifiedSlots s.latestFinalized.slot k = some true →
    isSlotJustified s'.justifiedSlots s'.latestFinalized.slot k = some true
  finEv : s'.latestFinalized = s.latestFinalized ∨
    ∃ (f : Nat) (T : Checkpoint), s.latestFinalized.slot ≤ f ∧ f < s'.latestFinalized.slot ∧
      s'.latestFinalized.slot < T.slot ∧
      s'.historicalBlockHashes[T.slot]? = some T.root ∧
      isSlotJustified s'.justifiedSlots s'.latestFinalized.slot T.slot = some true ∧
      SuperMaj (V · T.root) s'.validators.length ∧
      ∀ k, s'.latestFinalized.slot < k → k < T.slot → slotIsJustifiableAfter k f = false

theorem SInv.loopInv {V : Nat → Root → Prop} {s : State} (h : SInv V s) :
    LoopInv s (rootToSlot s.historicalBlockHashes s.latestFinalized.slot) V
      (s, unpackTally s.validators.length s.justificationsRoots s.justificationsValidators) := by
  obtain ⟨u1, u2, u3⟩ := unpackTally_spec s.validators.length s.justificationsRoots
    s.justificationsValidators
  exact {
    frame := rfl
    histPos := by rw [h.histLen]; exact h.slotPos
    win := by simp only; rw [h.histLen]; exact h.win
    finLeJust := h.finLeJust
    justLt := by simp only; rw [h.histLen]; exact h.justLt
    justJ := h.justJ
    finOn := h.finOn
    justOn := h.justOn
    finNZ := Or.inl rfl
    justNZ := Or.inl rfl
    keysNodup := u1
    vecLen := by
      intro e he
      obtain ⟨i, -, hi⟩ := u2 e he
      rw [hi]; simp [segment]
    keyNZ := by
      intro e he
      obtain ⟨i, hi, -⟩ := u2 e he
      exact h.rootNZ _ (List.mem_of_getElem? hi)
    keySlot := by
      intro e he
      obtain ⟨i, hi, -⟩ := u2 e he
      obtain ⟨k, hk1, hk2⟩ := h.rootOn _ (List.mem_of_getElem? hi)
      obtain ⟨k', hk', hle⟩ := rootToSlot_ge hk1 hk2
      exact ⟨k', hk', Nat.lt_of_lt_of_le hk1 hle⟩
    votes := by
      intro e he j hj
      obtain ⟨i, hi, hseg⟩ := u2 e he
      rw [hseg] at hj
      simp only [segment, List.getElem?_map] at hj
      by_cases hjn : j < s.validators.length
      · rw [List.getElem?_range hjn] at hj
        simp only [Option.map_some, Option.some.injEq, decide_eq_true_eq] at hj
        exact h.votes i e.1 j hi hjn hj
      · rw [List.getElem?_eq_none (by simp; omega)] at hj
        cases hj
    superJ := h.superJ
    superJust := h.superJust
    superFin := h.superFin
    finGe := Nat.le_refl _
    justGe := Nat.le_refl _
    finSame := fun _ => rfl
    justSame := fun _ => rfl
    keepJ := fun _ hk => hk
    finEv := Or.inl rfl }

theorem SInv.weaken {V W : Nat → Root → Prop} {s : State} (h : SInv V s)
    (hv : ∀ v r, V v r → W v r) : SInv W s :=
  { h with
    superJ := fun k hk hj => by
      obtain ⟨r, h1, h2⟩ := h.superJ k hk hj
      exact ⟨r, h1, h2.mono (fun v => hv v r)⟩
    superJust := h.superJust.imp id (fun h2 => h2.mono (fun v => hv v _))
    superFin := h.superFin.imp id (fun h2 => h2.mono (fun v => hv v _))
    votes := fun i r j h1 h2 h3 => hv _ _ (h.votes i r j h1 h2 h3) }

theorem insertRoot_perm (r : Root) (l : List Root) : (insertRoot r l).Perm (r :: l) := by
  induction l with
  | nil => exact List.Perm.refl _
  | cons x xs ih =>
    unfold insertRoot
    split
    · exact List.Perm.refl _
    · exact (ih.cons x).trans (List.Perm.swap r x xs)

theorem sortRoots_perm (l : List Root) : (sortRoots l).Perm l := by
  induction l with
  | nil => exact List.Perm.refl _
  | cons x xs ih => exact (insertRoot_perm x _).trans (ih.cons x)

theorem insertRoot_pairwise {r : Root} {l : List Root} (h : l.Pairwise (· ≤ ·)) :
    (insertRoot r l).Pairwise (· ≤ ·) := by
  induction l with
  | nil => simp [insertRoot]
  | cons x xs ih =>
    rw [List.pairwise_cons] at h
    unfold insertRoot
    split
    · next hr =>
      rw [List.pairwise_cons]
      refine ⟨?_, List.pairwise_cons.2 h⟩
      intro y hy
      rcases List.mem_cons.1 hy with rfl | hy
      · exact hr
      · have := h.1 y hy; exact Nat.le_trans hr this
    · next hr =>
      rw [List.pairwise_cons]
      refine ⟨?_, ih h.2⟩
      intro y hy
      rcases List.mem_cons.1 ((insertRoot_perm r xs).mem_iff.1 hy) with rfl | hy
      · exact Nat.le_of_lt (Nat.lt_of_not_le hr)
      · exact h.1 y hy

theorem sortRoots_pairwise (l : List Root) : (sortRoots l).Pairwise (· ≤ ·) := by
  induction l with
  | nil => simp [sortRoots]
  | cons x xs ih => exact insertRoot_pairwise ih

theorem mem_sortRoots {l : List Root} {r : Root} : r ∈ sortRoots l ↔ r ∈ l :=
  (sortRoots_perm l).mem_iff

theorem length_sortRoots (l : List Root) : (sortRoots l).length = l.length :=
  (sortRoots_perm l).length_eq

theorem sortRoots_pairwise_lt {l : List Root} (h : l.Nodup) :
    (sortRoots l).Pairwise (· < ·) := by
  have hs := sortRoots_pairwise l
  have hn : (sortRoots l).Nodup := (sortRoots_perm l).nodup_iff.2 h
  refine List.Pairwise.imp₂ ?_ hs hn
  intro a b h1 h2
  exact Nat.lt_of_le_of_ne h1 h2

/-- Serialization under the loop invariant never panics within the size limits, and yields a
state with the chain invariant. -/
theorem serialize_inv {V : Nat → Root → Prop} {s0 : State} (h0 : SInv V s0)
    {st : State × Tally}
    (h : LoopInv s0 (rootToSlot s0.historicalBlockHashes s0.latestFinalized.slot) V st)
    {s' : State} (hs : serializeJustifications st.1 st.2 s0.validators.length = .ok s') :
    SInv V s' ∧ StepRel V s0 s' ∧
      s' = { st.1 with justificationsRoots := s'.justificationsRoots
                       justificationsValidators := s'.justificationsValidators } := by
  unfold serializeJustifications at hs
  simp only at hs
  split at hs
  · cases hs
  split at hs
  · cases hs
  split at hs
  · cases hs
  simp only [Except.ok.injEq] at hs
  have hframe := h.frame
  have hmem : ∀ r, r ∈ sortRoots (st.2.map Prod.fst) ↔
      ∃ v, (r, v) ∈ st.2 := by
    intro r; rw [mem_sortRoots]; simp
  have hslot : st.1.slot = s0.slot := by rw [hframe]
  have hvals : st.1.validators = s0.validators := by rw [hframe]
  have hhist := h.hist
  have hhd : st.1.latestBlockHeader = s0.latestBlockHeader := by rw [hframe]
  have hflat : ∀ r ∈ sortRoots (st.2.map Prod.fst),
      ((st.2.get? r).getD []).length = s0.validators.length := by
    intro r hr
    obtain ⟨v, hv⟩ := (hmem r).1 hr
    rw [Tally.get?_of_mem h.keysNodup hv]
    exact h.vecLen _ hv
  subst hs
  refine ⟨?_, ?_, rfl⟩
  · exact {
      slotPos := by simp only; rw [hslot]; exact h0.slotPos
      hdr := by simp only; rw [hslot, hhd]; exact h0.hdr
      histLen := by simp only; rw [hslot, hhist]; exact h0.histLen
      win := by simp only; rw [hslot, ← h0.histLen]; exact h.win
      finLeJust := h.finLeJust
      justLt := by simp only; rw [hslot, ← h0.histLen]; exact h.justLt
      justJ := h.justJ
      finOn := by simp only; rw [hhist]; exact h.finOn
      justOn := by simp only; rw [hhist]; exact h.justOn
      superJ := by simp only; rw [hhist, hvals]; exact h.superJ
      superJust := by simp only; rw [hvals]; exact h.superJust
      superFin := by simp only; rw [hvals]; exact h.superFin
      flatLen := by simp [hvals]
      rootsSorted := sortRoots_pairwise_lt h.keysNodup
      rootNZ := by
        intro r hr
        obtain ⟨v, hv⟩ := (hmem r).1 hr
        exact h.keyNZ _ hv
      rootOn := by
        intro r hr
        obtain ⟨v, hv⟩ := (hmem r).1 hr
        obtain ⟨k, hk1, hk2⟩ := h.keySlot _ hv
        refine ⟨k, hk2, ?_⟩
        simp only; rw [hhist]
        exact (rootToSlot_some hk1).2
      votes := by
        intro i r j hi hj hb
        simp only at hi hj hb
        rw [hvals] at hj hb
        rw [List.getElem?_map] at hb
        have hr := List.mem_of_getElem? hi
        obtain ⟨v, hv⟩ := (hmem r).1 hr
        rw [Option.map_eq_some_iff] at hb
        obtain ⟨x, hx1, hx2⟩ := hb
        have hxe : x = i * s0.validators.length + j := by
          rw [List.getElem?_range (by simpa using getElem?_lt hx1)] at hx1
          cases hx1; rfl
        subst hxe
        rw [decide_eq_true_eq, flatMap_getElem?_uniform _ _ _ hflat i j r hi hj,
          Tally.get?_of_mem h.keysNodup hv] at hx2
        exact h.votes _ hv j hx2 }
  · exact {
      finGe := h.finGe
      justGe := h.justGe
      finSame := h.finSame
      justSame := h.justSame
      finNZ := h.finNZ
      justNZ := h.justNZ
      keepJ := h.keepJ
      finEv := by simp only; rw [hhist, hvals]; exact h.finEv }

theorem serialize_no_panic {V : Nat → Root → Prop} {s0 : State}
    {st : State × Tally}
    (h : LoopInv s0 (rootToSlot s0.historicalBlockHashes s0.latestFinalized.slot) V st)
    (hl : s0.historicalBlockHashes.length ≤ historicalRootsLimit)
    (hn : s0.validators.length ≤ validatorRegistryLimit) :
    ∃ s', serializeJustifications st.1 st.2 s0.validators.length = .ok s' := by
  have hlen : (sortRoots (st.2.map Prod.fst)).length
      ≤ historicalRootsLimit := by
    rw [length_sortRoots]
    refine Nat.le_trans (List.Subperm.length_le (List.subperm_of_subset h.keysNodup ?_)) hl
    intro r hr
    obtain ⟨e, he, rfl⟩ := List.mem_map.1 hr
    obtain ⟨k, hk, -⟩ := h.keySlot e he
    exact List.mem_of_getElem? (rootToSlot_some hk).2
  have hflat : ((sortRoots (st.2.map Prod.fst)).flatMap
      (fun r => (st.2.get? r).getD [])).length =
      (sortRoots (st.2.map Prod.fst)).length
        * s0.validators.length := by
    apply flatMap_length_uniform
    intro r hr
    rw [mem_sortRoots] at hr
    obtain ⟨v, hv⟩ := Tally.get?_of_mem_keys hr
    rw [hv]
    exact h.vecLen _ (Tally.mem_of_get? hv)
  unfold serializeJustifications
  simp only
  rw [if_neg (by
    have := Nat.mul_le_mul hlen hn
    omega)]
  rw [if_neg (by rw [List.drop_eq_nil_of_le (by omega)]; simp)]
  rw [if_neg (by omega)]
  exact ⟨_, rfl⟩

theorem processAttestations_inv' {V : Nat → Root → Prop} {s s' : State} {as : List AggAtt}
    (h : SInv V s) (ha : ∀ a ∈ as, ∀ rts st, LoopInv s rts V st → ValidVoteFacts st.1 a.data →
      ∀ i, a.bits[i]? = some true → V i a.data.target.root)
    (hs : processAttestations s as = .ok s') :
    SInv V s' ∧ StepRel V s s' ∧
      s' = { s with latestJustified := s'.latestJustified
                    latestFinalized := s'.latestFinalized
                    justifiedSlots := s'.justifiedSlots
                    justificationsRoots := s'.justificationsRoots
                    justificationsValidators := s'.justificationsValidators } := by
  unfold processAttestations at hs
  simp only at hs
  split at hs
  · cases hs
  split at hs
  · cases hs
  split at hs
  · cases hs
  split at hs
  · cases hs
  split at hs
  · cases hs
  · next s1 t1 h1 =>
    have hl := attLoop_inv' (fun k r => rootToSlot_ge) as h.loopInv
      (fun a hm st => ha a hm _ st) h1
    obtain ⟨a, b, c⟩ := serialize_inv h hl hs
    refine ⟨a, b, ?_⟩
    have hf := hl.frame
    simp only at hf c
    rw [c, hf]

theorem processAttestations_inv {V : Nat → Root → Prop} {s s' : State} {as : List AggAtt}
    (h : SInv V s) (ha : ∀ a ∈ as, ∀ i, a.bits[i]? = some true → V i a.data.target.root)
    (hs : processAttestations s as = .ok s') :
    SInv V s' ∧ StepRel V s s' ∧
      s' = { s with latestJustified := s'.latestJustified
                    latestFinalized := s'.latestFinalized
                    justifiedSlots := s'.justifiedSlots
                    justificationsRoots := s'.justificationsRoots
                    justificationsValidators := s'.justificationsValidators } :=
  processAttestations_inv' h (fun a hm _ _ _ _ => ha a hm) hs

theorem processAttestations_no_panic {V : Nat → Root → Prop} {s : State} {as : List AggAtt}
    (h : SInv V s) (ha : ∀ a ∈ as, ∀ i, a.bits[i]? = some true → V i a.data.target.root)
    (hl : s.historicalBlockHashes.length ≤ historicalRootsLimit)
    (hn : s.validators.length ≤ validatorRegistryLimit) (line : Nat) :
    processAttestations s as ≠ .error (.panicked line) := by
  unfold processAttestations
  simp only
  split
  · simp
  split
  · simp
  split
  · simp
  split
  · simp
  split
  · next e he =>
    intro hc
    cases hc
    exact attLoop_no_panic (fun k r => rootToSlot_ge) as h.loopInv ha line he
  · next s1 t1 h1 =>
    have hl' := attLoop_inv (fun k r => rootToSlot_ge) as h.loopInv ha h1
    obtain ⟨s', hs'⟩ := serialize_no_panic hl' hl hn
    simp only at hs'
    rw [hs']; simp

/-- `extend_to_slot` when the tracked window ends before `k`. -/
theorem extendToSlot_spec {js : List Bool} {f k : Nat} (h1 : f + js.length ≤ k)
    (h2 : k ≤ historicalRootsLimit) :
    ∃ js', extendToSlot js f k = some js' ∧ f + js'.length = k ∧
      (∀ m, m ≤ f + js.length → isSlotJustified js' f m = isSlotJustified js f m) ∧
      (∀ m, f + js.length < m → m ≤ k → isSlotJustified js' f m = some false) := by
  by_cases hk : k ≤ f
  · refine ⟨js, ?_, by omega, fun _ _ => rfl, fun m hm hm' => by omega⟩
    unfold extendToSlot; rw [relativeIndex_none hk]
  · refine ⟨js ++ List.replicate (k - f - js.length) false, ?_, by simp; omega, ?_, ?_⟩
    · unfold extendToSlot; rw [relativeIndex_some (by omega)]
      simp only
      split
      · have : k - f - js.length = 0 := by omega
        rw [this]; simp
      · rw [if_pos (by omega)]
        congr 3; omega
    · intro m hm
      by_cases hmf : m ≤ f
      · rw [isSlotJustified_le hmf, isSlotJustified_le hmf]
      · rw [isSlotJustified_gt (by omega), isSlotJustified_gt (by omega),
          List.getElem?_append_left (by omega)]
    · intro m hm hm'
      rw [isSlotJustified_gt (by omega), List.getElem?_append_right (by omega),
        List.getElem?_replicate, if_pos (by omega)]

/-- Effect of slot and header processing on a state that already has a block. -/
theorem header_inv {H : Hash} {V : Nat → Root → Prop} {s s1 s2 : State} {b : Block}
    (h : SInv V s) (hs1 : processSlots H s b.slot = .ok s1)
    (hs2 : processBlockHeader H s1 b = .ok s2) :
    SInv V s2 ∧ StepRel V s s2 ∧ s.slot < b.slot ∧ s2.slot = b.slot ∧
    s2.historicalBlockHashes = s.historicalBlockHashes ++
      H.header s1.latestBlockHeader :: List.replicate (b.slot - s.slot - 1) 0 ∧
    b.parentRoot = H.header s1.latestBlockHeader ∧
    s2.validators = s.validators ∧ s2.genesisTime = s.genesisTime ∧
    s2.latestBlockHeader = { b.header H with stateRoot := 0 } ∧
    b.proposerIndex = b.slot % s.validators.length ∧ 0 < s.validators.length ∧
    b.slot ≤ historicalRootsLimit := by
  unfold processSlots at hs1
  split at hs1
  · cases hs1
  next hlt =>
  simp only [Except.ok.injEq] at hs1
  have e1 : s1 = { s with slot := b.slot, latestBlockHeader := s1.latestBlockHeader } := by
    rw [← hs1]; split <;> rfl
  have e2 : s1.latestBlockHeader.slot = s.latestBlockHeader.slot := by
    rw [← hs1]; split <;> rfl
  clear hs1
  unfold processBlockHeader at hs2
  simp only at hs2
  split at hs2
  · cases hs2
  split at hs2
  · cases hs2
  split at hs2
  · cases hs2
  next expected hexp =>
  split at hs2
  · cases hs2
  next hprop =>
  split at hs2
  · cases hs2
  next hpar =>
  rw [e2, h.hdr] at hs2
  have hpos := h.slotPos
  have hne0 : ¬ s.slot = 0 := by omega
  simp only [if_neg hne0] at hs2
  split at hs2
  · cases hs2
  next hlim =>
  have hh1 : s1.historicalBlockHashes = s.historicalBlockHashes := by rw [e1]
  rw [hh1, h.histLen] at hlim
  have hj1 : s1.justifiedSlots = s.justifiedSlots := by rw [e1]
  have hf1 : s1.latestFinalized = s.latestFinalized := by rw [e1]
  have hju1 : s1.latestJustified = s.latestJustified := by rw [e1]
  have hv1 : s1.validators = s.validators := by rw [e1]
  have hwin := h.win
  obtain ⟨js', hx1, hx2, hx3, hx4⟩ := extendToSlot_spec (js := s.justifiedSlots)
    (f := s.latestFinalized.slot) (k := b.slot - 1) (by omega) (by omega)
  rw [hj1, hf1, hx1] at hs2
  simp only [Except.ok.injEq] at hs2
  have hhist : s2.historicalBlockHashes = s.historicalBlockHashes ++
      H.header s1.latestBlockHeader :: List.replicate (b.slot - s.slot - 1) 0 := by
    rw [← hs2, ← hh1]
  have hfin : s2.latestFinalized = s.latestFinalized := by rw [← hs2]
  have hju : s2.latestJustified = s.latestJustified := by rw [← hs2]; exact hju1
  have hval : s2.validators = s.validators := by rw [← hs2]; exact hv1
  have hjs : s2.justifiedSlots = js' := by rw [← hs2]
  have hsl : s2.slot = b.slot := by rw [← hs2, e1]
  have hjr : s2.justificationsRoots = s.justificationsRoots := by rw [← hs2, e1]
  have hjv : s2.justificationsValidators = s.justificationsValidators := by rw [← hs2, e1]
  have hgt : s2.genesisTime = s.genesisTime := by rw [← hs2, e1]
  have hhd : s2.latestBlockHeader = { b.header H with stateRoot := 0 } := by
    rw [← hs2]; rfl
  have hold : ∀ (k : Nat) (r : Root), s.historicalBlockHashes[k]? = some r →
      s2.historicalBlockHashes[k]? = some r := by
    intro k r hk
    rw [hhist, List.getElem?_append_left (getElem?_lt hk)]
    exact hk
  have hjust_old : ∀ k, isSlotJustified js' s.latestFinalized.slot k = some true →
      isSlotJustified s.justifiedSlots s.latestFinalized.slot k = some true := by
    intro k hk
    by_cases hkw : k ≤ s.latestFinalized.slot + s.justifiedSlots.length
    · rw [← hx3 k hkw]; exact hk
    · by_cases hkb : k ≤ b.slot - 1
      · rw [hx4 k (by omega) hkb] at hk; cases hk
      · rw [isSlotJustified_gt (by omega), List.getElem?_eq_none (by omega)] at hk
        cases hk
  have hjust_new : ∀ k, isSlotJustified s.justifiedSlots s.latestFinalized.slot k = some true →
      isSlotJustified js' s.latestFinalized.slot k = some true := by
    intro k hk
    by_cases hkw : k ≤ s.latestFinalized.slot + s.justifiedSlots.length
    · rw [hx3 k hkw]; exact hk
    · rw [isSlotJustified_gt (by omega), List.getElem?_eq_none (by omega)] at hk
      cases hk
  unfold currentProposer at hexp
  split at hexp
  · next hvpos =>
    cases hexp
    rw [hv1] at hvpos hprop
    refine ⟨?_, ?_, by omega, hsl, hhist, by simpa using hpar, hval, hgt, hhd,
      by simpa using hprop, hvpos, by omega⟩
    · exact {
        slotPos := by omega
        hdr := by rw [hhd, hsl]; rfl
        histLen := by rw [hhist, hsl]; simp [h.histLen]; omega
        win := by rw [hfin, hjs, hsl]; exact hx2
        finLeJust := by rw [hfin, hju]; exact h.finLeJust
        justLt := by rw [hju, hsl]; have := h.justLt; omega
        justJ := by rw [hfin, hju, hjs]; exact hjust_new _ h.justJ
        finOn := by rw [hfin]; exact hold _ _ h.finOn
        justOn := by rw [hju]; exact hold _ _ h.justOn
        superJ := by
          rw [hfin, hjs, hval]
          intro k hk hj
          obtain ⟨r, hr1, hr2⟩ := h.superJ k hk (hjust_old k hj)
          exact ⟨r, hold _ _ hr1, hr2⟩
        superJust := by rw [hju, hval]; exact h.superJust
        superFin := by rw [hfin, hval]; exact h.superFin
        flatLen := by rw [hjv, hjr, hval]; exact h.flatLen
        rootsSorted := by rw [hjr]; exact h.rootsSorted
        rootNZ := by rw [hjr]; exact h.rootNZ
        rootOn := by
          rw [hjr, hfin]
          intro r hr
          obtain ⟨k, hk1, hk2⟩ := h.rootOn r hr
          exact ⟨k, hk1, hold _ _ hk2⟩
        votes := by rw [hjr, hval, hjv]; exact h.votes }
    · exact {
        finGe := by rw [hfin]
        justGe := by rw [hju]
        finSame := fun _ => hfin
        justSame := fun _ => hju
        finNZ := Or.inl hfin
        justNZ := Or.inl hju
        keepJ := by rw [hjs, hfin]; exact hjust_new
        finEv := Or.inl hfin }
  · cases hexp

/-- Slot and header processing on a chain state never panics. -/
theorem header_no_panic {H : Hash} {V : Nat → Root → Prop} {s s1 : State} {b : Block}
    (h : SInv V s) (hs1 : processSlots H s b.slot = .ok s1) (line : Nat) :
    processBlockHeader H s1 b ≠ .error (.panicked line) := by
  unfold processSlots at hs1
  split at hs1
  · cases hs1
  next hlt =>
  simp only [Except.ok.injEq] at hs1
  have e1 : s1 = { s with slot := b.slot, latestBlockHeader := s1.latestBlockHeader } := by
    rw [← hs1]; split <;> rfl
  have e2 : s1.latestBlockHeader.slot = s.latestBlockHeader.slot := by
    rw [← hs1]; split <;> rfl
  clear hs1
  unfold processBlockHeader
  simp only
  split
  · simp
  split
  · simp
  split
  · simp
  split
  · simp
  split
  · simp
  rw [e2, h.hdr]
  have hpos := h.slotPos
  have hne0 : ¬ s.slot = 0 := by omega
  simp only [if_neg hne0]
  split
  · simp
  next hlim =>
  have hh1 : s1.historicalBlockHashes = s.historicalBlockHashes := by rw [e1]
  rw [hh1, h.histLen] at hlim
  have hj1 : s1.justifiedSlots = s.justifiedSlots := by rw [e1]
  have hf1 : s1.latestFinalized = s.latestFinalized := by rw [e1]
  have hwin := h.win
  obtain ⟨js', hx1, -⟩ := extendToSlot_spec (js := s.justifiedSlots)
    (f := s.latestFinalized.slot) (k := b.slot - 1) (by omega) (by omega)
  rw [hj1, hf1, hx1]
  simp

end Verif
