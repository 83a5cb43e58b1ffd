import Verif.Lemmas.StfState
/-!
# Chains of imported blocks
-/
namespace Verif
open JustifiedSlots

theorem importState_ok {H : Hash} {s s' : State} {b : Block} (h : importState H s b = .ok s') :
    ∃ s1 s2 s3, processSlots H s b.slot = .ok s1 ∧ processBlockHeader H s1 b = .ok s2 ∧
      processAttestations s2 b.body = .ok s3 ∧ b.stateRoot = H.state s3 ∧
      s' = { s3 with latestBlockHeader := { s3.latestBlockHeader with stateRoot := b.stateRoot } }
      := by
  unfold importState at h
  split at h
  · cases h
  · next s3 h3 =>
    unfold stateTransition at h3
    split at h3
    · cases h3
    · next s1 h1 =>
      split at h3
      · cases h3
      · next s4 h4 =>
        unfold processBlock at h4
        split at h4
        · cases h4
        · next s2 h2 =>
          split at h3
          · cases h3
          · next hr =>
            cases h3
            cases h
            exact ⟨s1, s2, _, h1, h2, h4, by simpa using hr, rfl⟩

/-- Header processing of the first block after genesis. -/
theorem genesis_header_inv {H : Hash} {V : Nat → Root → Prop} {t : Nat} {vals : List Validator}
    {s1 s2 : State} {b : Block}
    (hs1 : processSlots H (State.fromGenesis H t vals) b.slot = .ok s1)
    (hs2 : processBlockHeader H s1 b = .ok s2) :
    SInv V s2 ∧ 0 < b.slot ∧ s2.slot = b.slot ∧
    s2.latestFinalized = ⟨H.header (genesisHeader H (State.fromGenesis H t vals)), 0⟩ ∧
    s2.latestJustified = ⟨H.header (genesisHeader H (State.fromGenesis H t vals)), 0⟩ ∧
    s2.justifiedSlots = List.replicate (b.slot - 1) false ∧
    s2.historicalBlockHashes = H.header (genesisHeader H (State.fromGenesis H t vals)) ::
      List.replicate (b.slot - 1) 0 ∧
    b.parentRoot = H.header (genesisHeader H (State.fromGenesis H t vals)) ∧
    s2.validators = vals ∧ s2.genesisTime = t ∧
    s2.latestBlockHeader = { b.header H with stateRoot := 0 } ∧
    b.proposerIndex = b.slot % vals.length ∧ 0 < vals.length ∧
    b.slot ≤ historicalRootsLimit := by
  unfold processSlots at hs1
  split at hs1
  · cases hs1
  next hlt =>
  simp only [State.fromGenesis, ge_iff_le, Nat.le_zero, if_true, Except.ok.injEq] at hs1 hlt
  have hg : s1.latestBlockHeader = genesisHeader H (State.fromGenesis H t vals) := by
    rw [← hs1]; rfl
  unfold processBlockHeader at hs2
  simp only at hs2
  split at hs2
  · cases hs2
  split at hs2
  · cases hs2
  split at hs2
  · cases hs2
  next expected hexp =>
  split at hs2
  · cases hs2
  next hprop =>
  split at hs2
  · cases hs2
  next hpar =>
  rw [hg] at hs2 hpar
  generalize hG : H.header (genesisHeader H (State.fromGenesis H t vals)) = G at hs2 hpar ⊢
  subst hs1
  simp only [genesisHeader, State.fromGenesis, if_true, List.length_nil, Nat.sub_zero,
    List.nil_append] at hs2 hexp
  split at hs2
  · cases hs2
  next hlim =>
  obtain ⟨js', hx1, hx2, hx3, hx4⟩ := extendToSlot_spec (js := [])
    (f := 0) (k := b.slot - 1) (by simp) (by omega)
  have hjs : js' = List.replicate (b.slot - 1) false := by
    unfold extendToSlot at hx1
    by_cases hb : b.slot - 1 = 0
    · rw [hb] at hx1
      have : relativeIndex 0 0 = none := relativeIndex_none (Nat.le_refl _)
      rw [this] at hx1
      cases hx1
      simp [hb]
    · rw [relativeIndex_some (by omega)] at hx1
      simp only [List.length_nil, ge_iff_le, Nat.le_zero, Nat.succ_ne_zero,
        if_false] at hx1
      split at hx1
      · cases hx1
        simp; omega
      · cases hx1
  rw [hx1] at hs2
  simp only [Except.ok.injEq] at hs2
  unfold currentProposer at hexp
  split at hexp
  · next hvpos =>
    cases hexp
    subst hs2
    refine ⟨?_, by omega, rfl, rfl, rfl, hjs, rfl, by simpa using hpar, rfl, rfl, rfl,
      by simpa using hprop, hvpos, by omega⟩
    exact {
      slotPos := by simp only; omega
      hdr := rfl
      histLen := by simp; omega
      win := by simp only; omega
      finLeJust := Nat.le_refl _
      justLt := by simp only; omega
      justJ := isSlotJustified_le (Nat.le_refl _)
      finOn := by simp
      justOn := by simp
      superJ := by
        intro k hk hj
        simp only at hk hj
        by_cases hkb : k ≤ b.slot - 1
        · rw [hx4 k (by simp; omega) hkb] at hj; cases hj
        · rw [isSlotJustified_gt (by omega), List.getElem?_eq_none (by omega)] at hj
          cases hj
      superJust := Or.inl rfl
      superFin := Or.inl rfl
      flatLen := by simp
      rootsSorted := by simp
      rootNZ := by simp
      rootOn := by simp
      votes := by simp }
  · cases hexp

theorem genesis_header_no_panic {H : Hash} {t : Nat} {vals : List Validator}
    {s1 : State} {b : Block}
    (hs1 : processSlots H (State.fromGenesis H t vals) b.slot = .ok s1) (line : Nat) :
    processBlockHeader H s1 b ≠ .error (.panicked line) := by
  unfold processSlots at hs1
  split at hs1
  · cases hs1
  next hlt =>
  simp only [State.fromGenesis, ge_iff_le, Nat.le_zero, if_true, Except.ok.injEq] at hs1 hlt
  unfold processBlockHeader
  simp only
  split
  · simp
  split
  · simp
  split
  · simp
  split
  · simp
  split
  · simp
  subst hs1
  simp only [if_true, List.length_nil, Nat.sub_zero]
  split
  · simp
  next hlim =>
  obtain ⟨js', hx1, -⟩ := extendToSlot_spec (js := [])
    (f := 0) (k := b.slot - 1) (by simp) (by omega)
  rw [hx1]; simp

theorem SInv.setStateRoot {V : Nat → Root → Prop} {s : State} (h : SInv V s) (r : Root) :
    SInv V { s with latestBlockHeader := { s.latestBlockHeader with stateRoot := r } } :=
  { h with }

theorem StepRel.trans {V : Nat → Root → Prop} {s s1 s2 : State} (h1 : StepRel V s s1)
    (h2 : StepRel V s1 s2) (heq : s1.latestFinalized = s.latestFinalized) : StepRel V s s2 where
  finGe := Nat.le_trans h1.finGe h2.finGe
  justGe := Nat.le_trans h1.justGe h2.justGe
  finSame := fun h => by
    rw [← heq] at h; rw [h2.finSame h, heq]
  justSame := fun h => by
    have a := h1.justGe
    have b := h2.justGe
    rw [h2.justSame (by omega), h1.justSame (by omega)]
  finNZ := by
    rcases h2.finNZ with h | h
    · exact Or.inl (h.trans heq)
    · exact Or.inr h
  justNZ := by
    rcases h2.justNZ with h | h
    · rw [h]; exact h1.justNZ
    · exact Or.inr h
  keepJ := fun k hk => h2.keepJ k (h1.keepJ k hk)
  finEv := by
    have := h2.finEv
    rwa [heq] at this

/-- Attestation processing touches only the justification fields. -/
theorem attestations_shape {V : Nat → Root → Prop} {s s' : State} {as : List AggAtt}
    (h : SInv V s) (hs : processAttestations s as = .ok s') :
    s' = { s with latestJustified := s'.latestJustified
                  latestFinalized := s'.latestFinalized
                  justifiedSlots := s'.justifiedSlots
                  justificationsRoots := s'.justificationsRoots
                  justificationsValidators := s'.justificationsValidators } :=
  (processAttestations_inv (h.weaken (W := fun _ _ => True) (fun _ _ _ => trivial))
    (fun _ _ _ _ => trivial) hs).2.2

/-- Everything known about importing a block on top of a chain state. -/
theorem import_inv' {H : Hash} {V : Nat → Root → Prop} {s s' : State} {b : Block}
    (h : SInv V s) (hb : ∀ a ∈ b.body, ∀ s0 rts st, s0.historicalBlockHashes = s'.historicalBlockHashes →
      s0.validators = s'.validators → LoopInv s0 rts V st → ValidVoteFacts st.1 a.data →
      ∀ i, a.bits[i]? = some true → V i a.data.target.root)
    (hs : importState H s b = .ok s') :
    ∃ s1, processSlots H s b.slot = .ok s1 ∧
    SInv V s' ∧ StepRel V s s' ∧ s.slot < b.slot ∧ s'.slot = b.slot ∧
    s'.historicalBlockHashes = s.historicalBlockHashes ++
      H.header s1.latestBlockHeader :: List.replicate (b.slot - s.slot - 1) 0 ∧
    b.parentRoot = H.header s1.latestBlockHeader ∧
    s'.validators = s.validators ∧ s'.genesisTime = s.genesisTime ∧
    s'.latestBlockHeader = b.header H ∧
    b.proposerIndex = b.slot % s.validators.length ∧ 0 < s.validators.length ∧
    b.slot ≤ historicalRootsLimit := by
  obtain ⟨s1, s2, s3, e1, e2, e3, e4, e5⟩ := importState_ok hs
  obtain ⟨i1, i2, i3, i4, i5, i6, i7, i8, i9, i10, i11, i12⟩ := header_inv h e1 e2
  obtain ⟨j1, j2, j3⟩ := processAttestations_inv' i1 (fun a hm rts st hl hf =>
    hb a hm s2 rts st
      (by rw [e5, (attestations_shape i1 e3)]) (by rw [e5, (attestations_shape i1 e3)]) hl hf) e3
  have hfin : s2.latestFinalized = s.latestFinalized := by
    apply i2.finSame
    rcases i2.finEv with hh | ⟨f, T, h1, h2, h3, h4, h5, -⟩
    · rw [hh]
    · exfalso
      unfold processSlots at e1
      split at e1
      · cases e1
      simp only [Except.ok.injEq] at e1
      have ef : s1.latestFinalized = s.latestFinalized := by rw [← e1]; split <;> rfl
      have ep : s1.latestBlockHeader.slot = s.latestBlockHeader.slot := by
        rw [← e1]; split <;> rfl
      unfold processBlockHeader at e2
      have hpos := h.slotPos
      have hh := h.hdr
      have hne0 : ¬ s1.latestBlockHeader.slot = 0 := by omega
      simp only [if_neg hne0] at e2
      split at e2
      · cases e2
      split at e2
      · cases e2
      split at e2
      · cases e2
      split at e2
      · cases e2
      split at e2
      · cases e2
      split at e2
      · cases e2
      split at e2
      · cases e2
      cases e2
      simp only at h2 h3
      rw [ef] at h2
      omega
  refine ⟨s1, e1, ?_, ?_, i3, ?_, ?_, i6, ?_, ?_, ?_, i10, i11, i12⟩
  · rw [e5]; exact j1.setStateRoot _
  · have := i2.trans j2 hfin
    rw [e5]
    exact { this with }
  · rw [e5, j3]; exact i4
  · rw [e5, j3]; exact i5
  · rw [e5, j3]; exact i7
  · rw [e5, j3]; exact i8
  · rw [e5]; simp only; rw [j3]; simp only; rw [i9]; rfl

theorem import_inv {H : Hash} {V : Nat → Root → Prop} {s s' : State} {b : Block}
    (h : SInv V s) (hb : ∀ a ∈ b.body, ∀ i, a.bits[i]? = some true → V i a.data.target.root)
    (hs : importState H s b = .ok s') :
    ∃ s1, processSlots H s b.slot = .ok s1 ∧
    SInv V s' ∧ StepRel V s s' ∧ s.slot < b.slot ∧ s'.slot = b.slot ∧
    s'.historicalBlockHashes = s.historicalBlockHashes ++
      H.header s1.latestBlockHeader :: List.replicate (b.slot - s.slot - 1) 0 ∧
    b.parentRoot = H.header s1.latestBlockHeader ∧
    s'.validators = s.validators ∧ s'.genesisTime = s.genesisTime ∧
    s'.latestBlockHeader = b.header H ∧
    b.proposerIndex = b.slot % s.validators.length ∧ 0 < s.validators.length ∧
    b.slot ≤ historicalRootsLimit :=
  import_inv' h (fun a hm _ _ _ _ _ _ _ => hb a hm) hs

/-- Everything known about importing the first block on top of genesis. -/
theorem import_genesis' {H : Hash} {V : Nat → Root → Prop} {t : Nat} {vals : List Validator}
    {s' : State} {b : Block}
    (hb : ∀ a ∈ b.body, ∀ s0 rts st, s0.historicalBlockHashes = s'.historicalBlockHashes →
      s0.validators = s'.validators → LoopInv s0 rts V st → ValidVoteFacts st.1 a.data →
      ∀ i, a.bits[i]? = some true → V i a.data.target.root)
    (hs : importState H (State.fromGenesis H t vals) b = .ok s') :
    SInv V s' ∧ 0 < b.slot ∧ s'.slot = b.slot ∧
    s'.historicalBlockHashes = H.header (genesisHeader H (State.fromGenesis H t vals)) ::
      List.replicate (b.slot - 1) 0 ∧
    b.parentRoot = H.header (genesisHeader H (State.fromGenesis H t vals)) ∧
    s'.validators = vals ∧ s'.genesisTime = t ∧
    s'.latestBlockHeader = b.header H ∧
    b.proposerIndex = b.slot % vals.length ∧ 0 < vals.length ∧
    b.slot ≤ historicalRootsLimit ∧
    ∃ s2, StepRel V s2 s' ∧ SInv V s2 ∧
      s2.latestFinalized = ⟨H.header (genesisHeader H (State.fromGenesis H t vals)), 0⟩ ∧
      s2.latestJustified = ⟨H.header (genesisHeader H (State.fromGenesis H t vals)), 0⟩ ∧
      s2.justifiedSlots = List.replicate (b.slot - 1) false := by
  obtain ⟨s1, s2, s3, e1, e2, e3, e4, e5⟩ := importState_ok hs
  obtain ⟨i1, i2, i3, i4, i5, i6, i7, i8, i9, i10, i11, i12, i13, i14⟩ :=
    genesis_header_inv (V := V) e1 e2
  obtain ⟨j1, j2, j3⟩ := processAttestations_inv' i1 (fun a hm rts st hl hf =>
    hb a hm s2 rts st
      (by rw [e5, (attestations_shape i1 e3)]) (by rw [e5, (attestations_shape i1 e3)]) hl hf) e3
  refine ⟨?_, i2, ?_, ?_, i8, ?_, ?_, ?_, i12, i13, i14, s2, ?_, i1, i4, i5, i6⟩
  · rw [e5]; exact j1.setStateRoot _
  · rw [e5, j3]; exact i3
  · rw [e5, j3]; exact i7
  · rw [e5, j3]; exact i9
  · rw [e5, j3]; exact i10
  · rw [e5]; simp only; rw [j3]; simp only; rw [i11]; rfl
  · rw [e5]; exact { j2 with }

theorem import_genesis {H : Hash} {V : Nat → Root → Prop} {t : Nat} {vals : List Validator}
    {s' : State} {b : Block}
    (hb : ∀ a ∈ b.body, ∀ i, a.bits[i]? = some true → V i a.data.target.root)
    (hs : importState H (State.fromGenesis H t vals) b = .ok s') :
    SInv V s' ∧ 0 < b.slot ∧ s'.slot = b.slot ∧
    s'.historicalBlockHashes = H.header (genesisHeader H (State.fromGenesis H t vals)) ::
      List.replicate (b.slot - 1) 0 ∧
    b.parentRoot = H.header (genesisHeader H (State.fromGenesis H t vals)) ∧
    s'.validators = vals ∧ s'.genesisTime = t ∧
    s'.latestBlockHeader = b.header H ∧
    b.proposerIndex = b.slot % vals.length ∧ 0 < vals.length ∧
    b.slot ≤ historicalRootsLimit ∧
    ∃ s2, StepRel V s2 s' ∧ SInv V s2 ∧
      s2.latestFinalized = ⟨H.header (genesisHeader H (State.fromGenesis H t vals)), 0⟩ ∧
      s2.latestJustified = ⟨H.header (genesisHeader H (State.fromGenesis H t vals)), 0⟩ ∧
      s2.justifiedSlots = List.replicate (b.slot - 1) false :=
  import_genesis' (fun a hm _ _ _ _ _ _ _ => hb a hm) hs

theorem VotedIn.cons {bs : List Block} {b : Block} {v : Nat} {r : Root} (h : VotedIn bs v r) :
    VotedIn (b :: bs) v r := by
  obtain ⟨b', hb', h⟩ := h
  exact ⟨b', List.mem_cons_of_mem _ hb', h⟩

theorem votedIn_head {bs : List Block} {b : Block} :
    ∀ a ∈ b.body, ∀ i, a.bits[i]? = some true → VotedIn (b :: bs) i a.data.target.root :=
  fun a ha i hi => ⟨b, by simp, a, ha, rfl, hi⟩

/-- Every nonempty chain from genesis satisfies the state invariant, with votes witnessed by
the chain's blocks. -/
theorem chain_inv {H : Hash} {t : Nat} {vals : List Validator} {bs : List Block} {s : State}
    (h : Chain H (State.fromGenesis H t vals) bs s) (hne : bs ≠ []) : SInv (VotedIn bs) s := by
  induction h with
  | nil => exact absurd rfl hne
  | @cons bs s s' b hc hi ih =>
    cases bs with
    | nil => cases hc; exact (import_genesis votedIn_head hi).1
    | cons b0 bs0 =>
      have h0 := (ih (by simp)).weaken (W := VotedIn (b :: b0 :: bs0)) (fun v r => VotedIn.cons)
      obtain ⟨s1, -, h1, -⟩ := import_inv h0 votedIn_head hi
      exact h1

end Verif
