import Verif.Lemmas.StfChain
/-!
# What an imported block leaves alone, for arbitrary parent states

Unlike `StfChain`, nothing is assumed about the parent state here.
-/
namespace Verif

/-- Same slot, header, history, validators and configuration; checkpoint slots not lower. -/
structure AttFrame (s s' : State) : Prop where
  slot : s'.slot = s.slot
  hdr : s'.latestBlockHeader = s.latestBlockHeader
  hist : s'.historicalBlockHashes = s.historicalBlockHashes
  vals : s'.validators = s.validators
  time : s'.genesisTime = s.genesisTime
  just : s.latestJustified.slot ≤ s'.latestJustified.slot
  fin : s.latestFinalized.slot ≤ s'.latestFinalized.slot

theorem AttFrame.refl (s : State) : AttFrame s s :=
  ⟨rfl, rfl, rfl, rfl, rfl, Nat.le_refl _, Nat.le_refl _⟩

theorem AttFrame.trans {a b c : State} (h1 : AttFrame a b) (h2 : AttFrame b c) : AttFrame a c :=
  ⟨h2.slot.trans h1.slot, h2.hdr.trans h1.hdr, h2.hist.trans h1.hist, h2.vals.trans h1.vals,
   h2.time.trans h1.time, Nat.le_trans h1.just h2.just, Nat.le_trans h1.fin h2.fin⟩

theorem tryFinalize_frame (s : State) (src tgt : Checkpoint) (t : Tally)
    (rts : Root → Option Nat) : AttFrame s (tryFinalize s src tgt t rts).1 := by
  unfold tryFinalize
  split
  · exact .refl s
  · split
    · exact .refl s
    · exact ⟨rfl, rfl, rfl, rfl, rfl, Nat.le_refl _, by simp only; omega⟩

theorem attStep_frame {n : Nat} {rts : Root → Option Nat} {st st' : State × Tally} {a : AggAtt}
    (h : attStep n rts st a = .ok st') : AttFrame st.1 st'.1 := by
  unfold attStep at h
  split at h
  · cases h
  · cases h; exact .refl _
  · split at h
    · cases h
    · split at h
      · cases h
      · simp only at h
        split at h
        · split at h
          · cases h
          · next js _ =>
            have h := Except.ok.inj h
            rw [← h]
            refine AttFrame.trans ?_ (tryFinalize_frame _ _ _ _ _)
            refine ⟨rfl, rfl, rfl, rfl, rfl, ?_, Nat.le_refl _⟩
            show st.1.latestJustified.slot ≤ (maxBySlot st.1.latestJustified a.data.target).slot
            unfold maxBySlot
            split <;> omega
        · cases h; exact .refl _

theorem attLoop_frame {n : Nat} {rts : Root → Option Nat} (as : List AggAtt)
    {st st' : State × Tally} (h : attLoop n rts as st = .ok st') : AttFrame st.1 st'.1 := by
  induction as generalizing st with
  | nil => simp only [attLoop, Except.ok.injEq] at h; subst h; exact .refl _
  | cons a as ih =>
    simp only [attLoop] at h
    split at h
    · cases h
    · next st1 h1 => exact (attStep_frame h1).trans (ih h)

theorem processAttestations_frame {s s' : State} {as : List AggAtt}
    (h : processAttestations s as = .ok s') : AttFrame s s' := by
  unfold processAttestations at h
  simp only at h
  split at h
  · cases h
  split at h
  · cases h
  split at h
  · cases h
  split at h
  · cases h
  split at h
  · cases h
  · next s1 t1 h1 =>
    have hf := attLoop_frame as h1
    unfold serializeJustifications at h
    simp only at h
    split at h
    · cases h
    split at h
    · cases h
    split at h
    · cases h
    cases h
    exact ⟨hf.slot, hf.hdr, hf.hist, hf.vals, hf.time, hf.just, hf.fin⟩

/-- The parent header with its state root filled in, as `process_slots` leaves it. -/
def filledHeader (H : Hash) (s : State) : Header :=
  if s.latestBlockHeader.stateRoot = 0 then
    { s.latestBlockHeader with stateRoot := H.state s } else s.latestBlockHeader

/-- What importing block `b` on state `s` gives, for any `s`. -/
structure ImportFrame (H : Hash) (s : State) (b : Block) (s' : State) : Prop where
  slotLt : s.slot < b.slot
  slot : s'.slot = b.slot
  hdrLt : s.latestBlockHeader.slot < b.slot
  hdr : s'.latestBlockHeader = b.header H
  parent : b.parentRoot = H.header (filledHeader H s)
  hist : s'.historicalBlockHashes = s.historicalBlockHashes ++
    b.parentRoot :: List.replicate (b.slot - s.latestBlockHeader.slot - 1) 0
  histLen : s'.historicalBlockHashes.length ≤ historicalRootsLimit
  vals : s'.validators = s.validators
  time : s'.genesisTime = s.genesisTime
  just : s.latestJustified.slot ≤ s'.latestJustified.slot
  fin : s.latestFinalized.slot ≤ s'.latestFinalized.slot
  proposer : b.proposerIndex = b.slot % s.validators.length
  hasVals : 0 < s.validators.length
  stateRoot : s'.latestBlockHeader.stateRoot = b.stateRoot
  ownRoot : b.stateRoot = H.state
    { s' with latestBlockHeader := { s'.latestBlockHeader with stateRoot := 0 } }

theorem import_frame {H : Hash} {s s' : State} {b : Block} (h : importState H s b = .ok s') :
    ImportFrame H s b s' := by
  obtain ⟨s1, s2, s3, e1, e2, e3, e4, e5⟩ := importState_ok h
  have hf := processAttestations_frame e3
  unfold processSlots at e1
  split at e1
  · cases e1
  next hlt =>
  have q1 : s1 = { s with slot := b.slot, latestBlockHeader := filledHeader H s } := by
    have e1 := Except.ok.inj e1
    rw [← e1]; unfold filledHeader
    split <;> rfl
  have q2 : (filledHeader H s).slot = s.latestBlockHeader.slot := by
    unfold filledHeader; split <;> rfl
  unfold processBlockHeader at e2
  rw [q1] at e2
  simp only at e2
  split at e2
  · cases e2
  split at e2
  · cases e2
  next hps =>
  split at e2
  · cases e2
  next expected hexp =>
  split at e2
  · cases e2
  next hprop =>
  split at e2
  · cases e2
  next hpar =>
  have hprop : b.proposerIndex = expected := by simpa using hprop
  have hpar : b.parentRoot = H.header (filledHeader H s) := by simpa using hpar
  have hp : b.proposerIndex = b.slot % s.validators.length ∧ 0 < s.validators.length := by
    unfold currentProposer at hexp
    split at hexp
    · next hv => cases hexp; exact ⟨hprop, hv⟩
    · cases hexp
  rw [q2] at e2 hps
  have key : (s2.slot = b.slot ∧ s2.validators = s.validators ∧ s2.genesisTime = s.genesisTime ∧
      s2.historicalBlockHashes = s.historicalBlockHashes ++
        H.header (filledHeader H s) :: List.replicate (b.slot - s.latestBlockHeader.slot - 1) 0 ∧
      s2.latestBlockHeader = { b.header H with stateRoot := 0 } ∧
      s2.latestJustified.slot = s.latestJustified.slot ∧
      s2.latestFinalized.slot = s.latestFinalized.slot) ∧
      s.historicalBlockHashes.length + 1 + (b.slot - s.latestBlockHeader.slot - 1) ≤
      historicalRootsLimit := by
    by_cases hz : s.latestBlockHeader.slot = 0
    · simp only [if_pos hz] at e2
      split at e2
      · cases e2
      next hlim =>
      split at e2
      · cases e2
      have e2 := Except.ok.inj e2
      rw [← e2]
      exact ⟨⟨rfl, rfl, rfl, rfl, rfl, rfl, rfl⟩, Nat.le_of_not_lt hlim⟩
    · simp only [if_neg hz] at e2
      split at e2
      · cases e2
      next hlim =>
      split at e2
      · cases e2
      have e2 := Except.ok.inj e2
      rw [← e2]
      exact ⟨⟨rfl, rfl, rfl, rfl, rfl, rfl, rfl⟩, Nat.le_of_not_lt hlim⟩
  obtain ⟨r1, hlim'⟩ := key
  obtain ⟨r1, r2, r3, r4, r5, r6, r7⟩ := r1
  refine ⟨Nat.lt_of_not_le hlt, ?_, Nat.lt_of_not_le hps, ?_, hpar, ?_, ?_, ?_, ?_, ?_, ?_, hp.1,
    hp.2, ?_, ?_⟩
  · rw [e5]; exact hf.slot.trans r1
  · rw [e5]; simp only; rw [hf.hdr, r5]; rfl
  · rw [e5]; simp only; rw [hf.hist, r4, hpar]
  · rw [e5]; simp only
    rw [hf.hist, r4, List.length_append, List.length_cons, List.length_replicate]
    omega
  · rw [e5]; exact hf.vals.trans r2
  · rw [e5]; exact hf.time.trans r3
  · rw [e5]; have := hf.just; simp only; omega
  · rw [e5]; have := hf.fin; simp only; omega
  · rw [e5]
  · rw [e4]
    congr 1
    rw [e5]
    have hz : s3.latestBlockHeader.stateRoot = 0 := by rw [hf.hdr, r5]
    obtain ⟨_, _, ⟨_, _, _, sr, _⟩, _⟩ := s3
    simp only at hz
    subst hz
    rfl

end Verif
