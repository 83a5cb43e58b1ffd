import Verif.Props.C05_C08_Checkpoints
/-!
# C10: block processing never panics on reachable states
-/
namespace Verif

/-- The errors that may be returned for a block, i.e. everything except a panic and the two
bookkeeping errors that signal a corrupt pre-state. -/
def OrdinaryError (e : StfError) : Prop :=
  (∀ line, e ≠ .panicked line) ∧ e ≠ .justificationVotesLengthMismatch ∧
    e ≠ .zeroHashInJustificationRoots

theorem attStep_error {n : Nat} {rts : Root → Option Nat} {st : State × Tally} {a : AggAtt}
    {e : StfError} (h : attStep n rts st a = .error e) :
    e ≠ .justificationVotesLengthMismatch ∧ e ≠ .zeroHashInJustificationRoots := by
  unfold attStep at h
  split at h
  · next e' he =>
    cases h
    unfold isValidVote at he
    split at he
    · cases he; simp
    · cases he
    · split at he
      · cases he; simp
      · cases he
      · split at he
        · cases he
        · split at he
          · cases he
          · split at he <;> cases he
  · cases h
  · split at h
    · cases h; simp
    split at h
    · cases h; simp
    simp only at h
    split at h
    · split at h
      · cases h; simp
      · cases h
    · cases h

theorem attLoop_error {n : Nat} {rts : Root → Option Nat} {as : List AggAtt}
    {st : State × Tally} {e : StfError} (h : attLoop n rts as st = .error e) :
    e ≠ .justificationVotesLengthMismatch ∧ e ≠ .zeroHashInJustificationRoots := by
  induction as generalizing st with
  | nil => cases h
  | cons a as ih =>
    simp only [attLoop] at h
    split at h
    · next he => cases h; exact attStep_error he
    · exact ih h

theorem processBlockHeader_error {H : Hash} {s : State} {b : Block} {e : StfError}
    (h : processBlockHeader H s b = .error e) :
    e ≠ .justificationVotesLengthMismatch ∧ e ≠ .zeroHashInJustificationRoots := by
  unfold processBlockHeader at h
  simp only at h
  split at h
  · cases h; simp
  split at h
  · cases h; simp
  split at h
  · cases h; simp
  split at h
  · cases h; simp
  split at h
  · cases h; simp
  generalize (if s.latestBlockHeader.slot = 0 then _ else s) = s' at h
  split at h
  · cases h; simp
  split at h
  · cases h; simp
  · cases h

theorem processAttestations_error {V : Nat → Root → Prop} {s : State} {as : List AggAtt}
    {e : StfError} (hinv : SInv V s)
    (ha : ∀ a ∈ as, ∀ i, a.bits[i]? = some true → V i a.data.target.root)
    (hl : s.historicalBlockHashes.length ≤ historicalRootsLimit)
    (hn : s.validators.length ≤ validatorRegistryLimit)
    (h : processAttestations s as = .error e) : OrdinaryError e := by
  refine ⟨fun line he => processAttestations_no_panic hinv ha hl hn line (he ▸ h), ?_⟩
  unfold processAttestations at h
  simp only at h
  split at h
  · cases h; simp
  split at h
  · cases h; simp
  split at h
  · next hx => exact absurd hinv.flatLen hx
  split at h
  · next hx =>
    simp only [List.any_eq_true, decide_eq_true_eq] at hx
    obtain ⟨r, hr, h0⟩ := hx
    exact absurd h0 (hinv.rootNZ r hr)
  split at h
  · next he => cases h; exact attLoop_error he
  · next s1 t1 h1 =>
    have hl' := attLoop_inv (fun k r => rootToSlot_ge) as hinv.loopInv ha h1
    obtain ⟨s', hs'⟩ := serialize_no_panic hl' hl hn
    simp only at hs'
    rw [hs'] at h; cases h

/-- From any chain state, processing any block whatsoever succeeds or returns an ordinary error:
no panic, and no bookkeeping error (at most `VALIDATOR_REGISTRY_LIMIT` validators, which the SSZ
type enforces). -/
theorem C10_no_panic {H : Hash} {t : Nat} {vals : List Validator}
    (hn : vals.length ≤ validatorRegistryLimit) {bs : List Block} {s : State}
    (hc : Chain H (State.fromGenesis H t vals) bs s) (b : Block) (e : StfError)
    (h : stateTransition H s b = .error e) : OrdinaryError e := by
  unfold stateTransition at h
  split at h
  · next e' he =>
    cases h
    unfold processSlots at he
    split at he
    · cases he; simp [OrdinaryError]
    · cases he
  · next s1 h1 =>
    have key : ∀ e', processBlock H s1 b = .error e' → OrdinaryError e' := by
      intro e' he'
      unfold processBlock at he'
      cases bs with
      | nil =>
        cases hc
        split at he'
        · next e2 h2 =>
          cases he'
          exact ⟨fun line hh => genesis_header_no_panic h1 line (hh ▸ h2),
            processBlockHeader_error h2⟩
        · next s2 h2 =>
          obtain ⟨i1, -, i3, -, -, -, i7, -, i9, -, -, -, -, i14⟩ :=
            genesis_header_inv (V := fun _ _ => True) h1 h2
          exact processAttestations_error i1 (fun _ _ _ _ => trivial)
            (by rw [i1.histLen, i3]; exact i14) (by rw [i9]; exact hn) he'
      | cons b0 bs0 =>
        have hinv := (chain_inv hc (by simp)).weaken (W := fun _ _ => True)
          (fun _ _ _ => trivial)
        split at he'
        · next e2 h2 =>
          cases he'
          exact ⟨fun line hh => header_no_panic hinv h1 line (hh ▸ h2),
            processBlockHeader_error h2⟩
        · next s2 h2 =>
          obtain ⟨i1, -, -, i4, -, -, i7, -, -, -, -, i12⟩ := header_inv hinv h1 h2
          exact processAttestations_error i1 (fun _ _ _ _ => trivial)
            (by rw [i1.histLen, i4]; exact i12)
            (by rw [i7, chain_validators hc]; exact hn) he'
    split at h
    · next e' he' => cases h; exact key _ he'
    · split at h
      · cases h; simp [OrdinaryError]
      · cases h

/-- Non-vacuity: on the witness chain a block with an out-of-range bit is rejected with an
ordinary error. -/
example : Witness.wVals.length ≤ validatorRegistryLimit ∧
    Chain Witness.wH Witness.wG (Witness.wBlocks.take 2).reverse Witness.wState2 ∧
    stateTransition Witness.wH Witness.wState2
      (Witness.mkBlock 3 2 [Witness.vote [true, false, true, true] 1 2])
      = .error .aggregationBitsOutOfBounds :=
  ⟨by decide, Witness.wChain2, by decide +kernel⟩

end Verif
