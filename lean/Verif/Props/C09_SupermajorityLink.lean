import Verif.Props.C05_C08_Checkpoints
/-!
# C09: a finalized checkpoint has a two-thirds supermajority link -- refuted

The tally is keyed by the target root only (`state_transition/src/lib.rs` 366-368), so votes with
different sources for the same target are added up, and `try_finalize` (480-534) uses the source
of whichever attestation happens to cross the threshold.
-/
namespace Verif

/-- Validator `v` voted, in one of the blocks, for a link from checkpoint `c`. -/
def VotedFrom (bs : List Block) (c : Checkpoint) (v : Nat) : Prop :=
  ∃ b ∈ bs, ∃ a ∈ b.body, a.data.source = c ∧ a.bits[v]? = some true

/-- The claim as a user would expect it. -/
def SupermajorityLink (H : Hash) : Prop :=
  ∀ (t : Nat) (vals : List Validator) (bs : List Block) (s s' : State) (b : Block),
    Chain H (State.fromGenesis H t vals) bs s → importState H s b = .ok s' →
    s'.latestFinalized.slot ≠ s.latestFinalized.slot →
    SuperMaj (VotedFrom (b :: bs) s'.latestFinalized) vals.length

namespace C09Witness
open Witness

/-- Block 2 justifies slot 1. Block 3 carries one vote 0 → 2 and one vote 1 → 2. -/
def blocks : List Block :=
  [ mkBlock 1 0 [], mkBlock 2 1 [vote [true, true, true] 0 1] ]

def last : Block := mkBlock 3 2 [vote [true, false, false] 0 2, vote [false, true, false] 1 2]

def s2 : State := match importAll wH wG blocks with
  | .ok s => s
  | .error _ => wG

def s3 : State := match importState wH s2 last with
  | .ok s => s
  | .error _ => wG

theorem chain2 : Chain wH wG blocks.reverse s2 := chain_of_importAll (by decide +kernel)
theorem step3 : importState wH s2 last = .ok s3 := by decide +kernel
theorem fin2 : s2.latestFinalized = cp 0 := by decide +kernel
theorem fin3 : s3.latestFinalized = cp 1 := by decide +kernel

end C09Witness

/-- The code finalizes slot 1 although only one of three validators voted for a link from it:
the claim is false. -/
theorem C09_supermajority_link_refuted : ¬ SupermajorityLink Witness.wH := by
  intro h
  obtain ⟨vs, h1, h2, h3⟩ := h 0 Witness.wVals _ _ _ _ C09Witness.chain2 C09Witness.step3
    (by rw [C09Witness.fin2, C09Witness.fin3]; decide)
  have hv : ∀ v ∈ vs, v = 1 := by
    intro v hv
    obtain ⟨-, b, hb, a, ha, hsrc, hbit⟩ := h2 v hv
    rw [C09Witness.fin3] at hsrc
    simp only [C09Witness.last, C09Witness.blocks, List.reverse_cons, List.reverse_nil,
      List.nil_append, List.cons_append, List.mem_cons, List.not_mem_nil, or_false] at hb
    rcases hb with rfl | rfl | rfl
    · simp only [Witness.mkBlock, List.mem_cons, List.not_mem_nil, or_false] at ha
      rcases ha with rfl | rfl
      · exact absurd hsrc (by decide)
      · match v, hbit with
        | 1, _ => rfl
        | 0, hbit => simp [Witness.vote] at hbit
        | 2, hbit => simp [Witness.vote] at hbit
        | v + 3, hbit => simp [Witness.vote] at hbit
    · simp only [Witness.mkBlock, List.mem_cons, List.not_mem_nil, or_false] at ha
      subst ha
      exact absurd hsrc (by decide)
    · simp [Witness.mkBlock] at ha
  have hlen : vs.length ≤ 1 := by
    match vs, h1, hv with
    | [], _, _ => simp
    | [_], _, _ => simp
    | a :: b :: l, h1, hv =>
      have ha := hv a (by simp)
      have hb := hv b (by simp)
      rw [ha, hb] at h1
      simp at h1
  simp [Witness.wVals] at h3
  omega

/-- What does hold: when finalization moves, the new finalized checkpoint is itself backed by a
two-thirds vote *as a target*, and the block contains at least one attestation whose source is
exactly the finalized checkpoint (the one crossing the threshold). Missing for the full claim:
two thirds of validators using it as *source*. -/
theorem C09_supermajority_target_partial {H : Hash} {t : Nat} {vals : List Validator}
    {bs : List Block} {s s' : State} {b : Block}
    (hc : Chain H (State.fromGenesis H t vals) bs s) (hi : importState H s b = .ok s')
    (hmove : s'.latestFinalized.slot ≠ s.latestFinalized.slot) :
    SuperMaj (fun v => VotedIn (b :: bs) v s'.latestFinalized.root) vals.length ∧
    ∃ a ∈ b.body, a.data.source = s'.latestFinalized := by
  refine ⟨(C08_finalization_consecutive hc hi hmove).2.1, ?_⟩
  obtain ⟨s1, s2, s3, e1, e2, e3, e4, e5⟩ := importState_ok hi
  have step : ∀ (n : Nat) (rts : Root → Option Nat) (st st' : State × Tally) (a : AggAtt),
      attStep n rts st a = .ok st' →
      st'.1.latestFinalized = st.1.latestFinalized ∨ st'.1.latestFinalized = a.data.source := by
    intro n rts st st' a h
    unfold attStep at h
    split at h
    · cases h
    · cases h; exact Or.inl rfl
    · split at h
      · cases h
      split at h
      · cases h
      simp only at h
      split at h
      · split at h
        · cases h
        · simp only [Except.ok.injEq] at h
          unfold tryFinalize at h
          split at h
          · subst h; exact Or.inl rfl
          · split at h
            · subst h; exact Or.inl rfl
            · subst h; exact Or.inr rfl
      · cases h; exact Or.inl rfl
  have loop : ∀ (n : Nat) (rts : Root → Option Nat) (as : List AggAtt) (st st' : State × Tally),
      attLoop n rts as st = .ok st' →
      st'.1.latestFinalized = st.1.latestFinalized ∨
        ∃ a ∈ as, a.data.source = st'.1.latestFinalized := by
    intro n rts as
    induction as with
    | nil => intro st st' h; simp only [attLoop, Except.ok.injEq] at h; subst h; exact Or.inl rfl
    | cons a as ih =>
      intro st st' h
      simp only [attLoop] at h
      split at h
      · cases h
      · next st1 h1 =>
        rcases ih _ _ h with h2 | ⟨a', ha', h2⟩
        · rcases step _ _ _ _ _ h1 with h3 | h3
          · left; rw [h2, h3]
          · right; exact ⟨a, by simp, by rw [h2, h3]⟩
        · right; exact ⟨a', List.mem_cons_of_mem _ ha', h2⟩
  have hfin2 : s2.latestFinalized.slot = s.latestFinalized.slot := by
    unfold processSlots at e1
    split at e1
    · cases e1
    simp only [Except.ok.injEq] at e1
    have ef : s1.latestFinalized = s.latestFinalized := by rw [← e1]; split <;> rfl
    unfold processBlockHeader at e2
    simp only at e2
    split at e2
    · cases e2
    split at e2
    · cases e2
    split at e2
    · cases e2
    split at e2
    · cases e2
    split at e2
    · cases e2
    have hr : (if s1.latestBlockHeader.slot = 0 then
        { s1 with
          latestJustified := ⟨H.header s1.latestBlockHeader, s1.latestJustified.slot⟩
          latestFinalized := ⟨H.header s1.latestBlockHeader, s1.latestFinalized.slot⟩ }
        else s1).latestFinalized.slot = s1.latestFinalized.slot := by split <;> rfl
    generalize (if s1.latestBlockHeader.slot = 0 then _ else s1) = s1' at e2 hr
    split at e2
    · cases e2
    split at e2
    · cases e2
    cases e2
    simp only
    rw [← ef, hr]
  unfold processAttestations at e3
  simp only at e3
  split at e3
  · cases e3
  split at e3
  · cases e3
  split at e3
  · cases e3
  split at e3
  · cases e3
  split at e3
  · cases e3
  · next s4 t4 h4 =>
    have hs3 : s3.latestFinalized = s4.latestFinalized := by
      unfold serializeJustifications at e3
      simp only at e3
      split at e3
      · cases e3
      split at e3
      · cases e3
      split at e3
      · cases e3
      cases e3; rfl
    have hs' : s'.latestFinalized = s4.latestFinalized := by rw [e5]; exact hs3
    rcases loop _ _ _ _ _ h4 with h | h
    · exfalso
      simp only at h
      rw [hs', h] at hmove
      exact hmove hfin2
    · rw [hs']; exact h

/-- Non-vacuity of the partial theorem: the refuting chain itself. -/
example : Chain Witness.wH Witness.wG C09Witness.blocks.reverse C09Witness.s2 ∧
    importState Witness.wH C09Witness.s2 C09Witness.last = .ok C09Witness.s3 ∧
    C09Witness.s3.latestFinalized.slot ≠ C09Witness.s2.latestFinalized.slot :=
  ⟨C09Witness.chain2, C09Witness.step3, by decide +kernel⟩

end Verif
