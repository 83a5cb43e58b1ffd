import Verif.Lemmas.Projection
import Verif.Props.C64_Counted
/-!
# How far up the attestations of a block can justify
-/
namespace Verif.Build
open Verif JustifiedSlots

/-- No slot after `B` is justified, nor any after the justified checkpoint. -/
structure Cap (B : Nat) (s : State) : Prop where
  bound : ∀ k, jst s.justifiedSlots s.latestFinalized.slot k = true → k ≤ B
  max : ∀ k, jst s.justifiedSlots s.latestFinalized.slot k = true → k ≤ s.latestJustified.slot

theorem Cap.mono {B B' : Nat} {s : State} (h : Cap B s) (hb : B ≤ B') : Cap B' s :=
  ⟨fun k hk => Nat.le_trans (h.bound k hk) hb, h.max⟩

theorem attStep_cap {B n : Nat} {rts : Root → Option Nat} {st st' : State × Tally} {a : AggAtt}
    (h : Cap B st.1) (hB : a.data.target.slot ≤ B) (hs : attStep n rts st a = .ok st') :
    Cap B st'.1 := by
  unfold attStep at hs
  split at hs
  · cases hs
  · cases hs; exact h
  next hvalid =>
  have F := (isValidVote_true_iff _ _).1 hvalid
  split at hs
  · cases hs
  split at hs
  · cases hs
  simp only at hs
  split at hs
  swap
  · cases hs; exact h
  split at hs
  · cases hs
  next js hset =>
  have htf : st.1.latestFinalized.slot < a.data.target.slot := by
    by_contra hc
    have := F.tgtNot
    rw [isSlotJustified_le (by omega)] at this
    cases this
  have hj := jst_set htf hset
  have h1 : Cap B { st.1 with
      latestJustified := maxBySlot st.1.latestJustified a.data.target
      justifiedSlots := js } := by
    refine ⟨fun k hk => ?_, fun k hk => ?_⟩
    · simp only [hj] at hk
      split at hk
      next he => rw [he]; exact hB
      · exact h.bound k hk
    · have := maxBySlot_cases st.1.latestJustified a.data.target
      simp only [hj] at hk ⊢
      split at hk
      next he =>
        rcases this with ⟨e, e'⟩ | ⟨e, e'⟩ <;> rw [e] <;> omega
      · have := h.max k hk
        rename_i hh _
        rcases hh with ⟨e, e'⟩ | ⟨e, e'⟩ <;> rw [e] <;> omega
  have hs := (Except.ok.inj hs).symm
  subst hs
  unfold tryFinalize
  split
  · exact h1
  next hsf =>
  split
  · exact h1
  simp only at hsf
  have hsrc : jst js st.1.latestFinalized.slot a.data.source.slot = true := by
    rw [hj]
    split
    · rfl
    · unfold jst; rw [F.srcJust]; rfl
  have hsh := jst_shift (js := js) (f := st.1.latestFinalized.slot) (g := a.data.source.slot)
    (by omega)
  refine ⟨fun k hk => ?_, fun k hk => ?_⟩
  · simp only [hsh] at hk
    split at hk
    · have := h1.bound _ hsrc
      omega
    · exact h1.bound k hk
  · simp only [hsh] at hk
    split at hk
    · have := h1.max _ hsrc
      simp only at this ⊢
      omega
    · exact h1.max k hk

theorem attLoop_cap {B n : Nat} {rts : Root → Option Nat} (as : List AggAtt)
    {st st' : State × Tally} (h : Cap B st.1) (hB : ∀ a ∈ as, a.data.target.slot ≤ B)
    (hs : attLoop n rts as st = .ok st') : Cap B st'.1 := by
  induction as generalizing st with
  | nil => cases hs; exact h
  | cons a as ih =>
    unfold attLoop at hs
    split at hs
    · cases hs
    next st1 h1 =>
    exact ih (attStep_cap h (hB a List.mem_cons_self) h1)
      (fun x hx => hB x (List.mem_cons_of_mem _ hx)) hs

/-- A block justifies no slot after the highest target of its attestations, and the justified
checkpoint of the post-state is at the highest justified slot. -/
theorem transition_cap {H : Hash} {B : Nat} {s s' : State} {b : Block} (h : Cap B s)
    (hB : ∀ a ∈ b.body, a.data.target.slot ≤ B) (hs : importState H s b = .ok s') : Cap B s' := by
  obtain ⟨s1, s2, s3, h1, h2, h3, -, rfl⟩ := importState_ok hs
  obtain ⟨f1, f2, -⟩ := header_frame h1 h2
  have f6 : s2.latestJustified.slot = s.latestJustified.slot := by
    unfold processSlots at h1
    split at h1
    · cases h1
    simp only [Except.ok.injEq] at h1
    have e1 : s1.latestJustified = s.latestJustified := by
      rw [← h1]; split <;> rfl
    rw [← e1]
    unfold processBlockHeader at h2
    simp only at h2
    split at h2
    · cases h2
    split at h2
    · cases h2
    split at h2
    · cases h2
    split at h2
    · cases h2
    split at h2
    · cases h2
    by_cases h0 : s1.latestBlockHeader.slot = 0
    · simp only [if_pos h0] at h2
      split at h2
      · cases h2
      split at h2
      · cases h2
      cases h2
      rfl
    · simp only [if_neg h0] at h2
      split at h2
      · cases h2
      split at h2
      · cases h2
      cases h2
      rfl
  have hc2 : Cap B s2 := by
    have he := jst_extend f2
    refine ⟨fun k hk => ?_, fun k hk => ?_⟩
    · rw [f1, he] at hk
      exact h.bound k hk
    · rw [f1, he] at hk
      rw [f6]
      exact h.max k hk
  unfold processAttestations at h3
  split at h3
  · cases h3
  simp only at h3
  split at h3
  · cases h3
  split at h3
  · cases h3
  split at h3
  · cases h3
  split at h3
  · cases h3
  next s4 t4 h4 =>
  have := attLoop_cap b.body hc2 hB h4
  unfold serializeJustifications at h3
  simp only at h3
  split at h3
  · cases h3
  split at h3
  · cases h3
  split at h3
  · cases h3
  cases h3
  exact ⟨this.bound, this.max⟩

end Verif.Build
