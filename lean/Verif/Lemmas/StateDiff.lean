import Verif.Spec.Db
import Verif.Lemmas.AMap
import Verif.Lemmas.StfFrame
/-!
# Lemmas about state diffs
-/
namespace Verif.Db
open Verif

theorem validate_ok {base : List Root} {r : Root} {n : Nat} :
    validateHistoryAppend (base ++ r :: List.replicate n 0) base.length r (n + 1) = .ok () := by
  unfold validateHistoryAppend
  simp

/-- The diff of a valid child. -/
def diffOf (H : Hash) (p c : State) : StateDiff :=
  { baseRoot := H.header p.latestBlockHeader, slot := c.slot, latestJustified := c.latestJustified
    latestFinalized := c.latestFinalized, justifiedSlots := c.justifiedSlots
    justificationsRoots := c.justificationsRoots
    justificationsValidators := c.justificationsValidators }

theorem fromStates_valid {H : Hash} {p c : State} (h : ValidChild H p c) :
    fromStates H p c = .ok (diffOf H p c) := by
  have hs := h.slot
  unfold fromStates
  rw [if_neg (by omega)]
  obtain ⟨k, e⟩ : ∃ k, c.slot - p.slot = k + 1 := ⟨c.slot - p.slot - 1, by omega⟩
  rw [h.hist, e, Nat.add_sub_cancel, validate_ok]
  rfl

theorem replay_append (ds : List StateDiff) (d : StateDiff) (h : List Root) (p : Nat) :
    replay h p (ds ++ [d]) =
      match replay h p ds with
      | none => none
      | some h' =>
        let q := match ds.getLast? with | some l => l.slot | none => p
        if d.slot < q + 1 then none
        else some (h' ++ d.baseRoot :: List.replicate (d.slot - q - 1) 0) := by
  induction ds generalizing h p with
  | nil => simp [replay]; rfl
  | cons x xs ih =>
    simp only [List.cons_append, replay]
    split
    · rfl
    · rw [ih]
      cases xs with
      | nil => simp [replay]
      | cons y ys => simp only [List.getLast?_cons_cons]; rfl

/-- `ds` lead from the snapshot to `st`. -/
structure Leads (snap : State) (ds : List StateDiff) (st : State) : Prop where
  hist : replay snap.historicalBlockHashes snap.slot ds = some st.historicalBlockHashes
  nil : ds = [] → snap = st
  last : ∀ d, ds.getLast? = some d → d.slot = st.slot ∧ d.latestJustified = st.latestJustified ∧
    d.latestFinalized = st.latestFinalized ∧ d.justifiedSlots = st.justifiedSlots ∧
    d.justificationsRoots = st.justificationsRoots ∧
    d.justificationsValidators = st.justificationsValidators ∧
    st.historicalBlockHashes.length ≤ historicalRootsLimit
  vals : snap.validators = st.validators
  time : snap.genesisTime = st.genesisTime

theorem Leads.refl (s : State) : Leads s [] s :=
  ⟨rfl, fun _ => rfl, fun d hd => by simp at hd, rfl, rfl⟩

theorem Leads.snoc {H : Hash} {snap p c : State} {ds : List StateDiff} (h : Leads snap ds p)
    (hc : ValidChild H p c) : Leads snap (ds ++ [diffOf H p c]) c := by
  refine ⟨?_, ?_, ?_, h.vals.trans hc.vals.symm, h.time.trans hc.time.symm⟩
  · rw [replay_append, h.hist]
    have hs := hc.slot
    have hq : (match ds.getLast? with | some l => l.slot | none => snap.slot) = p.slot := by
      cases hl : ds.getLast? with
      | none => rw [List.getLast?_eq_none_iff] at hl; simp only; rw [h.nil hl]
      | some d => exact (h.last d hl).1
    simp only [hq]
    rw [if_neg (by simp only [diffOf]; omega), hc.hist]
    rfl
  · intro hn; simp at hn
  · intro d hd
    rw [List.getLast?_concat] at hd
    cases hd
    exact ⟨rfl, rfl, rfl, rfl, rfl, rfl, hc.histLen⟩

theorem Leads.reconstruct {snap st : State} {ds : List StateDiff} (h : Leads snap ds st)
    (hne : ds ≠ []) : reconstruct snap ds st.latestBlockHeader = some st := by
  unfold Db.reconstruct
  cases hl : ds.getLast? with
  | none => rw [List.getLast?_eq_none_iff] at hl; exact absurd hl hne
  | some d =>
    obtain ⟨h1, h2, h3, h4, h5, h6, h7⟩ := h.last d hl
    simp only [h.hist]
    rw [if_neg (by omega)]
    rw [h1, h2, h3, h4, h5, h6, h.vals, h.time]

end Verif.Db
