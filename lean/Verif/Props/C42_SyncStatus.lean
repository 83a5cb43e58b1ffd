import Verif.Model.SyncStatus
/-!
# C42: sync status does not flap and network stalls do not silence validators
-/
namespace Verif.Sync

/-- One observation: wall-clock slot, head slot, highest slot of a known block. -/
structure Obs where
  current : Nat
  head : Nat
  maxSeen : Nat

/-- No block of the last eight slots is known. -/
def Obs.Stalled (o : Obs) : Prop := o.maxSeen + 8 < o.current

/-- The head is more than `n` slots behind the clock. -/
def Obs.Behind (o : Obs) (n : Nat) : Prop := o.head + n < o.current

def Tracker.see (t : Tracker) (o : Obs) : Tracker := t.update o.current o.head o.maxSeen

theorem see_iff (t : Tracker) (o : Obs) : (t.see o).syncing = true ↔
    ¬ o.Stalled ∧ (o.Behind 4 ∨ (t.syncing = true ∧ o.Behind 2)) := by
  unfold Tracker.see Tracker.update Obs.Stalled Obs.Behind stallThreshold lagThreshold hysteresis
  simp only
  split
  next h => simp; omega
  next h =>
    split
    next hs => simp [hs]; omega
    next hs => simp [hs]; omega

theorem see_gate (t : Tracker) (o : Obs) : (t.see o).gateDuties = t.gateDuties := by
  unfold Tracker.see Tracker.update
  simp only
  split
  · rfl
  · split <;> rfl

/-- **C42.** The flag flips on only if the head is more than four slots behind while the network is
live. -/
theorem C42_on_only_if (t : Tracker) (o : Obs) (h0 : t.syncing = false)
    (h1 : (t.see o).syncing = true) : o.Behind 4 ∧ ¬ o.Stalled := by
  obtain ⟨h2, h3 | ⟨h3, -⟩⟩ := (see_iff t o).1 h1
  · exact ⟨h3, h2⟩
  · rw [h0] at h3; cases h3

/-- **C42.** It flips off only once the head is within two slots, or the whole network stalls. -/
theorem C42_off_only_if (t : Tracker) (o : Obs) (h0 : t.syncing = true)
    (h1 : (t.see o).syncing = false) : ¬ o.Behind 2 ∨ o.Stalled := by
  by_cases hs : o.Stalled
  · exact .inr hs
  · left
    intro hb
    have := (see_iff t o).2 ⟨hs, .inr ⟨h0, hb⟩⟩
    rw [h1] at this; cases this

/-- **C42.** In between (three or four slots behind, network live) it keeps its value. -/
theorem C42_keeps (t : Tracker) (o : Obs) (h2 : o.Behind 2) (h4 : ¬ o.Behind 4)
    (hs : ¬ o.Stalled) : (t.see o).syncing = t.syncing := by
  cases h : t.syncing with
  | true => exact (see_iff t o).2 ⟨hs, .inr ⟨h, h2⟩⟩
  | false =>
    cases h' : (t.see o).syncing with
    | false => rfl
    | true => exact absurd (C42_on_only_if t o h h').1 h4

/-- **C42.** Over any sequence of observations (newest first): the node counts as syncing exactly
when at some point it was more than four slots behind, and at every point since then it has been more
than two behind with the network live. -/
theorem C42_history (gate : Bool) (os : List Obs) :
    (os.foldr (fun o t => t.see o) (Tracker.new gate)).syncing = true ↔
      ∃ since o before, os = since ++ o :: before ∧ o.Behind 4 ∧
        ∀ x ∈ o :: since, x.Behind 2 ∧ ¬ x.Stalled := by
  induction os with
  | nil =>
    constructor
    · intro h; cases h
    · rintro ⟨l, o, b, e, -⟩; cases l <;> cases e
  | cons x os ih =>
    rw [List.foldr_cons, see_iff]
    constructor
    · rintro ⟨hs, h4 | ⟨hsy, h2⟩⟩
      · refine ⟨[], x, os, rfl, h4, fun y hy => ?_⟩
        cases List.mem_singleton.1 hy
        exact ⟨by unfold Obs.Behind at *; omega, hs⟩
      · obtain ⟨l, o, b, e, ho, hl⟩ := ih.1 hsy
        refine ⟨x :: l, o, b, by rw [e]; rfl, ho, fun y hy => ?_⟩
        rcases List.mem_cons.1 hy with rfl | hy
        · exact hl _ List.mem_cons_self
        · rcases List.mem_cons.1 hy with rfl | hy
          · exact ⟨h2, hs⟩
          · exact hl _ (List.mem_cons_of_mem _ hy)
    · rintro ⟨l, o, b, e, ho, hl⟩
      cases l with
      | nil =>
        cases e
        exact ⟨(hl _ List.mem_cons_self).2, .inl ho⟩
      | cons y l =>
        cases e
        have hx := hl x (List.mem_cons_of_mem _ List.mem_cons_self)
        refine ⟨hx.2, .inr ⟨ih.2 ⟨l, o, b, rfl, ho, fun y hy => hl y ?_⟩, hx.1⟩⟩
        rcases List.mem_cons.1 hy with rfl | hy
        · exact List.mem_cons_self
        · exact List.mem_cons_of_mem _ (List.mem_cons_of_mem _ hy)

/-- **C42.** Duties are allowed whenever the network stalls, and always when the gate is off; with
the gate on they are suppressed exactly while syncing. -/
theorem C42_duties (gate : Bool) (os : List Obs) (o : Obs) :
    (((os.foldr (fun o t => t.see o) (Tracker.new gate)).see o).dutiesAllowed = true ↔
      gate = false ∨
        ((os.foldr (fun o t => t.see o) (Tracker.new gate)).see o).syncing = false) ∧
    (o.Stalled → ((os.foldr (fun o t => t.see o) (Tracker.new gate)).see o).dutiesAllowed = true)
    := by
  have hg : ∀ os : List Obs, (os.foldr (fun o t => t.see o) (Tracker.new gate)).gateDuties = gate := by
    intro os
    induction os with
    | nil => rfl
    | cons x os ih => rw [List.foldr_cons, see_gate, ih]
  generalize ht : os.foldr (fun o t => t.see o) (Tracker.new gate) = t
  have hgt : t.gateDuties = gate := ht ▸ hg os
  unfold Tracker.dutiesAllowed
  rw [see_gate, hgt]
  refine ⟨by cases gate <;> cases (t.see o).syncing <;> simp, fun hs => ?_⟩
  have : (t.see o).syncing = false := by
    cases h : (t.see o).syncing with
    | false => rfl
    | true => exact absurd hs ((see_iff t o).1 h).1
  rw [this]; simp

/-! A node falls five slots behind, recovers to three behind (still syncing), then to two. -/
example : ((Tracker.new true).see ⟨15, 10, 15⟩).syncing = true ∧
    (((Tracker.new true).see ⟨15, 10, 15⟩).see ⟨16, 13, 16⟩).syncing = true ∧
    ((((Tracker.new true).see ⟨15, 10, 15⟩).see ⟨16, 13, 16⟩).see ⟨17, 15, 17⟩).syncing = false ∧
    ((Tracker.new true).see ⟨16, 13, 16⟩).syncing = false ∧
    ((Tracker.new true).see ⟨30, 10, 10⟩).dutiesAllowed = true := by decide

end Verif.Sync
