import Verif.Model.Store
import Verif.Lemmas.Db
/-!
# What the store functions leave alone
-/
namespace Verif.Node
open Verif Verif.Db Verif.Votes Verif.Buffers

theorem getState_db' {m m' : Mem} {r : Root} {x : Option State}
    (h : Db.getState m r = .ok (x, m')) : m'.db = m.db := by
  unfold Db.getState at h
  split at h
  · cases h; rfl
  · split at h
    · cases h; rfl
    · split at h
      · cases h
      · cases h; rfl
      · cases h; rfl

/-- A read changes only the cache. -/
theorem getState_frame {s s' : Store} {r : Root} {x : Option State}
    (h : s.getState r = .ok (x, s')) :
    s'.mem.db = s.mem.db ∧ s'.fc = s.fc ∧ s'.newP = s.newP ∧ s'.knownP = s.knownP ∧
      s'.gossip = s.gossip ∧ s'.genesisTime = s.genesisTime := by
  unfold Store.getState at h
  split at h
  · cases h
  next x' m' hm =>
    cases h
    exact ⟨getState_db' hm, rfl, rfl, rfl, rfl, rfl⟩

theorem pruneBuffers_frame {s s' : Store} {n : Nat} (h : pruneBuffers s n = .ok s') :
    s'.mem = s.mem ∧ s'.fc = s.fc ∧ s'.genesisTime = s.genesisTime := by
  unfold pruneBuffers at h
  split at h
  · cases h; exact ⟨rfl, rfl, rfl⟩
  · cases h

theorem updateCheckpoints_time {db db' : Db} {h : Root} {j f : Option Checkpoint}
    (e : updateCheckpoints db h j f = .ok db') :
    db'.time = db.time ∧ db'.safeTarget = db.safeTarget := by
  unfold updateCheckpoints at e
  split at e
  · cases e
  · cases e
  · simp only at e
    split at e
    · split at e <;> (cases e; exact ⟨rfl, rfl⟩)
    · cases e; exact ⟨rfl, rfl⟩

theorem setCheckpoints_split {s s' : Store} {h : Root} {j f : Option Checkpoint}
    (e : setCheckpoints s h j f = .ok s') :
    updateCheckpoints s.mem.db h j f = .ok s'.mem.db ∧ s'.mem.cache = s.mem.cache ∧
      s'.fc = s.fc ∧ s'.genesisTime = s.genesisTime := by
  unfold setCheckpoints at e
  split at e
  · cases e
  next db hdb =>
    simp only at e
    split at e
    · split at e
      · obtain ⟨h1, h2, h3⟩ := pruneBuffers_frame e
        rw [h1, h2, h3]
        exact ⟨hdb, rfl, rfl, rfl⟩
      · cases e; exact ⟨hdb, rfl, rfl, rfl⟩
    · cases e; exact ⟨hdb, rfl, rfl, rfl⟩

theorem updateHead_split {s s' : Store} (e : updateHead s = .ok s') :
    ∃ x m1 f, Db.getState s.mem (ghostHead s) = .ok (x, m1) ∧
      (f = match x with
        | none => none
        | some st => if (s.header st.latestFinalized.root).isSome then some st.latestFinalized
                     else none) ∧
      setCheckpoints { s with mem := m1 } (ghostHead s) none f = .ok s' := by
  unfold updateHead at e
  simp only at e
  split at e
  · cases e
  next x s1 h1 =>
    unfold Store.getState at h1
    split at h1
    · cases h1
    next x' m1 hm =>
      cases h1
      refine ⟨x, m1, _, hm, ?_, e⟩
      unfold Store.header
      rw [getState_db' hm]
      cases x <;> rfl

/-- `update_head` leaves the clock, the votes and the block and state tables alone. -/
theorem updateHead_frame {s s' : Store} (e : updateHead s = .ok s') :
    s'.mem.db.time = s.mem.db.time ∧ s'.fc = s.fc ∧ s'.genesisTime = s.genesisTime ∧
      s'.mem.db.headers = s.mem.db.headers ∧ s'.mem.db.states = s.mem.db.states ∧
      s'.mem.db.diffs = s.mem.db.diffs ∧ s'.mem.db.head = ghostHead s ∧
      s'.mem.db.justified = s.mem.db.justified ∧ s'.mem.db.safeTarget = s.mem.db.safeTarget := by
  obtain ⟨x, m1, f, hm, -, hs⟩ := updateHead_split e
  obtain ⟨h1, h2, h3, h4⟩ := setCheckpoints_split hs
  have ht := updateCheckpoints_time h1
  have hf := updateCheckpoints_frame h1
  have hd := getState_db' hm
  simp only [hd] at ht hf
  exact ⟨ht.1, h3, h4, hf.1, hf.2.1, hf.2.2.1, hf.2.2.2.2.2.1, hf.2.2.2.2.2.2.1, ht.2⟩

theorem promoteNew_frame {H : Hash} {s s' : Store} (e : promoteNew H s = .ok s') :
    s'.mem = s.mem ∧ s'.genesisTime = s.genesisTime ∧ s'.gossip = s.gossip ∧
      s'.fc = promote H s.fc s.fc.new := by
  unfold promoteNew at e
  simp only at e
  split at e
  · cases e
  · cases e; exact ⟨rfl, rfl, rfl, rfl⟩

theorem acceptNew_split {H : Hash} {s s' : Store} (e : acceptNew H s = .ok s') :
    ∃ s1, promoteNew H s = .ok s1 ∧ updateHead s1 = .ok s' := by
  unfold acceptNew at e
  split at e
  · cases e
  next s1 h1 => exact ⟨s1, h1, e⟩

theorem acceptNew_time {H : Hash} {s s' : Store} (e : acceptNew H s = .ok s') :
    s'.mem.db.time = s.mem.db.time ∧ s'.genesisTime = s.genesisTime := by
  obtain ⟨s1, h1, h2⟩ := acceptNew_split e
  obtain ⟨a1, a2, -⟩ := promoteNew_frame h1
  have hf := updateHead_frame h2
  rw [hf.1, hf.2.2.1, a1, a2]
  exact ⟨rfl, rfl⟩

theorem updateSafeTarget_split {s s' : Store} (e : updateSafeTarget s = .ok s') :
    ∃ st m1, Db.getState s.mem s.mem.db.head = .ok (some st, m1) ∧
      s' = { s with mem := { m1 with db := { s.mem.db with
        safeTarget := ForkChoice.safeTarget st.validators.length s.mem.db.justified.root
          (getLiveChain s.mem.db) (safeVotes s.fc) } } } := by
  unfold updateSafeTarget headState at e
  cases hg : s.getState s.mem.db.head with
  | error k => rw [hg] at e; cases e
  | ok p =>
    obtain ⟨x, s1⟩ := p
    rw [hg] at e
    cases x with
    | none => cases e
    | some st =>
      simp only at e
      unfold Store.getState at hg
      split at hg
      · cases hg
      next x' m1 hm =>
        cases hg
        refine ⟨st, m1, hm, ?_⟩
        have := getState_db' hm
        cases e
        simp only [this]

theorem updateSafeTarget_time {s s' : Store} (e : updateSafeTarget s = .ok s') :
    s'.mem.db.time = s.mem.db.time ∧ s'.genesisTime = s.genesisTime := by
  obtain ⟨st, m1, -, rfl⟩ := updateSafeTarget_split e
  exact ⟨rfl, rfl⟩

end Verif.Node
