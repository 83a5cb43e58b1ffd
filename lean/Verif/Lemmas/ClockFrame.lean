import Verif.Model.Duties
import Verif.Lemmas.ActorSteps
import Verif.Props.C32_Ticks
/-!
# The clock never goes back
-/
namespace Verif.Node
open Verif Verif.Db

/-- Same genesis time, clock not behind. -/
structure Later (s s' : Store) : Prop where
  time : s.mem.db.time ≤ s'.mem.db.time
  genesis : s'.genesisTime = s.genesisTime

theorem Later.refl (s : Store) : Later s s := ⟨Nat.le_refl _, rfl⟩

theorem Later.trans {a b c : Store} (h1 : Later a b) (h2 : Later b c) : Later a c :=
  ⟨Nat.le_trans h1.time h2.time, h2.genesis.trans h1.genesis⟩

theorem Later.of_eq {s s' : Store} (h1 : s'.mem.db.time = s.mem.db.time)
    (h2 : s'.genesisTime = s.genesisTime) : Later s s' := ⟨Nat.le_of_eq h1.symm, h2⟩

theorem Later.getState {s s' : Store} {r : Root} {x : Option State}
    (h : s.getState r = .ok (x, s')) : Later s s' :=
  .of_eq (by rw [(getState_frame h).1]) (getState_frame h).2.2.2.2.2

theorem Later.onTick {H : Hash} {s s' : Store} {ts : Nat} {p : Bool}
    (h : Node.onTick H s ts p = .ok s') : Later s s' := by
  obtain ⟨h1, h2⟩ := C32_clock h
  exact ⟨by rw [h1]; omega, h2⟩

theorem Later.acceptNew {H : Hash} {s s' : Store} (h : Node.acceptNew H s = .ok s') : Later s s' :=
  .of_eq (acceptNew_time h).1 (acceptNew_time h).2

theorem Later.onBlock {E : Env} {s s' : Store} {sb : SignedBlock} {r : Except Err Unit}
    (e : Node.onBlock E s sb = .ok (s', r)) : Later s s' := by
  unfold Node.onBlock at e
  split at e
  · cases e; exact .refl _
  · split at e
    · cases e
    next s1 h1 => cases e; exact .getState h1
    next p s1 h1 =>
      refine (Later.getState h1).trans ?_
      split at e
      · cases e; exact .refl _
      next st hst =>
        split at e
        · cases e
        next s2 h2 =>
          cases e
          refine .of_eq (commitBlock_blocks h2).2 ?_
          unfold commitBlock at h2
          split at h2
          · cases h2
          next s3 h3 =>
            simp only at h2
            split at h2
            · cases h2
            next s4 h4 =>
              rw [(updateHead_frame h2).2.2.1]
              unfold putState at h4
              split at h4
              · cases h4
              next m hm =>
                cases h4
                unfold raiseJustified at h3
                split at h3
                · exact (setCheckpoints_split h3).2.2.2
                · cases h3; rfl

theorem Later.attestation {E : Env} {s s' : Store} {v : Nat} {d : AttData} {sig : Nat} {g : Bool}
    (e : R.store (onGossipAttestation E s v d sig g) = .ok s') : Later s s' := by
  refine .of_eq (by rw [attestation_still e]) ?_
  cases h : onGossipAttestation E s v d sig g with
  | error k => rw [h] at e; cases e
  | ok p =>
    obtain ⟨s1, r⟩ := p
    rw [h] at e
    have e : s1 = s' := Except.ok.inj e
    subst e
    unfold onGossipAttestation at h
    split at h
    · cases h
    · cases h; rfl
    · split at h
      · cases h
      next s2 g2 => cases h; exact (getState_frame g2).2.2.2.2.2
      next st s2 g2 =>
        have hd := (getState_frame g2).2.2.2.2.2
        split at h
        · cases h; exact hd
        · split at h
          · cases h; exact hd
          split at h
          · cases h; exact hd
          split at h
          · split at h
            · cases h
            · cases h; exact hd
          · cases h; exact hd

theorem Later.insertNewPayload {H : Hash} {s s' : Store} {d : AttData} {a : Buffers.Agg}
    (e : Node.insertNewPayload H s d a = .ok s') : Later s s' := by
  refine .of_eq (by rw [insertNewPayload_mem e]) ?_
  unfold Node.insertNewPayload at e
  split at e
  · cases e
  · cases e; rfl

theorem Later.aggregate {E : Env} {s s' : Store} {d : AttData} {a : Buffers.Agg}
    (e : R.store (onGossipAggregate E s d a) = .ok s') : Later s s' := by
  refine .of_eq (by rw [aggregate_still e]) ?_
  cases h : onGossipAggregate E s d a with
  | error k => rw [h] at e; cases e
  | ok p =>
    obtain ⟨s1, r⟩ := p
    rw [h] at e
    have e : s1 = s' := Except.ok.inj e
    subst e
    unfold onGossipAggregate at h
    split at h
    · cases h
    · cases h; rfl
    · split at h
      · cases h
      next s2 g2 => cases h; exact (getState_frame g2).2.2.2.2.2
      next st s2 g2 =>
        have hd := (getState_frame g2).2.2.2.2.2
        simp only at h
        repeat' split at h
        all_goals first
          | (cases h; done)
          | (cases h; exact hd)
          | skip
        all_goals (cases h; next e2 => exact (Later.insertNewPayload e2).genesis.trans hd)

theorem Later.step {E : Env} {s s' : Store} {ev : Event} (hb : ∀ sb, ev ≠ .block sb)
    (e : Node.step E s ev = .ok s') : Later s s' := by
  by_cases ho : ∃ sb, ev = .own sb
  · obtain ⟨sb, rfl⟩ := ho
    have e : R.store (Node.onBlock E s sb) = .ok s' := e
    unfold R.store at e
    split at e
    · cases e
    next h => cases e; exact .onBlock h
  refine ⟨(step_still (fun sb => ⟨hb sb, fun h => ho ⟨sb, h⟩⟩) e).1.time, ?_⟩
  cases ev with
  | block sb => exact absurd rfl (hb sb)
  | own sb => exact absurd ⟨sb, rfl⟩ ho
  | read r =>
    unfold Node.step at e
    simp only at e
    split at e
    · cases e
    next h => cases e; exact (getState_frame h).2.2.2.2.2
  | tick ts p => exact (Later.onTick e).genesis
  | attestation v d sig g => exact (Later.attestation e).genesis
  | aggregate d a => exact (Later.aggregate e).genesis
  | ownAggregate d a keys =>
    have e : applyAggregate E.H s d a keys = .ok s' := e
    unfold applyAggregate at e
    split at e
    · cases e
    next s1 h1 =>
      split at e
      · cases e
      · cases e; exact (Later.insertNewPayload h1).genesis
  | accept => exact (Later.acceptNew e).genesis
  | prune =>
    have e : (match pruneOldData s.mem.db with
      | .error e => .error e
      | .ok db => .ok { s with mem := { s.mem with db := db } } : P Store) = .ok s' := e
    split at e
    · cases e
    · cases e; rfl
  | restart => cases e; rfl

theorem Later.foldAggs {H : Hash} : ∀ (l : List (AttData × Buffers.Agg)) {s s' : Store},
    Node.foldAggs H s l = .ok s' → Later s s'
  | [], s, s', h => by cases h; exact .refl _
  | x :: l, s, s', h => by
    unfold Node.foldAggs foldP at h
    split at h
    · cases h
    next s1 h1 => exact (Later.insertNewPayload h1).trans (Later.foldAggs l h)

theorem Later.process {c : Ctx} {a : Actor} {sb : SignedBlock} {o : Out}
    (h : a.process c sb = .ok o) : Later a.store o.actor.store := by
  unfold Actor.process at h
  simp only at h
  have disc : ∀ {a' : Actor} {r : Root}, a.discard c r = .ok a' → a'.store = a.store := by
    intro a' r h
    unfold Actor.discard at h
    split at h
    · cases h
    · cases h; rfl
  split at h
  · split at h
    · cases h
    next e => cases h; rw [disc e]; exact .refl _
  split at h
  · split at h
    · cases h
    next e => cases h; rw [disc e]; exact .refl _
  split at h
  · unfold Actor.pend at h
    simp only at h
    split at h
    · cases h
    split at h
    · cases h
    · cases h; exact .of_eq rfl rfl
    · split at h
      · cases h
      · cases h; exact .of_eq rfl rfl
  split at h
  · cases h
  next e => cases h; exact .onBlock e
  next s1 e =>
    split at h
    · cases h
    next s2 e2 =>
      cases h
      refine (Later.onBlock e).trans ?_
      unfold Actor.collect
      simp only
      split
      · exact .foldAggs _ e2
      · exact .foldAggs _ e2

theorem Later.drain {c : Ctx} : ∀ (n : Nat) {a a' : Actor} {q : List SignedBlock} {f : List Root},
    Node.drain c n a q = .ok (a', f) → Later a.store a'.store
  | _, a, a', [], f, h => by unfold Node.drain at h; cases h; exact .refl _
  | 0, a, a', _ :: _, f, h => by unfold Node.drain at h; cases h
  | n + 1, a, a', sb :: q, f, h => by
    unfold Node.drain at h
    split at h
    · cases h
    next o e =>
      split at h
      · cases h
      next e2 => cases h; exact (Later.process e).trans (Later.drain n e2)

theorem Later.actorStep {c : Ctx} {a a' : Actor} {ev : Event} {f : List Root}
    (h : a.step c ev = .ok (a', f)) : Later a.store a'.store := by
  by_cases hb : ∃ sb, ev = .block sb
  · obtain ⟨sb, rfl⟩ := hb
    have h : a.onBlock c sb = .ok (a', f) := h
    unfold Actor.onBlock at h
    split at h
    · cases h
    next a1 f1 e =>
      split at h
      · cases h
      next db e2 =>
        cases h
        refine (Later.drain _ e).trans ?_
        refine .of_eq ?_ rfl
        show db.time = _
        unfold pruneOldData at e2
        split at e2
        · cases e2
        · have e2 := Except.ok.inj e2
          rw [← e2]
          unfold pruneProofs pruneBelow
          split <;> rfl
  · have hb : ∀ sb, ev ≠ .block sb := fun sb e => hb ⟨sb, e⟩
    by_cases hr : ev = .restart
    · subst hr
      have h : (match Node.step c.E a.store .restart with
        | .error e => .error e
        | .ok s => .ok ({ store := s, pending := [], parents := [] }, []) :
          P (Actor × List Root)) = .ok (a', f) := h
      split at h
      · cases h
      next e => cases h; exact .step hb e
    · exact .step hb (Actor.step_other hb hr h).1

end Verif.Node
