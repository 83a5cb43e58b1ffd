import Verif.Props.C63_Duties
import Verif.Props.C37_C62_Target
import Verif.Spec.Pools
import Verif.Lemmas.SRun
/-!
# A tick of a validating node is a sequence of events of its actor
-/
namespace Verif.Node
open Verif Verif.Db Verif.Sync

/-- Events the timer causes: cached reads, ticks and promotions. -/
def Event.Quiet : Event → Prop
  | .read _ => True
  | .tick _ _ => True
  | .accept => True
  | _ => False

/-- Events the timer causes, given what was signed: own votes are delivered to oneself, own blocks
imported. -/
def Event.Caused (l : List Signed) (agg : Bool) : Event → Prop
  | .attestation v d sig g => agg = true ∧ g = true ∧ Signed.vote v d (some sig) ∈ l
  | .own sb => ∃ vid slot root r, Signed.block vid slot root (some (sb, r)) ∈ l
  | ev => ev.Quiet

theorem Event.Quiet.caused {ev : Event} {l : List Signed} {agg : Bool} (h : ev.Quiet) :
    ev.Caused l agg := by
  cases ev <;> first | exact h | exact h.elim

theorem Event.Caused.mono {ev : Event} {l l' : List Signed} {agg : Bool} (hs : l ⊆ l')
    (h : ev.Caused l agg) : ev.Caused l' agg := by
  cases ev with
  | attestation => exact ⟨h.1, h.2.1, hs h.2.2⟩
  | own sb =>
    obtain ⟨a, b, c, d, h⟩ := h
    exact ⟨a, b, c, d, hs h⟩
  | _ => exact h

theorem Event.Caused.notBlock {ev : Event} {l : List Signed} {agg : Bool} (h : ev.Caused l agg) :
    (∀ sb, ev ≠ .block sb) ∧ ev ≠ .restart := by
  refine ⟨fun sb e => ?_, fun e => ?_⟩
  · subst e; exact h.elim
  · subst e; exact h.elim

section
variable {E : Env} {s s1 : Store}

theorem SRun.getState {r : Root} {x : Option State} (h : s.getState r = .ok (x, s1)) :
    SRun E Event.Quiet s [.read r] s1 :=
  .one (by exact trivial) (by
    show (match s.getState r with | .error e => .error e | .ok (_, s) => .ok s : P Store) = _
    rw [h])

theorem SRun.headState {st : State} (e : headState s = .ok (st, s1)) :
    SRun E Event.Quiet s [.read s.mem.db.head] s1 := by
  unfold Node.headState at e
  split at e
  · cases e
  · cases e
  next e2 => cases e; exact .getState e2

theorem SRun.ourProposer {ids : List Nat} {slot : Nat} {p : Option Nat}
    (h : ourProposer ids s slot = .ok (p, s1)) :
    SRun E Event.Quiet s [.read s.mem.db.head] s1 := by
  unfold Node.ourProposer at h
  split at h
  · cases h
  next e => cases h; exact .headState e

theorem SRun.onTick {now : Nat} {p : Bool} (h : onTick E.H s now p = .ok s1) :
    SRun E Event.Quiet s [.tick now p] s1 := .one (by exact trivial) h

theorem SRun.acceptNew (h : acceptNew E.H s = .ok s1) : SRun E Event.Quiet s [.accept] s1 :=
  .one (by exact trivial) h

end

section
variable {c : VCtx} {s s' : Store} {l : List Signed}

theorem signVotes_run {d : AttData} {agg : Bool} : ∀ (vs : List Nat) {s s' : Store} {l : List Signed},
    signVotes c d agg vs s = .ok (s', l) →
    ∃ evs, SRun c.ctx.E (Event.Caused l agg) s evs s'
  | [], s, s', l, h => by cases h; exact ⟨[], .nil⟩
  | v :: vs, s, s', l, h => by
    unfold signVotes at h
    split at h
    · split at h
      · cases h
      next e =>
        cases h
        obtain ⟨evs, r⟩ := signVotes_run vs e
        exact ⟨evs, r.mono fun ev he => he.mono (List.subset_cons_self _ _)⟩
    next sig hs =>
      split at h
      · cases h
      next s1 e1 =>
        split at h
        · cases h
        next e =>
          cases h
          obtain ⟨evs, r⟩ := signVotes_run vs e
          have r := r.mono fun ev he => he.mono (List.subset_cons_self (Signed.vote v d (some sig)) _)
          split at e1
          next ha =>
            exact ⟨_, (SRun.one (ev := .attestation v d sig true)
              (by exact ⟨ha, rfl, List.mem_cons_self⟩) e1).trans r⟩
          · cases e1; exact ⟨_, r⟩

theorem produceData_run {E : Env} {slot : Nat} {d : AttData}
    (h : produceAttestationData s slot = .ok (d, s')) :
    SRun E Event.Quiet s [.read s.mem.db.head] s' := by
  unfold produceAttestationData at h
  simp only at h
  split at h
  · cases h
  · cases h
  next e =>
    split at h
    · cases h
    · split at h
      · cases h
      · cases h; exact .getState e

theorem produceVotes_run {slot : Nat} {agg : Bool} (h : produceVotes c s slot agg = .ok (s', l)) :
    ∃ evs, SRun c.ctx.E (Event.Caused l agg) s evs s' := by
  unfold produceVotes at h
  split at h
  · cases h
  next d s1 e =>
    obtain ⟨evs, r⟩ := signVotes_run _ h
    exact ⟨_, ((produceData_run e).mono fun _ h => h.caused).trans r⟩

theorem proposalStore_run {slot : Nat} (h : proposalStore c.H s slot = .ok s') :
    SRun c.ctx.E Event.Quiet s
      [.accept, .tick (s.genesisTime * 1000 + slot * msPerSlot) true] s' := by
  unfold proposalStore at h
  split at h
  · cases h
  next e => exact (SRun.onTick (E := c.ctx.E) e).trans (.acceptNew h)

theorem produceBlock_run {E : Env} {X : Crypto} {H : Hash} {ord : Root → List Nat → List Nat}
    {slot vid : Nat} {k : Build.Config} {o : Option (Block × List Buffers.Agg)}
    (h : produceBlock X H ord s slot vid k = .ok (s', o)) :
    SRun E Event.Quiet s [.read s.mem.db.head] s' := by
  unfold produceBlock at h
  split at h
  · cases h
  next e => cases h; exact .getState e
  next e =>
    have L : SRun E Event.Quiet _ _ _ := .getState e
    split at h
    · cases h; exact L
    · split at h
      · cases h
      · cases h; exact L
      · cases h; exact L

theorem propose_run {slot vid : Nat} {agg : Bool} (h : propose c s slot vid = .ok (s', l)) :
    ∃ evs, SRun c.ctx.E (Event.Caused l agg) s evs s' := by
  unfold propose at h
  split at h
  · cases h
  next e1 =>
  have x1 := proposalStore_run e1
  split at h
  · cases h
  next e2 => cases h; exact ⟨_, (x1.trans (produceBlock_run e2)).mono fun _ h => h.caused⟩
  next e2 =>
  have x2 := x1.trans (produceBlock_run e2)
  split at h
  · cases h
  next e3 =>
  have x3 := x2.trans (.headState e3)
  split at h
  · cases h; exact ⟨_, x3.mono fun _ h => h.caused⟩
  next sb e4 =>
    split at h
    · cases h
    next s4 r e5 =>
      cases h
      refine ⟨_, (x3.mono fun _ h => h.caused).trans (.one (ev := .own sb) ?_ ?_)⟩
      · exact ⟨_, _, _, _, List.mem_cons_self⟩
      · show R.store (onBlock _ _ _) = _
        unfold R.store
        rw [e5]

/-- **What the timer does to the actor is a sequence of its events**, all accounted for by what is
signed. -/
theorem tick_run {n n' : VNode} {now : Nat} {agg : Bool} (h : n.tick c now agg = .ok (n', l)) :
    ∃ evs, SRun c.ctx.E (Event.Caused l agg) n.actor.store evs n'.actor.store ∧
      n'.actor = { n.actor with store := n'.actor.store } := by
  unfold VNode.tick at h
  simp only at h
  split at h
  · cases h; exact ⟨[], .nil, rfl⟩
  split at h
  · cases h
  next i hi =>
  split at h
  · cases h
  next st s1 e1 =>
  have L1 : SRun c.ctx.E Event.Quiet _ _ s1 := .headState e1
  split at h
  · cases h; exact ⟨_, L1.mono fun _ h => h.caused, rfl⟩
  split at h
  · cases h
  next sync e2 =>
  split at h
  · cases h
  next p s2 e3 =>
  have L2 : ∃ evs, SRun c.ctx.E Event.Quiet s1 evs s2 := by
    split at e3
    · exact ⟨_, .ourProposer e3⟩
    · cases e3; exact ⟨_, .nil⟩
  obtain ⟨_, L2⟩ := L2
  split at h
  · cases h
  next s3 e4 =>
  have L3 : SRun c.ctx.E Event.Quiet s2 _ s3 := .onTick e4
  split at h
  · cases h
  next s4 l' e5 =>
  cases h
  have L13 := (L1.trans L2).trans L3
  have L : ∃ evs, SRun c.ctx.E (Event.Caused l agg) s3 evs s4 := by
    cases i with
    | attestation =>
      unfold actorDuty at e5
      simp only at e5
      split at e5
      · exact produceVotes_run e5
      · cases e5; exact ⟨_, .nil⟩
    | endOfSlot =>
      unfold actorDuty at e5
      simp only at e5
      split at e5
      · cases e5
      next e6 => cases e5; exact ⟨_, SRun.mono (fun _ h => h.caused) (.ourProposer e6)⟩
      next v s5 e6 =>
        have q := SRun.mono (Q := Event.Caused l agg) (fun _ h => h.caused)
          (SRun.ourProposer (E := c.ctx.E) e6)
        split at e5
        · obtain ⟨_, r⟩ := propose_run e5
          exact ⟨_, q.trans r⟩
        · cases e5; exact ⟨_, q⟩
    | publication => cases e5; exact ⟨_, .nil⟩
    | aggregation => cases e5; exact ⟨_, .nil⟩
    | safeTarget => cases e5; exact ⟨_, .nil⟩
  obtain ⟨_, L⟩ := L
  exact ⟨_, (L13.mono fun _ h => h.caused).trans L, rfl⟩

end

end Verif.Node
