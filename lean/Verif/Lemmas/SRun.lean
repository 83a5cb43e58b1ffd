import Verif.Lemmas.ActorSteps
import Verif.Props.C59_NoPanic
/-!
# Runs of the store and runs of the actor

What the actor does to its store is a sequence of the store's own events. So what is proved of the
store for all histories holds of the store inside the actor.
-/
namespace Verif.Node
open Verif Verif.Db Verif.Buffers

/-- A sequence of events on a store (newest first), each with a property. -/
inductive SRun (E : Env) (P : Event → Prop) (s : Store) : List Event → Store → Prop
  | nil : SRun E P s [] s
  | step {evs : List Event} {s1 s2 : Store} {ev : Event} : SRun E P s evs s1 → P ev →
      Node.step E s1 ev = .ok s2 → SRun E P s (ev :: evs) s2

section
variable {E : Env} {P Q : Event → Prop} {s s1 s2 : Store} {evs evs1 evs2 : List Event}

theorem SRun.one {ev : Event} (hp : P ev) (h : Node.step E s ev = .ok s1) :
    SRun E P s [ev] s1 := .step .nil hp h

theorem SRun.trans (h1 : SRun E P s evs1 s1) (h2 : SRun E P s1 evs2 s2) :
    SRun E P s (evs2 ++ evs1) s2 := by
  induction h2 with
  | nil => exact h1
  | step _ hp e ih => exact .step ih hp e

theorem SRun.mono (hpq : ∀ ev, P ev → Q ev) (h : SRun E P s evs s1) : SRun E Q s evs s1 := by
  induction h with
  | nil => exact .nil
  | step _ hp e ih => exact .step ih (hpq _ hp) e

theorem SRun.all (h : SRun E P s evs s1) : ∀ ev ∈ evs, P ev := by
  induction h with
  | nil => intro ev h; cases h
  | step _ hp e ih =>
    intro ev h
    rcases List.mem_cons.1 h with rfl | h
    · exact hp
    · exact ih ev h

end

/-- Running the events on the actor. -/
theorem SRun.areach {c : Ctx} {P : Event → Prop} {a0 : State} {body : Option (List AggAtt)}
    {evs evs1 : List Event} {a : Actor} {s1 : Store}
    (hP : ∀ ev, P ev → (∀ sb, ev ≠ .block sb) ∧ ev ≠ .restart)
    (h : AReach c a0 body evs a) (hs : SRun c.E P a.store evs1 s1) :
    AReach c a0 body (evs1 ++ evs) { a with store := s1 } := by
  induction hs with
  | nil => exact h
  | @step evs2 s2 s3 ev _ hp e ih =>
    obtain ⟨h1, h2⟩ := hP ev hp
    refine AReach.step (f := []) ih ?_
    cases ev with
    | block sb => exact absurd rfl (h1 sb)
    | restart => exact absurd rfl h2
    | _ =>
      unfold Actor.step
      simp only
      rw [e]

theorem SRun.reach {E : Env} {P : Event → Prop} {a0 : State} {body : Option (List AggAtt)}
    {evs evs1 : List Event} {s s1 : Store} (h : Reach E a0 body evs s) (hs : SRun E P s evs1 s1) :
    Reach E a0 body (evs1 ++ evs) s1 := by
  induction hs with
  | nil => exact h
  | step _ _ e ih => exact .step ih e

section
variable {c : Ctx} {t : Nat} {vals : List Validator} {bs : List Block} {a0 : State}
  {body : Option (List AggAtt)} {K : Header → Prop} {rank : Root → Nat} {root : Root}
  {anchor : State} {ops : List Db.Op} {a : Actor}

theorem foldAggs_run : ∀ (l : List (AttData × Agg)) {s s' : Store},
    foldAggs c.E.H s l = .ok s' → ∃ evs, SRun c.E (EventK c.E.H K) s evs s'
  | [], s, s', h => by cases h; exact ⟨_, .nil⟩
  | x :: l, s, s', h => by
    unfold foldAggs foldP at h
    split at h
    · cases h
    next s1 e =>
      obtain ⟨evs, r⟩ := foldAggs_run l (s := s1) (s' := s') h
      refine ⟨_, (SRun.one (ev := .ownAggregate x.1 x.2 []) (by exact trivial) ?_).trans r⟩
      show applyAggregate c.E.H s x.1 x.2 [] = .ok s1
      unfold applyAggregate
      rw [e]
      rfl

/-- Processing one queued block. -/
theorem process_run {sb : SignedBlock} {o : Out} (hk : K (sb.block.header c.E.H))
    (e : a.process c sb = .ok o) : ∃ evs, SRun c.E (EventK c.E.H K) a.store evs o.actor.store := by
  have one : ∀ {s1 : Store}, processOrPend c.E a.store sb = .ok s1 →
      SRun c.E (EventK c.E.H K) a.store [.block sb] s1 := fun h => .one hk h
  unfold processOrPend at one
  unfold Actor.process at e
  simp only at e
  split at e
  · split at e
    · cases e
    next a1 e1 =>
      cases e
      unfold Actor.discard at e1
      split at e1
      · cases e1
      · cases e1; exact ⟨_, .nil⟩
  next h1 =>
  split at e
  · split at e
    · cases e
    next a1 e1 =>
      cases e
      unfold Actor.discard at e1
      split at e1
      · cases e1
      · cases e1; exact ⟨_, .nil⟩
  next h2 =>
  split at e
  next h3 =>
    rw [if_neg h1, if_neg h2, if_pos h3] at one
    unfold Actor.pend at e
    simp only at e
    split at e
    · cases e
    · split at e
      · cases e
      · cases e; exact ⟨_, one rfl⟩
      · split at e
        · cases e
        · cases e; exact ⟨_, one rfl⟩
  next h3 =>
    rw [if_neg h1, if_neg h2, if_neg h3] at one
    split at e
    · cases e
    next s1 x e1 =>
      cases e
      refine ⟨_, one ?_⟩
      unfold R.store; rw [e1]
    next s1 e1 =>
      split at e
      · cases e
      next s2 e2 =>
        cases e
        obtain ⟨evs, r⟩ := foldAggs_run (K := K) _ e2
        have hc : (({ a with store := s2 } : Actor).collect c (sb.block.root c.E.H)).1.store = s2 := by
          unfold Actor.collect
          split <;> rfl
        refine ⟨_, (one (s1 := s1) (by unfold R.store; rw [e1])).trans (evs2 := evs) ?_⟩
        simp only
        rw [hc]
        exact r

/-- **One event of the actor is a sequence of events of its store.** -/
theorem AInv.store_run (ho : ∀ l, (c.order l).Perm l) (W : World c.E t vals bs a0 K)
    (A : AnchorOk c.E.H (State.fromGenesis c.E.H t vals) K root anchor)
    (hR : Ranks c.E.H K rank) (I : AInv c.E t vals a0 body K rank root anchor ops a) {ev : Event}
    (hk : EventK c.E.H K ev) {a' : Actor} {f : List Root} (e : a.step c ev = .ok (a', f)) :
    ∃ evs, SRun c.E (EventK c.E.H K) a.store evs a'.store := by
  by_cases hb : ∃ sb, ev = .block sb
  · obtain ⟨sb, rfl⟩ := hb
    have hJ : Kept c t vals a0 body K rank root anchor
        (fun _ a1 _ => ∃ evs, SRun c.E (EventK c.E.H K) a.store evs a1.store) := by
      intro _ a1 sb1 q _ o _ _ hk1 _ _ _ e1 _ ⟨evs, r⟩
      obtain ⟨evs1, r1⟩ := process_run hk1 e1
      exact ⟨_, r.trans r1⟩
    rcases I.onBlock ho W A hR hJ sb hk ⟨_, .nil⟩ with
      ⟨h1, -⟩ | ⟨a1, a2, f2, ops1, ops', db, e2, -, ⟨evs, r⟩, e3, e4, -⟩
    · have e : a.onBlock c sb = .ok (a', f) := e
      rw [h1] at e
      cases e
    · have e : a.onBlock c sb = .ok (a', f) := e
      rw [e2] at e
      cases e
      refine ⟨_, r.trans (.one (ev := .prune) (by exact trivial) ?_)⟩
      rw [e4]
      show (match pruneOldData a1.store.mem.db with
        | .error e => .error e
        | .ok db => .ok { a1.store with mem := { a1.store.mem with db := db } } : P Store) = _
      rw [e3]
  · cases ev with
    | block sb => exact absurd ⟨sb, rfl⟩ hb
    | restart =>
      unfold Actor.step at e
      simp only at e
      split at e
      · cases e
      next s1 h1 => cases e; exact ⟨_, .one hk h1⟩
    | _ =>
      unfold Actor.step at e
      simp only at e
      split at e
      · cases e
      next s1 h1 => cases e; exact ⟨_, .one hk h1⟩

theorem World.weaken {E : Env} {K' : Header → Prop} (W : World E t vals bs a0 K)
    (hk : ∀ x, K' x → K x) (h1 : K' (genesisHeader E.H (State.fromGenesis E.H t vals)))
    (h2 : ∀ b ∈ bs, K' (b.header E.H)) : World E t vals bs a0 K' :=
  ⟨W.chain, W.headerNZ, W.stateNZ, h1, h2, fun a b ha hb => W.collisionFree a b (hk _ ha) (hk _ hb),
    by
      obtain ⟨r, hr⟩ := W.acyclic
      exact ⟨r, fun h hh => hr h (hk _ hh)⟩⟩

/-- If the hash function behaves on `K`, it does so on a history all of whose headers are in `K`. -/
theorem World.history {E : Env} (W : World E t vals bs a0 K) {evs : List Event}
    (hk : ∀ ev ∈ evs, EventK E.H K ev) :
    World E t vals bs a0 (Known E.H (State.fromGenesis E.H t vals) bs evs) := by
  refine W.weaken ?_ (.inl rfl) (fun b hb => .inr (.inl ⟨b, hb, rfl⟩))
  rintro x (rfl | ⟨b, hb, rfl⟩ | ⟨sb, hs | hs, rfl⟩)
  · exact W.genesis
  · exact W.old b hb
  · exact hk _ hs
  · exact hk _ hs

/-- **Every store inside a reachable actor is a reachable store**, by a history in which no other
headers occur. -/
theorem areach_reach (ho : ∀ l, (c.order l).Perm l) {evs : List Event}
    (W : World c.E t vals bs a0 (Known c.E.H (State.fromGenesis c.E.H t vals) bs evs))
    (h : AReach c a0 body evs a) :
    ∃ evs', Reach c.E a0 body evs' a.store ∧
      (∀ ev ∈ evs', EventK c.E.H (Known c.E.H (State.fromGenesis c.E.H t vals) bs evs) ev) ∧
      World c.E t vals bs a0 (Known c.E.H (State.fromGenesis c.E.H t vals) bs evs') := by
  obtain ⟨rank, hR⟩ := W.acyclic
  have hk := eventK_known (H := c.E.H) (g := State.fromGenesis c.E.H t vals) (bs := bs) (evs := evs)
  generalize hK : Known c.E.H (State.fromGenesis c.E.H t vals) bs evs = K at W hR hk
  clear hK
  suffices ∃ evs', Reach c.E a0 body evs' a.store ∧ ∀ ev ∈ evs', EventK c.E.H K ev by
    obtain ⟨evs', r, q⟩ := this
    exact ⟨evs', r, q, W.history q⟩
  induction h with
  | init hi =>
    unfold Actor.init at hi
    split at hi
    · cases hi
    next s hs => cases hi; exact ⟨[], .init hs, fun ev he => by cases he⟩
  | step hr hs ih =>
    obtain ⟨evs', r, q⟩ := ih (fun ev he => hk ev (List.mem_cons_of_mem _ he))
    obtain ⟨root, anchor, ops, A, I⟩ := areach_ainv ho W hR hr
      (fun ev he => hk ev (List.mem_cons_of_mem _ he))
    obtain ⟨evs1, r1⟩ := I.store_run ho W A hR (hk _ List.mem_cons_self) hs
    refine ⟨_, r1.reach r, fun ev he => ?_⟩
    rcases List.mem_append.1 he with he | he
    · exact r1.all ev he
    · exact q ev he

end

end Verif.Node
