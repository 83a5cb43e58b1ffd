import Verif.Spec.Session
import Verif.Lemmas.DutyRun
import Verif.Lemmas.Jobs
/-!
# Runs of aggregating nodes are runs of their actors
-/
namespace Verif.Node
open Verif Verif.Db Verif.Sync Verif.Buffers Verif.Build

section
variable {c : VCtx} {u : Subnets} {a0 : State} {body : Option (List AggAtt)}

/-- The jobs were snapshotted somewhere in the history, from a state with these validators. -/
def MadeJobs (c : VCtx) (a0 : State) (body : Option (List AggAtt)) (evs : List Event)
    (vals : List Validator) (jobs : List Job) : Prop :=
  ∃ evs0 a1 st known slot n, evs0 <:+ evs ∧ AReach c.ctx a0 body evs0 a1 ∧
    (∃ m, Db.getState a1.store.mem a1.store.mem.db.head = .ok (some st, m)) ∧
    snapshotJobs c.H (fun b => (c.X.decodeKey b).isSome) st a1.store.mem.db.head known
      ⟨a1.store.gossip, a1.store.newP, a1.store.knownP⟩ slot n = some jobs ∧ st.validators = vals

theorem MadeJobs.mono {evs evs' : List Event} {vals : List Validator} {jobs : List Job}
    (hs : evs <:+ evs') (h : MadeJobs c a0 body evs vals jobs) : MadeJobs c a0 body evs' vals jobs := by
  obtain ⟨evs0, a1, st, known, slot, n, h0, h⟩ := h
  exact ⟨evs0, a1, st, known, slot, n, h0.trans hs, h⟩

/-- The jobs a worker has yet to finish. -/
def Running.open (w : Running) : List Job := w.job.toList ++ w.jobs

theorem OwnMade.cons {X : Crypto} {k : Ctx} {prove : List Validator → Job → Option Nat}
    {evs : List Event} {ev : Event} (h : OwnMade X k prove a0 body evs)
    (hn : ∀ d g keys, ev ≠ .ownAggregate d g keys) : OwnMade X k prove a0 body (ev :: evs) := by
  intro d g keys evs1 hs
  rcases List.suffix_cons_iff.1 hs with hs | hs
  · exact absurd (List.cons.inj hs).1.symm (hn _ _ _)
  · exact h _ _ _ _ hs

theorem OwnMade.append {X : Crypto} {k : Ctx} {prove : List Validator → Job → Option Nat}
    {evs : List Event} : ∀ {evs1 : List Event}, OwnMade X k prove a0 body evs →
    (∀ ev ∈ evs1, ∀ d g keys, ev ≠ .ownAggregate d g keys) → OwnMade X k prove a0 body (evs1 ++ evs)
  | [], h, _ => h
  | ev :: evs1, h, hn => (OwnMade.append h fun x hx => hn x (List.mem_cons_of_mem _ hx)).cons
      (hn ev List.mem_cons_self)

theorem Event.Caused.notOwn {ev : Event} {l : List Signed} {agg : Bool} (h : ev.Caused l agg) :
    ∀ d g keys, ev ≠ .ownAggregate d g keys := by
  intro d g keys e
  subst e
  exact h.elim

/-- What holds of a node after its actor went through `evs`. -/
structure AKept (c : VCtx) (a0 : State) (body : Option (List AggAtt)) (evs : List Event)
    (n : ANode) : Prop where
  reach : AReach c.ctx a0 body evs n.node.actor
  own : OwnMade c.X c.ctx (proveJob c.X) a0 body evs
  jobs : ∀ w ∈ n.workers, ∃ jobs, MadeJobs c a0 body evs w.vals jobs ∧ w.open.Sublist jobs
  mail : ∀ p ∈ n.mail, ∃ vals jobs j, MadeJobs c a0 body evs vals jobs ∧ j ∈ jobs ∧
    aggregateJob (proveJob c.X vals) j = .ok (some p.out)

/-- Some events of the actor that are not deliveries of own aggregates. -/
theorem AKept.run {evs evs1 : List Event} {n : ANode} {m : VNode} (h : AKept c a0 body evs n)
    (hr : AReach c.ctx a0 body (evs1 ++ evs) m.actor)
    (hn : ∀ ev ∈ evs1, ∀ d g keys, ev ≠ .ownAggregate d g keys) :
    AKept c a0 body (evs1 ++ evs) { n with node := m } :=
  ⟨hr, h.own.append hn, fun w hw => by
      obtain ⟨jobs, h1, h2⟩ := h.jobs w hw
      exact ⟨jobs, h1.mono (List.suffix_append _ _), h2⟩,
    fun p hp => by
      obtain ⟨vals, jobs, j, h1, h2⟩ := h.mail p hp
      exact ⟨vals, jobs, j, h1.mono (List.suffix_append _ _), h2⟩⟩

/-- Only the workers change, and get no jobs. -/
theorem AKept.workers {evs : List Event} {n m : ANode} (h : AKept c a0 body evs n)
    (hn : m.node = n.node) (hm : m.mail = n.mail)
    (hw : ∀ w ∈ m.workers, ∃ w0 ∈ n.workers, w.vals = w0.vals ∧
      w.open.Sublist w0.open) : AKept c a0 body evs m := by
  refine ⟨by rw [hn]; exact h.reach, h.own, fun w hwm => ?_, by rw [hm]; exact h.mail⟩
  obtain ⟨w0, h0, hv, hjs⟩ := hw w hwm
  obtain ⟨jobs, h1, h2⟩ := h.jobs w0 h0
  rw [hv]
  exact ⟨jobs, h1, hjs.trans h2⟩

theorem mem_modify {α : Type} {f : α → α} : ∀ {l : List α} {k : Nat} {x : α}, x ∈ l.modify k f →
    x ∈ l ∨ ∃ y ∈ l, l[k]? = some y ∧ x = f y
  | [], k, x, h => by simp at h
  | a :: l, 0, x, h => by
    rw [List.modify_zero_cons] at h
    rcases List.mem_cons.1 h with rfl | h
    · exact .inr ⟨a, List.mem_cons_self, rfl, rfl⟩
    · exact .inl (List.mem_cons_of_mem _ h)
  | a :: l, k + 1, x, h => by
    rw [List.modify_succ_cons] at h
    rcases List.mem_cons.1 h with rfl | h
    · exact .inl List.mem_cons_self
    · rcases mem_modify h with h | ⟨y, h1, h2, h3⟩
      · exact .inl (List.mem_cons_of_mem _ h)
      · exact .inr ⟨y, List.mem_cons_of_mem _ h1, by simpa using h2, h3⟩

theorem cancel_node (n : ANode) : n.cancel.node = n.node ∧ n.cancel.mail = n.mail ∧
    n.cancel.current = n.current := by
  unfold ANode.cancel
  split <;> exact ⟨rfl, rfl, rfl⟩

theorem cancel_workers (n : ANode) : ∃ k, n.cancel.workers =
    n.workers.modify k (fun w => { w with cancelled := true }) ∨ n.cancel.workers = n.workers := by
  unfold ANode.cancel
  split
  · exact ⟨0, .inr rfl⟩
  next k _ => exact ⟨k, .inl rfl⟩

theorem cancel_mem {n : ANode} {w : Running} (h : w ∈ n.cancel.workers) : ∃ w0 ∈ n.workers,
    w.vals = w0.vals ∧ w.id = w0.id ∧ w.publishAt = w0.publishAt ∧ w.open = w0.open := by
  obtain ⟨k, e | e⟩ := cancel_workers n <;> rw [e] at h
  · rcases mem_modify h with h | ⟨y, h1, -, rfl⟩
    · exact ⟨w, h, rfl, rfl, rfl, rfl⟩
    · exact ⟨y, h1, rfl, rfl, rfl, rfl⟩
  · exact ⟨w, h, rfl, rfl, rfl, rfl⟩

theorem AKept.cancel {evs : List Event} {n : ANode} (h : AKept c a0 body evs n) :
    AKept c a0 body evs n.cancel :=
  h.workers (cancel_node n).1 (cancel_node n).2.1 fun _ hw => by
    obtain ⟨w0, h1, h2, -, -, h3⟩ := cancel_mem hw
    exact ⟨w0, h1, h2, by rw [h3]⟩

theorem jobRounds_length {hist known : List Root} {n slot : Nat} : ∀ {k : Nat} {pool : AMap Root Job}
    {p : Projected} {js : List Job}, jobRounds hist known n slot k pool p = some js → js.length ≤ k
  | 0, _, _, _, h => by cases h; exact Nat.le_refl _
  | k + 1, pool, p, js, h => by
    unfold jobRounds at h
    split at h
    · cases h; exact Nat.zero_le _
    · obtain ⟨p', -, h⟩ := Option.bind_eq_some_iff.1 h
      obtain ⟨js1, h1, rfl⟩ := Option.map_eq_some_iff.1 h
      have := jobRounds_length h1
      simp only [List.length_cons]
      omega

/-- What starting a session does to the store, and its jobs. -/
theorem sessionJobs_run {sync : Tracker} {s s' : Store} {slot : Nat} {js : List Job}
    {vals : List Validator} (h : sessionJobs c sync s slot = .ok (js, vals, s')) :
    ∃ evs1 evs2 s1, SRun c.ctx.E Event.Quiet s evs1 s1 ∧ SRun c.ctx.E Event.Quiet s1 evs2 s' ∧
      js.length ≤ maxAggregationJobs ∧
      ∃ st known k, (∃ m, Db.getState s1.mem s1.mem.db.head = .ok (some st, m)) ∧
        snapshotJobs c.H (fun b => (c.X.decodeKey b).isSome) st s1.mem.db.head known
          ⟨s1.gossip, s1.newP, s1.knownP⟩ slot k = some js ∧ st.validators = vals := by
  unfold sessionJobs at h
  split at h
  · cases h
  next p s1 e1 =>
  simp only at h
  split at h
  · cases h
  next st s2 e2 =>
  split at h
  · cases h
  next js' e3 =>
  obtain ⟨rfl, rfl, rfl⟩ : js' = js ∧ st.validators = vals ∧ s2 = s' := by
    have := Except.ok.inj h
    simp only [Prod.mk.injEq] at this
    exact this
  refine ⟨_, _, s1, .ourProposer e1, .headState e2, ?_, st,
    s2.mem.db.liveChain.map (fun e => e.1.2),
    if p.isSome && sync.dutiesAllowed then 1 else maxAggregationJobs, ?_, ?_, rfl⟩
  · refine Nat.le_trans (jobRounds_length e3) ?_
    split
    · decide
    · exact Nat.le_refl _
  · unfold headState at e2
    split at e2
    · cases e2
    · cases e2
    next e =>
      cases e2
      unfold Store.getState at e
      split at e
      · cases e
      next x m hm => cases e; exact ⟨m, hm⟩
  · have f : s2.mem.db = s1.mem.db ∧ s2.newP = s1.newP ∧ s2.knownP = s1.knownP ∧
        s2.gossip = s1.gossip := by
      unfold headState at e2
      split at e2
      · cases e2
      · cases e2
      next e =>
        cases e2
        have := getState_frame e
        exact ⟨this.1, this.2.2.1, this.2.2.2.1, this.2.2.2.2.1⟩
    rw [← f.1, ← f.2.1, ← f.2.2.1, ← f.2.2.2]
    exact e3

/-- What starting a session does. -/
theorem start_cases {n n' : ANode} {slot : Nat} (h : n.start c slot = .ok n') :
    ∃ js vals s, sessionJobs c n.node.sync n.node.actor.store slot = .ok (js, vals, s) ∧
      n'.node = { n.node with actor := { n.node.actor with store := s } } ∧ n'.mail = n.mail ∧
      ((js = [] ∧ n'.current = none ∧ n'.workers = n.cancel.workers) ∨
       (n'.current = some (slot, n.cancel.workers.length) ∧ n'.workers = n.cancel.workers ++
        [⟨slot, s.genesisTime * 1000 + slot * msPerSlot + 2 * msPerInterval, vals, js, none,
          false⟩])) := by
  unfold ANode.start at h
  simp only at h
  obtain ⟨h1, h2, h3⟩ := cancel_node n
  rw [h1] at h
  split at h
  · cases h
  next js vals s e =>
  refine ⟨js, vals, s, e, ?_⟩
  split at h
  next hj => cases h; exact ⟨rfl, h2, .inl ⟨List.isEmpty_iff.1 hj, rfl, rfl⟩⟩
  · cases h; exact ⟨rfl, h2, .inr ⟨rfl, rfl⟩⟩

theorem AKept.start {evs : List Event} {n n' : ANode} {slot : Nat} (h : AKept c a0 body evs n)
    (e : n.start c slot = .ok n') :
    ∃ evs1, (∀ ev ∈ evs1, ev.Quiet) ∧ AKept c a0 body (evs1 ++ evs) n' := by
  obtain ⟨js, vals, s, e1, e2, e3, e4⟩ := start_cases e
  obtain ⟨evs1, evs2, s1, r1, r2, -, st, known, k, k1, k2, k3⟩ := sessionJobs_run e1
  have hq : ∀ ev : Event, ev.Quiet → (∀ sb, ev ≠ .block sb) ∧ ev ≠ .restart :=
    fun ev h => (h.caused (l := []) (agg := true)).notBlock
  have R1 := r1.areach hq h.reach
  have R2 := r2.areach (a := { n.node.actor with store := s1 }) hq R1
  have all : ∀ ev ∈ evs2 ++ evs1, ev.Quiet := by
    intro ev hev
    rcases List.mem_append.1 hev with hev | hev
    · exact r2.all ev hev
    · exact r1.all ev hev
  have K := (h.cancel).run (evs1 := evs2 ++ evs1)
    (m := { n.node with actor := { n.node.actor with store := s } })
    (by rw [List.append_assoc]; exact R2)
    (fun ev hev => (all ev hev |>.caused (l := []) (agg := true)).notOwn)
  refine ⟨evs2 ++ evs1, all, by rw [e2]; exact K.reach, K.own, fun w hw => ?_,
    by rw [e3]; have := K.mail; rwa [show ({ n.cancel with node := _ } : ANode).mail = n.mail from
      (cancel_node n).2.1] at this⟩
  rcases e4 with ⟨-, -, e4⟩ | ⟨-, e4⟩ <;> rw [e4] at hw
  · exact K.jobs w hw
  · rcases List.mem_append.1 hw with hw | hw
    · exact K.jobs w hw
    · obtain rfl := List.mem_singleton.1 hw
      exact ⟨js, ⟨evs1 ++ evs, _, st, known, slot, k,
        by rw [List.append_assoc]; exact List.suffix_append _ _, R1, k1, k2, k3⟩, List.Sublist.refl _⟩

theorem AKept.early {evs : List Event} {n n' : ANode} {now : Nat} {agg : Bool}
    (h : AKept c a0 body evs n) (e : n.early c u now agg = .ok n') :
    ∃ evs1, (∀ ev ∈ evs1, ev.Quiet) ∧ AKept c a0 body (evs1 ++ evs) n' := by
  unfold ANode.early at e
  split at e
  · cases e; exact ⟨[], fun _ h => (by cases h), h⟩
  split at e
  · cases e
  next st s e1 =>
  have r : SRun c.ctx.E Event.Quiet _ _ s := .headState e1
  have hq : ∀ ev : Event, ev.Quiet → (∀ sb, ev ≠ .block sb) ∧ ev ≠ .restart :=
    fun ev h => (h.caused (l := []) (agg := true)).notBlock
  have K := h.run (m := { n.node with actor := { n.node.actor with store := s } })
    (r.areach hq h.reach) (fun ev hev => ((r.all ev hev).caused (l := []) (agg := true)).notOwn)
  simp only at e
  split at e
  · cases e; exact ⟨_, r.all, K⟩
  · obtain ⟨evs1, q, K'⟩ := K.start e
    refine ⟨evs1 ++ _, ?_, by rw [List.append_assoc]; exact K'⟩
    intro ev hev
    rcases List.mem_append.1 hev with hev | hev
    · exact q ev hev
    · exact r.all ev hev

theorem other_cases {n n' : ANode} {ev : Event} (e : n.other c ev = .ok n') :
    ∃ a f, n.node.actor.step c.ctx ev = .ok (a, f) ∧ n'.node.actor = a ∧ n'.current = n.current ∧
      n'.workers = n.workers ∧ n'.mail = n.mail := by
  unfold ANode.other VNode.step at e
  simp only at e
  split at e
  · cases e
  next m x e1 =>
    split at e1
    · cases e1
    next a f e2 => cases e1; cases e; exact ⟨a, f, e2, rfl, rfl, rfl, rfl⟩

theorem AKept.other {evs : List Event} {n n' : ANode} {ev : Event} (h : AKept c a0 body evs n)
    (e : n.other c ev = .ok n') (hn : ∀ d g keys, ev ≠ .ownAggregate d g keys) :
    AKept c a0 body (ev :: evs) n' := by
  obtain ⟨a, f, e1, e2, -, e4, e5⟩ := other_cases e
  have K := h.run (evs1 := [ev]) (m := n'.node) (by rw [e2]; exact .step h.reach e1)
    (fun x hx => by obtain rfl := List.mem_singleton.1 hx; exact hn)
  exact ⟨K.reach, K.own, by rw [e4]; exact K.jobs, by rw [e5]; exact K.mail⟩

theorem next_cases (w : Running) : w.next.vals = w.vals ∧ w.next.id = w.id ∧
    w.next.publishAt = w.publishAt ∧ w.next.open.Sublist w.open := by
  unfold Running.next Running.open
  split
  next j js h1 h2 =>
    split
    · refine ⟨rfl, rfl, rfl, ?_⟩
      simp [h1]
    · refine ⟨rfl, rfl, rfl, ?_⟩
      simp [h1, h2]
  · exact ⟨rfl, rfl, rfl, List.Sublist.refl _⟩

theorem done_cases (X : Crypto) (w : Running) (now : Nat) :
    (w.done X now).1.vals = w.vals ∧ (w.done X now).1.id = w.id ∧
    (w.done X now).1.publishAt = w.publishAt ∧
    (((w.done X now).2 = [] ∧ (w.done X now).1.open.Sublist w.open) ∨
     ∃ j o, w.open = j :: (w.done X now).1.open ∧
      aggregateJob (proveJob X w.vals) j = .ok (some o) ∧
      (w.done X now).2 = [⟨w.id, o, max now w.publishAt⟩]) := by
  unfold Running.done
  split
  · exact ⟨rfl, rfl, rfl, .inl ⟨rfl, List.Sublist.refl _⟩⟩
  next j hj =>
    unfold Running.open
    split
    · exact ⟨rfl, rfl, rfl, .inl ⟨rfl, by simp⟩⟩
    · exact ⟨rfl, rfl, rfl, .inl ⟨rfl, by simp⟩⟩
    next o ho => exact ⟨rfl, rfl, rfl, .inr ⟨j, o, by simp [hj], ho, rfl⟩⟩

theorem mem_set_cases {α : Type} {l : List α} {k : Nat} {x y : α} (h : x ∈ l.set k y) :
    x ∈ l ∨ x = y := List.mem_or_eq_of_mem_set h

/-- An event accounted for: it came from outside, or was caused by the timer, or delivers an aggregate
that is published. -/
def Accounted (aevs : List AEvent) (out : List Signed) (pub : List Published) (ev : Event) : Prop :=
  (∃ x ∈ aevs, x.outer = some ev) ∨ (∃ agg, ev.Caused out agg) ∨
    ∃ p ∈ pub, ∃ keys, ev = .ownAggregate p.data p.agg keys

theorem Accounted.mono {aevs aevs' : List AEvent} {out out' : List Signed} {pub pub' : List Published}
    {ev : Event} (h1 : aevs ⊆ aevs') (h2 : out ⊆ out') (h3 : pub ⊆ pub')
    (h : Accounted aevs out pub ev) : Accounted aevs' out' pub' ev := by
  rcases h with ⟨x, hx, h⟩ | ⟨agg, h⟩ | ⟨p, hp, h⟩
  · exact .inl ⟨x, h1 hx, h⟩
  · exact .inr (.inl ⟨agg, h.mono h2⟩)
  · exact .inr (.inr ⟨p, h3 hp, h⟩)

/-- One step: some events of the actor, each accounted for. -/
theorem AKept.step {evs : List Event} {n n' : ANode} {ev : AEvent} {l : List Signed}
    {p : List Published} (h : AKept c a0 body evs n) (e : n.step c u ev = .ok (n', l, p)) :
    ∃ evs1, AKept c a0 body (evs1 ++ evs) n' ∧ (∀ x ∈ evs1, Accounted [ev] l p x) ∧
      ∀ q ∈ p, ∃ keys, Event.ownAggregate q.data q.agg keys ∈ evs1 := by
  have quiet : ∀ x : Event, x.Quiet → Accounted [ev] l p x := fun x hx => .inr (.inl ⟨true, hx.caused⟩)
  have outer : ∀ {x : Event} {m : ANode}, (∀ d g keys, x ≠ .ownAggregate d g keys) →
      ev.outer = some x → (n.other c x).map (fun n => (n, ([] : List Signed), ([] : List Published))) =
        .ok (n', l, p) →
      ∃ evs1, AKept c a0 body (evs1 ++ evs) n' ∧ (∀ x ∈ evs1, Accounted [ev] l p x) ∧
        ∀ q ∈ p, ∃ keys, Event.ownAggregate q.data q.agg keys ∈ evs1 := by
    intro x m hn ho e
    cases e1 : n.other c x with
    | error k => rw [e1] at e; cases e
    | ok n1 =>
      rw [e1] at e
      cases e
      refine ⟨[x], h.other e1 hn, fun y hy => ?_, fun q hq => (by cases hq)⟩
      obtain rfl := List.mem_singleton.1 hy
      exact .inl ⟨ev, List.mem_singleton.2 rfl, ho⟩
  cases ev with
  | timer now agg =>
    unfold ANode.step at e
    simp only at e
    split at e
    · cases e
    next m l' e1 =>
    obtain ⟨evs1, r1, hm⟩ := tick_run e1
    have K := h.run (m := m) (by rw [hm]; exact r1.areach (fun ev he => he.notBlock) h.reach)
      (fun x hx => (r1.all x hx).notOwn)
    split at e
    · cases e
    next n2 e2 =>
    cases e
    unfold ANode.tickSession at e2
    simp only at e2
    have base : ∀ x ∈ evs1, Accounted [AEvent.timer now agg] l [] x :=
      fun x hx => .inr (.inl ⟨agg, r1.all x hx⟩)
    split at e2
    · cases e2; exact ⟨evs1, K, base, fun q hq => (by cases hq)⟩
    split at e2
    · obtain ⟨evs2, q, K2⟩ := K.start e2
      refine ⟨evs2 ++ evs1, by rw [List.append_assoc]; exact K2, fun x hx => ?_,
        fun q hq => (by cases hq)⟩
      rcases List.mem_append.1 hx with hx | hx
      · exact quiet x (q x hx)
      · exact base x hx
    · cases e2; exact ⟨evs1, K, base, fun q hq => (by cases hq)⟩
  | block sb => exact outer (m := n) (fun _ _ _ h => by cases h) rfl e
  | aggregate d a => exact outer (m := n) (fun _ _ _ h => by cases h) rfl e
  | attestation v d sig now agg =>
    unfold ANode.step at e
    simp only at e
    split at e
    · cases e
    next n1 e1 =>
    have K := h.other e1 (fun _ _ _ h => by cases h)
    have out : Accounted [AEvent.attestation v d sig now agg] l p (.attestation v d sig agg) :=
      .inl ⟨_, List.mem_singleton.2 rfl, rfl⟩
    split at e
    · cases e2 : n1.early c u now agg with
      | error k => rw [e2] at e; cases e
      | ok n2 =>
        rw [e2] at e
        cases e
        obtain ⟨evs2, q, K2⟩ := K.early e2
        refine ⟨evs2 ++ [_], by rw [List.append_assoc]; exact K2, fun x hx => ?_,
          fun q hq => (by cases hq)⟩
        rcases List.mem_append.1 hx with hx | hx
        · exact quiet x (q x hx)
        · obtain rfl := List.mem_singleton.1 hx
          exact out
    · cases e
      refine ⟨[_], K, fun x hx => ?_, fun q hq => (by cases hq)⟩
      obtain rfl := List.mem_singleton.1 hx
      exact out
  | check now agg =>
    unfold ANode.step at e
    simp only at e
    cases e2 : n.early c u now agg with
    | error k => rw [e2] at e; cases e
    | ok n2 =>
      rw [e2] at e
      cases e
      obtain ⟨evs2, q, K2⟩ := h.early e2
      exact ⟨evs2, K2, fun x hx => quiet x (q x hx), fun q hq => (by cases hq)⟩
  | begin k =>
    unfold ANode.step at e
    cases e
    refine ⟨[], h.workers rfl rfl fun w hw => ?_, fun x hx => (by cases hx), fun q hq => (by cases hq)⟩
    rcases mem_modify hw with hw | ⟨y, h1, -, rfl⟩
    · exact ⟨w, hw, rfl, List.Sublist.refl _⟩
    · exact ⟨y, h1, (next_cases y).1, (next_cases y).2.2.2⟩
  | finish k now =>
    unfold ANode.step at e
    simp only at e
    split at e
    · cases e; exact ⟨[], h, fun x hx => (by cases hx), fun q hq => (by cases hq)⟩
    next w hw =>
    cases e
    have hw := List.mem_of_getElem? hw
    obtain ⟨d1, -, -, d5⟩ := done_cases c.X w now
    have K := h.workers (m := { n with workers := n.workers.set k (w.done c.X now).1 }) rfl rfl
      (fun x hx => by
        rcases mem_set_cases hx with hx | rfl
        · exact ⟨x, hx, rfl, List.Sublist.refl _⟩
        · refine ⟨w, hw, d1, ?_⟩
          rcases d5 with ⟨-, d5⟩ | ⟨j, o, d5, -⟩
          · exact d5
          · rw [d5]; exact List.sublist_cons_self _ _)
    refine ⟨[], ⟨K.reach, K.own, K.jobs, fun x hx => ?_⟩, fun x hx => (by cases hx),
      fun q hq => (by cases hq)⟩
    rcases List.mem_append.1 hx with hx | hx
    · exact h.mail x hx
    · rcases d5 with ⟨d5, -⟩ | ⟨j, o, j1, j2, d5⟩ <;> rw [d5] at hx
      · cases hx
      · obtain rfl := List.mem_singleton.1 hx
        obtain ⟨jobs, m1, m2⟩ := h.jobs w hw
        exact ⟨w.vals, jobs, j, m1, m2.subset (by rw [j1]; exact List.mem_cons_self), j2⟩
  | deliver k now =>
    unfold ANode.step at e
    simp only at e
    split at e
    · cases e; exact ⟨[], h, fun x hx => (by cases hx), fun q hq => (by cases hq)⟩
    next q hq =>
    split at e
    · cases e; exact ⟨[], h, fun x hx => (by cases hx), fun q hq => (by cases hq)⟩
    split at e
    · cases e
    next n1 l1 e1 =>
    cases e
    have K : AKept c a0 body evs { n with mail := n.mail.eraseIdx k } :=
      ⟨h.reach, h.own, h.jobs, fun x hx => h.mail x (List.mem_of_mem_eraseIdx hx)⟩
    unfold ANode.take at e1
    split at e1
    · cases e1; exact ⟨[], K, fun x hx => (by cases hx), fun q hq => (by cases hq)⟩
    split at e1
    · cases e1
    next n2 e2 =>
    cases e1
    obtain ⟨a, f, s1, s2, -, s4, s5⟩ := other_cases e2
    obtain ⟨vals, jobs, j, m1, mj, m2⟩ := h.mail q (List.mem_of_getElem? hq)
    have suf : evs <:+ Event.ownAggregate q.out.data q.out.proof q.out.keysToDelete :: evs :=
      List.suffix_cons _ _
    refine ⟨[.ownAggregate q.out.data q.out.proof q.out.keysToDelete],
      ⟨by rw [s2]; exact .step h.reach s1, ?_, ?_, ?_⟩, fun x hx => ?_, fun x hx => ?_⟩
    · intro d g keys evs1 hs
      rcases List.suffix_cons_iff.1 hs with hs | hs
      · obtain ⟨g1, rfl⟩ := List.cons.inj hs
        cases g1
        obtain ⟨evs0, a1, st, known, slot, k, k1, k2, k3, k4, rfl⟩ := m1
        exact ⟨evs0, a1, st, known, slot, k, jobs, j, q.out, k1, k2, k3, k4, mj, m2, rfl, rfl⟩
      · exact h.own _ _ _ _ hs
    · rw [s4]
      intro w hw
      obtain ⟨jobs, h1, h2⟩ := h.jobs w hw
      exact ⟨jobs, h1.mono suf, h2⟩
    · rw [s5]
      intro x hx
      obtain ⟨vals, jobs, j, h1, h2⟩ := K.mail x hx
      exact ⟨vals, jobs, j, h1.mono suf, h2⟩
    · obtain rfl := List.mem_singleton.1 hx
      exact .inr (.inr ⟨_, List.mem_singleton.2 rfl, _, rfl⟩)
    · obtain rfl := List.mem_singleton.1 hx
      exact ⟨_, List.mem_singleton.2 rfl⟩
  | deadline id =>
    unfold ANode.step at e
    cases e
    refine ⟨[], ?_, fun x hx => (by cases hx), fun q hq => (by cases hq)⟩
    split
    · exact h.cancel
    · exact h
  | restart =>
    unfold ANode.step at e
    simp only at e
    cases e1 : n.other c .restart with
    | error k => rw [e1] at e; cases e
    | ok n1 =>
      rw [e1] at e
      cases e
      have K := h.other e1 (fun _ _ _ h => by cases h)
      refine ⟨[.restart], ⟨K.reach, K.own, fun w hw => (by cases hw), fun q hq => (by cases hq)⟩,
        fun x hx => ?_, fun q hq => (by cases hq)⟩
      obtain rfl := List.mem_singleton.1 hx
      exact .inl ⟨_, List.mem_singleton.2 rfl, rfl⟩

theorem ANode.Fresh.kept {n : ANode} (h : n.Fresh c a0 body) : AKept c a0 body [] n :=
  ⟨.init h.init, fun d g keys evs1 hs => by simpa using hs.length_le,
    fun w hw => (by rw [h.workers] at hw; cases hw), fun p hp => by rw [h.mail] at hp; cases hp⟩

/-- A run of the node as a run of its actor. -/
theorem ANRun.kept {n m : ANode} {aevs : List AEvent} {out : List Signed} {pub : List Published}
    (h0 : n.Fresh c a0 body) (h : ANRun c u n aevs m out pub) :
    ∃ evs, AKept c a0 body evs m ∧ (∀ x ∈ evs, Accounted aevs out pub x) ∧
      ∀ q ∈ pub, ∃ keys, Event.ownAggregate q.data q.agg keys ∈ evs := by
  induction h with
  | nil => exact ⟨[], h0.kept, fun x hx => (by cases hx), fun x hx => by cases hx⟩
  | step _ e ih =>
    obtain ⟨evs, K, h1, h2⟩ := ih
    obtain ⟨evs1, K1, k1, k2⟩ := K.step e
    refine ⟨evs1 ++ evs, K1, fun x hx => ?_, fun q hq => ?_⟩
    · rcases List.mem_append.1 hx with hx | hx
      · exact (k1 x hx).mono (by simp) (List.subset_append_right _ _) (List.subset_append_right _ _)
      · exact (h1 x hx).mono (List.subset_cons_self _ _) (List.subset_append_left _ _)
          (List.subset_append_left _ _)
    · rcases List.mem_append.1 hq with hq | hq
      · obtain ⟨keys, hk⟩ := h2 q hq
        exact ⟨keys, List.mem_append_right _ hk⟩
      · obtain ⟨keys, hk⟩ := k2 q hq
        exact ⟨keys, List.mem_append_left _ hk⟩

end

end Verif.Node
