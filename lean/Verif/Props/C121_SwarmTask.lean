import Verif.Lemmas.SwarmTask
import Verif.Spec.SwarmTask
import Verif.Props.C74_Records

/-
C121: the network actor and the task that owns the swarm keep requests and answers together.

The theorems on fetching and syncing (C48, C50, C69, C72 to C76 and others) are about `PRun`, where an event is handled
in one go.  Here the tasks run side by side: the actor waits for the id of a request while answers, timers and other
messages arrive, and the swarm task may end at any moment.
-/

namespace Verif.Net

open Verif

theorem trun_sim {ord : AMap Peer Nat → AMap Peer Nat} {acts : List TAct} {tr : List (PEvent × List POut)}
    {t : Tasks} (h : TRun ord acts tr t) : ∃ w, PRun ord PWorld.init tr w ∧ Sim ord t w := by
  induction h with
  | nil => exact ⟨_, PRun.nil, Sim.init ord⟩
  | snoc _ ha ih =>
    obtain ⟨w, h1, h2⟩ := ih
    exact h2.act h1 ha

theorem owes_iff (t : Tasks) (q : ReqId × Peer) : t.owes q ↔ q ∈ t.open_ ++ answersIn t.mailbox := by
  unfold Tasks.owes answersIn
  rw [List.mem_append, List.mem_filterMap]

/-- **C121, one handler at a time.** However the two tasks are interleaved, what the actor has done is a run of the
model in which every event is handled in one go: the same events in the same order, the same outputs, the same
state.  Between two handlers that model and the two tasks also agree on the open requests. -/
theorem C121_atomic {ord : AMap Peer Nat → AMap Peer Nat} {acts : List TAct} {tr : List (PEvent × List POut)}
    {t : Tasks} (h : TRun ord acts tr t) :
    ∃ w, PRun ord PWorld.init tr w ∧ w.srv = t.srv ∧
      (t.busy = none → (∀ q, q ∈ w.inflight ↔ t.owes q) ∧ w.next = t.nextId) := by
  obtain ⟨w, h1, h2⟩ := trun_sim h
  refine ⟨w, h1, h2.srv, fun hb => ⟨fun q => ?_, (h2.idle hb).next⟩⟩
  rw [owes_iff]
  exact (h2.idle hb).fly.mem_iff.symm

/-- **C121, no answer comes too early.** The actor handles an answer only after it has put the request on record, even
if the swarm had the answer before the actor had the id. -/
theorem C121_recorded {ord : AMap Peer Nat → AMap Peer Nat} {acts : List TAct} {tr : List (PEvent × List POut)}
    {t : Tasks} (h : TRun ord acts tr t) {e : PEvent} {q : ReqId × Peer} (hq : e.answers = some q)
    (he : t.busy = some e ∨ t.busy = none ∧ ∃ l, t.mailbox = e :: l) :
    ∃ k, t.srv.outbound.get? q.1 = some k := by
  obtain ⟨w, h1, h2⟩ := trun_sim h
  rw [← h2.srv]
  have ok : w.allows e := by
    rcases he with he | ⟨hb, l, hm⟩
    · obtain ⟨p, i⟩ := h2.waits e he
      exact i.ok
    · exact (h2.head hb hm).1
  have hmem : q ∈ w.inflight := by
    cases e <;> simp only [PEvent.answers, reduceCtorEq, Option.some.injEq] at hq <;> (subst hq; exact ok)
  exact (C74_partial h1).1 q hmem

theorem sentAs_sentAs (a b : Bool) (e : PEvent) : (e.sentAs b).sentAs a = e.sentAs a := by cases e <;> rfl

theorem order_act {ord : AMap Peer Nat → AMap Peer Nat} {t t' : Tasks} {x : TAct}
    {done : List (PEvent × List POut)} (ha : t.act ord x = some (t', done)) :
    unflagged (done.map Prod.fst ++ t'.busy.toList ++ t'.mailbox)
      = unflagged (t.busy.toList ++ t.mailbox ++ x.message.toList) := by
  cases x with
  | arrive e =>
    simp only [Tasks.act] at ha
    split at ha
    · cases ha; simp [TAct.message]
    · cases ha
  | answer e =>
    simp only [Tasks.act] at ha
    split at ha
    · cases ha
    · split at ha
      · cases ha; simp [TAct.message]
      · cases ha
  | fire r pick =>
    simp only [Tasks.act] at ha
    split at ha
    · cases ha; simp [TAct.message]
    · cases ha
  | begin =>
    simp only [Tasks.act] at ha
    split at ha
    · rename_i hb hm
      split at ha
      · cases ha; simp [TAct.message, unflagged, hb, hm, sentAs_sentAs]
      · split at ha
        · cases ha; simp [TAct.message, unflagged, hb, hm, sentAs_sentAs]
        · cases ha; simp [TAct.message, unflagged, hb, hm]
    · cases ha
  | take =>
    simp only [Tasks.act] at ha
    split at ha
    · cases ha
    · split at ha
      · cases ha
      · cases ha; simp [TAct.message]
  | resume =>
    simp only [Tasks.act] at ha
    split at ha
    · rename_i hb _
      cases ha; simp [TAct.message, unflagged, hb, sentAs_sentAs]
    · rename_i hb _
      split at ha
      · cases ha; simp [TAct.message, unflagged, hb, sentAs_sentAs]
      · cases ha
    · cases ha
  | close =>
    simp only [Tasks.act] at ha
    cases ha; simp [TAct.message]

/-- **C121, no message is lost or overtaken.** The messages handled, the one being handled and those waiting are, in
this order, all messages that reached the mailbox. -/
theorem C121_order {ord : AMap Peer Nat → AMap Peer Nat} {acts : List TAct} {tr : List (PEvent × List POut)}
    {t : Tasks} (h : TRun ord acts tr t) :
    unflagged (arrivals acts) = unflagged (tr.map Prod.fst ++ t.busy.toList ++ t.mailbox) := by
  induction h with
  | nil => rfl
  | @snoc acts tr t t' x done hrun ha ih =>
    have hs := order_act ha
    have e1 : arrivals (acts ++ [x]) = arrivals acts ++ x.message.toList := by
      unfold arrivals
      rw [List.filterMap_append]
      cases hx : x.message <;> simp [hx]
    unfold unflagged at *
    simp only [e1, List.map_append, ih, List.append_assoc] at hs ⊢
    rw [hs]

theorem executed_nextId {ord : AMap Peer Nat → AMap Peer Nat} {acts : List TAct} {tr : List (PEvent × List POut)}
    {t : Tasks} (h : TRun ord acts tr t) : executed acts = t.nextId := by
  induction h with
  | nil => rfl
  | @snoc acts tr t t' x done hrun ha ih =>
    have e1 : executed (acts ++ [x]) = executed acts + executed [x] := by
      unfold executed; rw [List.filter_append, List.length_append]
    rw [e1, ih]
    cases x with
    | arrive e =>
      simp only [Tasks.act] at ha
      split at ha <;> cases ha
      rfl
    | answer e =>
      simp only [Tasks.act] at ha
      split at ha
      · cases ha
      · split at ha <;> cases ha
        rfl
    | fire r pick =>
      simp only [Tasks.act] at ha
      split at ha <;> cases ha
      rfl
    | begin =>
      simp only [Tasks.act] at ha
      split at ha
      · split at ha
        · cases ha; rfl
        · split at ha <;> cases ha <;> rfl
      · cases ha
    | take =>
      simp only [Tasks.act] at ha
      split at ha
      · cases ha
      · split at ha <;> cases ha
        rfl
    | resume =>
      simp only [Tasks.act] at ha
      split at ha
      · cases ha; rfl
      · split at ha <;> cases ha
        rfl
      · cases ha
    | close =>
      simp only [Tasks.act] at ha
      cases ha; rfl

theorem prun_ids {ord : AMap Peer Nat → AMap Peer Nat} {tr : List (PEvent × List POut)} {w : PWorld}
    (h : PRun ord PWorld.init tr w) : (sends (outputs tr)).map Prod.fst = List.range w.next := by
  induction h with
  | nil => rfl
  | @snoc w tr e hrun ha ih =>
    rw [outputs_snoc, sends_append, List.map_append, ih]
    show List.range w.next ++ (sends (w.srv.step ord w.next e).2).map Prod.fst
      = List.range (w.next + (sends (w.srv.step ord w.next e).2).length)
    obtain ⟨b, hb⟩ : ∃ b, e.sentAs b = e := by
      cases e
      all_goals first
        | exact ⟨_, rfl⟩
        | exact ⟨true, rfl⟩
    rw [← hb]
    rcases step_shape ord w.srv e b with ⟨res, h1, h2⟩ | ⟨-, p, h1⟩
    · replace h2 : ∀ id, w.srv.step ord id (e.sentAs b) = res := h2
      rw [h2, h1]
      simp
    · replace h1 : ∀ id, sends (w.srv.step ord id (e.sentAs b)).2 = [(id, p)] := h1
      rw [h1]
      simp [List.range_succ]

/-- **C121, each request is carried out once.** The requests in the outputs of the actor have the ids that the swarm
task has given out, each once and in order; at most the last id has not reached the actor yet. -/
theorem C121_once {ord : AMap Peer Nat → AMap Peer Nat} {acts : List TAct} {tr : List (PEvent × List POut)}
    {t : Tasks} (h : TRun ord acts tr t) :
    (sends (outputs tr)).map Prod.fst ++ t.reply.toList = List.range (executed acts) := by
  obtain ⟨w, h1, h2⟩ := trun_sim h
  rw [prun_ids h1, executed_nextId h]
  cases hb : t.busy with
  | none =>
    have i := h2.idle hb
    rw [i.reply, i.next]
    exact List.append_nil _
  | some e =>
    obtain ⟨p, i⟩ := h2.waits e hb
    rcases i.fly with ⟨a, -, c, -⟩ | ⟨a, -, c, -⟩
    · rw [a, c]
      exact List.append_nil _
    · rw [a, c, List.range_succ]
      rfl

/-- **C121, no deadlock.** A handler that waits for an id ends, whatever else has happened: it can go on at once, or
after the swarm task has executed the only command in the channel. -/
theorem C121_progress {ord : AMap Peer Nat → AMap Peer Nat} {acts : List TAct} {tr : List (PEvent × List POut)}
    {t : Tasks} (h : TRun ord acts tr t) {e : PEvent} (he : t.busy = some e) :
    (∃ t' b outs, t.act ord .resume = some (t', [(e.sentAs b, outs)]) ∧ t'.busy = none) ∨
    (t.cmds.length = 1 ∧ ∃ t1 t2 outs, t.act ord .take = some (t1, []) ∧
      t1.act ord .resume = some (t2, [(e.sentAs true, outs)]) ∧ t2.busy = none) := by
  obtain ⟨w, h1, h2⟩ := trun_sim h
  obtain ⟨p, i⟩ := h2.waits e he
  rcases i.fly with ⟨a, ⟨b, c⟩ | ⟨-, c⟩, -⟩ | ⟨a, -⟩
  · refine .inr ⟨by rw [b]; rfl, ?_⟩
    simp only [Tasks.act, b, c, he]
    exact ⟨_, _, _, rfl, rfl, rfl⟩
  · refine .inl ?_
    simp only [Tasks.act, a, c, he]
    exact ⟨_, false, _, rfl, rfl⟩
  · refine .inl ?_
    simp only [Tasks.act, a, he]
    exact ⟨_, true, _, rfl, rfl⟩

/-- **C121, after the end of the swarm task.** Once the swarm task has ended and no id is on its way, no request is
sent any more; handlers that would send one end without waiting. -/
theorem C121_closed {ord : AMap Peer Nat → AMap Peer Nat} {t : Tasks} (hc : t.closed = true) (hr : t.reply = none)
    {x : TAct} {t' : Tasks} {done : List (PEvent × List POut)} (hx : t.act ord x = some (t', done)) :
    sends (outputs done) = [] ∧ t'.closed = true ∧ t'.reply = none ∧ (t.busy = none → t'.busy = none) := by
  have one : ∀ (t : Tasks) (e : PEvent) (b : Bool), sends (t.srv.step ord 0 (e.sentAs b)).2 = [] →
      sends (outputs (t.finish ord e 0 b).2) = [] := by
    intro t e b h
    show sends ((t.srv.step ord 0 (e.sentAs b)).2 ++ []) = []
    rw [List.append_nil, h]
  cases x with
  | arrive e =>
    simp only [Tasks.act] at hx
    split at hx <;> cases hx
    exact ⟨rfl, hc, hr, id⟩
  | answer e =>
    simp only [Tasks.act] at hx
    split at hx
    · cases hx
    · split at hx <;> cases hx
      exact ⟨rfl, hc, hr, id⟩
  | fire r pick =>
    simp only [Tasks.act] at hx
    split at hx <;> cases hx
    exact ⟨rfl, hc, hr, id⟩
  | begin =>
    simp only [Tasks.act] at hx
    split at hx
    · rename_i e l hb hm
      split at hx
      · rename_i hw
        cases hx
        exact ⟨one _ e true (wants_none hw 0).1, hc, rfl, fun _ => rfl⟩
      · rw [if_pos hc] at hx
        cases hx
        exact ⟨one _ e false (unsent_step ord _ e 0).1, hc, rfl, fun _ => rfl⟩
    · cases hx
  | take =>
    simp only [Tasks.act] at hx
    split at hx
    · cases hx
    · rw [if_pos hc] at hx
      cases hx
  | resume =>
    simp only [Tasks.act] at hx
    split at hx
    · rename_i h
      rw [hr] at h; cases h
    · rename_i e _ _
      rw [if_pos hc] at hx
      cases hx
      exact ⟨one _ e false (unsent_step ord _ e 0).1, hc, rfl, fun _ => rfl⟩
    · cases hx
  | close =>
    simp only [Tasks.act] at hx
    cases hx
    exact ⟨rfl, rfl, hr, id⟩

/-! ### A concrete case -/

namespace Witness

/-- The actions one after the other. -/
def runTasks (ord : AMap Peer Nat → AMap Peer Nat) : List TAct → Tasks → List (PEvent × List POut) →
    Option (Tasks × List (PEvent × List POut))
  | [], t, tr => some (t, tr)
  | x :: xs, t, tr =>
    match t.act ord x with
    | none => none
    | some (t', done) => runTasks ord xs t' (tr ++ done)

theorem runTasks_run {ord : AMap Peer Nat → AMap Peer Nat} : ∀ (xs acts : List TAct) (t : Tasks)
    (tr : List (PEvent × List POut)) (r : Tasks × List (PEvent × List POut)), TRun ord acts tr t →
    runTasks ord xs t tr = some r → TRun ord (acts ++ xs) r.2 r.1
  | [], acts, t, tr, r, h, hr => by
    cases hr
    rw [List.append_nil]; exact h
  | x :: xs, acts, t, tr, r, h, hr => by
    unfold runTasks at hr
    split at hr
    · cases hr
    · rename_i t' done ha
      have := runTasks_run xs (acts ++ [x]) t' _ r (h.snoc ha) hr
      rwa [List.append_assoc] at this

/-- Peer 7 connects and block 3 is wanted; the swarm has both sent the request and received the block before the actor
reads the id.  A second block is wanted meanwhile. -/
def early : List TAct :=
  [.arrive (.connected 7), .arrive .initChain, .arrive (.fetch 3 0 true), .begin, .begin, .begin, .take,
   .answer (.blocks 0 7 [⟨3, 12⟩] true), .arrive (.fetch 4 0 true)]

/-- Then the actor goes on. -/
def late : List TAct := [.resume, .begin, .begin, .take, .resume]

/-- The answer is in the mailbox although the request is not on record yet. -/
example : ∃ t tr, TRun id early tr t ∧ t.busy = some (.fetch 3 0 true) ∧ t.reply = some 0 ∧
    (∃ e l, t.mailbox = e :: l ∧ e.answers = some (0, 7)) ∧ t.srv.outbound.get? 0 = none ∧
    executed early = 1 ∧ sends (outputs tr) = [] := by
  have h : (runTasks id early Tasks.init []).isSome = true := by decide +kernel
  obtain ⟨r, hr⟩ := Option.isSome_iff_exists.1 h
  refine ⟨r.1, r.2, by simpa using runTasks_run early [] _ _ r TRun.nil hr, ?_⟩
  have e : r = ((runTasks id early Tasks.init []).getD (Tasks.init, [])) := by rw [hr]; rfl
  subst e
  exact ⟨rfl, rfl, ⟨_, _, rfl, rfl⟩, rfl, rfl, rfl⟩

/-- In the end the block has been forwarded and the second request sent. -/
example : ∃ t tr, TRun id (early ++ late) tr t ∧ t.busy = none ∧
    outputs tr = [.sendRoot 0 7 3, .closed 3, .forward ⟨3, 12⟩, .sendRoot 1 7 4] ∧
    t.open_ = [(1, 7)] ∧ t.srv.outbound.get? 0 = none ∧ t.srv.outbound.get? 1 = some (.root 4) := by
  have h : (runTasks id (early ++ late) Tasks.init []).isSome = true := by decide +kernel
  obtain ⟨r, hr⟩ := Option.isSome_iff_exists.1 h
  refine ⟨r.1, r.2, by simpa using runTasks_run (early ++ late) [] _ _ r TRun.nil hr, ?_⟩
  have e : r = ((runTasks id (early ++ late) Tasks.init []).getD (Tasks.init, [])) := by rw [hr]; rfl
  subst e
  exact ⟨rfl, rfl, rfl, rfl, rfl⟩

/-- The swarm task ends while the actor waits: the handler ends without a request. -/
example : ∃ t tr, TRun id [.arrive (.connected 7), .arrive (.fetch 3 0 true), .begin, .begin, .close, .resume] tr t ∧
    t.busy = none ∧ outputs tr = [] ∧ t.closed = true ∧ t.srv.pending = [] := by
  have h : (runTasks id [.arrive (.connected 7), .arrive (.fetch 3 0 true), .begin, .begin, .close, .resume]
    Tasks.init []).isSome = true := by decide +kernel
  obtain ⟨r, hr⟩ := Option.isSome_iff_exists.1 h
  refine ⟨r.1, r.2, by simpa using runTasks_run _ [] _ _ r TRun.nil hr, ?_⟩
  have e : r = ((runTasks id [.arrive (.connected 7), .arrive (.fetch 3 0 true), .begin, .begin, .close, .resume]
    Tasks.init []).getD (Tasks.init, [])) := by rw [hr]; rfl
  subst e
  exact ⟨rfl, rfl, rfl, rfl⟩

end Witness

end Verif.Net
