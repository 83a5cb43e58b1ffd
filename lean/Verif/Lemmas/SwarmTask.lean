import Verif.Model.SwarmTask
import Verif.Lemmas.P2pRun

/-! Helper lemmas on the two tasks of the network side. -/

namespace Verif.Net

open Verif

/-- A handler as a function of the id: it sends nothing and does not depend on the id, or it sends one request. -/
def Shape (b : Bool) (F : ReqId → Server × List POut) : Prop :=
  (∃ res, sends res.2 = [] ∧ ∀ id, F id = res) ∨ b = true ∧ ∃ p, ∀ id, sends (F id).2 = [(id, p)]

theorem shape_const {b : Bool} (res : Server × List POut) (h : sends res.2 = []) : Shape b fun _ => res :=
  .inl ⟨res, h, fun _ => rfl⟩

theorem Shape.prepend {b : Bool} {F : ReqId → Server × List POut} (h : Shape b F) {l : List POut}
    (hl : sends l = []) : Shape b fun id => ((F id).1, l ++ (F id).2) := by
  rcases h with ⟨res, h1, h2⟩ | ⟨hb, p, h1⟩
  · refine .inl ⟨(res.1, l ++ res.2), by rw [sends_append, hl, h1]; rfl, fun id => ?_⟩
    dsimp only
    rw [h2 id]
  · exact .inr ⟨hb, p, fun id => by rw [sends_append, hl, h1 id]; rfl⟩

theorem fetchFailure_sends (s : Server) (r : Root) (p : Peer) : sends (fetchFailure s r p).2 = [] := by
  unfold fetchFailure
  split
  · rfl
  · split <;> rfl

theorem rootBlocks_sends (r : Root) : ∀ (bs : List RBlock) (s : Server), sends (rootBlocks r bs s).2 = []
  | [], s => rfl
  | b :: bs, s => by
    unfold rootBlocks
    split
    · exact rootBlocks_sends r bs s
    · have := rootBlocks_sends r bs { s with pending := s.pending.erase r }
      dsimp only
      rw [sends_append, sends_append, this]
      split <;> split <;> rfl

theorem forward_sends (l : List RBlock) : sends (l.map POut.forward) = [] := by
  induction l with
  | nil => rfl
  | cons b l ih => simpa [sends] using ih

theorem fetch_shape (s : Server) (r : Root) (pick : Nat) (b : Bool) :
    Shape b (fun id => (fetchFromPeer s id r pick b).2) ∧
      (∀ id id', (fetchFromPeer s id r pick b).1 = (fetchFromPeer s id' r pick b).1) ∧
      (∀ id, (fetchFromPeer s id r pick b).1 = false → sends (fetchFromPeer s id r pick b).2.2 = []) := by
  unfold fetchFromPeer
  split
  · exact ⟨shape_const _ rfl, fun _ _ => rfl, fun _ _ => rfl⟩
  · dsimp only
    split
    · exact ⟨shape_const _ rfl, fun _ _ => rfl, fun _ _ => rfl⟩
    · cases b
      · exact ⟨shape_const _ rfl, fun _ _ => rfl, fun _ _ => rfl⟩
      · exact ⟨.inr ⟨rfl, _, fun _ => rfl⟩, fun _ _ => rfl, fun _ h => by cases h⟩

theorem next_shape (ord : AMap Peer Nat → AMap Peer Nat) (s : Server) (b : Bool) :
    Shape b (fun id => requestNext ord s id b) := by
  unfold requestNext
  split
  · exact shape_const _ rfl
  · split
    · exact shape_const _ rfl
    · cases b
      · exact shape_const _ rfl
      · exact .inr ⟨rfl, _, fun _ => rfl⟩

/-- Every handler has the shape. -/
theorem step_shape (ord : AMap Peer Nat → AMap Peer Nat) (s : Server) (e : PEvent) (b : Bool) :
    Shape b (fun id => s.step ord id (e.sentAs b)) := by
  cases e with
  | connected p => exact shape_const _ rfl
  | disconnected p => exact shape_const _ rfl
  | initChain => exact shape_const _ rfl
  | fetch r pick b0 =>
    simp only [PEvent.sentAs, Server.step]
    split
    · exact shape_const _ rfl
    · exact (fetch_shape s r pick b).1
  | retry r pick b0 =>
    simp only [PEvent.sentAs, Server.step]
    split
    · exact shape_const _ rfl
    · obtain ⟨h1, h2, h3⟩ := fetch_shape s r pick b
      cases hb : (fetchFromPeer s 0 r pick b).1 with
      | true =>
        have : ∀ id, (fetchFromPeer s id r pick b).1 = true := fun id => (h2 id 0).trans hb
        simpa only [this, if_true] using h1
      | false =>
        have hf : ∀ id, (fetchFromPeer s id r pick b).1 = false := fun id => (h2 id 0).trans hb
        rcases h1 with ⟨res, h4, h5⟩ | ⟨-, p, h4⟩
        · refine .inl ⟨({ res.1 with pending := res.1.pending.erase r }, res.2 ++ [.closed r]), ?_, fun id => ?_⟩
          · rw [sends_append, h4]; rfl
          · have := h5 id
            simp only [hf, Bool.false_eq_true, if_false]
            dsimp only at this
            rw [this]
        · have := h3 0 (hf 0)
          rw [h4 0] at this
          cases this
  | status p head ourHead b0 =>
    simp only [PEvent.sentAs, Server.step, statusResponse]
    split
    · exact shape_const _ rfl
    · exact next_shape ord _ b
  | blocks rid p bs b0 =>
    simp only [PEvent.sentAs, Server.step]
    split
    · exact shape_const _ rfl
    · unfold byRangeResponse
      split
      · exact shape_const _ rfl
      · split
        · exact shape_const _ rfl
        · split
          · exact shape_const _ (forward_sends _)
          · dsimp only
            split
            · exact shape_const _ (forward_sends _)
            · rename_i st _ _
              exact (next_shape ord { ({ s with outbound := s.outbound.erase rid } : Server) with
                range := some (st.complete _) } b).prepend (forward_sends _)
    · unfold byRootResponse
      split
      · exact shape_const _ (fetchFailure_sends _ _ _)
      · exact shape_const _ (rootBlocks_sends _ _ _)
  | errorResponse rid p =>
    simp only [PEvent.sentAs, Server.step]
    split <;> exact shape_const _ rfl
  | failure rid p =>
    simp only [PEvent.sentAs, Server.step]
    split
    · exact shape_const _ rfl
    · exact shape_const _ rfl
    · exact shape_const _ (fetchFailure_sends _ _ _)

theorem unsent_step (ord : AMap Peer Nat → AMap Peer Nat) (s : Server) (e : PEvent) (id : ReqId) :
    sends (s.step ord id (e.sentAs false)).2 = [] ∧
      s.step ord 0 (e.sentAs false) = s.step ord id (e.sentAs false) := by
  rcases step_shape ord s e false with ⟨res, h1, h2⟩ | ⟨h, -⟩
  · replace h2 : ∀ id, s.step ord id (e.sentAs false) = res := h2
    exact ⟨by rw [h2 id]; exact h1, (h2 0).trans (h2 id).symm⟩
  · cases h

theorem wants_none {ord : AMap Peer Nat → AMap Peer Nat} {s : Server} {e : PEvent} (h : wants ord s e = none)
    (id : ReqId) : sends (s.step ord id (e.sentAs true)).2 = [] ∧
      s.step ord 0 (e.sentAs true) = s.step ord id (e.sentAs true) := by
  rcases step_shape ord s e true with ⟨res, h1, h2⟩ | ⟨-, p, h1⟩
  · replace h2 : ∀ id, s.step ord id (e.sentAs true) = res := h2
    exact ⟨by rw [h2 id]; exact h1, (h2 0).trans (h2 id).symm⟩
  · unfold wants at h
    rw [h1 0] at h
    cases h

theorem wants_some {ord : AMap Peer Nat → AMap Peer Nat} {s : Server} {e : PEvent} {p : Peer}
    (h : wants ord s e = some p) (id : ReqId) : sends (s.step ord id (e.sentAs true)).2 = [(id, p)] := by
  rcases step_shape ord s e true with ⟨res, h1, h2⟩ | ⟨-, q, h1⟩
  · replace h2 : ∀ id, s.step ord id (e.sentAs true) = res := h2
    unfold wants at h
    rw [h2 0, h1] at h
    cases h
  · unfold wants at h
    rw [h1 0] at h
    cases h
    exact h1 id

theorem rest_sentAs (w : PWorld) (e : PEvent) (b : Bool) : w.rest (e.sentAs b) = w.rest e := by cases e <;> rfl

theorem restTimers_sentAs (w : PWorld) (e : PEvent) (b : Bool) :
    w.restTimers (e.sentAs b) = w.restTimers e := by cases e <;> rfl

theorem allows_sentAs (w : PWorld) (e : PEvent) (b : Bool) : w.allows (e.sentAs b) ↔ w.allows e := by
  cases e <;> rfl

/-- The answers in a mailbox. -/
def answersIn (l : List PEvent) : List (ReqId × Peer) := l.filterMap PEvent.answers

/-- The root of a timer message. -/
def PEvent.timer : PEvent → Option Root
  | .retry r _ _ => some r
  | _ => none

/-- The timer messages in a mailbox. -/
def timersIn (l : List PEvent) : List Root := l.filterMap PEvent.timer

/-- Statuses in a mailbox carry `u64` slots. -/
def PEvent.fits : PEvent → Prop
  | .status _ head ourHead _ => head < 2 ^ 64 ∧ ourHead < 2 ^ 64
  | _ => True

/-- What the swarm and the mailbox hold, compared with the atomic model between two handlers. -/
structure Idle (t : Tasks) (w : PWorld) : Prop where
  reply : t.reply = none
  cmds : t.cmds = []
  next : w.next = t.nextId
  fly : (t.open_ ++ answersIn t.mailbox).Perm w.inflight
  time : (t.timers ++ timersIn t.mailbox).Perm w.timers

/-- The same while the handler of `e` waits. -/
structure Waits (ord : AMap Peer Nat → AMap Peer Nat) (t : Tasks) (w : PWorld) (e : PEvent) (p : Peer) : Prop where
  ok : w.allows e
  want : wants ord t.srv e = some p
  time : (t.timers ++ timersIn t.mailbox).Perm (w.restTimers e)
  fly : (t.reply = none ∧ (t.cmds = [p] ∧ t.closed = false ∨ t.cmds = [] ∧ t.closed = true) ∧ w.next = t.nextId ∧
      (t.open_ ++ answersIn t.mailbox).Perm (w.rest e)) ∨
    (t.reply = some w.next ∧ t.cmds = [] ∧ t.nextId = w.next + 1 ∧
      (t.open_ ++ answersIn t.mailbox).Perm (w.rest e ++ [(w.next, p)]))

/-- The relation between both models. -/
structure Sim (ord : AMap Peer Nat → AMap Peer Nat) (t : Tasks) (w : PWorld) : Prop where
  srv : w.srv = t.srv
  ids : ((t.open_ ++ answersIn t.mailbox).map Prod.fst).Nodup
  lt : ∀ x ∈ t.open_ ++ answersIn t.mailbox, x.1 < t.nextId
  fits : ∀ e ∈ t.mailbox, e.fits
  idle : t.busy = none → Idle t w
  waits : ∀ e, t.busy = some e → ∃ p, Waits ord t w e p

theorem Sim.init (ord : AMap Peer Nat → AMap Peer Nat) : Sim ord Tasks.init PWorld.init :=
  ⟨rfl, List.nodup_nil, (fun _ h => by cases h), (fun _ h => by cases h),
    fun _ => ⟨rfl, rfl, rfl, List.Perm.refl _, List.Perm.refl _⟩, fun _ h => by cases h⟩

theorem answersIn_snoc (l : List PEvent) (e : PEvent) :
    answersIn (l ++ [e]) = answersIn l ++ e.answers.toList := by
  unfold answersIn
  rw [List.filterMap_append]
  cases h : e.answers <;> simp [h]

theorem timersIn_snoc (l : List PEvent) (e : PEvent) :
    timersIn (l ++ [e]) = timersIn l ++ e.timer.toList := by
  unfold timersIn
  rw [List.filterMap_append]
  cases h : e.timer <;> simp [h]

theorem answersIn_cons (l : List PEvent) (e : PEvent) :
    answersIn (e :: l) = e.answers.toList ++ answersIn l := by
  unfold answersIn
  cases h : e.answers <;> simp [h]

theorem timersIn_cons (l : List PEvent) (e : PEvent) :
    timersIn (e :: l) = e.timer.toList ++ timersIn l := by
  unfold timersIn
  cases h : e.timer <;> simp [h]

/-- The mailbox and the swarm change, but hold the same requests and timers. -/
theorem Sim.shuffle {ord : AMap Peer Nat → AMap Peer Nat} {t : Tasks} {w : PWorld} (h : Sim ord t w)
    {m : List PEvent} {o : List (ReqId × Peer)} {ti : List Root}
    (h1 : (o ++ answersIn m).Perm (t.open_ ++ answersIn t.mailbox))
    (h2 : (ti ++ timersIn m).Perm (t.timers ++ timersIn t.mailbox)) (h3 : ∀ e ∈ m, e.fits) :
    Sim ord { t with mailbox := m, open_ := o, timers := ti } w where
  srv := h.srv
  ids := (h1.map Prod.fst).nodup_iff.2 h.ids
  lt := fun x hx => h.lt x (h1.mem_iff.1 hx)
  fits := h3
  idle := fun hb => by
    have i := h.idle hb
    exact ⟨i.reply, i.cmds, i.next, h1.trans i.fly, h2.trans i.time⟩
  waits := fun e hb => by
    obtain ⟨p, i⟩ := h.waits e hb
    refine ⟨p, i.ok, i.want, h2.trans i.time, ?_⟩
    rcases i.fly with ⟨a, b, c, d⟩ | ⟨a, b, c, d⟩
    · exact .inl ⟨a, b, c, h1.trans d⟩
    · exact .inr ⟨a, b, c, h1.trans d⟩

/-- Taking one request out of a list in which ids occur once. -/
theorem filter_id {l : List (ReqId × Peer)} {q : ReqId × Peer} (hn : (l.map Prod.fst).Nodup) (hq : q ∈ l) :
    l.Perm (q :: l.filter (fun x => decide (x.1 ≠ q.1))) := by
  induction l with
  | nil => cases hq
  | cons a l ih =>
    rw [List.map_cons, List.nodup_cons] at hn
    rcases List.mem_cons.1 hq with rfl | hq
    · rw [List.filter_cons_of_neg (by simp)]
      refine List.Perm.cons _ ?_
      rw [List.filter_eq_self.2]
      intro x hx
      have : x.1 ≠ q.1 := fun he => hn.1 (he ▸ List.mem_map_of_mem hx)
      simpa using this
    · have : a.1 ≠ q.1 := fun he => hn.1 (he ▸ List.mem_map_of_mem hq)
      rw [List.filter_cons_of_pos (by simpa using this)]
      exact ((ih hn.2 hq).cons a).trans (List.Perm.swap _ _ _)

/-- The first message of the mailbox may be handled in the atomic model, and what remains agrees. -/
theorem Sim.head {ord : AMap Peer Nat → AMap Peer Nat} {t : Tasks} {w : PWorld} (h : Sim ord t w)
    {e : PEvent} {l : List PEvent} (hb : t.busy = none) (hm : t.mailbox = e :: l) :
    w.allows e ∧ (t.open_ ++ answersIn l).Perm (w.rest e) ∧ (t.timers ++ timersIn l).Perm (w.restTimers e) := by
  have i := h.idle hb
  have i1 := i.fly
  have i2 := i.time
  have hn := h.ids
  rw [hm, answersIn_cons] at i1 hn
  rw [hm, timersIn_cons] at i2
  have hf := h.fits e (by rw [hm]; exact List.mem_cons_self ..)
  have ans : ∀ id p, e.answers = some (id, p) →
      (id, p) ∈ w.inflight ∧ (t.open_ ++ answersIn l).Perm (w.inflight.filter (fun x => decide (x.1 ≠ id))) := by
    intro id p he
    rw [he] at i1 hn
    have hp : (t.open_ ++ ([(id, p)] ++ answersIn l)).Perm ((id, p) :: (t.open_ ++ answersIn l)) :=
      List.perm_middle
    have hmem : (id, p) ∈ w.inflight := i1.mem_iff.1 (hp.mem_iff.2 (List.mem_cons_self ..))
    refine ⟨hmem, ?_⟩
    have hnw : (w.inflight.map Prod.fst).Nodup := (i1.map Prod.fst).nodup_iff.1 hn
    exact ((hp.symm.trans i1).trans (filter_id hnw hmem)).cons_inv
  cases e with
  | connected p => exact ⟨trivial, i1, i2⟩
  | disconnected p => exact ⟨trivial, i1, i2⟩
  | initChain => exact ⟨trivial, i1, i2⟩
  | fetch r pick b => exact ⟨trivial, i1, i2⟩
  | retry r pick b =>
    have hp : (t.timers ++ ([r] ++ timersIn l)).Perm (r :: (t.timers ++ timersIn l)) := List.perm_middle
    have hmem : r ∈ w.timers := i2.mem_iff.1 (hp.mem_iff.2 (List.mem_cons_self ..))
    exact ⟨hmem, i1, ((hp.symm.trans i2).trans (List.perm_cons_erase hmem)).cons_inv⟩
  | status p head ourHead b => exact ⟨hf, i1, i2⟩
  | blocks id p bs b => exact ⟨(ans id p rfl).1, (ans id p rfl).2, i2⟩
  | errorResponse id p => exact ⟨(ans id p rfl).1, (ans id p rfl).2, i2⟩
  | failure id p => exact ⟨(ans id p rfl).1, (ans id p rfl).2, i2⟩

/-- A handler that ends is one step of the atomic model. -/
theorem Sim.finish {ord : AMap Peer Nat → AMap Peer Nat} {tr : List (PEvent × List POut)} {t : Tasks} {w : PWorld}
    (hrun : PRun ord PWorld.init tr w) (hsrv : w.srv = t.srv)
    (hids : ((t.open_ ++ answersIn t.mailbox).map Prod.fst).Nodup)
    (hlt : ∀ x ∈ t.open_ ++ answersIn t.mailbox, x.1 < t.nextId) (hfits : ∀ e ∈ t.mailbox, e.fits)
    (hcmds : t.cmds = []) {e : PEvent} (hok : w.allows e) (id : ReqId) (b : Bool)
    (hstep : t.srv.step ord id (e.sentAs b) = t.srv.step ord w.next (e.sentAs b))
    (hnext : t.nextId = w.next + (sends (t.srv.step ord w.next (e.sentAs b)).2).length)
    (hfly : (t.open_ ++ answersIn t.mailbox).Perm (w.rest e ++ sends (t.srv.step ord w.next (e.sentAs b)).2))
    (htime : (t.timers ++ timersIn t.mailbox).Perm (w.restTimers e)) :
    ∃ w', PRun ord PWorld.init (tr ++ (t.finish ord e id b).2) w' ∧ Sim ord (t.finish ord e id b).1 w' := by
  have hd : (t.finish ord e id b).2 = [(e.sentAs b, (w.step ord (e.sentAs b)).2)] := by
    show [(e.sentAs b, (t.srv.step ord id (e.sentAs b)).2)] = [(e.sentAs b, (w.srv.step ord w.next (e.sentAs b)).2)]
    rw [hstep, hsrv]
  refine ⟨(w.step ord (e.sentAs b)).1, ?_, ?_⟩
  · rw [hd]
    exact hrun.snoc ((allows_sentAs w e b).2 hok)
  · refine ⟨?_, hids, hlt, hfits, fun _ => ⟨rfl, hcmds, ?_, ?_, ?_⟩, fun _ h => by cases h⟩
    · show (w.srv.step ord w.next (e.sentAs b)).1 = (t.srv.step ord id (e.sentAs b)).1
      rw [hstep, hsrv]
    · show w.next + (sends (w.srv.step ord w.next (e.sentAs b)).2).length = t.nextId
      rw [hsrv, hnext]
    · show (t.open_ ++ answersIn t.mailbox).Perm
        (w.rest (e.sentAs b) ++ sends (w.srv.step ord w.next (e.sentAs b)).2)
      rw [rest_sentAs, hsrv]
      exact hfly
    · show ((t.timers ++ timersOf (t.srv.step ord id (e.sentAs b)).2) ++ timersIn t.mailbox).Perm
        (w.restTimers (e.sentAs b) ++ timersOf (w.srv.step ord w.next (e.sentAs b)).2)
      rw [restTimers_sentAs, hsrv, hstep, List.append_assoc]
      refine (List.Perm.append_left _ List.perm_append_comm).trans ?_
      rw [← List.append_assoc]
      exact htime.append_right _

/-- The mailbox grows by a message that neither answers a request nor comes from a timer. -/
theorem outside_facts {e : PEvent} (h : e.outside = true) : e.answers = none ∧ e.timer = none ∧ e.fits := by
  cases e <;> simp_all [PEvent.outside, PEvent.answers, PEvent.timer, PEvent.fits]

theorem answers_facts {e : PEvent} {q : ReqId × Peer} (h : e.answers = some q) : e.timer = none ∧ e.fits := by
  cases e <;> simp_all [PEvent.answers, PEvent.timer, PEvent.fits]

/-- Whatever happens, the atomic model follows. -/
theorem Sim.act {ord : AMap Peer Nat → AMap Peer Nat} {tr : List (PEvent × List POut)} {t t' : Tasks} {w : PWorld}
    {x : TAct} {done : List (PEvent × List POut)} (hrun : PRun ord PWorld.init tr w) (h : Sim ord t w)
    (ha : t.act ord x = some (t', done)) : ∃ w', PRun ord PWorld.init (tr ++ done) w' ∧ Sim ord t' w' := by
  have same : ∀ {t'' : Tasks}, Sim ord t'' w → some (t'', ([] : List (PEvent × List POut))) = some (t', done) →
      ∃ w', PRun ord PWorld.init (tr ++ done) w' ∧ Sim ord t' w' := by
    intro t'' h1 h2
    cases h2
    exact ⟨w, by rw [List.append_nil]; exact hrun, h1⟩
  have fitsSnoc : ∀ e : PEvent, e.fits → ∀ e' ∈ t.mailbox ++ [e], e'.fits := by
    intro e he e' hm
    rcases List.mem_append.1 hm with hm | hm
    · exact h.fits e' hm
    · rw [List.mem_singleton.1 hm]; exact he
  cases x with
  | arrive e =>
    simp only [Tasks.act] at ha
    split at ha
    · rename_i ho
      obtain ⟨h1, h2, h3⟩ := outside_facts ho
      refine same (h.shuffle (m := t.mailbox ++ [e]) (o := t.open_) (ti := t.timers) ?_ ?_ (fitsSnoc e h3)) ha
      · rw [answersIn_snoc, h1, Option.toList_none, List.append_nil]
      · rw [timersIn_snoc, h2, Option.toList_none, List.append_nil]
    · cases ha
  | answer e =>
    simp only [Tasks.act] at ha
    split at ha
    · cases ha
    · rename_i q hq
      obtain ⟨h2, h3⟩ := answers_facts hq
      split at ha
      · rename_i hc
        refine same (h.shuffle (m := t.mailbox ++ [e]) (o := t.open_.filter (fun x => decide (x.1 ≠ q.1)))
          (ti := t.timers) ?_ ?_ (fitsSnoc e h3)) ha
        · rw [answersIn_snoc, hq]
          have hn : (t.open_.map Prod.fst).Nodup := by
            have := h.ids
            rw [List.map_append] at this
            exact (List.nodup_append.1 this).1
          have := ((filter_id hn hc.2).append_right (answersIn t.mailbox)).symm
          refine List.Perm.trans ?_ this
          show (_ ++ (answersIn t.mailbox ++ [q])).Perm (q :: (_ ++ _))
          rw [← List.append_assoc]
          exact List.perm_append_comm
        · rw [timersIn_snoc, h2, Option.toList_none, List.append_nil]
      · cases ha
  | fire r pick =>
    simp only [Tasks.act] at ha
    split at ha
    · rename_i hr
      refine same (h.shuffle (m := t.mailbox ++ [.retry r pick true]) (o := t.open_)
        (ti := t.timers.erase r) ?_ ?_ (fitsSnoc (.retry r pick true) trivial)) ha
      · rw [answersIn_snoc]
        show (_ ++ (_ ++ [])).Perm _
        rw [List.append_nil]
      · rw [timersIn_snoc]
        have := ((List.perm_cons_erase hr).append_right (timersIn t.mailbox)).symm
        refine List.Perm.trans ?_ this
        show (_ ++ (timersIn t.mailbox ++ [r])).Perm (r :: (_ ++ _))
        rw [← List.append_assoc]
        exact List.perm_append_comm
    · cases ha
  | begin =>
    simp only [Tasks.act] at ha
    split at ha
    · rename_i e l hb hm
      obtain ⟨k1, k2, k3⟩ := h.head hb hm
      have i := h.idle hb
      have sub : ∀ x ∈ t.open_ ++ answersIn l, x ∈ t.open_ ++ answersIn t.mailbox := by
        intro x hx
        rw [hm, answersIn_cons]
        rcases List.mem_append.1 hx with hx | hx
        · exact List.mem_append_left _ hx
        · exact List.mem_append_right _ (List.mem_append_right _ hx)
      have hids : ((t.open_ ++ answersIn l).map Prod.fst).Nodup := by
        have := h.ids
        rw [hm, answersIn_cons] at this
        exact this.sublist (List.Sublist.map _
          ((List.Sublist.refl t.open_).append (List.sublist_append_right _ _)))
      have hfits : ∀ e ∈ l, e.fits := fun e' he => h.fits e' (by rw [hm]; exact List.mem_cons_of_mem _ he)
      split at ha
      · rename_i hw
        have hs := wants_none hw w.next
        have := Sim.finish (t := { t with mailbox := l }) hrun h.srv hids (fun x hx => h.lt x (sub x hx)) hfits
          i.cmds k1 0 true hs.2 (by show t.nextId = _; rw [hs.1]; exact i.next.symm)
          (by rw [hs.1, List.append_nil]; exact k2) k3
        simp only [Option.some.injEq] at ha
        rw [ha] at this
        exact this
      · rename_i p hw
        split at ha
        · have hs := unsent_step ord t.srv e w.next
          have := Sim.finish (t := { t with mailbox := l }) hrun h.srv hids (fun x hx => h.lt x (sub x hx)) hfits
            i.cmds k1 0 false hs.2 (by show t.nextId = _; rw [hs.1]; exact i.next.symm)
            (by rw [hs.1, List.append_nil]; exact k2) k3
          simp only [Option.some.injEq] at ha
          rw [ha] at this
          exact this
        · rename_i hcl
          refine same ?_ ha
          refine ⟨h.srv, hids, fun x hx => h.lt x (sub x hx), hfits, (fun hc => by cases hc), fun e' he => ?_⟩
          cases he
          exact ⟨p, k1, hw, k3, .inl ⟨i.reply, .inl ⟨by show t.cmds ++ [p] = [p]; rw [i.cmds]; rfl, by simpa using hcl⟩, i.next, k2⟩⟩
    · cases ha
  | take =>
    simp only [Tasks.act] at ha
    split at ha
    · cases ha
    · rename_i p l hc
      split at ha
      · cases ha
      · refine same ?_ ha
        have hp : (t.open_ ++ [(t.nextId, p)] ++ answersIn t.mailbox).Perm
            ((t.nextId, p) :: (t.open_ ++ answersIn t.mailbox)) := by
          rw [List.append_assoc]; exact List.perm_middle
        refine ⟨h.srv, ?_, fun x hx => ?_, h.fits, fun hb => ?_, fun e he => ?_⟩
        · refine (hp.map Prod.fst).nodup_iff.2 ?_
          rw [List.map_cons, List.nodup_cons]
          refine ⟨fun hm => ?_, h.ids⟩
          obtain ⟨x, hx, he⟩ := List.mem_map.1 hm
          have := h.lt x hx
          rw [he] at this
          exact Nat.lt_irrefl _ this
        · show x.1 < t.nextId + 1
          rcases List.mem_cons.1 (hp.mem_iff.1 hx) with rfl | hx
          · exact Nat.lt_succ_self _
          · exact Nat.lt_succ_of_lt (h.lt x hx)
        · have := (h.idle hb).cmds
          rw [hc] at this
          cases this
        · obtain ⟨p', i⟩ := h.waits e he
          rcases i.fly with ⟨a, b, c, d⟩ | ⟨a, b, c, d⟩
          · rcases b with ⟨b, -⟩ | ⟨b, -⟩
            · rw [hc] at b
              cases b
              refine ⟨p, i.ok, i.want, i.time, .inr ⟨?_, rfl, ?_, ?_⟩⟩
              · show some t.nextId = some w.next
                rw [c]
              · show t.nextId + 1 = w.next + 1
                rw [c]
              · rw [c]
                exact (hp.trans (d.cons _)).trans (List.perm_append_comm (l₁ := [(t.nextId, p)]))
            · rw [hc] at b; cases b
          · rw [hc] at b; cases b
  | resume =>
    simp only [Tasks.act] at ha
    split at ha
    · rename_i e id hb hr
      obtain ⟨p, i⟩ := h.waits e hb
      rcases i.fly with ⟨a, -⟩ | ⟨a, b, c, d⟩
      · rw [hr] at a; cases a
      · rw [hr] at a
        cases a
        have hs := wants_some i.want w.next
        have := Sim.finish (t := t) hrun h.srv h.ids h.lt h.fits b i.ok w.next true rfl
          (by rw [hs]; exact c) (by rw [hs]; exact d) i.time
        simp only [Option.some.injEq] at ha
        rw [ha] at this
        exact this
    · rename_i e hb hr
      split at ha
      · rename_i hc
        obtain ⟨p, i⟩ := h.waits e hb
        rcases i.fly with ⟨a, b, c, d⟩ | ⟨a, -⟩
        · have hs := unsent_step ord t.srv e w.next
          rcases b with ⟨-, b⟩ | ⟨b, -⟩
          · rw [hc] at b; cases b
          · have := Sim.finish (t := t) hrun h.srv h.ids h.lt h.fits b i.ok 0 false hs.2
              (by rw [hs.1]; exact c.symm) (by rw [hs.1, List.append_nil]; exact d) i.time
            simp only [Option.some.injEq] at ha
            rw [ha] at this
            exact this
        · rw [hr] at a; cases a
      · cases ha
    · cases ha
  | close =>
    simp only [Tasks.act] at ha
    refine same ?_ ha
    refine ⟨h.srv, h.ids, h.lt, h.fits, fun hb => ?_, fun e he => ?_⟩
    · have i := h.idle hb
      exact ⟨i.reply, rfl, i.next, i.fly, i.time⟩
    · obtain ⟨p, i⟩ := h.waits e he
      refine ⟨p, i.ok, i.want, i.time, ?_⟩
      rcases i.fly with ⟨a, b, c, d⟩ | ⟨a, b, c, d⟩
      · exact .inl ⟨a, .inr ⟨rfl, rfl⟩, c, d⟩
      · exact .inr ⟨a, rfl, c, d⟩

end Verif.Net
