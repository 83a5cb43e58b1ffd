import Verif.Lemmas.P2pRun

namespace Verif.Net
open Verif

theorem satAdd_le (a b : Nat) : satAdd a b ≤ a + b := Nat.min_le_left _ _
theorem satAdd_max (a b : Nat) : satAdd a b ≤ 2 ^ 64 - 1 := Nat.min_le_right _ _

theorem satAdd_eq {a b : Nat} (h : a + b ≤ 2 ^ 64 - 1) : satAdd a b = a + b := Nat.min_eq_left h

/-- All that `request_next_range_batch` can do. -/
theorem requestNext_spec {ord : AMap Peer Nat → AMap Peer Nat} (hord : ∀ m, (ord m).Perm m)
    {s : Server} {st : RangeSync} (hr : s.range = some st) (hstop : st.stop ≤ 2 ^ 64 - 1)
    (id : ReqId) (sent : Bool) :
    let res := requestNext ord s id sent
    (res.2 = [] ∧ res.1.range = some st ∧
      (st.inFlight = true ∨ st.stop ≤ st.start ∨ ∀ x ∈ st.peers, ¬ st.start ≤ x.2)) ∨
    (res.2 = [] ∧ (st.inFlight = false ∧ sent = false) ∧ ∃ p h, (p, h) ∈ st.peers ∧
      res.1.range = (if (st.failPeer p).peers.isEmpty then none else some (st.failPeer p))) ∨
    (∃ p c h, res.2 = [.sendRange id p st.start c] ∧ st.inFlight = false ∧
      res.1.range = some { st with inFlight := true } ∧ 1 ≤ c ∧ c ≤ maxRequestBlocks ∧
      st.start + c ≤ st.stop ∧ (p, h) ∈ st.peers ∧ st.start + c ≤ h + 1) := by
  intro res
  have hres : res = requestNext ord s id sent := rfl
  clear_value res
  unfold requestNext at hres
  rw [hr] at hres
  dsimp only at hres
  unfold RangeSync.nextBatch at hres
  by_cases h0 : st.inFlight = true ∨ st.stop ≤ st.start
  · rw [if_pos h0] at hres
    subst hres
    refine .inl ⟨rfl, hr, ?_⟩
    rcases h0 with h | h
    · exact .inl h
    · exact .inr (.inl h)
  rw [if_neg h0] at hres
  have hfl : st.inFlight = false := by
    cases h : st.inFlight with
    | false => rfl
    | true => exact absurd (.inl h) h0
  have hlt : st.start < st.stop := Nat.lt_of_not_le (fun h => h0 (.inr h))
  cases hm : Build.maxByKey (fun e : Peer × Nat => e.2)
      ((ord st.peers).filter (fun e => decide (st.start ≤ e.2))) with
  | none =>
    rw [hm] at hres
    subst hres
    refine .inl ⟨rfl, hr, .inr (.inr fun x hx hle => ?_)⟩
    have := Build.maxByKey_none hm
    rw [List.filter_eq_nil_iff] at this
    exact this x ((hord st.peers).mem_iff.2 hx) (by simpa using hle)
  | some ph =>
    obtain ⟨p, h⟩ := ph
    rw [hm] at hres
    dsimp only at hres
    obtain ⟨hmem, _⟩ := Build.maxByKey_some hm
    obtain ⟨hmem, hge⟩ := List.mem_filter.1 hmem
    have hmem := (hord st.peers).mem_iff.1 hmem
    have hge : st.start ≤ h := by simpa using hge
    generalize hb : min (min (satAdd st.start maxRequestBlocks) st.stop) (satAdd h 1) = b at hres
    have hb1 : b ≤ st.start + maxRequestBlocks := by
      have := satAdd_le st.start maxRequestBlocks; omega
    have hb2 : b ≤ st.stop := by omega
    have hb3 : b ≤ h + 1 := by have := satAdd_le h 1; omega
    have hb4 : st.start < b := by
      rw [← hb]; unfold satAdd maxRequestBlocks; omega
    rw [if_pos hb4] at hres
    dsimp only at hres
    cases sent with
    | false =>
      rw [if_pos (by simp)] at hres
      subst hres
      refine .inr (.inl ⟨rfl, ⟨hfl, rfl⟩, p, h, hmem, ?_⟩)
      unfold failRange
      rw [hr]
    | true =>
      rw [if_neg (by simp)] at hres
      subst hres
      exact .inr (.inr ⟨p, b - st.start, h, rfl, hfl, rfl, by omega, by omega, by omega, hmem,
        by omega⟩)

/-- The unanswered range requests: id, first slot, last slot. -/
def rangeFlying (w : PWorld) : List (ReqId × Nat × Nat) :=
  w.inflight.filterMap (fun x => match w.srv.outbound.get? x.1 with
    | some (.range a b) => some (x.1, a, b)
    | _ => none)

/-- The same, of the requests just sent. -/
def sentFlying (outs : List POut) : List (ReqId × Nat × Nat) :=
  (rangeSends outs).map (fun x => (x.1, x.2.2.1, x.2.2.1 + x.2.2.2 - 1))

theorem mem_sends_of_range {o : List POut} {x : ReqId × Peer × Nat × Nat} (h : x ∈ rangeSends o) :
    (x.1, x.2.1) ∈ sends o := by
  unfold rangeSends at h
  obtain ⟨y, hy, he⟩ := List.mem_filterMap.1 h
  cases y <;> simp only [reduceCtorEq, Option.some.injEq] at he
  subst he
  exact List.mem_filterMap.2 ⟨_, hy, rfl⟩

theorem rangeFlying_step {ord : AMap Peer Nat → AMap Peer Nat} {w : PWorld} {e : PEvent}
    (hb : BInv w) (ha : w.allows e) :
    rangeFlying (w.step ord e).1
      = (rangeFlying w).filter (fun x => decide (answers e ≠ some x.1))
        ++ sentFlying (w.step ord e).2 := by
  have hf : answers e ≠ some w.next := fun h => Nat.lt_irrefl _ (fresh_answers hb ha h)
  obtain ⟨hfr, hs⟩ := step_frame ord w.srv w.next e hf
  show List.filterMap _ (w.rest e ++ sends (w.srv.step ord w.next e).2)
    = _ ++ sentFlying (w.srv.step ord w.next e).2
  rw [List.filterMap_append]
  congr 1
  · rw [rest_eq, List.filterMap_filter]
    unfold rangeFlying
    rw [List.filter_filterMap]
    apply List.filterMap_congr
    intro x hx
    by_cases hx2 : answers e = some x.1
    · simp only [hx2, ne_eq, not_true_eq_false, decide_false, Bool.false_eq_true, if_false]
      split
      · simp [Option.filter, hx2]
      · rfl
    · simp only [hx2, ne_eq, not_false_eq_true, decide_true, if_true]
      show (match (w.srv.step ord w.next e).1.outbound.get? x.1 with
        | some (.range a b) => some (x.1, a, b)
        | _ => none) = _
      rw [hfr x.1 (Nat.ne_of_lt (hb.old x hx)) hx2]
      split
      · simp [Option.filter, hx2]
      · rfl
  · show List.filterMap (fun x : ReqId × Peer =>
      match (w.srv.step ord w.next e).1.outbound.get? x.1 with
        | some (.range a b) => some (x.1, a, b)
        | _ => none) _ = _
    unfold sentFlying
    rcases hs with h | ⟨p, r, h1, h2, _, h3⟩ | ⟨p, a, b, h1, h2, h3, h4⟩
    · have : rangeSends (w.srv.step ord w.next e).2 = [] := by
        rw [List.eq_nil_iff_forall_not_mem]
        intro x hx
        have := mem_sends_of_range hx
        rw [h] at this; cases this
      rw [h, this]; rfl
    · rw [h1, h3]
      simp [h2]
    · rw [h1, h3]
      simp only [List.filterMap_cons, h2, List.filterMap_nil, List.map_cons, List.map_nil]
      rw [show a + (b - a) - 1 = b - 1 by omega]

/-! ### The invariant of range sync -/

/-- The id, peer, first slot and length of the last range request. -/
abbrev LastReq := Option (ReqId × Peer × Nat × Nat)

/-- Where an idle range sync is: at the start of its last batch if that failed, at its end if not. -/
def LastOK (evs : List PEvent) (last : LastReq) (x : Nat) : Prop :=
  2 ^ 64 - 1 ≤ x ∨ ∃ i p a c, last = some (i, p, a, c) ∧
    ((x = a ∧ RequestFailed evs i) ∨ (x = a + c ∧ Completed evs i))

/-- Where the numbers in the state come from. -/
structure SOK (evs : List PEvent) (st : RangeSync) : Prop where
  max : st.stop ≤ 2 ^ 64 - 1
  stop : ∃ q h o, Told evs q h o ∧ o < h ∧ st.stop ≤ o + 1 + min (h - o) maxSyncRange
  start : ∃ q h o, Told evs q h o ∧ o < st.start
  peers : ∀ p h, (p, h) ∈ st.peers → ∃ o, Told evs p h o

/-- The batch in flight. -/
def Busy (last : LastReq) (st : RangeSync) (L : List (ReqId × Nat × Nat)) : Prop :=
  ∃ i p c, L = [(i, st.start, st.start + c - 1)] ∧ 1 ≤ c ∧ st.start + c ≤ st.stop ∧
    last = some (i, p, st.start, c)

structure GInv (evs : List PEvent) (last : LastReq) (range : Option RangeSync)
    (L : List (ReqId × Nat × Nat)) : Prop where
  none : range = none → L = []
  ok : ∀ st, range = some st → SOK evs st
  idle : ∀ st, range = some st → st.inFlight = false → L = [] ∧ LastOK evs last st.start
  busy : ∀ st, range = some st → st.inFlight = true → Busy last st L

theorem Told.snoc {evs : List PEvent} {p : Peer} {h o : Nat} (t : Told evs p h o) (e : PEvent) :
    Told (evs ++ [e]) p h o := by
  obtain ⟨s, hs⟩ := t
  exact ⟨s, List.mem_append_left _ hs⟩

theorem SOK.snoc {evs : List PEvent} {st : RangeSync} (k : SOK evs st) (e : PEvent) :
    SOK (evs ++ [e]) st := by
  obtain ⟨k1, ⟨q, h, o, t, k2⟩, ⟨q', h', o', t', k3⟩, k4⟩ := k
  refine ⟨k1, ⟨q, h, o, t.snoc e, k2⟩, ⟨q', h', o', t'.snoc e, k3⟩, fun p h hp => ?_⟩
  obtain ⟨o, ho⟩ := k4 p h hp
  exact ⟨o, ho.snoc e⟩

theorem LastOK.snoc {evs : List PEvent} {last : LastReq} {x : Nat} (k : LastOK evs last x)
    (e : PEvent) : LastOK (evs ++ [e]) last x := by
  rcases k with k | ⟨i, p, a, c, h1, h2⟩
  · exact .inl k
  · refine .inr ⟨i, p, a, c, h1, ?_⟩
    rcases h2 with ⟨h2, q, h3⟩ | ⟨h2, q, bs, sent, h3, h4⟩
    · left
      refine ⟨h2, q, ?_⟩
      rcases h3 with ⟨s, h3⟩ | h3 | h3
      · exact .inl ⟨s, List.mem_append_left _ h3⟩
      · exact .inr (.inl (List.mem_append_left _ h3))
      · exact .inr (.inr (List.mem_append_left _ h3))
    · exact .inr ⟨h2, q, bs, sent, List.mem_append_left _ h3, h4⟩

theorem GInv.snoc {evs : List PEvent} {last : LastReq} {range : Option RangeSync}
    {L : List (ReqId × Nat × Nat)} (g : GInv evs last range L) (e : PEvent) :
    GInv (evs ++ [e]) last range L :=
  ⟨g.none, fun st h => (g.ok st h).snoc e,
    fun st h1 h2 => ⟨(g.idle st h1 h2).1, (g.idle st h1 h2).2.snoc e⟩, g.busy⟩

/-- Removing peers keeps the facts about a state. -/
theorem SOK.sub {evs : List PEvent} {st st' : RangeSync} (k : SOK evs st)
    (h1 : st'.start = st.start) (h2 : st'.stop = st.stop) (h3 : ∀ x ∈ st'.peers, x ∈ st.peers) :
    SOK evs st' := by
  obtain ⟨k1, k2, k3, k4⟩ := k
  exact ⟨by rw [h2]; exact k1, by rw [h2]; exact k2, by rw [h1]; exact k3,
    fun p h hp => k4 p h (h3 _ hp)⟩

theorem failPeer_sub (st : RangeSync) (p : Peer) :
    (st.failPeer p).start = st.start ∧ (st.failPeer p).stop = st.stop ∧
    (st.failPeer p).inFlight = false ∧ ∀ x ∈ (st.failPeer p).peers, x ∈ st.peers := by
  refine ⟨rfl, rfl, rfl, fun x hx => ?_⟩
  unfold RangeSync.failPeer RangeSync.dropStale at hx
  have hx := (List.mem_filter.1 hx).1
  exact (List.mem_filter.1 hx).1

/-- A failed range request, or one that could not be sent. -/
theorem GInv.fail {evs : List PEvent} {last : LastReq} {st : RangeSync} (k : SOK evs st)
    (hl : LastOK evs last st.start) (p : Peer) :
    GInv evs last (if (st.failPeer p).peers.isEmpty then Option.none else some (st.failPeer p)) [] := by
  obtain ⟨f1, f2, f3, f4⟩ := failPeer_sub st p
  split
  · exact ⟨fun _ => rfl, fun _ h => by (cases h), fun _ h => by (cases h), fun _ h => by (cases h)⟩
  · refine ⟨fun h => by (cases h), fun st' h => ?_, fun st' h _ => ?_, fun st' h h2 => ?_⟩
    · cases h; exact k.sub f1 f2 f4
    · cases h; exact ⟨rfl, by rw [f1]; exact hl⟩
    · cases h; rw [f3] at h2; cases h2

/-- A range sync that was just opened. -/
def Fresh (st : RangeSync) : Prop :=
  ∃ p h, st.peers = [(p, h)] ∧ st.start ≤ h

theorem GInv.request {ord : AMap Peer Nat → AMap Peer Nat} (hord : ∀ m, (ord m).Perm m)
    {evs : List PEvent} {last : LastReq} {s : Server} {st : RangeSync} {L : List (ReqId × Nat × Nat)}
    (hr : s.range = some st) (k : SOK evs st) (hbusy : st.inFlight = true → Busy last st L)
    (hidle : st.inFlight = false → L = [] ∧
      (LastOK evs last st.start ∨ Fresh st ∧ (st.start < st.stop ∨ 2 ^ 64 - 1 ≤ st.start)))
    (id : ReqId) (sent : Bool) :
    GInv evs ((rangeSends (requestNext ord s id sent).2).getLast?.or last)
      (requestNext ord s id sent).1.range (L ++ sentFlying (requestNext ord s id sent).2) := by
  rcases requestNext_spec hord hr k.max id sent with
    ⟨h1, h2, h3⟩ | ⟨h1, ⟨h2, _⟩, p, h, h3, h4⟩ | ⟨p, c, h, h1, h2, h3, h4, h5, h6, h7, h8⟩
  · rw [h1, h2]
    simp only [rangeSends, sentFlying, List.filterMap_nil, List.getLast?_nil, Option.none_or,
      List.map_nil, List.append_nil]
    refine ⟨fun h => by (cases h), fun st' h => by cases h; exact k, fun st' h hf => ?_,
      fun st' h hf => by cases h; exact hbusy hf⟩
    cases h
    obtain ⟨i1, i2⟩ := hidle hf
    refine ⟨i1, ?_⟩
    rcases i2 with i2 | ⟨⟨p, h, i2, i3⟩, i4⟩
    · exact i2
    · rcases h3 with h3 | h3 | h3
      · rw [hf] at h3; cases h3
      · rcases i4 with i4 | i4
        · omega
        · exact .inl i4
      · exact absurd i3 (h3 (p, h) (by rw [i2]; simp))
  · rw [h1, h4]
    simp only [rangeSends, sentFlying, List.filterMap_nil, List.getLast?_nil, Option.none_or,
      List.map_nil, List.append_nil]
    obtain ⟨i1, i2⟩ := hidle h2
    subst i1
    rcases i2 with i2 | ⟨⟨q, h', i2, _⟩, _⟩
    · exact GInv.fail k i2 p
    · have : (st.failPeer p).peers.isEmpty = true := by
        unfold RangeSync.failPeer RangeSync.dropStale AMap.erase
        rw [i2] at h3 ⊢
        simp only [List.mem_singleton, Prod.mk.injEq] at h3
        simp [h3.1]
      rw [if_pos this]
      exact ⟨fun _ => rfl, fun _ h => by (cases h), fun _ h => by (cases h), fun _ h => by (cases h)⟩
  · obtain ⟨i1, _⟩ := hidle h2
    subst i1
    rw [h1, h3]
    refine ⟨fun h => by (cases h), fun st' h => ?_, fun st' h hf => ?_, fun st' h hf => ?_⟩
    · cases h; exact k.sub rfl rfl (fun x hx => hx)
    · cases h; cases hf
    · cases h
      exact ⟨id, p, c, rfl, h4, h6, rfl⟩

/-- A batch that was asked for is well formed. -/
def WellFormed (evs : List PEvent) (p : Peer) (a c : Nat) : Prop :=
  1 ≤ c ∧ c ≤ maxRequestBlocks ∧
  (∃ h o, Told evs p h o ∧ a + c ≤ h + 1) ∧
  (∃ q h o, Told evs q h o ∧ o < h ∧ a + c ≤ o + 1 + min (h - o) maxSyncRange) ∧
  (∃ q h o, Told evs q h o ∧ o < a)

theorem WellFormed.snoc {evs : List PEvent} {p : Peer} {a c : Nat} (k : WellFormed evs p a c)
    (e : PEvent) : WellFormed (evs ++ [e]) p a c := by
  obtain ⟨k1, k2, ⟨h, o, t, k3⟩, ⟨q, h', o', t', k4⟩, ⟨q', h'', o'', t'', k5⟩⟩ := k
  exact ⟨k1, k2, ⟨h, o, t.snoc e, k3⟩, ⟨q, h', o', t'.snoc e, k4⟩, ⟨q', h'', o'', t''.snoc e, k5⟩⟩

/-- What a request sent by `request_next_range_batch` looks like. -/
theorem request_sent {ord : AMap Peer Nat → AMap Peer Nat} (hord : ∀ m, (ord m).Perm m)
    {evs : List PEvent} {s : Server} {st : RangeSync} (hr : s.range = some st) (k : SOK evs st)
    {id : ReqId} {sent : Bool} {x : ReqId × Peer × Nat × Nat}
    (hx : x ∈ rangeSends (requestNext ord s id sent).2) :
    x.2.2.1 = st.start ∧ st.inFlight = false ∧ st.start < st.stop ∧
      WellFormed evs x.2.1 x.2.2.1 x.2.2.2 := by
  rcases requestNext_spec hord hr k.max id sent with
    ⟨h1, _⟩ | ⟨h1, _⟩ | ⟨p, c, h, h1, h2, h3, h4, h5, h6, h7, h8⟩
  · rw [h1] at hx; cases hx
  · rw [h1] at hx; cases hx
  · rw [h1] at hx
    have hx : x = (id, p, st.start, c) := List.mem_singleton.1 hx
    subst hx
    refine ⟨rfl, h2, by omega, h4, h5, ?_, ?_, k.start⟩
    · obtain ⟨o, ho⟩ := k.peers p h h7
      exact ⟨h, o, ho, h8⟩
    · obtain ⟨q, h', o, t, k1, k2⟩ := k.stop
      exact ⟨q, h', o, t, k1, by dsimp only; omega⟩

/-- Where a new batch starts, given the last one. -/
def Follows (evs : List PEvent) (last : LastReq) (e : PEvent) (a' : Nat) : Prop :=
  (∃ i p a c, last = some (i, p, a, c) ∧
    ((a' = a ∧ RequestFailed evs i) ∨ (a' = a + c ∧ Completed evs i))) ∨
  ∃ p h o sent, e = .status p h o sent ∧ a' = o + 1

/-- The state that a status message leads to before the next request. -/
def statusState (s : Server) (p : Peer) (head ourHead : Nat) : RangeSync :=
  match s.range with
  | some st => st.mergePeer p head
      (satAdd (satAdd ourHead 1) (min (head - ourHead) maxSyncRange))
  | none => ⟨satAdd ourHead 1,
      satAdd (satAdd ourHead 1) (min (head - ourHead) maxSyncRange), [(p, head)], false⟩

theorem statusResponse_eq (ord : AMap Peer Nat → AMap Peer Nat) (s : Server) (id : ReqId)
    (sent : Bool) (p : Peer) (head ourHead : Nat) (h : ¬ head ≤ ourHead) :
    statusResponse ord s id sent p head ourHead
      = requestNext ord { s with range := some (statusState s p head ourHead) } id sent := by
  unfold statusResponse statusState
  rw [if_neg h]
  cases s.range <;> rfl

theorem mem_amap_insert {m : AMap Peer Nat} {p : Peer} {v : Nat} {x : Peer × Nat}
    (h : x ∈ m.insert p v) : x = (p, v) ∨ x ∈ m := by
  induction m with
  | nil => exact .inl (List.mem_singleton.1 h)
  | cons y m ih =>
    obtain ⟨k, w⟩ := y
    unfold AMap.insert at h
    by_cases hk : k = p
    · rw [if_pos hk] at h
      rcases List.mem_cons.1 h with h | h
      · exact .inl h
      · exact .inr (List.mem_cons_of_mem _ h)
    · rw [if_neg hk] at h
      rcases List.mem_cons.1 h with h | h
      · exact .inr (by rw [h]; exact List.mem_cons_self)
      · exact (ih h).imp id (List.mem_cons_of_mem _)

/-- The state before the request is in order after a status message. -/
theorem status_pre {evs : List PEvent} {last : LastReq} {s : Server} {L : List (ReqId × Nat × Nat)}
    (g : GInv evs last s.range L) {p : Peer} {head ourHead : Nat} {sent : Bool}
    (h : ¬ head ≤ ourHead) (h64 : head < 2 ^ 64) :
    let st := statusState s p head ourHead
    let evs' := evs ++ [PEvent.status p head ourHead sent]
    SOK evs' st ∧ (st.inFlight = true → Busy last st L) ∧
    (st.inFlight = false → L = [] ∧
      (LastOK evs' last st.start ∨ Fresh st ∧ (st.start < st.stop ∨ 2 ^ 64 - 1 ≤ st.start))) ∧
    (s.range = none → st.start = ourHead + 1) ∧
    (∀ st0, s.range = some st0 → st.start = st0.start ∧ st.inFlight = st0.inFlight) := by
  intro st evs'
  have htold : Told evs' p head ourHead := ⟨sent, List.mem_append_right _ (List.mem_singleton.2 rfl)⟩
  have e1 : satAdd ourHead 1 = ourHead + 1 := by unfold satAdd; omega
  cases hr : s.range with
  | none =>
    have hst : st = ⟨satAdd ourHead 1,
      satAdd (satAdd ourHead 1) (min (head - ourHead) maxSyncRange), [(p, head)], false⟩ := by
      show statusState s p head ourHead = _
      unfold statusState; rw [hr]
    rw [e1] at hst
    clear_value st
    subst hst
    refine ⟨⟨satAdd_max _ _, ⟨p, head, ourHead, htold, by omega, satAdd_le _ _⟩,
      ⟨p, head, ourHead, htold, Nat.lt_succ_self _⟩, fun q h' hq => ?_⟩, fun hh => by (cases hh),
      fun _ => ⟨g.none hr, .inr ⟨⟨p, head, rfl, ?_⟩, ?_⟩⟩, fun _ => rfl, fun st0 h0 => by (cases h0)⟩
    · simp only [List.mem_singleton, Prod.mk.injEq] at hq
      obtain ⟨rfl, rfl⟩ := hq
      exact ⟨ourHead, htold⟩
    · dsimp only; omega
    · dsimp only
      unfold satAdd maxSyncRange maxRequestBlocks
      omega
  | some st0 =>
    have hst : st = st0.mergePeer p head
      (satAdd (satAdd ourHead 1) (min (head - ourHead) maxSyncRange)) := by
      show statusState s p head ourHead = _
      unfold statusState; rw [hr]
    rw [e1] at hst
    clear_value st
    have k := (g.ok st0 hr).snoc (.status p head ourHead sent)
    have s1 : st.start = st0.start := by rw [hst]; rfl
    have s2 : st.inFlight = st0.inFlight := by rw [hst]; rfl
    have s3 : st.stop = max st0.stop (satAdd (ourHead + 1) (min (head - ourHead) maxSyncRange)) := by
      rw [hst]; rfl
    refine ⟨⟨?_, ?_, ?_, fun q h' hq => ?_⟩, fun hf => ?_, fun hf => ?_, fun h => by (cases h),
      fun st1 h1 => by cases h1; exact ⟨s1, s2⟩⟩
    · rw [s3]
      have := satAdd_max (ourHead + 1) (min (head - ourHead) maxSyncRange)
      have := k.max
      omega
    · rw [s3]
      rcases Nat.le_total st0.stop (satAdd (ourHead + 1) (min (head - ourHead) maxSyncRange)) with hm | hm
      · rw [Nat.max_eq_right hm]
        exact ⟨p, head, ourHead, htold, by omega, satAdd_le _ _⟩
      · rw [Nat.max_eq_left hm]
        exact k.stop
    · rw [s1]; exact k.start
    · rw [hst] at hq
      unfold RangeSync.mergePeer RangeSync.dropStale at hq
      rcases mem_amap_insert (List.mem_filter.1 hq).1 with hq | hq
      · obtain ⟨rfl, rfl⟩ := Prod.mk.inj hq
        exact ⟨ourHead, htold⟩
      · exact k.peers q h' hq
    · rw [s2] at hf
      obtain ⟨i, q, c, b1, b2, b3, b4⟩ := g.busy st0 hr hf
      exact ⟨i, q, c, by rw [s1]; exact b1, b2, by rw [s1, s3]; omega, by rw [s1]; exact b4⟩
    · rw [s2] at hf
      obtain ⟨i1, i2⟩ := g.idle st0 hr hf
      exact ⟨i1, .inl (by rw [s1]; exact i2.snoc _)⟩

/-- Events that have nothing to do with range sync. -/
theorem GInv.quiet {evs : List PEvent} {last : LastReq} {range range' : Option RangeSync}
    {L L' : List (ReqId × Nat × Nat)} (g : GInv evs last range L) (e : PEvent) {outs : List POut}
    (h1 : range' = range) (h2 : rangeSends outs = []) (h3 : L' = L ++ sentFlying outs) :
    GInv (evs ++ [e]) ((rangeSends outs).getLast?.or last) range' L' := by
  subst h1 h3
  rw [h2]
  simp only [sentFlying, h2, List.map_nil, List.append_nil, List.getLast?_nil, Option.none_or]
  exact g.snoc e

theorem filter_flying_ne {w : PWorld} {rid : ReqId} (h : ∀ a b, w.srv.outbound.get? rid ≠ some (.range a b)) :
    (rangeFlying w).filter (fun x => decide (some rid ≠ some x.1)) = rangeFlying w := by
  rw [List.filter_eq_self]
  intro x hx
  unfold rangeFlying at hx
  obtain ⟨y, hy, he⟩ := List.mem_filterMap.1 hx
  by_cases hxy : x.1 = rid
  · exfalso
    split at he
    · rename_i a b hk
      cases he
      dsimp only at hxy
      rw [hxy] at hk
      exact h a b hk
    · cases he
  · simp [Ne.symm hxy]

theorem mem_rangeFlying {w : PWorld} {rid : ReqId} {p : Peer} {a b : Nat} (h1 : (rid, p) ∈ w.inflight)
    (h2 : w.srv.outbound.get? rid = some (.range a b)) : (rid, a, b) ∈ rangeFlying w := by
  unfold rangeFlying
  exact List.mem_filterMap.2 ⟨(rid, p), h1, by simp [h2]⟩

/-- The answered range request is the one the state has in flight. -/
theorem busy_of_flying {evs : List PEvent} {last : LastReq} {w : PWorld}
    (g : GInv evs last w.srv.range (rangeFlying w)) {rid : ReqId} {p : Peer} {a b : Nat}
    (h1 : (rid, p) ∈ w.inflight) (h2 : w.srv.outbound.get? rid = some (.range a b)) :
    ∃ st q c, w.srv.range = some st ∧ st.inFlight = true ∧ rangeFlying w = [(rid, a, b)] ∧
      a = st.start ∧ b = st.start + c - 1 ∧ 1 ≤ c ∧ st.start + c ≤ st.stop ∧
      last = some (rid, q, st.start, c) := by
  have hm := mem_rangeFlying h1 h2
  cases hr : w.srv.range with
  | none => rw [g.none hr] at hm; cases hm
  | some st =>
    cases hf : st.inFlight with
    | false => rw [(g.idle st hr hf).1] at hm; cases hm
    | true =>
      obtain ⟨i, q, c, b1, b2, b3, b4⟩ := g.busy st hr hf
      rw [b1] at hm
      have hm := List.mem_singleton.1 hm
      obtain ⟨m1, hm⟩ := Prod.mk.inj hm
      obtain ⟨m2, m3⟩ := Prod.mk.inj hm
      exact ⟨st, q, c, rfl, hf, by rw [b1, m1, m2, m3], m2, m3, b2, b3, by rw [b4, m1]⟩

theorem complete_facts (st : RangeSync) (last : Nat) :
    (st.complete last).start = max st.start (satAdd last 1) ∧ (st.complete last).stop = st.stop ∧
    (st.complete last).inFlight = false ∧ ∀ x ∈ (st.complete last).peers, x ∈ st.peers := by
  refine ⟨rfl, rfl, rfl, fun x hx => ?_⟩
  unfold RangeSync.complete RangeSync.dropStale at hx
  exact (List.mem_filter.1 hx).1

theorem GInv.cleared (evs : List PEvent) (last : LastReq) : GInv evs last Option.none [] :=
  ⟨fun _ => rfl, fun _ h => by (cases h), fun _ h => by (cases h), fun _ h => by (cases h)⟩

/-- One event: the invariant, and the shape of the range request it may send. -/
theorem ginv_step {ord : AMap Peer Nat → AMap Peer Nat} (hord : ∀ m, (ord m).Perm m)
    {evs : List PEvent} {last : LastReq} {w : PWorld} {e : PEvent} (hb : BInv w) (ha : w.allows e)
    (g : GInv evs last w.srv.range (rangeFlying w)) :
    GInv (evs ++ [e]) ((rangeSends (w.step ord e).2).getLast?.or last) (w.step ord e).1.srv.range
      (rangeFlying (w.step ord e).1) ∧
    (∀ x ∈ rangeSends (w.step ord e).2, WellFormed (evs ++ [e]) x.2.1 x.2.2.1 x.2.2.2 ∧
      Follows (evs ++ [e]) last e x.2.2.1) := by
  have hfly := rangeFlying_step (ord := ord) hb ha
  have e1 : (w.step ord e).1.srv = (w.srv.step ord w.next e).1 := rfl
  have e2 : (w.step ord e).2 = (w.srv.step ord w.next e).2 := rfl
  rw [e1, e2]
  rw [e2] at hfly
  -- nothing happens
  have quiet : (∀ rid, answers e = some rid → ∀ a b, w.srv.outbound.get? rid ≠ some (.range a b)) →
      (w.srv.step ord w.next e).1.range = w.srv.range →
      rangeSends (w.srv.step ord w.next e).2 = [] →
      GInv (evs ++ [e]) ((rangeSends (w.srv.step ord w.next e).2).getLast?.or last)
        (w.srv.step ord w.next e).1.range (rangeFlying (w.step ord e).1) ∧
      (∀ x ∈ rangeSends (w.srv.step ord w.next e).2, WellFormed (evs ++ [e]) x.2.1 x.2.2.1 x.2.2.2 ∧
        Follows (evs ++ [e]) last e x.2.2.1) := by
    intro q1 q2 q3
    refine ⟨g.quiet e q2 q3 ?_, fun x hx => by rw [q3] at hx; cases hx⟩
    rw [hfly]
    congr 1
    cases hans : answers e with
    | none => simp
    | some rid => exact filter_flying_ne (q1 rid hans)
  -- a range request is answered with a failure
  have failcase : ∀ rid p a b, (rid, p) ∈ w.inflight →
      w.srv.outbound.get? rid = some (.range a b) → answers e = some rid →
      RequestFailed (evs ++ [e]) rid →
      (w.srv.step ord w.next e) = (failRange { w.srv with outbound := w.srv.outbound.erase rid } p, []) →
      GInv (evs ++ [e]) ((rangeSends (w.srv.step ord w.next e).2).getLast?.or last)
        (w.srv.step ord w.next e).1.range (rangeFlying (w.step ord e).1) ∧
      (∀ x ∈ rangeSends (w.srv.step ord w.next e).2, WellFormed (evs ++ [e]) x.2.1 x.2.2.1 x.2.2.2 ∧
        Follows (evs ++ [e]) last e x.2.2.1) := by
    intro rid p a b hin hk hans hfail hst
    rw [hst] at hfly ⊢
    obtain ⟨st, q, c, c1, c2, c3, c4, c5, c6, c7, c8⟩ := busy_of_flying g hin hk
    refine ⟨?_, fun x hx => by cases hx⟩
    rw [c3, hans] at hfly
    rw [hfly]
    simp only [ne_eq, not_true_eq_false, decide_false, Bool.false_eq_true, not_false_eq_true,
      List.filter_cons_of_neg, List.filter_nil, List.nil_append, sentFlying, rangeSends,
      List.filterMap_nil, List.map_nil, List.getLast?_nil, Option.none_or]
    unfold failRange
    dsimp only
    rw [c1]
    exact GInv.fail ((g.ok st c1).snoc e) (.inr ⟨rid, q, st.start, c, c8, .inl ⟨rfl, hfail⟩⟩) p
  cases e with
  | connected p => exact quiet (fun rid h => by cases h) rfl rfl
  | disconnected p => exact quiet (fun rid h => by cases h) rfl rfl
  | initChain => exact quiet (fun rid h => by cases h) rfl rfl
  | fetch r pick sent =>
    refine quiet (fun rid h => by cases h) ?_ ?_
    · show (if w.srv.pending.has r = true then (w.srv, []) else _).1.range = _
      split
      · rfl
      · exact (fetchFromPeer_cases w.srv w.next r pick sent).1.1
    · show rangeSends (if w.srv.pending.has r = true then (w.srv, []) else _).2 = _
      split
      · rfl
      · rcases (fetchFromPeer_cases w.srv w.next r pick sent).2 with ⟨_, h, _⟩ | ⟨p, _, _, h, _⟩ <;>
          rw [h] <;> rfl
  | retry r pick sent =>
    have hc := fetchFromPeer_cases w.srv w.next r pick sent
    refine quiet (fun rid h => by cases h) ?_ ?_
    · unfold Server.step
      dsimp only
      split
      · rfl
      · split
        · exact hc.1.1
        · exact hc.1.1
    · unfold Server.step
      dsimp only
      split
      · rfl
      · rcases hc.2 with ⟨h1, h2, _⟩ | ⟨p, h1, _, h2, _⟩
        · rw [if_neg (by simp [h1])]
          dsimp only
          rw [h2]; rfl
        · rw [if_pos h1, h2]; rfl
  | status p head ourHead sent =>
    have hst : w.srv.step ord w.next (.status p head ourHead sent)
      = statusResponse ord w.srv w.next sent p head ourHead := rfl
    by_cases hle : head ≤ ourHead
    · have hst2 : statusResponse ord w.srv w.next sent p head ourHead = (w.srv, []) := if_pos hle
      exact quiet (fun rid h => by cases h) (by rw [hst, hst2]) (by rw [hst, hst2]; rfl)
    · obtain ⟨p1, p2, p3, p4, p5⟩ := status_pre (sent := sent) g (p := p) hle ha.1
      rw [hst, statusResponse_eq ord _ _ _ _ _ _ hle] at hfly ⊢
      have hL : (rangeFlying w).filter
          (fun x => decide (answers (.status p head ourHead sent) ≠ some x.1)) = rangeFlying w := by
        simp [answers]
      rw [hL] at hfly
      rw [hfly]
      refine ⟨GInv.request hord rfl p1 p2 p3 _ _, fun x hx => ?_⟩
      obtain ⟨r1, r2, r3, r4⟩ := request_sent hord rfl p1 hx
      refine ⟨r4, ?_⟩
      rw [r1]
      cases hr : w.srv.range with
      | none => exact .inr ⟨p, head, ourHead, sent, rfl, p4 hr⟩
      | some st0 =>
        obtain ⟨q1, q2⟩ := p5 st0 hr
        rw [q2] at r2
        rcases (g.idle st0 hr r2).2.snoc (.status p head ourHead sent) with h | h
        · have := p1.max
          rw [q1] at r3
          omega
        · left; rw [q1]; exact h
  | blocks rid p bs sent =>
    have hin : (rid, p) ∈ w.inflight := ha
    have hst : w.srv.step ord w.next (.blocks rid p bs sent) = (match w.srv.outbound.get? rid with
      | none => (w.srv, [])
      | some (.range a b) =>
        byRangeResponse ord { w.srv with outbound := w.srv.outbound.erase rid } w.next sent p a b bs
      | some (.root r) =>
        byRootResponse { w.srv with outbound := w.srv.outbound.erase rid } rid p r bs) := rfl
    cases hk : w.srv.outbound.get? rid with
    | none =>
      rw [hk] at hst
      refine quiet (fun rid' h a b => ?_) (by rw [hst]) (by rw [hst]; rfl)
      cases h; rw [hk]; simp
    | some k =>
      cases k with
      | root r =>
        rw [hk] at hst
        dsimp only at hst
        have hq : (byRootResponse { w.srv with outbound := w.srv.outbound.erase rid } rid p r bs).1.range
            = w.srv.range ∧ rangeSends
            (byRootResponse { w.srv with outbound := w.srv.outbound.erase rid } rid p r bs).2 = [] := by
          unfold byRootResponse
          split
          · obtain ⟨⟨f1, _⟩, f2⟩ := fetchFailure_cases
              { w.srv with outbound := (w.srv.outbound.erase rid).insert rid (.root r) } r p
            refine ⟨f1, ?_⟩
            rcases f2 with ⟨_, _, h⟩ | ⟨n, _, _, _, h⟩ | ⟨n, _, _, _, h⟩ <;> rw [h] <;> rfl
          · obtain ⟨⟨f1, _⟩, f2⟩ := rootBlocks_cases r bs
              { w.srv with outbound := w.srv.outbound.erase rid }
            refine ⟨f1, ?_⟩
            rcases f2 with ⟨_, _, h⟩ | ⟨_, _, fwd, hf, h⟩
            · rw [h]; rfl
            · rcases h with ⟨_, h⟩ | ⟨_, h⟩
              · rw [h, rangeSends_forwards hf]
              · rw [h]
                exact (show rangeSends fwd = [] from rangeSends_forwards hf)
        refine quiet (fun rid' h a b => ?_) (by rw [hst]; exact hq.1) (by rw [hst]; exact hq.2)
        cases h; rw [hk]; simp
      | range a b =>
        rw [hk] at hst
        dsimp only at hst
        obtain ⟨st, q, c, c1, c2, c3, c4, c5, c6, c7, c8⟩ := busy_of_flying g hin hk
        unfold byRangeResponse at hst
        by_cases hbs : bs.isEmpty = true
        · rw [if_pos hbs] at hst
          have hnil : bs = [] := by simpa using hbs
          exact failcase rid p a b hin hk rfl
            ⟨p, .inl ⟨sent, by rw [hnil]; simp⟩⟩ hst
        rw [if_neg hbs] at hst
        have hne : bs ≠ [] := by simpa using hbs
        rw [c3] at hfly
        simp only [answers, ne_eq, not_true_eq_false, decide_false, Bool.false_eq_true,
          not_false_eq_true, List.filter_cons_of_neg, List.filter_nil, List.nil_append] at hfly
        by_cases hch : w.srv.chain = true
        case neg =>
          rw [if_pos hch] at hst
          rw [hst] at hfly ⊢
          rw [hfly]
          exact ⟨GInv.cleared _ _, fun x hx => by cases hx⟩
        rw [if_neg (by simp [hch])] at hst
        dsimp only at hst
        rw [c1] at hst
        dsimp only at hst
        generalize hfw : (bs.filter (fun b_1 => decide (a ≤ b_1.slot ∧ b_1.slot ≤ b))).map POut.forward
          = fwd at hst
        have hof : OnlyForwards fwd := by
          intro o ho
          rw [← hfw] at ho
          obtain ⟨y, _, hy⟩ := List.mem_map.1 ho
          exact ⟨y, hy.symm⟩
        obtain ⟨d1, d2, d3, d4⟩ := complete_facts st b
        have hk0 := (g.ok st c1)
        have hstart : (st.complete b).start = st.start + c := by
          have hmax := hk0.max
          rw [d1, c5, satAdd_eq (by omega)]
          omega
        have hcomp : Completed (evs ++ [.blocks rid p bs sent]) rid := ⟨p, bs, sent, by simp, hne⟩
        by_cases hend : (st.complete b).stop ≤ (st.complete b).start ∨ (st.complete b).peers.isEmpty = true
        · rw [if_pos hend] at hst
          rw [hst] at hfly ⊢
          have hs0 : rangeSends fwd = [] := rangeSends_forwards hof
          rw [hfly]
          dsimp only
          simp only [sentFlying, hs0, List.map_nil, List.getLast?_nil, Option.none_or]
          exact ⟨GInv.cleared _ _, fun x hx => by cases hx⟩
        · rw [if_neg hend] at hst
          rw [hst] at hfly ⊢
          rw [hfly]
          dsimp only
          have hk1 : SOK (evs ++ [.blocks rid p bs sent]) (st.complete b) := by
            have k := hk0.snoc (.blocks rid p bs sent)
            refine ⟨by rw [d2]; exact k.max, by rw [d2]; exact k.stop, ?_, fun p h hp => k.peers p h (d4 _ hp)⟩
            obtain ⟨q', h', o', t', k3⟩ := k.start
            exact ⟨q', h', o', t', by rw [hstart]; omega⟩
          have hlast : LastOK (evs ++ [.blocks rid p bs sent]) last (st.complete b).start :=
            .inr ⟨rid, q, st.start, c, c8, .inr ⟨hstart, hcomp⟩⟩
          have hs0 : ∀ o, rangeSends (fwd ++ o) = rangeSends o := fun o => by
            rw [rangeSends_append, rangeSends_forwards hof]; rfl
          simp only [sentFlying, hs0]
          have hreq := GInv.request hord (s :=
            { w.srv with outbound := w.srv.outbound.erase rid, range := some (st.complete b) }) (L := []) rfl hk1
            (fun h => by rw [d3] at h; cases h) (fun _ => ⟨rfl, .inl hlast⟩) w.next sent
          refine ⟨hreq, fun x hx => ?_⟩
          obtain ⟨r1, r2, r3, r4⟩ := request_sent hord rfl hk1 hx
          refine ⟨r4, .inl ⟨rid, q, st.start, c, c8, .inr ⟨?_, hcomp⟩⟩⟩
          rw [r1, hstart]
  | errorResponse rid p =>
    have hin : (rid, p) ∈ w.inflight := ha
    have hst : w.srv.step ord w.next (.errorResponse rid p) = (match w.srv.outbound.get? rid with
      | none => (w.srv, [])
      | some (.range _ _) => (failRange { w.srv with outbound := w.srv.outbound.erase rid } p, [])
      | some (.root r) =>
        ({ w.srv with outbound := (w.srv.outbound.erase rid).insert rid (.root r) }, [])) := rfl
    cases hk : w.srv.outbound.get? rid with
    | none =>
      rw [hk] at hst
      refine quiet (fun rid' h a b => ?_) (by rw [hst]) (by rw [hst]; rfl)
      cases h; rw [hk]; simp
    | some k =>
      cases k with
      | root r =>
        rw [hk] at hst
        refine quiet (fun rid' h a b => ?_) (by rw [hst]) (by rw [hst]; rfl)
        cases h; rw [hk]; simp
      | range a b =>
        rw [hk] at hst
        exact failcase rid p a b hin hk rfl ⟨p, .inr (.inl (by simp))⟩ hst
  | failure rid p =>
    have hin : (rid, p) ∈ w.inflight := ha
    have hst : w.srv.step ord w.next (.failure rid p) = (match w.srv.outbound.get? rid with
      | none => (w.srv, [])
      | some (.range _ _) => (failRange { w.srv with outbound := w.srv.outbound.erase rid } p, [])
      | some (.root r) => fetchFailure { w.srv with outbound := w.srv.outbound.erase rid } r p) := rfl
    cases hk : w.srv.outbound.get? rid with
    | none =>
      rw [hk] at hst
      refine quiet (fun rid' h a b => ?_) (by rw [hst]) (by rw [hst]; rfl)
      cases h; rw [hk]; simp
    | some k =>
      cases k with
      | root r =>
        rw [hk] at hst
        obtain ⟨⟨f1, _⟩, f2⟩ := fetchFailure_cases
          { w.srv with outbound := w.srv.outbound.erase rid } r p
        refine quiet (fun rid' h a b => ?_) (by rw [hst]; exact f1) ?_
        · cases h; rw [hk]; simp
        · rw [hst]
          rcases f2 with ⟨_, _, h⟩ | ⟨n, _, _, _, h⟩ | ⟨n, _, _, _, h⟩ <;> dsimp only <;> rw [h] <;> rfl
      | range a b =>
        rw [hk] at hst
        exact failcase rid p a b hin hk rfl ⟨p, .inr (.inr (by simp))⟩ hst

theorem run_ginv {ord : AMap Peer Nat → AMap Peer Nat} (hord : ∀ m, (ord m).Perm m)
    {tr : List (PEvent × List POut)} {w : PWorld} (h : PRun ord PWorld.init tr w) :
    GInv (eventsOf tr) (rangeSends (outputs tr)).getLast? w.srv.range (rangeFlying w) ∧
    ∀ x ∈ rangeSends (outputs tr), WellFormed (eventsOf tr) x.2.1 x.2.2.1 x.2.2.2 := by
  induction h with
  | nil => exact ⟨GInv.cleared _ _, fun x hx => by cases hx⟩
  | @snoc w tr e hrun ha ih =>
    obtain ⟨g, hw⟩ := ih
    obtain ⟨hb, _, _⟩ := run_inv hrun
    obtain ⟨s1, s2⟩ := ginv_step (ord := ord) hord hb ha g
    have e1 : eventsOf (tr ++ [(e, (w.step ord e).2)]) = eventsOf tr ++ [e] := by simp [eventsOf]
    rw [outputs_snoc, rangeSends_append, List.getLast?_append, e1]
    refine ⟨s1, fun x hx => ?_⟩
    rcases List.mem_append.1 hx with hx | hx
    · exact (hw x hx).snoc e
    · exact (s2 x hx).1

end Verif.Net
