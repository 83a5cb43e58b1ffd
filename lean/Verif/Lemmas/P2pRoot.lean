import Verif.Lemmas.P2p

namespace Verif.Net
open Verif

/-! ### One root under one event -/

/-- Unanswered requests for a root. -/
def flying (w : PWorld) (r : Root) : Nat :=
  w.inflight.countP (fun x => decide (w.srv.outbound.get? x.1 = some (.root r)))

/-- Retry timers of a root. -/
def ticking (w : PWorld) (r : Root) : Nat := w.timers.count r

/-- How one event can change the state of one root: attempts, unanswered requests, timers. -/
inductive RootStep (wrong : Prop) : Option Nat → Nat → Nat → List RootLog → Option Nat → Nat → Nat → Prop
  | idle (a : Option Nat) (f t : Nat) : RootStep wrong a f t [] a f t
  | start (f t : Nat) : RootStep wrong none f t [.asked] (some 1) (f + 1) t
  | retry (n f t : Nat) : RootStep wrong (some n) f (t + 1) [.asked] (some n) (f + 1) t
  | giveUp (n f t : Nat) : RootStep wrong (some n) f (t + 1) [.closed] none f t
  | stale (f t : Nat) : RootStep wrong none f (t + 1) [] none f t
  | got (n f t : Nat) : RootStep wrong (some n) (f + 1) t [.closed] none f t
  | late (f t : Nat) : RootStep wrong none (f + 1) t [] none f t
  | failed (n f t : Nat) : n < maxFetchRetries →
      RootStep wrong (some n) (f + 1) t
        [.waits (initialBackoffMs * backoffMultiplier ^ (n - 1))] (some (n + 1)) f (t + 1)
  | last (n f t : Nat) : maxFetchRetries ≤ n →
      RootStep wrong (some n) (f + 1) t [.closed] none f t
  | wrong (n f t : Nat) : wrong → RootStep wrong (some n) (f + 1) t [] (some n) f t

/-- Ids of unanswered requests are distinct and have been handed out. -/
structure BInv (w : PWorld) : Prop where
  nodup : (w.inflight.map Prod.fst).Nodup
  old : ∀ x ∈ w.inflight, x.1 < w.next

theorem rootLog_append (r : Root) (a b : List POut) :
    rootLog r (a ++ b) = rootLog r a ++ rootLog r b := List.filterMap_append

theorem rootLog_forwards (r : Root) {l : List POut} (h : OnlyForwards l) : rootLog r l = [] := by
  unfold rootLog
  rw [List.filterMap_eq_nil_iff]
  intro o ho
  obtain ⟨b, rfl⟩ := h o ho
  rfl

theorem sends_append (a b : List POut) : sends (a ++ b) = sends a ++ sends b := List.filterMap_append

theorem timersOf_append (a b : List POut) : timersOf (a ++ b) = timersOf a ++ timersOf b :=
  List.filterMap_append

theorem sends_forwards {l : List POut} (h : OnlyForwards l) : sends l = [] := by
  unfold sends
  rw [List.filterMap_eq_nil_iff]
  intro o ho
  obtain ⟨b, rfl⟩ := h o ho
  rfl

theorem timersOf_forwards {l : List POut} (h : OnlyForwards l) : timersOf l = [] := by
  unfold timersOf
  rw [List.filterMap_eq_nil_iff]
  intro o ho
  obtain ⟨b, rfl⟩ := h o ho
  rfl

theorem rangeSends_append (a b : List POut) : rangeSends (a ++ b) = rangeSends a ++ rangeSends b :=
  List.filterMap_append

theorem rangeSends_forwards {l : List POut} (h : OnlyForwards l) : rangeSends l = [] := by
  unfold rangeSends
  rw [List.filterMap_eq_nil_iff]
  intro o ho
  obtain ⟨b, rfl⟩ := h o ho
  rfl

/-- The event answers the request with this id. -/
def answers : PEvent → Option ReqId
  | .blocks id _ _ _ => some id
  | .errorResponse id _ => some id
  | .failure id _ => some id
  | _ => none

theorem rest_eq (w : PWorld) (e : PEvent) :
    w.rest e = w.inflight.filter (fun x => decide (answers e ≠ some x.1)) := by
  have hall : w.inflight = w.inflight.filter (fun _ => true) :=
    (List.filter_eq_self.2 (fun _ _ => rfl)).symm
  have hid : ∀ id : ReqId, w.inflight.filter (fun x => decide (x.1 ≠ id))
      = w.inflight.filter (fun x => decide (some id ≠ some x.1)) := by
    intro id
    apply List.filter_congr
    intro x _
    simp only [ne_eq, Option.some.injEq, decide_eq_decide]
    exact not_congr eq_comm
  cases e <;> simp only [PWorld.rest, answers] <;> first | exact hid _ | (simpa using hall)

theorem countP_rest {l : List (ReqId × Peer)} (hn : (l.map Prod.fst).Nodup) {id : ReqId} {p : Peer}
    (h : (id, p) ∈ l) (q : ReqId → Bool) :
    l.countP (fun x => q x.1)
      = (l.filter (fun x => decide (x.1 ≠ id))).countP (fun x => q x.1) + (if q id then 1 else 0) := by
  induction l with
  | nil => cases h
  | cons x l ih =>
    simp only [List.map_cons, List.nodup_cons] at hn
    rcases List.mem_cons.1 h with hx | hx
    · subst hx
      have : l.filter (fun x => decide (x.1 ≠ id)) = l := by
        rw [List.filter_eq_self]
        intro y hy
        have : y.1 ≠ id := fun e => hn.1 (List.mem_map.2 ⟨y, hy, e⟩)
        simp [this]
      rw [List.countP_cons, List.filter_cons]
      simp only [ne_eq, not_true_eq_false, decide_false, Bool.false_eq_true, if_false]
      rw [show l.filter (fun x => decide ¬ x.1 = id) = l from this]
    · have hne : x.1 ≠ id := fun e => hn.1 (e ▸ List.mem_map_of_mem (f := Prod.fst) hx)
      rw [List.countP_cons, List.filter_cons]
      simp only [ne_eq, hne, not_false_eq_true, decide_true, if_true]
      rw [List.countP_cons, ih hn.2 hx]
      simp only [ne_eq]
      omega

/-- How the unanswered requests for a root change. -/
theorem flying_step {ord : AMap Peer Nat → AMap Peer Nat} {w : PWorld} {e : PEvent} (r : Root)
    (hb : BInv w) (ha : w.allows e) {k : Nat}
    (hrest : ∀ x : ReqId, x < w.next → answers e ≠ some x →
      (w.srv.step ord w.next e).1.outbound.get? x = w.srv.outbound.get? x)
    (hs : (sends (w.srv.step ord w.next e).2).countP
      (fun x => decide ((w.srv.step ord w.next e).1.outbound.get? x.1 = some (.root r))) = k) :
    flying (w.step ord e).1 r + (if (answers e).any
        (fun id => decide (w.srv.outbound.get? id = some (.root r))) then 1 else 0)
      = flying w r + k := by
  unfold flying PWorld.step
  dsimp only
  rw [List.countP_append, hs]
  have h1 : (w.rest e).countP
      (fun x => decide ((w.srv.step ord w.next e).1.outbound.get? x.1 = some (.root r)))
      = (w.rest e).countP (fun x => decide (w.srv.outbound.get? x.1 = some (.root r))) := by
    apply List.countP_congr
    intro x hx
    rw [rest_eq] at hx
    obtain ⟨hx1, hx2⟩ := List.mem_filter.1 hx
    rw [hrest x.1 (hb.old x hx1) (by simpa using hx2)]
  rw [h1]
  have hresp : ∀ id p, (id, p) ∈ w.inflight →
      (w.inflight.filter (fun x => decide (x.1 ≠ id))).countP
        (fun x => decide (w.srv.outbound.get? x.1 = some (.root r))) + k
        + (if decide (w.srv.outbound.get? id = some (.root r)) = true then 1 else 0)
      = w.inflight.countP (fun x => decide (w.srv.outbound.get? x.1 = some (.root r))) + k := by
    intro id p hm
    have := countP_rest hb.nodup hm (fun i => decide (w.srv.outbound.get? i = some (.root r)))
    omega
  cases e <;> simp only [answers, PWorld.rest, Option.any_none, Option.any_some,
    Bool.false_eq_true, if_false, Nat.add_zero] <;> first | rfl | exact hresp _ _ ha

/-- The timers of a root after an event that does not fire one. -/
theorem ticking_step {ord : AMap Peer Nat → AMap Peer Nat} {w : PWorld} {e : PEvent} (r : Root) :
    ticking (w.step ord e).1 r
      = (w.restTimers e).count r + (timersOf (w.srv.step ord w.next e).2).count r := by
  unfold ticking PWorld.step
  dsimp only
  rw [List.count_append]

theorem get?_insert_ne {m : AMap ReqId Kind} {k x : ReqId} {v : Kind} (h : x ≠ k) :
    (m.insert k v).get? x = m.get? x := by
  rw [AMap.get?_insert, if_neg (Ne.symm h)]

theorem get?_erase_ne {m : AMap ReqId Kind} {k x : ReqId} (h : x ≠ k) :
    (m.erase k).get? x = m.get? x := by
  rw [AMap.get?_erase, if_neg (Ne.symm h)]

/-- The request an event sends, if any, and what is noted about it. -/
inductive Sent (s' : Server) (outs : List POut) (id : ReqId) : Prop
  | none : sends outs = [] → Sent s' outs id
  | root (p : Peer) (r : Root) : sends outs = [(id, p)] → s'.outbound.get? id = some (.root r) →
      POut.sendRoot id p r ∈ outs → rangeSends outs = [] → Sent s' outs id
  | range (p : Peer) (a b : Nat) : sends outs = [(id, p)] →
      s'.outbound.get? id = some (.range a (b - 1)) →
      rangeSends outs = [(id, p, a, b - a)] → a < b → Sent s' outs id

/-- Requests that an event neither answers nor sends stay as they are noted. -/
theorem step_frame (ord : AMap Peer Nat → AMap Peer Nat) (s : Server) (id : ReqId) (e : PEvent)
    (hfresh : answers e ≠ some id) :
    (∀ x : ReqId, x ≠ id → answers e ≠ some x →
      (s.step ord id e).1.outbound.get? x = s.outbound.get? x) ∧
    Sent (s.step ord id e).1 (s.step ord id e).2 id := by
  have range_case : ∀ (s0 s1 : Server) (outs : List POut) (fwd rest : List POut),
      OnlyForwards fwd → outs = fwd ++ rest →
      ((rest = [] ∧ s1.outbound = s0.outbound) ∨
        (∃ p a b, rest = [.sendRange id p a (b - a)] ∧
          s1.outbound = s0.outbound.insert id (.range a (b - 1)) ∧ a < b)) →
      (∀ x : ReqId, x ≠ id → s1.outbound.get? x = s0.outbound.get? x) ∧ Sent s1 outs id := by
    intro s0 s1 outs fwd rest hf ho h
    rcases h with ⟨h1, h2⟩ | ⟨p, a, b, h1, h2, hab⟩
    · subst h1; subst ho
      exact ⟨fun x _ => by rw [h2], .none (by simp [sends_forwards hf])⟩
    · subst h1; subst ho
      refine ⟨fun x hx => by rw [h2, get?_insert_ne hx], .range p a b ?_ ?_ ?_ hab⟩
      · rw [sends_append, sends_forwards hf]; rfl
      · rw [h2, AMap.get?_insert_self]
      · rw [rangeSends_append, rangeSends_forwards hf]; rfl
  have hnil : OnlyForwards [] := fun o ho => by cases ho
  cases e with
  | connected p => exact ⟨fun _ _ _ => rfl, .none rfl⟩
  | disconnected p => exact ⟨fun _ _ _ => rfl, .none rfl⟩
  | initChain => exact ⟨fun _ _ _ => rfl, .none rfl⟩
  | fetch r pick sent =>
    unfold Server.step
    dsimp only
    split
    · exact ⟨fun _ _ _ => rfl, .none rfl⟩
    · obtain ⟨_, h⟩ := fetchFromPeer_cases s id r pick sent
      rcases h with ⟨_, h2, h3, _⟩ | ⟨p, _, _, h2, h3, _⟩
      · exact ⟨fun x _ _ => by rw [h3], .none (by rw [h2]; rfl)⟩
      · refine ⟨fun x hx _ => by rw [h3, get?_insert_ne hx], .root p r ?_ ?_ ?_ ?_⟩
        · rw [h2]; rfl
        · rw [h3, AMap.get?_insert_self]
        · rw [h2]; simp
        · rw [h2]; rfl
  | retry r pick sent =>
    unfold Server.step
    dsimp only
    split
    · exact ⟨fun _ _ _ => rfl, .none rfl⟩
    · obtain ⟨_, h⟩ := fetchFromPeer_cases s id r pick sent
      rcases h with ⟨h1, h2, h3, _⟩ | ⟨p, h1, _, h2, h3, _⟩
      · rw [if_neg (by rw [h1]; simp)]
        exact ⟨fun x _ _ => by dsimp only; rw [h3], .none (by dsimp only; rw [h2]; rfl)⟩
      · rw [if_pos h1]
        refine ⟨fun x hx _ => by rw [h3, get?_insert_ne hx], .root p r ?_ ?_ ?_ ?_⟩
        · rw [h2]; rfl
        · rw [h3, AMap.get?_insert_self]
        · rw [h2]; simp
        · rw [h2]; rfl
  | status p head ourHead sent =>
    obtain ⟨_, _, h⟩ := statusResponse_frame ord s id sent p head ourHead
    obtain ⟨h1, h2⟩ := range_case s (statusResponse ord s id sent p head ourHead).1 _ [] _ hnil
      (List.nil_append _).symm h
    exact ⟨fun x hx _ => h1 x hx, h2⟩
  | blocks rid p bs sent =>
    unfold Server.step
    dsimp only
    have hne : rid ≠ id := fun h => hfresh (by rw [h]; rfl)
    split
    · exact ⟨fun _ _ _ => rfl, .none rfl⟩
    · rename_i a b hk
      obtain ⟨_, _, fwd, rest, hf, ho, h⟩ :=
        byRangeResponse_frame ord { s with outbound := s.outbound.erase rid } id sent p a b bs
      obtain ⟨h1, h2⟩ := range_case _ _ _ fwd rest hf ho h
      refine ⟨fun x hx hx2 => ?_, h2⟩
      rw [h1 x hx]
      exact get?_erase_ne (fun e => hx2 (by rw [e]; rfl))
    · rename_i r hk
      unfold byRootResponse
      split
      · obtain ⟨⟨_, _, h3, _⟩, h4⟩ := fetchFailure_cases
          { s with outbound := (s.outbound.erase rid).insert rid (.root r) } r p
        refine ⟨fun x hx hx2 => ?_, .none ?_⟩
        · have hxr : x ≠ rid := fun e => hx2 (by rw [e]; rfl)
          rw [h3]
          dsimp only
          rw [get?_insert_ne hxr, get?_erase_ne hxr]
        · rcases h4 with ⟨_, _, h⟩ | ⟨n, _, _, _, h⟩ | ⟨n, _, _, _, h⟩ <;> rw [h] <;> rfl
      · obtain ⟨⟨_, _, h3, _⟩, h4⟩ := rootBlocks_cases r bs
          { s with outbound := s.outbound.erase rid }
        refine ⟨fun x hx hx2 => ?_, .none ?_⟩
        · have hxr : x ≠ rid := fun e => hx2 (by rw [e]; rfl)
          rw [h3]
          exact get?_erase_ne hxr
        · rcases h4 with ⟨_, _, h⟩ | ⟨_, _, fwd, hf, h⟩
          · rw [h]; rfl
          · rcases h with ⟨_, h⟩ | ⟨_, h⟩
            · rw [h, sends_forwards hf]
            · rw [h]
              exact (show sends fwd = [] from sends_forwards hf)
  | errorResponse rid p =>
    unfold Server.step
    dsimp only
    split
    · exact ⟨fun _ _ _ => rfl, .none rfl⟩
    · obtain ⟨_, f2, _⟩ := failRange_frame { s with outbound := s.outbound.erase rid } p
      refine ⟨fun x hx hx2 => ?_, .none rfl⟩
      dsimp only
      rw [f2]
      exact get?_erase_ne (fun e => hx2 (by rw [e]; rfl))
    · refine ⟨fun x hx hx2 => ?_, .none rfl⟩
      have hxr : x ≠ rid := fun e => hx2 (by rw [e]; rfl)
      dsimp only
      rw [get?_insert_ne hxr, get?_erase_ne hxr]
  | failure rid p =>
    unfold Server.step
    dsimp only
    split
    · exact ⟨fun _ _ _ => rfl, .none rfl⟩
    · obtain ⟨_, f2, _⟩ := failRange_frame { s with outbound := s.outbound.erase rid } p
      refine ⟨fun x hx hx2 => ?_, .none rfl⟩
      dsimp only
      rw [f2]
      exact get?_erase_ne (fun e => hx2 (by rw [e]; rfl))
    · rename_i r hk
      obtain ⟨⟨_, _, h3, _⟩, h4⟩ := fetchFailure_cases { s with outbound := s.outbound.erase rid } r p
      refine ⟨fun x hx hx2 => ?_, .none ?_⟩
      · rw [h3]
        exact get?_erase_ne (fun e => hx2 (by rw [e]; rfl))
      · rcases h4 with ⟨_, _, h⟩ | ⟨n, _, _, _, h⟩ | ⟨n, _, _, _, h⟩ <;> rw [h] <;> rfl

theorem fresh_answers {w : PWorld} {e : PEvent} (hb : BInv w) (ha : w.allows e) {x : ReqId}
    (hx : answers e = some x) : x < w.next := by
  cases e <;> simp only [answers, Option.some.injEq, reduceCtorEq] at hx <;> subst hx <;>
    exact hb.old _ ha

theorem BInv.step {ord : AMap Peer Nat → AMap Peer Nat} {w : PWorld} {e : PEvent} (hb : BInv w)
    (ha : w.allows e) : BInv (w.step ord e).1 := by
  have hf : answers e ≠ some w.next := fun h => Nat.lt_irrefl _ (fresh_answers hb ha h)
  obtain ⟨_, hs⟩ := step_frame ord w.srv w.next e hf
  have hsub : ∀ x ∈ w.rest e, x ∈ w.inflight := fun x hx => by
    rw [rest_eq] at hx; exact (List.mem_filter.1 hx).1
  have hnd : ((w.rest e).map Prod.fst).Nodup := by
    rw [rest_eq]; exact List.Nodup.sublist (List.Sublist.map _ List.filter_sublist) hb.nodup
  have key : ∀ l, (l = [] ∨ ∃ p, l = [(w.next, p)]) →
      (((w.rest e ++ l).map Prod.fst).Nodup) ∧ ∀ x ∈ w.rest e ++ l, x.1 < w.next + l.length := by
    intro l hl
    rcases hl with rfl | ⟨p, rfl⟩
    · simp only [List.append_nil, List.length_nil, Nat.add_zero]
      exact ⟨hnd, fun x hx => hb.old x (hsub x hx)⟩
    · constructor
      · rw [List.map_append, List.nodup_append]
        refine ⟨hnd, by simp, fun a ha b hb' hab => ?_⟩
        obtain ⟨x, hx, rfl⟩ := List.mem_map.1 ha
        simp only [List.map_cons, List.map_nil, List.mem_singleton] at hb'
        have := hb.old x (hsub x hx)
        rw [hab, hb'] at this
        exact Nat.lt_irrefl _ this
      · intro x hx
        simp only [List.length_singleton]
        rcases List.mem_append.1 hx with hx | hx
        · exact Nat.lt_succ_of_lt (hb.old x (hsub x hx))
        · rw [List.mem_singleton.1 hx]; exact Nat.lt_succ_self _
  have hl : sends (w.srv.step ord w.next e).2 = [] ∨
      ∃ p, sends (w.srv.step ord w.next e).2 = [(w.next, p)] := by
    rcases hs with h | ⟨p, r, h, _⟩ | ⟨p, a, b, h, _⟩
    · exact .inl h
    · exact .inr ⟨p, h⟩
    · exact .inr ⟨p, h⟩
  obtain ⟨k1, k2⟩ := key _ hl
  exact ⟨k1, k2⟩

theorem BInv.init : BInv PWorld.init := ⟨by simp [PWorld.init], by simp [PWorld.init]⟩

theorem attempts_outbound (s : Server) (o : AMap ReqId Kind) (r : Root) :
    attempts { s with outbound := o } r = attempts s r := rfl

theorem attempts_pending {s s' : Server} (h : s'.pending = s.pending) (r : Root) :
    attempts s' r = attempts s r := by unfold attempts; rw [h]

/-- Every event changes each root in one of the ways of `RootStep`. -/
theorem step_root {ord : AMap Peer Nat → AMap Peer Nat} {w : PWorld} {e : PEvent}
    (hb : BInv w) (ha : w.allows e) (r : Root) :
    RootStep (WrongAnswer w.srv r e) (attempts w.srv r) (flying w r) (ticking w r)
      (rootLog r (w.step ord e).2)
      (attempts (w.step ord e).1.srv r) (flying (w.step ord e).1 r) (ticking (w.step ord e).1 r) := by
  have hf : answers e ≠ some w.next := fun h => Nat.lt_irrefl _ (fresh_answers hb ha h)
  obtain ⟨hfr, _⟩ := step_frame ord w.srv w.next e hf
  have hfl := fun k hk => flying_step (ord := ord) (k := k) r hb ha
    (fun x hx h => hfr x (Nat.ne_of_lt hx) h) hk
  have htk := ticking_step (ord := ord) (w := w) (e := e) r
  have e1 : (w.step ord e).2 = (w.srv.step ord w.next e).2 := rfl
  have e2 : (w.step ord e).1.srv = (w.srv.step ord w.next e).1 := rfl
  rw [e1, e2]
  -- an event that does nothing about `r`
  have idle : rootLog r (w.srv.step ord w.next e).2 = [] →
      attempts (w.srv.step ord w.next e).1 r = attempts w.srv r →
      flying (w.step ord e).1 r = flying w r → ticking (w.step ord e).1 r = ticking w r →
      RootStep (WrongAnswer w.srv r e) (attempts w.srv r) (flying w r) (ticking w r)
        (rootLog r (w.srv.step ord w.next e).2)
        (attempts (w.srv.step ord w.next e).1 r) (flying (w.step ord e).1 r)
        (ticking (w.step ord e).1 r) := by
    intro h1 h2 h3 h4
    rw [h1, h2, h3, h4]
    exact .idle _ _ _
  -- a range request or nothing, after forwarding
  have rangeOuts : ∀ (outs fwd rest : List POut) (s0 s1 : Server), OnlyForwards fwd →
      outs = fwd ++ rest →
      ((rest = [] ∧ s1.outbound = s0.outbound) ∨
        (∃ p a b, rest = [.sendRange w.next p a (b - a)] ∧
          s1.outbound = s0.outbound.insert w.next (.range a (b - 1)) ∧ a < b)) →
      rootLog r outs = [] ∧ timersOf outs = [] ∧
      (sends outs).countP (fun x => decide (s1.outbound.get? x.1 = some (.root r))) = 0 := by
    intro outs fwd rest s0 s1 hfw ho h
    rw [ho, rootLog_append, timersOf_append, sends_append, rootLog_forwards r hfw,
      timersOf_forwards hfw, sends_forwards hfw]
    rcases h with ⟨h1, _⟩ | ⟨p, a, b, h1, h2, _⟩
    · rw [h1]; exact ⟨rfl, rfl, rfl⟩
    · rw [h1]
      refine ⟨rfl, rfl, ?_⟩
      simp [sends, h2, AMap.get?_insert_self]
  cases e with
  | connected p => exact idle rfl rfl (by simpa [answers] using hfl 0 rfl) (by rw [htk]; rfl)
  | disconnected p => exact idle rfl rfl (by simpa [answers] using hfl 0 rfl) (by rw [htk]; rfl)
  | initChain => exact idle rfl rfl (by simpa [answers] using hfl 0 rfl) (by rw [htk]; rfl)
  | fetch r0 pick sent =>
    have hst : w.srv.step ord w.next (.fetch r0 pick sent) = if w.srv.pending.has r0 = true then
      (w.srv, []) else (fetchFromPeer w.srv w.next r0 pick sent).2 := rfl
    have hrt : w.restTimers (.fetch r0 pick sent) = w.timers := rfl
    have hfl2 : ∀ k, (sends (w.srv.step ord w.next (.fetch r0 pick sent)).2).countP (fun x => decide
        ((w.srv.step ord w.next (.fetch r0 pick sent)).1.outbound.get? x.1 = some (.root r))) = k →
        flying (w.step ord (.fetch r0 pick sent)).1 r = flying w r + k := by
      intro k hk; simpa [answers] using hfl k hk
    rw [hrt] at htk
    rw [hst] at idle hfl2 htk ⊢
    by_cases hh : w.srv.pending.has r0 = true
    · rw [if_pos hh] at idle hfl2 htk ⊢
      exact idle rfl rfl (hfl2 0 rfl) (by rw [htk]; rfl)
    rw [if_neg hh] at idle hfl2 htk ⊢
    obtain ⟨_, h⟩ := fetchFromPeer_cases w.srv w.next r0 pick sent
    rcases h with ⟨_, h2, _, h4⟩ | ⟨p, _, _, h2, h3, h4, h5⟩
    · rw [h2] at idle hfl2 htk ⊢
      exact idle rfl (h4 r) (hfl2 0 rfl) (by rw [htk]; rfl)
    · rw [h2] at idle hfl2 htk ⊢
      have ht : ticking (w.step ord (.fetch r0 pick sent)).1 r = ticking w r := by rw [htk]; rfl
      by_cases hr : r0 = r
      · subst hr
        have hfl3 := hfl2 1 (by simp [sends, h3, AMap.get?_insert_self])
        have hl : rootLog r0 [POut.sendRoot w.next p r0] = [.asked] := by simp [rootLog]
        rw [hl, hfl3, ht, h5, has_false_iff.1 hh]
        exact .start _ _
      · have hl : rootLog r [POut.sendRoot w.next p r0] = [] := by simp [rootLog, hr]
        exact idle hl (h4 r (Ne.symm hr))
          (hfl2 0 (by simp [sends, h3, AMap.get?_insert_self, hr])) ht
  | retry r0 pick sent =>
    have hst : w.srv.step ord w.next (.retry r0 pick sent) = if ¬ w.srv.pending.has r0 = true then
        (w.srv, []) else if (fetchFromPeer w.srv w.next r0 pick sent).1 = true then
          (fetchFromPeer w.srv w.next r0 pick sent).2
        else ({ (fetchFromPeer w.srv w.next r0 pick sent).2.1 with
                pending := (fetchFromPeer w.srv w.next r0 pick sent).2.1.pending.erase r0 },
              (fetchFromPeer w.srv w.next r0 pick sent).2.2 ++ [.closed r0]) := rfl
    have hrt : w.restTimers (.retry r0 pick sent) = w.timers.erase r0 := rfl
    have hmem : r0 ∈ w.timers := ha
    have hcount : (w.timers.erase r0).count r + (if r0 = r then 1 else 0) = ticking w r := by
      unfold ticking
      by_cases hr : r0 = r
      · subst hr
        have := List.count_pos_iff.2 hmem
        rw [List.count_erase_self, if_pos rfl]; omega
      · rw [List.count_erase_of_ne (Ne.symm hr), if_neg hr]; rfl
    have hfl2 : ∀ k, (sends (w.srv.step ord w.next (.retry r0 pick sent)).2).countP (fun x => decide
        ((w.srv.step ord w.next (.retry r0 pick sent)).1.outbound.get? x.1 = some (.root r))) = k →
        flying (w.step ord (.retry r0 pick sent)).1 r = flying w r + k := by
      intro k hk; simpa [answers] using hfl k hk
    rw [hrt] at htk
    rw [hst] at idle hfl2 htk ⊢
    by_cases hh : w.srv.pending.has r0 = true
    case neg =>
      rw [if_pos hh] at idle hfl2 htk ⊢
      by_cases hr : r0 = r
      · subst hr
        rw [if_pos rfl] at hcount
        have ht : ticking (w.step ord (.retry r0 pick sent)).1 r0 = (w.timers.erase r0).count r0 := by
          rw [htk]; rfl
        have hat := has_false_iff.1 hh
        rw [hfl2 0 rfl, ht, ← hcount, show rootLog r0 [] = [] from rfl, hat]
        exact .stale _ _
      · rw [if_neg hr] at hcount
        exact idle rfl rfl (hfl2 0 rfl) (by rw [htk, ← hcount]; rfl)
    rw [if_neg (by simp [hh])] at idle hfl2 htk ⊢
    obtain ⟨n, hn⟩ := has_iff_attempts.1 hh
    obtain ⟨_, h⟩ := fetchFromPeer_cases w.srv w.next r0 pick sent
    rcases h with ⟨h1, h2, h3, h4⟩ | ⟨p, h1, _, h2, h3, h4, h5⟩
    · rw [if_neg (by simp [h1])] at idle hfl2 htk ⊢
      rw [h2] at idle hfl2 htk ⊢
      by_cases hr : r0 = r
      · subst hr
        rw [if_pos rfl] at hcount
        have ht : ticking (w.step ord (.retry r0 pick sent)).1 r0 = (w.timers.erase r0).count r0 := by
          rw [htk]; rfl
        have hl : rootLog r0 ([] ++ [POut.closed r0]) = [.closed] := by simp [rootLog]
        rw [hl, hfl2 0 rfl, ht, ← hcount, hn]
        simp only [attempts, AMap.get?_erase, if_true]
        exact .giveUp _ _ _
      · rw [if_neg hr] at hcount
        have hl : rootLog r ([] ++ [POut.closed r0]) = [] := by simp [rootLog, hr]
        refine idle hl ?_ (hfl2 0 rfl) (by rw [htk, ← hcount]; rfl)
        rw [← h4 r]
        simp only [attempts, AMap.get?_erase]; rw [if_neg hr]
    · rw [if_pos h1] at idle hfl2 htk ⊢
      rw [h2] at idle hfl2 htk ⊢
      by_cases hr : r0 = r
      · subst hr
        rw [if_pos rfl] at hcount
        have ht : ticking (w.step ord (.retry r0 pick sent)).1 r0 = (w.timers.erase r0).count r0 := by
          rw [htk]; rfl
        have hfl3 := hfl2 1 (by simp [sends, h3, AMap.get?_insert_self])
        have hl : rootLog r0 [POut.sendRoot w.next p r0] = [.asked] := by simp [rootLog]
        rw [hl, hfl3, ht, ← hcount, h5, hn]
        exact .retry _ _ _
      · rw [if_neg hr] at hcount
        have hl : rootLog r [POut.sendRoot w.next p r0] = [] := by simp [rootLog, hr]
        exact idle hl (h4 r (Ne.symm hr))
          (hfl2 0 (by simp [sends, h3, AMap.get?_insert_self, hr])) (by rw [htk, ← hcount]; rfl)
  | status p head ourHead sent =>
    obtain ⟨h1, _, h3⟩ := statusResponse_frame ord w.srv w.next sent p head ourHead
    obtain ⟨o1, o2, o3⟩ := rangeOuts _ [] _ w.srv _ (fun o ho => by cases ho)
      (List.nil_append _).symm h3
    refine idle o1 (attempts_pending h1 r) ?_ ?_
    · simpa [answers] using hfl 0 o3
    · rw [htk]
      have : timersOf (w.srv.step ord w.next (.status p head ourHead sent)).2 = [] := o2
      rw [this]; rfl
  | blocks rid p bs sent =>
    have hst : w.srv.step ord w.next (.blocks rid p bs sent) = (match w.srv.outbound.get? rid with
      | none => (w.srv, [])
      | some (.range a b) =>
        byRangeResponse ord { w.srv with outbound := w.srv.outbound.erase rid } w.next sent p a b bs
      | some (.root r) =>
        byRootResponse { w.srv with outbound := w.srv.outbound.erase rid } rid p r bs) := rfl
    have hrt : w.restTimers (.blocks rid p bs sent) = w.timers := rfl
    have hfl2 : ∀ k, (sends (w.srv.step ord w.next (.blocks rid p bs sent)).2).countP (fun x => decide
        ((w.srv.step ord w.next (.blocks rid p bs sent)).1.outbound.get? x.1 = some (.root r))) = k →
        flying (w.step ord (.blocks rid p bs sent)).1 r
          + (if w.srv.outbound.get? rid = some (.root r) then 1 else 0) = flying w r + k := by
      intro k hk; simpa [answers] using hfl k hk
    rw [hrt] at htk
    have hwr : WrongAnswer w.srv r (.blocks rid p bs sent) ↔
      (w.srv.outbound.get? rid = some (.root r) ∧ bs ≠ [] ∧ ∀ b ∈ bs, b.root ≠ r) := Iff.rfl
    cases hk : w.srv.outbound.get? rid with
    | none =>
      rw [hk] at hst hfl2
      rw [hst] at idle hfl2 htk ⊢
      exact idle rfl rfl (by simpa using hfl2 0 rfl) (by rw [htk]; rfl)
    | some k =>
      cases k with
      | range a b =>
        rw [hk] at hst hfl2
        dsimp only at hst
        rw [hst] at idle hfl2 htk ⊢
        obtain ⟨h1, _, fwd, rest, hfw, ho, h3⟩ := byRangeResponse_frame ord
          { w.srv with outbound := w.srv.outbound.erase rid } w.next sent p a b bs
        obtain ⟨o1, o2, o3⟩ := rangeOuts _ fwd rest _ _ hfw ho h3
        exact idle o1 (attempts_pending h1 r) (by simpa using hfl2 0 o3) (by rw [htk, o2]; rfl)
      | root r0 =>
        rw [hk] at hst hfl2 hwr
        have hst : _ = if bs.isEmpty = true then fetchFailure
            { w.srv with outbound := (w.srv.outbound.erase rid).insert rid (.root r0) } r0 p
          else rootBlocks r0 bs { w.srv with outbound := w.srv.outbound.erase rid } := hst
        rw [hst] at idle hfl2 htk ⊢
        by_cases hbs : bs.isEmpty = true
        · rw [if_pos hbs] at idle hfl2 htk ⊢
          obtain ⟨⟨_, _, _, h4⟩, h5⟩ := fetchFailure_cases
            { w.srv with outbound := (w.srv.outbound.erase rid).insert rid (.root r0) } r0 p
          by_cases hr : r0 = r
          · subst hr
            rw [if_pos rfl] at hfl2
            rcases h5 with ⟨n1, n2, n3⟩ | ⟨n, n1, n2, n3, n4⟩ | ⟨n, n1, n2, n3, n4⟩
            · rw [n3] at hfl2 htk ⊢
              rw [n2]
              change RootStep _ _ _ _ _ (attempts w.srv r0) _ _
              change attempts w.srv r0 = _ at n1
              have := hfl2 0 rfl
              rw [← show _ = flying w r0 from this, n1, htk]
              exact .late _ _
            · rw [n4] at hfl2 htk ⊢
              change attempts w.srv r0 = _ at n1
              have := hfl2 0 rfl
              rw [← show _ = flying w r0 from this, n1, n3, htk]
              simp only [rootLog, List.filterMap_cons, if_true, List.filterMap_nil]
              exact .last _ _ _ n2
            · rw [n4] at hfl2 htk ⊢
              change attempts w.srv r0 = _ at n1
              have := hfl2 0 rfl
              rw [← show _ = flying w r0 from this, n1, n3, htk]
              simp only [rootLog, List.filterMap_cons, if_true, List.filterMap_nil, timersOf,
                List.count_singleton_self]
              exact .failed _ _ _ n2
          · rw [if_neg (by simp [hr])] at hfl2
            have hat := h4 r (Ne.symm hr)
            rcases h5 with ⟨n1, n2, n3⟩ | ⟨n, n1, n2, n3, n4⟩ | ⟨n, n1, n2, n3, n4⟩
            · rw [n3] at idle hfl2 htk ⊢
              exact idle rfl hat (by simpa using hfl2 0 rfl) (by rw [htk]; rfl)
            · rw [n4] at idle hfl2 htk ⊢
              exact idle (by simp [rootLog, hr]) hat (by simpa using hfl2 0 rfl) (by rw [htk]; rfl)
            · rw [n4] at idle hfl2 htk ⊢
              exact idle (by simp [rootLog, hr]) hat (by simpa using hfl2 0 rfl)
                (by rw [htk]; simp [timersOf, hr, ticking])
        · rw [if_neg hbs] at idle hfl2 htk ⊢
          obtain ⟨⟨_, _, _, h4⟩, h5⟩ := rootBlocks_cases r0 bs
            { w.srv with outbound := w.srv.outbound.erase rid }
          by_cases hr : r0 = r
          · subst hr
            rw [if_pos rfl] at hfl2
            rcases h5 with ⟨n1, n2, n3⟩ | ⟨_, n1, fwd, hfw, n2⟩
            · rw [n3] at hfl2 htk ⊢
              rw [n2]
              change RootStep _ _ _ _ _ (attempts w.srv r0) _ _
              have := hfl2 0 rfl
              rw [← show _ = flying w r0 from this, htk]
              cases hat : attempts w.srv r0 with
              | none => exact .late _ _
              | some n =>
                exact .wrong _ _ _ (hwr.2 ⟨rfl, fun h => hbs (by rw [h]; rfl), n1⟩)
            · rcases n2 with ⟨n2, n3⟩ | ⟨⟨n, n2⟩, n3⟩
              · rw [n3] at hfl2 htk ⊢
                change attempts w.srv r0 = _ at n2
                have := hfl2 0 (by rw [sends_forwards hfw]; rfl)
                rw [← show _ = flying w r0 from this, n1, n2, htk, rootLog_forwards r0 hfw,
                  timersOf_forwards hfw]
                exact .late _ _
              · rw [n3] at hfl2 htk ⊢
                change attempts w.srv r0 = _ at n2
                have e3 : sends (.closed r0 :: fwd) = [] := (show sends fwd = [] from sends_forwards hfw)
                have e4 : timersOf (.closed r0 :: fwd) = [] :=
                  (show timersOf fwd = [] from timersOf_forwards hfw)
                have e5 : rootLog r0 (.closed r0 :: fwd) = [.closed] := by
                  rw [show (POut.closed r0 :: fwd) = [.closed r0] ++ fwd from rfl, rootLog_append,
                    rootLog_forwards r0 hfw]
                  simp [rootLog]
                have := hfl2 0 (by rw [e3]; rfl)
                rw [← show _ = flying w r0 from this, n1, n2, htk, e4, e5]
                exact .got _ _ _
          · rw [if_neg (by simp [hr])] at hfl2
            have hat := h4 r (Ne.symm hr)
            rcases h5 with ⟨n1, n2, n3⟩ | ⟨_, n1, fwd, hfw, n2⟩
            · rw [n3] at idle hfl2 htk ⊢
              exact idle rfl hat (by simpa using hfl2 0 rfl) (by rw [htk]; rfl)
            · rcases n2 with ⟨n2, n3⟩ | ⟨⟨n, n2⟩, n3⟩
              · rw [n3] at idle hfl2 htk ⊢
                exact idle (rootLog_forwards r hfw) hat
                  (by simpa using hfl2 0 (by rw [sends_forwards hfw]; rfl))
                  (by rw [htk, timersOf_forwards hfw]; rfl)
              · rw [n3] at idle hfl2 htk ⊢
                have e3 : sends (.closed r0 :: fwd) = [] := (show sends fwd = [] from sends_forwards hfw)
                have e4 : timersOf (.closed r0 :: fwd) = [] :=
                  (show timersOf fwd = [] from timersOf_forwards hfw)
                have e5 : rootLog r (.closed r0 :: fwd) = [] := by
                  rw [show (POut.closed r0 :: fwd) = [.closed r0] ++ fwd from rfl, rootLog_append,
                    rootLog_forwards r hfw]
                  simp [rootLog, hr]
                exact idle e5 hat (by simpa using hfl2 0 (by rw [e3]; rfl)) (by rw [htk, e4]; rfl)
  | errorResponse rid p =>
    have hst : w.srv.step ord w.next (.errorResponse rid p) = (match w.srv.outbound.get? rid with
      | none => (w.srv, [])
      | some (.range _ _) => (failRange { w.srv with outbound := w.srv.outbound.erase rid } p, [])
      | some (.root r) =>
        ({ w.srv with outbound := (w.srv.outbound.erase rid).insert rid (.root r) }, [])) := rfl
    have hrt : w.restTimers (.errorResponse rid p) = w.timers := rfl
    have hfl2 : ∀ k, (sends (w.srv.step ord w.next (.errorResponse rid p)).2).countP (fun x => decide
        ((w.srv.step ord w.next (.errorResponse rid p)).1.outbound.get? x.1 = some (.root r))) = k →
        flying (w.step ord (.errorResponse rid p)).1 r
          + (if w.srv.outbound.get? rid = some (.root r) then 1 else 0) = flying w r + k := by
      intro k hk; simpa [answers] using hfl k hk
    rw [hrt] at htk
    have hwr : WrongAnswer w.srv r (.errorResponse rid p) ↔
      (w.srv.outbound.get? rid = some (.root r)) := Iff.rfl
    cases hk : w.srv.outbound.get? rid with
    | none =>
      rw [hk] at hst hfl2
      rw [hst] at idle hfl2 htk ⊢
      exact idle rfl rfl (by simpa using hfl2 0 rfl) (by rw [htk]; rfl)
    | some k =>
      cases k with
      | range a b =>
        rw [hk] at hst hfl2
        dsimp only at hst
        rw [hst] at idle hfl2 htk ⊢
        obtain ⟨h1, _⟩ := failRange_frame { w.srv with outbound := w.srv.outbound.erase rid } p
        exact idle rfl (attempts_pending h1 r) (by simpa using hfl2 0 rfl) (by rw [htk]; rfl)
      | root r0 =>
        rw [hk] at hst hfl2 hwr
        dsimp only at hst
        rw [hst] at idle hfl2 htk ⊢
        by_cases hr : r0 = r
        · subst hr
          rw [if_pos rfl] at hfl2
          have := hfl2 0 rfl
          rw [← show _ = flying w r0 from this, htk]
          change RootStep _ _ _ _ _ (attempts w.srv r0) _ _
          cases hat : attempts w.srv r0 with
          | none => exact .late _ _
          | some n => exact .wrong _ _ _ (hwr.2 rfl)
        · rw [if_neg (by simp [hr])] at hfl2
          exact idle rfl rfl (by simpa using hfl2 0 rfl) (by rw [htk]; rfl)
  | failure rid p =>
    have hst : w.srv.step ord w.next (.failure rid p) = (match w.srv.outbound.get? rid with
      | none => (w.srv, [])
      | some (.range _ _) => (failRange { w.srv with outbound := w.srv.outbound.erase rid } p, [])
      | some (.root r) => fetchFailure { w.srv with outbound := w.srv.outbound.erase rid } r p) := rfl
    have hrt : w.restTimers (.failure rid p) = w.timers := rfl
    have hfl2 : ∀ k, (sends (w.srv.step ord w.next (.failure rid p)).2).countP (fun x => decide
        ((w.srv.step ord w.next (.failure rid p)).1.outbound.get? x.1 = some (.root r))) = k →
        flying (w.step ord (.failure rid p)).1 r
          + (if w.srv.outbound.get? rid = some (.root r) then 1 else 0) = flying w r + k := by
      intro k hk; simpa [answers] using hfl k hk
    rw [hrt] at htk
    cases hk : w.srv.outbound.get? rid with
    | none =>
      rw [hk] at hst hfl2
      rw [hst] at idle hfl2 htk ⊢
      exact idle rfl rfl (by simpa using hfl2 0 rfl) (by rw [htk]; rfl)
    | some k =>
      cases k with
      | range a b =>
        rw [hk] at hst hfl2
        dsimp only at hst
        rw [hst] at idle hfl2 htk ⊢
        obtain ⟨h1, _⟩ := failRange_frame { w.srv with outbound := w.srv.outbound.erase rid } p
        exact idle rfl (attempts_pending h1 r) (by simpa using hfl2 0 rfl) (by rw [htk]; rfl)
      | root r0 =>
        rw [hk] at hst hfl2
        dsimp only at hst
        rw [hst] at idle hfl2 htk ⊢
        obtain ⟨⟨_, _, _, h4⟩, h5⟩ := fetchFailure_cases
          { w.srv with outbound := w.srv.outbound.erase rid } r0 p
        by_cases hr : r0 = r
        · subst hr
          rw [if_pos rfl] at hfl2
          rcases h5 with ⟨n1, n2, n3⟩ | ⟨n, n1, n2, n3, n4⟩ | ⟨n, n1, n2, n3, n4⟩
          · rw [n3] at hfl2 htk ⊢
            rw [n2]
            change RootStep _ _ _ _ _ (attempts w.srv r0) _ _
            change attempts w.srv r0 = _ at n1
            have := hfl2 0 rfl
            rw [← show _ = flying w r0 from this, n1, htk]
            exact .late _ _
          · rw [n4] at hfl2 htk ⊢
            change attempts w.srv r0 = _ at n1
            have := hfl2 0 rfl
            rw [← show _ = flying w r0 from this, n1, n3, htk]
            simp only [rootLog, List.filterMap_cons, if_true, List.filterMap_nil]
            exact .last _ _ _ n2
          · rw [n4] at hfl2 htk ⊢
            change attempts w.srv r0 = _ at n1
            have := hfl2 0 rfl
            rw [← show _ = flying w r0 from this, n1, n3, htk]
            simp only [rootLog, List.filterMap_cons, if_true, List.filterMap_nil, timersOf,
              List.count_singleton_self]
            exact .failed _ _ _ n2
        · rw [if_neg (by simp [hr])] at hfl2
          have hat := h4 r (Ne.symm hr)
          rcases h5 with ⟨n1, n2, n3⟩ | ⟨n, n1, n2, n3, n4⟩ | ⟨n, n1, n2, n3, n4⟩
          · rw [n3] at idle hfl2 htk ⊢
            exact idle rfl hat (by simpa using hfl2 0 rfl) (by rw [htk]; rfl)
          · rw [n4] at idle hfl2 htk ⊢
            exact idle (by simp [rootLog, hr]) hat (by simpa using hfl2 0 rfl) (by rw [htk]; rfl)
          · rw [n4] at idle hfl2 htk ⊢
            exact idle (by simp [rootLog, hr]) hat (by simpa using hfl2 0 rfl)
              (by rw [htk]; simp [timersOf, hr, ticking])

end Verif.Net
