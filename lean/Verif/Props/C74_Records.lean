import Verif.Props.C73_Rotation
/-!
# C74: the record of open requests

`C74_false`: the records kept for block-by-root requests are not bounded by the requests that are
open.  `C74_partial`: which records can outlive their request.
-/
namespace Verif.Net
open Verif

/-- After these events, the request `id` for one block was answered with no block or with an error. -/
def AnsweredEmpty (evs : List PEvent) (id : ReqId) : Prop :=
  ∃ p, (∃ sent, PEvent.blocks id p [] sent ∈ evs) ∨ PEvent.errorResponse id p ∈ evs

/-- The record of one request after an event that answers it. -/
theorem answered_record (ord : AMap Peer Nat → AMap Peer Nat) (s : Server) (id : ReqId) (e : PEvent)
    {rid : ReqId} {p : Peer} (ha : answerer e = some (rid, p)) (hne : rid ≠ id) {k : Kind}
    (h : (s.step ord id e).1.outbound.get? rid = some k) :
    ∃ r, k = .root r ∧ ((∃ sent, e = .blocks rid p [] sent) ∨ e = .errorResponse rid p) := by
  have erased : ∀ (m : AMap ReqId Kind), (m.erase rid).get? rid = none :=
    fun m => (AMap.get?_erase ..).trans (if_pos rfl)
  cases e with
  | blocks rid' p' bs sent =>
    cases ha
    unfold Server.step at h
    dsimp only at h
    cases ho : s.outbound.get? rid with
    | none => rw [ho] at h; dsimp only at h; rw [ho] at h; cases h
    | some k' =>
      rw [ho] at h
      cases k' with
      | range a b =>
        dsimp only at h
        obtain ⟨-, -, fwd, rest, -, -, h3⟩ := byRangeResponse_frame ord
          { s with outbound := s.outbound.erase rid } id sent p a b bs
        rcases h3 with ⟨-, h4⟩ | ⟨_, _, _, -, h4, -⟩
        · rw [h4] at h; rw [erased] at h; cases h
        · rw [h4, get?_insert_ne hne, erased] at h; cases h
      | root r =>
        dsimp only at h
        unfold byRootResponse at h
        by_cases hb : bs.isEmpty = true
        · rw [if_pos hb] at h
          rw [List.isEmpty_iff] at hb
          subst hb
          rw [(fetchFailure_cases _ r p).1.2.2.1] at h
          rw [AMap.get?_insert_self] at h
          cases h
          exact ⟨r, rfl, .inl ⟨sent, rfl⟩⟩
        · rw [if_neg hb, (rootBlocks_cases r bs _).1.2.2.1, erased] at h
          cases h
  | errorResponse rid' p' =>
    cases ha
    unfold Server.step at h
    dsimp only at h
    cases ho : s.outbound.get? rid with
    | none => rw [ho] at h; dsimp only at h; rw [ho] at h; cases h
    | some k' =>
      rw [ho] at h
      cases k' with
      | range a b =>
        dsimp only at h
        rw [(failRange_frame _ p).2.1, erased] at h; cases h
      | root r =>
        dsimp only at h
        rw [AMap.get?_insert_self] at h
        cases h
        exact ⟨r, rfl, .inr rfl⟩
  | failure rid' p' =>
    cases ha
    unfold Server.step at h
    dsimp only at h
    cases ho : s.outbound.get? rid with
    | none => rw [ho] at h; dsimp only at h; rw [ho] at h; cases h
    | some k' =>
      rw [ho] at h
      cases k' with
      | range a b =>
        dsimp only at h
        rw [(failRange_frame _ p).2.1, erased] at h; cases h
      | root r =>
        dsimp only at h
        rw [(fetchFailure_cases _ r p).1.2.2.1] at h
        rw [erased] at h; cases h
  | _ => cases ha

/-- A record is an old one or belongs to a request just sent. -/
theorem record_origin (ord : AMap Peer Nat → AMap Peer Nat) (s : Server) (id : ReqId) (e : PEvent)
    {x : ReqId} {k : Kind} (h : (s.step ord id e).1.outbound.get? x = some k) :
    s.outbound.get? x = some k ∨ ∃ p, (x, p) ∈ sends (s.step ord id e).2 := by
  have ers : ∀ {m : AMap ReqId Kind} {rid : ReqId}, (m.erase rid).get? x = some k →
      m.get? x = some k := by
    intro m rid h
    rw [AMap.get?_erase] at h
    split at h
    · cases h
    · exact h
  have ins : ∀ {m : AMap ReqId Kind} {k' : Kind}, (m.insert id k').get? x = some k →
      x = id ∨ m.get? x = some k := by
    intro m k' h
    rw [AMap.get?_insert] at h
    split at h
    · rename_i hx; exact .inl hx.symm
    · exact .inr h
  cases e with
  | connected p => exact .inl h
  | disconnected p => exact .inl h
  | initChain => exact .inl h
  | fetch r0 pick sent =>
    unfold Server.step at h ⊢
    dsimp only at h ⊢
    by_cases hh : s.pending.has r0 = true
    · rw [if_pos hh] at h; exact .inl h
    · rw [if_neg hh] at h ⊢
      obtain ⟨_, c⟩ := fetchFromPeer_cases s id r0 pick sent
      rcases c with ⟨_, _, c3, _⟩ | ⟨p, _, _, c2, c3, _⟩
      · rw [c3] at h; exact .inl h
      · rw [c3] at h
        rcases ins h with rfl | h
        · exact .inr ⟨p, by rw [c2]; simp [sends]⟩
        · exact .inl h
  | retry r0 pick sent =>
    unfold Server.step at h ⊢
    dsimp only at h ⊢
    by_cases hh : ¬ s.pending.has r0 = true
    · rw [if_pos hh] at h; exact .inl h
    · rw [if_neg hh] at h ⊢
      obtain ⟨_, c⟩ := fetchFromPeer_cases s id r0 pick sent
      rcases c with ⟨c1, _, c3, _⟩ | ⟨p, c1, _, c2, c3, _⟩
      · rw [if_neg (by simp [c1])] at h
        dsimp only at h
        rw [c3] at h; exact .inl h
      · rw [if_pos c1] at h ⊢
        rw [c3] at h
        rcases ins h with rfl | h
        · exact .inr ⟨p, by rw [c2]; simp [sends]⟩
        · exact .inl h
  | status p head ourHead sent =>
    obtain ⟨-, -, c⟩ := statusResponse_frame ord s id sent p head ourHead
    have hst : s.step ord id (.status p head ourHead sent)
      = statusResponse ord s id sent p head ourHead := rfl
    rw [hst] at h ⊢
    rcases c with ⟨-, c⟩ | ⟨p, a, b, c1, c2, -⟩
    · rw [c] at h; exact .inl h
    · rw [c2] at h
      rcases ins h with rfl | h
      · exact .inr ⟨p, by rw [c1]; simp [sends]⟩
      · exact .inl h
  | blocks rid p bs sent =>
    unfold Server.step at h ⊢
    dsimp only at h ⊢
    cases ho : s.outbound.get? rid with
    | none => rw [ho] at h; exact .inl h
    | some k' =>
      rw [ho] at h
      cases k' with
      | range a b =>
        dsimp only at h ⊢
        obtain ⟨-, -, fwd, rest, hf, h2, h3⟩ := byRangeResponse_frame ord
          { s with outbound := s.outbound.erase rid } id sent p a b bs
        rcases h3 with ⟨-, h4⟩ | ⟨p', _, _, h5, h4, -⟩
        · rw [h4] at h; exact .inl (ers h)
        · rw [h4] at h
          rcases ins h with rfl | h
          · exact .inr ⟨p', by rw [h2, h5, sends_append]; simp [sends]⟩
          · exact .inl (ers h)
      | root r =>
        dsimp only at h ⊢
        unfold byRootResponse at h
        split at h
        · rw [(fetchFailure_cases _ r p).1.2.2.1] at h
          dsimp only at h
          rw [AMap.get?_insert] at h
          split at h
          · rename_i hx
            rw [← hx, ho]; exact .inl h
          · exact .inl (ers h)
        · rw [(rootBlocks_cases r bs _).1.2.2.1] at h
          exact .inl (ers h)
  | errorResponse rid p =>
    unfold Server.step at h ⊢
    dsimp only at h ⊢
    cases ho : s.outbound.get? rid with
    | none => rw [ho] at h; exact .inl h
    | some k' =>
      rw [ho] at h
      cases k' with
      | range a b =>
        dsimp only at h
        rw [(failRange_frame _ p).2.1] at h; exact .inl (ers h)
      | root r =>
        dsimp only at h
        rw [AMap.get?_insert] at h
        split at h
        · rename_i hx
          rw [← hx, ho]; exact .inl h
        · exact .inl (ers h)
  | failure rid p =>
    unfold Server.step at h ⊢
    dsimp only at h ⊢
    cases ho : s.outbound.get? rid with
    | none => rw [ho] at h; exact .inl h
    | some k' =>
      rw [ho] at h
      cases k' with
      | range a b =>
        dsimp only at h
        rw [(failRange_frame _ p).2.1] at h; exact .inl (ers h)
      | root r =>
        dsimp only at h
        rw [(fetchFailure_cases _ r p).1.2.2.1] at h
        exact .inl (ers h)

/-- **C74, what holds.** Every open request is on record, and a record of a request that is not open
any more is one of a block-by-root request that was answered with no block or with an error.  In
particular the records of range requests are those of the open range requests. -/
theorem C74_partial {ord : AMap Peer Nat → AMap Peer Nat} {tr : List (PEvent × List POut)} {w : PWorld}
    (h : PRun ord PWorld.init tr w) :
    (∀ x ∈ w.inflight, ∃ k, w.srv.outbound.get? x.1 = some k) ∧
    ∀ id k, w.srv.outbound.get? id = some k →
      (∃ p, (id, p) ∈ w.inflight) ∨ ((∃ r, k = .root r) ∧ AnsweredEmpty (eventsOf tr) id) := by
  refine ⟨fun x hx => (inflight_noted h x hx).imp fun _ => And.left, ?_⟩
  induction h with
  | nil => intro id k hk; cases hk
  | @snoc w tr e hrun ha ih =>
    obtain ⟨hb, -⟩ := run_inv hrun
    intro id k hk
    have hev : eventsOf (tr ++ [(e, (w.step ord e).2)]) = eventsOf tr ++ [e] := by simp [eventsOf]
    rw [hev]
    have hin : (w.step ord e).1.inflight = w.rest e ++ sends (w.srv.step ord w.next e).2 := rfl
    rcases record_origin ord w.srv w.next e hk with h1 | ⟨p, h1⟩
    · rcases ih id k h1 with ⟨p, h2⟩ | ⟨h2, q, h3⟩
      · by_cases hans : answers e = some id
        · obtain ⟨p', hp'⟩ : ∃ p', answerer e = some (id, p') := by
            cases e <;> simp only [answers, reduceCtorEq, Option.some.injEq] at hans <;>
              (subst hans; exact ⟨_, rfl⟩)
          have hne : id ≠ w.next := fun h => by
            have := fresh_answers hb ha hans
            rw [h] at this
            exact Nat.lt_irrefl _ this
          obtain ⟨r, k1, k2⟩ := answered_record ord w.srv w.next e hp' hne hk
          refine .inr ⟨⟨r, k1⟩, p', ?_⟩
          rcases k2 with ⟨sent, k2⟩ | k2
          · exact .inl ⟨sent, by rw [k2]; simp⟩
          · exact .inr (by rw [k2]; simp)
        · refine .inl ⟨p, ?_⟩
          rw [hin]
          refine List.mem_append_left _ ?_
          rw [rest_eq]
          exact List.mem_filter.2 ⟨h2, decide_eq_true hans⟩
      · refine .inr ⟨h2, q, ?_⟩
        rcases h3 with ⟨sent, h3⟩ | h3
        · exact .inl ⟨sent, List.mem_append_left _ h3⟩
        · exact .inr (List.mem_append_left _ h3)
    · exact .inl ⟨p, by rw [hin]; exact List.mem_append_right _ h1⟩

/-! ### Records that are never dropped -/

/-- Peer 7 connects. -/
def leak0 : PWorld := (PWorld.init.step id (.connected 7)).1

/-- Block `n` is asked for, and peer 7 answers with an error. -/
def leakStep (w : PWorld) (n : Nat) : PWorld :=
  (((w.step id (.fetch n 0 true)).1).step id (.errorResponse n 7)).1

/-- What such exchanges leave behind. -/
structure Leaked (w : PWorld) (n : Nat) : Prop where
  conn : w.srv.connected = [7]
  next : w.next = n
  idle : w.inflight = [] ∧ w.timers = []
  pend : ∀ r, n ≤ r → w.srv.pending.get? r = none
  recs : ∀ i, i < n → w.srv.outbound.get? i = some (.root i)

theorem Leaked.more {w : PWorld} {n : Nat} (h : Leaked w n) :
    Leaked (leakStep w n) (n + 1) ∧ w.allows (.fetch n 0 true) ∧
      ((w.step id (.fetch n 0 true)).1).allows (.errorResponse n 7) := by
  have hh : ¬ w.srv.pending.has n = true := by
    unfold AMap.has; rw [h.pend n (Nat.le_refl n)]; simp
  have hs : w.srv.step id w.next (.fetch n 0 true)
      = ({ w.srv with pending := w.srv.pending.insert n ⟨1, []⟩,
                      outbound := w.srv.outbound.insert n (.root n) }, [.sendRoot n 7 n]) := by
    unfold Server.step
    dsimp only
    rw [if_neg hh]
    unfold fetchFromPeer
    rw [h.conn, h.pend n (Nat.le_refl n), h.next]
    simp [hh, h.conn]
  have hw1 : (w.step id (.fetch n 0 true)).1
      = ⟨{ w.srv with pending := w.srv.pending.insert n ⟨1, []⟩,
                      outbound := w.srv.outbound.insert n (.root n) }, n + 1, [(n, 7)], []⟩ := by
    unfold PWorld.step
    rw [hs, h.next]
    simp [sends, timersOf, PWorld.rest, PWorld.restTimers, h.idle.1, h.idle.2]
  have hw2 : leakStep w n
      = ⟨{ w.srv with pending := w.srv.pending.insert n ⟨1, []⟩,
                      outbound := ((w.srv.outbound.insert n (.root n)).erase n).insert n (.root n) },
          n + 1, [], []⟩ := by
    unfold leakStep
    rw [hw1]
    unfold PWorld.step Server.step
    dsimp only
    rw [AMap.get?_insert_self]
    simp [sends, timersOf, PWorld.rest, PWorld.restTimers]
  refine ⟨?_, trivial, ?_⟩
  · rw [hw2]
    refine ⟨h.conn, rfl, ⟨rfl, rfl⟩, fun r hr => ?_, fun i hi => ?_⟩
    · dsimp only
      rw [AMap.get?_insert, if_neg (fun (he : n = r) => by rw [he] at hr; exact Nat.not_succ_le_self r hr)]
      exact h.pend r (by omega)
    · dsimp only
      rw [AMap.get?_insert]
      by_cases hin : n = i
      · rw [if_pos hin, hin]
      · rw [if_neg hin, AMap.get?_erase, if_neg hin, AMap.get?_insert, if_neg hin]
        exact h.recs i (by omega)
  · rw [hw1]
    exact List.mem_singleton_self _

/-- **C74 does not hold.** A single peer that answers block requests with errors makes the records
grow without bound: for every `n` there is a run after which no request is open, and yet `n` requests
are on record. -/
theorem C74_false (n : Nat) : ∃ tr w, PRun id PWorld.init tr w ∧ w.inflight = [] ∧
    ∀ i, i < n → w.srv.outbound.get? i = some (.root i) := by
  have : ∃ tr w, PRun id PWorld.init tr w ∧ Leaked w n := by
    induction n with
    | zero =>
      exact ⟨_, leak0, PRun.nil.snoc (e := .connected 7) trivial,
        ⟨rfl, rfl, ⟨rfl, rfl⟩, fun _ _ => rfl, fun i hi => absurd hi (Nat.not_lt_zero i)⟩⟩
    | succ n ih =>
      obtain ⟨tr, w, h1, h2⟩ := ih
      obtain ⟨k1, k2, k3⟩ := h2.more
      exact ⟨_, _, (h1.snoc k2).snoc k3, k1⟩
  obtain ⟨tr, w, h1, h2⟩ := this
  exact ⟨tr, w, h1, h2.idle.1, h2.recs⟩

/-- The same with honest answers: peer 7 does not have block 3 and says so. -/
example : (((leak0.step id (.fetch 3 0 true)).1).step id (.blocks 0 7 [] true)).1.srv.outbound
      = [(0, .root 3)] ∧
    (((leak0.step id (.fetch 3 0 true)).1).step id (.blocks 0 7 [] true)).1.inflight = [] := by
  decide +kernel

end Verif.Net
