import Verif.Lemmas.P2pRun

/-
C48: a block that is being fetched is asked for again or given up, never silently stuck.
This is false: a peer that answers a request for `r` with some other block leaves `r` marked as being
fetched with nothing in flight and no timer, and from then on every request to fetch `r` is ignored
(`C48_stuck`).  It is true as long as no peer does that (`C48_partial`).

C49: retries are bounded and back off exponentially.
-/

namespace Verif.Net
open Verif

theorem unanswered_iff {w : PWorld} {r : Root} : Unanswered w r ↔ flying w r ≠ 0 := by
  unfold Unanswered flying
  rw [Nat.ne_zero_iff_zero_lt, List.countP_pos_iff]
  constructor
  · rintro ⟨id, p, h1, h2⟩
    exact ⟨(id, p), h1, by simpa using h2⟩
  · rintro ⟨⟨id, p⟩, h1, h2⟩
    exact ⟨id, p, h1, by simpa using h2⟩

theorem scheduled_iff {w : PWorld} {r : Root} : RetryScheduled w r ↔ ticking w r ≠ 0 := by
  unfold RetryScheduled ticking
  rw [Nat.ne_zero_iff_zero_lt, List.count_pos_iff]

/-- Whatever the peers do, as long as no request for `r` has been answered with other blocks only (or
with an error response), `r` is not marked as being fetched, or a request for it is unanswered, or a
retry is scheduled.  Missing from the full statement: wrong answers, see `C48_stuck`. -/
theorem C48_partial {ord : AMap Peer Nat → AMap Peer Nat} {tr : List (PEvent × List POut)}
    {w : PWorld} (h : PRun ord PWorld.init tr w) (r : Root) (hw : ¬ WrongAnswered tr r)
    (hf : Fetching w r) : Unanswered w r ∨ RetryScheduled w r := by
  obtain ⟨_, _, hi⟩ := run_inv h
  obtain ⟨n, hn⟩ := has_iff_attempts.1 hf
  obtain ⟨_, _, h3, _⟩ := (hi r).some n hn
  rw [unanswered_iff, scheduled_iff]
  rcases h3 with h3 | ⟨_, h3⟩
  · by_cases h0 : flying w r = 0
    · right; omega
    · exact .inl h0
  · exact absurd h3 hw

/-- Never both, and never two requests for one root at a time. -/
theorem C48_one_at_a_time {ord : AMap Peer Nat → AMap Peer Nat} {tr : List (PEvent × List POut)}
    {w : PWorld} (h : PRun ord PWorld.init tr w) (r : Root) :
    ¬ (Unanswered w r ∧ RetryScheduled w r) ∧
    (Unanswered w r ∨ RetryScheduled w r → Fetching w r) := by
  obtain ⟨_, _, hi⟩ := run_inv h
  rw [unanswered_iff, scheduled_iff]
  cases hn : attempts w.srv r with
  | none =>
    obtain ⟨h1, h2, _⟩ := (hi r).none hn
    refine ⟨fun h => h.1 h1, fun h => ?_⟩
    rcases h with h | h
    · exact absurd h1 h
    · exact absurd h2 h
  | some n =>
    obtain ⟨_, _, h3, _⟩ := (hi r).some n hn
    refine ⟨fun h => by omega, fun _ => has_iff_attempts.2 ⟨n, hn⟩⟩

/-- Nothing gets a root out of the stuck state: it stays marked, and is never asked for. -/
theorem stuck_run {ord : AMap Peer Nat → AMap Peer Nat} {w w' : PWorld} {r : Root}
    {tr : List (PEvent × List POut)} (hb : BInv w) (hf : Fetching w r) (hu : ¬ Unanswered w r)
    (hs : ¬ RetryScheduled w r) (h : PRun ord w tr w') :
    BInv w' ∧ Fetching w' r ∧ ¬ Unanswered w' r ∧ ¬ RetryScheduled w' r ∧
      rootLog r (outputs tr) = [] := by
  induction h with
  | nil => exact ⟨hb, hf, hu, hs, rfl⟩
  | @snoc w tr e hrun ha ih =>
    obtain ⟨j1, j2, j3, j4, j5⟩ := ih
    have hstep := step_root (ord := ord) j1 ha r
    rw [unanswered_iff, not_not] at j3
    rw [scheduled_iff, not_not] at j4
    obtain ⟨n, hn⟩ := has_iff_attempts.1 j2
    rw [hn, j3, j4] at hstep
    refine ⟨j1.step ha, ?_⟩
    rw [outputs_snoc, rootLog_append, j5, unanswered_iff, scheduled_iff, not_not, not_not,
      List.nil_append]
    unfold Fetching
    rw [has_iff_attempts]
    generalize attempts (w.step ord e).1.srv r = a at hstep ⊢
    generalize rootLog r (w.step ord e).2 = l at hstep ⊢
    generalize flying (w.step ord e).1 r = f at hstep ⊢
    generalize ticking (w.step ord e).1 r = t at hstep ⊢
    cases hstep with
    | idle => exact ⟨⟨n, rfl⟩, rfl, rfl, rfl⟩

/-- **The defect.**  One answer to a request for `r` made of other blocks only, and `r` is stuck for
good: after any later events it is still marked as being fetched, no request for it is unanswered, no
retry is scheduled, and no request for it has been sent. -/
theorem C48_stuck {ord : AMap Peer Nat → AMap Peer Nat} {tr tr' : List (PEvent × List POut)}
    {w w' : PWorld} {r : Root} {id : ReqId} {p : Peer} {bs : List RBlock} {sent : Bool}
    (h : PRun ord PWorld.init tr w) (hfl : (id, p) ∈ w.inflight)
    (hid : w.srv.outbound.get? id = some (.root r)) (hne : bs ≠ []) (hbs : ∀ b ∈ bs, b.root ≠ r)
    (h' : PRun ord (w.step ord (.blocks id p bs sent)).1 tr' w') :
    Fetching w' r ∧ ¬ Unanswered w' r ∧ ¬ RetryScheduled w' r ∧
    (∀ id' p', POut.sendRoot id' p' r ∉ outputs tr') ∧
    ∀ pick sent', w'.srv.step ord w'.next (.fetch r pick sent') = (w'.srv, []) := by
  obtain ⟨hb, _, hi⟩ := run_inv h
  have hu : Unanswered w r := ⟨id, p, hfl, hid⟩
  have hfet := (C48_one_at_a_time h r).2 (.inl hu)
  obtain ⟨n, hn⟩ := has_iff_attempts.1 hfet
  obtain ⟨_, _, h3, _⟩ := (hi r).some n hn
  rw [unanswered_iff] at hu
  have hf1 : flying w r = 1 := by omega
  have ht0 : ticking w r = 0 := by omega
  have hfr := flying_step (ord := ord) (e := .blocks id p bs sent) (k := 0) r hb hfl
    (fun x hx hx2 => (step_frame ord w.srv w.next (.blocks id p bs sent)
      (fun hh => Nat.lt_irrefl _ (fresh_answers (e := .blocks id p bs sent) hb hfl hh))).1 x (Nat.ne_of_lt hx) hx2)
  -- the step itself
  have hst : w.srv.step ord w.next (.blocks id p bs sent)
      = rootBlocks r bs { w.srv with outbound := w.srv.outbound.erase id } := by
    unfold Server.step
    dsimp only
    rw [hid]
    dsimp only
    unfold byRootResponse
    rw [if_neg (by simpa using hne)]
  obtain ⟨_, c⟩ := rootBlocks_cases r bs { w.srv with outbound := w.srv.outbound.erase id }
  have c : rootBlocks r bs { w.srv with outbound := w.srv.outbound.erase id }
      = ({ w.srv with outbound := w.srv.outbound.erase id }, []) := by
    rcases c with ⟨_, c1, c2⟩ | ⟨⟨b, hb1, hb2⟩, _⟩
    · exact Prod.ext c1 c2
    · exact absurd hb2 (hbs b hb1)
  rw [hst, c] at hfr
  have hfl' := hfr rfl
  simp only [answers, Option.any_some, hid, decide_true, if_true] at hfl'
  have htk := ticking_step (ord := ord) (w := w) (e := .blocks id p bs sent) r
  rw [hst, c] at htk
  have htk' : ticking (w.step ord (.blocks id p bs sent)).1 r = 0 := by rw [htk]; exact ht0
  have hfet' : Fetching (w.step ord (.blocks id p bs sent)).1 r := by
    show (w.srv.step ord w.next (.blocks id p bs sent)).1.pending.has r = true
    rw [hst, c]; exact hfet
  obtain ⟨_, k2, k3, k4, k5⟩ := stuck_run (hb.step (e := .blocks id p bs sent) hfl) hfet'
    (by rw [unanswered_iff, not_not]; omega) (by rw [scheduled_iff, not_not]; exact htk') h'
  refine ⟨k2, k3, k4, fun id' p' hm => ?_, fun pick sent' => ?_⟩
  · have : RootLog.asked ∈ rootLog r (outputs tr') := by
      unfold rootLog
      exact List.mem_filterMap.2 ⟨_, hm, by simp⟩
    rw [k5] at this; cases this
  · unfold Server.step
    dsimp only
    exact if_pos k2

/-- A root that is not marked can always be asked for again. -/
theorem C48_fetch_again {ord : AMap Peer Nat → AMap Peer Nat} (s : Server) (id : ReqId) (r : Root)
    (pick : Nat) (hf : ¬ s.pending.has r = true) (hc : s.connected ≠ []) :
    ∃ p ∈ s.connected, (s.step ord id (.fetch r pick true)).2 = [.sendRoot id p r] := by
  unfold Server.step
  dsimp only
  rw [if_neg hf]
  obtain ⟨_, c⟩ := fetchFromPeer_cases s id r pick true
  rcases c with ⟨c1, _⟩ | ⟨p, _, c2, c3, _⟩
  · exfalso
    unfold fetchFromPeer at c1
    rw [if_neg (by simpa using hc)] at c1
    have hg : s.pending.get? r = none := by
      cases hg : s.pending.get? r with
      | none => rfl
      | some q => exact absurd (by simp [AMap.has, hg]) hf
    simp only [hg, Option.map_none, Option.getD_none, List.not_mem_nil, not_false_eq_true,
      decide_true, List.filter_true] at c1
    have hl : 0 < s.connected.length := List.length_pos_of_ne_nil hc
    have he : s.connected.isEmpty = false := by simpa using hc
    simp only [he, Bool.false_eq_true, if_false, not_true_eq_false] at c1
    rw [List.getElem?_eq_getElem (Nat.mod_lt _ hl)] at c1
    cases c1
  · exact ⟨p, c2, c3⟩

/-! ### Witness of the defect -/

/-- Peer 7 connects and block 3 is wanted. -/
def stuckRun0 : PWorld :=
  ((PWorld.init.step id (.connected 7)).1.step id (.fetch 3 0 true)).1

example : stuckRun0.inflight = [(0, 7)] ∧ stuckRun0.srv.outbound = [(0, .root 3)] ∧
    stuckRun0.srv.pending = [(3, ⟨1, []⟩)] := by decide +kernel

/-- Peer 7 answers with block 9: block 3 is never asked for again. -/
theorem C48_refuted :
    ∃ tr w, PRun id PWorld.init tr w ∧ Fetching w 3 ∧ ¬ Unanswered w 3 ∧ ¬ RetryScheduled w 3 ∧
      ∀ tr' w', PRun id w tr' w' → Fetching w' 3 ∧
        (∀ id' p', POut.sendRoot id' p' 3 ∉ outputs tr') ∧
        ∀ pick sent, w'.srv.step id w'.next (.fetch 3 pick sent) = (w'.srv, []) := by
  have h0 : PRun id PWorld.init _ stuckRun0 :=
    (PRun.nil.snoc (e := .connected 7) trivial).snoc (e := .fetch 3 0 true) trivial
  have hin : (0, 7) ∈ stuckRun0.inflight := by decide +kernel
  have hid : stuckRun0.srv.outbound.get? 0 = some (.root 3) := by decide +kernel
  have key := fun tr' w' => C48_stuck (tr' := tr') (w' := w') (bs := [⟨9, 1⟩]) (sent := true) h0 hin hid
    (by simp) (by decide)
  have h1 := h0.snoc (e := .blocks 0 7 [⟨9, 1⟩] true) hin
  obtain ⟨k1, k2, k3, _⟩ := key [] _ PRun.nil
  refine ⟨_, _, h1, k1, k2, k3, fun tr' w' h' => ?_⟩
  obtain ⟨m1, _, _, m4, m5⟩ := key tr' w' h'
  exact ⟨m1, m4, m5⟩

/-! ## C49 -/

/-- Since the root was last given up (or obtained), it has been asked for at most ten times, and the
delays before the retries are 5, 10, 20, ... ms, at most nine of them. -/
theorem C49 {ord : AMap Peer Nat → AMap Peer Nat} {tr : List (PEvent × List POut)} {w : PWorld}
    (h : PRun ord PWorld.init tr w) (r : Root) :
    ∃ n ≤ 9, delays (current (rootLog r (outputs tr))) = (List.range n).map (fun i => 5 * 2 ^ i) ∧
      n ≤ (current (rootLog r (outputs tr))).count .asked ∧
      (current (rootLog r (outputs tr))).count .asked ≤ n + 1 := by
  obtain ⟨_, _, hi⟩ := run_inv h
  cases hn : attempts w.srv r with
  | none =>
    obtain ⟨_, _, h3⟩ := (hi r).none hn
    rw [h3]
    exact ⟨0, by omega, rfl, by simp, by simp⟩
  | some n =>
    obtain ⟨h1, h2, h3, h4, h5⟩ := (hi r).some n hn
    exact ⟨n - 1, by omega, h4, by omega, by omega⟩

/-- A failure after the tenth request for a root makes the actor give up on it. -/
theorem C49_abandoned {ord : AMap Peer Nat → AMap Peer Nat} {tr : List (PEvent × List POut)}
    {w : PWorld} (h : PRun ord PWorld.init tr w) {r : Root} {id : ReqId} {p : Peer}
    (hfl : (id, p) ∈ w.inflight) (hid : w.srv.outbound.get? id = some (.root r))
    (hten : (current (rootLog r (outputs tr))).count .asked = 10) {e : PEvent}
    (he : e = .failure id p ∨ ∃ sent, e = .blocks id p [] sent) :
    ¬ Fetching (w.step ord e).1 r := by
  obtain ⟨hb, _, hi⟩ := run_inv h
  have hu : Unanswered w r := ⟨id, p, hfl, hid⟩
  have hfet := (C48_one_at_a_time h r).2 (.inl hu)
  obtain ⟨n, hn⟩ := has_iff_attempts.1 hfet
  obtain ⟨_, h2, h3, _, h5⟩ := (hi r).some n hn
  have hn10 : n = 10 := by omega
  unfold Fetching
  rw [has_false_iff]
  have key : ∀ s : Server, attempts s r = some 10 → attempts (fetchFailure s r p).1 r = none := by
    intro s hs
    obtain ⟨_, c⟩ := fetchFailure_cases s r p
    rcases c with ⟨c1, _⟩ | ⟨m, c1, c2, c3, _⟩ | ⟨m, c1, c2, _⟩
    · rw [hs] at c1; cases c1
    · exact c3
    · rw [hs] at c1; cases c1; exact absurd c2 (by decide)
  subst hn10
  rcases he with rfl | ⟨sent, rfl⟩
  · have hst : (w.step ord (.failure id p)).1.srv
        = (fetchFailure { w.srv with outbound := w.srv.outbound.erase id } r p).1 := by
      show (w.srv.step ord w.next (.failure id p)).1 = _
      unfold Server.step; dsimp only; rw [hid]
    rw [hst]; exact key _ hn
  · have hst : (w.step ord (.blocks id p [] sent)).1.srv
        = (fetchFailure { w.srv with outbound := (w.srv.outbound.erase id).insert id (.root r) } r p).1 := by
      show (w.srv.step ord w.next (.blocks id p [] sent)).1 = _
      unfold Server.step; dsimp only; rw [hid]; rfl
    rw [hst]; exact key _ hn

/-- Ten requests that all fail: the delays are 5 to 1280 ms and the root is given up. -/
def tenFailures : Nat → PWorld × List POut
  | 0 => ((PWorld.init.step id (.connected 7)).1.step id (.fetch 3 0 true)).1 |> fun w => (w, [])
  | k + 1 =>
    let (w, o) := tenFailures k
    let a := w.step id (.failure (w.next - 1) 7)
    let b := a.1.step id (.retry 3 0 true)
    (b.1, o ++ a.2 ++ b.2)

example : delays (rootLog 3 (tenFailures 9).2) = [5, 10, 20, 40, 80, 160, 320, 640, 1280] ∧
    (tenFailures 9).1.srv.pending.has 3 = true ∧
    ((tenFailures 9).1.step id (.failure ((tenFailures 9).1.next - 1) 7)).1.srv.pending = [] := by
  decide +kernel

end Verif.Net
