import Verif.Lemmas.P2pRange

/-
C50: range sync requests are well formed, one at a time, adjacent, and come to an end.
C69: when the peer of a batch fails, the sync continues with the other peers.  This is false: nothing is
requested until some peer sends a status message again (`C69_stalls`).

`ord` is any enumeration of the map of peers.
-/

namespace Verif.Net
open Verif

/-- Every batch requested has between 1 and 1024 slots, ends at or before a head slot that this peer told
us, starts after our own head and ends at most `MAX_SYNC_RANGE` (and at most the peer's lead) after our
own head, as they were when some status message arrived. -/
theorem C50_wellformed {ord : AMap Peer Nat → AMap Peer Nat} (hord : ∀ m, (ord m).Perm m)
    {tr : List (PEvent × List POut)} {w : PWorld} (h : PRun ord PWorld.init tr w)
    {id : ReqId} {p : Peer} {start count : Nat} (hs : POut.sendRange id p start count ∈ outputs tr) :
    1 ≤ count ∧ count ≤ 1024 ∧
    (∃ head ourHead, Told (eventsOf tr) p head ourHead ∧ start + count - 1 ≤ head) ∧
    (∃ q head ourHead, Told (eventsOf tr) q head ourHead ∧ ourHead < head ∧
      start + count - 1 ≤ ourHead + min (head - ourHead) 65536) ∧
    (∃ q head ourHead, Told (eventsOf tr) q head ourHead ∧ ourHead < start) := by
  obtain ⟨_, hw⟩ := run_ginv hord h
  have hm : (id, p, start, count) ∈ rangeSends (outputs tr) :=
    List.mem_filterMap.2 ⟨_, hs, rfl⟩
  obtain ⟨k1, k2, ⟨h', o, t, k3⟩, ⟨q, h'', o', t', k4, k5⟩, k6⟩ := hw _ hm
  have k5 : start + count ≤ o' + 1 + min (h'' - o') 65536 := k5
  dsimp only at k1 k2 k3 k4 k5 k6 t
  exact ⟨k1, k2, ⟨h', o, t, by omega⟩, ⟨q, h'', o', t', k4, by omega⟩, k6⟩

/-- At most one range request is unanswered. -/
theorem C50_one_in_flight {ord : AMap Peer Nat → AMap Peer Nat} (hord : ∀ m, (ord m).Perm m)
    {tr : List (PEvent × List POut)} {w : PWorld} (h : PRun ord PWorld.init tr w)
    {id id' : ReqId} {p p' : Peer} {a b a' b' : Nat}
    (h1 : (id, p) ∈ w.inflight) (k1 : w.srv.outbound.get? id = some (.range a b))
    (h2 : (id', p') ∈ w.inflight) (k2 : w.srv.outbound.get? id' = some (.range a' b')) :
    id = id' ∧ p = p' := by
  obtain ⟨g, _⟩ := run_ginv hord h
  obtain ⟨hb, _, _⟩ := run_inv h
  obtain ⟨_, _, _, _, _, c1, _⟩ := busy_of_flying g h1 k1
  obtain ⟨_, _, _, _, _, c2, _⟩ := busy_of_flying g h2 k2
  rw [c1] at c2
  have hid : id = id' := by
    injection c2 with c2 _
    exact (Prod.mk.inj c2).1
  subst hid
  refine ⟨rfl, ?_⟩
  have hn := hb.nodup
  clear c1 c2 g k1 k2 hb h
  generalize w.inflight = l at *
  induction l with
  | nil => cases h1
  | cons y l ih =>
    rw [List.map_cons, List.nodup_cons] at hn
    rcases List.mem_cons.1 h1 with e1 | e1 <;> rcases List.mem_cons.1 h2 with e2 | e2
    · rw [← e1] at e2; exact (Prod.mk.inj e2).2.symm
    · exact absurd (List.mem_map.2 ⟨_, e2, by rw [← e1]⟩) hn.1
    · exact absurd (List.mem_map.2 ⟨_, e1, by rw [← e2]⟩) hn.1
    · exact ih e1 e2 hn.2

/-- Successive requests: if `(i, a, c)` was the last range request of the run, the next one starts right
after it if it was answered with blocks, starts at the same slot if it failed, or opens a new sync right
after our own head. -/
theorem C50_successive {ord : AMap Peer Nat → AMap Peer Nat} (hord : ∀ m, (ord m).Perm m)
    {tr : List (PEvent × List POut)} {w : PWorld} {e : PEvent} (h : PRun ord PWorld.init tr w)
    (ha : w.allows e) {i : ReqId} {p : Peer} {a c : Nat}
    (hlast : (rangeSends (outputs tr)).getLast? = some (i, p, a, c))
    {i' : ReqId} {p' : Peer} {a' c' : Nat} (hs : POut.sendRange i' p' a' c' ∈ (w.step ord e).2) :
    (a' = a + c ∧ Completed (eventsOf tr ++ [e]) i) ∨
    (a' = a ∧ RequestFailed (eventsOf tr ++ [e]) i) ∨
    ∃ q head ourHead sent, e = .status q head ourHead sent ∧ a' = ourHead + 1 := by
  obtain ⟨g, _⟩ := run_ginv hord h
  obtain ⟨hb, _, _⟩ := run_inv h
  obtain ⟨_, hx⟩ := ginv_step (ord := ord) hord hb ha g
  have hm : (i', p', a', c') ∈ rangeSends (w.step ord e).2 := List.mem_filterMap.2 ⟨_, hs, rfl⟩
  obtain ⟨_, hf⟩ := hx _ hm
  rcases hf with ⟨i2, p2, a2, c2, h1, h2⟩ | h2
  · rw [hlast] at h1
    cases h1
    rcases h2 with h2 | h2
    · exact .inr (.inl h2)
    · exact .inl h2
  · exact .inr (.inr h2)

/-- The first range request of a run opens a sync right after our own head. -/
theorem C50_first {ord : AMap Peer Nat → AMap Peer Nat} (hord : ∀ m, (ord m).Perm m)
    {tr : List (PEvent × List POut)} {w : PWorld} {e : PEvent} (h : PRun ord PWorld.init tr w)
    (ha : w.allows e) (hlast : rangeSends (outputs tr) = [])
    {i' : ReqId} {p' : Peer} {a' c' : Nat} (hs : POut.sendRange i' p' a' c' ∈ (w.step ord e).2) :
    ∃ q head ourHead sent, e = .status q head ourHead sent ∧ a' = ourHead + 1 := by
  obtain ⟨g, _⟩ := run_ginv hord h
  obtain ⟨hb, _, _⟩ := run_inv h
  obtain ⟨_, hx⟩ := ginv_step (ord := ord) hord hb ha g
  have hm : (i', p', a', c') ∈ rangeSends (w.step ord e).2 := List.mem_filterMap.2 ⟨_, hs, rfl⟩
  obtain ⟨_, hf⟩ := hx _ hm
  rcases hf with ⟨i2, p2, a2, c2, h1, h2⟩ | h2
  · rw [hlast] at h1; cases h1
  · exact h2

/-! ### Progress -/

/-- What an event other than a status message can do to the range sync. -/
theorem nostatus_step {ord : AMap Peer Nat → AMap Peer Nat} (hord : ∀ m, (ord m).Perm m)
    {evs : List PEvent} {last : LastReq} {w : PWorld} {e : PEvent} (ha : w.allows e)
    (g : GInv evs last w.srv.range (rangeFlying w))
    (hns : ∀ p head ourHead sent, e ≠ .status p head ourHead sent) :
    (rangeSends (w.step ord e).2 = [] ∧
      ∀ st', (w.step ord e).1.srv.range = some st' → w.srv.range = some st' ∨ st'.inFlight = false) ∨
    (∃ st st', w.srv.range = some st ∧ (w.step ord e).1.srv.range = some st' ∧ st.inFlight = true ∧
      st'.stop = st.stop ∧ st.start < st'.start ∧ st'.start < st'.stop ∧
      (rangeSends (w.step ord e).2).length = 1) := by
  show (rangeSends (w.srv.step ord w.next e).2 = [] ∧
      ∀ st', (w.srv.step ord w.next e).1.range = some st' → w.srv.range = some st' ∨ st'.inFlight = false) ∨
    (∃ st st', w.srv.range = some st ∧ (w.srv.step ord w.next e).1.range = some st' ∧ st.inFlight = true ∧
      st'.stop = st.stop ∧ st.start < st'.start ∧ st'.start < st'.stop ∧
      (rangeSends (w.srv.step ord w.next e).2).length = 1)
  have quiet : (w.srv.step ord w.next e).1.range = w.srv.range →
      rangeSends (w.srv.step ord w.next e).2 = [] → (rangeSends (w.srv.step ord w.next e).2 = [] ∧
      ∀ st', (w.srv.step ord w.next e).1.range = some st' → w.srv.range = some st' ∨ st'.inFlight = false) := by
    intro h1 h2
    exact ⟨h2, fun st' h => .inl (by rw [← h1]; exact h)⟩
  have failq : ∀ (s : Server) (p : Peer) st', (failRange s p).range = some st' → st'.inFlight = false := by
    intro s p st' h
    unfold failRange at h
    cases hr : s.range with
    | none => rw [hr] at h; dsimp only at h; rw [hr] at h; cases h
    | some st =>
      rw [hr] at h
      dsimp only at h
      split at h
      · cases h
      · cases h; rfl
  cases e with
  | connected p => exact .inl (quiet rfl rfl)
  | disconnected p => exact .inl (quiet rfl rfl)
  | initChain => exact .inl (quiet rfl rfl)
  | fetch r pick sent =>
    left
    refine quiet ?_ ?_
    · show (if w.srv.pending.has r = true then (w.srv, []) else _).1.range = _
      split
      · rfl
      · exact (fetchFromPeer_cases w.srv w.next r pick sent).1.1
    · show rangeSends (if w.srv.pending.has r = true then (w.srv, []) else _).2 = _
      split
      · rfl
      · rcases (fetchFromPeer_cases w.srv w.next r pick sent).2 with ⟨_, h, _⟩ | ⟨p, _, _, h, _⟩ <;>
          rw [h] <;> rfl
  | retry r pick sent =>
    have hc := fetchFromPeer_cases w.srv w.next r pick sent
    left
    refine quiet ?_ ?_
    · unfold Server.step
      dsimp only
      split
      · rfl
      · split
        · exact hc.1.1
        · exact hc.1.1
    · unfold Server.step
      dsimp only
      split
      · rfl
      · rcases hc.2 with ⟨h1, h2, _⟩ | ⟨p, h1, _, h2, _⟩
        · rw [if_neg (by simp [h1])]
          dsimp only
          rw [h2]; rfl
        · rw [if_pos h1, h2]; rfl
  | status p head ourHead sent => exact absurd rfl (hns p head ourHead sent)
  | blocks rid p bs sent =>
    have hin : (rid, p) ∈ w.inflight := ha
    have hst : w.srv.step ord w.next (.blocks rid p bs sent) = (match w.srv.outbound.get? rid with
      | none => (w.srv, [])
      | some (.range a b) =>
        byRangeResponse ord { w.srv with outbound := w.srv.outbound.erase rid } w.next sent p a b bs
      | some (.root r) =>
        byRootResponse { w.srv with outbound := w.srv.outbound.erase rid } rid p r bs) := rfl
    cases hk : w.srv.outbound.get? rid with
    | none =>
      rw [hk] at hst
      exact .inl (quiet (by rw [hst]) (by rw [hst]; rfl))
    | some k =>
      cases k with
      | root r =>
        rw [hk] at hst
        dsimp only at hst
        left
        have hq : (byRootResponse { w.srv with outbound := w.srv.outbound.erase rid } rid p r bs).1.range
            = w.srv.range ∧ rangeSends
            (byRootResponse { w.srv with outbound := w.srv.outbound.erase rid } rid p r bs).2 = [] := by
          unfold byRootResponse
          split
          · obtain ⟨⟨f1, _⟩, f2⟩ := fetchFailure_cases
              { w.srv with outbound := (w.srv.outbound.erase rid).insert rid (.root r) } r p
            refine ⟨f1, ?_⟩
            rcases f2 with ⟨_, _, h⟩ | ⟨n, _, _, _, h⟩ | ⟨n, _, _, _, h⟩ <;> rw [h] <;> rfl
          · obtain ⟨⟨f1, _⟩, f2⟩ := rootBlocks_cases r bs
              { w.srv with outbound := w.srv.outbound.erase rid }
            refine ⟨f1, ?_⟩
            rcases f2 with ⟨_, _, h⟩ | ⟨_, _, fwd, hf, h⟩
            · rw [h]; rfl
            · rcases h with ⟨_, h⟩ | ⟨_, h⟩
              · rw [h, rangeSends_forwards hf]
              · rw [h]
                exact (show rangeSends fwd = [] from rangeSends_forwards hf)
        exact quiet (by rw [hst]; exact hq.1) (by rw [hst]; exact hq.2)
      | range a b =>
        rw [hk] at hst
        dsimp only at hst
        obtain ⟨st, q, c, c1, c2, c3, c4, c5, c6, c7, c8⟩ := busy_of_flying g hin hk
        unfold byRangeResponse at hst
        by_cases hbs : bs.isEmpty = true
        · rw [if_pos hbs] at hst
          left
          rw [hst]
          exact ⟨rfl, fun st' h => .inr (failq _ _ _ h)⟩
        rw [if_neg hbs] at hst
        by_cases hch : w.srv.chain = true
        case neg =>
          rw [if_pos hch] at hst
          left
          rw [hst]
          exact ⟨rfl, fun st' h => by cases h⟩
        rw [if_neg (by simp [hch])] at hst
        dsimp only at hst
        rw [c1] at hst
        dsimp only at hst
        generalize hfw : (bs.filter (fun b_1 => decide (a ≤ b_1.slot ∧ b_1.slot ≤ b))).map POut.forward
          = fwd at hst
        have hof : OnlyForwards fwd := by
          intro o ho
          rw [← hfw] at ho
          obtain ⟨y, _, hy⟩ := List.mem_map.1 ho
          exact ⟨y, hy.symm⟩
        obtain ⟨d1, d2, d3, d4⟩ := complete_facts st b
        have hstart : (st.complete b).start = st.start + c := by
          have hmax := (g.ok st c1).max
          rw [d1, c5, satAdd_eq (by omega)]
          omega
        by_cases hend : (st.complete b).stop ≤ (st.complete b).start ∨ (st.complete b).peers.isEmpty = true
        · rw [if_pos hend] at hst
          left
          rw [hst]
          exact ⟨rangeSends_forwards hof, fun st' h => by cases h⟩
        · rw [if_neg hend] at hst
          rw [hst]
          dsimp only
          have hs0 : ∀ o, rangeSends (fwd ++ o) = rangeSends o := fun o => by
            rw [rangeSends_append, rangeSends_forwards hof]; rfl
          rw [hs0]
          have hmax : (st.complete b).stop ≤ 2 ^ 64 - 1 := (g.ok st c1).max
          rcases requestNext_spec hord (s :=
            { w.srv with outbound := w.srv.outbound.erase rid, range := some (st.complete b) }) rfl hmax
            w.next sent with
            ⟨h1, h2, _⟩ | ⟨h1, h2, q', h, h3, h4⟩ | ⟨q', c', h, h1, h2, h3, h4, h5, h6, h7, h8⟩
          · left
            rw [h1, h2]
            exact ⟨rfl, fun st' h => by cases h; exact .inr d3⟩
          · left
            rw [h1, h4]
            refine ⟨rfl, fun st' h => ?_⟩
            split at h
            · cases h
            · cases h; exact .inr rfl
          · right
            rw [h1, h3]
            refine ⟨st, _, c1, rfl, c2, d2, ?_, ?_, rfl⟩
            · dsimp only; rw [hstart]; omega
            · dsimp only; omega
  | errorResponse rid p =>
    have hst : w.srv.step ord w.next (.errorResponse rid p) = (match w.srv.outbound.get? rid with
      | none => (w.srv, [])
      | some (.range _ _) => (failRange { w.srv with outbound := w.srv.outbound.erase rid } p, [])
      | some (.root r) =>
        ({ w.srv with outbound := (w.srv.outbound.erase rid).insert rid (.root r) }, [])) := rfl
    left
    cases hk : w.srv.outbound.get? rid with
    | none => rw [hk] at hst; exact quiet (by rw [hst]) (by rw [hst]; rfl)
    | some k =>
      cases k with
      | root r => rw [hk] at hst; exact quiet (by rw [hst]) (by rw [hst]; rfl)
      | range a b =>
        rw [hk] at hst
        rw [hst]
        exact ⟨rfl, fun st' h => .inr (failq _ _ _ h)⟩
  | failure rid p =>
    have hst : w.srv.step ord w.next (.failure rid p) = (match w.srv.outbound.get? rid with
      | none => (w.srv, [])
      | some (.range _ _) => (failRange { w.srv with outbound := w.srv.outbound.erase rid } p, [])
      | some (.root r) => fetchFailure { w.srv with outbound := w.srv.outbound.erase rid } r p) := rfl
    left
    cases hk : w.srv.outbound.get? rid with
    | none => rw [hk] at hst; exact quiet (by rw [hst]) (by rw [hst]; rfl)
    | some k =>
      cases k with
      | root r =>
        rw [hk] at hst
        obtain ⟨⟨f1, _⟩, f2⟩ := fetchFailure_cases
          { w.srv with outbound := w.srv.outbound.erase rid } r p
        refine quiet (by rw [hst]; exact f1) ?_
        rw [hst]
        rcases f2 with ⟨_, _, h⟩ | ⟨n, _, _, _, h⟩ | ⟨n, _, _, _, h⟩ <;> dsimp only <;> rw [h] <;> rfl
      | range a b =>
        rw [hk] at hst
        rw [hst]
        exact ⟨rfl, fun st' h => .inr (failq _ _ _ h)⟩

/-- How many more batches can be requested without a new status message. -/
def budget (range : Option RangeSync) : Nat :=
  match range with
  | some st => if st.inFlight then st.stop - st.start - 1 else 0
  | none => 0

theorem budget_run {ord : AMap Peer Nat → AMap Peer Nat} (hord : ∀ m, (ord m).Perm m)
    {tr : List (PEvent × List POut)} {w : PWorld} (h : PRun ord PWorld.init tr w)
    {tr' : List (PEvent × List POut)} {w' : PWorld} (h' : PRun ord w tr' w')
    (hns : NoStatus (eventsOf tr')) :
    PRun ord PWorld.init (tr ++ tr') w' ∧
    (rangeSends (outputs tr')).length + budget w'.srv.range ≤ budget w.srv.range := by
  induction h' with
  | nil => exact ⟨by rw [List.append_nil]; exact h, by simp [outputs, rangeSends]⟩
  | @snoc w1 tr1 e hrun ha ih =>
    have e1 : eventsOf (tr1 ++ [(e, (w1.step ord e).2)]) = eventsOf tr1 ++ [e] := by simp [eventsOf]
    rw [e1] at hns
    obtain ⟨i1, i2⟩ := ih (fun p head o s hm => hns p head o s (List.mem_append_left _ hm))
    refine ⟨by rw [← List.append_assoc]; exact i1.snoc ha, ?_⟩
    obtain ⟨g, _⟩ := run_ginv hord i1
    rw [outputs_snoc, rangeSends_append, List.length_append]
    rcases nostatus_step (ord := ord) hord ha g
      (fun p head o s he => hns p head o s (by rw [he]; simp)) with ⟨s1, s2⟩ | ⟨st, st', s1, s2, s3, s4, s5, s6, s7⟩
    · rw [s1, List.length_nil]
      have : budget (w1.step ord e).1.srv.range ≤ budget w1.srv.range := by
        cases hr : (w1.step ord e).1.srv.range with
        | none => exact Nat.zero_le _
        | some st' =>
          rcases s2 st' hr with h | h
          · rw [h]
          · simp [budget, h]
      omega
    · rw [s7, s2]
      have : budget (some st') ≤ st'.stop - st'.start - 1 := by
        unfold budget; dsimp only; split
        · exact Nat.le_refl _
        · exact Nat.zero_le _
      have hb : budget w1.srv.range = st.stop - st.start - 1 := by
        rw [s1]; simp [budget, s3]
      omega

/-- Sync ends: without new status messages, at most as many batches are requested as slots remain. -/
theorem C50_ends {ord : AMap Peer Nat → AMap Peer Nat} (hord : ∀ m, (ord m).Perm m)
    {tr : List (PEvent × List POut)} {w : PWorld} (h : PRun ord PWorld.init tr w)
    {st : RangeSync} (hr : w.srv.range = some st)
    {tr' : List (PEvent × List POut)} {w' : PWorld} (h' : PRun ord w tr' w')
    (hns : NoStatus (eventsOf tr')) :
    (rangeSends (outputs tr')).length ≤ st.stop - st.start := by
  obtain ⟨_, h2⟩ := budget_run hord h h' hns
  rw [hr] at h2
  have : budget (some st) ≤ st.stop - st.start := by
    unfold budget; dsimp only; split
    · omega
    · exact Nat.zero_le _
  omega

/-- Each completed batch strictly shrinks the remaining range (or ends the sync). -/
theorem C50_shrinks {ord : AMap Peer Nat → AMap Peer Nat} (hord : ∀ m, (ord m).Perm m)
    {tr : List (PEvent × List POut)} {w : PWorld} (h : PRun ord PWorld.init tr w)
    {id : ReqId} {p : Peer} {a b : Nat} (hin : (id, p) ∈ w.inflight)
    (hk : w.srv.outbound.get? id = some (.range a b)) {bs : List RBlock} (hne : bs ≠ []) (sent : Bool) :
    ∃ st, w.srv.range = some st ∧ st.start = a ∧ b < st.stop ∧
      ∀ st', (w.step ord (.blocks id p bs sent)).1.srv.range = some st' →
        st'.start = b + 1 ∧ st'.stop = st.stop ∧ st'.start < st'.stop := by
  obtain ⟨g, _⟩ := run_ginv hord h
  obtain ⟨st, q, c, c1, c2, c3, c4, c5, c6, c7, c8⟩ := busy_of_flying g hin hk
  refine ⟨st, c1, c4.symm, by omega, fun st' hs' => ?_⟩
  have hs' : (w.srv.step ord w.next (.blocks id p bs sent)).1.range = some st' := hs'
  have hst : w.srv.step ord w.next (.blocks id p bs sent)
      = byRangeResponse ord { w.srv with outbound := w.srv.outbound.erase id } w.next sent p a b bs := by
    unfold Server.step; dsimp only; rw [hk]
  rw [hst] at hs'
  unfold byRangeResponse at hs'
  rw [if_neg (by simpa using hne)] at hs'
  by_cases hch : w.srv.chain = true
  case neg => rw [if_pos hch] at hs'; cases hs'
  rw [if_neg (by simp [hch])] at hs'
  dsimp only at hs'
  rw [c1] at hs'
  dsimp only at hs'
  obtain ⟨d1, d2, d3, d4⟩ := complete_facts st b
  have hmax := (g.ok st c1).max
  have hstart : (st.complete b).start = b + 1 := by
    rw [d1, c5, satAdd_eq (by omega)]
    omega
  by_cases hend : (st.complete b).stop ≤ (st.complete b).start ∨ (st.complete b).peers.isEmpty = true
  · rw [if_pos hend] at hs'; cases hs'
  rw [if_neg hend] at hs'
  have hlt : (st.complete b).start < (st.complete b).stop :=
    Nat.lt_of_not_le (fun hh => hend (.inl hh))
  rcases requestNext_spec hord (s :=
      { w.srv with outbound := w.srv.outbound.erase id, range := some (st.complete b) }) rfl
      (show (st.complete b).stop ≤ _ from hmax) w.next sent with
      ⟨h1, h2, _⟩ | ⟨h1, h2, q', h, h3, h4⟩ | ⟨q', c', h, h1, h2, h3, h4, h5, h6, h7, h8⟩
  · rw [h2] at hs'; cases hs'; exact ⟨hstart, d2, hlt⟩
  · rw [h4] at hs'
    split at hs'
    · cases hs'
    · cases hs'; exact ⟨hstart, d2, hlt⟩
  · rw [h3] at hs'; cases hs'; exact ⟨hstart, d2, hlt⟩

/-! ### A run -/

/-- Peer 7 is 3000 slots ahead of our head at slot 10 and answers every batch. -/
def rsRun : List (PEvent × List POut) × PWorld :=
  let go := fun (x : List (PEvent × List POut) × PWorld) (e : PEvent) =>
    let y := x.2.step id e; (x.1 ++ [(e, y.2)], y.1)
  [PEvent.initChain, .status 7 3010 10 true, .blocks 0 7 [⟨1, 11⟩] true, .blocks 1 7 [⟨2, 1100⟩] true,
    .blocks 2 7 [⟨3, 3000⟩] true].foldl go ([], PWorld.init)

example : rangeSends (outputs rsRun.1) = [(0, 7, 11, 1024), (1, 7, 1035, 1024), (2, 7, 2059, 952)] ∧
    rsRun.2.srv.range = none ∧ rsRun.2.inflight = [] := by decide +kernel

/-! ## C69 -/

/-- Once the range sync is idle, nothing but a status message makes it go on. -/
theorem C69_stalls {ord : AMap Peer Nat → AMap Peer Nat} (hord : ∀ m, (ord m).Perm m)
    {tr : List (PEvent × List POut)} {w : PWorld} (h : PRun ord PWorld.init tr w)
    {st : RangeSync} (hr : w.srv.range = some st) (hf : st.inFlight = false)
    {tr' : List (PEvent × List POut)} {w' : PWorld} (h' : PRun ord w tr' w')
    (hns : NoStatus (eventsOf tr')) : rangeSends (outputs tr') = [] := by
  obtain ⟨_, h2⟩ := budget_run hord h h' hns
  rw [hr] at h2
  simp only [budget, hf, Bool.false_eq_true, if_false] at h2
  exact List.length_eq_zero_iff.1 (by omega)

/-- Two peers are ahead; the one asked fails.  The other one is known to have the blocks, but it is not
asked until a status message arrives. -/
theorem C69_refuted : ∃ tr w st, PRun id PWorld.init tr w ∧ w.srv.range = some st ∧
    st.peers = [(8, 2000)] ∧ st.start = 11 ∧ st.stop = 3011 ∧
    ∀ tr' w', PRun id w tr' w' → NoStatus (eventsOf tr') → rangeSends (outputs tr') = [] := by
  let w1 := (PWorld.init.step id .initChain).1
  let w2 := (w1.step id (.status 7 3010 10 true)).1
  let w3 := (w2.step id (.status 8 2000 10 true)).1
  let w4 := (w3.step id (.failure 0 7)).1
  have h : PRun id PWorld.init _ w4 :=
    (((PRun.nil.snoc (e := .initChain) trivial).snoc (e := .status 7 3010 10 true)
      (by constructor <;> decide)).snoc (e := .status 8 2000 10 true)
      (by constructor <;> decide)).snoc (e := .failure 0 7)
      (show ((0, 7) : ReqId × Peer) ∈ w3.inflight by decide +kernel)
  have hr : w4.srv.range = some ⟨11, 3011, [(8, 2000)], false⟩ := by decide +kernel
  exact ⟨_, w4, _, h, hr, rfl, rfl, rfl,
    fun tr' w' h' hns => C69_stalls (fun m => List.Perm.refl m) h hr rfl h' hns⟩

/-- When a batch could not be sent or failed, and a status message of a peer that has more arrives, the
sync goes on where it stopped.  Missing from the full statement: it does not go on by itself. -/
theorem C69_partial {ord : AMap Peer Nat → AMap Peer Nat} (hord : ∀ m, (ord m).Perm m)
    {tr : List (PEvent × List POut)} {w : PWorld} (h : PRun ord PWorld.init tr w)
    {st : RangeSync} (hr : w.srv.range = some st) (hf : st.inFlight = false)
    {p : Peer} {head ourHead : Nat} (h64 : head < 2 ^ 64) (hlt : ourHead < head)
    (hge : st.start ≤ head) (hne : st.start < st.stop) :
    ∃ id q c, (w.step ord (.status p head ourHead true)).2 = [.sendRange id q st.start c] := by
  obtain ⟨g, _⟩ := run_ginv hord h
  obtain ⟨p1, _, _, _, p5⟩ := status_pre (sent := true) g (p := p) (Nat.not_le_of_lt hlt) h64
  obtain ⟨q1, q2⟩ := p5 st hr
  have hst : (w.step ord (.status p head ourHead true)).2
      = (requestNext ord { w.srv with range := some (statusState w.srv p head ourHead) } w.next true).2 := by
    show (statusResponse ord w.srv w.next true p head ourHead).2 = _
    rw [statusResponse_eq ord _ _ _ _ _ _ (Nat.not_le_of_lt hlt)]
  rw [hst]
  have hstate : statusState w.srv p head ourHead = st.mergePeer p head
      (satAdd (satAdd ourHead 1) (min (head - ourHead) maxSyncRange)) := by
    unfold statusState; rw [hr]
  have hmem : (p, head) ∈ (statusState w.srv p head ourHead).peers := by
    rw [hstate]
    unfold RangeSync.mergePeer RangeSync.dropStale
    refine List.mem_filter.2 ⟨?_, by simpa using hge⟩
    exact AMap.mem_of_get? (AMap.get?_insert_self _ _ _)
  have hstop : st.stop ≤ (statusState w.srv p head ourHead).stop := by
    rw [hstate]; exact Nat.le_max_left _ _
  rcases requestNext_spec hord (s :=
      { w.srv with range := some (statusState w.srv p head ourHead) }) rfl p1.max w.next true with
      ⟨h1, h2, h3⟩ | ⟨h1, ⟨_, h2⟩, _⟩ | ⟨q', c', h, h1, _⟩
  · exfalso
    rcases h3 with h3 | h3 | h3
    · rw [q2, hf] at h3; cases h3
    · rw [q1] at h3; omega
    · exact h3 _ hmem (by rw [q1]; exact hge)
  · cases h2
  · rw [q1] at h1
    exact ⟨_, _, _, h1⟩

end Verif.Net
