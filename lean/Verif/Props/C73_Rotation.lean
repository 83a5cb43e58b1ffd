import Verif.Lemmas.P2pPeers
/-!
# C73: a peer is not asked twice for a block before every connected peer has been asked
-/
namespace Verif.Net
open Verif

/-- Peers noted as having failed for a root. -/
def failedFor (w : PWorld) (r : Root) : List Peer := ((w.srv.pending.get? r).map Pend.failed).getD []

theorem failedFor_eq {w : PWorld} {r : Root} {q : Pend} (h : w.srv.pending.get? r = some q) :
    failedFor w r = q.failed := by unfold failedFor; rw [h]; rfl

/-- Only `p` can have a request for `r` unanswered, and no retry is scheduled. -/
def WaitsOnly (w : PWorld) (r : Root) (p : Peer) : Prop :=
  ticking w r = 0 ∧ ∀ id q, (id, q) ∈ w.inflight → w.srv.outbound.get? id = some (.root r) → q = p

/-- The event `ev`, which happened between `t0` and `t2`, belongs to a round `y ++ ev :: a` of
requests for `r`: no fetch of `r` ends in it, nobody is asked twice in it, and it is followed by an
event asking for `r` in a state all of whose connected peers have been asked in the round. -/
def RoundOver (ord : AMap Peer Nat → AMap Peer Nat) (r : Root) (t0 : List (PEvent × List POut))
    (ev : PEvent × List POut) (t2 : List (PEvent × List POut)) : Prop :=
  ∃ x y a e o b w' i q, t0 = x ++ y ∧ t2 = a ++ (e, o) :: b ∧ POut.sendRoot i q r ∈ o ∧
    PRun ord PWorld.init (t0 ++ ev :: a) w' ∧
    POut.closed r ∉ outputs (y ++ ev :: a) ∧ (asks r (outputs (y ++ ev :: a))).Nodup ∧
    ∀ c ∈ w'.srv.connected, c ∈ asks r (outputs (y ++ ev :: a))

theorem RoundOver.snoc {ord : AMap Peer Nat → AMap Peer Nat} {r : Root}
    {t0 t2 : List (PEvent × List POut)} {ev : PEvent × List POut} (h : RoundOver ord r t0 ev t2)
    (z : PEvent × List POut) : RoundOver ord r t0 ev (t2 ++ [z]) := by
  obtain ⟨x, y, a, e, o, b, w', i, q, h0, h1, h2, h3⟩ := h
  exact ⟨x, y, a, e, o, b ++ [z], w', i, q, h0, by rw [h1]; simp, h2, h3⟩

/-- What is known of the round going on, `y`, after the trace `x ++ y`. -/
structure RoundInv (ord : AMap Peer Nat → AMap Peer Nat) (x y : List (PEvent × List POut)) (w : PWorld)
    (r : Root) : Prop where
  opened : POut.closed r ∉ outputs y
  nodup : (asks r (outputs y)).Nodup
  failed : ∀ q ∈ failedFor w r, q ∈ asks r (outputs y)
  flying : ∀ id q, (id, q) ∈ w.inflight → w.srv.outbound.get? id = some (.root r) →
    q ∈ asks r (outputs y)
  asked : ∀ q ∈ asks r (outputs y), q ∈ failedFor w r ∨ WaitsOnly w r q
  past : ∀ t0 e1 o1 t2 i p, x ++ y = t0 ++ (e1, o1) :: t2 → POut.sendRoot i p r ∈ o1 →
    POut.closed r ∉ outputs t2 → w.srv.pending.get? r ≠ none ∧
      ((∃ y', t0 = x ++ y' ∧ y = y' ++ (e1, o1) :: t2) ∨ RoundOver ord r t0 (e1, o1) t2)

theorem flying_ne_zero {w : PWorld} {r : Root} {id : ReqId} {q : Peer} (hm : (id, q) ∈ w.inflight)
    (ho : w.srv.outbound.get? id = some (.root r)) : flying w r ≠ 0 := by
  unfold Verif.Net.flying
  rw [Nat.ne_zero_iff_zero_lt, List.countP_pos_iff]
  exact ⟨(id, q), hm, by simpa using ho⟩

theorem asks_one (r : Root) (id : ReqId) (p : Peer) : asks r [.sendRoot id p r] = [p] := by simp [asks]

theorem round_inv {ord : AMap Peer Nat → AMap Peer Nat} {tr : List (PEvent × List POut)} {w : PWorld}
    (h : PRun ord PWorld.init tr w) (r : Root) : ∃ x y, tr = x ++ y ∧ RoundInv ord x y w r := by
  induction h with
  | nil =>
    refine ⟨[], [], rfl, by simp [outputs], by simp [outputs, asks], fun q hq => by (cases hq),
      fun id q hm => by (cases hm), fun q hq => by (cases hq), ?_⟩
    intro t0 e1 o1 t2 i p he
    simp at he
  | @snoc w tr e hrun ha ih =>
    obtain ⟨x, y, hxy, ih⟩ := ih
    obtain ⟨hb, -, hi⟩ := run_inv hrun
    have hri := hi r
    have hf : answers e ≠ some w.next := fun h => Nat.lt_irrefl _ (fresh_answers hb ha h)
    obtain ⟨hfr, hsent⟩ := step_frame ord w.srv w.next e hf
    have hps := step_pend ord w.srv w.next e r
    have htk := ticking_step (ord := ord) (w := w) (e := e) r
    have hpend : (w.step ord e).1.srv.pending = (w.srv.step ord w.next e).1.pending := rfl
    have hout : (w.step ord e).2 = (w.srv.step ord w.next e).2 := rfl
    -- requests for `r` that are unanswered afterwards
    have hfly : ∀ id q, (id, q) ∈ (w.step ord e).1.inflight →
        (w.step ord e).1.srv.outbound.get? id = some (.root r) →
        ((id, q) ∈ w.inflight ∧ w.srv.outbound.get? id = some (.root r)) ∨
        POut.sendRoot id q r ∈ (w.step ord e).2 := by
      intro id q hm ho
      have hm : (id, q) ∈ w.rest e ++ sends (w.srv.step ord w.next e).2 := hm
      have ho : (w.srv.step ord w.next e).1.outbound.get? id = some (.root r) := ho
      rcases List.mem_append.1 hm with hm | hm
      · rw [rest_eq] at hm
        obtain ⟨h1, h2⟩ := List.mem_filter.1 hm
        rw [hfr id (Nat.ne_of_lt (hb.old _ h1)) (of_decide_eq_true h2)] at ho
        exact .inl ⟨h1, ho⟩
      · cases hsent with
        | none h1 => rw [h1] at hm; cases hm
        | root p r' h1 h2 h3 _ =>
          rw [h1, List.mem_singleton] at hm
          cases hm
          rw [h2] at ho
          cases ho
          exact .inr h3
        | range p a b h1 h2 h3 h4 =>
          rw [h1, List.mem_singleton] at hm
          cases hm
          rw [h2] at ho
          cases ho
    rw [← hpend, ← hout] at hps
    have hidle : w.srv.pending.get? r = none ∨ r ∈ w.timers →
        ∀ id q, (id, q) ∈ w.inflight → w.srv.outbound.get? id ≠ some (.root r) := by
      intro hc id q hm ho
      have hu : Verif.Net.flying w r ≠ 0 := flying_ne_zero hm ho
      rcases hc with hc | hc
      · exact hu (hri.none (by unfold attempts; rw [hc]; rfl)).1
      · have ht : ticking w r ≠ 0 := by
          unfold ticking; rw [Nat.ne_zero_iff_zero_lt, List.count_pos_iff]; exact hc
        cases hn : attempts w.srv r with
        | none => exact hu (hri.none hn).1
        | some n =>
          obtain ⟨-, -, h3, -⟩ := hri.some n hn
          omega
    have hrt : (w.restTimers e).count r ≤ w.timers.count r := by
      cases e <;> first
        | exact Nat.le_refl _
        | exact List.Sublist.count_le _ List.erase_sublist
    generalize hev : (e, (w.step ord e).2) = ev
    have hev2 : ev.2 = (w.step ord e).2 := by rw [← hev]
    have hsn : ∀ l : List (PEvent × List POut), outputs (l ++ [ev]) = outputs l ++ (w.step ord e).2 := by
      intro l; rw [← hev]; exact outputs_snoc l _ _
    -- splits of the longer trace
    have hsplit : ∀ {t0 : List (PEvent × List POut)} {e1 : PEvent} {o1 : List POut}
        {t2 : List (PEvent × List POut)},
        tr ++ [ev] = t0 ++ (e1, o1) :: t2 →
        (t2 = [] ∧ t0 = tr ∧ (e1, o1) = ev) ∨
        ∃ t2', t2 = t2' ++ [ev] ∧ tr = t0 ++ (e1, o1) :: t2' := by
      intro t0 e1 o1 t2 he
      rcases List.eq_nil_or_concat t2 with rfl | ⟨t2', z, rfl⟩
      · left
        obtain ⟨h1, h2⟩ := List.append_inj' he rfl
        cases h2
        exact ⟨rfl, h1.symm, rfl⟩
      · right
        have he : tr ++ [ev] = (t0 ++ (e1, o1) :: t2') ++ [z] := by
          rw [he]; simp
        obtain ⟨h1, h2⟩ := List.append_inj' he rfl
        cases h2
        exact ⟨t2', by simp, h1⟩
    have hclosed : ∀ {t2' : List (PEvent × List POut)}, POut.closed r ∉ outputs (t2' ++ [ev]) →
        POut.closed r ∉ outputs t2' ∧ POut.closed r ∉ (w.step ord e).2 := by
      intro t2' h
      rw [hsn] at h
      exact ⟨fun hm => h (List.mem_append_left _ hm), fun hm => h (List.mem_append_right _ hm)⟩
    -- earlier requests, when the round goes on
    have hpast : (w.step ord e).1.srv.pending.get? r ≠ none ∨
          (w.step ord e).1.srv.pending.get? r = w.srv.pending.get? r →
        (∀ i p, POut.sendRoot i p r ∈ (w.step ord e).2 → (w.step ord e).1.srv.pending.get? r ≠ none) →
        ∀ t0 e1 o1 t2 i p, x ++ (y ++ [ev]) = t0 ++ (e1, o1) :: t2 → POut.sendRoot i p r ∈ o1 →
          POut.closed r ∉ outputs t2 → (w.step ord e).1.srv.pending.get? r ≠ none ∧
          ((∃ y', t0 = x ++ y' ∧ y ++ [ev] = y' ++ (e1, o1) :: t2) ∨
            RoundOver ord r t0 (e1, o1) t2) := by
      intro hp hp2 t0 e1 o1 t2 i p he hs hc
      rw [← List.append_assoc, ← hxy] at he
      rcases hsplit he with ⟨rfl, h4, h5⟩ | ⟨t2', rfl, he'⟩
      · refine ⟨hp2 i p ?_, .inl ⟨y, by rw [h4, hxy], by rw [h5]⟩⟩
        rw [← hev2, ← h5]; exact hs
      · obtain ⟨c1, -⟩ := hclosed hc
        obtain ⟨k1, k2⟩ := ih.past t0 e1 o1 t2' i p (by rw [← hxy, he']) hs c1
        refine ⟨?_, ?_⟩
        · rcases hp with hp | hp
          · exact hp
          · rw [hp]; exact k1
        · rcases k2 with ⟨y', k2, k3⟩ | k2
          · exact .inl ⟨y', k2, by rw [k3]; simp⟩
          · exact .inr (k2.snoc _)
    -- after a request was sent, only its peer can be unanswered
    have hnew : ∀ p, (w.step ord e).2 = [.sendRoot w.next p r] →
        (∀ id q, (id, q) ∈ w.inflight → w.srv.outbound.get? id ≠ some (.root r)) →
        ticking (w.step ord e).1 r = 0 → WaitsOnly (w.step ord e).1 r p := by
      intro p ho hno ht
      refine ⟨ht, fun id q hm hq => ?_⟩
      rcases hfly id q hm hq with ⟨h1, h2⟩ | h1
      · exact absurd h2 (hno id q h1)
      · rw [ho, List.mem_singleton] at h1
        cases h1
        rfl
    cases hps with
    | same h1 h2 =>
      have hfe : failedFor (w.step ord e).1 r = failedFor w r := by unfold failedFor; rw [h1]
      have has : asks r (outputs (y ++ [ev])) = asks r (outputs y) := by
        rw [hsn, asks_append, asks_quiet (l := (w.step ord e).2) (by rw [h2]; simp), List.append_nil]
      have hold : ∀ id q, (id, q) ∈ (w.step ord e).1.inflight →
          (w.step ord e).1.srv.outbound.get? id = some (.root r) →
          (id, q) ∈ w.inflight ∧ w.srv.outbound.get? id = some (.root r) := by
        intro id q hm ho
        rcases hfly id q hm ho with h | h
        · exact h
        · have := mem_rootLog_asked h; rw [h2] at this; cases this
      refine ⟨x, y ++ [ev], by rw [hxy, List.append_assoc], ?_, ?_, ?_, ?_, ?_, hpast (.inr h1) ?_⟩
      · rw [hsn]
        intro hm
        rcases List.mem_append.1 hm with hm | hm
        · exact ih.opened hm
        · have := mem_rootLog_closed hm; rw [h2] at this; cases this
      · rw [has]; exact ih.nodup
      · rw [has, hfe]; exact ih.failed
      · intro id q hm ho
        obtain ⟨k1, k2⟩ := hold id q hm ho
        rw [has]; exact ih.flying id q k1 k2
      · rw [has, hfe]
        intro q hq
        rcases ih.asked q hq with h | h
        · exact .inl h
        · refine .inr ⟨?_, fun id q hm ho => ?_⟩
          · have := h.1
            unfold ticking at this
            have k := timersOf_rootLog h2
            rw [hout] at k
            rw [htk]
            omega
          · obtain ⟨k1, k2⟩ := hold id q hm ho
            exact h.2 id q k1 k2
      · intro i p hm
        have := mem_rootLog_asked hm; rw [h2] at this; cases this
    | closed h1 h2 h4 =>
      have hno : failedFor (w.step ord e).1 r = [] := by unfold failedFor; rw [h1]; rfl
      have hri' := (run_inv (.snoc hrun ha)).2.2 r
      have hu := (hri'.none (by unfold attempts; rw [h1]; rfl)).1
      refine ⟨tr ++ [ev], [], by simp, by simp [outputs], by simp [outputs, asks],
        fun q hq => by (rw [hno] at hq; cases hq), fun id q hm ho => absurd hu (flying_ne_zero hm ho),
        fun q hq => by (cases hq), ?_⟩
      intro t0 e1 o1 t2 i p he hs hc
      rw [List.append_nil] at he
      rcases hsplit he with ⟨-, -, h5⟩ | ⟨t2', rfl, he'⟩
      · have hs : POut.sendRoot i p r ∈ (w.step ord e).2 := by rw [← hev2, ← h5]; exact hs
        have := mem_rootLog_asked hs; rw [h2] at this; simp at this
      · exact absurd h4 (hclosed hc).2
    | start p h1 h2 h3 =>
      have ht : ticking (w.step ord e).1 r = 0 := by
        have k := (hri.none (by unfold attempts; rw [h1]; rfl)).2.1
        unfold ticking at k
        rw [htk, ← hout, h3]
        simp only [timersOf, List.filterMap_cons, List.filterMap_nil, List.count_nil]
        omega
      have hw := hnew p h3 (hidle (.inl h1)) ht
      have has : asks r (outputs [ev]) = [p] := by
        have : outputs [ev] = (w.step ord e).2 := hsn []
        rw [this, h3, asks_one]
      refine ⟨tr, [ev], rfl, ?_, by rw [has]; simp, ?_, ?_, ?_, ?_⟩
      · have : outputs [ev] = (w.step ord e).2 := hsn []
        rw [this, h3]; simp
      · intro q hq; rw [failedFor_eq h2] at hq; cases hq
      · intro id q hm ho; rw [has, hw.2 id q hm ho]; exact List.mem_singleton_self _
      · intro q hq; rw [has, List.mem_singleton] at hq; rw [hq]; exact .inr hw
      · intro t0 e1 o1 t2 i p' he hs hc
        refine ⟨by rw [h2]; simp, ?_⟩
        rcases hsplit he with ⟨rfl, h4, h5⟩ | ⟨t2', rfl, he'⟩
        · exact .inl ⟨[], by rw [h4]; simp, by rw [h5]; rfl⟩
        · exact absurd h1 (ih.past t0 e1 o1 t2' i p' (by rw [← hxy, he']) hs (hclosed hc).1).1
    | again p q pick sent h0 h1 h2 h3 =>
      have hr : r ∈ w.timers := by rw [h0] at ha; exact ha
      have hc1 : 0 < w.timers.count r := List.count_pos_iff.2 hr
      have ht : ticking (w.step ord e).1 r = 0 := by
        obtain ⟨-, -, k, -⟩ := hri.some q.attempts (by unfold attempts; rw [h1]; rfl)
        unfold ticking at k
        rw [htk, ← hout, h2, h0]
        have : (w.restTimers (.retry r pick sent)).count r = w.timers.count r - 1 :=
          List.count_erase_self
        rw [this]
        simp only [timersOf, List.filterMap_cons, List.filterMap_nil, List.count_nil]
        omega
      have hw := hnew p h2 (hidle (.inr hr)) ht
      have hfa : ∀ c ∈ asks r (outputs y), c ∈ q.failed := by
        intro c hc
        rcases ih.asked c hc with h | h
        · rw [← failedFor_eq h1]; exact h
        · have := h.1
          unfold ticking at this
          omega
      rcases h3 with ⟨h4, h3⟩ | ⟨h4, h3⟩
      · have has : asks r (outputs (y ++ [ev])) = asks r (outputs y) ++ [p] := by
          rw [hsn, asks_append, h2, asks_one]
        refine ⟨x, y ++ [ev], by rw [hxy, List.append_assoc], ?_, ?_, ?_, ?_, ?_,
          hpast (.inl (by rw [h3]; simp)) (fun _ _ _ => by rw [h3]; simp)⟩
        · rw [hsn, h2]
          intro hm
          rcases List.mem_append.1 hm with hm | hm
          · exact ih.opened hm
          · simp at hm
        · rw [has, List.nodup_append]
          refine ⟨ih.nodup, by simp, fun a ha' b hb' => ?_⟩
          rw [List.mem_singleton] at hb'
          intro he
          rw [he, hb'] at ha'
          exact h4 (hfa _ ha')
        · rw [has, failedFor_eq h3]
          intro c hc
          exact List.mem_append_left _ (ih.failed c (by rw [failedFor_eq h1]; exact hc))
        · intro id c hm ho
          rw [has, hw.2 id c hm ho]
          exact List.mem_append_right _ (List.mem_singleton_self _)
        · rw [has, failedFor_eq h3]
          intro c hc
          rcases List.mem_append.1 hc with hc | hc
          · exact .inl (hfa c hc)
          · rw [List.mem_singleton.1 hc]; exact .inr hw
      · have has : asks r (outputs [ev]) = [p] := by
          have : outputs [ev] = (w.step ord e).2 := hsn []
          rw [this, h2, asks_one]
        refine ⟨tr, [ev], rfl, ?_, by rw [has]; simp, ?_, ?_, ?_, ?_⟩
        · have : outputs [ev] = (w.step ord e).2 := hsn []
          rw [this, h2]; simp
        · intro c hc; rw [failedFor_eq h3] at hc; cases hc
        · intro id c hm ho; rw [has, hw.2 id c hm ho]; exact List.mem_singleton_self _
        · intro c hc; rw [has, List.mem_singleton] at hc; rw [hc]; exact .inr hw
        · intro t0 e1 o1 t2 i p' he hs hc
          refine ⟨by rw [h3]; simp, ?_⟩
          rcases hsplit he with ⟨rfl, h5, h6⟩ | ⟨t2', rfl, he'⟩
          · exact .inl ⟨[], by rw [h5]; simp, by rw [h6]; rfl⟩
          · right
            obtain ⟨-, k⟩ := ih.past t0 e1 o1 t2' i p' (by rw [← hxy, he']) hs (hclosed hc).1
            rcases k with ⟨y', k1, k2⟩ | k
            · refine ⟨x, y', t2', e, (w.step ord e).2, [], w, w.next, p, k1, by rw [hev], ?_, ?_, ?_,
                ?_, ?_⟩
              · rw [h2]; exact List.mem_singleton_self _
              · rw [← he']; exact hrun
              · rw [← k2]; exact ih.opened
              · rw [← k2]; exact ih.nodup
              · rw [← k2]
                exact fun c hc => ih.failed c (by rw [failedFor_eq h1]; exact h4 c hc)
            · exact k.snoc _
    | failed rid p q q' ms h0 h1 h2 h3 h4 h5 h6 h7 =>
      have hin : (rid, p) ∈ w.inflight := by
        cases e <;> simp only [answerer, reduceCtorEq, Option.some.injEq, Prod.mk.injEq] at h0
        all_goals
          obtain ⟨rfl, rfl⟩ := h0
          exact ha
      have has : asks r (outputs (y ++ [ev])) = asks r (outputs y) := by
        rw [hsn, asks_append, h7]; simp [asks]
      refine ⟨x, y ++ [ev], by rw [hxy, List.append_assoc], ?_, ?_, ?_, ?_, ?_,
        hpast (.inl (by rw [h3]; simp)) (fun _ _ _ => by rw [h3]; simp)⟩
      · rw [hsn, h7]
        intro hm
        rcases List.mem_append.1 hm with hm | hm
        · exact ih.opened hm
        · simp at hm
      · rw [has]; exact ih.nodup
      · rw [has, failedFor_eq h3]
        intro c hc
        rcases h6 c hc with hc | rfl
        · exact ih.failed c (by rw [failedFor_eq h2]; exact hc)
        · exact ih.flying rid c hin h1
      · intro id c hm ho
        rw [has]
        rcases hfly id c hm ho with ⟨k1, k2⟩ | k
        · exact ih.flying id c k1 k2
        · rw [h7] at k; simp at k
      · rw [has, failedFor_eq h3]
        intro c hc
        rcases ih.asked c hc with h | h
        · exact .inl (h5 _ (by rw [← failedFor_eq h2]; exact h))
        · rw [← h.2 rid p hin h1]
          exact .inl h4

/-- **C73.** While one block is being fetched, a peer that has been asked for it is asked again only
after everyone has been asked.  Suppose `p` is asked for `r` by `e1`, the fetch has not ended when
`tr2` has happened, and the next event `e` asks `p` again.  Then the first request belongs to a round
`y ++ (e1, o1) :: a` in which nobody is asked twice, and which is followed, at the latest by `e`, by
a request for `r` in a state `w'` all of whose connected peers have been asked in that round. -/
theorem C73_rotation {ord : AMap Peer Nat → AMap Peer Nat} {t0 tr2 : List (PEvent × List POut)}
    {e1 e : PEvent} {o1 : List POut} {w : PWorld} {r : Root} {i1 i2 : ReqId} {p : Peer}
    (h : PRun ord PWorld.init (t0 ++ (e1, o1) :: tr2) w)
    (h1 : POut.sendRoot i1 p r ∈ o1) (hc : POut.closed r ∉ outputs tr2)
    (ha : w.allows e) (h2 : POut.sendRoot i2 p r ∈ (w.step ord e).2) :
    ∃ x y a e' o' b w' i q, t0 = x ++ y ∧ tr2 ++ [(e, (w.step ord e).2)] = a ++ (e', o') :: b ∧
      POut.sendRoot i q r ∈ o' ∧ PRun ord PWorld.init (t0 ++ (e1, o1) :: a) w' ∧
      POut.closed r ∉ outputs (y ++ (e1, o1) :: a) ∧
      (asks r (outputs (y ++ (e1, o1) :: a))).Nodup ∧
      ∀ c ∈ w'.srv.connected, c ∈ asks r (outputs (y ++ (e1, o1) :: a)) := by
  have hrun := PRun.snoc h ha
  obtain ⟨x, y, hxy, hv⟩ := round_inv hrun r
  have hps := step_pend ord w.srv w.next e r
  have hout : (w.srv.step ord w.next e).2 = (w.step ord e).2 := rfl
  have hquiet : POut.closed r ∉ (w.step ord e).2 := by
    rw [hout] at hps
    generalize (w.srv.step ord w.next e).1.pending.get? r = pend' at hps
    intro hm
    cases hps with
    | same _ k => have := mem_rootLog_asked h2; rw [k] at this; cases this
    | closed _ k _ => have := mem_rootLog_asked h2; rw [k] at this; simp at this
    | failed _ _ _ _ _ _ _ _ _ _ _ _ k => rw [k] at h2; simp at h2
    | start _ _ _ k => rw [k] at hm; simp at hm
    | again _ _ _ _ _ _ k _ => rw [k] at hm; simp at hm
  have hc' : POut.closed r ∉ outputs (tr2 ++ [(e, (w.step ord e).2)]) := by
    rw [outputs_snoc]
    intro hm
    rcases List.mem_append.1 hm with hm | hm
    · exact hc hm
    · exact hquiet hm
  obtain ⟨-, k⟩ := hv.past t0 e1 o1 (tr2 ++ [(e, (w.step ord e).2)]) i1 p (by rw [← hxy]; simp) h1 hc'
  rcases k with ⟨y', k1, k2⟩ | k
  · exfalso
    have hn := hv.nodup
    have : outputs y = outputs y' ++ o1 ++ outputs tr2 ++ (w.step ord e).2 := by
      rw [k2]; simp [outputs]
    rw [this, asks_append, asks_append] at hn
    refine (List.nodup_append.1 hn).2.2 p ?_ p (mem_asks.2 ⟨i2, h2⟩) rfl
    rw [← asks_append]
    exact mem_asks.2 ⟨i1, by simp [h1]⟩
  · exact k

/-! Peers 7 and 8 are connected.  Block 3 is asked from 7, then from 8, and then, both having
failed, from 7 again. -/

def rotEvs : List PEvent :=
  [.connected 7, .connected 8, .fetch 3 0 true, .failure 0 7, .retry 3 0 true, .failure 1 8]

def rotRun : PWorld × List (PEvent × List POut) :=
  rotEvs.foldl (fun acc e => ((acc.1.step id e).1, acc.2 ++ [(e, (acc.1.step id e).2)])) (PWorld.init, [])

theorem rotRun_run : PRun id PWorld.init rotRun.2 rotRun.1 :=
  (((((PRun.nil.snoc (e := .connected 7) trivial).snoc (e := .connected 8) trivial).snoc
    (e := .fetch 3 0 true) trivial).snoc (e := .failure 0 7) (show _ ∈ _ by decide +kernel)).snoc
    (e := .retry 3 0 true) (show _ ∈ _ by decide +kernel)).snoc
    (e := .failure 1 8) (show _ ∈ _ by decide +kernel)

example : rotRun.2.map Prod.snd = [[], [], [.sendRoot 0 7 3], [.retryAfter 3 5], [.sendRoot 1 8 3],
      [.retryAfter 3 10]] ∧
    rotRun.1.timers = [3] ∧ (rotRun.1.step id (.retry 3 0 true)).2 = [.sendRoot 2 7 3] := by
  decide +kernel

example : ∃ t0 e1 tr2, rotRun.2 = t0 ++ (e1, [.sendRoot 0 7 3]) :: tr2 ∧
    POut.closed 3 ∉ outputs tr2 ∧ rotRun.1.allows (.retry 3 0 true) ∧
    POut.sendRoot 2 7 3 ∈ (rotRun.1.step id (.retry 3 0 true)).2 :=
  ⟨rotRun.2.take 2, .fetch 3 0 true, rotRun.2.drop 3, by rfl, by decide +kernel,
    (show _ ∈ _ by decide +kernel), by decide +kernel⟩

end Verif.Net
