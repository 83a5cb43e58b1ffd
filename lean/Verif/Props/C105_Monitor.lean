import Verif.Model.Monitor
import Mathlib.Data.List.TakeDrop
import Mathlib.Data.List.Induction
import Mathlib.Data.List.TakeWhile
/-!
# C105: the history of the event monitor
-/
namespace Verif.Monitor
open Verif

/-! ## Vocabulary -/

/-- The same node and topic. -/
def series (e x : Ev) : Bool := decide (x.node = e.node) && decide (x.topic = e.topic)

/-- The last `cap` events of every series, in order: an event stays if fewer than `cap` later ones are of
its series. -/
def recent (cap : Nat) : List Ev → List Ev
  | [] => []
  | e :: l => if l.countP (series e) < cap then e :: recent cap l else recent cap l

/-- The history after these events were published. -/
def after (R : Nat) (es : List Ev) : History := es.foldl History.push (History.new R)

/-! ## The snapshot -/

theorem keep_eq (l : List Ev) : ∀ (kept : Nat × Node.Topic → Nat) (l' : List Ev),
    (∀ e, kept (e.node, e.topic) = min seriesMax (l'.countP (series e))) →
    (keep kept l).reverse ++ recent seriesMax l' = recent seriesMax (l.reverse ++ l') := by
  induction l with
  | nil => intro kept l' _; rfl
  | cons e l ih =>
    intro kept l' hk
    unfold keep
    by_cases hc : kept (e.node, e.topic) ≥ seriesMax
    · rw [if_pos hc]
      have h1 : recent seriesMax (e :: l') = recent seriesMax l' := by
        conv_lhs => unfold recent
        rw [if_neg]
        have := hk e
        omega
      have := ih kept (e :: l') (fun x => by
        rw [hk x, List.countP_cons]
        split
        · rename_i hx
          have hs : kept (x.node, x.topic) = kept (e.node, e.topic) := by
            unfold series at hx
            simp only [Bool.and_eq_true, decide_eq_true_eq] at hx
            rw [hx.1, hx.2]
          have := hk x
          omega
        · rfl)
      rw [h1] at this
      rw [this, List.reverse_cons, List.append_assoc, List.singleton_append]
    · rw [if_neg hc]
      have h1 : recent seriesMax (e :: l') = e :: recent seriesMax l' := by
        conv_lhs => unfold recent
        rw [if_pos]
        have := hk e
        omega
      have := ih (Function.update kept (e.node, e.topic) (kept (e.node, e.topic) + 1)) (e :: l')
        (fun x => by
          rw [List.countP_cons]
          by_cases hx : (x.node, x.topic) = (e.node, e.topic)
          · rw [hx, Function.update_self]
            have hs : series x e = true := by
              unfold series
              simp only [Prod.mk.injEq] at hx
              rw [hx.1, hx.2]
              simp
            rw [if_pos hs]
            have h2 := hk x
            rw [hx] at h2
            omega
          · rw [Function.update_of_ne hx, if_neg, hk x]
            · rfl
            · unfold series
              simp only [Prod.mk.injEq, not_and] at hx
              simp only [Bool.and_eq_true, decide_eq_true_eq, not_and]
              intro h3 h4
              exact hx h3.symm h4.symm)
      rw [h1] at this
      rw [List.reverse_cons, List.append_assoc, List.singleton_append, this, List.reverse_cons,
        List.append_assoc, List.singleton_append]

/-- **C105.** What `GET /api/history` returns are the last 2000 events of every node and topic among those
retained, oldest first. -/
theorem C105_snapshot (h : History) : h.snapshot = recent seriesMax h.events := by
  have := keep_eq h.events.reverse (fun _ => 0) [] (fun e => by simp)
  rw [List.reverse_reverse, List.append_nil] at this
  unfold History.snapshot
  rw [← this]
  simp [recent]

theorem mem_recent {cap : Nat} {pre post : List Ev} {e : Ev} (h : post.countP (series e) < cap) :
    e ∈ recent cap (pre ++ e :: post) := by
  induction pre with
  | nil =>
    show e ∈ recent cap (e :: post)
    unfold recent
    rw [if_pos h]
    simp
  | cons x pre ih =>
    show e ∈ recent cap (x :: (pre ++ e :: post))
    unfold recent
    split
    · exact List.mem_cons_of_mem _ ih
    · exact ih

/-! ## Retention -/

/-- The highest slot among the events. -/
def top (es : List Ev) : Nat := es.foldl (fun m e => max m e.slot) 0

theorem top_snoc (es : List Ev) (e : Ev) : top (es ++ [e]) = max (top es) e.slot := by
  simp [top]

theorem le_top {es : List Ev} {e : Ev} : e ∈ es → e.slot ≤ top es := by
  induction es using List.reverseRecOn with
  | nil => intro h; cases h
  | append_singleton es x ih =>
    intro h
    rw [top_snoc]
    rcases List.mem_append.1 h with h | h
    · have := ih h; omega
    · rw [List.mem_singleton] at h; subst h; omega

theorem dropWhile_split (p : Ev → Bool) (l : List Ev) :
    ∃ a, l = a ++ l.dropWhile p ∧ ∀ e ∈ a, p e = true :=
  ⟨l.takeWhile p, (List.takeWhile_append_dropWhile).symm, fun _ he => (List.mem_takeWhile_imp he)⟩

/-- The invariant behind retention. -/
structure Kept (R : Nat) (es : List Ev) (h : History) : Prop where
  retain : h.retain = max R 1
  mark : h.maxSlot = top es
  size : h.events.length ≤ historyMax
  split : ∃ old, es = old ++ h.events ∧ ∀ pre e post, old = pre ++ e :: post →
    e.slot + max R 1 ≤ top es ∨ historyMax ≤ (post ++ h.events).length

theorem Kept.push {R : Nat} {es : List Ev} {h : History} (K : Kept R es h) (e : Ev) :
    Kept R (es ++ [e]) (h.push e) := by
  obtain ⟨hr, hm, hs, old, h1, h2⟩ := K
  have hr' : (h.push e).retain = max R 1 := by rw [← hr]; unfold History.push History.prune; rfl
  have hm' : (h.push e).maxSlot = max h.maxSlot e.slot := by unfold History.push History.prune; rfl
  obtain ⟨a, ha1, ha2⟩ := dropWhile_split
    ({ h with maxSlot := max h.maxSlot e.slot, events := h.events ++ [e] } : History).stale
    (h.events ++ [e])
  generalize hf : (h.events ++ [e]).dropWhile
    ({ h with maxSlot := max h.maxSlot e.slot, events := h.events ++ [e] } : History).stale = fresh at ha1
  have he : (h.push e).events = fresh.drop (fresh.length - historyMax) := by
    rw [← hf]; simp only [History.push, History.prune]
  refine ⟨hr', by rw [hm', hm, top_snoc], ?_, ?_⟩
  all_goals
    obtain ⟨M, hM⟩ : ∃ M, M = historyMax := ⟨_, rfl⟩
    rw [← hM] at hs he h2 ⊢
    clear hM
  · rw [he, List.length_drop]; omega
  · have e2 : fresh = fresh.take (fresh.length - M) ++ (h.push e).events := by
      rw [he, List.take_append_drop]
    refine ⟨old ++ a ++ fresh.take (fresh.length - M), ?_, ?_⟩
    · rw [h1, List.append_assoc, ha1]
      conv_lhs => rw [e2]
      simp only [List.append_assoc]
    · intro pre x post hx
      rw [top_snoc]
      rw [List.append_assoc] at hx
      rcases List.append_eq_append_iff.1 hx with ⟨l, q1, q2⟩ | ⟨l, q1, q2⟩
      · -- `x` is in `a ++ take`
        rcases List.append_eq_append_iff.1 q2 with ⟨l', q3, q4⟩ | ⟨l', q3, q4⟩
        · right
          have : (fresh.take (fresh.length - M)).length = fresh.length - M := by
            rw [List.length_take]; omega
          have l1 := congrArg List.length q4
          have hl : (h.push e).events.length = fresh.length - (fresh.length - M) := by
            rw [he, List.length_drop]
          rw [List.length_append, hl]
          rw [this] at l1
          simp only [List.length_append, List.length_cons] at l1
          omega
        · cases l' with
          | nil =>
            right
            rw [List.nil_append] at q4
            have : (fresh.take (fresh.length - M)).length = fresh.length - M := by
              rw [List.length_take]; omega
            have l1 := congrArg List.length q4
            have hl : (h.push e).events.length = fresh.length - (fresh.length - M) := by
              rw [he, List.length_drop]
            rw [List.length_append, hl]
            rw [this, List.length_cons] at l1
            omega
          | cons y l' =>
            left
            rw [List.cons_append, List.cons.injEq] at q4
            obtain ⟨rfl, -⟩ := q4
            have := ha2 x (by rw [q3]; simp)
            unfold History.stale at this
            simp only [decide_eq_true_eq, hr, hm] at this
            omega
      · cases l with
        | nil =>
          rw [List.nil_append] at q2
          cases a with
          | nil =>
            right
            rw [List.nil_append] at q2
            have : (fresh.take (fresh.length - M)).length = fresh.length - M := by
              rw [List.length_take]; omega
            have l1 := congrArg List.length q2
            have hl : (h.push e).events.length = fresh.length - (fresh.length - M) := by
              rw [he, List.length_drop]
            rw [List.length_append, hl]
            rw [this, List.length_cons] at l1
            omega
          | cons y a =>
            left
            rw [List.cons_append, List.cons.injEq] at q2
            obtain ⟨rfl, -⟩ := q2
            have := ha2 x (by simp)
            unfold History.stale at this
            simp only [decide_eq_true_eq, hr, hm] at this
            omega
        | cons y l =>
          rw [List.cons_append, List.cons.injEq] at q2
          obtain ⟨rfl, rfl⟩ := q2
          rcases h2 _ _ _ q1 with h3 | h3
          · left; omega
          · right
            have l1 := congrArg List.length e2
            have l2 := congrArg List.length ha1
            simp only [List.length_append, List.length_take, List.length_cons, List.length_nil] at l1 l2 h3 ⊢
            omega

theorem kept_after (R : Nat) (es : List Ev) : Kept R es (after R es) := by
  induction es using List.reverseRecOn with
  | nil =>
    refine ⟨rfl, rfl, by simp [after, History.new], [], rfl, ?_⟩
    intro pre e post h
    simp at h
  | append_singleton es e ih =>
    have : after R (es ++ [e]) = (after R es).push e := by simp [after]
    rw [this]
    exact ih.push e

/-- **C105.** After any events were published: the history is the newest part of them, in order and at most
50000, and every event that is no longer in it is as old as the configured number of slots, or 50000 newer
ones have been published. -/
theorem C105_retained (R : Nat) (es : List Ev) :
    ∃ old, es = old ++ (after R es).events ∧ (after R es).events.length ≤ 50000 ∧
      ∀ pre e post, old = pre ++ e :: post →
        (∃ x ∈ es, e.slot + max R 1 ≤ x.slot) ∨ 50000 ≤ (post ++ (after R es).events).length := by
  obtain ⟨-, -, hs, old, h1, h2⟩ := kept_after R es
  refine ⟨old, h1, hs, fun pre e post h => ?_⟩
  rcases h2 pre e post h with h3 | h3
  · left
    have key : ∀ l : List Ev, 0 < top l → ∃ x ∈ l, top l = x.slot := by
      intro l
      induction l using List.reverseRecOn with
      | nil => intro h; simp [top] at h
      | append_singleton l y ih =>
        intro hp
        rw [top_snoc] at hp ⊢
        by_cases hy : top l ≤ y.slot
        · exact ⟨y, by simp, by omega⟩
        · obtain ⟨x, hx, e⟩ := ih (by omega)
          exact ⟨x, by simp [hx], by omega⟩
    obtain ⟨x, hx, e⟩ := key es (by omega)
    exact ⟨x, hx, by omega⟩
  · exact .inr h3

/-- **C105, backfill.** An event is served to a dashboard that opens later, as long as the newest event is
within the configured number of slots, fewer than 2000 events of its node and topic came later, and fewer
than 50000 events altogether.
Missing: the last condition, without which it is false (`C105_flood_false`). -/
theorem C105_backfill_partial (R : Nat) (pre post : List Ev) (e : Ev)
    (hw : ∀ x ∈ pre ++ e :: post, x.slot < e.slot + R) (hc : post.countP (series e) < 2000)
    (hn : post.length < 50000) : e ∈ (after R (pre ++ e :: post)).snapshot := by
  rw [C105_snapshot]
  obtain ⟨old, h1, -, h2⟩ := C105_retained R (pre ++ e :: post)
  rcases List.append_eq_append_iff.1 h1 with ⟨l, q1, q2⟩ | ⟨l, q1, q2⟩
  · cases l with
    | nil =>
      rw [List.nil_append] at q2
      rw [← q2]
      exact mem_recent (pre := []) hc
    | cons y l =>
      rw [List.cons_append, List.cons.injEq] at q2
      obtain ⟨rfl, q2⟩ := q2
      rcases h2 pre e l q1 with ⟨x, hx, h3⟩ | h3
      · have := hw x hx; omega
      · rw [← q2] at h3; omega
  · rw [q2]
    exact mem_recent hc

/-- The claim of hub.rs 30-33 and of CONTRACT.md: events of another node or topic do not crowd an event out of
the backfill. -/
def NoCrowding : Prop :=
  ∀ (R : Nat) (pre post : List Ev) (e : Ev), (∀ x ∈ pre ++ e :: post, x.slot < e.slot + R) →
    post.countP (series e) < 2000 → e ∈ (after R (pre ++ e :: post)).snapshot

theorem mem_of_recent {cap : Nat} {l : List Ev} {e : Ev} (h : e ∈ recent cap l) : e ∈ l := by
  induction l with
  | nil => exact h
  | cons x l ih =>
    unfold recent at h
    split at h
    · rcases List.mem_cons.1 h with h | h
      · exact h ▸ List.mem_cons_self
      · exact List.mem_cons_of_mem _ (ih h)
    · exact List.mem_cons_of_mem _ (ih h)

/-- **C105, backfill, is false without that condition.** Once 50000 votes arrive, no earlier block is served,
however recent, and whatever was published before. -/
theorem C105_crowded (R : Nat) (pre post : List Ev) (e : Ev) (hn : 50000 ≤ post.length)
    (he : e ∉ post) : e ∉ (after R (pre ++ e :: post)).snapshot := by
  rw [C105_snapshot]
  intro h
  have h := mem_of_recent h
  obtain ⟨old, h1, h2, -⟩ := C105_retained R (pre ++ e :: post)
  have : (after R (pre ++ e :: post)).events.length ≤ post.length := by omega
  have hsuf : (after R (pre ++ e :: post)).events <:+ post := by
    refine List.suffix_of_suffix_length_le (l₃ := pre ++ e :: post) ⟨old, h1.symm⟩
      ⟨pre ++ [e], by simp⟩ this
  exact he (hsuf.mem h)

def sampleBlock : Ev := ⟨0, .block, 1, 0, 0, some 1, none, none⟩
def sampleVote : Ev := ⟨0, .attestation, 1, 0, 0, none, some 1, none⟩

theorem C105_flood_false : ¬ NoCrowding := by
  intro h
  refine C105_crowded 64 [] (List.replicate 50000 sampleVote) sampleBlock
    (List.length_replicate ▸ Nat.le_refl _)
    (fun hm => absurd (List.eq_of_mem_replicate hm) (by decide)) (h 64 [] _ sampleBlock ?_ ?_)
  · intro x hx
    rcases List.mem_cons.1 hx with rfl | hx
    · decide
    · rw [List.eq_of_mem_replicate hx]; decide
  · rw [List.countP_replicate, if_neg (by decide)]
    decide

/-! ## Events of the moment -/

/-- Nothing is retained or under way, as at the start. -/
structure Quiet (m : Mon) (R : Nat) : Prop where
  idle : ∀ i, m.flight i = none
  empty : m.history.events = []
  mark : m.history.maxSlot = 0
  retain : m.history.retain = R
  valid : m.timing.valid = true

/-- The monitor as `main.rs` starts it. -/
def Mon.start (t : Timing) (R : Nat) (now : Int) : Mon := ⟨t, History.new R, fun _ => none, now⟩

theorem quiet_start {t : Timing} {R : Nat} {now : Int} (ht : t.valid = true) :
    Quiet (Mon.start t R now) (max R 1) := ⟨fun _ => rfl, rfl, rfl, rfl, ht⟩

/-- A change of geometry while no event is under way starts afresh. -/
theorem quiet_change {J : Type} {p : Parsers J} {m m' : Mon} {t : Timing}
    (hi : ∀ i, m.flight i = none) (h : Run p m [.send t, .reset] m') :
    Quiet m' m.history.retain ∧ m'.timing = t := by
  cases h with
  | step h1 s1 =>
    cases h1 with
    | step h2 s2 =>
      cases h2
      cases s2
      cases s1 with
      | send ok => exact ⟨⟨hi, rfl, rfl, rfl, ok⟩, rfl⟩

theorem i64_some {x y : Int} : i64 x = some y → x = y := by
  unfold i64
  split
  · exact fun h => Option.some.inj h
  · exact fun h => by cases h

/-- The slot of the clock does not go back. -/
theorem slotAt_mono {t : Timing} {a b : Int} {n : Nat} (hab : a ≤ b) (h : t.slotAt a = some n) :
    ∃ k, t.slotAt b = some k ∧ n ≤ k := by
  unfold Timing.slotAt at h ⊢
  cases hg : i64 (asI64 t.genesisTime * 1000) with
  | none => rw [hg] at h; cases h
  | some g =>
    rw [hg] at h
    simp only [Option.bind_eq_bind, Option.bind_some, Option.pure_def] at h ⊢
    split at h
    · have := Option.some.inj h
      subst this
      split
      · exact ⟨0, rfl, Nat.le_refl _⟩
      · exact ⟨_, rfl, Nat.zero_le _⟩
    · rename_i h1
      have := Option.some.inj h
      subst this
      rw [if_neg (by omega)]
      exact ⟨_, rfl, Nat.div_le_div_right (by omega)⟩

theorem normalize_slot {J : Type} {p : Parsers J} {i : Nat} {topic : List Char} {data : J}
    {arrival : Int} {t : Timing} {e : Ev} (h : normalize p i topic data arrival t = .ok e) :
    ∃ n, t.slotAt arrival = some n ∧ e.slot ≤ n + 8 := by
  unfold normalize at h
  split at h
  · cases h
  · split at h
    · cases h
    · split at h
      · cases h
      · rename_i n hn
        split at h
        · cases h
        · rename_i hs
          split at h
          · cases h
          · injection h with h
            subst h
            unfold maxFutureSlots u64Max at hs
            exact ⟨n, hn, by simp only; omega⟩

theorem push_mem {h : History} {e : Ev} (hf : max h.maxSlot e.slot - e.slot < h.retain) :
    e ∈ (h.push e).events := by
  simp only [History.push, History.prune]
  have hM0 : 0 < historyMax := by unfold historyMax; omega
  generalize historyMax = M at *
  generalize hq : ({ h with maxSlot := max h.maxSlot e.slot, events := h.events ++ [e] } :
    History).stale = q
  have hqe : q e = false := by
    rw [← hq]
    unfold History.stale
    simp only [decide_eq_false_iff_not]
    omega
  have : ∀ l : List Ev, ∃ l', (l ++ [e]).dropWhile q = l' ++ [e] := by
    intro l
    induction l with
    | nil => exact ⟨[], by simp [hqe]⟩
    | cons x l ih =>
      rw [List.cons_append, List.dropWhile_cons]
      split
      · exact ih
      · exact ⟨x :: l, rfl⟩
  obtain ⟨l', hl⟩ := this h.events
  rw [hl, List.drop_append_of_le_length (by rw [List.length_append, List.length_singleton]; omega)]
  simp

theorem push_mark (h : History) (e : Ev) : (h.push e).maxSlot = max h.maxSlot e.slot := by
  unfold History.push History.prune; rfl

theorem push_retain (h : History) (e : Ev) : (h.push e).retain = h.retain := by
  unfold History.push History.prune; rfl

/-- No change of geometry. -/
def Steady (l : List Act) : Prop := ∀ a ∈ l, a ≠ .reset ∧ ∀ t, a ≠ .send t

/-- Nothing is more than eight slots ahead of the clock. -/
structure Timely (m : Mon) (t : Timing) (R : Nat) : Prop where
  timing : m.timing = t
  retain : m.history.retain = R
  mark : m.history.maxSlot = 0 ∨ ∃ n, t.slotAt m.clock = some n ∧ m.history.maxSlot ≤ n + 8
  flight : ∀ i e, m.flight i = some e → ∃ n, t.slotAt m.clock = some n ∧ e.slot ≤ n + 8

theorem timely_run {J : Type} {p : Parsers J} {m m' : Mon} {R : Nat} {l : List Act}
    (hq : Quiet m R) (h : Run p m l m') (hs : Steady l) : Timely m' m.timing R := by
  induction h with
  | nil => exact ⟨rfl, hq.retain, .inl hq.mark, fun i e he => by rw [hq.idle i] at he; cases he⟩
  | @step l m1 m2 a _ st ih =>
    have T := ih (fun a ha => hs a (List.mem_cons_of_mem _ ha))
    obtain ⟨h1, h2, h3, h4⟩ := T
    have up : ∀ {k : Nat} {b : Int}, m1.clock ≤ b → (∃ n, m.timing.slotAt m1.clock = some n ∧ k ≤ n + 8) →
        ∃ n, m.timing.slotAt b = some n ∧ k ≤ n + 8 := by
      rintro k b hb ⟨n, hn, hk⟩
      obtain ⟨n', hn', hle⟩ := slotAt_mono hb hn
      exact ⟨n', hn', by omega⟩
    cases st with
    | @frame i topic data arrival e idle later ok =>
      refine ⟨h1, h2, h3.imp_right (up later), ?_⟩
      intro j e' he
      simp only at he
      by_cases hj : j = i
      · subst hj
        rw [Function.update_self] at he
        injection he with he
        subst he
        rw [h1] at ok
        exact normalize_slot ok
      · rw [Function.update_of_ne hj] at he
        exact up later (h4 j e' he)
    | @publish i e has =>
      refine ⟨h1, by rw [← h2]; exact push_retain _ _, .inr ?_, ?_⟩
      · obtain ⟨n, hn, hle⟩ := h4 i e has
        refine ⟨n, hn, ?_⟩
        simp only [push_mark]
        rcases h3 with h3 | ⟨n', hn', h3⟩
        · omega
        · rw [hn] at hn'
          injection hn' with hn'
          omega
      · intro j e' he
        simp only at he
        by_cases hj : j = i
        · subst hj
          rw [Function.update_self] at he
          cases he
        · rw [Function.update_of_ne hj] at he
          exact h4 j e' he
    | reset => exact absurd rfl (hs _ List.mem_cons_self).1
    | @send t' ok => exact absurd rfl ((hs _ List.mem_cons_self).2 t')

/-- **C105, events of the moment.** While the geometry does not change, an event that was just published
is in the history if its slot is less than the configured number of slots, less eight, behind the clock.
The same holds after a change of geometry that happened while no event was under way (`quiet_change`).
Missing: an event under way during the change, where it is false (`C105_current_false`). -/
theorem C105_current_partial {J : Type} {p : Parsers J} {m m' : Mon} {R : Nat} {l : List Act} {i : Nat}
    {e : Ev} (hq : Quiet m R) (h : Run p m (.publish i e :: l) m') (hs : Steady l) {n : Nat}
    (hn : m.timing.slotAt m'.clock = some n) (he : n + 8 < e.slot + R) : e ∈ m'.history.events := by
  cases h with
  | @step _ m1 _ _ h1 st =>
    have T := timely_run hq h1 hs
    cases st with
    | publish has =>
      have hn : m.timing.slotAt m1.clock = some n := hn
      obtain ⟨n2, hn2, hle⟩ := T.flight i e has
      rw [hn] at hn2
      injection hn2 with hn2
      apply push_mem
      rw [T.retain]
      rcases T.mark with h3 | ⟨n', hn', h3⟩
      · omega
      · rw [hn] at hn'
        injection hn' with hn'
        omega

/-! ## A change of geometry -/

theorem stale_eq {h : History} {e : Ev} {x : List Ev} {k : Nat} :
    ({ h with maxSlot := k, events := x } : History).stale e = decide (k - e.slot ≥ h.retain) := rfl

/-- One event of the old chain that comes after the reset: the history is blank after 50001 more events. -/
theorem C105_blank {h : History} {o : Ev} (h0 : h.events = [o]) (hm : h.maxSlot = o.slot)
    (hr : 1 ≤ h.retain) {es : List Ev} (hes : ∀ e ∈ es, e.slot + h.retain ≤ o.slot) :
    (es.length > historyMax → (es.foldl History.push h).events = []) ∧
    (es.foldl History.push h).maxSlot = o.slot := by
  have key : (es.foldl History.push h).retain = h.retain ∧ (es.foldl History.push h).maxSlot = o.slot ∧
      (es.length < historyMax → (es.foldl History.push h).events = o :: es) ∧
      (es.length = historyMax → (es.foldl History.push h).events = es) ∧
      (es.length > historyMax → (es.foldl History.push h).events = []) := by
    have hM : 0 < historyMax := by unfold historyMax; omega
    induction es using List.reverseRecOn with
    | nil =>
      refine ⟨rfl, hm, fun _ => h0, fun h => ?_, fun h => ?_⟩ <;> simp only [List.length_nil] at h <;> omega
    | append_singleton es e ih =>
      obtain ⟨i1, i2, i3, i4, i5⟩ := ih (fun x hx => hes x (by simp [hx]))
      have he := hes e (by simp)
      rw [List.foldl_append, List.foldl_cons, List.foldl_nil]
      generalize es.foldl History.push h = h' at *
      have hmax : max h'.maxSlot e.slot = o.slot := by rw [i2]; omega
      refine ⟨by rw [push_retain, i1], by rw [push_mark, hmax], ?_⟩
      have he' : (h'.push e).events =
          ((h'.events ++ [e]).dropWhile (fun x => decide (o.slot - x.slot ≥ h.retain))).drop
            (((h'.events ++ [e]).dropWhile (fun x => decide (o.slot - x.slot ≥ h.retain))).length -
              historyMax) := by
        have : ({ h' with maxSlot := max h'.maxSlot e.slot, events := h'.events ++ [e] } : History).stale =
            (fun x => decide (o.slot - x.slot ≥ h.retain)) := by
          funext x
          rw [stale_eq, hmax, i1]
        simp only [History.push, History.prune]
        rw [this]
      have hst : ∀ x ∈ es ++ [e], decide (o.slot - x.slot ≥ h.retain) = true := by
        intro x hx
        have := hes x hx
        rw [decide_eq_true_eq]
        omega
      have hall : (es ++ [e]).dropWhile (fun x => decide (o.slot - x.slot ≥ h.retain)) = [] :=
        List.dropWhile_eq_nil_iff.2 hst
      have ho : decide (o.slot - o.slot ≥ h.retain) = false := by
        rw [decide_eq_false_iff_not]; omega
      rw [he', List.length_append, List.length_singleton]
      generalize historyMax = M at *
      refine ⟨fun hl => ?_, fun hl => ?_, fun hl => ?_⟩
      · rw [i3 (by omega), List.cons_append, List.dropWhile_cons_of_neg (by rw [ho]; simp),
          List.length_cons, List.length_append, List.length_singleton,
          show es.length + 1 + 1 - M = 0 by omega, List.drop_zero]
      · rw [i3 (by omega), List.cons_append, List.dropWhile_cons_of_neg (by rw [ho]; simp),
          List.length_cons, List.length_append, List.length_singleton,
          show es.length + 1 + 1 - M = 1 by omega, List.drop_one, List.tail_cons]
      · by_cases hc : es.length = M
        · rw [i4 hc, hall, List.drop_nil]
        · have := hst e (by simp)
          rw [i5 (by omega), List.nil_append]
          simp only [List.dropWhile_cons, this, if_true, List.dropWhile_nil, List.drop_nil]
  exact ⟨key.2.2.2.2, key.2.1⟩

/-- The claim of `run_refresher` (timing.rs 235-240): also after a change of geometry the history has the
events of the moment. `e` was stamped with the geometry of the end, and its slot is not behind the clock. -/
def ShownAfterChange : Prop :=
  ∀ (J : Type) (p : Parsers J) (t : Timing) (now : Int) (m : Mon) (i : Nat) (e : Ev) (l l' : List Act)
    (n : Nat), t.valid = true → Run p (Mon.start t 64 now) (.publish i e :: l ++ .frame i e :: l') m →
    Steady l → (l'.filter (fun a => decide (a = .reset))).length = 1 →
    m.timing.slotAt m.clock = some n → n ≤ e.slot → e ∈ m.history.events

namespace Example

def parsers : Parsers (Nat × Nat) := ⟨some, fun _ => none, fun _ => none, fun _ _ => 0⟩

/-- Genesis at 0 and at 4000 seconds. -/
def oldTiming : Timing := ⟨0, 4000, 5⟩
def newTiming : Timing := ⟨4000, 4000, 5⟩

/-- A block of slot 1000 of the old chain. -/
def oldBlock : Ev := ⟨0, .block, 1000, 4000000, 0, some 7, none, none⟩

/-- A block of slot 5 of the new chain. -/
def newBlock : Ev := ⟨1, .block, 5, 4020000, 0, some 8, none, none⟩

theorem run_change : ∃ m, Run parsers (Mon.start oldTiming 64 0)
    [.send newTiming, .publish 0 oldBlock, .reset, .frame 0 oldBlock] m ∧ m.timing = newTiming ∧
    m.clock = 4000000 ∧ m.history.events = [oldBlock] ∧ m.history.maxSlot = 1000 ∧
    m.history.retain = 64 ∧ m.flight = fun _ => none := by
  have s1 : Step parsers (Mon.start oldTiming 64 0) (.frame 0 oldBlock) _ :=
    .frame (topic := Node.Topic.name .block) (data := (1000, 7)) (arrival := 4000000) rfl (by decide)
      (by decide +kernel)
  have r1 := (Run.nil (p := parsers)).step s1
  have r2 := r1.step .reset
  have r3 := r2.step (.publish (i := 0) (e := oldBlock) (by decide +kernel))
  have r4 := r3.step (.send (t := newTiming) (by decide +kernel))
  refine ⟨_, r4, rfl, rfl, ?_, ?_, ?_, ?_⟩
  · show (History.push _ oldBlock).events = _
    decide +kernel
  · show (History.push _ oldBlock).maxSlot = _
    decide +kernel
  · show (History.push _ oldBlock).retain = _
    decide +kernel
  · funext i
    by_cases hi : i = 0
    · subst hi; decide +kernel
    · simp [Mon.start, Function.update_of_ne hi]

/-- The new chain's block, seen again and again. -/
def again : Nat → List Act
  | 0 => []
  | n + 1 => .publish 1 newBlock :: .frame 1 newBlock :: again n

theorem run_again {m : Mon} (ht : m.timing = newTiming) (hc : m.clock ≤ 4020000)
    (hf : m.flight = fun _ => none) (n : Nat) : ∃ m', Run parsers m (again n) m' ∧
      m'.timing = newTiming ∧ m'.clock ≤ 4020000 ∧ (m'.flight = fun _ => none) ∧
      m'.history = (List.replicate n newBlock).foldl History.push m.history := by
  induction n with
  | zero => exact ⟨m, .nil, ht, hc, hf, rfl⟩
  | succ n ih =>
    obtain ⟨m1, r, i1, i2, i3, i4⟩ := ih
    have s1 : Step parsers m1 (.frame 1 newBlock) _ :=
      .frame (topic := Node.Topic.name .block) (data := (5, 8)) (arrival := 4020000)
        (by rw [i3]) i2 (by rw [i1]; decide +kernel)
    have r2 := r.step s1
    have r3 := r2.step (.publish (i := 1) (e := newBlock) (by simp))
    refine ⟨_, r3, i1, Int.le_refl _, ?_, ?_⟩
    · funext i
      by_cases hi : i = 1
      · subst hi; simp
      · simp [Function.update_of_ne hi, i3]
    · simp only
      rw [i4, List.replicate_succ', List.foldl_append, List.foldl_cons, List.foldl_nil]

end Example

open Example in
/-- **C105, events of the moment, is false.** A collector that has read the old geometry publishes its event
between the reset of the history and the new geometry. This event of slot 1000 raises the watermark again;
from the 50001st event of the new chain on the history is empty. -/
theorem C105_current_false : ¬ ShownAfterChange := by
  intro h
  obtain ⟨m, r, h1, h2, h3, h4, h5, h6⟩ := run_change
  obtain ⟨m', r', i1, i2, i3, i4⟩ := run_again h1 (by rw [h2]; decide) h6 historyMax
  have s1 : Step parsers m' (.frame 1 newBlock) _ :=
    .frame (topic := Node.Topic.name .block) (data := (5, 8)) (arrival := 4020000)
      (by rw [i3]) i2 (by rw [i1]; decide +kernel)
  have hcomp : ∀ {l : List Act} {x : Mon}, Run parsers m l x → Run parsers (Mon.start oldTiming 64 0)
      (l ++ [.send newTiming, .publish 0 oldBlock, .reset, .frame 0 oldBlock]) x := by
    intro l x hx
    induction hx with
    | nil => exact r
    | step _ st ih => exact ih.step st
  have r2 := (hcomp (r'.step s1)).step (.publish (i := 1) (e := newBlock) (by simp))
  have hcount : ∀ n, ((again n ++ [Act.send newTiming, .publish 0 oldBlock, .reset, .frame 0 oldBlock]).filter
      (fun a => decide (a = .reset))).length = 1 := by
    intro n
    induction n with
    | zero => decide +kernel
    | succ n ih =>
      show ((Act.publish 1 newBlock :: .frame 1 newBlock :: (again n ++ _)).filter _).length = 1
      rw [List.filter_cons_of_neg (by decide), List.filter_cons_of_neg (by decide)]
      exact ih
  have hmem := h _ parsers oldTiming 0 _ 1 newBlock [] _ 5 (by decide +kernel) r2
    (fun a ha => by cases ha) (hcount historyMax) (by show Timing.slotAt m'.timing 4020000 = _; rw [i1]; decide +kernel)
    (by decide)
  have hb := (C105_blank (h := m.history) h3 h4 (by rw [h5]; decide)
    (es := List.replicate (historyMax + 1) newBlock) (fun e he => by
      rw [List.eq_of_mem_replicate he, h5]; decide)).1 (by rw [List.length_replicate]; omega)
  rw [List.replicate_succ', List.foldl_append, List.foldl_cons, List.foldl_nil, ← i4] at hb
  have hmem : newBlock ∈ (m'.history.push newBlock).events := hmem
  rw [hb] at hmem
  cases hmem

/-- Non-vacuity of the positive statements: a run of three events, all shown. -/
example : (after 64 [sampleBlock, sampleVote, sampleVote]).snapshot = [sampleBlock, sampleVote, sampleVote] := by
  decide +kernel

end Verif.Monitor
