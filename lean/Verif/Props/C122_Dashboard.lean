import Verif.Lemmas.Dashboard

/-
C122: a dashboard that opens shows every event, once.

The page opens the stream and asks for the history, so that the history covers what was before and the stream what comes
after.  Two races are left (findings F45 and F46): the page does not wait until the stream is open, and it stops looking
for doubles as soon as it has read the history.
-/

namespace Verif.Monitor

open Verif

/-- What is known of the order of the two requests. -/
theorem requests_order {n : Nat} : ∀ acts d, drun n acts = some d →
    (DAct.subscribe ∈ acts → d.queue.isSome = true) ∧ (d.loading = false → d.snap.isSome = true) ∧
    (d.queue = none → d.live = []) ∧ (StreamFirst acts → d.snap.isSome = true → d.queue.isSome = true) := by
  refine drun_induction ⟨(fun h => by cases h), (fun h => by cases h), (fun _ => rfl), fun _ h => by cases h⟩ ?_
  intro acts x d d' _ ⟨h1, h2, h3, h4⟩ ha
  rcases act_cases ha with ⟨i, m, h, s, rfl, -, rfl, -⟩ | ⟨i, m, rfl, -, rfl⟩ | ⟨rfl, rfl⟩ | ⟨rfl, hq, rfl⟩ |
    ⟨rfl, hs, rfl⟩ | ⟨y, l, rfl, hq, rfl⟩ | ⟨l, st, rfl, hs, -, rfl⟩
  · exact ⟨fun h => h1 (by simpa using h), h2, h3, fun hf => h4 hf.prefix⟩
  · obtain ⟨-, -, -, f4, f5, -, f7, -, -, f10, -⟩ :=
      push_fields { d with flight := Function.update d.flight i none } (i, m)
    rw [f4, f5, f10, f7]
    refine ⟨fun h => h1 (by simpa using h), h2, fun hq => h3 ?_, fun hf => h4 hf.prefix⟩
    rw [← Option.isNone_iff_eq_none] at hq ⊢
    rw [← Option.not_isSome, f10] at hq
    simpa using hq
  · exact ⟨fun h => h1 (by simpa using h), h2, h3, fun hf => h4 hf.prefix⟩
  · exact ⟨fun _ => rfl, h2, (fun h => by cases h), fun _ _ => rfl⟩
  · refine ⟨fun h => h1 (by simpa using h), fun _ => rfl, h3, fun hf _ => h1 (hf acts [] rfl)⟩
  · obtain ⟨-, -, -, f4, f5, f6, -⟩ := receive_fields { d with queue := some l } y
    rw [f4, f5, f6]
    exact ⟨fun _ => rfl, h2, (fun h => by cases h), fun _ _ => rfl⟩
  · exact ⟨fun h => h1 (by simpa using h), fun _ => by show d.snap.isSome = true; rw [hs]; rfl, h3,
      fun hf => h4 hf.prefix⟩

/-- What the page holds while it is loading and after. -/
theorem loading_inv {n : Nat} : ∀ acts d, drun n acts = some d →
    (d.loading = true → d.shown = [] ∧ ∀ i, i ∉ d.live → d.chips i = none) ∧
    (d.loading = false → d.buffer = []) := by
  refine drun_induction ⟨fun _ => ⟨rfl, fun _ _ => rfl⟩, fun h => by cases h⟩ ?_
  intro acts x d d' _ ⟨h1, h2⟩ ha
  rcases act_cases ha with ⟨i, m, h, s, rfl, -, rfl, -⟩ | ⟨i, m, rfl, -, rfl⟩ | ⟨rfl, rfl⟩ | ⟨rfl, hq, rfl⟩ |
    ⟨rfl, hs, rfl⟩ | ⟨y, l, rfl, hq, rfl⟩ | ⟨l, st, rfl, hs, -, rfl⟩
  · exact ⟨h1, h2⟩
  · obtain ⟨-, -, -, -, f5, f6, f7, f8, f9, -⟩ :=
      push_fields { d with flight := Function.update d.flight i none } (i, m)
    rw [f5, f6, f7, f8, f9]
    exact ⟨h1, h2⟩
  · exact ⟨h1, h2⟩
  · exact ⟨h1, h2⟩
  · exact ⟨h1, h2⟩
  · obtain ⟨i, m⟩ := y
    cases m with
    | chain e =>
      unfold Desk.receive
      dsimp only
      split
      · rename_i hld
        exact ⟨h1, fun h => by rw [show d.loading = false from h] at hld; cases hld⟩
      · rename_i hld
        exact ⟨fun h => absurd h hld, h2⟩
    | status t =>
      refine ⟨fun hld => ⟨(h1 hld).1, fun j hj => ?_⟩, h2⟩
      replace hld : d.loading = true := hld
      have hj' : j ∉ i :: d.live := by
        have : j ∉ (if d.loading then i :: d.live else d.live) := hj
        rwa [if_pos hld] at this
      show Function.update d.chips i (some t) j = none
      rw [Function.update_of_ne (fun he => hj' (by rw [he]; exact List.mem_cons_self ..))]
      exact (h1 hld).2 j (fun hm => hj' (List.mem_cons_of_mem _ hm))
  · exact ⟨(fun h => by cases h), fun _ => rfl⟩

/-- The page shows an event with the same key. -/
def Desk.Keyed (d : Desk) (e : Ev) : Prop := ∃ e' ∈ d.shown, e'.key = e.key

/-- Where a published event can be. -/
def Where (n : Nat) (acts : List DAct) (d : Desk) (e : Ev) : Prop :=
  d.snap = none ∨ (∃ i, d.flight i = some (.chain e)) ∨ (∃ q i, d.queue = some q ∧ (i, Msg.chain e) ∈ q) ∨
  (d.loading = true ∧ (e ∈ d.buffer ∨ ∃ l st, d.snap = some (l, st) ∧ e ∈ l)) ∨ d.Keyed e ∨ Omitted n acts e

theorem where_inv {n : Nat} : ∀ acts d, drun n acts = some d →
    StreamFirst acts → d.lagged = false → ∀ e ∈ published acts, Where n acts d e := by
  refine drun_induction (fun _ _ e h => by cases h) ?_
  intro acts x d d' hrun ih ha hf hl e he
  obtain ⟨o1, o2, o3, o4⟩ := requests_order acts d hrun
  rw [published_snoc] at he
  rcases act_cases ha with ⟨i, m, h, s, rfl, hfl, rfl, -⟩ | ⟨i, m, rfl, hfl, rfl⟩ | ⟨rfl, rfl⟩ | ⟨rfl, hq, rfl⟩ |
    ⟨rfl, hs, rfl⟩ | ⟨y, l, rfl, hq, rfl⟩ | ⟨l, st, rfl, hs, hld, rfl⟩
  · rcases List.mem_append.1 he with he | he
    · rcases ih hf.prefix hl e he with w | ⟨j, w⟩ | w | w | w | w
      · exact .inl w
      · refine .inr (.inl ⟨j, ?_⟩)
        show Function.update d.flight i (some m) j = _
        rw [Function.update_of_ne (by rintro rfl; rw [hfl] at w; cases w)]
        exact w
      · exact .inr (.inr (.inl w))
      · exact .inr (.inr (.inr (.inl w)))
      · exact .inr (.inr (.inr (.inr (.inl w))))
      · exact .inr (.inr (.inr (.inr (.inr w.snoc))))
    · cases m with
      | status t => cases he
      | chain e' =>
        rw [List.mem_singleton.1 he]
        exact .inr (.inl ⟨i, Function.update_self ..⟩)
  · have he : e ∈ published acts := by simpa [DAct.event] using he
    obtain ⟨-, -, f3, f4, f5, f6, -, f8, -, -, f11⟩ :=
      push_fields { d with flight := Function.update d.flight i none } (i, m)
    obtain ⟨hl0, hq⟩ := f11 hl
    unfold Where
    unfold Desk.Keyed
    rw [f3, f4, f5, f6, f8, hq]
    rcases ih hf.prefix hl0 e he with w | ⟨j, w⟩ | ⟨q, j, w1, w2⟩ | w | w | w
    · exact .inl w
    · by_cases hj : j = i
      · subst hj
        rw [hfl] at w
        cases w
        by_cases hsn : d.snap.isSome = true
        · obtain ⟨q, hq'⟩ := Option.isSome_iff_exists.1 (o4 hf.prefix hsn)
          refine .inr (.inr (.inl ⟨q ++ [(j, .chain e)], j, ?_, by simp⟩))
          show Option.map _ d.queue = _
          rw [hq']; rfl
        · exact .inl (by simpa using hsn)
      · refine .inr (.inl ⟨j, ?_⟩)
        show Function.update d.flight i none j = _
        rw [Function.update_of_ne hj]
        exact w
    · refine .inr (.inr (.inl ⟨q ++ [(i, m)], j, ?_, List.mem_append_left _ w2⟩))
      show Option.map _ d.queue = _
      rw [w1]; rfl
    · exact .inr (.inr (.inr (.inl w)))
    · exact .inr (.inr (.inr (.inr (.inl w))))
    · exact .inr (.inr (.inr (.inr (.inr w.snoc))))
  · have he : e ∈ published acts := by simpa [DAct.event] using he
    rcases ih hf.prefix hl e he with w | w | w | w | w | w
    · exact .inl w
    · exact .inr (.inl w)
    · exact .inr (.inr (.inl w))
    · exact .inr (.inr (.inr (.inl w)))
    · exact .inr (.inr (.inr (.inr (.inl w))))
    · exact .inr (.inr (.inr (.inr (.inr w.snoc))))
  · refine .inl ?_
    show d.snap = none
    by_contra hsn
    have := o4 hf.prefix (by rw [Option.isSome_iff_ne_none]; exact hsn)
    rw [hq] at this
    cases this
  · have he : e ∈ published acts := by simpa [DAct.event] using he
    have hld : d.loading = true := by
      cases hb : d.loading with
      | true => rfl
      | false => have := o2 hb; rw [hs] at this; cases this
    by_cases hm : e ∈ d.history.snapshot
    · exact .inr (.inr (.inr (.inl ⟨hld, .inr ⟨_, _, rfl, hm⟩⟩)))
    · exact .inr (.inr (.inr (.inr (.inr ⟨acts, [], d, rfl, hrun, he, hm⟩))))
  · have he : e ∈ published acts := by simpa [DAct.event] using he
    obtain ⟨-, -, f3, f4, f5, f6, f7⟩ := receive_fields { d with queue := some l } y
    rw [f7] at hl
    have hshow : ∀ e0, d.Keyed e0 → (Desk.receive { d with queue := some l } y).Keyed e0 := by
      intro e0 ⟨e', h1, h2⟩
      obtain ⟨j, m⟩ := y
      refine ⟨e', ?_, h2⟩
      cases m with
      | chain c =>
        unfold Desk.receive
        dsimp only
        split
        · exact h1
        · exact List.mem_append_left _ h1
      | status t => exact h1
    have hbuf : d.loading = true → ∀ e0 ∈ d.buffer, e0 ∈ (Desk.receive { d with queue := some l } y).buffer := by
      intro hld e0 h1
      obtain ⟨j, m⟩ := y
      cases m with
      | chain c =>
        unfold Desk.receive
        dsimp only
        rw [if_pos hld]
        exact List.mem_append_left _ h1
      | status t => exact h1
    rcases ih hf.prefix hl e he with w | w | ⟨q, j, w1, w2⟩ | ⟨w1, w⟩ | w | w
    · exact .inl (by rw [f4]; exact w)
    · exact .inr (.inl (by rw [f3]; exact w))
    · rw [hq] at w1
      cases w1
      rcases List.mem_cons.1 w2 with rfl | w2
      · by_cases hld : d.loading = true
        · refine .inr (.inr (.inr (.inl ⟨by rw [f5]; exact hld, .inl ?_⟩)))
          unfold Desk.receive
          dsimp only
          rw [if_pos hld]
          simp
        · refine .inr (.inr (.inr (.inr (.inl ⟨e, ?_, rfl⟩))))
          unfold Desk.receive
          dsimp only
          rw [if_neg hld]
          simp
      · exact .inr (.inr (.inl ⟨l, j, f6, w2⟩))
    · refine .inr (.inr (.inr (.inl ⟨by rw [f5]; exact w1, ?_⟩)))
      rcases w with w | w
      · exact .inl (hbuf w1 e w)
      · exact .inr (by rw [f4]; exact w)
    · exact .inr (.inr (.inr (.inr (.inl (hshow e w)))))
    · exact .inr (.inr (.inr (.inr (.inr w.snoc))))
  · have he : e ∈ published acts := by simpa [DAct.event] using he
    rcases ih hf.prefix hl e he with w | w | w | ⟨w1, w⟩ | w | w
    · exact .inl w
    · exact .inr (.inl w)
    · exact .inr (.inr (.inl w))
    · refine .inr (.inr (.inr (.inr (.inl ?_))))
      rcases w with w | ⟨l', st', w2, w3⟩
      · exact ingestAll_covers _ _ e w
      · rw [hs] at w2
        cases w2
        obtain ⟨e', h1, h2⟩ := ingestAll_covers l [] e w3
        exact ⟨e', ingestAll_keeps _ _ e' h1, h2⟩
    · obtain ⟨e', h1, -⟩ := w
      rw [((loading_inv acts d hrun).1 hld).1] at h1
      cases h1
    · exact .inr (.inr (.inr (.inr (.inr w.snoc))))

/-- **C122, every event.** If the server handles the stream request before the history request and the page does not
lag, then, once everything has arrived, the page shows every event ever published, except those that the history did
not hold any more when it was asked for.  Full statement: the same without a condition on the order of the two
requests; it is false, see `C122_complete_false`. -/
theorem C122_complete_partial {n : Nat} {acts : List DAct} {d : Desk} (h : drun n acts = some d)
    (hf : StreamFirst acts) (hl : d.lagged = false) (hs : d.Settled) :
    ∀ e ∈ published acts, d.Shows e ∨ Omitted n acts e := by
  intro e he
  rcases where_inv acts d h hf hl e he with w | ⟨i, w⟩ | ⟨q, i, w1, w2⟩ | ⟨w, -⟩ | w | w
  · have := (requests_order acts d h).2.1 hs.loaded
    rw [w] at this
    cases this
  · rw [hs.sent i] at w; cases w
  · rw [hs.received] at w1
    cases w1
    cases w2
  · rw [hs.loaded] at w; cases w
  · obtain ⟨e', h1, h2⟩ := w
    exact .inl ⟨e', h1, (key_iff e' e).1 h2⟩
  · exact .inr w

/-! ### Nothing else is shown -/

/-- The events in the queue of the stream. -/
def chains (q : Option (List (Nat × Msg))) : List Ev :=
  (q.getD []).filterMap (fun x => match x.2 with | .chain e => some e | .status _ => none)

theorem mem_chains {q : Option (List (Nat × Msg))} {e : Ev} :
    e ∈ chains q ↔ ∃ l i, q = some l ∧ (i, Msg.chain e) ∈ l := by
  unfold chains
  rw [List.mem_filterMap]
  constructor
  · rintro ⟨⟨i, m⟩, h1, h2⟩
    cases m with
    | chain c =>
      cases h2
      cases q with
      | none => cases h1
      | some l => exact ⟨l, i, rfl, h1⟩
    | status t => cases h2
  · rintro ⟨l, i, rfl, h⟩
    exact ⟨(i, .chain e), h, rfl⟩

/-- The event of a message. -/
def Msg.events : Msg → List Ev
  | .chain e => [e]
  | .status _ => []

theorem push_chains (d : Desk) (i : Nat) (m : Msg) :
    (chains (d.push (i, m)).queue).Sublist
      (chains d.queue ++ m.events) := by
  unfold Desk.push
  split
  · rename_i h
    rw [h]
    exact List.nil_sublist _
  · rename_i l h
    rw [h]
    have e1 : chains (some (l ++ [(i, m)])) = chains (some l) ++ m.events := by
      unfold chains
      rw [Option.getD_some, Option.getD_some, List.filterMap_append]
      cases m <;> rfl
    split
    · rw [← e1]
    · rw [← e1]
      exact List.Sublist.filterMap _ ((List.tail_sublist l).append_right _)

theorem keep_sub : ∀ (l : List Ev) (kept : Nat × Node.Topic → Nat), ∀ e ∈ keep kept l, e ∈ l
  | [], _, _, h => h
  | a :: l, kept, e, h => by
    unfold keep at h
    split at h
    · exact List.mem_cons_of_mem _ (keep_sub l _ e h)
    · rcases List.mem_cons.1 h with rfl | h
      · exact List.mem_cons_self ..
      · exact List.mem_cons_of_mem _ (keep_sub l _ e h)

theorem snapshot_sub (h : History) (e : Ev) (he : e ∈ h.snapshot) : e ∈ h.events := by
  unfold History.snapshot at he
  rw [List.mem_reverse] at he
  exact List.mem_reverse.1 (keep_sub _ _ e he)

theorem push_sub (h : History) (e e' : Ev) (he : e' ∈ (h.push e).events) : e' ∈ h.events ∨ e' = e := by
  simp only [History.push, History.prune] at he
  have h0 := (List.dropWhile_sublist _).subset (List.mem_of_mem_drop he)
  rcases List.mem_append.1 h0 with h1 | h1
  · exact .inl h1
  · exact .inr (List.mem_singleton.1 h1)

/-- Everything that is anywhere was published. -/
structure Genuine (acts : List DAct) (d : Desk) : Prop where
  history : ∀ e ∈ d.history.events, e ∈ published acts
  flight : ∀ i e, d.flight i = some (.chain e) → e ∈ published acts
  queue : ∀ e ∈ chains d.queue, e ∈ published acts
  snap : ∀ l st, d.snap = some (l, st) → ∀ e ∈ l, e ∈ published acts
  buffer : ∀ e ∈ d.buffer, e ∈ published acts
  shown : ∀ e ∈ d.shown, e ∈ published acts

theorem genuine {n : Nat} : ∀ acts d, drun n acts = some d → Genuine acts d := by
  refine drun_induction ⟨?_, ?_, ?_, ?_, ?_, ?_⟩ ?_
  · intro e h; cases h
  · intro i e h; cases h
  · intro e h; cases h
  · intro l st h; cases h
  · intro e h; cases h
  · intro e h; cases h
  intro acts x d d' _ g ha
  have up : ∀ e ∈ published acts, e ∈ published (acts ++ [x]) := fun e h => by
    rw [published_snoc]; exact List.mem_append_left _ h
  rcases act_cases ha with ⟨i, m, h, s, rfl, -, rfl, hc, ht⟩ | ⟨i, m, rfl, hfl, rfl⟩ | ⟨rfl, rfl⟩ | ⟨rfl, hq, rfl⟩ |
    ⟨rfl, hs, rfl⟩ | ⟨y, l, rfl, hq, rfl⟩ | ⟨l, st, rfl, hs, -, rfl⟩
  · refine ⟨fun e he => ?_, fun j e he => ?_, fun e he => up e (g.queue e he),
      fun l st hs e he => up e (g.snap l st hs e he), fun e he => up e (g.buffer e he),
      fun e he => up e (g.shown e he)⟩
    · replace he : e ∈ h.events := he
      cases m with
      | chain c =>
        rw [(hc c rfl).1] at he
        rcases push_sub _ _ _ he with he | rfl
        · exact up e (g.history e he)
        · rw [published_snoc]; exact List.mem_append_right _ (by simp [DAct.event])
      | status t =>
        rw [(ht t rfl).1] at he
        exact up e (g.history e he)
    · replace he : Function.update d.flight i (some m) j = some (.chain e) := he
      by_cases hj : j = i
      · subst hj
        rw [Function.update_self] at he
        cases he
        rw [published_snoc]; exact List.mem_append_right _ (by simp [DAct.event])
      · rw [Function.update_of_ne hj] at he
        exact up e (g.flight j e he)
  · obtain ⟨f1, -, f3, f4, -, f6, -, f8, -⟩ :=
      push_fields { d with flight := Function.update d.flight i none } (i, m)
    refine ⟨by rw [f1]; exact fun e he => up e (g.history e he), ?_, ?_,
      by rw [f4]; exact fun l st hs e he => up e (g.snap l st hs e he),
      by rw [f6]; exact fun e he => up e (g.buffer e he), by rw [f8]; exact fun e he => up e (g.shown e he)⟩
    · rw [f3]
      intro j e he
      replace he : Function.update d.flight i none j = some (.chain e) := he
      by_cases hj : j = i
      · subst hj
        rw [Function.update_self] at he
        cases he
      · rw [Function.update_of_ne hj] at he
        exact up e (g.flight j e he)
    · intro e he
      rcases List.mem_append.1 ((push_chains _ i m).subset he) with he | he
      · exact up e (g.queue e he)
      · cases m with
        | chain c => rw [List.mem_singleton.1 he]; exact up c (g.flight i c hfl)
        | status t => cases he
  · exact ⟨(fun e he => by cases he), fun j e he => up e (g.flight j e he), fun e he => up e (g.queue e he),
      fun l st hs e he => up e (g.snap l st hs e he), fun e he => up e (g.buffer e he),
      fun e he => up e (g.shown e he)⟩
  · exact ⟨fun e he => up e (g.history e he), fun j e he => up e (g.flight j e he), (fun e he => by cases he),
      fun l st hs e he => up e (g.snap l st hs e he), fun e he => up e (g.buffer e he),
      fun e he => up e (g.shown e he)⟩
  · refine ⟨fun e he => up e (g.history e he), fun j e he => up e (g.flight j e he), fun e he => up e (g.queue e he),
      fun l st hs e he => ?_, fun e he => up e (g.buffer e he), fun e he => up e (g.shown e he)⟩
    cases hs
    exact up e (g.history e (snapshot_sub _ e he))
  · obtain ⟨f1, -, f3, f4, -, f6, -⟩ := receive_fields { d with queue := some l } y
    have hy : ∀ e, y.2 = .chain e → e ∈ published acts := by
      intro e he
      exact g.queue e (mem_chains.2 ⟨_, y.1, hq, by rw [← he]; exact List.mem_cons_self ..⟩)
    refine ⟨by rw [f1]; exact fun e he => up e (g.history e he), by rw [f3]; exact fun j e he => up e (g.flight j e he),
      ?_, by rw [f4]; exact fun l st hs e he => up e (g.snap l st hs e he), ?_, ?_⟩
    · rw [f6]
      intro e he
      obtain ⟨l', i, h1, h2⟩ := mem_chains.1 he
      cases h1
      exact up e (g.queue e (mem_chains.2 ⟨_, i, hq, List.mem_cons_of_mem _ h2⟩))
    · intro e he
      obtain ⟨i, m⟩ := y
      cases m with
      | chain c =>
        unfold Desk.receive at he
        dsimp only at he
        split at he
        · rcases List.mem_append.1 he with he | he
          · exact up e (g.buffer e he)
          · rw [List.mem_singleton.1 he]; exact up c (hy c rfl)
        · exact up e (g.buffer e he)
      | status t => exact up e (g.buffer e he)
    · intro e he
      obtain ⟨i, m⟩ := y
      cases m with
      | chain c =>
        unfold Desk.receive at he
        dsimp only at he
        split at he
        · exact up e (g.shown e he)
        · rcases List.mem_append.1 he with he | he
          · exact up e (g.shown e he)
          · rw [List.mem_singleton.1 he]; exact up c (hy c rfl)
      | status t => exact up e (g.shown e he)
  · refine ⟨fun e he => up e (g.history e he), fun j e he => up e (g.flight j e he), fun e he => up e (g.queue e he),
      fun l st hs e he => up e (g.snap l st hs e he), (fun e he => by cases he), fun e he => ?_⟩
    rcases ingestAll_sub _ _ e he with he | he
    · rcases ingestAll_sub _ _ e he with he | he
      · cases he
      · exact up e (g.snap l st hs e he)
    · exact up e (g.buffer e he)

/-- **C122, nothing made up.** The page only shows events that were published. -/
theorem C122_genuine {n : Nat} {acts : List DAct} {d : Desk} (h : drun n acts = some d) :
    ∀ e ∈ d.shown, e ∈ published acts := (genuine acts d h).shown

/-! ### Once -/

/-- No event is in two places from which it could still be shown. -/
structure Apart (d : Desk) : Prop where
  once : ((d.shown ++ d.buffer ++ chains d.queue).map Ev.key).Nodup
  away : ∀ i e, d.flight i = some (.chain e) → e.key ∉ (d.shown ++ d.buffer ++ chains d.queue).map Ev.key
  flights : ∀ i j e e', d.flight i = some (.chain e) → d.flight j = some (.chain e') → e.key = e'.key → i = j

theorem apart {n : Nat} : ∀ acts d, drun n acts = some d → ((published acts).map Ev.key).Nodup →
    (∀ pre post d0, acts = pre ++ DAct.seed :: post → drun n pre = some d0 → d0.CaughtUp) → Apart d := by
  refine drun_induction (fun _ _ => ⟨List.nodup_nil, (fun i e h => by cases h), fun i j e e' h => by cases h⟩) ?_
  intro acts x d d' hrun ih ha hn hcu
  have g := genuine acts d hrun
  have hn' : ((published acts).map Ev.key).Nodup := by
    rw [published_snoc, List.map_append] at hn
    exact (List.nodup_append.1 hn).1
  have I := ih hn' (fun pre post d0 he hd => hcu pre (post ++ [x]) d0 (by rw [he]; simp) hd)
  have old : ∀ e ∈ d.shown ++ d.buffer ++ chains d.queue, e ∈ published acts := by
    intro e he
    rcases List.mem_append.1 he with he | he
    · rcases List.mem_append.1 he with he | he
      · exact g.shown e he
      · exact g.buffer e he
    · exact g.queue e he
  rcases act_cases ha with ⟨i, m, h, s, rfl, hfl, rfl, -, -⟩ | ⟨i, m, rfl, hfl, rfl⟩ | ⟨rfl, rfl⟩ | ⟨rfl, hq, rfl⟩ |
    ⟨rfl, hs, rfl⟩ | ⟨y, l, rfl, hq, rfl⟩ | ⟨l, st, rfl, hs, hld, rfl⟩
  · have fresh : ∀ e, m = .chain e → e.key ∉ (published acts).map Ev.key := by
      rintro e rfl hm
      rw [published_snoc, List.map_append] at hn
      exact (List.nodup_append.1 hn).2.2 _ hm _ (by simp [DAct.event]) rfl
    refine ⟨I.once, fun j e he hm => ?_, fun j k e e' hj hk hkey => ?_⟩
    · replace he : Function.update d.flight i (some m) j = some (.chain e) := he
      by_cases hji : j = i
      · subst hji
        rw [Function.update_self] at he
        cases he
        obtain ⟨e', h1, h2⟩ := List.mem_map.1 hm
        exact fresh e rfl (by rw [← h2]; exact List.mem_map_of_mem (old e' h1))
      · rw [Function.update_of_ne hji] at he
        exact I.away j e he hm
    · replace hj : Function.update d.flight i (some m) j = some (.chain e) := hj
      replace hk : Function.update d.flight i (some m) k = some (.chain e') := hk
      by_cases hji : j = i
      · by_cases hki : k = i
        · rw [hji, hki]
        · exfalso
          rw [hji, Function.update_self] at hj
          rw [Function.update_of_ne hki] at hk
          cases hj
          exact fresh e rfl (by rw [hkey]; exact List.mem_map_of_mem (g.flight k e' hk))
      · by_cases hki : k = i
        · exfalso
          rw [hki, Function.update_self] at hk
          rw [Function.update_of_ne hji] at hj
          cases hk
          exact fresh e' rfl (by rw [← hkey]; exact List.mem_map_of_mem (g.flight j e hj))
        · rw [Function.update_of_ne hji] at hj
          rw [Function.update_of_ne hki] at hk
          exact I.flights j k e e' hj hk hkey
  · obtain ⟨-, -, f3, -, -, f6, -, f8, -⟩ :=
      push_fields { d with flight := Function.update d.flight i none } (i, m)
    have hsub := push_chains { d with flight := Function.update d.flight i none } i m
    have hsub2 : ((d.shown ++ d.buffer ++
        chains (Desk.push { d with flight := Function.update d.flight i none } (i, m)).queue).map Ev.key).Sublist
        ((d.shown ++ d.buffer ++ chains d.queue ++ m.events).map Ev.key) := by
      rw [List.append_assoc (d.shown ++ d.buffer)]
      exact List.Sublist.map _ (hsub.append_left _)
    have hfl' : ∀ j e, Function.update d.flight i none j = some (.chain e) → j ≠ i ∧ d.flight j = some (.chain e) := by
      intro j e he
      by_cases hj : j = i
      · subst hj; rw [Function.update_self] at he; cases he
      · rw [Function.update_of_ne hj] at he; exact ⟨hj, he⟩
    refine ⟨?_, ?_, ?_⟩
    · rw [f8, f6]
      refine List.Nodup.sublist hsub2 ?_
      cases m with
      | status t => simpa [Msg.events] using I.once
      | chain c =>
        rw [List.map_append, List.nodup_append]
        refine ⟨I.once, by simp [Msg.events], fun a h1 b h2 hab => ?_⟩
        have : b = c.key := by simpa [Msg.events] using h2
        exact I.away i c hfl (by rw [← this, ← hab]; exact h1)
    · rw [f3, f8, f6]
      intro j e he hm
      obtain ⟨h1, h2⟩ := hfl' j e he
      have := hsub2.subset hm
      rw [List.map_append] at this
      rcases List.mem_append.1 this with h3 | h3
      · exact I.away j e h2 h3
      · cases m with
        | status t => cases h3
        | chain c => exact h1 (I.flights j i e c h2 hfl (by simpa [Msg.events] using h3))
    · rw [f3]
      intro j k e e' hj hk
      exact I.flights j k e e' (hfl' j e hj).2 (hfl' k e' hk).2
  · exact ⟨I.once, I.away, I.flights⟩
  · have hc : chains d.queue = [] := by rw [hq]; rfl
    refine ⟨?_, ?_, I.flights⟩
    · have := I.once
      rw [hc] at this
      exact this
    · have := I.away
      rw [hc] at this
      exact this
  · exact ⟨I.once, I.away, I.flights⟩
  · obtain ⟨i, m⟩ := y
    have same : ∀ d1 : Desk, d1.flight = d.flight →
        d1.shown ++ d1.buffer ++ chains d1.queue = d.shown ++ d.buffer ++ chains d.queue → Apart d1 := by
      intro d1 e1 e2
      refine ⟨?_, ?_, ?_⟩
      · rw [e2]; exact I.once
      · rw [e1, e2]; exact I.away
      · rw [e1]; exact I.flights
    cases m with
    | status t =>
      refine same _ rfl ?_
      show d.shown ++ d.buffer ++ chains (some l) = _
      rw [hq]; rfl
    | chain c =>
      have hc : chains d.queue = c :: chains (some l) := by rw [hq]; rfl
      unfold Desk.receive
      dsimp only
      split
      · refine same _ rfl ?_
        show d.shown ++ (d.buffer ++ [c]) ++ chains (some l) = _
        rw [hc]; simp
      · rename_i hld
        refine same _ rfl ?_
        show d.shown ++ [c] ++ d.buffer ++ chains (some l) = _
        rw [hc, (loading_inv acts d hrun).2 (by simpa using hld)]; simp
  · have cu := hcu acts [] d rfl hrun l st hs
    have hsh : d.shown = [] := ((loading_inv acts d hrun).1 hld).1
    have src : ∀ k ∈ (ingestAll (ingestAll [] l) d.buffer).map Ev.key,
        (∃ e ∈ l, e.key = k) ∨ k ∈ d.buffer.map Ev.key := by
      intro k hk
      obtain ⟨e, h1, h2⟩ := List.mem_map.1 hk
      rcases ingestAll_sub _ _ e h1 with h3 | h3
      · rcases ingestAll_sub _ _ e h3 with h4 | h4
        · cases h4
        · exact .inl ⟨e, h4, h2⟩
      · exact .inr (by rw [← h2]; exact List.mem_map_of_mem h3)
    have honce := I.once
    rw [hsh, List.nil_append, List.map_append, List.nodup_append] at honce
    refine ⟨?_, fun i e he hm => ?_, I.flights⟩
    · show ((ingestAll (ingestAll [] l) d.buffer ++ [] ++ chains d.queue).map Ev.key).Nodup
      rw [List.append_nil, List.map_append, List.nodup_append]
      refine ⟨ingestAll_nodup _ _ (ingestAll_nodup _ _ List.nodup_nil), honce.2.1, fun a h1 b h2 hab => ?_⟩
      rcases src a h1 with ⟨e, h3, h4⟩ | h3
      · obtain ⟨e', h5, h6⟩ := List.mem_map.1 h2
        obtain ⟨q, i, h7, h8⟩ := mem_chains.1 h5
        exact (cu e h3).2 q h7 i e' h8 ((key_iff _ _).1 (by rw [h6, h4, hab]))
      · exact honce.2.2 a h3 b h2 hab
    · replace hm : e.key ∈ (ingestAll (ingestAll [] l) d.buffer ++ [] ++ chains d.queue).map Ev.key := hm
      rw [List.append_nil, List.map_append] at hm
      have aw := I.away i e he
      rw [hsh, List.nil_append, List.map_append, List.mem_append, not_or] at aw
      rcases List.mem_append.1 hm with h1 | h1
      · rcases src _ h1 with ⟨e', h3, h4⟩ | h3
        · exact (cu e' h3).1 i e he ((key_iff _ _).1 h4.symm)
        · exact aw.1 h3
      · exact aw.2 h1

/-- **C122, once.** If nothing that is in the history is still to arrive over the stream when the page reads the
history, then the page shows no event twice.  Full statement: the same
without that condition; it is false, see `C122_once_false`. -/
theorem C122_once_partial {n : Nat} {acts : List DAct} {d : Desk} (h : drun n acts = some d)
    (hk : Distinct (published acts))
    (hc : ∀ pre post d0, acts = pre ++ DAct.seed :: post → drun n pre = some d0 → d0.CaughtUp) :
    Distinct d.shown := by
  rw [distinct_iff] at hk ⊢
  have := (apart acts d h hk hc).once
  rw [List.append_assoc, List.map_append, List.nodup_append] at this
  exact this.1

/-! ### Statuses -/

/-- The statuses of a node in the queue of the stream. -/
def statuses (i : Nat) (q : Option (List (Nat × Msg))) : List NodeState :=
  (q.getD []).filterMap (fun x => match x.2 with | .status s => if x.1 = i then some s else none | .chain _ => none)

/-- The status that a collector has recorded and not sent. -/
def unsent : Option Msg → List NodeState
  | some (.status s) => [s]
  | _ => []

/-- The status of a node as the page would show it if it read the history now. -/
def Desk.cur (d : Desk) (i : Nat) : Option NodeState :=
  if d.loading = true ∧ i ∉ d.live then (d.snap.map (fun y => y.2 i)).getD (d.status i) else d.chips i

/-- and after everything under way. -/
def Desk.last (d : Desk) (i : Nat) : Option NodeState :=
  (statuses i d.queue ++ unsent (d.flight i)).getLast?.or (d.cur i)

theorem statuses_snoc (i j : Nat) (m : Msg) (l : List (Nat × Msg)) :
    statuses i (some (l ++ [(j, m)])) = statuses i (some l) ++ (if j = i then unsent (some m) else []) := by
  unfold statuses
  rw [Option.getD_some, Option.getD_some, List.filterMap_append]
  congr 1
  cases m with
  | chain e => simp [unsent]
  | status s => by_cases h : j = i <;> simp [h, unsent]

theorem status_inv {n : Nat} : ∀ acts d, drun n acts = some d → StreamFirst acts → d.lagged = false →
    (∀ i s, d.flight i = some (.status s) → d.status i = some s) ∧
    (d.queue.isSome = true → ∀ i, d.last i = d.status i) := by
  refine drun_induction (fun _ _ => ⟨(fun i s h => by cases h), fun h => by cases h⟩) ?_
  intro acts x d d' hrun ih ha hf hl
  obtain ⟨o1, o2, o3, o4⟩ := requests_order acts d hrun
  have hsl : d.loading = false → d.snap ≠ none := fun h hn => by
    have := o2 h
    rw [hn] at this
    cases this
  rcases act_cases ha with ⟨i, m, h, s, rfl, hfl, rfl, hc, ht⟩ | ⟨i, m, rfl, hfl, rfl⟩ | ⟨rfl, rfl⟩ | ⟨rfl, hq, rfl⟩ |
    ⟨rfl, hs, rfl⟩ | ⟨y, l, rfl, hq, rfl⟩ | ⟨l, st, rfl, hs, hld, rfl⟩
  · obtain ⟨i1, i2⟩ := ih hf.prefix hl
    have hst : ∀ j, j ≠ i → s j = d.status j := by
      intro j hj
      cases m with
      | chain e => rw [(hc e rfl).2]
      | status t => rw [(ht t rfl).2, Function.update_of_ne hj]
    constructor
    · intro j t hj
      replace hj : Function.update d.flight i (some m) j = some (.status t) := hj
      show s j = some t
      by_cases hji : j = i
      · subst hji
        rw [Function.update_self] at hj
        cases hj
        rw [(ht t rfl).2, Function.update_self]
      · rw [Function.update_of_ne hji] at hj
        rw [hst j hji]
        exact i1 j t hj
    · intro hq j
      have hj0 := i2 hq j
      show (statuses j d.queue ++ unsent (Function.update d.flight i (some m) j)).getLast?.or
        (if d.loading = true ∧ j ∉ d.live then (d.snap.map (fun y => y.2 j)).getD (s j) else d.chips j) = s j
      by_cases hji : j = i
      · subst hji
        rw [Function.update_self]
        cases m with
        | chain e =>
          rw [(hc e rfl).2]
          unfold Desk.last at hj0
          rw [hfl] at hj0
          exact hj0
        | status t =>
          rw [(ht t rfl).2, Function.update_self, unsent, List.getLast?_append]
          rfl
      · rw [Function.update_of_ne hji, hst j hji]
        exact hj0
  · obtain ⟨-, f2, f3, f4, f5, -, f7, -, f9, f10, f11⟩ :=
      push_fields { d with flight := Function.update d.flight i none } (i, m)
    obtain ⟨hl0, hq⟩ := f11 hl
    obtain ⟨i1, i2⟩ := ih hf.prefix hl0
    constructor
    · rw [f3, f2]
      intro j t hj
      replace hj : Function.update d.flight i none j = some (.status t) := hj
      by_cases hji : j = i
      · subst hji
        rw [Function.update_self] at hj
        cases hj
      · rw [Function.update_of_ne hji] at hj
        exact i1 j t hj
    · intro hsome j
      rw [f10] at hsome
      obtain ⟨q, hq0⟩ := Option.isSome_iff_exists.1 hsome
      replace hq0 : d.queue = some q := hq0
      have hj0 := i2 (by rw [hq0]; rfl) j
      unfold Desk.last Desk.cur at hj0 ⊢
      rw [f2, f3, f4, f5, f7, f9, hq]
      show (statuses j (Option.map _ d.queue) ++ unsent (Function.update d.flight i none j)).getLast?.or _ = d.status j
      rw [hq0] at hj0 ⊢
      rw [Option.map_some, statuses_snoc]
      by_cases hji : j = i
      · subst hji
        rw [hfl] at hj0
        rw [Function.update_self, if_pos rfl]
        simpa [unsent] using hj0
      · rw [Function.update_of_ne hji, if_neg (Ne.symm hji), List.append_nil]
        exact hj0
  · exact ih hf.prefix hl
  · obtain ⟨i1, i2⟩ := ih hf.prefix hl
    refine ⟨i1, fun _ j => ?_⟩
    have hsn : d.snap = none := by
      by_contra hsn
      have := o4 hf.prefix (by rw [Option.isSome_iff_ne_none]; exact hsn)
      rw [hq] at this
      cases this
    have hld : d.loading = true := by
      cases hb : d.loading with
      | true => rfl
      | false => exact absurd hsn (hsl hb)
    show (statuses j (some []) ++ unsent (d.flight j)).getLast?.or (d.cur j) = d.status j
    unfold Desk.cur
    rw [hsn, hld, o3 hq, if_pos ⟨rfl, by simp⟩]
    cases hfj : d.flight j with
    | none => rfl
    | some m =>
      cases m with
      | chain e => rfl
      | status t => rw [i1 j t hfj]; rfl
  · obtain ⟨i1, i2⟩ := ih hf.prefix hl
    refine ⟨i1, fun hq j => ?_⟩
    have hj0 := i2 hq j
    unfold Desk.last Desk.cur at hj0
    rw [hs] at hj0
    exact hj0
  · obtain ⟨-, f2, f3, -, -, f6, f7⟩ := receive_fields { d with queue := some l } y
    rw [f7] at hl
    obtain ⟨i1, i2⟩ := ih hf.prefix hl
    constructor
    · rw [f2, f3]; exact i1
    · intro _ j
      have hj0 := i2 (by rw [hq]; rfl) j
      obtain ⟨i, m⟩ := y
      cases m with
      | chain e =>
        have same : ∀ d1 : Desk, d1.flight = d.flight → d1.queue = some l → d1.status = d.status →
            d1.loading = d.loading → d1.live = d.live → d1.snap = d.snap → d1.chips = d.chips → d1.last j = d1.status j := by
          intro d1 e1 e2 e3 e4 e5 e6 e7
          unfold Desk.last Desk.cur at hj0 ⊢
          rw [e1, e2, e3, e4, e5, e6, e7]
          rw [hq] at hj0
          exact hj0
        unfold Desk.receive
        dsimp only
        split <;> exact same _ rfl rfl rfl rfl rfl rfl rfl
      | status t =>
        unfold Desk.last at hj0 ⊢
        rw [hq] at hj0
        show (statuses j (some l) ++ unsent (d.flight j)).getLast?.or
          (if d.loading = true ∧ j ∉ (if d.loading then i :: d.live else d.live) then
            (d.snap.map (fun y => y.2 j)).getD (d.status j) else Function.update d.chips i (some t) j) = d.status j
        by_cases hji : j = i
        · subst hji
          have e1 : statuses j (some ((j, .status t) :: l)) = t :: statuses j (some l) := by
            simp [statuses]
          rw [e1, List.cons_append, List.getLast?_cons] at hj0
          rw [if_neg (by rintro ⟨h1, h2⟩; rw [if_pos h1] at h2; exact h2 (List.mem_cons_self ..)), Function.update_self,
            ← hj0]
          cases (statuses j (some l) ++ unsent (d.flight j)).getLast? <;> rfl
        · have e1 : statuses j (some ((i, .status t) :: l)) = statuses j (some l) := by
            simp [statuses, Ne.symm hji]
          rw [e1] at hj0
          rw [Function.update_of_ne hji]
          have e2 : (j ∉ (if d.loading then i :: d.live else d.live)) ↔ j ∉ d.live := by
            split
            · simp [hji]
            · rfl
          simp only [e2]
          exact hj0
  · obtain ⟨i1, i2⟩ := ih hf.prefix hl
    refine ⟨i1, fun hq j => ?_⟩
    have hj0 := i2 hq j
    unfold Desk.last Desk.cur at hj0 ⊢
    rw [hs, hld] at hj0
    show (statuses j d.queue ++ unsent (d.flight j)).getLast?.or
      (if false = true ∧ j ∉ d.live then _ else if j ∈ d.live then d.chips j else (st j).or (d.chips j)) = d.status j
    rw [if_neg (fun h => Bool.noConfusion h.1), ← hj0]
    by_cases hm : j ∈ d.live
    · rw [if_pos hm, if_neg (fun h => h.2 hm)]
    · rw [if_neg hm, if_pos ⟨rfl, hm⟩, ((loading_inv acts d hrun).1 hld).2 j hm]
      simp

/-- **C122, statuses.** If the server handles the stream request before the history request and the page does not lag,
then, once everything has arrived, the page shows for every node the last status that its collector published.  Full
statement: the same without a condition on the order of the two requests; it is false, see `C122_status_false`. -/
theorem C122_status_partial {n : Nat} {acts : List DAct} {d : Desk} (h : drun n acts = some d)
    (hf : StreamFirst acts) (hl : d.lagged = false) (hs : d.Settled) : ∀ i, d.chips i = d.status i := by
  intro i
  have hi := (status_inv acts d h hf hl).2 (by rw [hs.received]; rfl) i
  unfold Desk.last Desk.cur at hi
  rw [hs.received, hs.sent i, hs.loaded] at hi
  rw [← hi]
  simp [statuses, unsent]

/-! ### The history -/

/-- **C122, the history.** As long as it is not reset, the history behind the page is that of all events published (so
that C105 says what the answer holds). -/
theorem C122_history {n : Nat} : ∀ acts d, drun n acts = some d → DAct.reset ∉ acts →
    d.history = (published acts).foldl History.push (History.new n) := by
  refine drun_induction (fun _ => rfl) ?_
  intro acts x d d' _ ih ha hr
  have I := ih (fun h => hr (List.mem_append_left _ h))
  rw [published_snoc, List.foldl_append, ← I]
  rcases act_cases ha with ⟨i, m, h, s, rfl, -, rfl, hc, ht⟩ | ⟨i, m, rfl, hfl, rfl⟩ | ⟨rfl, rfl⟩ | ⟨rfl, hq, rfl⟩ |
    ⟨rfl, hs, rfl⟩ | ⟨y, l, rfl, hq, rfl⟩ | ⟨l, st, rfl, hs, -, rfl⟩
  · cases m with
    | chain e => exact (hc e rfl).1
    | status t => exact (ht t rfl).1
  · exact (push_fields _ _).1
  · exact absurd (by simp) hr
  · rfl
  · rfl
  · exact (receive_fields _ _).1
  · rfl

/-! ### Runs -/

/-- A block event of a node. -/
def sampleEv (node slot id : Nat) : Ev := ⟨node, .block, slot, 4 * slot + 1, 1, some id, none, none⟩

/-- What can be looked at after a run (for nodes 0 and 1). -/
structure Glance where
  shown : List Ev
  chips : List (Option NodeState)
  status : List (Option NodeState)
  flight : List (Option Msg)
  queue : Option (List (Nat × Msg))
  lagged : Bool
  loading : Bool
  deriving DecidableEq

def Desk.glance (d : Desk) : Glance :=
  ⟨d.shown, [d.chips 0, d.chips 1], [d.status 0, d.status 1], [d.flight 0, d.flight 1], d.queue, d.lagged, d.loading⟩

theorem idle {n : Nat} : ∀ acts d, drun n acts = some d → ∀ i, (∀ m, DAct.record i m ∉ acts) → d.flight i = none := by
  refine drun_induction (fun _ _ => rfl) ?_
  intro acts x d d' _ ih ha j hj
  have hj0 := ih j (fun m hm => hj m (List.mem_append_left _ hm))
  rcases act_cases ha with ⟨i, m, h, s, rfl, -, rfl, -⟩ | ⟨i, m, rfl, hfl, rfl⟩ | ⟨rfl, rfl⟩ | ⟨rfl, hq, rfl⟩ |
    ⟨rfl, hs, rfl⟩ | ⟨y, l, rfl, hq, rfl⟩ | ⟨l, st, rfl, hs, -, rfl⟩
  · show Function.update d.flight i (some m) j = none
    rw [Function.update_of_ne (by rintro rfl; exact hj m (by simp))]
    exact hj0
  · rw [(push_fields _ _).2.2.1]
    show Function.update d.flight i none j = none
    by_cases hji : j = i
    · subst hji; exact Function.update_self ..
    · rw [Function.update_of_ne hji]; exact hj0
  · exact hj0
  · exact hj0
  · exact hj0
  · rw [(receive_fields _ _).2.2.1]; exact hj0
  · exact hj0

/-- A run of which only nodes 0 and 1 are part has settled if it looks so. -/
theorem settled_of {n : Nat} {acts : List DAct} {d : Desk} (h : drun n acts = some d)
    (hr : ∀ x ∈ acts, ∀ i m, x = .record i m → i < 2) (h0 : d.flight 0 = none) (h1 : d.flight 1 = none)
    (hq : d.queue = some []) : (∀ i, d.flight i = none) ∧ d.CaughtUp := by
  have hf : ∀ i, d.flight i = none := by
    intro i
    by_cases hi : i < 2
    · have : i = 0 ∨ i = 1 := by omega
      rcases this with rfl | rfl
      · exact h0
      · exact h1
    · exact idle acts d h i (fun m hm => hi (hr _ hm i m rfl))
  refine ⟨hf, fun l st _ e _ => ⟨fun i e' he => ?_, fun q h2 i e' he => ?_⟩⟩
  · rw [hf i] at he; cases he
  · rw [hq] at h2; cases h2; cases he

theorem streamFirst_of {a b : List DAct} (h : DAct.answer ∉ a) : StreamFirst (a ++ .subscribe :: b) := by
  intro pre post he
  rcases List.append_eq_append_iff.1 he with ⟨c, h1, h2⟩ | ⟨c, h1, h2⟩
  · cases c with
    | nil => cases h2
    | cons x c => rw [h1]; cases h2; simp
  · cases c with
    | nil => cases h2
    | cons x c => cases h2; exact absurd (by rw [h1]; simp) h

theorem split_at {a b pre post : List DAct} {x : DAct} (ha : x ∉ a) (hb : x ∉ b)
    (h : a ++ x :: b = pre ++ x :: post) : pre = a := by
  rcases List.append_eq_append_iff.1 h with ⟨c, h1, h2⟩ | ⟨c, h1, h2⟩
  · cases c with
    | nil => simpa using h1
    | cons y c => cases h2; exact absurd (by simp) hb
  · cases c with
    | nil => simpa using h1.symm
    | cons y c => cases h2; exact absurd (by rw [h1]; simp) ha

/-- One event in the history only, one in both, one over the stream only; a status in the history, then a newer one. -/
def beforeSeed : List DAct :=
  [.record 0 (.status .connected), .send 0, .record 0 (.chain (sampleEv 0 3 7)), .send 0, .subscribe,
   .record 1 (.chain (sampleEv 1 4 8)), .send 1, .frame, .answer, .record 0 (.status .down), .send 0, .frame]

def afterSeed : List DAct := [.record 1 (.chain (sampleEv 1 5 9)), .send 1, .frame]

theorem beforeSeed_nodes : ∀ x ∈ beforeSeed, ∀ i m, x = .record i m → i < 2 := by
  intro x hx i m he
  subst he
  simp [beforeSeed] at hx
  omega

/-- The hypotheses of the three theorems can be met together: events before, between and after. -/
theorem C122_case : ∃ d, drun 8 (beforeSeed ++ .seed :: afterSeed) = some d ∧
    StreamFirst (beforeSeed ++ .seed :: afterSeed) ∧ d.lagged = false ∧ d.Settled ∧
    Distinct (published (beforeSeed ++ .seed :: afterSeed)) ∧
    (∀ pre post d0, beforeSeed ++ .seed :: afterSeed = pre ++ DAct.seed :: post → drun 8 pre = some d0 → d0.CaughtUp) ∧
    d.shown = [sampleEv 0 3 7, sampleEv 1 4 8, sampleEv 1 5 9] ∧ d.chips 0 = some .down := by
  have hg : (drun 8 (beforeSeed ++ .seed :: afterSeed)).map Desk.glance =
      some ⟨[sampleEv 0 3 7, sampleEv 1 4 8, sampleEv 1 5 9], [some .down, none], [some .down, none], [none, none],
        some [], false, false⟩ := by decide +kernel
  have hg0 : (drun 8 beforeSeed).map Desk.glance =
      some ⟨[], [some .down, none], [some .down, none], [none, none], some [], false, true⟩ := by decide +kernel
  obtain ⟨d, hd, h1⟩ := Option.map_eq_some_iff.1 hg
  simp only [Desk.glance, Glance.mk.injEq, List.cons.injEq, and_true] at h1
  obtain ⟨g1, ⟨g2, -⟩, -, ⟨g3, g4⟩, g5, g6, g7⟩ := h1
  refine ⟨d, hd, ?_, g6, ⟨g7, g5, ?_⟩,
    by
      rw [distinct_iff, show published (beforeSeed ++ .seed :: afterSeed) = [sampleEv 0 3 7, sampleEv 1 4 8, sampleEv 1 5 9] from rfl]
      simp [sampleEv, Ev.key], ?_, g1, g2⟩
  · exact streamFirst_of (a := [.record 0 (.status .connected), .send 0, .record 0 (.chain (sampleEv 0 3 7)), .send 0])
      (by decide)
  · refine (settled_of hd ?_ g3 g4 g5).1
    intro x hx i m he
    rcases List.mem_append.1 hx with hx | hx
    · exact beforeSeed_nodes x hx i m he
    · subst he
      simp [afterSeed] at hx
      omega
  · intro pre post d0 he hd0
    rw [split_at (by decide) (by decide) he] at hd0
    rw [hd0, Option.map_some, Option.some.injEq] at hg0
    simp only [Desk.glance, Glance.mk.injEq, List.cons.injEq, and_true] at hg0
    obtain ⟨-, -, -, ⟨k3, k4⟩, k5, -⟩ := hg0
    exact (settled_of hd0 beforeSeed_nodes k3 k4 k5).2

/-- The history is answered, an event is published, the stream is opened. -/
def lateStream (m : Msg) : List DAct := [.answer, .record 0 m, .send 0, .subscribe, .seed]

/-- F45: the full statement on events is false. -/
theorem C122_complete_false : ¬ ∀ (n : Nat) (acts : List DAct) (d : Desk), drun n acts = some d → d.lagged = false →
    d.Settled → ∀ e ∈ published acts, d.Shows e ∨ Omitted n acts e := by
  intro H
  have hg : (drun 8 (lateStream (.chain (sampleEv 0 3 7)))).map Desk.glance =
      some ⟨[], [none, none], [none, none], [none, none], some [], false, false⟩ := by decide +kernel
  obtain ⟨d, hd, h1⟩ := Option.map_eq_some_iff.1 hg
  simp only [Desk.glance, Glance.mk.injEq, List.cons.injEq, and_true] at h1
  obtain ⟨g1, -, -, ⟨g3, g4⟩, g5, g6, g7⟩ := h1
  have hset := (settled_of hd (fun x hx i m he => by subst he; simp [lateStream] at hx; omega) g3 g4 g5).1
  rcases H 8 _ d hd g6 ⟨g7, g5, hset⟩ (sampleEv 0 3 7) (by decide) with ⟨e, h2, -⟩ | ⟨pre, post, d0, h2, -, h3, -⟩
  · rw [g1] at h2; cases h2
  · rw [split_at (a := []) (by decide) (by decide) h2] at h3
    cases h3

/-- F45: the full statement on statuses is false. -/
theorem C122_status_false : ¬ ∀ (n : Nat) (acts : List DAct) (d : Desk), drun n acts = some d → d.lagged = false →
    d.Settled → ∀ i, d.chips i = d.status i := by
  intro H
  have hg : (drun 8 (lateStream (.status .down))).map Desk.glance =
      some ⟨[], [none, none], [some .down, none], [none, none], some [], false, false⟩ := by decide +kernel
  obtain ⟨d, hd, h1⟩ := Option.map_eq_some_iff.1 hg
  simp only [Desk.glance, Glance.mk.injEq, List.cons.injEq, and_true] at h1
  obtain ⟨-, ⟨g1, -⟩, ⟨g2, -⟩, ⟨g3, g4⟩, g5, g6, g7⟩ := h1
  have hset := (settled_of hd (fun x hx i m he => by subst he; simp [lateStream] at hx; omega) g3 g4 g5).1
  have := H 8 _ d hd g6 ⟨g7, g5, hset⟩ 0
  rw [g1, g2] at this
  cases this

/-- F46: the full statement on doubles is false, even with the stream first. -/
theorem C122_once_false : ¬ ∀ (n : Nat) (acts : List DAct) (d : Desk), drun n acts = some d → StreamFirst acts →
    d.lagged = false → Distinct (published acts) → Distinct d.shown := by
  intro H
  have hg : (drun 8 [.subscribe, .record 0 (.chain (sampleEv 0 3 7)), .send 0, .answer, .seed, .frame]).map Desk.glance =
      some ⟨[sampleEv 0 3 7, sampleEv 0 3 7], [none, none], [none, none], [none, none], some [], false, false⟩ := by
    decide +kernel
  obtain ⟨d, hd, h1⟩ := Option.map_eq_some_iff.1 hg
  simp only [Desk.glance, Glance.mk.injEq, List.cons.injEq, and_true] at h1
  obtain ⟨g1, -, -, -, -, g6, -⟩ := h1
  have := H 8 _ d hd (streamFirst_of (a := []) (by decide)) g6
    ((distinct_iff _).2 (List.nodup_singleton (sampleEv 0 3 7).key))
  rw [g1, distinct_iff] at this
  simp at this

end Verif.Monitor
