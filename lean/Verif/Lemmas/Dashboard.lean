import Verif.Spec.Dashboard
import Mathlib.Data.List.Induction

/-! Helper lemmas on the page that opens. -/

namespace Verif.Monitor

open Verif

theorem drun_snoc {n : Nat} {acts : List DAct} {x : DAct} {d' : Desk} (h : drun n (acts ++ [x]) = some d') :
    ∃ d, drun n acts = some d ∧ d.act x = some d' := by
  unfold drun at h ⊢
  rw [List.foldlM_append] at h
  cases hd : List.foldlM Desk.act (Desk.init n) acts with
  | none => rw [hd] at h; cases h
  | some d =>
    rw [hd] at h
    refine ⟨d, rfl, ?_⟩
    simpa using h

/-- Induction over runs. -/
theorem drun_induction {n : Nat} {P : List DAct → Desk → Prop} (h0 : P [] (Desk.init n))
    (hs : ∀ acts x d d', drun n acts = some d → P acts d → d.act x = some d' → P (acts ++ [x]) d') :
    ∀ acts d, drun n acts = some d → P acts d := by
  intro acts
  induction acts using List.reverseRecOn with
  | nil => intro d h; cases h; exact h0
  | append_singleton acts x ih =>
    intro d' h
    obtain ⟨d, h1, h2⟩ := drun_snoc h
    exact hs acts x d d' h1 (ih d h1) h2

theorem published_snoc (acts : List DAct) (x : DAct) : published (acts ++ [x]) = published acts ++ x.event.toList := by
  unfold published
  rw [List.filterMap_append]
  cases h : x.event <;> simp [h]

theorem StreamFirst.prefix {acts : List DAct} {x : DAct} (h : StreamFirst (acts ++ [x])) : StreamFirst acts := by
  intro pre post he
  exact h pre (post ++ [x]) (by rw [he]; simp)

theorem Omitted.snoc {n : Nat} {acts : List DAct} {x : DAct} {e : Ev} (h : Omitted n acts e) :
    Omitted n (acts ++ [x]) e := by
  obtain ⟨pre, post, d0, h1, h2, h3, h4⟩ := h
  exact ⟨pre, post ++ [x], d0, by rw [h1]; simp, h2, h3, h4⟩

theorem push_fields (d : Desk) (x : Nat × Msg) :
    (d.push x).history = d.history ∧ (d.push x).status = d.status ∧ (d.push x).flight = d.flight ∧
    (d.push x).snap = d.snap ∧ (d.push x).loading = d.loading ∧ (d.push x).buffer = d.buffer ∧
    (d.push x).live = d.live ∧ (d.push x).shown = d.shown ∧ (d.push x).chips = d.chips ∧
    (d.push x).queue.isSome = d.queue.isSome ∧
    ((d.push x).lagged = false → d.lagged = false ∧ (d.push x).queue = d.queue.map (· ++ [x])) := by
  unfold Desk.push
  split
  · rename_i h
    simp [h]
  · rename_i l h
    split <;> simp [h]

theorem receive_fields (d : Desk) (x : Nat × Msg) :
    (d.receive x).history = d.history ∧ (d.receive x).status = d.status ∧ (d.receive x).flight = d.flight ∧
    (d.receive x).snap = d.snap ∧ (d.receive x).loading = d.loading ∧ (d.receive x).queue = d.queue ∧
    (d.receive x).lagged = d.lagged := by
  obtain ⟨i, m⟩ := x
  cases m with
  | chain e => unfold Desk.receive; dsimp only; split <;> simp
  | status s => simp [Desk.receive]

/-- Recording changes the history and the statuses only. -/
theorem store_eq (d : Desk) (i : Nat) (m : Msg) : ∃ h s, d.store i m = { d with history := h, status := s } ∧
    (∀ e, m = .chain e → h = d.history.push e ∧ s = d.status) ∧
    ∀ t, m = .status t → h = d.history ∧ s = Function.update d.status i (some t) := by
  cases m with
  | chain e => exact ⟨d.history.push e, d.status, rfl, (fun e' h => by cases h; exact ⟨rfl, rfl⟩), fun t h => by cases h⟩
  | status t =>
    exact ⟨d.history, Function.update d.status i (some t), rfl, (fun e' h => by cases h),
      fun t' h => by cases h; exact ⟨rfl, rfl⟩⟩

/-- The cases of one action. -/
theorem act_cases {d d' : Desk} {x : DAct} (h : d.act x = some d') :
    (∃ i m h s, x = .record i m ∧ d.flight i = none ∧
      d' = { d with history := h, status := s, flight := Function.update d.flight i (some m) } ∧
      (∀ e, m = .chain e → h = d.history.push e ∧ s = d.status) ∧
      ∀ t, m = .status t → h = d.history ∧ s = Function.update d.status i (some t)) ∨
    (∃ i m, x = .send i ∧ d.flight i = some m ∧
      d' = Desk.push { d with flight := Function.update d.flight i none } (i, m)) ∨
    (x = .reset ∧ d' = { d with history := d.history.reset }) ∨
    (x = .subscribe ∧ d.queue = none ∧ d' = { d with queue := some [] }) ∨
    (x = .answer ∧ d.snap = none ∧ d' = { d with snap := some (d.history.snapshot, d.status) }) ∨
    (∃ y l, x = .frame ∧ d.queue = some (y :: l) ∧ d' = Desk.receive { d with queue := some l } y) ∨
    (∃ l st, x = .seed ∧ d.snap = some (l, st) ∧ d.loading = true ∧
      d' = { d with chips := fun i => if i ∈ d.live then d.chips i else (st i).or (d.chips i),
                    shown := ingestAll (ingestAll [] l) d.buffer, buffer := [], loading := false }) := by
  cases x with
  | record i m =>
    left
    simp only [Desk.act] at h
    split at h
    · cases h
    · rename_i hf
      rw [Option.some.injEq] at h
      obtain ⟨hh, s, h1, h2, h3⟩ := store_eq d i m
      rw [h1] at h
      exact ⟨i, m, hh, s, rfl, hf, h.symm, h2, h3⟩
  | send i =>
    right; left
    simp only [Desk.act] at h
    split at h
    · cases h
    · rename_i m hf
      rw [Option.some.injEq] at h
      exact ⟨i, m, rfl, hf, h.symm⟩
  | reset =>
    simp only [Desk.act, Option.some.injEq] at h
    exact .inr (.inr (.inl ⟨rfl, h.symm⟩))
  | subscribe =>
    simp only [Desk.act] at h
    split at h
    · cases h
    · rename_i hq
      cases h
      exact .inr (.inr (.inr (.inl ⟨rfl, by simpa using hq, rfl⟩)))
  | answer =>
    simp only [Desk.act] at h
    split at h
    · cases h
    · rename_i hq
      cases h
      exact .inr (.inr (.inr (.inr (.inl ⟨rfl, by simpa using hq, rfl⟩))))
  | frame =>
    simp only [Desk.act] at h
    split at h
    · rename_i y l hq
      cases h
      exact .inr (.inr (.inr (.inr (.inr (.inl ⟨y, l, rfl, hq, rfl⟩)))))
    · cases h
  | seed =>
    simp only [Desk.act] at h
    split at h
    · cases h
    · rename_i l st hs
      split at h
      · rename_i hl
        cases h
        exact .inr (.inr (.inr (.inr (.inr (.inr ⟨l, st, rfl, hs, hl, rfl⟩)))))
      · cases h

/-! ### Keys -/

theorem key_iff (e e' : Ev) : e.key = e'.key ↔ Same e e' := by
  unfold Ev.key
  simp only [Prod.mk.injEq]
  exact ⟨fun ⟨a, b, c, d, f, g⟩ => ⟨a, b, c, d, f, g⟩, fun h => ⟨h.node, h.topic, h.slot, h.id, h.validator, h.arrival⟩⟩

theorem distinct_iff (l : List Ev) : Distinct l ↔ (l.map Ev.key).Nodup := by
  unfold Distinct List.Nodup
  rw [List.pairwise_map]
  simp only [ne_eq, key_iff]

/-! ### Ingesting -/

theorem ingestAll_keeps : ∀ (l shown : List Ev) (e : Ev), e ∈ shown → e ∈ ingestAll shown l
  | [], _, _, h => h
  | a :: l, shown, e, h => by
    unfold ingestAll
    split
    · exact ingestAll_keeps l shown e h
    · exact ingestAll_keeps l _ e (List.mem_append_left _ h)

theorem ingestAll_covers : ∀ (l shown : List Ev) (e : Ev), e ∈ l → ∃ e' ∈ ingestAll shown l, e'.key = e.key
  | a :: l, shown, e, h => by
    unfold ingestAll
    rcases List.mem_cons.1 h with rfl | h
    · split
      · rename_i hk
        obtain ⟨e', h1, h2⟩ := List.mem_map.1 hk
        exact ⟨e', ingestAll_keeps l shown e' h1, h2⟩
      · exact ⟨e, ingestAll_keeps l _ e (by simp), rfl⟩
    · split <;> exact ingestAll_covers l _ e h

theorem ingestAll_sub : ∀ (l shown : List Ev) (e : Ev), e ∈ ingestAll shown l → e ∈ shown ∨ e ∈ l
  | [], _, _, h => .inl h
  | a :: l, shown, e, h => by
    unfold ingestAll at h
    split at h
    · exact (ingestAll_sub l shown e h).imp id (List.mem_cons_of_mem _)
    · rcases ingestAll_sub l _ e h with h | h
      · rcases List.mem_append.1 h with h | h
        · exact .inl h
        · rw [List.mem_singleton.1 h]; exact .inr (List.mem_cons_self ..)
      · exact .inr (List.mem_cons_of_mem _ h)

theorem ingestAll_nodup : ∀ (l shown : List Ev), (shown.map Ev.key).Nodup → ((ingestAll shown l).map Ev.key).Nodup
  | [], _, h => h
  | a :: l, shown, h => by
    unfold ingestAll
    split
    · exact ingestAll_nodup l shown h
    · rename_i hk
      refine ingestAll_nodup l _ ?_
      rw [List.map_append, List.nodup_append]
      refine ⟨h, by simp, fun k h1 k' h2 he => ?_⟩
      rw [List.map_singleton, List.mem_singleton] at h2
      subst h2 he
      exact hk h1

end Verif.Monitor
