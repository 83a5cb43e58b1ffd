import Verif.Model.CheckpointSync

/-
C55 — fetching the anchor: servers are tried in order, the first verified anchor is used, torn pairs
are retried at most three times, and giving up means every server was tried.
-/

namespace Verif.Ckpt

variable {A : Type}

/-- `n` torn answers from server `u`. -/
def torns (u n : Nat) : Log A := List.replicate n (u, .torn)

/-- What was exchanged with a server that was given up with error `e`: up to two torn answers and then
another failure, or three torn answers. -/
def GaveUp (u : Nat) (seg : Log A) (e : SyncErr) : Prop :=
  (∃ n c, n ≤ 2 ∧ seg = torns u n ++ [(u, .fail c)] ∧ e = .fail c) ∨ (seg = torns u 3 ∧ e = .torn)

/-- What was exchanged with the server that delivered `a`. -/
def Delivered (u : Nat) (seg : Log A) (a : A) : Prop :=
  ∃ n, n ≤ 2 ∧ seg = torns u n ++ [(u, .ok a)]

/-- All of `urls` were tried in order and given up; `e` is the last error. -/
inductive AllGaveUp : List Nat → Log A → Option SyncErr → Prop
  | nil : AllGaveUp [] [] none
  | snoc {urls : List Nat} {l seg : Log A} {e : Option SyncErr} {u : Nat} {e' : SyncErr} :
      AllGaveUp urls l e → GaveUp u seg e' → AllGaveUp (urls ++ [u]) (l ++ seg) (some e')

/-- One pass over the servers, as observed on the network. -/
inductive Pass (urls : List Nat) : Log A → Except SyncErr A → Prop
  | ok {pre post : List Nat} {u : Nat} {l seg : Log A} {e : Option SyncErr} {a : A} :
      urls = pre ++ u :: post → AllGaveUp pre l e → Delivered u seg a → Pass urls (l ++ seg) (.ok a)
  | error {l : Log A} {e : SyncErr} : AllGaveUp urls l (some e) → Pass urls l (.error e)
  | noUrls : urls = [] → Pass urls [] (.error .noUrls)

/-- The log records what the network answered. -/
def Genuine (net : Nat → Nat → Outcome A) (log : Log A) : Prop :=
  ∀ i u o, log[i]? = some (u, o) → o = net i u

theorem Genuine.snoc {net : Nat → Nat → Outcome A} {log : Log A} {u : Nat} (h : Genuine net log) :
    Genuine net (log ++ [(u, net log.length u)]) := by
  intro i v o hi
  rw [List.getElem?_append] at hi
  split at hi
  · exact h i v o hi
  · next hlt =>
    match hk : i - log.length with
    | 0 =>
      rw [hk] at hi
      simp only [List.getElem?_cons_zero, Option.some.injEq, Prod.mk.injEq] at hi
      obtain ⟨rfl, rfl⟩ := hi
      have : i = log.length := by omega
      rw [this]
    | k + 1 => rw [hk] at hi; simp at hi

theorem torns_succ (u n : Nat) : (torns u (n + 1) : Log A) = torns u n ++ [(u, .torn)] := by
  simp [torns, List.replicate_succ']

theorem tryUrl_eq (net : Nat → Nat → Outcome A) (u left : Nat) (log : Log A) :
    tryUrl net u left log = match net log.length u, left with
      | .ok a, _ => (.ok a, log ++ [(u, .ok a)])
      | .fail c, _ => (.error (.fail c), log ++ [(u, .fail c)])
      | .torn, 0 => (.error .torn, log ++ [(u, .torn)])
      | .torn, left + 1 => tryUrl net u left (log ++ [(u, .torn)]) := by
  conv => lhs; unfold tryUrl
  cases left <;> simp only <;> cases net log.length u <;> rfl

/-- Trying one server: started after `2 - left` torn answers from it. -/
theorem tryUrl_spec (net : Nat → Nat → Outcome A) (u : Nat) : ∀ (left : Nat) (log0 : Log A)
    (r : Except SyncErr A) (log : Log A), left ≤ 2 → Genuine net (log0 ++ torns u (2 - left)) →
    tryUrl net u left (log0 ++ torns u (2 - left)) = (r, log) →
    Genuine net log ∧ ∃ seg, log = log0 ++ seg ∧
      match r with
      | .ok a => Delivered u seg a
      | .error e => GaveUp u seg e := by
  intro left
  induction left with
  | zero =>
    intro log0 r log _ hg h
    have hg' := hg.snoc (u := u)
    rw [tryUrl_eq] at h
    revert h hg'
    generalize net (log0 ++ torns u (2 - 0)).length u = o
    intro h hg'
    match o with
    | .ok a =>
      obtain ⟨rfl, rfl⟩ := Prod.mk.inj h
      exact ⟨hg', torns u 2 ++ [(u, .ok a)], by simp, 2, by omega, rfl⟩
    | .fail c =>
      obtain ⟨rfl, rfl⟩ := Prod.mk.inj h
      exact ⟨hg', torns u 2 ++ [(u, .fail c)], by simp, .inl ⟨2, c, by omega, rfl, rfl⟩⟩
    | .torn =>
      obtain ⟨rfl, rfl⟩ := Prod.mk.inj h
      exact ⟨hg', torns u 3, by simp [torns_succ u 2], .inr ⟨rfl, rfl⟩⟩
  | succ left ih =>
    intro log0 r log hl hg h
    have hg' := hg.snoc (u := u)
    rw [tryUrl_eq] at h
    revert h hg'
    generalize net (log0 ++ torns u (2 - (left + 1))).length u = o
    intro h hg'
    match o with
    | .ok a =>
      obtain ⟨rfl, rfl⟩ := Prod.mk.inj h
      exact ⟨hg', torns u (2 - (left + 1)) ++ [(u, .ok a)], by simp, _, by omega, rfl⟩
    | .fail c =>
      obtain ⟨rfl, rfl⟩ := Prod.mk.inj h
      exact ⟨hg', torns u (2 - (left + 1)) ++ [(u, .fail c)], by simp,
        .inl ⟨_, c, by omega, rfl, rfl⟩⟩
    | .torn =>
      have e : log0 ++ torns u (2 - (left + 1)) ++ [(u, .torn)] = log0 ++ torns u (2 - left) := by
        rw [List.append_assoc, ← torns_succ]
        congr 2; omega
      rw [e] at hg'
      simp only [e] at h
      exact ih log0 r log (by omega) hg' h

theorem tryAll_spec (net : Nat → Nat → Outcome A) (base : Log A) : ∀ (us pre : List Nat) (l : Log A)
    (e : Option SyncErr), AllGaveUp pre l e → Genuine net (base ++ l) →
    Genuine net (tryAll net us e (base ++ l)).2 ∧
    ∃ seg, (tryAll net us e (base ++ l)).2 = base ++ seg ∧
      Pass (pre ++ us) seg (tryAll net us e (base ++ l)).1 := by
  intro us
  induction us with
  | nil =>
    intro pre l e h hg
    unfold tryAll
    match e, h with
    | some e, h => exact ⟨hg, l, rfl, .error (by simpa using h)⟩
    | none, h => cases h; exact ⟨hg, [], rfl, .noUrls rfl⟩
  | cons u us ih =>
    intro pre l e h hg
    unfold tryAll
    simp only [maxAnchorFetchAttempts]
    match ht : tryUrl net u (3 - 1) (base ++ l) with
    | (.ok a, log) =>
      obtain ⟨hg', seg, hseg, hr⟩ := tryUrl_spec net u 2 (base ++ l) (.ok a) log (by omega)
        (by simpa [torns] using hg) (by simpa [torns] using ht)
      simp only at hr ⊢
      refine ⟨hg', l ++ seg, by rw [hseg, List.append_assoc], .ok rfl h hr⟩
    | (.error e', log) =>
      obtain ⟨hg', seg, hseg, hr⟩ := tryUrl_spec net u 2 (base ++ l) (.error e') log (by omega)
        (by simpa [torns] using hg) (by simpa [torns] using ht)
      simp only at hr ⊢
      rw [hseg, List.append_assoc] at hg' ⊢
      have := ih (pre ++ [u]) (l ++ seg) (some e') (.snoc h hr) hg'
      simpa using this

/-- One pass over the servers does what `Pass` says, against every behaviour of the network. -/
theorem C55_pass (net : Nat → Nat → Outcome A) (urls : List Nat) :
    Genuine net (tryAll net urls none []).2 ∧
    Pass urls (tryAll net urls none []).2 (tryAll net urls none []).1 := by
  have := tryAll_spec net [] urls [] [] none .nil (by intro i u o h; simp at h)
  obtain ⟨h1, seg, h2, h3⟩ := this
  simp only [List.nil_append] at h1 h2 h3
  exact ⟨h1, by rw [h2]; exact h3⟩

theorem AllGaveUp.mem_ne_ok {urls : List Nat} {l : Log A} {e : Option SyncErr}
    (h : AllGaveUp urls l e) : (∀ x ∈ l, x.1 ∈ urls ∧ ∀ a, x.2 ≠ .ok a) ∧
      (∀ u ∈ urls, ∃ x ∈ l, x.1 = u) := by
  induction h with
  | nil => simp
  | @snoc urls l seg e u e' hall hg ih =>
    have hs : (∀ x ∈ seg, x.1 = u ∧ ∀ a, x.2 ≠ .ok a) ∧ ∃ x ∈ seg, x.1 = u := by
      rcases hg with ⟨n, c, -, rfl, -⟩ | ⟨rfl, -⟩
      · refine ⟨?_, (u, .fail c), by simp, rfl⟩
        intro x hx
        simp only [List.mem_append, List.mem_singleton, torns, List.mem_replicate] at hx
        rcases hx with ⟨-, rfl⟩ | rfl <;> simp
      · refine ⟨?_, (u, .torn), by simp [torns], rfl⟩
        intro x hx
        simp only [torns, List.mem_replicate] at hx
        obtain ⟨-, rfl⟩ := hx
        simp
    refine ⟨?_, ?_⟩
    · intro x hx
      rcases List.mem_append.mp hx with hx | hx
      · exact ⟨by simp [(ih.1 x hx).1], (ih.1 x hx).2⟩
      · exact ⟨by simp [(hs.1 x hx).1], (hs.1 x hx).2⟩
    · intro v hv
      rcases List.mem_append.mp hv with hv | hv
      · obtain ⟨x, hx, hxv⟩ := ih.2 v hv
        exact ⟨x, List.mem_append_left _ hx, hxv⟩
      · simp only [List.mem_singleton] at hv
        obtain ⟨x, hx, hxv⟩ := hs.2
        exact ⟨x, List.mem_append_right _ hx, by rw [hxv, hv]⟩

/-- The anchor used is the first one the network delivered: it is the last answer received, and no
earlier answer was an anchor. -/
theorem C55_first (net : Nat → Nat → Outcome A) (urls : List Nat) (a : A) (log : Log A)
    (h : tryAll net urls none [] = (.ok a, log)) :
    ∃ u rest, u ∈ urls ∧ log = rest ++ [(u, .ok a)] ∧ net rest.length u = .ok a ∧
      ∀ x ∈ rest, ∀ a', x.2 ≠ .ok a' := by
  obtain ⟨hg, hp⟩ := C55_pass net urls
  rw [h] at hg hp
  simp only at hg hp
  cases hp with
  | @ok pre post u l seg e a hu hall hd =>
    obtain ⟨n, -, rfl⟩ := hd
    refine ⟨u, l ++ torns u n, by rw [hu]; simp, by simp, ?_, ?_⟩
    · refine (hg (l ++ torns u n).length u (.ok a) ?_).symm
      rw [← List.append_assoc, List.getElem?_append_right (by simp)]
      simp
    · intro x hx a'
      rcases List.mem_append.mp hx with hx | hx
      · exact (hall.mem_ne_ok.1 x hx).2 a'
      · simp only [torns, List.mem_replicate] at hx
        rw [hx.2]; simp

/-- A pass that fails has asked every server, and none answered with an anchor; so a server that
always delivers makes the pass succeed. -/
theorem C55_all_tried (net : Nat → Nat → Outcome A) (urls : List Nat) (e : SyncErr) (log : Log A)
    (h : tryAll net urls none [] = (.error e, log)) :
    ∀ u ∈ urls, ∃ (i : Nat) (o : Outcome A), log[i]? = some (u, o) ∧ o = net i u ∧ ∀ a, o ≠ .ok a := by
  obtain ⟨hg, hp⟩ := C55_pass net urls
  rw [h] at hg hp
  simp only at hg hp
  intro u hu
  cases hp with
  | error hall =>
    obtain ⟨x, hx, hxu⟩ := hall.mem_ne_ok.2 u hu
    obtain ⟨i, hi⟩ := List.mem_iff_getElem?.mp hx
    refine ⟨i, x.2, by rw [hi, ← hxu], ?_, (hall.mem_ne_ok.1 x hx).2⟩
    have := hg i x.1 x.2 hi
    rw [hxu] at this; exact this
  | noUrls h0 => subst h0; simp at hu

/-- No server is asked more than three times per occurrence in the list during a pass. -/
theorem C55_attempts (net : Nat → Nat → Outcome A) (urls : List Nat) (u : Nat) :
    ((tryAll net urls none []).2.filter (fun x => x.1 = u)).length ≤ 3 * urls.count u := by
  have hseg : ∀ (v : Nat) (n : Nat) (o : Outcome A), n ≤ 2 →
      ((torns v n ++ [(v, o)] : Log A).filter (fun x => x.1 = u)).length ≤ 3 * [v].count u := by
    intro v n o hn
    rcases Decidable.em (v = u) with rfl | hne
    · refine Nat.le_trans (List.length_filter_le _ _) ?_
      simp [torns]; omega
    · rw [List.filter_eq_nil_iff.mpr]
      · simp
      · intro x hx
        simp only [torns, List.mem_append, List.mem_replicate, List.mem_singleton] at hx
        rcases hx with ⟨-, rfl⟩ | rfl <;> simpa using hne
  have hall : ∀ {us : List Nat} {l : Log A} {e : Option SyncErr}, AllGaveUp us l e →
      (l.filter (fun x => x.1 = u)).length ≤ 3 * us.count u := by
    intro us l e h
    induction h with
    | nil => simp
    | @snoc urls l seg e v e' hall hg ih =>
      rw [List.filter_append, List.length_append, List.count_append, Nat.mul_add]
      refine Nat.add_le_add ih ?_
      rcases hg with ⟨n, c, hn, rfl, -⟩ | ⟨rfl, -⟩
      · exact hseg v n _ hn
      · rw [torns_succ]; exact hseg v 2 _ (Nat.le_refl _)
  obtain ⟨-, hp⟩ := C55_pass net urls
  revert hp
  generalize (tryAll net urls none []).2 = log
  generalize (tryAll net urls none []).1 = r
  intro hp
  cases hp with
  | @ok pre post v l seg e a hu hal hd =>
    obtain ⟨n, hn, rfl⟩ := hd
    rw [hu, List.filter_append, List.length_append, List.count_append, Nat.mul_add]
    refine Nat.add_le_add (hall hal) (Nat.le_trans (hseg v n _ hn) ?_)
    rw [List.count_cons, List.count_cons, List.count_nil]
    omega
  | error h => exact hall h
  | noUrls h => simp

/-- What the whole fetch with retries does: failing passes, at most `left`, and then the last pass, whose
result is returned. -/
inductive Retried (urls : List Nat) : Nat → Log A → Except SyncErr A → Prop
  | last {log : Log A} {r : Except SyncErr A} {left : Nat} : Pass urls log r →
      (left = 0 ∨ ∃ a, r = .ok a) → Retried urls left log r
  | again {l log : Log A} {e : SyncErr} {r : Except SyncErr A} {left : Nat} : Pass urls l (.error e) →
      Retried urls left log r → Retried urls (left + 1) (l ++ log) r

/-- The fetch with retries makes up to five passes: it stops at the first pass that delivers an anchor
and reports an error only after five failing passes. -/
theorem C55_retry (net : Nat → Nat → Outcome A) (urls : List Nat) :
    Genuine net (withRetry net urls (maxCheckpointAttempts - 1) []).2 ∧
    Retried urls 4 (withRetry net urls (maxCheckpointAttempts - 1) []).2
      (withRetry net urls (maxCheckpointAttempts - 1) []).1 := by
  have key : ∀ (left : Nat) (base : Log A), Genuine net base →
      Genuine net (withRetry net urls left base).2 ∧
      ∃ seg, (withRetry net urls left base).2 = base ++ seg ∧
        Retried urls left seg (withRetry net urls left base).1 := by
    intro left
    induction left with
    | zero =>
      intro base hg
      have := tryAll_spec net base urls [] [] none .nil (by simpa using hg)
      simp only [List.append_nil, List.nil_append] at this
      obtain ⟨h1, seg, h2, h3⟩ := this
      unfold withRetry
      exact ⟨h1, seg, h2, .last h3 (.inl rfl)⟩
    | succ left ih =>
      intro base hg
      have := tryAll_spec net base urls [] [] none .nil (by simpa using hg)
      simp only [List.append_nil, List.nil_append] at this
      obtain ⟨h1, seg, h2, h3⟩ := this
      unfold withRetry
      match ht : tryAll net urls none base with
      | (.ok a, log) =>
        rw [ht] at h1 h2 h3
        exact ⟨h1, seg, h2, .last h3 (.inr ⟨a, rfl⟩)⟩
      | (.error e, log) =>
        rw [ht] at h1 h2 h3
        simp only at h1 h2 h3 ⊢
        obtain ⟨g1, seg', g2, g3⟩ := ih log h1
        exact ⟨g1, seg ++ seg', by rw [g2, h2, List.append_assoc], .again h3 g3⟩
  obtain ⟨h1, seg, h2, h3⟩ := key 4 [] (by intro i u o h; simp at h)
  refine ⟨h1, ?_⟩
  have h2' : (withRetry net urls (maxCheckpointAttempts - 1) []).2 = seg := by
    simpa [maxCheckpointAttempts] using h2
  rw [h2']; exact h3

/-- Server 7 is torn twice and then fails; server 8 is torn once and then delivers; server 9 is never
asked. -/
example : tryAll (fun n u => if u = 7 then (if n < 2 then .torn else .fail 5)
      else if n = 3 then .torn else (.ok 42 : Outcome Nat)) [7, 8, 9] none []
    = (.ok 42, [(7, .torn), (7, .torn), (7, .fail 5), (8, .torn), (8, .ok 42)]) := by decide +kernel

/-- Two servers that never deliver: five passes, twenty fetches, and the last error is reported. -/
example : (withRetry (fun _ u => if u = 7 then .torn else (.fail 5 : Outcome Nat)) [7, 8] 4 []).1
      = .error (.fail 5) ∧
    (withRetry (fun _ u => if u = 7 then .torn else (.fail 5 : Outcome Nat)) [7, 8] 4 []).2.length
      = 20 := by decide +kernel

end Verif.Ckpt
