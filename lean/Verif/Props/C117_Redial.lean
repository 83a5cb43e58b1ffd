import Verif.Model.Redial
import Mathlib.Data.List.Basic
import Mathlib.Data.List.Count
/-!
# C117: a node does not give up its bootnodes
-/
namespace Verif.Redial
open Verif

/-- Any sequence of events (newest first), with the status requests sent (oldest first). -/
inductive Run (n : Node) : List Ev → Node → List Peer → Prop
  | nil : Run n [] n []
  | step {evs : List Ev} {m : Node} {sent : List Peer} (ev : Ev) : Run n evs m sent →
      Run n (ev :: evs) (m.step ev).1 (sent ++ (m.step ev).2.toList)

/-- Everything that could be done at once is done: no command and no event waits, no timer is due. -/
def Node.Settled (m : Node) : Prop :=
  m.cmds = [] ∧ m.events = [] ∧ ∀ x ∈ m.timers, m.now < x.2

/-- The number of attempts to reach `p` that are under way: dials, commands to dial, timers, and failures
not yet handled. -/
def Node.attempts (m : Node) (p : Peer) : Nat :=
  m.dialing p + m.cmds.count p + (m.timers.map Prod.fst).count p + m.events.count (.dialError p)

/-! ## The count of connections along the queue -/

/-- Along the events of the queue the number of connections to `p` goes from `a` to `b`. -/
inductive Chain (p : Peer) : Nat → List SwarmEvent → Nat → Prop
  | nil {a : Nat} : Chain p a [] a
  | est {a b : Nat} {es : List SwarmEvent} : Chain p (a + 1) es b → Chain p a (.established p (a + 1) :: es) b
  | closed {a b : Nat} {es : List SwarmEvent} : Chain p a es b → Chain p (a + 1) (.closed p a :: es) b
  | skip {a b : Nat} {es : List SwarmEvent} {e : SwarmEvent} : (∀ k, e ≠ .established p k) →
      (∀ k, e ≠ .closed p k) → Chain p a es b → Chain p a (e :: es) b

theorem Chain.est_end {p : Peer} {a b : Nat} {es : List SwarmEvent} (h : Chain p a es b) :
    Chain p a (es ++ [.established p (b + 1)]) (b + 1) := by
  induction h with
  | nil => exact .est .nil
  | est _ ih => exact .est ih
  | closed _ ih => exact .closed ih
  | skip h1 h2 _ ih => exact .skip h1 h2 ih

theorem Chain.closed_end {p : Peer} {a b : Nat} {es : List SwarmEvent} (h : Chain p a es (b + 1)) :
    Chain p a (es ++ [.closed p b]) b := by
  generalize hc : b + 1 = c at h
  induction h with
  | nil => subst hc; exact .closed .nil
  | est _ ih => exact .est (ih hc)
  | closed _ ih => exact .closed (ih hc)
  | skip h1 h2 _ ih => exact .skip h1 h2 (ih hc)

theorem Chain.skip_end {p : Peer} {a b : Nat} {es : List SwarmEvent} {e : SwarmEvent}
    (h : Chain p a es b) (h1 : ∀ k, e ≠ .established p k) (h2 : ∀ k, e ≠ .closed p k) :
    Chain p a (es ++ [e]) b := by
  induction h with
  | nil => exact .skip h1 h2 .nil
  | est _ ih => exact .est ih
  | closed _ ih => exact .closed ih
  | skip k1 k2 _ ih => exact .skip k1 k2 ih

/-- What holds in all runs. -/
structure Inv (n m : Node) : Prop where
  boot : m.boot = n.boot
  view : ∀ p, ∃ a, (p ∈ m.connected ↔ 0 < a) ∧ Chain p a m.events (m.conns p)
  alive : ∀ p ∈ m.boot, p ∈ m.connected ∨ 0 < m.attempts p ∨ ∃ k, SwarmEvent.established p (k + 1) ∈ m.events
  due : ∀ x ∈ m.timers, x.2 ≤ m.now + redialMs
  only : (∀ x ∈ m.timers, x.1 ∈ m.boot) ∧ (∀ p ∈ m.cmds, p ∈ m.boot) ∧ ∀ p, 0 < m.dialing p → p ∈ m.boot

theorem inv_start (self : Peer) (listed : List Peer) (now : Nat) :
    Inv (start self listed now) (start self listed now) := by
  refine ⟨rfl, fun p => ⟨0, by simp [start], .nil⟩, fun p hp => .inr (.inl ?_), by simp [start],
    by simp [start], by simp [start], fun p hp => ?_⟩
  · have : 0 < (start self listed now).dialing p := List.count_pos_iff.2 hp
    unfold Node.attempts
    omega
  · exact List.count_pos_iff.1 hp

theorem count_eraseIdx {l : List (Peer × Nat)} {k : Nat} {x : Peer × Nat} (h : l[k]? = some x) (p : Peer) :
    (l.map Prod.fst).count p = ((l.eraseIdx k).map Prod.fst).count p + if x.1 = p then 1 else 0 := by
  induction l generalizing k with
  | nil => cases h
  | cons y l ih =>
    cases k with
    | zero =>
      cases h
      simp only [List.map_cons, List.eraseIdx_cons_zero, List.count_cons, beq_iff_eq]
    | succ k =>
      have := ih (k := k) h
      simp only [List.map_cons, List.eraseIdx_cons_succ, List.count_cons, this]
      omega

/-- The attempts after an event, for a bootnode. -/
theorem step_attempts {m : Node} {p : Peer} (hp : p ∈ m.boot) (ev : Ev) :
    ((m.step ev).1.attempts p = m.attempts p) ∨
    (∃ e es, ev = .take ∧ m.events = e :: es ∧
      ((e = .closed p 0 ∧ (m.step ev).1.attempts p = m.attempts p + 1) ∨
       (e = .dialError p ∧ p ∈ m.connected ∧ (m.step ev).1.attempts p + 1 = m.attempts p))) ∨
    (ev = .reached p ∧ (m.step ev).1.attempts p + 1 = m.attempts p) ∨
    (∃ k, ev = .fire k ∧ p ∈ m.connected ∧ (m.step ev).1.attempts p + 1 = m.attempts p) := by
  cases ev with
  | wait ms => exact .inl rfl
  | execute =>
    left
    unfold Node.step
    simp only
    split
    next e => rfl
    next q qs e =>
      simp only [Node.attempts, e, List.count_cons, upd, beq_iff_eq]
      by_cases h : p = q
      · subst h; simp only [if_true]; omega
      · simp only [if_neg h, if_neg (fun k : q = p => h k.symm)]; omega
  | reached q =>
    unfold Node.step
    simp only
    split
    · exact .inl rfl
    next hd =>
      by_cases h : p = q
      · subst h
        refine .inr (.inr (.inl ⟨rfl, ?_⟩))
        simp [Node.attempts, upd]
        omega
      · left
        simp [Node.attempts, upd, h]
  | failed q =>
    left
    unfold Node.step
    simp only
    split
    · rfl
    next hd =>
      by_cases h : p = q
      · subst h
        simp [Node.attempts, upd]
        omega
      · simp [Node.attempts, upd, h, List.count_cons]
        exact fun k => h k.symm
  | incoming q =>
    left
    unfold Node.step
    simp [Node.attempts]
  | lost q =>
    left
    unfold Node.step
    simp only
    split
    · rfl
    · simp [Node.attempts]
  | take =>
    unfold Node.step
    simp only
    split
    · exact .inl rfl
    next e es he =>
      cases e with
      | established q num =>
        left
        simp only [Node.handle]
        split <;> simp [Node.attempts, he]
      | closed q num =>
        simp only [Node.handle]
        split
        next hn =>
          subst hn
          by_cases h : q = p
          · subst h
            right; left
            refine ⟨_, es, trivial, he, .inl ⟨rfl, ?_⟩⟩
            rw [if_pos hp]
            simp [Node.attempts, Node.schedule, he]
            omega
          · left
            split <;> simp [Node.attempts, Node.schedule, he, h]
        · left
          simp [Node.attempts, he]
      | dialError q =>
        simp only [Node.handle]
        by_cases h : q = p
        · subst h
          by_cases hc : q ∈ m.connected
          · right; left
            refine ⟨_, es, trivial, he, .inr ⟨rfl, hc, ?_⟩⟩
            rw [if_neg (fun k => k.2 hc)]
            simp [Node.attempts, he]
            omega
          · left
            rw [if_pos ⟨hp, hc⟩]
            simp [Node.attempts, Node.schedule, he]
            omega
        · left
          split <;> simp [Node.attempts, Node.schedule, he, h]
  | fire k =>
    unfold Node.step
    simp only
    split
    · exact .inl rfl
    next q due he =>
      split
      · exact .inl rfl
      have hc := count_eraseIdx he p
      simp only [Node.redial]
      split
      next hq =>
        by_cases h : q = p
        · subst h
          right; right; right
          refine ⟨k, rfl, hq, ?_⟩
          simp only [if_true] at hc
          simp only [Node.attempts]
          omega
        · left
          simp only [if_neg h] at hc
          simp only [Node.attempts]
          omega
      next hq =>
        left
        by_cases h : q = p
        · subst h
          simp only [if_true] at hc
          rw [if_pos hp]
          simp [Node.attempts]
          omega
        · simp only [if_neg h] at hc
          split <;> simp [Node.attempts, h] <;> omega

theorem step_boot (m : Node) (ev : Ev) : (m.step ev).1.boot = m.boot := by
  cases ev <;> simp only [Node.step]
  · split <;> rfl
  · split <;> rfl
  · split <;> rfl
  · split <;> rfl
  · split
    · rfl
    next e es _ =>
      cases e <;> simp only [Node.handle] <;> split <;> try rfl
      split <;> rfl
  · split
    · rfl
    · split
      · rfl
      · unfold Node.redial
        split
        · rfl
        · split <;> rfl

/-- What is connected after an event. -/
theorem step_connected (m : Node) (ev : Ev) (p : Peer) :
    (p ∈ (m.step ev).1.connected ↔ p ∈ m.connected) ∨
    (∃ es, ev = .take ∧ m.events = .established p 1 :: es ∧ p ∈ (m.step ev).1.connected) ∨
    (∃ es, ev = .take ∧ m.events = .closed p 0 :: es ∧ p ∉ (m.step ev).1.connected) := by
  cases ev with
  | wait ms => exact .inl .rfl
  | execute => left; simp only [Node.step]; split <;> exact .rfl
  | reached q => left; simp only [Node.step]; split <;> exact .rfl
  | failed q => left; simp only [Node.step]; split <;> exact .rfl
  | incoming q => exact .inl .rfl
  | lost q => left; simp only [Node.step]; split <;> exact .rfl
  | fire k =>
    left
    simp only [Node.step]
    split
    · exact .rfl
    · split
      · exact .rfl
      · unfold Node.redial
        split
        · exact .rfl
        · split <;> exact .rfl
  | take =>
    simp only [Node.step]
    split
    · exact .inl .rfl
    next e es he =>
      cases e with
      | established q num =>
        simp only [Node.handle]
        split
        next hn =>
          subst hn
          by_cases h : q = p
          · subst h
            refine .inr (.inl ⟨es, trivial, he, ?_⟩)
            simp only
            split
            · assumption
            · simp
          · left
            simp only
            split
            · exact .rfl
            · simp only [List.mem_append, List.mem_singleton]
              exact ⟨fun k => k.resolve_right (fun k => h k.symm), .inl⟩
        · exact .inl .rfl
      | closed q num =>
        simp only [Node.handle]
        split
        next hn =>
          subst hn
          by_cases h : q = p
          · subst h
            refine .inr (.inr ⟨es, trivial, he, ?_⟩)
            split <;> simp [Node.schedule]
          · left
            split <;> simp only [Node.schedule, List.mem_filter, decide_eq_true_eq] <;>
              exact ⟨And.left, fun k => ⟨k, fun k => h k.symm⟩⟩
        · exact .inl .rfl
      | dialError q =>
        left
        simp only [Node.handle]
        split <;> exact .rfl

/-- The first event of the queue. -/
theorem Chain.first {p : Peer} {a b : Nat} {e : SwarmEvent} {es : List SwarmEvent} (h : Chain p a (e :: es) b) :
    ∃ a', Chain p a' es b ∧
      ((e = .established p (a + 1) ∧ a' = a + 1) ∨ (e = .closed p a' ∧ a = a' + 1) ∨
       ((∀ k, e ≠ .established p k) ∧ (∀ k, e ≠ .closed p k) ∧ a' = a)) := by
  cases h with
  | est h => exact ⟨_, h, .inl ⟨rfl, rfl⟩⟩
  | closed h => exact ⟨_, h, .inr (.inl ⟨rfl, rfl⟩)⟩
  | skip h1 h2 h => exact ⟨_, h, .inr (.inr ⟨h1, h2, rfl⟩)⟩

theorem handle_events (n : Node) (e : SwarmEvent) :
    (n.handle e).1.events = n.events ∧ (n.handle e).1.conns = n.conns ∧ (n.handle e).1.cmds = n.cmds ∧
    (n.handle e).1.dialing = n.dialing ∧ (n.handle e).1.now = n.now ∧
    ((n.handle e).1.timers = n.timers ∨ ∃ p ∈ n.boot, (n.handle e).1.timers = n.timers ++ [(p, n.now + redialMs)]) := by
  cases e <;> simp only [Node.handle] <;> split
  · exact ⟨rfl, rfl, rfl, rfl, rfl, .inl rfl⟩
  · exact ⟨rfl, rfl, rfl, rfl, rfl, .inl rfl⟩
  · split
    next h => exact ⟨rfl, rfl, rfl, rfl, rfl, .inr ⟨_, h, rfl⟩⟩
    · exact ⟨rfl, rfl, rfl, rfl, rfl, .inl rfl⟩
  · exact ⟨rfl, rfl, rfl, rfl, rfl, .inl rfl⟩
  next h => exact ⟨rfl, rfl, rfl, rfl, rfl, .inr ⟨_, h.1, rfl⟩⟩
  · exact ⟨rfl, rfl, rfl, rfl, rfl, .inl rfl⟩

theorem redial_same (n : Node) (p : Peer) :
    (n.redial p).events = n.events ∧ (n.redial p).conns = n.conns ∧ (n.redial p).timers = n.timers ∧
    (n.redial p).dialing = n.dialing ∧ (n.redial p).now = n.now ∧
    ((n.redial p).cmds = n.cmds ∨ (p ∈ n.boot ∧ (n.redial p).cmds = n.cmds ++ [p])) := by
  unfold Node.redial
  split
  · exact ⟨rfl, rfl, rfl, rfl, rfl, .inl rfl⟩
  · split
    next h => exact ⟨rfl, rfl, rfl, rfl, rfl, .inr ⟨h, rfl⟩⟩
    · exact ⟨rfl, rfl, rfl, rfl, rfl, .inl rfl⟩

/-- The queue and the number of connections go together. -/
theorem step_view {n m : Node} (I : Inv n m) (ev : Ev) (p : Peer) :
    ∃ a, (p ∈ (m.step ev).1.connected ↔ 0 < a) ∧ Chain p a (m.step ev).1.events ((m.step ev).1.conns p) := by
  obtain ⟨a, h1, h2⟩ := I.view p
  cases ev with
  | wait ms => exact ⟨a, h1, h2⟩
  | execute => simp only [Node.step]; split <;> exact ⟨a, h1, h2⟩
  | reached q =>
    simp only [Node.step]
    split
    · exact ⟨a, h1, h2⟩
    · refine ⟨a, h1, ?_⟩
      by_cases h : p = q
      · subst h; simp only [upd, if_true]; exact h2.est_end
      · simp only [upd, if_neg h]
        exact h2.skip_end (fun k e => h (by cases e; rfl)) (fun k e => by cases e)
  | failed q =>
    simp only [Node.step]
    split
    · exact ⟨a, h1, h2⟩
    · exact ⟨a, h1, h2.skip_end (fun k e => by cases e) (fun k e => by cases e)⟩
  | incoming q =>
    simp only [Node.step]
    refine ⟨a, h1, ?_⟩
    by_cases h : p = q
    · subst h; simp only [upd, if_true]; exact h2.est_end
    · simp only [upd, if_neg h]
      exact h2.skip_end (fun k e => h (by cases e; rfl)) (fun k e => by cases e)
  | lost q =>
    simp only [Node.step]
    split
    · exact ⟨a, h1, h2⟩
    next hc =>
      refine ⟨a, h1, ?_⟩
      by_cases h : p = q
      · subst h
        simp only [upd, if_true]
        obtain ⟨x, hx⟩ : ∃ x, m.conns p = x + 1 := ⟨m.conns p - 1, by omega⟩
        rw [hx] at h2 ⊢
        exact h2.closed_end
      · simp only [upd, if_neg h]
        exact h2.skip_end (fun k e => by cases e) (fun k e => h (by cases e; rfl))
  | fire k =>
    have hc := step_connected m (.fire k) p
    rcases hc with hc | ⟨es, h, -⟩ | ⟨es, h, -⟩
    · refine ⟨a, hc.trans h1, ?_⟩
      simp only [Node.step]
      split
      · exact h2
      next q due he =>
        split
        · exact h2
        · rw [(redial_same _ q).1, (redial_same _ q).2.1]; exact h2
    · cases h
    · cases h
  | take =>
    have hc := step_connected m .take p
    cases he : m.events with
    | nil =>
      have : m.step .take = (m, none) := by simp only [Node.step, he]
      rw [this]
      exact ⟨a, h1, h2⟩
    | cons e es =>
      have hs : m.step .take = Node.handle { m with events := es } e := by simp only [Node.step, he]
      rw [he] at h2 hc
      obtain ⟨a', c1, c2⟩ := h2.first
      refine ⟨a', ?_, ?_⟩
      · rcases hc with hc | ⟨es', -, h, h'⟩ | ⟨es', -, h, h'⟩
        · rw [hc, h1]
          rcases c2 with ⟨c2, c3⟩ | ⟨c2, c3⟩ | ⟨-, -, c3⟩
          · -- a second connection
            rcases Nat.eq_zero_or_pos a with h0 | h0
            · exfalso
              subst h0
              subst c2
              have : p ∈ (m.step .take).1.connected := by
                rw [hs]
                simp only [Node.handle, if_true]
                split
                · assumption
                · simp
              exact absurd (h1.1 (hc.1 this)) (Nat.lt_irrefl 0)
            · omega
          · rcases Nat.eq_zero_or_pos a' with h0 | h0
            · exfalso
              subst h0
              subst c2
              have : p ∉ (m.step .take).1.connected := by
                rw [hs]
                simp only [Node.handle, if_true]
                split <;> simp [Node.schedule]
              exact this (hc.2 (h1.2 (by omega)))
            · omega
          · rw [c3]
        · refine iff_of_true h' ?_
          cases h
          rcases c2 with ⟨c2, c3⟩ | ⟨c2, -⟩ | ⟨c2, -, -⟩
          · omega
          · cases c2
          · exact absurd rfl (c2 1)
        · refine iff_of_false h' ?_
          cases h
          rcases c2 with ⟨c2, c3⟩ | ⟨c2, c3⟩ | ⟨-, c2, -⟩
          · cases c2
          · cases c2; omega
          · exact absurd rfl (c2 0)
      · rw [hs, (handle_events _ e).1, (handle_events _ e).2.1]
        exact c1

theorem step_alive {n m : Node} (I : Inv n m) (ev : Ev) {p : Peer} (hp : p ∈ m.boot) :
    p ∈ (m.step ev).1.connected ∨ 0 < (m.step ev).1.attempts p ∨
      ∃ k, SwarmEvent.established p (k + 1) ∈ (m.step ev).1.events := by
  have hA := step_attempts hp ev
  have hC := step_connected m ev p
  obtain ⟨a, v1, v2⟩ := I.view p
  rcases hC with hC | ⟨es, -, -, hC⟩ | ⟨es, hev, he, hC⟩
  · rcases I.alive p hp with h | h | ⟨k, h⟩
    · exact .inl (hC.2 h)
    · rcases hA with hA | ⟨e, es, hev, he, ⟨-, hA⟩ | ⟨-, hA, -⟩⟩ | ⟨hev, hA⟩ | ⟨k, -, hA, -⟩
      · exact .inr (.inl (by omega))
      · exact .inr (.inl (by omega))
      · exact .inl (hC.2 hA)
      · subst hev
        by_cases hd : m.dialing p = 0
        · simp only [Node.step, if_pos hd] at hA
          exact absurd hA (Nat.succ_ne_self _)
        · simp only [Node.step, if_neg hd]
          exact .inr (.inr ⟨m.conns p, by simp⟩)
      · exact .inl (hC.2 hA)
    · -- the event may be the one taken
      have keep : (∃ l, (m.step ev).1.events = m.events ++ l) → ∃ k, SwarmEvent.established p (k + 1) ∈ (m.step ev).1.events := by
        rintro ⟨l, e⟩
        exact ⟨k, by rw [e]; exact List.mem_append_left _ h⟩
      cases ev with
      | take =>
        cases he : m.events with
        | nil => rw [he] at h; cases h
        | cons e es =>
          have hs : m.step .take = Node.handle { m with events := es } e := by simp only [Node.step, he]
          rw [he] at h
          rcases List.mem_cons.1 h with h | h
          · left
            rw [hC, v1]
            rw [he, ← h] at v2
            obtain ⟨a', c1, ⟨c2, c3⟩ | ⟨c2, -⟩ | ⟨c2, -, -⟩⟩ := v2.first
            · rcases Nat.eq_zero_or_pos a with h0 | h0
              · exfalso
                subst h0
                cases c2
                subst h
                have : p ∈ (m.step .take).1.connected := by
                  rw [hs]
                  simp only [Node.handle]
                  simp only [if_true]
                  split
                  · assumption
                  · simp
                exact absurd (v1.1 (hC.1 this)) (Nat.lt_irrefl 0)
              · exact h0
            · cases c2
            · exact absurd rfl (c2 _)
          · right; right
            refine ⟨k, ?_⟩
            rw [hs, (handle_events _ e).1]
            exact h
      | wait ms => exact .inr (.inr (keep ⟨[], by simp [Node.step]⟩))
      | execute =>
        refine .inr (.inr (keep ⟨[], ?_⟩))
        simp only [Node.step]
        split <;> simp
      | reached q =>
        refine .inr (.inr (keep ?_))
        simp only [Node.step]
        split
        · exact ⟨[], by simp⟩
        · exact ⟨_, rfl⟩
      | failed q =>
        refine .inr (.inr (keep ?_))
        simp only [Node.step]
        split
        · exact ⟨[], by simp⟩
        · exact ⟨_, rfl⟩
      | incoming q => exact .inr (.inr (keep ⟨_, rfl⟩))
      | lost q =>
        refine .inr (.inr (keep ?_))
        simp only [Node.step]
        split
        · exact ⟨[], by simp⟩
        · exact ⟨_, rfl⟩
      | fire k' =>
        refine .inr (.inr (keep ⟨[], ?_⟩))
        simp only [Node.step]
        split
        · simp
        next q due _ =>
          split
          · simp
          · rw [(redial_same _ q).1]; simp
  · exact .inl hC
  · -- the last connection is closed
    right; left
    subst hev
    have hs : m.step .take = Node.handle { m with events := es } (.closed p 0) := by simp only [Node.step, he]
    rw [hs]
    simp only [Node.handle, if_true]
    rw [if_pos hp]
    simp [Node.attempts, Node.schedule]
    omega

theorem Inv.step {n m : Node} (I : Inv n m) (ev : Ev) : Inv n (m.step ev).1 := by
  have hb := step_boot m ev
  refine ⟨hb.trans I.boot, step_view I ev, fun p hp => step_alive I ev (hb ▸ hp), ?_, ?_⟩
  · cases ev with
    | wait ms => exact fun x hx => Nat.le_trans (I.due x hx) (by simp [Node.step])
    | execute => simp only [Node.step]; split <;> exact I.due
    | reached q => simp only [Node.step]; split <;> exact I.due
    | failed q => simp only [Node.step]; split <;> exact I.due
    | incoming q => exact I.due
    | lost q => simp only [Node.step]; split <;> exact I.due
    | take =>
      simp only [Node.step]
      split
      · exact I.due
      next e es he =>
        obtain ⟨-, -, -, -, h5, h6⟩ := handle_events { m with events := es } e
        rw [h5]
        rcases h6 with h6 | ⟨p, -, h6⟩
        · rw [h6]; exact I.due
        · rw [h6]
          intro x hx
          rcases List.mem_append.1 hx with hx | hx
          · exact I.due x hx
          · rw [List.mem_singleton.1 hx]
            exact Nat.le_refl _
    | fire k =>
      simp only [Node.step]
      split
      · exact I.due
      next q due he =>
        split
        · exact I.due
        · obtain ⟨-, -, h3, -, h5, -⟩ := redial_same { m with timers := m.timers.eraseIdx k } q
          rw [h3, h5]
          exact fun x hx => I.due x (List.mem_of_mem_eraseIdx hx)
  · rw [hb]
    obtain ⟨o1, o2, o3⟩ := I.only
    cases ev with
    | wait ms => exact I.only
    | execute =>
      simp only [Node.step]
      split
      · exact I.only
      next p ps he =>
        rw [he] at o2
        refine ⟨o1, fun q hq => o2 q (List.mem_cons_of_mem _ hq), fun q hq => ?_⟩
        simp only [upd] at hq
        split at hq
        next h => rw [h]; exact o2 p List.mem_cons_self
        · exact o3 q hq
    | reached p =>
      simp only [Node.step]
      split
      · exact I.only
      next hd =>
        refine ⟨o1, o2, fun q hq => ?_⟩
        simp only [upd] at hq
        split at hq
        next h => rw [h]; exact o3 p (by omega)
        · exact o3 q hq
    | failed p =>
      simp only [Node.step]
      split
      · exact I.only
      next hd =>
        refine ⟨o1, o2, fun q hq => ?_⟩
        simp only [upd] at hq
        split at hq
        next h => rw [h]; exact o3 p (by omega)
        · exact o3 q hq
    | incoming q => exact I.only
    | lost q => simp only [Node.step]; split <;> exact I.only
    | take =>
      simp only [Node.step]
      split
      · exact I.only
      next e es he =>
        obtain ⟨-, -, h3, h4, -, h6⟩ := handle_events { m with events := es } e
        rw [h3, h4]
        refine ⟨?_, o2, o3⟩
        rcases h6 with h6 | ⟨p, hp, h6⟩
        · rw [h6]; exact o1
        · rw [h6]
          intro x hx
          rcases List.mem_append.1 hx with hx | hx
          · exact o1 x hx
          · rw [List.mem_singleton.1 hx]; exact hp
    | fire k =>
      simp only [Node.step]
      split
      · exact I.only
      next q due he =>
        split
        · exact I.only
        · obtain ⟨-, -, h3, h4, -, h6⟩ := redial_same { m with timers := m.timers.eraseIdx k } q
          rw [h3, h4]
          refine ⟨fun x hx => o1 x (List.mem_of_mem_eraseIdx hx), ?_, o3⟩
          rcases h6 with h6 | ⟨hp, h6⟩
          · rw [h6]; exact o2
          · rw [h6]
            intro x hx
            rcases List.mem_append.1 hx with hx | hx
            · exact o2 x hx
            · rw [List.mem_singleton.1 hx]; exact hp

theorem Run.inv {n m : Node} {evs : List Ev} {sent : List Peer} (h0 : Inv n n) (h : Run n evs m sent) :
    Inv n m := by
  induction h with
  | nil => exact h0
  | step ev _ ih => exact ih.step ev

/-! ## The theorems -/

section
variable {self : Peer} {listed : List Peer} {t : Nat} {evs : List Ev} {m : Node} {sent : List Peer}

theorem mem_boot {p : Peer} : p ∈ (start self listed t).boot ↔ p ∈ listed ∧ p ≠ self := by
  simp [start]

/-- **C117.** Whatever happened, a bootnode the node is not connected to is being dialled, or will be in
at most 12 seconds (in any state in which all that could be done at once is done). -/
theorem C117_not_given_up (h : Run (start self listed t) evs m sent) (hm : m.Settled) {p : Peer}
    (hp : p ∈ listed) (hs : p ≠ self) (hc : m.conns p = 0) :
    0 < m.dialing p ∨ ∃ due, (p, due) ∈ m.timers ∧ m.now < due ∧ due ≤ m.now + 12000 := by
  have I := h.inv (inv_start self listed t)
  obtain ⟨m1, m2, m3⟩ := hm
  obtain ⟨a, v1, v2⟩ := I.view p
  rw [m2, hc] at v2
  cases v2
  rcases I.alive p (by rw [I.boot]; exact mem_boot.2 ⟨hp, hs⟩) with h | h | ⟨k, h⟩
  · exact absurd (v1.1 h) (Nat.lt_irrefl 0)
  · unfold Node.attempts at h
    rw [m1, m2] at h
    simp only [List.count_nil, Nat.add_zero] at h
    rcases Nat.eq_zero_or_pos (m.dialing p) with hd | hd
    · rw [hd, Nat.zero_add] at h
      obtain ⟨x, hx, hx2⟩ := List.mem_map.1 (List.count_pos_iff.1 h)
      subst hx2
      exact .inr ⟨x.2, hx, m3 x hx, I.due x hx⟩
    · exact .inl hd
  · rw [m2] at h; cases h

/-- **C117, the timer.** When such a timer is due, firing it dials the bootnode, unless the node is
connected to it by then. -/
theorem C117_redials (h : Run (start self listed t) evs m sent) {k : Nat} {p : Peer} {due : Nat}
    (hk : m.timers[k]? = some (p, due)) (hd : due ≤ m.now) (hcmd : m.cmds = []) :
    (p ∉ m.connected → (((m.step (.fire k)).1.step .execute).1.dialing p = m.dialing p + 1)) ∧
    (p ∈ m.connected → (m.step (.fire k)).1.cmds = [] ∧ (m.step (.fire k)).1.dialing = m.dialing) := by
  have I := h.inv (inv_start self listed t)
  have hb := I.only.1 _ (List.mem_of_getElem? hk)
  constructor
  · intro hc
    have e1 : (m.step (.fire k)).1 = { m with timers := m.timers.eraseIdx k, cmds := [p] } := by
      simp only [Node.step, hk, if_neg (Nat.not_lt.2 hd), Node.redial, if_neg hc]
      rw [if_pos hb, hcmd]
      rfl
    rw [e1]
    simp [Node.step, upd]
  · intro hc
    simp only [Node.step, hk, if_neg (Nat.not_lt.2 hd), Node.redial, if_pos hc, hcmd]
    trivial

/-- **C117, who is dialled.** Only bootnodes are dialled, and never the node itself. -/
theorem C117_only (h : Run (start self listed t) evs m sent) {p : Peer} (hd : 0 < m.dialing p) :
    p ∈ listed ∧ p ≠ self := by
  have I := h.inv (inv_start self listed t)
  have := I.only.2.2 p hd
  rw [I.boot] at this
  exact mem_boot.1 this

/-- **C117, the connected peers.** Once all events are handled, the peers the node takes to be connected
are exactly those it has a connection to. -/
theorem C117_connected (h : Run (start self listed t) evs m sent) (he : m.events = []) (p : Peer) :
    p ∈ m.connected ↔ 0 < m.conns p := by
  obtain ⟨a, v1, v2⟩ := (h.inv (inv_start self listed t)).view p
  rw [he] at v2
  cases v2
  exact v1

/-- **C117, the greeting.** A status request is sent to a peer exactly when it becomes connected. -/
theorem C117_greeted (h : Run (start self listed t) evs m sent) (ev : Ev) (p : Peer) :
    (m.step ev).2 = some p ↔ p ∉ m.connected ∧ p ∈ (m.step ev).1.connected := by
  obtain ⟨a, v1, v2⟩ := (h.inv (inv_start self listed t)).view p
  constructor
  · intro hs
    have key : ∃ es, ev = .take ∧ m.events = .established p 1 :: es := by
      cases ev with
      | take =>
        simp only [Node.step] at hs
        split at hs
        · cases hs
        next e es he =>
          cases e with
          | established q num =>
            simp only [Node.handle] at hs
            split at hs
            next hn => cases hs; subst hn; exact ⟨es, rfl, he⟩
            · cases hs
          | closed q num =>
            simp only [Node.handle] at hs
            split at hs <;> cases hs
          | dialError q => cases hs
      | wait ms => cases hs
      | execute => simp only [Node.step] at hs; split at hs <;> cases hs
      | reached q => simp only [Node.step] at hs; split at hs <;> cases hs
      | failed q => simp only [Node.step] at hs; split at hs <;> cases hs
      | incoming q => cases hs
      | lost q => simp only [Node.step] at hs; split at hs <;> cases hs
      | fire k =>
        simp only [Node.step] at hs
        split at hs
        · cases hs
        · split at hs <;> cases hs
    obtain ⟨es, rfl, he⟩ := key
    rw [he] at v2
    obtain ⟨a', -, ⟨c2, -⟩ | ⟨c2, -⟩ | ⟨c2, -, -⟩⟩ := v2.first
    · have h0 : a = 0 := by injection c2 with _ c2; omega
      subst h0
      refine ⟨fun k => absurd (v1.1 k) (Nat.lt_irrefl 0), ?_⟩
      simp only [Node.step, he, Node.handle, if_true]
      split
      · assumption
      · simp
    · cases c2
    · exact absurd rfl (c2 1)
  · rintro ⟨h1, h2⟩
    rcases step_connected m ev p with hc | ⟨es, rfl, he, -⟩ | ⟨es, -, -, hc⟩
    · exact absurd (hc.1 h2) h1
    · simp only [Node.step, he, Node.handle, if_true]
    · exact absurd h2 hc

/-- **C117, at most one attempt: partially.** The attempts to reach a bootnode that are under way are no
more than its first dials (one, if it is listed once) and the connections to it that were lost. Missing:
at most one. -/
theorem C117_one_partial (h : Run (start self listed t) evs m sent) {p : Peer} (hp : p ∈ listed)
    (hs : p ≠ self) : m.attempts p ≤ listed.count p + evs.count (.lost p) := by
  suffices H : m.attempts p + m.events.count (.closed p 0) ≤ listed.count p + evs.count (.lost p) by omega
  induction h with
  | nil =>
    simp only [Node.attempts, start, List.count_nil, List.map_nil, Nat.add_zero]
    exact List.Sublist.count_le _ List.filter_sublist
  | @step evs m sent ev h ih =>
    have I := h.inv (inv_start self listed t)
    have hb : p ∈ m.boot := by rw [I.boot]; exact mem_boot.2 ⟨hp, hs⟩
    have hA := step_attempts hb ev
    have hcnt : evs.count (.lost p) ≤ (ev :: evs).count (.lost p) := List.count_le_count_cons
    have rest : (m.step ev).1.events.count (.closed p 0) = m.events.count (.closed p 0) → ev ≠ .take →
        (m.step ev).1.attempts p + (m.step ev).1.events.count (.closed p 0) ≤
          listed.count p + (ev :: evs).count (.lost p) := by
      intro k1 k2
      rw [k1]
      rcases hA with hA | ⟨e', es', hA, -⟩ | ⟨-, hA⟩ | ⟨k, -, -, hA⟩
      · omega
      · exact absurd hA k2
      · omega
      · omega
    cases ev with
    | take =>
      cases he : m.events with
      | nil =>
        have : m.step .take = (m, none) := by simp only [Node.step, he]
        rw [this]
        show m.attempts p + m.events.count (.closed p 0) ≤ _
        exact Nat.le_trans ih (by omega)
      | cons e es =>
        have hev : (m.step .take).1.events = es := by
          simp only [Node.step, he]; exact (handle_events _ e).1
        rw [hev]
        rw [he, List.count_cons] at ih
        rcases hA with hA | ⟨e', es', -, he', ⟨h1, hA⟩ | ⟨-, -, hA⟩⟩ | ⟨hA, -⟩ | ⟨k, hA, -⟩
        · omega
        · rw [he] at he'
          cases he'
          subst h1
          simp only [beq_self_eq_true, if_true] at ih
          omega
        · omega
        · cases hA
        · cases hA
    | lost q =>
      simp only [Node.step] at hA ⊢
      by_cases hc : m.conns q = 0
      · simp only [if_pos hc]; omega
      · simp only [if_neg hc] at hA ⊢
        have e1 : ∀ x : Nat, (m.events ++ [SwarmEvent.closed q x]).count (.closed p 0) ≤
            m.events.count (.closed p 0) + if q = p then 1 else 0 := by
          intro x
          rw [List.count_append, List.count_singleton]
          by_cases hq : q = p
          · simp only [if_pos hq]; split <;> omega
          · have : ¬ (SwarmEvent.closed q x == SwarmEvent.closed p 0) = true := by
              simp [hq]
            simp only [if_neg hq, if_neg this]; omega
        have e2 : (Ev.lost q :: evs).count (.lost p) = evs.count (.lost p) + if q = p then 1 else 0 := by
          rw [List.count_cons]
          by_cases hq : q = p <;> simp [hq]
        have e1 := e1 (m.conns q - 1)
        rcases hA with hA | ⟨e', es', hA, -⟩ | ⟨hA, -⟩ | ⟨k, hA, -⟩
        · rw [hA, e2]; omega
        · cases hA
        · cases hA
        · cases hA
    | wait ms => exact Nat.le_trans ih (by omega)
    | execute =>
      refine rest ?_ (fun k => by cases k)
      simp only [Node.step]
      split <;> rfl
    | reached q =>
      refine rest ?_ (fun k => by cases k)
      simp only [Node.step]
      split <;> simp
    | failed q =>
      refine rest ?_ (fun k => by cases k)
      simp only [Node.step]
      split <;> simp
    | incoming q =>
      refine rest ?_ (fun k => by cases k)
      simp [Node.step]
    | fire k =>
      refine rest ?_ (fun k => by cases k)
      simp only [Node.step]
      split
      · rfl
      next q _ _ =>
        split
        · rfl
        · rw [(redial_same _ q).1]

/-- **C117, attempts do not end by themselves.** Until the node has contact with the bootnode again, the
number of attempts under way stays exactly the same. -/
theorem C117_forever (h : Run (start self listed t) evs m sent) {p : Peer} (hp : p ∈ listed) (hs : p ≠ self)
    (he : m.events = []) (hc : m.conns p = 0) {later : List Ev} {m' : Node} {sent' : List Peer}
    (h' : Run m later m' sent') (h1 : Ev.reached p ∉ later) (h2 : Ev.incoming p ∉ later) :
    m'.attempts p = m.attempts p := by
  have I := h.inv (inv_start self listed t)
  have hb : p ∈ m.boot := by rw [I.boot]; exact mem_boot.2 ⟨hp, hs⟩
  suffices H : m'.attempts p = m.attempts p ∧ Inv (start self listed t) m' ∧ m'.conns p = 0 ∧
      p ∉ m'.connected ∧ (∀ k, SwarmEvent.established p k ∉ m'.events) ∧
      (∀ k, SwarmEvent.closed p k ∉ m'.events) from H.1
  induction h' with
  | nil =>
    refine ⟨rfl, I, hc, fun k => ?_, by simp [he], by simp [he]⟩
    have := (C117_connected h he p).1 k
    omega
  | @step later x sent' ev g ih =>
    obtain ⟨i1, J, i2, i3, i4, i5⟩ := ih (fun k => h1 (List.mem_cons_of_mem _ k)) (fun k => h2 (List.mem_cons_of_mem _ k))
    have hx : p ∈ x.boot := by rw [J.boot, ← I.boot]; exact hb
    have hA : (x.step ev).1.attempts p = x.attempts p := by
      rcases step_attempts hx ev with hA | ⟨e, es, -, g1, ⟨g2, -⟩ | ⟨-, g2, -⟩⟩ | ⟨g1, -⟩ | ⟨k, -, g1, -⟩
      · exact hA
      · subst g2; exact absurd (by rw [g1]; exact List.mem_cons_self) (i5 0)
      · exact absurd g2 i3
      · subst g1; exact absurd List.mem_cons_self h1
      · exact absurd g1 i3
    have hC : p ∉ (x.step ev).1.connected := by
      rcases step_connected x ev p with hC | ⟨es, -, g1, -⟩ | ⟨es, -, g1, -⟩
      · exact fun k => i3 (hC.1 k)
      · exact absurd (by rw [g1]; exact List.mem_cons_self) (i4 1)
      · exact absurd (by rw [g1]; exact List.mem_cons_self) (i5 0)
    have key : (x.step ev).1.conns p = 0 ∧ ∀ e ∈ (x.step ev).1.events, e ∈ x.events ∨
        ((∀ k, e ≠ .established p k) ∧ ∀ k, e ≠ .closed p k) := by
      cases ev with
      | wait ms => exact ⟨i2, fun e k => .inl k⟩
      | execute => simp only [Node.step]; split <;> exact ⟨i2, fun e k => .inl k⟩
      | reached q =>
        have hq : p ≠ q := fun k => h1 (k ▸ List.mem_cons_self)
        simp only [Node.step]
        split
        · exact ⟨i2, fun e k => .inl k⟩
        · refine ⟨by simp only [upd, if_neg hq]; exact i2, fun e k => ?_⟩
          rcases List.mem_append.1 k with k | k
          · exact .inl k
          · rw [List.mem_singleton.1 k]
            exact .inr ⟨fun k e => hq (by cases e; rfl), fun k e => by cases e⟩
      | incoming q =>
        have hq : p ≠ q := fun k => h2 (k ▸ List.mem_cons_self)
        refine ⟨by simp only [Node.step, upd, if_neg hq]; exact i2, fun e k => ?_⟩
        rcases List.mem_append.1 k with k | k
        · exact .inl k
        · rw [List.mem_singleton.1 k]
          exact .inr ⟨fun k e => hq (by cases e; rfl), fun k e => by cases e⟩
      | failed q =>
        simp only [Node.step]
        split
        · exact ⟨i2, fun e k => .inl k⟩
        · refine ⟨i2, fun e k => ?_⟩
          rcases List.mem_append.1 k with k | k
          · exact .inl k
          · rw [List.mem_singleton.1 k]
            exact .inr ⟨fun k e => (by cases e), fun k e => (by cases e)⟩
      | lost q =>
        simp only [Node.step]
        split
        · exact ⟨i2, fun e k => .inl k⟩
        next hn =>
          have hq : p ≠ q := fun k => hn (k ▸ i2)
          refine ⟨by simp only [upd, if_neg hq]; exact i2, fun e k => ?_⟩
          rcases List.mem_append.1 k with k | k
          · exact .inl k
          · rw [List.mem_singleton.1 k]
            exact .inr ⟨fun k e => (by cases e), fun k e => hq (by cases e; rfl)⟩
      | take =>
        simp only [Node.step]
        split
        · exact ⟨i2, fun e k => .inl k⟩
        next e es g1 =>
          rw [(handle_events _ e).1, (handle_events _ e).2.1]
          exact ⟨i2, fun e' k => .inl (by rw [g1]; exact List.mem_cons_of_mem _ k)⟩
      | fire k =>
        simp only [Node.step]
        split
        · exact ⟨i2, fun e k => .inl k⟩
        next q due _ =>
          split
          · exact ⟨i2, fun e k => .inl k⟩
          · rw [(redial_same _ q).1, (redial_same _ q).2.1]
            exact ⟨i2, fun e k => .inl k⟩
    refine ⟨hA.trans i1, J.step ev, key.1, hC, fun k hk => ?_, fun k hk => ?_⟩
    · rcases key.2 _ hk with g | ⟨g, -⟩
      · exact i4 k g
      · exact g k rfl
    · rcases key.2 _ hk with g | ⟨-, g⟩
      · exact i5 k g
      · exact g k rfl

/-! ## Many attempts at once -/

theorem Run.append {n m m' : Node} {evs later : List Ev} {sent sent' : List Peer} (h : Run n evs m sent)
    (h' : Run m later m' sent') : Run n (later ++ evs) m' (sent ++ sent') := by
  induction h' with
  | nil => simpa using h
  | step ev _ ih => simpa using ih.step ev

/-- A bootnode `p` that connects and goes away `k` times within the twelve seconds. -/
def flaps (p : Peer) : Nat → List Ev
  | 0 => []
  | k + 1 => [.take, .lost p, .take, .incoming p] ++ flaps p k

/-- The only bootnode, offline: `k` timers set at time 0, `c` commands, `d` dials. -/
def many (p : Peer) (k c d now : Nat) : Node :=
  { boot := [p], connected := [], timers := List.replicate k (p, redialMs), cmds := List.replicate c p,
    events := [], conns := fun _ => 0, dialing := fun q => if q = p then d else 0, now := now }

theorem upd_twice (f : Peer → Nat) (p : Peer) (a : Nat) : upd (upd f p a) p (f p) = f := by
  funext q
  simp only [upd]
  split
  next h => rw [h]
  · rfl

theorem flaps_run (p : Peer) : ∀ k, ∃ sent, Run (many p 0 0 1 0) (flaps p k) (many p k 0 1 0) sent
  | 0 => ⟨[], .nil⟩
  | k + 1 => by
    obtain ⟨sent, h⟩ := flaps_run p k
    have h4 := (((h.step (.incoming p)).step .take).step (.lost p)).step .take
    have e : (((((many p k 0 1 0).step (.incoming p)).1.step .take).1.step (.lost p)).1.step .take).1 =
        many p (k + 1) 0 1 0 := by
      simp [many, Node.step, Node.handle, Node.schedule, upd, List.replicate_succ']
      funext q
      simp only [upd]
      split <;> rfl
    rw [e] at h4
    exact ⟨_, h4⟩

theorem fire_run (p : Peer) : ∀ k c, Run (many p k c 1 redialMs) (List.replicate k (.fire 0)) (many p 0 (c + k) 1 redialMs) []
  | 0, c => .nil
  | k + 1, c => by
    have h1 : (many p (k + 1) c 1 redialMs).step (.fire 0) = (many p k (c + 1) 1 redialMs, none) := by
      simp [many, Node.step, Node.redial, List.replicate_succ, ← List.replicate_succ']
    have h0 : Run (many p (k + 1) c 1 redialMs) [.fire 0] (many p k (c + 1) 1 redialMs) [] := by
      have := (Run.nil (n := many p (k + 1) c 1 redialMs)).step (.fire 0)
      rw [h1] at this
      exact this
    have := h0.append (fire_run p k (c + 1))
    rw [← List.replicate_succ'] at this
    rw [show c + 1 + k = c + (k + 1) by omega] at this
    exact this

theorem execute_run (p : Peer) : ∀ c d, Run (many p 0 c d redialMs) (List.replicate c .execute) (many p 0 0 (d + c) redialMs) []
  | 0, d => .nil
  | c + 1, d => by
    have h1 : (many p 0 (c + 1) d redialMs).step .execute = (many p 0 c (d + 1) redialMs, none) := by
      simp [many, Node.step, List.replicate_succ]
      funext q
      simp only [upd]
      split <;> rfl
    have h0 : Run (many p 0 (c + 1) d redialMs) [.execute] (many p 0 c (d + 1) redialMs) [] := by
      have := (Run.nil (n := many p 0 (c + 1) d redialMs)).step .execute
      rw [h1] at this
      exact this
    have := h0.append (execute_run p c (d + 1))
    rw [← List.replicate_succ'] at this
    rw [show d + 1 + c = d + (c + 1) by omega] at this
    exact this

/-- **C117, at most one attempt: false (F44).** For every number there is a run in which the node dials
its only bootnode, which is offline, that many times at once and more; by `C117_forever` so it goes on
until the bootnode is back. -/
theorem C117_one_false (self p : Peer) (hp : p ≠ self) (k : Nat) : ∃ evs m sent,
    Run (start self [p] 0) evs m sent ∧ m.Settled ∧ m.conns p = 0 ∧ m.dialing p = k + 1 := by
  have h0 : start self [p] 0 = many p 0 0 1 0 := by
    simp [start, many, hp, List.count_singleton]
    funext q
    by_cases h : q = p
    · simp [h]
    · simp only [if_neg h, if_neg (fun k : p = q => h k.symm)]
  obtain ⟨sent, h1⟩ := flaps_run p k
  have h2 : Run (many p k 0 1 0) [.wait redialMs] (many p k 0 1 redialMs) [] := by
    have := (Run.nil (n := many p k 0 1 0)).step (.wait redialMs)
    have e : (many p k 0 1 0).step (.wait redialMs) = (many p k 0 1 redialMs, none) := by
      simp [many, Node.step]
    rw [e] at this
    exact this
  have h3 := ((h1.append h2).append (fire_run p k 0)).append (execute_run p (0 + k) 1)
  refine ⟨_, _, _, h0 ▸ h3, ⟨rfl, rfl, by simp [many]⟩, rfl, ?_⟩
  simp [many]
  omega

end

/-! ## Examples -/

theorem run_foldr (n : Node) : ∀ evs : List Ev, ∃ sent, Run n evs (evs.foldr (fun ev m => (m.step ev).1) n) sent
  | [] => ⟨[], .nil⟩
  | ev :: evs => by
    obtain ⟨sent, h⟩ := run_foldr n evs
    exact ⟨_, h.step ev⟩

/-- Node 0 with the bootnodes 1, itself and 2: 2 is reached, 1 is not; a second later 2 is lost. -/
def wEvs : List Ev := [.take, .lost 2, .wait 1000, .take, .take, .reached 2, .failed 1]

def wEnd : Node := wEvs.foldr (fun ev m => (m.step ev).1) (start 0 [1, 0, 2] 0)

/-- Non-vacuity of `C117_not_given_up`, `C117_only`, `C117_connected` and `C117_forever`: both bootnodes
have a timer; eleven seconds later only that of node 1 is due. -/
example : (∃ sent, Run (start 0 [1, 0, 2] 0) wEvs wEnd sent) ∧ wEnd.Settled ∧ wEnd.conns 1 = 0 ∧
    wEnd.conns 2 = 0 ∧ wEnd.timers = [(1, 12000), (2, 13000)] ∧ wEnd.now = 1000 ∧ wEnd.connected = [] := by
  refine ⟨run_foldr _ _, ⟨by decide +kernel, by decide +kernel, by decide +kernel⟩, by decide +kernel,
    by decide +kernel, by decide +kernel, by decide +kernel, by decide +kernel⟩

/-- Non-vacuity of `C117_redials` and `C117_greeted`. -/
example : ((wEnd.step (.wait 11000)).1.step (.fire 0)).1.cmds = [1] ∧
    ((wEnd.step (.incoming 1)).1.step .take).2 = some 1 := by
  refine ⟨by decide +kernel, by decide +kernel⟩

end Verif.Redial
