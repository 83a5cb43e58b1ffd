import Verif.Spec.EventBus
/-!
# Lemmas about the event stream: a client is on its own
-/
namespace Verif.Node
open Verif Verif.Db

/-- What a client with these topics and this backlog is sent; `none` stands for one of its reads. -/
def solo (cap : Nat) (ts : List Topic) : List BusEvent → List (Option BusEvent) → List Frame
  | _, [] => []
  | bl, some e :: os => solo cap ts (bl ++ [e]) os
  | bl, none :: os =>
    if bl.length > cap then
      .dropped (bl.length - cap) :: solo cap ts (bl.drop (bl.length - cap)) os
    else match bl with
      | [] => solo cap ts [] os
      | e :: r => (if e.topic ∈ ts then [.event e.topic e] else []) ++ solo cap ts r os

/-- What concerns client `k`: the events, and its reads. -/
def concerns (k : Nat) (ops : List BusOp) : List (Option BusEvent) :=
  ops.filterMap fun
    | .emit e => some (some e)
    | .recv j => if j = k then some none else none
    | _ => none

theorem framesOf_append {k : Nat} {l l' : List (Nat × Frame)} :
    framesOf k (l ++ l') = framesOf k l ++ framesOf k l' := by
  unfold framesOf; rw [List.filterMap_append]

theorem run_append {cap : Nat} : ∀ {ops ops' : List BusOp} {b : Bus}, ∃ b' : Bus,
    b.run cap (ops ++ ops') = b.run cap ops ++ b'.run cap ops' ∧
    b'.clients.length = b.clients.length + arrivals ops ∧
    ∀ x ∈ b.run cap ops, x.1 < b.clients.length + arrivals ops
  | [], ops', b => ⟨b, rfl, by simp [arrivals], by simp [Bus.run]⟩
  | o :: os, ops', b => by
    obtain ⟨b', h1, h2, h3⟩ := run_append (cap := cap) (ops := os) (ops' := ops') (b := (b.step cap o).1)
    have hl : (b.step cap o).1.clients.length + arrivals os = b.clients.length + arrivals (o :: os) := by
      cases o with
      | emit e => simp only [Bus.step, Bus.emit, arrivals]; split <;> simp
      | subscribe ts => simp [Bus.step, arrivals]; omega
      | recv k => simp only [Bus.step, arrivals]; split <;> simp
      | close k => simp [Bus.step, arrivals]
    refine ⟨b', ?_, by rw [h2, hl], ?_⟩
    · simp only [List.cons_append, Bus.run, h1, List.append_assoc]
    · intro x hx
      rcases List.mem_append.1 hx with hx | hx
      · have : x.1 < b.clients.length := by
          cases o with
          | emit e => simp [Bus.step] at hx
          | subscribe ts => simp [Bus.step] at hx
          | close k => simp [Bus.step] at hx
          | recv k =>
            simp only [Bus.step] at hx
            split at hx
            · next hk =>
              obtain ⟨f, -, rfl⟩ := Option.map_eq_some_iff.1 (Option.mem_toList.1 hx)
              exact (List.getElem?_eq_some_iff.1 hk).1
            · simp at hx
        omega
      · rw [← hl]; exact h3 x hx

/-- The frames of a client depend on its own reads and the events only. -/
theorem framesOf_solo {cap k : Nat} : ∀ {ops : List BusOp} {b : Bus} {c : Client},
    b.clients[k]? = some (some c) → c.next ≤ b.log.length → (∀ o ∈ ops, o ≠ .close k) →
    framesOf k (b.run cap ops) = solo cap c.topics (b.log.drop c.next) (concerns k ops)
  | [], b, c, h, hn, hc => by simp [Bus.run, framesOf, concerns, solo]
  | o :: os, b, c, h, hn, hc => by
    have hc' : ∀ o ∈ os, o ≠ .close k := fun o ho => hc o (List.mem_cons_of_mem _ ho)
    have hk : k < b.clients.length := (List.getElem?_eq_some_iff.1 h).1
    simp only [Bus.run]
    rw [framesOf_append]
    cases o with
    | emit e =>
      have hm : some c ∈ b.clients := List.mem_of_getElem? h
      have he : b.emit e = { b with log := b.log ++ [e] } := by
        unfold Bus.emit
        rw [if_neg]
        intro ha
        simpa using (List.all_eq_true.1 ha) _ hm
      simp only [Bus.step, he]
      rw [framesOf_solo (b := { b with log := b.log ++ [e] }) (c := c) h (by simp; omega) hc']
      simp only [concerns, List.filterMap_cons, solo]
      rw [List.drop_append_of_le_length hn]
      simp [framesOf]
    | subscribe ts =>
      simp only [Bus.step]
      rw [framesOf_solo (b := { b with clients := b.clients ++ [some ⟨ts, b.log.length⟩] }) (c := c)
        (by rw [List.getElem?_append_left hk]; exact h) hn hc']
      simp [concerns, framesOf]
    | close j =>
      have hj : j ≠ k := fun e => hc _ List.mem_cons_self (by rw [e])
      simp only [Bus.step]
      rw [framesOf_solo (b := { b with clients := b.clients.set j none }) (c := c)
        (by rw [List.getElem?_set_ne hj]; exact h) hn hc']
      simp [concerns, framesOf]
    | recv j =>
      by_cases hj : j = k
      · subst hj
        simp only [Bus.step, h, concerns, List.filterMap_cons, if_pos]
        have hset : ∀ c', (b.clients.set j (some c'))[j]? = some (some c') := fun c' => by
          rw [List.getElem?_set_self hk]
        simp only [solo, Client.recv, List.length_drop]
        split
        · next hgap =>
          rw [framesOf_solo (b := { b with clients := b.clients.set j (some
            { c with next := b.log.length - cap }) }) (c := { c with next := b.log.length - cap })
            (hset _) (by dsimp only; omega) hc']
          simp only [framesOf, Option.map_some, Option.toList_some, List.filterMap_cons, if_pos,
            List.filterMap_nil, List.drop_drop, List.cons_append, List.nil_append, concerns]
          rw [show c.next + (b.log.length - c.next - cap) = b.log.length - cap by omega,
            show b.log.length - cap - c.next = b.log.length - c.next - cap by omega]
        · next hgap =>
          cases hx : b.log[c.next]? with
          | none =>
            have hd : b.log.drop c.next = [] := List.drop_eq_nil_iff.2 (List.getElem?_eq_none_iff.1 hx)
            dsimp only
            rw [framesOf_solo (b := { b with clients := b.clients.set j (some c) }) (c := c) (hset _) hn
              hc', hd]
            simp [framesOf, concerns]
          | some e =>
            obtain ⟨hl, he⟩ := List.getElem?_eq_some_iff.1 hx
            have hd : b.log.drop c.next = e :: b.log.drop (c.next + 1) := by
              rw [List.drop_eq_getElem_cons hl, he]
            dsimp only
            rw [framesOf_solo (b := { b with clients := b.clients.set j (some
              { c with next := c.next + 1 }) }) (c := { c with next := c.next + 1 }) (hset _) hl hc', hd]
            dsimp only
            congr 1
            split <;> simp [framesOf]
      · have hb : ∀ (b' : Bus), b'.clients[k]? = some (some c) → b'.log = b.log →
            framesOf k (b'.run cap os) = solo cap c.topics (b.log.drop c.next) (concerns k os) := by
          intro b' h1 h2
          rw [framesOf_solo h1 (by rw [h2]; exact hn) hc', h2]
        simp only [Bus.step]
        split
        · rename_i c' _
          dsimp only
          rw [hb { b with clients := b.clients.set j (some (c'.recv cap b.log).1) }
            (by dsimp only; rw [List.getElem?_set_ne hj]; exact h) rfl]
          simp only [concerns, List.filterMap_cons, if_neg hj]
          cases (c'.recv cap b.log).2 <;> simp [framesOf, hj]
        · rw [hb _ h rfl]
          simp [concerns, hj, framesOf]

/-- What is left to read. -/
theorem solo_tells {cap : Nat} {ts : List Topic} : ∀ {os : List (Option BusEvent)} {bl : List BusEvent},
    ∃ told rest, bl ++ os.filterMap id = told ++ rest ∧ Tells ts told (solo cap ts bl os) ∧
      rest.length = os.foldl (fun n o => match o with
        | some _ => n + 1
        | none => if n > cap then cap else n - 1) bl.length
  | [], bl => ⟨[], bl, by simp, .nil, rfl⟩
  | some e :: os, bl => by
    obtain ⟨t, r, h1, h2, h3⟩ := solo_tells (cap := cap) (ts := ts) (os := os) (bl := bl ++ [e])
    exact ⟨t, r, by simpa using h1, h2, by simpa using h3⟩
  | none :: os, bl => by
    simp only [solo, List.foldl_cons]
    split
    · next hg =>
      obtain ⟨t, r, h1, h2, h3⟩ := solo_tells (cap := cap) (ts := ts) (os := os)
        (bl := bl.drop (bl.length - cap))
      refine ⟨bl.take (bl.length - cap) ++ t, r, ?_, ?_, ?_⟩
      · rw [List.append_assoc, ← h1, ← List.append_assoc, List.take_append_drop]
        simp
      · have hlen : (bl.take (bl.length - cap)).length = bl.length - cap := by
          rw [List.length_take]; omega
        have := Tells.gap (ts := ts) (g := bl.take (bl.length - cap)) (by
          intro h0; rw [h0] at hlen; simp at hlen; omega) h2
        rwa [hlen] at this
      · rw [h3, List.length_drop, show bl.length - (bl.length - cap) = cap by omega]
    · next hg =>
      cases bl with
      | nil =>
        obtain ⟨t, r, h1, h2, h3⟩ := solo_tells (cap := cap) (ts := ts) (os := os) (bl := [])
        exact ⟨t, r, by simpa using h1, h2, by simpa using h3⟩
      | cons e bl =>
        obtain ⟨t, r, h1, h2, h3⟩ := solo_tells (cap := cap) (ts := ts) (os := os) (bl := bl)
        refine ⟨e :: t, r, by simpa using h1, ?_, by simpa using h3⟩
        dsimp only
        split
        · next hm => exact .shown hm h2
        · next hm => exact .hidden hm h2

/-- A client that is never more than `cap` behind is told of no gap. -/
theorem solo_events {cap : Nat} {ts : List Topic} : ∀ {os : List (Option BusEvent)} {bl : List BusEvent},
    (∀ p, p <+: os → p.foldl (fun n o => match o with
        | some _ => n + 1
        | none => if n > cap then cap else n - 1) bl.length ≤ cap) →
    ∀ n, Frame.dropped n ∉ solo cap ts bl os
  | [], bl, h, n => by simp [solo]
  | some e :: os, bl, h, n => by
    refine solo_events (bl := bl ++ [e]) (fun p hp => ?_) n
    have := h (some e :: p) (by simpa using hp)
    simpa using this
  | none :: os, bl, h, n => by
    have h0 : bl.length ≤ cap := h [] List.nil_prefix
    have h' : ∀ p, p <+: os → p.foldl (fun n o => match o with
        | some _ => n + 1
        | none => if n > cap then cap else n - 1) (bl.length - 1) ≤ cap := fun p hp => by
      have := h (none :: p) (by simpa using hp)
      simpa [Nat.not_lt.2 h0] using this
    simp only [solo]
    rw [if_neg (by omega)]
    cases bl with
    | nil => exact solo_events (bl := []) (by simpa using h') n
    | cons e bl =>
      dsimp only
      intro hm
      rcases List.mem_append.1 hm with hm | hm
      · split at hm <;> simp at hm
      · exact solo_events (bl := bl) (by simpa using h') n hm

theorem concerns_emitted {k : Nat} {ops : List BusOp} : (concerns k ops).filterMap id = emitted ops := by
  unfold concerns emitted
  rw [List.filterMap_filterMap]
  congr 1
  funext o
  cases o <;> simp

theorem concerns_behind {cap k : Nat} {ops : List BusOp} :
    (concerns k ops).foldl (fun n o => match o with
        | some _ => n + 1
        | none => if n > cap then cap else n - 1) 0 = behind cap k ops := by
  unfold concerns behind
  rw [List.foldl_filterMap]
  congr 1
  funext n o
  cases o with
  | recv j => by_cases hj : j = k <;> simp [hj]
  | _ => rfl

end Verif.Node
