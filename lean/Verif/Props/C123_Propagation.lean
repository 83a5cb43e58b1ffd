import Verif.Spec.Propagation
import Mathlib.Data.List.Induction
import Mathlib.Data.List.Perm.Subperm
import Mathlib.Data.List.Range

/-
C123: the propagation panel shows true delays.

For an id of the last slots, the panel has a dot for exactly the nodes that have seen it, at the delay behind the first
node.  This holds while a topic has at most 400 ids; beyond that, an id is forgotten and a late node is shown as the
first to see it (finding F47).
-/

namespace Verif.Monitor

open Verif

/-- What an optional earliest arrival tells. -/
def Tells (evs : List Ev) (p : Ev → Prop) : Option Int → Prop
  | none => ∀ e ∈ evs, ¬ p e
  | some a => Earliest evs p a

/-- The earlier of the two. -/
def earlier (o : Option Int) (a : Int) : Int :=
  match o with
  | none => a
  | some m => if a < m then a else m

theorem Tells.hit {evs : List Ev} {p : Ev → Prop} {o : Option Int} {e : Ev} (h : Tells evs p o) (he : p e) :
    Tells (evs ++ [e]) p (some (earlier o e.arrival)) := by
  cases o with
  | none =>
    refine ⟨⟨e, by simp, he, rfl⟩, fun e' hm hp => ?_⟩
    rcases List.mem_append.1 hm with hm | hm
    · exact absurd hp (h e' hm)
    · rw [List.mem_singleton.1 hm]; exact le_refl _
  | some m =>
    obtain ⟨⟨e0, h1, h2, h3⟩, h4⟩ := h
    unfold earlier
    dsimp only
    split
    · rename_i hlt
      refine ⟨⟨e, by simp, he, rfl⟩, fun e' hm hp => ?_⟩
      rcases List.mem_append.1 hm with hm | hm
      · have := h4 e' hm hp; omega
      · rw [List.mem_singleton.1 hm]
    · rename_i hlt
      refine ⟨⟨e0, List.mem_append_left _ h1, h2, h3⟩, fun e' hm hp => ?_⟩
      rcases List.mem_append.1 hm with hm | hm
      · exact h4 e' hm hp
      · rw [List.mem_singleton.1 hm]; omega

theorem Tells.miss {evs : List Ev} {p : Ev → Prop} {o : Option Int} {e : Ev} (h : Tells evs p o) (he : ¬ p e) :
    Tells (evs ++ [e]) p o := by
  cases o with
  | none =>
    intro e' hm
    rcases List.mem_append.1 hm with hm | hm
    · exact h e' hm
    · rw [List.mem_singleton.1 hm]; exact he
  | some m =>
    obtain ⟨⟨e0, h1, h2, h3⟩, h4⟩ := h
    refine ⟨⟨e0, List.mem_append_left _ h1, h2, h3⟩, fun e' hm hp => ?_⟩
    rcases List.mem_append.1 hm with hm | hm
    · exact h4 e' hm hp
    · rw [List.mem_singleton.1 hm] at hp; exact absurd hp he

theorem see_first (x : Entry) (e : Ev) : (x.see e).first = some (earlier x.first e.arrival) := by
  unfold Entry.see earlier
  dsimp only
  cases x.first with
  | none => rfl
  | some m => dsimp only; split <;> rfl

theorem see_arrivals (x : Entry) (e : Ev) (n : Nat) :
    (x.see e).arrivals n = if n = e.node then some (earlier (x.arrivals n) e.arrival) else x.arrivals n := by
  unfold Entry.see earlier
  dsimp only
  by_cases hn : n = e.node
  · subst hn
    rw [if_pos rfl]
    cases h : x.arrivals e.node with
    | none => dsimp only; rw [Function.update_self]
    | some m =>
      dsimp only
      split
      · rw [Function.update_self]
      · exact h
  · rw [if_neg hn]
    cases h : x.arrivals e.node with
    | none => dsimp only; rw [Function.update_of_ne hn]
    | some m =>
      dsimp only
      split
      · rw [Function.update_of_ne hn]
      · rfl

/-- An entry holds what was seen of an id. -/
structure Holds (nodes : List Nat) (evs : List Ev) (t : Node.Topic) (id : Nat) (x : Entry) : Prop where
  arrivals : ∀ n, Tells evs (fun e => Sighting nodes t id e ∧ e.node = n) (x.arrivals n)
  first : Tells evs (Sighting nodes t id) x.first

theorem Holds.hit {nodes : List Nat} {evs : List Ev} {t : Node.Topic} {id : Nat} {x : Entry} {e : Ev}
    (h : Holds nodes evs t id x) (he : Sighting nodes t id e) : Holds nodes (evs ++ [e]) t id (x.see e) := by
  refine ⟨fun n => ?_, ?_⟩
  · rw [see_arrivals]
    split
    · rename_i hn
      exact (h.arrivals n).hit ⟨he, hn.symm⟩
    · rename_i hn
      exact (h.arrivals n).miss (fun hh => hn hh.2.symm)
  · rw [see_first]; exact h.first.hit he

theorem Holds.miss {nodes : List Nat} {evs : List Ev} {t : Node.Topic} {id : Nat} {x : Entry} {e : Ev}
    (h : Holds nodes evs t id x) (he : ¬ Sighting nodes t id e) : Holds nodes (evs ++ [e]) t id x :=
  ⟨fun n => (h.arrivals n).miss (fun hh => he hh.1), h.first.miss he⟩

/-- What holds of the panel in every run, for one topic. -/
structure Fine (nodes : List Nat) (t : Node.Topic) (evs : List Ev) (c : Chart) : Prop where
  names : c.nodes = nodes
  order : ∀ id, id ∈ c.order t ↔ (c.group t id).isSome = true
  nodup : (c.order t).Nodup
  slot : ∀ id x, c.group t id = some x → ∃ e ∈ evs, Sighting nodes t id e ∧ e.slot = x.slot
  upper : ∀ e ∈ evs, Charted nodes e → e.slot ≤ c.maxSlot
  attained : c.maxSlot = 0 ∨ ∃ e ∈ evs, Charted nodes e ∧ e.slot = c.maxSlot
  exact : ∀ id, ∀ e ∈ evs, Sighting nodes t id e → c.maxSlot - e.slot < c.window →
    ∃ x, c.group t id = some x ∧ Holds nodes evs t id x

/-- An event that is not charted changes nothing. -/
theorem add_other {c : Chart} {e : Ev} (h : ¬ Charted c.nodes e) : c.add e = c := by
  unfold Chart.add
  split
  · rename_i ht
    split
    · rfl
    · rename_i id hid
      split
      · rename_i hn
        exact absurd ⟨ht, by rw [hid]; simp, hn⟩ h
      · rfl
  · rfl

theorem add_charted {c : Chart} {e : Ev} {id : Nat} (h : Charted c.nodes e) (hid : e.id = some id) :
    c.add e = (if (c.group e.topic id).isSome then c else c.open_ e.topic id e.slot).note e.topic id e := by
  unfold Chart.add
  rw [if_pos h.1, hid]
  dsimp only
  rw [if_pos h.2.2]
  cases c.group e.topic id <;> rfl

theorem open_room {c : Chart} {t : Node.Topic} {id slot : Nat} (h : (c.order t).length < maxIds) :
    c.open_ t id slot =
      { c with group := Function.update c.group t (Function.update (c.group t) id (some ⟨slot, fun _ => none, none⟩)),
               order := Function.update c.order t (c.order t ++ [id]) } := by
  unfold Chart.open_
  dsimp only
  rw [Function.update_self]
  split
  · rename_i old rest he
    have : (old :: rest).length = (c.order t).length + 1 := by rw [← he]; simp
    rw [if_neg (by omega)]
  · rfl

/-- Another topic is left alone. -/
theorem open_other {c : Chart} {t t' : Node.Topic} {id slot : Nat} (h : t' ≠ t) :
    (c.open_ t id slot).group t' = c.group t' ∧ (c.open_ t id slot).order t' = c.order t' := by
  unfold Chart.open_
  dsimp only
  split
  · split
    · simp only [Function.update_of_ne h, and_self]
    · simp only [Function.update_of_ne h, and_self]
  · simp only [Function.update_of_ne h, and_self]

theorem open_rest (c : Chart) (t : Node.Topic) (id slot : Nat) :
    (c.open_ t id slot).nodes = c.nodes ∧ (c.open_ t id slot).maxSlot = c.maxSlot ∧
    (c.open_ t id slot).window = c.window := by
  unfold Chart.open_
  dsimp only
  split
  · split <;> exact ⟨rfl, rfl, rfl⟩
  · exact ⟨rfl, rfl, rfl⟩

theorem maxSlot_step {nodes : List Nat} {evs : List Ev} {e : Ev} {m : Nat} (he : Charted nodes e)
    (hu : ∀ e ∈ evs, Charted nodes e → e.slot ≤ m) (ha : m = 0 ∨ ∃ e ∈ evs, Charted nodes e ∧ e.slot = m) :
    (∀ e' ∈ evs ++ [e], Charted nodes e' → e'.slot ≤ max m e.slot) ∧
    (max m e.slot = 0 ∨ ∃ e' ∈ evs ++ [e], Charted nodes e' ∧ e'.slot = max m e.slot) := by
  constructor
  · intro e' hm hc
    rcases List.mem_append.1 hm with hm | hm
    · have := hu e' hm hc; omega
    · rw [List.mem_singleton.1 hm]; omega
  · by_cases hlt : m < e.slot
    · exact .inr ⟨e, by simp, he, by omega⟩
    · rcases ha with h0 | ⟨e', h1, h2, h3⟩
      · left; omega
      · exact .inr ⟨e', List.mem_append_left _ h1, h2, by omega⟩

/-- One event. -/
theorem fine_add {nodes : List Nat} {t : Node.Topic} {evs : List Ev} {c : Chart} {e : Ev}
    (I : Fine nodes t evs c) (hs : OneSlot (evs ++ [e])) (hk : AtMost maxIds (evs ++ [e]) t) :
    Fine nodes t (evs ++ [e]) (c.add e) ∧ (c.add e).window = c.window := by
  by_cases hc : Charted nodes e
  swap
  · rw [add_other (by rw [I.names]; exact hc)]
    refine ⟨⟨I.names, I.order, I.nodup, fun id x h => ?_, fun e' hm h => ?_, ?_, fun id e' hm h hw => ?_⟩, rfl⟩
    · obtain ⟨e', h1, h2⟩ := I.slot id x h
      exact ⟨e', List.mem_append_left _ h1, h2⟩
    · rcases List.mem_append.1 hm with hm | hm
      · exact I.upper e' hm h
      · rw [List.mem_singleton.1 hm] at h; exact absurd h hc
    · rcases I.attained with h | ⟨e', h1, h2⟩
      · exact .inl h
      · exact .inr ⟨e', List.mem_append_left _ h1, h2⟩
    · rcases List.mem_append.1 hm with hm | hm
      · obtain ⟨x, h1, h2⟩ := I.exact id e' hm h hw
        exact ⟨x, h1, h2.miss (fun hh => hc hh.1)⟩
      · rw [List.mem_singleton.1 hm] at h; exact absurd h.1 hc
  obtain ⟨id, hid⟩ := Option.ne_none_iff_exists'.1 hc.2.1
  rw [add_charted (by rw [I.names]; exact hc) hid]
  obtain ⟨hup, hat⟩ := maxSlot_step hc I.upper I.attained
  by_cases htt : t = e.topic
  swap
  · -- another topic
    have hg : ∀ c1 : Chart, (c1.note e.topic id e).group t = c1.group t ∧
        (c1.note e.topic id e).order t = c1.order t ∧ (c1.note e.topic id e).nodes = c1.nodes ∧
        (c1.note e.topic id e).maxSlot = max c1.maxSlot e.slot ∧ (c1.note e.topic id e).window = c1.window := by
      intro c1
      unfold Chart.note
      exact ⟨Function.update_of_ne htt _ _, rfl, rfl, rfl, rfl⟩
    obtain ⟨g1, g2, g3, g4, g5⟩ := hg (if (c.group e.topic id).isSome then c else c.open_ e.topic id e.slot)
    have hb : (if (c.group e.topic id).isSome then c else c.open_ e.topic id e.slot).group t = c.group t ∧
        (if (c.group e.topic id).isSome then c else c.open_ e.topic id e.slot).order t = c.order t ∧
        (if (c.group e.topic id).isSome then c else c.open_ e.topic id e.slot).nodes = c.nodes ∧
        (if (c.group e.topic id).isSome then c else c.open_ e.topic id e.slot).maxSlot = c.maxSlot ∧
        (if (c.group e.topic id).isSome then c else c.open_ e.topic id e.slot).window = c.window := by
      split
      · exact ⟨rfl, rfl, rfl, rfl, rfl⟩
      · obtain ⟨a, b⟩ := open_other (c := c) (id := id) (slot := e.slot) htt
        obtain ⟨a1, a2, a3⟩ := open_rest c e.topic id e.slot
        exact ⟨a, b, a1, a2, a3⟩
    obtain ⟨b1, b2, b3, b4, b5⟩ := hb
    rw [b1] at g1
    rw [b2] at g2
    rw [b3] at g3
    rw [b4] at g4
    rw [b5] at g5
    generalize (if (c.group e.topic id).isSome then c else c.open_ e.topic id e.slot).note e.topic id e = c' at *
    refine ⟨⟨by rw [g3, I.names], by rw [g1, g2]; exact I.order, by rw [g2]; exact I.nodup, ?_, by rw [g4]; exact hup,
      by rw [g4]; exact hat, ?_⟩, g5⟩
    · rw [g1]
      intro id x h
      obtain ⟨e', h1, h2⟩ := I.slot id x h
      exact ⟨e', List.mem_append_left _ h1, h2⟩
    · rw [g1, g4, g5]
      intro id' e' hm h hw
      rcases List.mem_append.1 hm with hm | hm
      · obtain ⟨x, h1, h2⟩ := I.exact id' e' hm h (by omega)
        exact ⟨x, h1, h2.miss (fun hh => htt hh.2.1.symm)⟩
      · rw [List.mem_singleton.1 hm] at h; exact absurd h.2.1.symm htt
  · subst htt
    have hsight : Sighting nodes e.topic id e := ⟨hc, rfl, hid⟩
    have hne : ∀ id', Sighting nodes e.topic id' e → id' = id := by
      intro id' h
      have := h.2.2
      rw [hid] at this
      exact (Option.some.inj this).symm
    have hslot : ∀ e' ∈ evs, Sighting nodes e.topic id e' → e'.slot = e.slot := fun e' hm h =>
      hs e' (List.mem_append_left _ hm) e (by simp) h.2.1 (by rw [h.2.2, hid]) (by rw [h.2.2]; simp)
    cases hg : c.group e.topic id with
    | some x =>
      rw [if_pos (by rfl)]
      have hsx : x.slot = e.slot := by
        obtain ⟨e', h1, h2, h3⟩ := I.slot id x hg
        rw [← h3]; exact hslot e' h1 h2
      have n1 : ∀ id', (c.note e.topic id e).group e.topic id' = if id' = id then some (x.see e) else c.group e.topic id' := by
        intro id'
        unfold Chart.note
        dsimp only
        rw [Function.update_self]
        by_cases h : id' = id
        · rw [h, Function.update_self, if_pos rfl, hg]; rfl
        · rw [Function.update_of_ne h, if_neg h]
      refine ⟨⟨I.names, fun id' => ?_, I.nodup, fun id' y h => ?_, hup, hat, fun id' e' hm h hw => ?_⟩, rfl⟩
      · rw [n1]
        split
        · rename_i h
          rw [h]
          exact ⟨fun _ => rfl, fun _ => (I.order id).2 (by rw [hg]; rfl)⟩
        · exact I.order id'
      · rw [n1] at h
        split at h
        · rename_i h'
          cases h
          rw [h']
          exact ⟨e, by simp, hsight, hsx.symm⟩
        · obtain ⟨e', h1, h2⟩ := I.slot id' y h
          exact ⟨e', List.mem_append_left _ h1, h2⟩
      · rw [n1]
        replace hw : max c.maxSlot e.slot - e'.slot < c.window := hw
        by_cases hi : id' = id
        · subst hi
          rw [if_pos rfl]
          refine ⟨_, rfl, ?_⟩
          obtain ⟨e0, h1, h2, h3⟩ := I.slot id' x hg
          have hse : e'.slot = e.slot := by
            rcases List.mem_append.1 hm with hm | hm
            · exact hslot e' hm h
            · rw [List.mem_singleton.1 hm]
          obtain ⟨y, h4, h5⟩ := I.exact id' e0 h1 h2 (by omega)
          rw [hg] at h4
          cases h4
          exact h5.hit hsight
        · rw [if_neg hi]
          rcases List.mem_append.1 hm with hm | hm
          · obtain ⟨y, h1, h2⟩ := I.exact id' e' hm h (by omega)
            exact ⟨y, h1, h2.miss (fun hh => hi (hne id' hh))⟩
          · rw [List.mem_singleton.1 hm] at h; exact absurd (hne id' h) hi
    | none =>
      rw [if_neg (by simp)]
      have hnot : id ∉ c.order e.topic := fun h => by
        have := (I.order id).1 h
        rw [hg] at this
        cases this
      have hroom : (c.order e.topic).length < maxIds := by
        obtain ⟨ids, h1, h2⟩ := hk
        have hsub : ∀ i ∈ id :: c.order e.topic, i ∈ ids := by
          intro i hi
          rcases List.mem_cons.1 hi with rfl | hi
          · exact h2 e (by simp) rfl i hid
          · obtain ⟨x, hx⟩ := Option.isSome_iff_exists.1 ((I.order i).1 hi)
            obtain ⟨e', h3, h4, -⟩ := I.slot i x hx
            exact h2 e' (List.mem_append_left _ h3) h4.2.1 i h4.2.2
        have hlen := (List.subperm_of_subset (List.nodup_cons.2 ⟨hnot, I.nodup⟩) hsub).length_le
        rw [List.length_cons] at hlen
        omega
      have n1 : ∀ id', ((c.open_ e.topic id e.slot).note e.topic id e).group e.topic id' =
          if id' = id then some ((⟨e.slot, fun _ => none, none⟩ : Entry).see e) else c.group e.topic id' := by
        intro id'
        rw [open_room hroom]
        unfold Chart.note
        dsimp only
        rw [Function.update_self, Function.update_self]
        by_cases h : id' = id
        · rw [h, Function.update_self, if_pos rfl, Function.update_self]; rfl
        · rw [Function.update_of_ne h, Function.update_of_ne h, if_neg h]
      have n2 : ((c.open_ e.topic id e.slot).note e.topic id e).order e.topic = c.order e.topic ++ [id] := by
        rw [open_room hroom]
        exact Function.update_self ..
      obtain ⟨n3, n4, n5⟩ := open_rest c e.topic id e.slot
      have n6 : ((c.open_ e.topic id e.slot).note e.topic id e).maxSlot = max c.maxSlot e.slot := by
        rw [← n4]; rfl
      have n7 : ((c.open_ e.topic id e.slot).note e.topic id e).window = c.window := n5
      have n8 : ((c.open_ e.topic id e.slot).note e.topic id e).nodes = c.nodes := n3
      generalize (c.open_ e.topic id e.slot).note e.topic id e = c' at *
      refine ⟨⟨by rw [n8, I.names], fun id' => ?_, ?_, fun id' y h => ?_, by rw [n6]; exact hup, by rw [n6]; exact hat,
        fun id' e' hm h hw => ?_⟩, n7⟩
      · rw [n1, n2, List.mem_append, List.mem_singleton]
        split
        · rename_i h; exact ⟨fun _ => rfl, fun _ => .inr h⟩
        · rename_i h
          rw [← I.order id']
          exact ⟨fun hh => hh.resolve_right h, .inl⟩
      · rw [n2, List.nodup_append]
        refine ⟨I.nodup, by simp, fun a h1 b h2 hab => hnot ?_⟩
        rw [← List.mem_singleton.1 h2, ← hab]; exact h1
      · rw [n1] at h
        split at h
        · rename_i h'
          cases h
          rw [h']
          exact ⟨e, by simp, hsight, rfl⟩
        · obtain ⟨e', h1, h2⟩ := I.slot id' y h
          exact ⟨e', List.mem_append_left _ h1, h2⟩
      · rw [n6, n7] at hw
        rw [n1]
        by_cases hi : id' = id
        · subst hi
          rw [if_pos rfl]
          refine ⟨_, rfl, ?_⟩
          have hfresh : ∀ e0 ∈ evs, ¬ Sighting nodes e.topic id' e0 := by
            intro e0 h1 h2
            have h3 := hslot e0 h1 h2
            have hse : e'.slot = e.slot := by
              rcases List.mem_append.1 hm with hm | hm
              · exact hslot e' hm h
              · rw [List.mem_singleton.1 hm]
            obtain ⟨y, h4, -⟩ := I.exact id' e0 h1 h2 (by omega)
            rw [hg] at h4
            cases h4
          exact Holds.hit ⟨fun n e0 h1 h2 => hfresh e0 h1 h2.1, hfresh⟩ hsight
        · rw [if_neg hi]
          rcases List.mem_append.1 hm with hm | hm
          · obtain ⟨y, h1, h2⟩ := I.exact id' e' hm h (by omega)
            exact ⟨y, h1, h2.miss (fun hh => hi (hne id' hh))⟩
          · rw [List.mem_singleton.1 hm] at h; exact absurd (hne id' h) hi

theorem fine_prune {nodes : List Nat} {t : Node.Topic} {evs : List Ev} {c : Chart} (I : Fine nodes t evs c)
    (hs : OneSlot evs) : Fine nodes t evs c.prune := by
  have g : ∀ id, c.prune.group t id = match c.group t id with
      | some x => if c.aged x then none else some x
      | none => none := by
    intro id
    unfold Chart.prune
    dsimp only
    cases h : c.group t id with
    | none => rfl
    | some x =>
      dsimp only
      have : id ∈ c.order t := (I.order id).2 (by rw [h]; rfl)
      simp only [this, true_and]
  refine ⟨I.names, fun id => ?_, I.nodup.filter _, fun id x h => ?_, I.upper, I.attained, fun id e hm h hw => ?_⟩
  · rw [g]
    show id ∈ (c.order t).filter _ ↔ _
    rw [List.mem_filter, I.order id]
    cases c.group t id with
    | none => simp
    | some x => cases hx : c.aged x <;> simp [hx]
  · rw [g] at h
    cases hx : c.group t id with
    | none => rw [hx] at h; cases h
    | some y =>
      rw [hx] at h
      dsimp only at h
      split at h
      · cases h
      · cases h; exact I.slot id x hx
  · replace hw : c.maxSlot - e.slot < c.window := hw
    obtain ⟨x, h1, h2⟩ := I.exact id e hm h hw
    refine ⟨x, ?_, h2⟩
    obtain ⟨e', h3, h4, h5⟩ := I.slot id x h1
    have : e'.slot = e.slot := hs e' h3 e hm (by rw [h4.2.1, h.2.1]) (by rw [h4.2.2, h.2.2]) (by rw [h4.2.2]; simp)
    rw [g, h1]
    dsimp only
    rw [if_neg]
    unfold Chart.aged
    simp only [decide_eq_true_eq]
    omega

theorem arrived_snoc (acts : List PAct) (x : PAct) : arrived (acts ++ [x]) =
    arrived acts ++ (match x with | .event e => [e] | _ => []) := by
  unfold arrived
  rw [List.filterMap_append]
  cases x <;> rfl

theorem windows_snoc (acts : List PAct) (x : PAct) : windows (acts ++ [x]) =
    windows acts ++ (match x with | .window n => [max 1 n] | _ => []) := by
  unfold windows
  rw [List.filterMap_append]
  cases x <;> rfl

theorem prun_snoc (nodes : List Nat) (w : Nat) (acts : List PAct) (x : PAct) :
    prun nodes w (acts ++ [x]) = (prun nodes w acts).act x := by
  unfold prun
  rw [List.foldl_append]
  rfl

theorem OneSlot.left {a b : List Ev} (h : OneSlot (a ++ b)) : OneSlot a :=
  fun e he e' he' => h e (List.mem_append_left _ he) e' (List.mem_append_left _ he')

theorem AtMost.left {k : Nat} {a b : List Ev} {t : Node.Topic} (h : AtMost k (a ++ b) t) : AtMost k a t := by
  obtain ⟨ids, h1, h2⟩ := h
  exact ⟨ids, h1, fun e he => h2 e (List.mem_append_left _ he)⟩

theorem fine_run (nodes : List Nat) (w : Nat) (t : Node.Topic) : ∀ acts : List PAct,
    OneSlot (arrived acts) → AtMost maxIds (arrived acts) t → (w :: windows acts).Pairwise (· ≥ ·) →
    Fine nodes t (arrived acts) (prun nodes w acts) ∧ (prun nodes w acts).window ∈ w :: windows acts := by
  intro acts
  induction acts using List.reverseRecOn with
  | nil =>
    intro _ _ _
    refine ⟨⟨rfl, fun id => ?_, List.nodup_nil, (fun id x h => by cases h), (fun e h => by cases h), .inl rfl,
      fun id e h => by cases h⟩, List.mem_cons_self ..⟩
    constructor <;> intro h <;> cases h
  | append_singleton acts x ih =>
    intro hs hk hw
    rw [arrived_snoc] at hs hk ⊢
    rw [windows_snoc, ← List.cons_append] at hw ⊢
    rw [prun_snoc]
    obtain ⟨I, hm⟩ := ih hs.left hk.left (List.pairwise_append.1 hw).1
    cases x with
    | event e =>
      obtain ⟨h1, h2⟩ := fine_add I hs hk
      refine ⟨h1, ?_⟩
      show ((prun nodes w acts).add e).window ∈ _
      rw [h2]
      exact List.mem_append_left _ hm
    | prune =>
      dsimp only
      rw [List.append_nil, List.append_nil]
      exact ⟨fine_prune I hs.left, hm⟩
    | window n =>
      dsimp only
      rw [List.append_nil]
      have hle : max 1 n ≤ (prun nodes w acts).window := (List.pairwise_append.1 hw).2.2 _ hm _ (by simp)
      refine ⟨⟨I.names, I.order, I.nodup, I.slot, I.upper, I.attained, fun id e hm h hlt => ?_⟩,
        List.mem_append_right _ (List.mem_singleton.2 rfl)⟩
      replace hlt : (prun nodes w acts).maxSlot - e.slot < max 1 n := hlt
      exact I.exact id e hm h (by omega)

theorem Tells.unique {evs : List Ev} {p : Ev → Prop} {o : Option Int} {a : Int} (h : Tells evs p o)
    (ha : Earliest evs p a) : o = some a := by
  obtain ⟨⟨e, h1, h2, h3⟩, h4⟩ := ha
  cases o with
  | none => exact absurd h2 (h e h1)
  | some m =>
    obtain ⟨⟨e', h5, h6, h7⟩, h8⟩ := h
    have := h8 e h1 h2
    have := h4 e' h5 h6
    rw [show m = a by omega]

/-- **C123.** While a topic has at most 400 ids and the number of slots shown is not raised, the panel has a dot for
exactly the nodes that have seen an id of the last slots, and it stands for the exact delay behind the first node to
see the id: whatever the order in which the events arrive, how often, and when the panel is tidied up.  Full
statement: the same without a limit on the ids; it is false, see `C123_delays_false`. -/
theorem C123_delays_partial {nodes : List Nat} {w : Nat} {acts : List PAct} {t : Node.Topic}
    (hs : OneSlot (arrived acts)) (hk : AtMost 400 (arrived acts) t) (hw : (w :: windows acts).Pairwise (· ≥ ·))
    (id node : Nat) (δ : Int) :
    (prun nodes w acts).dot t id node = some δ ↔
      Delay nodes (arrived acts) t id (prun nodes w acts).window node δ := by
  obtain ⟨I, -⟩ := fine_run nodes w t acts hs hk hw
  generalize prun nodes w acts = c at *
  constructor
  · intro h
    unfold Chart.dot at h
    cases hg : c.group t id with
    | none => rw [hg] at h; cases h
    | some x =>
      rw [hg] at h
      dsimp only at h
      split at h
      · cases h
      · rename_i hx
        obtain ⟨e, h1, h2, h3⟩ := I.slot id x hg
        have hlt : c.maxSlot - e.slot < c.window := by
          unfold Chart.aged at hx
          simp only [decide_eq_true_eq] at hx
          omega
        obtain ⟨y, h4, h5⟩ := I.exact id e h1 h2 hlt
        rw [hg] at h4
        cases h4
        have ha := h5.arrivals node
        have hf := h5.first
        split at h
        · rename_i a m e1 e2
          rw [e1] at ha
          rw [e2] at hf
          refine ⟨⟨e, h1, h2, fun e' h6 h7 => ?_⟩, a, m, ha, hf, (Option.some.inj h).symm⟩
          have := I.upper e' h6 h7
          omega
        · cases h
  · rintro ⟨⟨e, h1, h2, h3⟩, a, m, ha, hm, rfl⟩
    have hlt : c.maxSlot - e.slot < c.window := by
      have h0 := h3 e h1 h2.1
      rcases I.attained with h | ⟨e', h4, h5, h6⟩
      · omega
      · have := h3 e' h4 h5
        omega
    obtain ⟨x, h4, h5⟩ := I.exact id e h1 h2 hlt
    obtain ⟨e', h6, h7, h8⟩ := I.slot id x h4
    have hse : e'.slot = e.slot := hs e' h6 e h1 (by rw [h7.2.1, h2.2.1]) (by rw [h7.2.2, h2.2.2]) (by rw [h7.2.2]; simp)
    unfold Chart.dot
    rw [h4]
    dsimp only
    rw [if_neg (by unfold Chart.aged; simp only [decide_eq_true_eq]; omega), (h5.arrivals node).unique ha,
      h5.first.unique hm]

/-- **C123, order.** Two pages that have received the same events, in any order and however often, show the same. -/
theorem C123_order_partial {nodes : List Nat} {w : Nat} {acts acts' : List PAct} {t : Node.Topic}
    (hs : OneSlot (arrived acts)) (hk : AtMost 400 (arrived acts) t) (hw : (w :: windows acts).Pairwise (· ≥ ·))
    (hw' : (w :: windows acts').Pairwise (· ≥ ·)) (he : ∀ e, e ∈ arrived acts ↔ e ∈ arrived acts')
    (hl : (prun nodes w acts).window = (prun nodes w acts').window) (id node : Nat) :
    (prun nodes w acts).dot t id node = (prun nodes w acts').dot t id node := by
  have hs' : OneSlot (arrived acts') := fun e h1 e' h2 => hs e ((he e).2 h1) e' ((he e').2 h2)
  have hk' : AtMost 400 (arrived acts') t := by
    obtain ⟨ids, h1, h2⟩ := hk
    exact ⟨ids, h1, fun e h => h2 e ((he e).2 h)⟩
  refine Option.ext fun δ => ?_
  rw [C123_delays_partial hs hk hw, C123_delays_partial hs' hk' hw', hl]
  unfold Delay Recent Earliest
  simp only [he]

/-! ### Beyond 400 ids -/

/-- A block event. -/
def blockEv (node id : Nat) (arrival : Int) : Ev := ⟨node, .block, 0, arrival, 0, some id, none, none⟩

/-- Blocks 0, ..., k-1 arrive at node 0. -/
def flood (k : Nat) : List PAct := (List.range k).map fun i => .event (blockEv 0 i 0)

theorem blockEv_charted (node id : Nat) (a : Int) (h : node < 2) : Charted [0, 1] (blockEv node id a) := by
  refine ⟨.inl rfl, by simp [blockEv], ?_⟩
  have : node = 0 ∨ node = 1 := by omega
  rcases this with rfl | rfl <;> simp [blockEv]

theorem note_group (c : Chart) (t : Node.Topic) (id i : Nat) (e : Ev) :
    (c.note t id e).group t i = if i = id then (c.group t id).map (·.see e) else c.group t i := by
  unfold Chart.note
  dsimp only
  rw [Function.update_self]
  by_cases h : i = id
  · rw [h, Function.update_self, if_pos rfl]
  · rw [Function.update_of_ne h, if_neg h]

theorem open_full {c : Chart} {t : Node.Topic} {id slot old : Nat} {rest : List Nat} (h : c.order t = old :: rest)
    (hl : (c.order t).length = maxIds) (hne : id ≠ old) :
    (∀ i, (c.open_ t id slot).group t i =
      if i = old then none else if i = id then some ⟨slot, fun _ => none, none⟩ else c.group t i) ∧
    (c.open_ t id slot).order t = rest ++ [id] := by
  have hlen : (old :: (rest ++ [id])).length > maxIds := by
    rw [← hl, h]; simp
  unfold Chart.open_
  dsimp only
  rw [Function.update_self, h, List.cons_append]
  dsimp only
  rw [if_pos hlen]
  refine ⟨fun i => ?_, Function.update_self ..⟩
  dsimp only
  rw [Function.update_self, Function.update_self]
  by_cases h1 : i = old
  · rw [h1, Function.update_self, if_pos rfl]
  · rw [Function.update_of_ne h1, if_neg h1]
    by_cases h2 : i = id
    · rw [h2, Function.update_self, if_pos rfl]
    · rw [Function.update_of_ne h2, if_neg h2]

theorem flood_state : ∀ k, k ≤ maxIds → (prun [0, 1] 30 (flood k)).order .block = List.range k ∧
    (prun [0, 1] 30 (flood k)).nodes = [0, 1] ∧ (prun [0, 1] 30 (flood k)).maxSlot = 0 ∧
    (prun [0, 1] 30 (flood k)).window = 30 ∧ ∀ i, k ≤ i → (prun [0, 1] 30 (flood k)).group .block i = none := by
  intro k
  induction k with
  | zero => intro _; exact ⟨rfl, rfl, rfl, rfl, fun _ _ => rfl⟩
  | succ k ih =>
    intro hk
    obtain ⟨h1, h2, h3, h4, h5⟩ := ih (by omega)
    have hr : flood (k + 1) = flood k ++ [.event (blockEv 0 k 0)] := by
      unfold flood
      rw [List.range_succ, List.map_append]
      rfl
    rw [hr, prun_snoc]
    generalize prun [0, 1] 30 (flood k) = c at *
    show (c.add (blockEv 0 k 0)).order .block = _ ∧ (c.add (blockEv 0 k 0)).nodes = _ ∧
      (c.add (blockEv 0 k 0)).maxSlot = 0 ∧ (c.add (blockEv 0 k 0)).window = 30 ∧ _
    have hadd := add_charted (c := c) (e := blockEv 0 k 0) (id := k) (by rw [h2]; exact blockEv_charted 0 k 0 (by omega)) rfl
    have hg : c.group (blockEv 0 k 0).topic k = none := h5 k (le_refl _)
    rw [hg, if_neg (by simp), open_room (by rw [show (blockEv 0 k 0).topic = .block from rfl, h1, List.length_range]; omega)]
      at hadd
    rw [hadd]
    refine ⟨?_, h2, ?_, h4, fun i hi => ?_⟩
    · show Function.update c.order .block (c.order .block ++ [k]) .block = _
      rw [Function.update_self, h1, List.range_succ]
    · show max c.maxSlot 0 = 0
      omega
    · have hne : i ≠ k := by omega
      show (c.add (blockEv 0 k 0)).group .block i = none
      rw [hadd]
      refine (note_group _ .block k i _).trans ?_
      rw [if_neg hne]
      show Function.update c.group Node.Topic.block
        (Function.update (c.group .block) k (some ⟨0, fun _ => none, none⟩)) Node.Topic.block i = none
      rw [Function.update_self, Function.update_of_ne hne]
      exact h5 i (by omega)

/-- Blocks 0, ..., 400 arrive at node 0, then block 0 at node 1, 100 ms later. -/
def lateActs : List PAct := flood maxIds ++ [.event (blockEv 0 maxIds 0)] ++ [.event (blockEv 1 0 100)]

theorem lateActs_arrived (e : Ev) (h : e ∈ arrived lateActs) : (∃ i, e = blockEv 0 i 0) ∨ e = blockEv 1 0 100 := by
  unfold lateActs at h
  rw [arrived_snoc, arrived_snoc] at h
  rcases List.mem_append.1 h with h | h
  · rcases List.mem_append.1 h with h | h
    · left
      unfold arrived flood at h
      obtain ⟨x, h1, h2⟩ := List.mem_filterMap.1 h
      obtain ⟨i, -, rfl⟩ := List.mem_map.1 h1
      exact ⟨i, (Option.some.inj h2).symm⟩
    · exact .inl ⟨maxIds, List.mem_singleton.1 h⟩
  · exact .inr (List.mem_singleton.1 h)

/-- The panel shows node 1 as the first to see block 0. -/
theorem lateActs_dot : (prun [0, 1] 30 lateActs).dot .block 0 1 = some 0 := by
  obtain ⟨h1, h2, h3, h4, h5⟩ := flood_state maxIds (le_refl _)
  unfold lateActs
  rw [prun_snoc, prun_snoc]
  generalize prun [0, 1] 30 (flood maxIds) = c at *
  have r0 : c.order .block = 0 :: (List.range' 1 399) := by
    rw [h1, List.range_eq_range']; rfl
  have l0 : (c.order .block).length = maxIds := by rw [h1, List.length_range]
  -- block 400 pushes block 0 out
  have hadd := add_charted (c := c) (e := blockEv 0 maxIds 0) (id := maxIds)
    (by rw [h2]; exact blockEv_charted 0 _ 0 (by omega)) rfl
  have hg : c.group (blockEv 0 maxIds 0).topic maxIds = none := h5 maxIds (le_refl _)
  rw [hg, if_neg (by simp)] at hadd
  obtain ⟨o1, o2⟩ := open_full (id := maxIds) (slot := 0) r0 l0 (by decide)
  obtain ⟨o3, o4, o5⟩ := open_rest c .block maxIds 0
  have hc2 : ∃ c2, c.act (.event (blockEv 0 maxIds 0)) = c2 ∧ c2.group .block 0 = none ∧ c2.nodes = [0, 1] ∧
      c2.maxSlot = 0 ∧ c2.window = 30 ∧ c2.order .block = List.range' 1 399 ++ [maxIds] := by
    refine ⟨_, hadd, ?_, o3.trans h2, ?_, o5.trans h4, o2⟩
    · refine (note_group _ .block maxIds 0 _).trans ?_
      rw [if_neg (by decide)]
      exact (o1 0).trans (if_pos rfl)
    · show max (c.open_ .block maxIds 0).maxSlot 0 = 0
      rw [o4, h3]
      rfl
  obtain ⟨c2, e2, m1, m2, m3, m4, m5⟩ := hc2
  rw [e2]
  -- block 0 starts anew
  have hadd2 := add_charted (c := c2) (e := blockEv 1 0 100) (id := 0)
    (by rw [m2]; exact blockEv_charted 1 0 100 (by omega)) rfl
  have hg2 : c2.group (blockEv 1 0 100).topic 0 = none := m1
  rw [hg2, if_neg (by simp)] at hadd2
  have r1 : c2.order .block = 1 :: (List.range' 2 398 ++ [maxIds]) := by
    rw [m5]; rfl
  obtain ⟨p1, -⟩ := open_full (id := 0) (slot := 0) r1 (by rw [m5]; simp [maxIds]) (by decide)
  obtain ⟨p3, p4, p5⟩ := open_rest c2 .block 0 0
  show (c2.add (blockEv 1 0 100)).dot .block 0 1 = some 0
  rw [hadd2]
  have hx : ((c2.open_ .block 0 0).note .block 0 (blockEv 1 0 100)).group .block 0 =
      some ((⟨0, fun _ => none, none⟩ : Entry).see (blockEv 1 0 100)) := by
    rw [note_group, if_pos rfl, p1 0, if_neg (by decide), if_pos rfl]
    rfl
  have hw : ((c2.open_ .block 0 0).note .block 0 (blockEv 1 0 100)).window = 30 := p5.trans m4
  have hm : ((c2.open_ .block 0 0).note .block 0 (blockEv 1 0 100)).maxSlot = 0 := by
    show max (c2.open_ .block 0 0).maxSlot 0 = 0
    rw [p4, m3]
    rfl
  show ((c2.open_ .block 0 0).note .block 0 (blockEv 1 0 100)).dot .block 0 1 = some 0
  unfold Chart.dot
  rw [hx]
  dsimp only
  rw [if_neg (by unfold Chart.aged; rw [hw, hm]; decide), see_arrivals, see_first]
  rfl

/-- F47: the full statement is false, in a run without tidying up and with a constant window. -/
theorem C123_delays_false : ¬ ∀ (nodes : List Nat) (w : Nat) (acts : List PAct) (t : Node.Topic),
    OneSlot (arrived acts) → (w :: windows acts).Pairwise (· ≥ ·) → ∀ (id node : Nat) (δ : Int),
    (prun nodes w acts).dot t id node = some δ →
      Delay nodes (arrived acts) t id (prun nodes w acts).window node δ := by
  intro H
  have hslot : ∀ e ∈ arrived lateActs, e.slot = 0 := by
    intro e h
    rcases lateActs_arrived e h with ⟨i, rfl⟩ | rfl <;> rfl
  have hwin : windows lateActs = [] := by
    unfold lateActs
    rw [windows_snoc, windows_snoc]
    unfold windows flood
    simp
  obtain ⟨-, a, m, ha, hm, h0⟩ := H [0, 1] 30 lateActs .block
    (fun e h e' h' _ _ _ => by rw [hslot e h, hslot e' h']) (by rw [hwin]; simp) 0 1 0 lateActs_dot
  obtain ⟨⟨e, h1, h2, h3⟩, -⟩ := ha
  have hmem : blockEv 0 0 0 ∈ arrived lateActs := by
    unfold lateActs
    rw [arrived_snoc, arrived_snoc]
    refine List.mem_append_left _ (List.mem_append_left _ ?_)
    unfold arrived flood
    exact List.mem_filterMap.2 ⟨.event (blockEv 0 0 0), List.mem_map.2 ⟨0, List.mem_range.2 (by decide), rfl⟩, rfl⟩
  have := hm.2 _ hmem ⟨blockEv_charted 0 0 0 (by omega), rfl, rfl⟩
  replace this : m ≤ 0 := this
  rcases lateActs_arrived e h1 with ⟨i, rfl⟩ | rfl
  · exact absurd h2.2 (by simp [blockEv])
  · replace h3 : (100 : Int) = a := h3
    omega

/-! ### A case -/

/-- Two nodes and two blocks; the second node is seen before the first, one event comes twice, and the panel is tidied
up in between. -/
def paceActs : List PAct :=
  [.event ⟨1, .block, 3, 1250, 0, some 7, none, none⟩, .prune, .event ⟨0, .block, 3, 1100, 0, some 7, none, none⟩,
   .event ⟨1, .block, 3, 1250, 0, some 7, none, none⟩, .window 20, .event ⟨0, .block, 4, 1900, 0, some 8, none, none⟩]

example : OneSlot (arrived paceActs) ∧ AtMost 400 (arrived paceActs) .block ∧
    (30 :: windows paceActs).Pairwise (· ≥ ·) ∧ (prun [0, 1] 30 paceActs).dot .block 7 1 = some 150 ∧
    (prun [0, 1] 30 paceActs).dot .block 7 0 = some 0 ∧ (prun [0, 1] 30 paceActs).dot .block 8 1 = none := by
  refine ⟨by unfold OneSlot; decide, ⟨[7, 8], by decide, ?_⟩, by decide, by decide +kernel, by decide +kernel, by decide +kernel⟩
  intro e he _ id hid
  simp only [arrived, paceActs, List.filterMap, List.mem_cons, List.not_mem_nil, or_false] at he
  rcases he with rfl | rfl | rfl | rfl <;> cases hid <;> simp

end Verif.Monitor
