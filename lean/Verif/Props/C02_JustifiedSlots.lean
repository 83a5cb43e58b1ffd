import Verif.Model.JustifiedSlots
/-!
# C02 — the justified-slot window is a faithful set of justified slots
-/
namespace Verif.JustifiedSlots

/-- The operations the state transition performs on the window. `finalize f` moves the
finalized boundary forward to slot `f` (`try_finalize` 501-518). -/
inductive Op where
  | extend (target : Nat)
  | mark (target : Nat)
  | finalize (slot : Nat)

/-- Implementation: finalized slot and the stored window. `none` is a panic; a `finalize` that
does not advance is not a call the code makes and is ignored (line 489 returns early). -/
def step (c : Nat × List Bool) : Op → Option (Nat × List Bool)
  | .extend t => (extendToSlot c.2 c.1 t).map (fun w => (c.1, w))
  | .mark t => (setJustified c.2 c.1 t).map (fun w => (c.1, w))
  | .finalize f => if f ≤ c.1 then some c else some (f, shiftWindow c.2 (f - c.1))

/-- Specification state: finalized slot, last tracked slot, every slot ever marked. -/
structure Abs where
  fin : Nat
  top : Nat
  marked : List Nat

/-- Specification step, on absolute slot numbers only. -/
def Abs.step (a : Abs) : Op → Option Abs
  | .extend t =>
    if t ≤ a.top then some a
    else if t - a.fin ≤ historicalRootsLimit then some { a with top := t }
    else none
  | .mark t =>
    if t ≤ a.fin then some a
    else if t ≤ a.top then some { a with marked := t :: a.marked }
    else none
  | .finalize f => if f ≤ a.fin then some a else some { a with fin := f, top := max a.top f }

/-- Specification answer: `none` = out of range. -/
def Abs.answer (a : Abs) (k : Nat) : Option Bool :=
  if k ≤ a.fin then some true
  else if k ≤ a.top then some (decide (k ∈ a.marked))
  else none

def run (c : Nat × List Bool) : List Op → Option (Nat × List Bool)
  | [] => some c
  | o :: os => match step c o with
    | none => none
    | some c' => run c' os

def Abs.run (a : Abs) : List Op → Option Abs
  | [] => some a
  | o :: os => match a.step o with
    | none => none
    | some a' => Abs.run a' os

/-- The abstraction relation. -/
def Rel (c : Nat × List Bool) (a : Abs) : Prop :=
  a.fin = c.1 ∧ a.top = c.1 + c.2.length ∧
  (∀ i, i < c.2.length → c.2[i]? = some (decide (c.1 + 1 + i ∈ a.marked))) ∧
  ∀ k ∈ a.marked, k ≤ a.top

theorem relativeIndex_none {t f : Nat} (h : t ≤ f) : relativeIndex t f = none := by
  unfold relativeIndex; split <;> simp <;> omega

theorem relativeIndex_some {t f : Nat} (h : f < t) : relativeIndex t f = some (t - f - 1) := by
  unfold relativeIndex; rw [if_neg (by omega), if_neg (by omega)]

theorem answer_eq {c : Nat × List Bool} {a : Abs} (h : Rel c a) (k : Nat) :
    isSlotJustified c.2 c.1 k = a.answer k := by
  obtain ⟨hf, ht, hb, -⟩ := h
  unfold isSlotJustified Abs.answer
  rw [hf]
  by_cases hk : k ≤ c.1
  · simp [relativeIndex_none hk, hk]
  · rw [relativeIndex_some (by omega), if_neg hk]
    by_cases h2 : k ≤ a.top
    · rw [if_pos h2]
      have := hb (k - c.1 - 1) (by omega)
      have e : c.1 + 1 + (k - c.1 - 1) = k := by omega
      rw [e] at this
      exact this
    · rw [if_neg h2]
      exact List.getElem?_eq_none (by omega)

theorem step_rel {c : Nat × List Bool} {a : Abs} (h : Rel c a) (o : Op) :
    (step c o = none ∧ a.step o = none) ∨
    ∃ c' a', step c o = some c' ∧ a.step o = some a' ∧ Rel c' a' := by
  obtain ⟨hf, ht, hb, hm⟩ := h
  obtain ⟨f, w⟩ := c
  simp only at hf ht hb
  cases o with
  | extend t =>
    simp only [step, Abs.step, extendToSlot]
    by_cases htf : t ≤ f
    · rw [relativeIndex_none htf]
      right
      refine ⟨(f, w), a, rfl, ?_, hf, ht, hb, hm⟩
      rw [if_pos (by omega)]
    · rw [relativeIndex_some (by omega)]
      by_cases hle : t ≤ a.top
      · right
        refine ⟨(f, w), a, ?_, ?_, hf, ht, hb, hm⟩
        · simp only; rw [if_pos (by omega)]; rfl
        · rw [if_pos hle]
      · simp only
        rw [if_neg (by omega), if_neg hle]
        by_cases hl : t - a.fin ≤ historicalRootsLimit
        · right
          rw [if_pos hl, if_pos (by omega)]
          refine ⟨_, _, rfl, rfl, hf, ?_, ?_, ?_⟩
          · simp; omega
          · intro i hi
            simp only [List.length_append, List.length_replicate] at hi
            by_cases hiw : i < w.length
            · rw [List.getElem?_append_left hiw]; exact hb i hiw
            · simp only
              rw [List.getElem?_append_right (by omega), List.getElem?_replicate,
                if_pos (by omega)]
              congr 1
              symm
              rw [decide_eq_false_iff_not]
              intro hmem
              have := hm _ hmem
              omega
          · intro k hk; have := hm k hk; simp only; omega
        · left
          rw [if_neg hl, if_neg (by omega)]
          exact ⟨rfl, rfl⟩
  | mark t =>
    simp only [step, Abs.step, setJustified]
    by_cases htf : t ≤ f
    · right
      rw [relativeIndex_none htf]
      refine ⟨(f, w), a, rfl, ?_, hf, ht, hb, hm⟩
      rw [if_pos (by omega)]
    · rw [relativeIndex_some (by omega)]
      simp only
      by_cases hle : t ≤ a.top
      · right
        rw [if_pos (by omega : t - f - 1 < w.length), if_neg (by omega), if_pos hle]
        refine ⟨_, _, rfl, rfl, hf, ?_, ?_, ?_⟩
        · simpa using ht
        · intro i hi
          simp only [List.length_set] at hi
          simp only [List.getElem?_set, List.mem_cons]
          by_cases hit : t - f - 1 = i
          · subst hit
            rw [if_pos rfl, if_pos (by omega)]
            congr 1
            symm
            rw [decide_eq_true_eq]
            left; omega
          · rw [if_neg hit, hb i hi]
            have : ¬ (f + 1 + i = t) := by omega
            simp [this]
        · intro k hk
          rcases List.mem_cons.1 hk with rfl | hk
          · exact hle
          · exact hm k hk
      · left
        rw [if_neg (by omega : ¬ t - f - 1 < w.length), if_neg (by omega), if_neg hle]
        exact ⟨rfl, rfl⟩
  | finalize g =>
    right
    simp only [step, Abs.step]
    by_cases hgf : g ≤ f
    · refine ⟨(f, w), a, by rw [if_pos hgf], by rw [if_pos (by omega)], hf, ht, hb, hm⟩
    · rw [if_neg hgf, if_neg (by omega)]
      refine ⟨_, _, rfl, rfl, rfl, ?_, ?_, ?_⟩
      · simp only [shiftWindow]
        rw [if_neg (by omega)]
        split
        · simp; omega
        · simp; omega
      · intro i
        simp only [shiftWindow]
        rw [if_neg (by omega)]
        split
        · intro hi; simp at hi
        · intro hi
          simp only [List.length_drop] at hi
          rw [List.getElem?_drop, hb _ (by omega)]
          have : f + 1 + (g - f + i) = g + 1 + i := by omega
          rw [this]
      · intro k hk; have := hm k hk; simp only; omega

/-- C02. After any sequence of operations from an empty window, the implementation panics exactly
when the specification forbids the operation, and otherwise every query is answered from the set
of slots marked so far: finalized slots are justified, tracked slots are justified iff marked,
and slots beyond the tracked range are out of range. -/
theorem C02_window_refines_set (f0 : Nat) (ops : List Op) :
    match run (f0, []) ops, Abs.run ⟨f0, f0, []⟩ ops with
    | none, none => True
    | some c, some a => c.1 = a.fin ∧ ∀ k, isSlotJustified c.2 c.1 k = a.answer k
    | _, _ => False := by
  have gen : ∀ (ops : List Op) (c : Nat × List Bool) (a : Abs), Rel c a →
      match run c ops, Abs.run a ops with
      | none, none => True
      | some c, some a => c.1 = a.fin ∧ ∀ k, isSlotJustified c.2 c.1 k = a.answer k
      | _, _ => False := by
    intro ops
    induction ops with
    | nil => intro c a h; exact ⟨h.1.symm, answer_eq h⟩
    | cons o os ih =>
      intro c a h
      rcases step_rel h o with ⟨h1, h2⟩ | ⟨c', a', h1, h2, h3⟩
      · simp [run, Abs.run, h1, h2]
      · simp only [run, Abs.run, h1, h2]; exact ih c' a' h3
  refine gen ops _ _ ⟨rfl, rfl, ?_, ?_⟩
  · intro i hi; simp at hi
  · intro k hk; simp at hk

/-- Advancing the finalized boundary does not change the status of any slot above it. -/
theorem C02_finalize_preserves_status (f g : Nat) (w : List Bool) (h : f ≤ g)
    (k : Nat) (hk : g < k) :
    isSlotJustified (shiftWindow w (g - f)) g k = isSlotJustified w f k := by
  unfold isSlotJustified
  rw [relativeIndex_some hk, relativeIndex_some (by omega)]
  simp only [shiftWindow]
  split
  · next h0 => congr 1; omega
  · split
    · next h1 h2 =>
      have : w.length ≤ k - f - 1 := by omega
      rw [List.getElem?_eq_none this]; simp
    · rw [List.getElem?_drop]; congr 1; omega

/-- A run that extends, marks, finalizes and extends again does not panic, and answers as
expected: slot 4 was marked, 5 was not, 9 is out of range. -/
example : ∃ w, run (0, []) [.extend 6, .mark 2, .mark 4, .finalize 2, .extend 8] = some (2, w)
    ∧ isSlotJustified w 2 4 = some true ∧ isSlotJustified w 2 5 = some false
    ∧ isSlotJustified w 2 9 = none := by
  refine ⟨[false, true, false, false, false, false], by decide, by decide, by decide, by decide⟩

end Verif.JustifiedSlots
