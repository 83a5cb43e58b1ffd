import Verif.Spec.Tree
import Verif.Lemmas.AMap
/-!
# Lemmas about fork choice
-/
namespace Verif.ForkChoice
open Verif

theorem Anc.eq_or_lt {blocks : Blocks} (hw : WF blocks) {r h : Root} (ha : Anc blocks r h)
    {s p s' p'} (hr : blocks.get? r = some (s, p)) (hh : blocks.get? h = some (s', p')) :
    r = h ∨ s < s' := by
  induction ha generalizing s' p' with
  | self _ => exact Or.inl rfl
  | up hg hanc ih =>
    rw [hh] at hg; cases hg
    cases hanc with
    | self h2 => exact Or.inr (hw.parent _ _ _ _ _ hh hr)
    | up h2 h3 =>
      have h4 := hw.parent _ _ _ _ _ hh h2
      rcases ih h2 with rfl | h5
      · rw [h2] at hr; cases hr; exact Or.inr h4
      · exact Or.inr (by omega)

theorem Anc.slot_le {blocks : Blocks} (hw : WF blocks) {r h : Root} (ha : Anc blocks r h)
    {s p s' p'} (hr : blocks.get? r = some (s, p)) (hh : blocks.get? h = some (s', p')) :
    s ≤ s' := by
  rcases ha.eq_or_lt hw hr hh with rfl | h
  · rw [hr] at hh; cases hh; exact Nat.le_refl _
  · omega

theorem Anc.known_left {blocks : Blocks} {r h : Root} (ha : Anc blocks r h) :
    ∃ s p, blocks.get? r = some (s, p) := by
  induction ha with
  | self h => exact ⟨_, _, h⟩
  | up _ _ ih => exact ih

theorem Anc.known_right {blocks : Blocks} {r h : Root} (ha : Anc blocks r h) :
    ∃ s p, blocks.get? h = some (s, p) := by
  cases ha with
  | self h => exact ⟨_, _, h⟩
  | up h _ => exact ⟨_, _, h⟩

theorem Anc.trans {blocks : Blocks} {a b c : Root} (h1 : Anc blocks a b) (h2 : Anc blocks b c) :
    Anc blocks a c := by
  induction h2 with
  | self _ => exact h1
  | up h _ ih => exact .up h ih

/-- Two ancestors of the same block are comparable. -/
theorem Anc.total {blocks : Blocks} {a b h : Root} (h1 : Anc blocks a h) (h2 : Anc blocks b h) :
    Anc blocks a b ∨ Anc blocks b a := by
  induction h1 with
  | self _ => exact Or.inr h2
  | up hg hrp ih =>
    cases h2 with
    | self hg' => exact Or.inl (.up hg hrp)
    | up hg' hbp =>
      rw [hg] at hg'; cases hg'
      exact ih hbp

theorem Anc.antisymm {blocks : Blocks} (hw : WF blocks) {a b : Root} (h1 : Anc blocks a b)
    (h2 : Anc blocks b a) : a = b := by
  obtain ⟨s, p, ha⟩ := h1.known_left
  obtain ⟨s', p', hb⟩ := h2.known_left
  rcases h1.eq_or_lt hw ha hb with h | h
  · exact h
  · have := h2.slot_le hw hb ha
    omega

theorem walk_sound {blocks : Blocks} {start fuel : Nat} {h r : Root}
    (hm : r ∈ walk blocks start fuel h) : Supports blocks start r h := by
  induction fuel generalizing h with
  | zero => cases hm
  | succ fuel ih =>
    unfold walk at hm
    split at hm
    · next s p hg =>
      split at hm
      · next hs =>
        rcases List.mem_cons.1 hm with rfl | hm
        · exact ⟨.self hg, s, p, hg, hs⟩
        · obtain ⟨h1, h2⟩ := ih hm
          exact ⟨.up hg h1, h2⟩
      · cases hm
    · cases hm

theorem walk_complete {blocks : Blocks} (hw : WF blocks) {start fuel : Nat} {h r : Root}
    (hl : (walk blocks start fuel h).length < fuel) (hs : Supports blocks start r h) :
    r ∈ walk blocks start fuel h := by
  induction fuel generalizing h with
  | zero => omega
  | succ fuel ih =>
    obtain ⟨ha, s, p, hr, hlt⟩ := hs
    obtain ⟨s', p', hh⟩ := ha.known_right
    have hle := ha.slot_le hw hr hh
    unfold walk at hl ⊢
    simp only [hh] at hl ⊢
    rw [if_pos (by omega)] at hl ⊢
    cases ha with
    | self _ => simp
    | up hg hrp =>
      rw [hh] at hg; cases hg
      exact List.mem_cons_of_mem _ (ih (by simpa using hl) ⟨hrp, s, p, hr, hlt⟩)

theorem walk_nodup {blocks : Blocks} (hw : WF blocks) (start fuel : Nat) (h : Root) :
    (walk blocks start fuel h).Nodup := by
  induction fuel generalizing h with
  | zero => simp [walk]
  | succ fuel ih =>
    unfold walk
    split
    · next s p hg =>
      split
      · rw [List.nodup_cons]
        refine ⟨?_, ih p⟩
        intro hm
        obtain ⟨ha, _⟩ := walk_sound hm
        obtain ⟨s', p', hp⟩ := ha.known_right
        have := ha.slot_le hw hg hp
        have := hw.parent _ _ _ _ _ hg hp
        omega
      · simp
    · simp

theorem walk_length {blocks : Blocks} (hw : WF blocks) (start fuel : Nat) (h : Root) :
    (walk blocks start fuel h).length ≤ blocks.length := by
  have := List.Subperm.length_le (List.subperm_of_subset (walk_nodup hw start fuel h)
    (l₂ := blocks.keys) (by
      intro r hr
      obtain ⟨-, s, p, hg, -⟩ := walk_sound hr
      exact AMap.mem_keys_iff.2 ⟨_, hg⟩))
  simpa [AMap.keys] using this

theorem mem_walk_iff {blocks : Blocks} (hw : WF blocks) {start : Nat} {h r : Root} :
    r ∈ walk blocks start (blocks.length + 1) h ↔ Supports blocks start r h :=
  ⟨walk_sound, walk_complete hw (Nat.lt_succ_of_le (walk_length hw _ _ _))⟩

/-! ### Weights -/

theorem get?_bump_foldl (l : List Root) (w : AMap Root Nat) (r : Root) :
    (l.foldl bump w).get? r =
      if l.count r = 0 then w.get? r else some ((w.get? r).getD 0 + l.count r) := by
  induction l generalizing w with
  | nil => simp
  | cons x l ih =>
    rw [List.foldl_cons, ih, List.count_cons]
    unfold bump
    rw [AMap.get?_insert]
    by_cases hx : x = r
    · subst hx
      simp only [if_true, Option.getD_some, beq_self_eq_true]
      rw [if_neg (show ¬ List.count x l + 1 = 0 by omega)]
      split
      · next h => rw [h]
      · congr 1; omega
    · simp [hx]

/-- Total number of increments of `r` over all votes. -/
def incCount (blocks : Blocks) (start fuel : Nat) (votes : AMap Nat AttData) (r : Root) : Nat :=
  (votes.map (fun e => (walk blocks start fuel e.2.head.root).count r)).sum

theorem get?_weights_foldl (blocks : Blocks) (start fuel : Nat) (votes : AMap Nat AttData)
    (w : AMap Root Nat) (r : Root) :
    (votes.foldl (fun w e => (walk blocks start fuel e.2.head.root).foldl bump w) w).get? r =
      if incCount blocks start fuel votes r = 0 then w.get? r
      else some ((w.get? r).getD 0 + incCount blocks start fuel votes r) := by
  induction votes generalizing w with
  | nil => simp [incCount]
  | cons e votes ih =>
    rw [List.foldl_cons, ih, get?_bump_foldl]
    have : incCount blocks start fuel (e :: votes) r =
        (walk blocks start fuel e.2.head.root).count r + incCount blocks start fuel votes r := by
      simp [incCount]
    rw [this]
    generalize (walk blocks start fuel e.2.head.root).count r = a
    generalize incCount blocks start fuel votes r = b
    by_cases ha : a = 0 <;> by_cases hb : b = 0 <;> simp [ha, hb]
    omega

theorem incCount_eq_support {blocks : Blocks} (hw : WF blocks) (start : Nat)
    (votes : AMap Nat AttData) (r : Root) :
    incCount blocks start (blocks.length + 1) votes r = supportCount blocks start votes r := by
  unfold incCount supportCount
  induction votes with
  | nil => simp
  | cons e votes ih =>
    rw [List.map_cons, List.sum_cons, List.countP_cons, ih, Nat.add_comm]
    congr 1
    by_cases hs : Supports blocks start r e.2.head.root
    · rw [if_pos (by simpa using hs)]
      exact List.count_eq_one_of_mem (walk_nodup hw _ _ _) ((mem_walk_iff hw).2 hs)
    · rw [if_neg (by simpa using hs)]
      exact List.count_eq_zero.2 (fun hm => hs ((mem_walk_iff hw).1 hm))

theorem get?_weights {blocks : Blocks} (hw : WF blocks) (start : Nat)
    (votes : AMap Nat AttData) (r : Root) :
    (computeBlockWeights start blocks votes).get? r =
      if supportCount blocks start votes r = 0 then none
      else some (supportCount blocks start votes r) := by
  unfold computeBlockWeights
  rw [get?_weights_foldl, incCount_eq_support hw]
  simp [AMap.get?_nil]

/-! ### Best child -/

theorem keyLe_iff (w : AMap Root Nat) (a b : Root) : keyLe w a b = true ↔
    weightOf w a < weightOf w b ∨ (weightOf w a = weightOf w b ∧ Nat.le a b) := by
  simp only [keyLe, Bool.or_eq_true, Bool.and_eq_true, decide_eq_true_eq]
  exact Iff.rfl

theorem keyLe_refl (w : AMap Root Nat) (a : Root) : keyLe w a a = true :=
  (keyLe_iff ..).2 (Or.inr ⟨rfl, Nat.le_refl _⟩)

theorem keyLe_total (w : AMap Root Nat) (a b : Root) : keyLe w a b = true ∨ keyLe w b a = true := by
  rw [keyLe_iff, keyLe_iff]
  rcases Nat.lt_trichotomy (weightOf w a) (weightOf w b) with h | h | h
  · exact Or.inl (Or.inl h)
  · rcases Nat.le_total a b with h2 | h2
    · exact Or.inl (Or.inr ⟨h, h2⟩)
    · exact Or.inr (Or.inr ⟨h.symm, h2⟩)
  · exact Or.inr (Or.inl h)

theorem keyLe_trans {w : AMap Root Nat} {a b c : Root} (h1 : keyLe w a b = true)
    (h2 : keyLe w b c = true) : keyLe w a c = true := by
  rw [keyLe_iff] at *
  rcases h1 with h1 | ⟨h1, h1'⟩ <;> rcases h2 with h2 | ⟨h2, h2'⟩
  · left; omega
  · left; omega
  · left; omega
  · right; exact ⟨h1.trans h2, Nat.le_trans h1' h2'⟩

theorem keyLe_antisymm {w : AMap Root Nat} {a b : Root} (h1 : keyLe w a b = true)
    (h2 : keyLe w b a = true) : a = b := by
  rw [keyLe_iff] at *
  rcases h1 with h1 | ⟨h1, h1'⟩ <;> rcases h2 with h2 | ⟨h2, h2'⟩
  · omega
  · omega
  · omega
  · exact Nat.le_antisymm h1' h2'

theorem maxFold_spec (w : AMap Root Nat) (cs : List Root) (c : Root) :
    let m := cs.foldl (fun best r => if keyLe w best r then r else best) c
    (m = c ∨ m ∈ cs) ∧ keyLe w c m = true ∧ ∀ x ∈ cs, keyLe w x m = true := by
  induction cs generalizing c with
  | nil => simp [keyLe_refl]
  | cons x cs ih =>
    simp only [List.foldl_cons]
    obtain ⟨h1, h2, h3⟩ := ih (if keyLe w c x then x else c)
    by_cases hx : keyLe w c x = true
    · simp only [hx, if_true] at h1 h2 h3 ⊢
      refine ⟨?_, keyLe_trans hx h2, ?_⟩
      · rcases h1 with h1 | h1
        · right; rw [h1]; simp
        · right; exact List.mem_cons_of_mem _ h1
      · intro y hy
        rcases List.mem_cons.1 hy with rfl | hy
        · exact h2
        · exact h3 y hy
    · have hx' := (keyLe_total w c x).resolve_left hx
      simp only [hx] at h1 h2 h3 ⊢
      simp only [Bool.false_eq_true, if_false] at h1 h2 h3 ⊢
      refine ⟨?_, h2, ?_⟩
      · rcases h1 with h1 | h1
        · left; exact h1
        · right; exact List.mem_cons_of_mem _ h1
      · intro y hy
        rcases List.mem_cons.1 hy with rfl | hy
        · exact keyLe_trans hx' h2
        · exact h3 y hy

theorem maxChild_some_iff (w : AMap Root Nat) (l : List Root) (c : Root) :
    maxChild w l = some c ↔ c ∈ l ∧ ∀ x ∈ l, keyLe w x c = true := by
  cases l with
  | nil => simp [maxChild]
  | cons a l =>
    obtain ⟨h1, h2, h3⟩ := maxFold_spec w l a
    have hmem : l.foldl (fun best r => if keyLe w best r then r else best) a ∈ a :: l := by
      rcases h1 with h1 | h1
      · rw [h1]; simp
      · exact List.mem_cons_of_mem _ h1
    have hmax : ∀ x ∈ a :: l, keyLe w x
        (l.foldl (fun best r => if keyLe w best r then r else best) a) = true := by
      intro x hx
      rcases List.mem_cons.1 hx with rfl | hx
      · exact h2
      · exact h3 x hx
    simp only [maxChild, Option.some.injEq]
    constructor
    · rintro rfl; exact ⟨hmem, hmax⟩
    · rintro ⟨hc1, hc2⟩
      exact keyLe_antisymm (hc2 _ hmem) (hmax _ hc1)

theorem maxChild_none_iff (w : AMap Root Nat) (l : List Root) : maxChild w l = none ↔ l = [] := by
  cases l <;> simp [maxChild]

theorem mem_children {blocks : Blocks} {w : AMap Root Nat} {m : Nat} {h c : Root} :
    c ∈ children blocks w m h ↔ ∃ s, (c, (s, h)) ∈ blocks ∧ h ≠ 0 ∧
      (m > 0 → m ≤ weightOf w c) := by
  unfold children
  simp only [List.mem_map, List.mem_filter, Bool.and_eq_true, decide_eq_true_eq,
    Bool.not_eq_true', Bool.and_eq_false_iff, decide_eq_false_iff_not]
  constructor
  · rintro ⟨⟨c', s, p⟩, ⟨hm, ⟨h0, hsc⟩, hp⟩, rfl⟩
    simp only at *
    subst hp
    exact ⟨s, hm, h0, fun hpos => by omega⟩
  · rintro ⟨s, hm, h0, hsc⟩
    exact ⟨(c, (s, h)), ⟨hm, ⟨h0, by by_cases hm0 : m > 0 <;> [have := hsc hm0; skip] <;> simp only <;> omega⟩, rfl⟩, rfl⟩

theorem minSlotRoot_none_iff (blocks : Blocks) : minSlotRoot blocks = none ↔ blocks = [] := by
  cases blocks <;> simp [minSlotRoot]

theorem wf_of_check {blocks : Blocks} (h : wfCheck blocks = true) : WF blocks := by
  unfold wfCheck at h
  rw [Bool.and_eq_true, decide_eq_true_eq, List.all_eq_true] at h
  refine ⟨h.1, ?_⟩
  intro r s p s' p' h1 h2
  have := h.2 _ (AMap.mem_of_get? h1)
  simp only [h2, decide_eq_true_eq] at this
  exact this

theorem minSlot_fold (l : Blocks) (e : Root × (Nat × Root)) :
    let m := l.foldl (fun best x => if x.2.1 < best.2.1 then x else best) e
    (m = e ∨ m ∈ l) ∧ m.2.1 ≤ e.2.1 ∧ ∀ x ∈ l, m.2.1 ≤ x.2.1 := by
  induction l generalizing e with
  | nil => simp
  | cons x l ih =>
    simp only [List.foldl_cons]
    obtain ⟨h1, h2, h3⟩ := ih (if x.2.1 < e.2.1 then x else e)
    generalize l.foldl (fun best x => if x.2.1 < best.2.1 then x else best)
      (if x.2.1 < e.2.1 then x else e) = m at *
    split at h1 <;> rename_i hx
    · rw [if_pos hx] at h2
      refine ⟨?_, by omega, ?_⟩
      · rcases h1 with rfl | h1
        · right; simp
        · right; exact List.mem_cons_of_mem _ h1
      · intro y hy
        rcases List.mem_cons.1 hy with rfl | hy
        · exact h2
        · exact h3 y hy
    · rw [if_neg hx] at h2
      refine ⟨?_, h2, ?_⟩
      · rcases h1 with rfl | h1
        · left; rfl
        · right; exact List.mem_cons_of_mem _ h1
      · intro y hy
        rcases List.mem_cons.1 hy with rfl | hy
        · omega
        · exact h3 y hy

theorem minSlotRoot_spec {blocks : Blocks} {r : Root} (h : minSlotRoot blocks = some r) :
    ∃ s p, (r, (s, p)) ∈ blocks ∧ ∀ e ∈ blocks, s ≤ e.2.1 := by
  cases blocks with
  | nil => cases h
  | cons e l =>
    obtain ⟨h1, h2, h3⟩ := minSlot_fold l e
    simp only [minSlotRoot, Option.some.injEq] at h
    generalize hm : l.foldl (fun best x => if x.2.1 < best.2.1 then x else best) e = m at *
    obtain ⟨r', s, p⟩ := m
    simp only at h; subst h
    refine ⟨s, p, ?_, ?_⟩
    · rcases h1 with h1 | h1
      · rw [h1]; simp
      · exact List.mem_cons_of_mem _ h1
    · intro x hx
      rcases List.mem_cons.1 hx with rfl | hx
      · exact h2
      · exact h3 x hx

theorem weightOf_eq {blocks : Blocks} (hw : WF blocks) (start : Nat) (votes : AMap Nat AttData)
    (r : Root) : weightOf (computeBlockWeights start blocks votes) r =
      supportCount blocks start votes r := by
  unfold weightOf
  rw [get?_weights hw]
  split <;> simp_all

theorem mem_children_iff {blocks : Blocks} (hw : WF blocks) (start : Nat)
    (votes : AMap Nat AttData) (m : Nat) (h c : Root) :
    c ∈ children blocks (computeBlockWeights start blocks votes) m h ↔
      Eligible blocks start votes m h c := by
  rw [mem_children, weightOf_eq hw]
  unfold Eligible
  constructor
  · rintro ⟨s, h1, h2, h3⟩
    exact ⟨⟨s, AMap.get?_of_mem hw.nodup h1⟩, h2, h3⟩
  · rintro ⟨⟨s, h1⟩, h2, h3⟩
    exact ⟨s, AMap.mem_of_get? h1, h2, h3⟩

theorem best_iff {blocks : Blocks} (hw : WF blocks) (start : Nat)
    (votes : AMap Nat AttData) (m : Nat) (h c : Root) :
    maxChild (computeBlockWeights start blocks votes)
      (children blocks (computeBlockWeights start blocks votes) m h) = some c ↔
      Best blocks start votes m h c := by
  rw [maxChild_some_iff, mem_children_iff hw]
  unfold Best
  constructor
  · rintro ⟨h1, h2⟩
    refine ⟨h1, ?_⟩
    intro d hd hne
    have := h2 d ((mem_children_iff hw ..).2 hd)
    rw [keyLe_iff, weightOf_eq hw, weightOf_eq hw] at this
    rcases this with h | ⟨h, h'⟩
    · exact Or.inl h
    · exact Or.inr ⟨h, Nat.lt_of_le_of_ne h' hne⟩
  · rintro ⟨h1, h2⟩
    refine ⟨h1, ?_⟩
    intro d hd
    rw [keyLe_iff, weightOf_eq hw, weightOf_eq hw]
    by_cases hne : d = c
    · subst hne; exact Or.inr ⟨rfl, Nat.le_refl _⟩
    · rcases h2 d ((mem_children_iff hw ..).1 hd) hne with h | ⟨h, h'⟩
      · exact Or.inl h
      · exact Or.inr ⟨h, Nat.le_of_lt h'⟩

/-- Number of blocks above a slot; bounds the remaining descent. -/
def above (blocks : Blocks) (s : Nat) : Nat := blocks.countP (fun e => decide (s < e.2.1))

theorem countP_lt {α : Type} {p q : α → Bool} {l : List α} (hpq : ∀ x ∈ l, q x = true → p x = true)
    {a : α} (ha : a ∈ l) (hp : p a = true) (hq : q a = false) : l.countP q < l.countP p := by
  induction l with
  | nil => cases ha
  | cons x l ih =>
    have hmono : l.countP q ≤ l.countP p :=
      List.countP_mono_left (fun y hy => hpq y (List.mem_cons_of_mem _ hy))
    rw [List.countP_cons, List.countP_cons]
    rcases List.mem_cons.1 ha with rfl | ha
    · simp only [hp, hq, if_true]; simp; omega
    · have := ih (fun y hy => hpq y (List.mem_cons_of_mem _ hy)) ha
      have hx := hpq x (by simp)
      cases h1 : q x <;> cases h2 : p x <;> simp_all <;> omega

theorem above_lt {blocks : Blocks} {s s' : Nat} (h : s < s') {c p : Root}
    (hm : (c, (s', p)) ∈ blocks) : above blocks s' < above blocks s := by
  refine countP_lt ?_ hm (by simpa using h) (by simp)
  intro x _ hx
  simp only [decide_eq_true_eq] at *
  omega

theorem headLoop_spec {blocks : Blocks} (hw : WF blocks) (start : Nat)
    (votes : AMap Nat AttData) (m : Nat) (st : Root) (fuel : Nat) (h : Root) (s : Nat) (p : Root)
    (hh : blocks.get? h = some (s, p)) (hf : above blocks s < fuel)
    (hg : Greedy blocks start votes m st h) :
    Greedy blocks start votes m st
      (headLoop blocks (computeBlockWeights start blocks votes) m fuel h) ∧
    ∀ c, ¬ Eligible blocks start votes m
      (headLoop blocks (computeBlockWeights start blocks votes) m fuel h) c := by
  induction fuel generalizing h s p with
  | zero => omega
  | succ fuel ih =>
    unfold headLoop
    split
    · next hn =>
      refine ⟨hg, ?_⟩
      intro c hc
      rw [maxChild_none_iff] at hn
      have := (mem_children_iff hw start votes m h c).2 hc
      rw [hn] at this; cases this
    · next c hc =>
      have hb := (best_iff hw ..).1 hc
      obtain ⟨s', hs'⟩ := hb.1.1
      have hlt := hw.parent _ _ _ _ _ hs' hh
      exact ih c s' h hs' (by have := above_lt hlt (AMap.mem_of_get? hs'); omega) (.step hg hb)

theorem above_le (blocks : Blocks) (s : Nat) : above blocks s ≤ blocks.length :=
  List.countP_le_length

end Verif.ForkChoice
