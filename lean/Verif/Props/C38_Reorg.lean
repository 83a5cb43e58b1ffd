import Verif.Lemmas.Headers
/-!
# C38: reorg reporting
-/
namespace Verif.Node
open Verif Verif.Db

/-- Walking back from `r`, `d` blocks are above `slot`, and `x` is the first that is not. -/
structure StepsTo (hs : AMap Root Header) (slot : Nat) (r : Root) (d : Nat) (x : Root) : Prop where
  path : Back hs r d x
  stop : ∀ h, hs.get? x = some h → h.slot ≤ slot
  above : ∀ m y h, m < d → Back hs r m y → hs.get? y = some h → slot < h.slot

theorem StepsTo.tail {hs : AMap Root Header} {slot : Nat} {r x : Root} {d : Nat} {h : Header}
    (e : hs.get? r = some h) (S : StepsTo hs slot r (d + 1) x) :
    StepsTo hs slot h.parentRoot d x := by
  refine ⟨?_, S.stop, fun m y hy hm b ey => S.above (m + 1) y hy (by omega) (.up e b) ey⟩
  cases S.path with
  | up e' b => rw [e] at e'; cases e'; exact b

theorem reorgWalk_steps {hs : AMap Root Header} {slot : Nat} {lo : Root} : ∀ (n : Nat) {d : Nat}
    {r x : Root} (k : Nat), StepsTo hs slot r d x → d < n →
    reorgWalk hs slot lo n r k = if x = lo then none else some (k + d) := by
  intro n
  induction n with
  | zero => intro d r x k _ h; omega
  | succ n ih =>
    intro d r x k S hd
    obtain ⟨h, e⟩ := S.path.left
    unfold reorgWalk
    rw [e]
    simp only
    cases d with
    | zero =>
      cases S.path with
      | here _ =>
        rw [if_pos (S.stop _ e)]
        by_cases hx : r = lo
        · simp [hx]
        · simp [hx]
    | succ d =>
      rw [if_neg (Nat.not_le.2 (S.above 0 r h (by omega) (.here e) e)),
        ih (k + 1) (S.tail e) (by omega)]
      have : k + 1 + d = k + (d + 1) := by omega
      rw [this]

theorem reorgWalk_cap {hs : AMap Root Header} {slot : Nat} {lo : Root} : ∀ (n : Nat) {r x : Root}
    (k : Nat), 0 < n → Back hs r (n - 1) x →
    (∀ m y h, m < n → Back hs r m y → hs.get? y = some h → slot < h.slot) →
    reorgWalk hs slot lo n r k = some (k + n) := by
  intro n
  induction n with
  | zero => intro r x k h; omega
  | succ n ih =>
    intro r x k _ b ha
    obtain ⟨h, e⟩ := b.left
    unfold reorgWalk
    rw [e]
    simp only
    rw [if_neg (Nat.not_le.2 (ha 0 r h (by omega) (.here e) e))]
    cases n with
    | zero => rfl
    | succ n =>
      rw [Nat.add_sub_cancel] at b
      cases b with
      | up e' b =>
        rw [e] at e'
        cases e'
        rw [ih (k + 1) (Nat.succ_pos _) b
          (fun m y hy hm bm ey => ha (m + 1) y hy (by omega) (.up e bm) ey)]
        have : k + 1 + (n + 1) = k + (n + 1 + 1) := by omega
        rw [this]

/-- `hi`, `lo` are the two heads ordered by slot (the new head counts as the higher at equal
slots). -/
def Ordered (hs : AMap Root Header) (old new hi lo : Root) (loSlot : Nat) : Prop :=
  ∃ oh nh, hs.get? old = some oh ∧ hs.get? new = some nh ∧
    ((oh.slot ≤ nh.slot ∧ hi = new ∧ lo = old ∧ loSlot = oh.slot) ∨
     (nh.slot < oh.slot ∧ hi = old ∧ lo = new ∧ loSlot = nh.slot))

theorem reorgDepth_ordered {hs : AMap Root Header} {old new hi lo : Root} {ls : Nat}
    (hne : new ≠ old) (h : Ordered hs old new hi lo ls) :
    reorgDepth hs old new = reorgWalk hs ls lo maxReorgDepth hi 0 := by
  obtain ⟨oh, nh, e1, e2, h⟩ := h
  unfold reorgDepth
  rw [if_neg hne, e1, e2]
  rcases h with ⟨h1, rfl, rfl, rfl⟩ | ⟨h1, rfl, rfl, rfl⟩
  · simp only; rw [if_pos h1]
  · simp only; rw [if_neg (by omega)]

/-- **C38.** Fewer than 128 blocks above the lower head's slot: a reorg is reported exactly when
neither head is an ancestor of the other, and its depth is the number of those blocks. -/
theorem C38_reorg_iff_fork {hs : AMap Root Header} (hi' : Increasing hs)
    {old new hi lo x : Root} {ls d : Nat} (hne : new ≠ old) (ho : Ordered hs old new hi lo ls)
    (S : StepsTo hs ls hi d x) (hd : d < 128) (k : Nat) :
    reorgDepth hs old new = some k ↔
      (¬ Ancestor hs old new ∧ ¬ Ancestor hs new old) ∧ k = d := by
  rw [reorgDepth_ordered hne ho, reorgWalk_steps maxReorgDepth 0 S hd, Nat.zero_add]
  obtain ⟨hh, lh, eh, el, hle, hlo, hcase⟩ : ∃ hh lh : Header, hs.get? hi = some hh ∧
      hs.get? lo = some lh ∧ lh.slot ≤ hh.slot ∧ ls = lh.slot ∧
      ((hi = new ∧ lo = old) ∨ (hi = old ∧ lo = new)) := by
    obtain ⟨oh, nh, e1, e2, h⟩ := ho
    rcases h with ⟨h1, rfl, rfl, rfl⟩ | ⟨h1, rfl, rfl, rfl⟩
    · exact ⟨nh, oh, e2, e1, h1, rfl, .inl ⟨rfl, rfl⟩⟩
    · exact ⟨oh, nh, e1, e2, by omega, rfl, .inr ⟨rfl, rfl⟩⟩
  have hn : hi ≠ lo := by
    rcases hcase with ⟨rfl, rfl⟩ | ⟨rfl, rfl⟩
    · exact hne
    · exact fun h => hne h.symm
  -- the higher head is no ancestor of the lower one
  have h1 : ¬ Ancestor hs hi lo := by
    rintro ⟨n, b⟩
    cases n with
    | zero => cases b with | here _ => exact hn rfl
    | succ n => have := b.slot hi' el eh; omega
  -- the lower one is an ancestor exactly when the walk ends there
  have h2 : Ancestor hs lo hi ↔ x = lo := by
    constructor
    · rintro ⟨n, b⟩
      obtain ⟨hx, ex⟩ := S.path.right
      have hsx := S.stop _ ex
      rcases Nat.lt_trichotomy n d with h | h | h
      · have := S.above n lo lh h b el; omega
      · subst h; exact S.path.unique b
      · obtain ⟨y, b1, b2⟩ := b.prefix d (by omega)
        have hy := S.path.unique b1
        subst hy
        have := b2.slot hi' ex el
        omega
    · rintro rfl
      exact ⟨d, S.path⟩
  have h3 : (¬ Ancestor hs old new ∧ ¬ Ancestor hs new old) ↔ x ≠ lo := by
    rcases hcase with ⟨rfl, rfl⟩ | ⟨rfl, rfl⟩
    · rw [h2]; exact ⟨fun h => h.1, fun h => ⟨h, h1⟩⟩
    · rw [h2]; exact ⟨fun h => h.2, fun h => ⟨h1, h⟩⟩
  rw [h3]
  by_cases hx : x = lo
  · simp [hx]
  · rw [if_neg hx, Option.some.injEq]
    exact ⟨fun h => ⟨hx, h.symm⟩, fun h => h.2.symm⟩

/-- **C38, the cap.** With 128 or more blocks above the lower head's slot, a reorg of depth 128 is
reported, whether or not there is one. -/
theorem C38_cap {hs : AMap Root Header} {old new hi lo x : Root} {ls : Nat} (hne : new ≠ old)
    (ho : Ordered hs old new hi lo ls) (hb : Back hs hi 127 x)
    (ha : ∀ m y h, m < 128 → Back hs hi m y → hs.get? y = some h → ls < h.slot) :
    reorgDepth hs old new = some 128 := by
  rw [reorgDepth_ordered hne ho, reorgWalk_cap maxReorgDepth 0 (by decide) hb ha]
  rfl

/-- Unchanged or unknown heads are not reported. -/
theorem C38_none {hs : AMap Root Header} {old new : Root}
    (h : new = old ∨ hs.get? old = none ∨ hs.get? new = none) : reorgDepth hs old new = none := by
  unfold reorgDepth
  rcases h with h | h | h
  · rw [if_pos h]
  · split
    · rfl
    · rw [h]
  · split
    · rfl
    · rw [h]; cases hs.get? old <;> rfl

/-- A straight chain of `n + 1` headers: block `i` has root `i + 1`. -/
def straight : Nat → AMap Root Header
  | 0 => [(1, ⟨0, 0, 0, 0, 0⟩)]
  | n + 1 => (n + 2, ⟨n + 1, 0, n + 1, 0, 0⟩) :: straight n

/-- Finding: a node that catches up 128 blocks of one chain in a single head update reports a reorg
of depth 128, although the old head is an ancestor of the new one. -/
theorem C38_catch_up_reported_as_reorg :
    Increasing (straight 130) ∧ Ancestor (straight 130) 1 129 ∧
      reorgDepth (straight 130) 1 129 = some 128 ∧ reorgDepth (straight 130) 1 128 = none := by
  refine ⟨increasing_of_all (by decide +kernel), ?_, by decide +kernel, by decide +kernel⟩
  have key : ∀ n : Nat, n ≤ 128 → ∃ h, (straight 130).get? (n + 1) = some h ∧ h.parentRoot = n := by
    intro n hn
    have : ∀ n : Nat, n ∈ List.range 129 → ∃ h ∈ (straight 130).get? (n + 1), h.parentRoot = n := by
      decide +kernel
    obtain ⟨h, h1, h2⟩ := this n (List.mem_range.2 (by omega))
    exact ⟨h, h1, h2⟩
  have step : ∀ n : Nat, n ≤ 128 → Back (straight 130) (n + 1) n 1 := by
    intro n
    induction n with
    | zero => intro _; obtain ⟨h, h1, -⟩ := key 0 (by omega); exact .here h1
    | succ n ih =>
      intro hn
      obtain ⟨h, h1, h2⟩ := key (n + 1) hn
      exact .up h1 (by rw [h2]; exact ih (by omega))
  exact ⟨128, step 128 (Nat.le_refl _)⟩

/-- Non-vacuity: blocks 4 and 6 both on 3 (roots 5 and 7): depth 1, and the walk of the theorem. -/
def forked : AMap Root Header :=
  [(7, ⟨6, 0, 4, 0, 0⟩), (5, ⟨4, 0, 4, 0, 0⟩), (4, ⟨3, 0, 1, 0, 0⟩), (1, ⟨0, 0, 0, 0, 0⟩)]

example : Increasing forked ∧ Ordered forked 5 7 7 5 4 ∧ StepsTo forked 4 7 1 4 ∧
    reorgDepth forked 5 7 = some 1 ∧ reorgDepth forked 4 7 = none := by
  refine ⟨increasing_of_all (by decide +kernel),
    ⟨_, _, rfl, rfl, .inl ⟨by decide, rfl, rfl, rfl⟩⟩, ⟨.up rfl (.here rfl), ?_, ?_⟩,
    by decide +kernel, by decide +kernel⟩
  · intro h e; cases e; decide
  · intro m y h hm b e
    cases Nat.lt_one_iff.1 hm
    cases b
    cases e
    decide

end Verif.Node
