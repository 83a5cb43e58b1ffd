import Verif.Lemmas.ForkChoice
/-!
# C14–C17: LMD-GHOST fork choice and the safe target

The specification (`Verif/Spec/Tree.lean`) speaks about ancestry (`Anc`), the number of votes
supporting a block (`supportCount`), and best children (`Best`).
-/
namespace Verif.ForkChoice
open Verif

/-! ## A tree used by the examples

Block 10 at slot 0; children 20 and 21 at slot 1; 30 on 20 at slot 2; 31 on 21 at slot 3.
Validators 0, 1 vote for 30, validator 2 for 31, validator 3 for an unknown block. -/
namespace Ex
def tree : Blocks := [(30, (2, 20)), (20, (1, 10)), (31, (3, 21)), (10, (0, 0)), (21, (1, 10))]
def att (h : Root) : AttData := ⟨5, ⟨h, 0⟩, ⟨0, 0⟩, ⟨0, 0⟩⟩
def votes : AMap Nat AttData := [(0, att 30), (1, att 30), (2, att 31), (3, att 99)]
theorem tree_wf : WF tree := wf_of_check (by decide +kernel)
end Ex

/-! ## C14 -/

/-- The weight of a block is exactly the number of validators whose latest vote names the block
or one of its descendants, and 0 for blocks at or below the start slot and unknown blocks
(`Supports` is false for them). A stored weight is never zero. -/
theorem C14_weight_is_support {blocks : Blocks} (hw : WF blocks) (startSlot : Nat)
    (votes : AMap Nat AttData) (r : Root) :
    (computeBlockWeights startSlot blocks votes).get? r =
      if supportCount blocks startSlot votes r = 0 then none
      else some (supportCount blocks startSlot votes r) :=
  get?_weights hw startSlot votes r

/-- Blocks at or below the start slot, and unknown blocks, carry no weight. -/
theorem C14_no_weight_below_start {blocks : Blocks} (hw : WF blocks) (startSlot : Nat)
    (votes : AMap Nat AttData) (r : Root)
    (h : ∀ s p, blocks.get? r = some (s, p) → s ≤ startSlot) :
    (computeBlockWeights startSlot blocks votes).get? r = none := by
  rw [get?_weights hw, if_pos]
  unfold supportCount
  rw [List.countP_eq_zero]
  intro e _ hs
  obtain ⟨-, s, p, hg, hlt⟩ := @of_decide_eq_true _ (_) hs
  have := h s p hg
  omega

/-- A parent weighs at least as much as any of its children (if it is above the start slot). -/
theorem C14_weight_monotone {blocks : Blocks} (startSlot : Nat)
    (votes : AMap Nat AttData) {r p gp : Root} {s sp : Nat} (hr : blocks.get? r = some (s, p))
    (hp : blocks.get? p = some (sp, gp)) (hs : startSlot < sp) :
    supportCount blocks startSlot votes r ≤ supportCount blocks startSlot votes p := by
  unfold supportCount
  apply List.countP_mono_left
  intro e _ he
  simp only [decide_eq_true_eq] at *
  exact ⟨(Anc.up hr (.self hp)).trans he.1, sp, gp, hp, hs⟩

/-- The walk of the model ends for the reason the Rust loop ends: more fuel changes nothing. -/
theorem C14_walk_fuel_irrelevant {blocks : Blocks} (hw : WF blocks) (startSlot : Nat) (h : Root)
    (extra : Nat) :
    walk blocks startSlot (blocks.length + 1 + extra) h =
      walk blocks startSlot (blocks.length + 1) h := by
  have key : ∀ (fuel : Nat) (h : Root), (walk blocks startSlot fuel h).length < fuel →
      walk blocks startSlot (fuel + extra) h = walk blocks startSlot fuel h := by
    intro fuel
    induction fuel with
    | zero => intro h hl; omega
    | succ fuel ih =>
      intro h hl
      rw [show fuel + 1 + extra = (fuel + extra) + 1 by omega]
      unfold walk at hl ⊢
      split
      · next s p hg =>
        simp only [hg] at hl
        split
        · next hs =>
          rw [if_pos hs] at hl
          rw [ih p (by simpa using hl)]
        · rfl
      · rfl
  exact key _ h (Nat.lt_succ_of_le (walk_length hw _ _ _))

example : WF Ex.tree ∧ (computeBlockWeights 0 Ex.tree Ex.votes).get? 20 = some 2 ∧
    (computeBlockWeights 0 Ex.tree Ex.votes).get? 21 = some 1 ∧
    (computeBlockWeights 0 Ex.tree Ex.votes).get? 10 = none ∧
    (computeBlockWeights 0 Ex.tree Ex.votes).get? 99 = none :=
  ⟨Ex.tree_wf, by decide +kernel⟩

/-! ## C15 -/

/-- The head is reached from a known start block by repeatedly taking the best child, and has no
eligible child itself. (The second part also says that the loop ran to its end.) -/
theorem C15_head_is_greedy_leaf {blocks : Blocks} (hw : WF blocks) {start : Root} {s : Nat}
    {p : Root} (h0 : start ≠ 0) (hs : blocks.get? start = some (s, p))
    (votes : AMap Nat AttData) (minScore : Nat) :
    Greedy blocks s votes minScore start (computeLmdGhostHead start blocks votes minScore).1 ∧
    ∀ c, ¬ Eligible blocks s votes minScore
      (computeLmdGhostHead start blocks votes minScore).1 c := by
  unfold computeLmdGhostHead
  split
  · next hn => rw [minSlotRoot_none_iff] at hn; subst hn; cases hs
  · simp only [if_neg h0, hs]
    exact headLoop_spec hw s votes minScore start _ start s p hs
      (Nat.lt_succ_of_le (above_le _ _)) .start

theorem Greedy.anc {blocks : Blocks} {s m : Nat} {votes : AMap Nat AttData} {start h : Root}
    (hk : ∃ s p, blocks.get? start = some (s, p)) (hg : Greedy blocks s votes m start h) :
    Anc blocks start h := by
  induction hg with
  | start => obtain ⟨s, p, hk⟩ := hk; exact .self hk
  | step _ hb ih => obtain ⟨s, hs⟩ := hb.1.1; exact .up hs ih

/-- The head descends from the start block. -/
theorem C15_head_descends {blocks : Blocks} (hw : WF blocks) {start : Root} {s : Nat}
    {p : Root} (h0 : start ≠ 0) (hs : blocks.get? start = some (s, p))
    (votes : AMap Nat AttData) (minScore : Nat) :
    Anc blocks start (computeLmdGhostHead start blocks votes minScore).1 :=
  Greedy.anc ⟨s, p, hs⟩ (C15_head_is_greedy_leaf hw h0 hs votes minScore).1

theorem Greedy.functional {blocks : Blocks} {s m : Nat} {votes : AMap Nat AttData}
    {start h h' : Root} (hg : Greedy blocks s votes m start h)
    (hg' : Greedy blocks s votes m start h')
    (hl : ∀ c, ¬ Eligible blocks s votes m h c) (hl' : ∀ c, ¬ Eligible blocks s votes m h' c) :
    h = h' := by
  have best_unique : ∀ x c d, Best blocks s votes m x c → Best blocks s votes m x d → c = d := by
    intro x c d hc hd
    by_contra hne
    rcases hc.2 d hd.1 (fun h => hne h.symm) with h1 | ⟨h1, h1'⟩ <;>
      rcases hd.2 c hc.1 hne with h2 | ⟨h2, h2'⟩
    · omega
    · omega
    · omega
    · exact absurd h1' (Nat.lt_asymm h2')
  -- every greedy point reaches every greedy leaf
  have reach : ∀ x, Greedy blocks s votes m start x →
      ∀ y, Greedy blocks s votes m start y →
      Greedy blocks s votes m x y ∨ Greedy blocks s votes m y x := by
    intro x hx
    induction hx with
    | start => intro y hy; exact Or.inl hy
    | @step a c ha hb ih =>
      intro y hy
      rcases ih y hy with h1 | h1
      · -- a reaches y: first step of that path is c, or y = a
        have : y = a ∨ Greedy blocks s votes m c y := by
          clear ih hy
          induction h1 with
          | start => exact Or.inl rfl
          | step h2 h3 ih2 =>
            rcases ih2 with rfl | h4
            · rw [best_unique _ _ _ h3 hb]; exact Or.inr .start
            · exact Or.inr (.step h4 h3)
        rcases this with rfl | h
        · exact Or.inr (.step .start hb)
        · exact Or.inl h
      · exact Or.inr (.step h1 hb)
  have leaf_reach : ∀ x y, Greedy blocks s votes m x y →
      (∀ c, ¬ Eligible blocks s votes m x c) → y = x := by
    intro x y hxy hx
    induction hxy with
    | start => rfl
    | step _ hb ih => subst ih; exact absurd hb.1 (hx _)
  rcases reach h hg h' hg' with h1 | h1
  · exact (leaf_reach _ _ h1 hl).symm
  · exact leaf_reach _ _ h1 hl'

/-- The two conditions of `C15_head_is_greedy_leaf` determine the head: it is *the* LMD-GHOST
head. -/
theorem C15_head_unique {blocks : Blocks} (hw : WF blocks) {start : Root} {s : Nat}
    {p : Root} (h0 : start ≠ 0) (hs : blocks.get? start = some (s, p))
    (votes : AMap Nat AttData) (minScore : Nat) (h : Root)
    (hg : Greedy blocks s votes minScore start h)
    (hl : ∀ c, ¬ Eligible blocks s votes minScore h c) :
    (computeLmdGhostHead start blocks votes minScore).1 = h :=
  let ⟨h1, h2⟩ := C15_head_is_greedy_leaf hw h0 hs votes minScore
  Greedy.functional h1 hg h2 hl

/-- An unknown start block is returned unchanged, with no weights. -/
theorem C15_unknown_start {blocks : Blocks} {start : Root} (h0 : start ≠ 0)
    (hs : blocks.get? start = none) (votes : AMap Nat AttData) (minScore : Nat) :
    computeLmdGhostHead start blocks votes minScore = (start, []) := by
  unfold computeLmdGhostHead
  split
  · rfl
  · simp only [if_neg h0, hs]

/-- The zero root stands for a block of least slot. -/
theorem C15_zero_start {blocks : Blocks} (hw : WF blocks) (hne : blocks ≠ [])
    (votes : AMap Nat AttData) (minScore : Nat) :
    ∃ start s p, blocks.get? start = some (s, p) ∧ (∀ e ∈ blocks, s ≤ e.2.1) ∧
    Greedy blocks s votes minScore start (computeLmdGhostHead 0 blocks votes minScore).1 ∧
    ∀ c, ¬ Eligible blocks s votes minScore
      (computeLmdGhostHead 0 blocks votes minScore).1 c := by
  unfold computeLmdGhostHead
  split
  · next hn => rw [minSlotRoot_none_iff] at hn; exact absurd hn hne
  · next r hr =>
    obtain ⟨s, p, hm, hmin⟩ := minSlotRoot_spec hr
    have hg := AMap.get?_of_mem hw.nodup hm
    refine ⟨r, s, p, hg, hmin, ?_⟩
    simp only [if_true, hg]
    exact headLoop_spec hw s votes minScore r _ r s p hg
      (Nat.lt_succ_of_le (above_le _ _)) .start

/-- The heavier branch wins although the lighter one is longer; on a tie the larger root wins. -/
example : WF Ex.tree ∧ Ex.tree.get? 10 = some (0, 0) ∧
    (computeLmdGhostHead 10 Ex.tree Ex.votes 0).1 = 30 ∧
    (computeLmdGhostHead 10 Ex.tree [] 0).1 = 31 ∧
    (computeLmdGhostHead 0 Ex.tree Ex.votes 0).1 = 30 ∧
    (computeLmdGhostHead 77 Ex.tree Ex.votes 0).1 = 77 :=
  ⟨Ex.tree_wf, by decide +kernel⟩

/-! ## C16 -/

theorem Anc.of_get?_eq {b1 b2 : Blocks} (h : ∀ r, b1.get? r = b2.get? r) {x y : Root}
    (ha : Anc b1 x y) : Anc b2 x y := by
  induction ha with
  | self hg => exact .self (by rw [← h]; exact hg)
  | up hg _ ih => exact .up (by rw [← h]; exact hg) ih

theorem supportCount_perm {b1 b2 : Blocks} (hb : ∀ r, b1.get? r = b2.get? r)
    {v1 v2 : AMap Nat AttData} (hv : v1.Perm v2) (s : Nat) (r : Root) :
    supportCount b1 s v1 r = supportCount b2 s v2 r := by
  unfold supportCount
  rw [hv.countP_eq]
  congr 1
  funext e
  apply Bool.eq_iff_iff.2
  simp only [decide_eq_true_eq]
  unfold Supports
  constructor
  · rintro ⟨h1, s, p, h2, h3⟩
    exact ⟨h1.of_get?_eq hb, s, p, by rw [← hb]; exact h2, h3⟩
  · rintro ⟨h1, s, p, h2, h3⟩
    exact ⟨h1.of_get?_eq (fun r => (hb r).symm), s, p, by rw [hb]; exact h2, h3⟩

theorem WF.perm {b1 b2 : Blocks} (hb : b1.Perm b2) (hw : WF b1) : WF b2 := by
  have hg := fun r => AMap.get?_perm hb hw.nodup r
  refine ⟨(hb.map Prod.fst).nodup_iff.1 hw.nodup, ?_⟩
  intro r s p s' p' h1 h2
  rw [← hg] at h1 h2
  exact hw.parent _ _ _ _ _ h1 h2

theorem Greedy.of_eligible_iff {b1 b2 : Blocks} {s m : Nat} {v1 v2 : AMap Nat AttData}
    (hs : ∀ r, supportCount b1 s v1 r = supportCount b2 s v2 r)
    (hg : ∀ r, b1.get? r = b2.get? r) {st h : Root} (h1 : Greedy b1 s v1 m st h) :
    Greedy b2 s v2 m st h := by
  have he : ∀ x c, Eligible b1 s v1 m x c ↔ Eligible b2 s v2 m x c := by
    intro x c; unfold Eligible; rw [hg, hs]
  induction h1 with
  | start => exact .start
  | step _ hb ih =>
    refine .step ih ⟨(he _ _).1 hb.1, ?_⟩
    intro d hd hne
    have := hb.2 d ((he _ _).2 hd) hne
    rw [hs, hs] at this
    exact this

/-- Two nodes with the same blocks and latest votes, enumerated in any order, compute the same
head and the same weights. For the zero start root ("lowest block") the lowest block must be
unique; `C16_zero_start_tie` shows this condition is needed. -/
theorem C16_deterministic {b1 b2 : Blocks} {v1 v2 : AMap Nat AttData} (hw : WF b1)
    (hb : b1.Perm b2) (hv : v1.Perm v2) (start : Root) (minScore : Nat)
    (h0 : start ≠ 0 ∨ ∃ low ∈ b1, ∀ e ∈ b1, e ≠ low → low.2.1 < e.2.1) :
    (computeLmdGhostHead start b1 v1 minScore).1 = (computeLmdGhostHead start b2 v2 minScore).1 ∧
    ∀ r, (computeLmdGhostHead start b1 v1 minScore).2.get? r =
      (computeLmdGhostHead start b2 v2 minScore).2.get? r := by
  have hw2 := hw.perm hb
  have hg := fun r => AMap.get?_perm hb hw.nodup r
  have core : ∀ st s p, b1.get? st = some (s, p) →
      headLoop b1 (computeBlockWeights s b1 v1) minScore (b1.length + 1) st =
        headLoop b2 (computeBlockWeights s b2 v2) minScore (b2.length + 1) st ∧
      ∀ r, (computeBlockWeights s b1 v1).get? r = (computeBlockWeights s b2 v2).get? r := by
    intro st s p hst
    have hsup := supportCount_perm hg hv s
    refine ⟨?_, fun r => by rw [get?_weights hw, get?_weights hw2, hsup]⟩
    obtain ⟨g1, l1⟩ := headLoop_spec hw s v1 minScore st (b1.length + 1) st s p hst
      (Nat.lt_succ_of_le (above_le _ _)) .start
    obtain ⟨g2, l2⟩ := headLoop_spec hw2 s v2 minScore st (b2.length + 1) st s p
      (by rw [← hg]; exact hst) (Nat.lt_succ_of_le (above_le _ _)) .start
    refine Greedy.functional (g1.of_eligible_iff hsup hg) g2 ?_ l2
    intro c hc
    refine l1 c ?_
    unfold Eligible at hc ⊢
    rw [hg, hsup]; exact hc
  unfold computeLmdGhostHead
  cases hm1 : minSlotRoot b1 with
  | none =>
    rw [minSlotRoot_none_iff] at hm1
    subst hm1
    have : b2 = [] := hb.nil_eq.symm
    subst this
    exact ⟨rfl, fun _ => rfl⟩
  | some low1 =>
    cases hm2 : minSlotRoot b2 with
    | none =>
      rw [minSlotRoot_none_iff] at hm2
      subst hm2
      rw [hb.eq_nil] at hm1; cases hm1
    | some low2 =>
      simp only
      have hst : (if start = 0 then low1 else start) = (if start = 0 then low2 else start) := by
        split
        · next hz =>
          obtain ⟨low, hlm, hlow⟩ := h0.resolve_left (fun h => h hz)
          obtain ⟨s1, p1, hm1', hmin1⟩ := minSlotRoot_spec hm1
          obtain ⟨s2, p2, hm2', hmin2⟩ := minSlotRoot_spec hm2
          have e1 : (low1, (s1, p1)) = low := by
            by_contra hne
            have := hlow _ hm1' hne
            have := hmin1 _ hlm
            simp only at *; omega
          have e2 : (low2, (s2, p2)) = low := by
            by_contra hne
            have := hlow _ (hb.mem_iff.2 hm2') hne
            have := hmin2 _ (hb.mem_iff.1 hlm)
            simp only at *; omega
          exact congrArg Prod.fst (e1.trans e2.symm)
        · rfl
      rw [← hst, ← hg]
      generalize (if start = 0 then low1 else start) = st
      cases hk : b1.get? st with
      | none => exact ⟨rfl, fun _ => rfl⟩
      | some sp => obtain ⟨s, p⟩ := sp; exact core st s p hk

/-- The condition on zero start roots is needed: with two lowest blocks the result depends on the
enumeration order (`min_by_key` keeps the first minimum). -/
theorem C16_zero_start_tie : ∃ b1 b2 : Blocks, WF b1 ∧ b1.Perm b2 ∧
    (computeLmdGhostHead 0 b1 [] 0).1 ≠ (computeLmdGhostHead 0 b2 [] 0).1 :=
  ⟨[(10, (0, 0)), (11, (0, 0))], [(11, (0, 0)), (10, (0, 0))], wf_of_check (by decide +kernel),
    List.Perm.swap .., by decide +kernel⟩

example : WF Ex.tree ∧ Ex.tree.Perm Ex.tree.reverse ∧ Ex.votes.Perm Ex.votes.reverse ∧
    (computeLmdGhostHead 10 Ex.tree.reverse Ex.votes.reverse 0).1 = 30 :=
  ⟨Ex.tree_wf, (List.reverse_perm _).symm, (List.reverse_perm _).symm, by decide +kernel⟩

/-! ## C17 -/

theorem Greedy.path_eligible {blocks : Blocks} (hw : WF blocks) {s m : Nat}
    {votes : AMap Nat AttData} {start h r : Root} (hg : Greedy blocks s votes m start h)
    (hr : Anc blocks r h) (hsr : Anc blocks start r) (hne : r ≠ start) :
    ∃ q, Eligible blocks s votes m q r := by
  induction hg with
  | start => exact absurd (hr.antisymm hw hsr) hne
  | @step q c _ hb ih =>
    cases hr with
    | self _ => exact ⟨q, hb.1⟩
    | up hc hr' =>
      obtain ⟨s2, hs2⟩ := hb.1.1
      rw [hc] at hs2; cases hs2
      exact ih hr'

/-- The safe target descends from the justified block, and every block from just above the
justified block up to the safe target is supported by the fresh votes of at least two thirds of
the validators. -/
theorem C17_safe_target_supported {blocks : Blocks} (hw : WF blocks) {j : Root} {s : Nat}
    {p : Root} (h0 : j ≠ 0) (hj : blocks.get? j = some (s, p)) (n : Nat)
    (newVotes : AMap Nat AttData) :
    Anc blocks j (safeTarget n j blocks newVotes) ∧
    ∀ r, Anc blocks r (safeTarget n j blocks newVotes) → Anc blocks j r → r ≠ j →
      2 * n ≤ 3 * supportCount blocks s newVotes r := by
  obtain ⟨hg, -⟩ := C15_head_is_greedy_leaf hw h0 hj newVotes ((n * 2 + 2) / 3)
  refine ⟨hg.anc ⟨s, p, hj⟩, ?_⟩
  intro r hr hjr hne
  obtain ⟨q, -, -, hm⟩ := hg.path_eligible hw hr hjr hne
  by_cases hn : (n * 2 + 2) / 3 > 0
  · have := hm hn; omega
  · omega

/-- It cannot be extended: no child of the safe target has two thirds support. -/
theorem C17_safe_target_maximal {blocks : Blocks} (hw : WF blocks) {j : Root} {s : Nat}
    {p : Root} (h0 : j ≠ 0) (hj : blocks.get? j = some (s, p)) (n : Nat)
    (newVotes : AMap Nat AttData) (c : Root) (sc : Nat)
    (hc : blocks.get? c = some (sc, safeTarget n j blocks newVotes))
    (hz : safeTarget n j blocks newVotes ≠ 0) :
    3 * supportCount blocks s newVotes c < 2 * n := by
  obtain ⟨-, hl⟩ := C15_head_is_greedy_leaf hw h0 hj newVotes ((n * 2 + 2) / 3)
  have := hl c
  unfold Eligible at this
  by_contra hge
  refine this ⟨⟨sc, hc⟩, hz, fun hn => ?_⟩
  omega

theorem countP_and_ge {α : Type} (p q : α → Bool) (l : List α) :
    l.countP p + l.countP q ≤ l.length + l.countP (fun x => p x && q x) := by
  induction l with
  | nil => simp
  | cons x l ih =>
    simp only [List.countP_cons, List.length_cons]
    cases p x <;> cases q x <;> simp <;> omega

/-- Two blocks that both have the fresh support of two thirds of the `n > 0` validators never
conflict: one is an ancestor of the other. -/
theorem C17_no_conflicting_support {blocks : Blocks} (n s s' : Nat) (hn : 0 < n)
    (votes : AMap Nat AttData) (hnd : votes.keys.Nodup) (hid : ∀ v ∈ votes.keys, v < n)
    (a b : Root) (ha : 2 * n ≤ 3 * supportCount blocks s votes a)
    (hb : 2 * n ≤ 3 * supportCount blocks s' votes b) :
    Anc blocks a b ∨ Anc blocks b a := by
  have hlen : votes.length ≤ n := by
    have := List.Subperm.length_le (List.subperm_of_subset hnd (l₂ := List.range n)
      (fun v hv => List.mem_range.2 (hid v hv)))
    simpa [AMap.keys] using this
  unfold supportCount at ha hb
  have := countP_and_ge (fun e : Nat × AttData =>
      @decide (Supports blocks s a e.2.head.root) (Classical.propDecidable _))
    (fun e => @decide (Supports blocks s' b e.2.head.root) (Classical.propDecidable _)) votes
  have hpos : 0 < votes.countP (fun e : Nat × AttData =>
      @decide (Supports blocks s a e.2.head.root) (Classical.propDecidable _) &&
      @decide (Supports blocks s' b e.2.head.root) (Classical.propDecidable _)) := by omega
  obtain ⟨e, -, he⟩ := List.countP_pos_iff.1 hpos
  simp only [Bool.and_eq_true, decide_eq_true_eq] at he
  exact Anc.total he.1.1 he.2.1

/-- Four validators, three of which support block 20: the safe target is 20, not its child 30
(two supporters) and not the justified block 10. -/
example : WF Ex.tree ∧ Ex.tree.get? 10 = some (0, 0) ∧
    safeTarget 4 10 Ex.tree [(0, Ex.att 30), (1, Ex.att 30), (2, Ex.att 20), (3, Ex.att 31)] = 20 ∧
    safeTarget 4 10 Ex.tree Ex.votes = 10 :=
  ⟨Ex.tree_wf, by decide +kernel⟩

end Verif.ForkChoice
