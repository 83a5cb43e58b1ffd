import Verif.Lemmas.ForkTree
import Verif.Props.C14_C17_ForkChoice
import Verif.Props.C108_Backfill
/-!
# C112: the fork choice tree in the log
-/
namespace Verif.ForkTree
open Verif ForkChoice

variable {t : Tree}

theorem lowest_of_findRoot (hw : WF t.blocks) {r : Root} (h : findRoot t.blocks = some r) :
    Lowest t.blocks r := by
  obtain ⟨s, p, hm, hmin⟩ := minSlotRoot_spec h
  rw [List.mem_filter] at hm
  obtain ⟨hm, hp⟩ := hm
  have e := AMap.get?_of_mem hw.nodup hm
  refine ⟨s, p, e, ?_, ?_⟩
  · simpa [Option.isSome_iff_ne_none] using hp
  · -- an orphan lies below every block
    intro x
    have key : ∀ n x sx px, sx ≤ n → t.blocks.get? x = some (sx, px) → s ≤ sx := by
      intro n
      induction n using Nat.strong_induction_on with
      | _ n ih =>
        intro x sx px hn e
        cases hpx : t.blocks.get? px with
        | none =>
          exact hmin (x, sx, px) (List.mem_filter.2 ⟨AMap.mem_of_get? e, by simp [hpx]⟩)
        | some e' =>
          obtain ⟨sp, pp⟩ := e'
          have hlt := hw.parent _ _ _ _ _ e hpx
          have := ih sp (by omega) px sp pp (Nat.le_refl _) hpx
          omega
    intro sx px e
    exact key sx x sx px (Nat.le_refl _) e

theorem findRoot_some (hw : WF t.blocks) (hne : t.blocks ≠ []) : ∃ r, findRoot t.blocks = some r := by
  cases h : findRoot t.blocks with
  | some r => exact ⟨r, rfl⟩
  | none =>
    exfalso
    unfold findRoot at h
    rw [minSlotRoot_none_iff, List.filter_eq_nil_iff] at h
    obtain ⟨lo, hlo⟩ : ∃ r, minSlotRoot t.blocks = some r := by
      cases h' : minSlotRoot t.blocks with
      | some r => exact ⟨r, rfl⟩
      | none => rw [minSlotRoot_none_iff] at h'; exact absurd h' hne
    obtain ⟨s, p, hm, hmin⟩ := minSlotRoot_spec hlo
    have := h _ hm
    simp only [Bool.or_eq_true, decide_eq_true_eq, Bool.not_eq_true', not_or, Bool.not_eq_false] at this
    obtain ⟨⟨sp, pp⟩, e'⟩ := Option.isSome_iff_exists.1 this.2
    have h1 := hw.parent _ _ _ _ _ (AMap.get?_of_mem hw.nodup hm) e'
    have h2 := hmin _ (AMap.mem_of_get? e')
    simp only at h2
    omega

theorem Below.dots {r : Root} {k : List Tok} (B : Below t r k) : Below t r (.dots :: k) :=
  ⟨B.nodes, B.pw, fun h => absurd List.mem_cons_self h, fun h => absurd List.mem_cons_self h,
    fun b hb => B.reads b hb⟩

/-- **C112.** For every block map in which parents have earlier slots: drawing the tree does not panic and comes to an
end. It shows blocks that descend from a lowest block, each at most once, heavier siblings first. Each block has its
slot, and follows its parent, with the number of missing slots in between; a star stands only at the head. If
nothing was cut off (no dots), all descendants of the lowest block are shown, and the head is starred if it is one
of them and has no children. -/
theorem C112_draw (hw : WF t.blocks) (hne : t.blocks ≠ []) :
    ∃ toks root, t.draw = .ok toks ∧ Lowest t.blocks root ∧
      (∀ x ∈ drawn toks, Under t.blocks root x) ∧
      (drawn toks).Pairwise (Ordered t) ∧
      Reads t.blocks t.head none 0 false toks ∧
      (.dots ∉ toks → ∀ x, Under t.blocks root x → x ∈ drawn toks) ∧
      (.dots ∉ toks → Under t.blocks root t.head → (∀ r s, t.blocks.get? r ≠ some (s, t.head)) → .star ∈ toks) := by
  obtain ⟨root, hroot⟩ := findRoot_some hw hne
  have hlow := lowest_of_findRoot hw hroot
  have hn := hw.nodup
  obtain ⟨slot, p0, e, hp0, -⟩ := hlow
  have hr : ∀ r s p, t.blocks.get? r = some (s, p) → p ≠ 0 → (t.blocks.get? p).isSome = true →
      ((t.blocks.get? p).map Prod.fst).getD 0 < ((t.blocks.get? r).map Prod.fst).getD 0 := by
    intro r s p e _ hp
    obtain ⟨⟨sp, pp⟩, e'⟩ := Option.isSome_iff_exists.1 hp
    rw [e, e']
    exact hw.parent _ _ _ _ _ e e'
  obtain ⟨out, tip, d, et, htip, -, hpic⟩ := trunk_pic hn (rank := fun r => ((t.blocks.get? r).map Prod.fst).getD 0)
    hr (maxDepth + 1) root 0 none slot p0 e
    (fun ps pp hz h => by rcases hp0 with h0 | h0; exact absurd h0 hz; rw [h0] at h; cases h)
    (by omega) (by omega)
  have finish : ∀ k, Pic t root (out ++ k) → t.draw = .ok (out ++ k) → ∃ toks root, t.draw = .ok toks ∧
      Lowest t.blocks root ∧ (∀ x ∈ drawn toks, Under t.blocks root x) ∧ (drawn toks).Pairwise (Ordered t) ∧
      Reads t.blocks t.head none 0 false toks ∧
      (.dots ∉ toks → ∀ x, Under t.blocks root x → x ∈ drawn toks) ∧
      (.dots ∉ toks → Under t.blocks root t.head → (∀ r s, t.blocks.get? r ≠ some (s, t.head)) →
        .star ∈ toks) := by
    intro k P hd
    refine ⟨out ++ k, root, hd, lowest_of_findRoot hw hroot, P.nodes, P.pw, ?_, P.all, ?_⟩
    · have := P.reads none (fun p hp => by cases hp) [] trivial
      rwa [List.append_nil] at this
    · intro hdots hu hleaf
      refine P.star hdots ?_ (P.all hdots _ hu)
      cases hk : t.kids t.head with
      | nil => rfl
      | cons c cs =>
        obtain ⟨s, e', -⟩ := (mem_kids hn).1 (show c ∈ t.kids t.head by rw [hk]; exact List.mem_cons_self)
        exact absurd e' (hleaf c s)
  have hempty : t.blocks.isEmpty = false := by
    cases hb : t.blocks with
    | nil => exact absurd hb hne
    | cons _ _ => rfl
  by_cases hlen : (t.kids tip).length > 1
  · obtain ⟨rest, er, F⟩ := drawKids_forks hn hr (r := tip) (bars := [])
      (f := fun c l => t.line (maxDepth + 1) c [] l d (t.parentSlot c))
      (fun c hc l => by
        obtain ⟨s, ec, -⟩ := (mem_kids hn).1 hc
        exact line_pic hn hr _ c _ l _ _ s tip ec (fun ps pp _ h => parentSlot_eq hn ec h) (by omega) (by omega))
      (t.kids tip) (List.Sublist.refl _)
    have hk : t.kids tip ≠ [] := by intro h; rw [h] at hlen; simp at hlen
    have B := Below.fork F hk (.inl rfl) (t.kids tip).length
    refine finish _ (hpic ([.branches (t.kids tip).length, .newline] ++ rest) ?_) ?_
    · rintro k' (rfl | rfl) -
      · exact B
      · exact B.dots
    · unfold Tree.draw
      simp only [hempty, hroot, et, Bool.false_eq_true, if_false, if_pos hlen, er, List.append_assoc]
  · refine finish _ (hpic (t.mark tip ++ [.newline]) ?_) ?_
    · have hd : drawn (t.mark tip ++ [.newline]) = [] := by rw [drawn_append, mark_drawn]; rfl
      have hreads : ∀ b, Reads t.blocks t.head none 0 false b →
          Reads t.blocks t.head (some tip) 0 true (t.mark tip ++ [.newline] ++ b) := by
        intro b hb
        rw [List.append_assoc]
        exact mark_reads tip hb
      rintro k' (rfl | rfl) hk'
      · have hnil : t.kids tip = [] := by
          have := hk' rfl
          exact List.length_eq_zero_iff.1 (by omega)
        refine ⟨fun x hx => ?_, ?_, fun _ c hc => ?_, fun _ _ h => ?_, hreads⟩
        · rw [List.nil_append, hd] at hx; cases hx
        · rw [List.nil_append, hd]; exact .nil
        · rw [hnil] at hc; cases hc
        · rw [List.nil_append, hd] at h
          rcases h with h | h
          · simp [Tree.mark, ← h]
          · cases h
      · refine ⟨fun x hx => ?_, ?_, fun h => absurd List.mem_cons_self h, fun h => absurd List.mem_cons_self h,
          hreads⟩
        · rw [show drawn ([.dots] ++ (t.mark tip ++ [.newline])) = drawn (t.mark tip ++ [.newline]) from rfl, hd] at hx
          cases hx
        · rw [show drawn ([.dots] ++ (t.mark tip ++ [.newline])) = drawn (t.mark tip ++ [.newline]) from rfl, hd]
          exact .nil
    · unfold Tree.draw
      simp only [hempty, hroot, et, Bool.false_eq_true, if_false, if_neg hlen, List.append_assoc]

/-- If only one block of the map has no parent in it, all blocks descend from it. -/
theorem under_of_single (hw : WF t.blocks) {root : Root} (hlow : Lowest t.blocks root)
    (h1 : ∀ x s p, t.blocks.get? x = some (s, p) → (p = 0 ∨ t.blocks.get? p = none) → x = root) :
    ∀ n x s p, s ≤ n → t.blocks.get? x = some (s, p) → Under t.blocks root x := by
  intro n
  induction n using Nat.strong_induction_on with
  | _ n ih =>
    intro x s p hn e
    by_cases hp : p = 0 ∨ t.blocks.get? p = none
    · obtain rfl := h1 x s p e hp
      exact .self e
    · rw [not_or] at hp
      obtain ⟨⟨sp, pp⟩, e'⟩ := Option.ne_none_iff_exists'.1 hp.2
      have := hw.parent _ _ _ _ _ e e'
      exact .child (ih sp (by omega) p sp pp (Nat.le_refl _) e') e hp.1

/-- **C112.** If only one block has no parent in the map and nothing was cut off, all blocks are shown. -/
theorem C112_whole (hw : WF t.blocks) (hne : t.blocks ≠ [])
    (h1 : ∀ x y sx sy px py, t.blocks.get? x = some (sx, px) → t.blocks.get? y = some (sy, py) →
      (px = 0 ∨ t.blocks.get? px = none) → (py = 0 ∨ t.blocks.get? py = none) → x = y) :
    ∃ toks, t.draw = .ok toks ∧ (.dots ∉ toks → ∀ x s p, t.blocks.get? x = some (s, p) → x ∈ drawn toks) := by
  obtain ⟨toks, root, hd, hlow, -, -, -, hall, -⟩ := C112_draw hw hne
  refine ⟨toks, hd, fun h x s p e => hall h x ?_⟩
  obtain ⟨sr, pr, er, hr, -⟩ := id hlow
  exact under_of_single hw hlow (fun x s p e hp => h1 x root s sr p pr e er hp hr) s x s p (Nat.le_refl _) e

/-- **C112.** A node draws the tree at the end of every slot, from its live chain (in any order), the head and the
weights of fork choice. Whatever the node has been through and whatever votes it has, that does not panic. The head is a
block of the map, and if it descends from a block below all others (in the usual case the finalized block) and nothing
was cut off, the head has its star. -/
theorem C112_node {c : Node.Ctx} {t : Nat} {vals : List Validator} {bs : List Block} {evs : List Node.Event}
    {a0 : State} {body : Option (List AggAtt)} {a : Node.Actor} (ho : ∀ l, (c.order l).Perm l)
    (W : Node.World c.E t vals bs a0 (Node.Known c.E.H (State.fromGenesis c.E.H t vals) bs evs))
    (h : Node.AReach c a0 body evs a) {blocks : Blocks} (hb : blocks.Perm (Db.getLiveChain a.store.mem.db))
    (votes : AMap Nat AttData) :
    let u := computeLmdGhostHead a.store.mem.db.justified.root blocks votes 0
    ∃ toks, (Tree.mk blocks u.2 u.1).draw = .ok toks ∧
      (∃ e, blocks.get? u.1 = some e) ∧
      (.dots ∉ toks →
        (∃ f sf pf, blocks.get? f = some (sf, pf) ∧ Anc blocks f u.1 ∧
          ∀ x sx px, blocks.get? x = some (sx, px) → x ≠ f → sf < sx) →
        .star ∈ toks) := by
  intro u
  obtain ⟨rank, hR⟩ := W.acyclic
  obtain ⟨root', anchor', ops', A, I⟩ := Node.areach_ainv ho W hR h (fun e he => Node.eventK_known e he)
  have hw0 := I.node.wf W
  obtain ⟨h1, h2⟩ := I.node.cp.getLive
  have hget : ∀ r, blocks.get? r = (Db.getLiveChain a.store.mem.db).get? r :=
    fun r => (AMap.get?_perm hb.symm h1 r).symm
  have hw : WF blocks := by
    refine ⟨(hb.symm.map Prod.fst).nodup_iff.1 h1, fun r s p s' p' e e' => ?_⟩
    rw [hget] at e e'
    exact hw0.parent r s p s' p' e e'
  obtain ⟨sj, j1, j2⟩ := I.node.cp.just
  have hj := (h2 _ _ _).2 (I.node.cp.liveFull _ _ j1 (by omega))
  rw [← hget] at hj
  have h0 : a.store.mem.db.justified.root ≠ 0 := by
    rw [← (I.node.tree.own _ _ j1).1]; exact W.headerNZ _
  have hleaf := (C15_head_is_greedy_leaf hw h0 hj votes 0).2
  have hanc := C15_head_descends hw h0 hj votes 0
  have hhead : ∃ e, blocks.get? u.1 = some e := by
    have : ∀ x, Anc blocks a.store.mem.db.justified.root x → ∃ e, blocks.get? x = some e := by
      intro x hx
      induction hx with
      | self hg => exact ⟨_, hg⟩
      | up hg _ _ => exact ⟨_, hg⟩
    exact this _ hanc
  have hne : blocks ≠ [] := by intro e; rw [e] at hj; cases hj
  have hnz : ∀ r, (∃ e, blocks.get? r = some e) → r ≠ 0 := by
    rintro r ⟨⟨n, p⟩, e⟩
    rw [hget] at e
    obtain ⟨st, a1, -⟩ := I.node.cp.live _ _ _ ((h2 _ _ _).1 e)
    rw [← (I.node.tree.own _ _ a1).1]
    exact W.headerNZ _
  obtain ⟨toks, root, hd, hlow, -, -, -, -, hstar⟩ := C112_draw (t := ⟨blocks, u.2, u.1⟩) hw hne
  refine ⟨toks, hd, hhead, ?_⟩
  rintro hdots ⟨f, sf, pf, ef, hf, hmin⟩
  refine hstar hdots ?_ ?_
  · obtain ⟨sr, pr, er, -, hle⟩ := id hlow
    have hfr : root = f := by
      by_contra hne
      have h1 := hmin root sr pr er hne
      have h2 := hle f sf pf ef
      omega
    rw [hfr]
    have : ∀ x, Anc blocks f x → Under blocks f x := by
      intro x hx
      induction hx with
      | self hg => exact .self hg
      | @up y s p hg ha ih =>
        refine .child ih hg (hnz _ ?_)
        cases ih with
        | self hy => exact ⟨_, hy⟩
        | child _ hy _ => exact ⟨_, hy⟩
    exact this _ hf
  · intro r s e
    exact hleaf r ⟨⟨s, e⟩, hnz _ hhead, fun h => absurd h (Nat.lt_irrefl 0)⟩

/-! ## Cases -/

/-- Genesis, a trunk with two empty slots, a fork with the heavier branch first, one branch forking again. -/
def sample : Tree :=
  ⟨[(13, (7, 11)), (1, (0, 0)), (10, (1, 1)), (14, (7, 11)), (11, (4, 10)), (12, (5, 11)), (15, (8, 13)), (16, (9, 13))],
    [(13, 5), (12, 2), (14, 2), (15, 2), (16, 3)], 16⟩

theorem sample_wf : WF sample.blocks := by
  refine ⟨by decide +kernel, ?_⟩
  intro r s p s' p' e e'
  have key : ∀ x ∈ sample.blocks, ∀ y ∈ sample.blocks, x.2.2 = y.1 → y.2.1 < x.2.1 := by decide +kernel
  exact key _ (AMap.mem_of_get? e) _ (AMap.mem_of_get? e') rfl

theorem C112_sample : sample.draw = .ok
    [.node 1 0, .link, .node 10 1, .link, .gap 2, .node 11 4, .branches 3, .newline,
      .conn [] false, .gap 2, .node 13 7, .branches 2, .newline,
        .conn [true] false, .gap 1, .node 16 9, .star, .weight 3, .newline,
        .conn [true] true, .node 15 8, .weight 2, .newline,
      .conn [] false, .gap 2, .node 14 7, .weight 2, .newline,
      .conn [] true, .node 12 5, .weight 2, .newline] := by
  decide +kernel

section
open Verif.Node Verif.Node.Witness Verif.Witness

/-- The tree drawn by the node of C108. -/
def backTree : Tree :=
  ⟨Db.getLiveChain backActor.store.mem.db,
    (computeLmdGhostHead backActor.store.mem.db.justified.root (Db.getLiveChain backActor.store.mem.db) [] 0).2,
    (computeLmdGhostHead backActor.store.mem.db.justified.root (Db.getLiveChain backActor.store.mem.db) [] 0).1⟩

/-- A node that has fetched a chain of five blocks and finalized slot 3; an earlier block of its own at slot 6 is
still in the map, without its parent. -/
theorem C112_instance :
    ∃ toks, backTree.draw = .ok toks ∧ .star ∈ toks := by
  have W : World wCtx.E 0 wVals [] wG (Known wCtx.E.H (State.fromGenesis wCtx.E.H 0 wVals) []
      (backEvs ++ [.tick 32000 false])) :=
    world_of_list (by decide +kernel) (by decide +kernel)
  obtain ⟨toks, e, -, h⟩ := C112_node (c := wCtx) (fun l => .refl l) W (clock_reach.run back_run) (.refl _) []
  refine ⟨toks, e, h ?_ ⟨4, 3, 2, by decide +kernel, ?_, ?_⟩⟩
  · have e' : backTree.draw =
        .ok [.node 4 3, .link, .node 5 4, .link, .node 6 5, .star, .newline] := by decide +kernel
    rw [show toks = _ from Except.ok.inj (e.symm.trans e')]
    decide +kernel
  · have e1 : (Db.getLiveChain backActor.store.mem.db).get? 6 = some (5, 5) := by decide +kernel
    have e2 : (Db.getLiveChain backActor.store.mem.db).get? 5 = some (4, 4) := by decide +kernel
    have e3 : (Db.getLiveChain backActor.store.mem.db).get? 4 = some (3, 2) := by decide +kernel
    rw [show (computeLmdGhostHead backActor.store.mem.db.justified.root
        (Db.getLiveChain backActor.store.mem.db) [] 0).1 = 6 by decide +kernel]
    exact .up e1 (.up e2 (.self e3))
  · intro x sx px e hx
    have key : ∀ b ∈ Db.getLiveChain backActor.store.mem.db, b.1 ≠ 4 → 3 < b.2.1 := by decide +kernel
    exact key _ (AMap.mem_of_get? e) hx

end

/-- **The head can be missing** (finding F42): two blocks of the same lowest slot have no
parent in the map. Which of them becomes the root of the drawing depends on the order of the hash map; for one order
the drawing is a single block, and the head with its chain is missing. -/
theorem C112_hidden :
    ∃ b b' : Blocks, b.Perm b' ∧ WF b ∧
      (Tree.mk b [] 12).draw = .ok [.node 10 5, .link, .node 12 6, .star, .newline] ∧
      (Tree.mk b' [] 12).draw = .ok [.node 11 5, .newline] := by
  refine ⟨[(10, (5, 3)), (11, (5, 3)), (12, (6, 10))], [(11, (5, 3)), (10, (5, 3)), (12, (6, 10))],
    by decide +kernel, ⟨by decide +kernel, ?_⟩, by decide +kernel, by decide +kernel⟩
  intro r s p s' p' e e'
  have key : ∀ x ∈ ([(10, (5, 3)), (11, (5, 3)), (12, (6, 10))] : Blocks),
      ∀ y ∈ ([(10, (5, 3)), (11, (5, 3)), (12, (6, 10))] : Blocks), x.2.2 = y.1 → y.2.1 < x.2.1 := by decide +kernel
  exact key _ (AMap.mem_of_get? e) _ (AMap.mem_of_get? e') rfl

/-- A straight chain of `n` blocks above block 1. -/
def straight (n : Nat) : Blocks := (List.range n).map (fun i => (i + 1, (i, i)))

/-- **The newest blocks are cut off, not the oldest**: the head of a chain of 21 blocks is not shown. -/
theorem C112_long :
    ∃ toks, (Tree.mk (straight 21) [] 21).draw = .ok toks ∧ .star ∉ toks ∧ 21 ∉ drawn toks ∧ 1 ∈ drawn toks ∧
      ∃ toks', (Tree.mk (straight 19) [] 19).draw = .ok toks' ∧ .star ∈ toks' := by
  refine ⟨_, rfl, ?_⟩
  refine ⟨by decide +kernel, by decide +kernel, by decide +kernel, _, rfl, by decide +kernel⟩

end Verif.ForkTree
