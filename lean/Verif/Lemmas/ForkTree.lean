import Verif.Spec.ForkTree
import Verif.Lemmas.AMap
/-!
# Lemmas about the drawing
-/
namespace Verif.ForkTree
open Verif ForkChoice

variable {t : Tree}

theorem mem_kids (hn : t.blocks.keys.Nodup) {r c : Root} :
    c ∈ t.kids r ↔ ∃ s, t.blocks.get? c = some (s, r) ∧ r ≠ 0 ∧ (t.blocks.get? r).isSome = true := by
  unfold Tree.kids
  rw [(List.perm_insertionSort _ _).mem_iff]
  simp only [List.mem_map, List.mem_filter, Bool.and_eq_true, decide_eq_true_eq]
  constructor
  · rintro ⟨⟨x, s, p⟩, ⟨h1, ⟨h2, h3⟩, h4⟩, rfl⟩
    subst h4
    exact ⟨s, AMap.get?_of_mem hn h1, h2, h3⟩
  · rintro ⟨s, h1, h2, h3⟩
    exact ⟨(c, s, r), ⟨AMap.mem_of_get? h1, ⟨h2, h3⟩, rfl⟩, rfl⟩

theorem kids_nodup (hn : t.blocks.keys.Nodup) (r : Root) : (t.kids r).Nodup := by
  unfold Tree.kids
  rw [(List.perm_insertionSort _ _).nodup_iff]
  exact (hn.sublist (List.filter_sublist.map _))

theorem before_total (w : AMap Root Nat) (a b : Root) : before w a b ∨ before w b a := by
  rcases Nat.lt_trichotomy (weightOf w a) (weightOf w b) with h | h | h
  · exact .inr (.inl h)
  · rcases Nat.le_total a b with h' | h'
    · exact .inr (.inr ⟨h.symm, h'⟩)
    · exact .inl (.inr ⟨h, h'⟩)
  · exact .inl (.inl h)

theorem before_trans (w : AMap Root Nat) {a b c : Root} (h1 : before w a b) (h2 : before w b c) :
    before w a c := by
  rcases h1 with h1 | ⟨h1, h1'⟩
  · rcases h2 with h2 | ⟨h2, h2'⟩
    · exact .inl (by omega)
    · exact .inl (by omega)
  · rcases h2 with h2 | ⟨h2, h2'⟩
    · exact .inl (by omega)
    · exact .inr ⟨h1.trans h2, Nat.le_trans h2' h1'⟩

theorem kids_sorted (r : Root) : (t.kids r).Pairwise (before t.weights) := by
  have : Std.Total (before t.weights) := ⟨before_total _⟩
  have : IsTrans Root (before t.weights) := ⟨fun _ _ _ => before_trans _⟩
  exact List.pairwise_insertionSort _ _

/-! ## Descent -/

theorem Under.here {b : Blocks} {a x : Root} (h : Under b a x) : (b.get? a).isSome = true := by
  induction h with
  | self e => rw [e]; rfl
  | child _ _ _ ih => exact ih

theorem Under.there {b : Blocks} {a x : Root} (h : Under b a x) : (b.get? x).isSome = true := by
  cases h with
  | self e => rw [e]; rfl
  | child _ e _ => rw [e]; rfl

theorem Under.rank {b : Blocks} {rank : Root → Nat}
    (hr : ∀ r s p, b.get? r = some (s, p) → p ≠ 0 → (b.get? p).isSome = true → rank p < rank r) {a x : Root}
    (h : Under b a x) : a = x ∨ rank a < rank x := by
  induction h with
  | self _ => exact .inl rfl
  | child hp e hz ih =>
    have := hr _ _ _ e hz hp.there
    rcases ih with rfl | ih
    · exact .inr this
    · exact .inr (by omega)

theorem Under.trans {b : Blocks} {a c x : Root} (h1 : Under b a c) (h2 : Under b c x) : Under b a x := by
  induction h2 with
  | self _ => exact h1
  | child _ e hz ih => exact .child ih e hz

theorem Under.linear {b : Blocks} {a c x : Root} (h1 : Under b a x) (h2 : Under b c x) :
    Under b a c ∨ Under b c a := by
  induction h1 with
  | self e => exact .inr h2
  | child hp e hz ih =>
    cases h2 with
    | self e' => exact .inl (.child hp e hz)
    | child hp' e' hz' =>
      rw [e] at e'
      cases e'
      exact ih hp'

/-- What is under `r` is `r` or under one of its children. -/
theorem Under.split (hn : t.blocks.keys.Nodup) {r x : Root} (h : Under t.blocks r x) :
    x = r ∨ ∃ c ∈ t.kids r, Under t.blocks c x := by
  induction h with
  | self _ => exact .inl rfl
  | child hp e hz ih =>
    rcases ih with rfl | ⟨c, hc, hu⟩
    · exact .inr ⟨_, (mem_kids hn).2 ⟨_, e, hz, hp.there⟩, .self e⟩
    · exact .inr ⟨c, hc, .child hu e hz⟩

theorem Under.of_kid (hn : t.blocks.keys.Nodup) {r c x : Root} (hc : c ∈ t.kids r) (h : Under t.blocks c x) :
    Under t.blocks r x := by
  obtain ⟨s, e, hz, hr⟩ := (mem_kids hn).1 hc
  obtain ⟨e', he'⟩ := Option.isSome_iff_exists.1 hr
  exact Under.trans (.child (.self he') e hz) h

section
variable (hn : t.blocks.keys.Nodup) {rank : Root → Nat}
  (hr : ∀ r s p, t.blocks.get? r = some (s, p) → p ≠ 0 → (t.blocks.get? p).isSome = true → rank p < rank r)
include hn hr

theorem kid_rank {r c : Root} (hc : c ∈ t.kids r) : rank r < rank c := by
  obtain ⟨s, e, hz, h⟩ := (mem_kids hn).1 hc
  exact hr _ _ _ e hz h

/-- The subtrees of two children have nothing in common. -/
theorem kids_apart {r c c' x : Root} (hc : c ∈ t.kids r) (hc' : c' ∈ t.kids r) (h : Under t.blocks c x)
    (h' : Under t.blocks c' x) : c = c' := by
  have key : ∀ {c c' : Root}, c ∈ t.kids r → c' ∈ t.kids r → Under t.blocks c c' → c = c' := by
    intro c c' hc hc' hu
    obtain ⟨s', e', -, -⟩ := (mem_kids hn).1 hc'
    cases hu with
    | self _ => rfl
    | child hp e hz =>
      rw [e'] at e
      cases e
      have h1 := kid_rank hn hr hc
      rcases Under.rank hr hp with rfl | h2 <;> omega
  rcases h.linear h' with hu | hu
  · exact key hc hc' hu
  · exact (key hc' hc hu).symm

/-- A child is not under itself by way of a child. -/
theorem not_under_kid {r c : Root} (hc : c ∈ t.kids r) : ¬ Under t.blocks c r := by
  intro h
  have h1 := kid_rank hn hr hc
  rcases Under.rank hr h with rfl | h2 <;> omega

end

/-! ## Pictures -/

/-- What is drawn after the block `r` on its line, and below. -/
structure Below (t : Tree) (r : Root) (k : List Tok) : Prop where
  nodes : ∀ x ∈ drawn k, ∃ c ∈ t.kids r, Under t.blocks c x
  pw : (drawn k).Pairwise (Ordered t)
  all : .dots ∉ k → ∀ c ∈ t.kids r, ∀ x, Under t.blocks c x → x ∈ drawn k
  star : .dots ∉ k → t.kids t.head = [] → (t.head = r ∨ t.head ∈ drawn k) → .star ∈ k
  reads : ∀ b, Reads t.blocks t.head none 0 false b → Reads t.blocks t.head (some r) 0 true (k ++ b)

/-- A picture of the subtree of `r`. -/
structure Pic (t : Tree) (r : Root) (l : List Tok) : Prop where
  nodes : ∀ x ∈ drawn l, Under t.blocks r x
  pw : (drawn l).Pairwise (Ordered t)
  all : .dots ∉ l → ∀ x, Under t.blocks r x → x ∈ drawn l
  star : .dots ∉ l → t.kids t.head = [] → t.head ∈ drawn l → .star ∈ l
  reads : ∀ q, (∀ p, q = some p → ∃ s, t.blocks.get? r = some (s, p)) → ∀ b,
    Reads t.blocks t.head none 0 false b → Reads t.blocks t.head q 0 false (l ++ b)

theorem drawn_append (a b : List Tok) : drawn (a ++ b) = drawn a ++ drawn b := List.filterMap_append

theorem drawn_gap (prev : Option Nat) (slot : Nat) : drawn (gapToks prev slot) = [] := by
  unfold gapToks
  split
  · rfl
  · split <;> rfl

theorem dots_gap (prev : Option Nat) (slot : Nat) : Tok.dots ∉ gapToks prev slot := by
  unfold gapToks
  split
  · simp
  · split <;> simp

section
variable (hn : t.blocks.keys.Nodup) {rank : Root → Nat}
  (hr : ∀ r s p, t.blocks.get? r = some (s, p) → p ≠ 0 → (t.blocks.get? p).isSome = true → rank p < rank r)
include hn hr

theorem Below.pic {r : Root} {k : List Tok} (B : Below t r k) {slot : Nat} {p0 : Root}
    (e : t.blocks.get? r = some (slot, p0)) {prev : Option Nat}
    (hp : ∀ ps pp, p0 ≠ 0 → t.blocks.get? p0 = some (ps, pp) → prev = some ps) :
    Pic t r (gapToks prev slot ++ .node r slot :: k) := by
  have hd : drawn (gapToks prev slot ++ .node r slot :: k) = r :: drawn k := by
    rw [drawn_append, drawn_gap]; rfl
  refine ⟨?_, ?_, ?_, ?_, ?_⟩
  · intro x hx
    rw [hd] at hx
    rcases List.mem_cons.1 hx with rfl | hx
    · exact .self e
    · obtain ⟨c, hc, hu⟩ := B.nodes x hx
      exact hu.of_kid hn hc
  · rw [hd]
    refine List.pairwise_cons.2 ⟨fun x hx => ?_, B.pw⟩
    obtain ⟨c, hc, hu⟩ := B.nodes x hx
    refine ⟨?_, fun sx sy p e1 e2 hz => ?_⟩
    · rintro rfl
      exact not_under_kid hn hr hc hu
    · -- a block below `r` does not have the same parent as `r`
      exfalso
      rw [e] at e1
      cases e1
      have hru : Under t.blocks r x := hu.of_kid hn hc
      cases hru with
      | self _ => exact not_under_kid hn hr hc hu
      | child hq e3 hz3 =>
        rw [e2] at e3
        cases e3
        have h1 := hr _ _ _ e hz hq.there
        rcases Under.rank hr hq with h | h2
        · rw [h] at h1; omega
        · omega
  · intro hdots x hx
    rw [hd]
    rcases hx.split hn with rfl | ⟨c, hc, hu⟩
    · exact List.mem_cons_self
    · exact List.mem_cons_of_mem _ (B.all (fun h => hdots (by simp [h])) c hc x hu)
  · intro hdots hk hh
    rw [hd] at hh
    have := B.star (fun h => hdots (by simp [h])) hk (List.mem_cons.1 hh)
    simp [this]
  · intro q hq b hb
    have hcore : ∀ g, (∀ ps pp, p0 ≠ 0 → t.blocks.get? p0 = some (ps, pp) → slot - ps - 1 = g) → ∀ f,
        Reads t.blocks t.head q g f (.node r slot :: (k ++ b)) := by
      intro g hg f
      refine ⟨⟨p0, e, fun p hqp => ?_, hg⟩, B.reads b hb⟩
      obtain ⟨s', e'⟩ := hq p hqp
      rw [e] at e'
      cases e'
      rfl
    unfold gapToks
    split
    · refine hcore 0 (fun ps pp hz hps => ?_) false
      have := hp ps pp hz hps
      simp at this
    next ps' =>
      split
      next h0 =>
        refine hcore 0 (fun ps pp hz hps => ?_) false
        have := hp ps pp hz hps
        cases this
        exact h0
      next h0 =>
        show Reads t.blocks t.head q (slot - ps' - 1) false _
        refine hcore _ (fun ps pp hz hps => ?_) false
        have := hp ps pp hz hps
        cases this
        rfl

omit hn hr in
theorem mark_drawn (r : Root) : drawn (t.mark r) = [] := by unfold Tree.mark; split <;> rfl

omit hn hr in
theorem mark_reads (r : Root) {k : List Tok} (h : Reads t.blocks t.head (some r) 0 true k) :
    Reads t.blocks t.head (some r) 0 true (t.mark r ++ k) := by
  unfold Tree.mark
  split
  next e => exact ⟨rfl, by rw [e], h⟩
  next => exact h

omit hn hr in
theorem Below.cut (r : Root) : Below t r [.dots, .newline] :=
  ⟨fun x hx => (by cases hx), .nil, fun h => absurd (by simp) h, fun h => absurd (by simp) h, fun _ hb => hb⟩

omit hn hr in
theorem Below.leaf {r : Root} (hk : t.kids r = []) (w : Nat) : Below t r (t.mark r ++ [.weight w, .newline]) := by
  have hd : drawn (t.mark r ++ [.weight w, .newline]) = [] := by rw [drawn_append, mark_drawn]; rfl
  refine ⟨fun x hx => (by rw [hd] at hx; cases hx), (by rw [hd]; exact .nil), fun _ c hc => (by rw [hk] at hc; cases hc),
    fun _ _ h => ?_, fun b hb => ?_⟩
  · rw [hd] at h
    rcases h with rfl | h
    · simp [Tree.mark]
    · cases h
  · rw [List.append_assoc]
    exact mark_reads r hb

omit hr in
theorem Below.single {r c : Root} (hk : t.kids r = [c]) {rest : List Tok} (P : Pic t c rest) {m : List Tok}
    (hm : m = [] ∨ m = t.mark r) : Below t r (m ++ .link :: rest) := by
  have hc : c ∈ t.kids r := by rw [hk]; exact List.mem_singleton_self c
  have hd : drawn (m ++ .link :: rest) = drawn rest := by
    rw [drawn_append]
    rcases hm with rfl | rfl
    · rfl
    · rw [mark_drawn]; rfl
  refine ⟨fun x hx => ⟨c, hc, P.nodes x (by rw [← hd]; exact hx)⟩, by rw [hd]; exact P.pw, ?_, ?_, ?_⟩
  · intro hdots c' hc' x hx
    rw [hk] at hc'
    obtain rfl := List.mem_singleton.1 hc'
    rw [hd]
    exact P.all (fun h => hdots (by simp [h])) x hx
  · intro hdots hkh hh
    rw [hd] at hh
    rcases hh with rfl | hh
    · rw [hkh] at hk; cases hk
    · have := P.star (fun h => hdots (by simp [h])) hkh hh
      simp [this]
  · intro b hb
    have hlink : Reads t.blocks t.head (some r) 0 true (.link :: rest ++ b) := by
      refine P.reads (some r) (fun p hp => ?_) b hb
      cases hp
      obtain ⟨s, e, -⟩ := (mem_kids hn).1 hc
      exact ⟨s, e⟩
    rw [List.append_assoc]
    rcases hm with rfl | rfl
    · exact hlink
    · exact mark_reads r hlink

/-- The branches of a fork, drawn one below the other. -/
structure Forks (t : Tree) (cs : List Root) (l : List Tok) : Prop where
  nodes : ∀ x ∈ drawn l, ∃ c ∈ cs, Under t.blocks c x
  pw : (drawn l).Pairwise (Ordered t)
  all : .dots ∉ l → ∀ c ∈ cs, ∀ x, Under t.blocks c x → x ∈ drawn l
  star : .dots ∉ l → t.kids t.head = [] → t.head ∈ drawn l → .star ∈ l
  reads : ∀ b, Reads t.blocks t.head none 0 false b → Reads t.blocks t.head none 0 false (l ++ b)

theorem drawKids_forks {r : Root} {f : Root → Bool → Except Panic (List Tok)} {bars : List Bool}
    (hf : ∀ c ∈ t.kids r, ∀ l, ∃ toks, f c l = .ok toks ∧ Pic t c toks) :
    ∀ cs, cs.Sublist (t.kids r) → ∃ toks, drawKids f bars cs = .ok toks ∧ Forks t cs toks := by
  intro cs
  induction cs with
  | nil =>
    intro _
    exact ⟨[], rfl, fun x hx => (by cases hx), .nil, fun _ c hc => (by cases hc), fun _ _ h => (by cases h),
      fun _ hb => hb⟩
  | cons c cs ih =>
    intro hsub
    have hc : c ∈ t.kids r := hsub.subset List.mem_cons_self
    have hsub' : cs.Sublist (t.kids r) := (List.sublist_cons_self c cs).trans hsub
    have hnd : (c :: cs).Nodup := hsub.nodup (kids_nodup hn r)
    have hso : (c :: cs).Pairwise (before t.weights) := (kids_sorted r).sublist hsub
    obtain ⟨a, ea, P⟩ := hf c hc cs.isEmpty
    obtain ⟨b, eb, F⟩ := ih hsub'
    refine ⟨.conn bars cs.isEmpty :: a ++ b, by simp only [drawKids, ea, eb], ?_⟩
    have hd : drawn (.conn bars cs.isEmpty :: a ++ b) = drawn a ++ drawn b := by
      rw [show Tok.conn bars cs.isEmpty :: a ++ b = Tok.conn bars cs.isEmpty :: (a ++ b) from rfl]
      rw [show drawn (Tok.conn bars cs.isEmpty :: (a ++ b)) = drawn (a ++ b) from rfl, drawn_append]
    refine ⟨?_, ?_, ?_, ?_, ?_⟩
    · intro x hx
      rw [hd] at hx
      rcases List.mem_append.1 hx with hx | hx
      · exact ⟨c, List.mem_cons_self, P.nodes x hx⟩
      · obtain ⟨c', hc', hu⟩ := F.nodes x hx
        exact ⟨c', List.mem_cons_of_mem _ hc', hu⟩
    · rw [hd]
      refine List.pairwise_append.2 ⟨P.pw, F.pw, fun x hx y hy => ?_⟩
      have hux := P.nodes x hx
      obtain ⟨c', hc', huy⟩ := F.nodes y hy
      have hck : c' ∈ t.kids r := hsub'.subset hc'
      have hcc : c ≠ c' := fun e => (List.nodup_cons.1 hnd).1 (e ▸ hc')
      refine ⟨?_, fun sx sy p e1 e2 hz => ?_⟩
      · rintro rfl
        exact hcc (kids_apart hn hr hc hck hux huy)
      · -- siblings in different branches are the heads of the branches
        cases hux with
        | self _ =>
          cases huy with
          | self _ => exact (List.rel_of_pairwise_cons hso hc').imp id (fun h => ⟨h.1.symm, h.2⟩)
          | child hp e3 _ =>
            rw [e2] at e3
            cases e3
            obtain ⟨s, e4, -⟩ := (mem_kids hn).1 hc
            rw [e1] at e4
            cases e4
            exact absurd hp (not_under_kid hn hr hck)
        | child hp e3 _ =>
          rw [e1] at e3
          cases e3
          have : Under t.blocks c y := .child hp e2 hz
          exact absurd (kids_apart hn hr hc hck this huy) hcc
    · intro hdots c' hc' x hx
      rw [hd]
      rcases List.mem_cons.1 hc' with rfl | hc'
      · exact List.mem_append_left _ (P.all (fun h => hdots (by simp [h])) x hx)
      · exact List.mem_append_right _ (F.all (fun h => hdots (by simp [h])) c' hc' x hx)
    · intro hdots hk hh
      rw [hd] at hh
      rcases List.mem_append.1 hh with hh | hh
      · have := P.star (fun h => hdots (by simp [h])) hk hh
        simp [this]
      · have := F.star (fun h => hdots (by simp [h])) hk hh
        simp [this]
    · intro k hk
      rw [List.append_assoc]
      exact P.reads none (fun p hp => by cases hp) _ (F.reads k hk)

omit hn hr in
theorem Below.fork {r : Root} {l : List Tok} (F : Forks t (t.kids r) l) (hk : t.kids r ≠ []) {m : List Tok}
    (hm : m = [] ∨ m = t.mark r) (n : Nat) : Below t r (m ++ [.branches n, .newline] ++ l) := by
  have hd : drawn (m ++ [.branches n, .newline] ++ l) = drawn l := by
    rw [drawn_append, drawn_append]
    rcases hm with rfl | rfl
    · rfl
    · rw [mark_drawn]; rfl
  refine ⟨fun x hx => F.nodes x (by rw [← hd]; exact hx), by rw [hd]; exact F.pw, ?_, ?_, ?_⟩
  · intro hdots c hc x hx
    rw [hd]
    exact F.all (fun h => hdots (by simp [h])) c hc x hx
  · intro hdots hkh hh
    rw [hd] at hh
    rcases hh with rfl | hh
    · exact absurd hkh hk
    · have := F.star (fun h => hdots (by simp [h])) hkh hh
      simp [this]
  · intro b hb
    rw [List.append_assoc, List.append_assoc]
    have : Reads t.blocks t.head (some r) 0 true ([.branches n, .newline] ++ (l ++ b)) := F.reads b hb
    rcases hm with rfl | rfl
    · exact this
    · exact mark_reads r this

omit hr in
theorem parentSlot_eq {c : Root} {s ps pp p : Nat} (e : t.blocks.get? c = some (s, p))
    (e' : t.blocks.get? p = some (ps, pp)) : t.parentSlot c = some ps := by
  unfold Tree.parentSlot
  rw [e]
  simp only [e', Option.map_some]

theorem line_pic : ∀ (fuel : Nat) (cur : Root) (bars : List Bool) (last : Bool) (depth : Nat) (prev : Option Nat)
    (slot : Nat) (p0 : Root), t.blocks.get? cur = some (slot, p0) →
    (∀ ps pp, p0 ≠ 0 → t.blocks.get? p0 = some (ps, pp) → prev = some ps) → 1 ≤ fuel → maxDepth ≤ depth + fuel →
    ∃ toks, t.line fuel cur bars last depth prev = .ok toks ∧ Pic t cur toks := by
  intro fuel
  induction fuel with
  | zero => intro _ _ _ _ _ _ _ _ _ h; omega
  | succ fuel ih =>
    intro cur bars last depth prev slot p0 e hp _ hfuel
    unfold Tree.line
    simp only [e]
    have mk : ∀ {k}, Below t cur k → Pic t cur (gapToks prev slot ++ [.node cur slot] ++ k) := by
      intro k B
      have := B.pic hn hr e hp
      simpa using this
    split
    · exact ⟨_, rfl, mk (Below.cut cur)⟩
    next hdep =>
      have hfuel1 : 1 ≤ fuel := by omega
      have hfuel2 : maxDepth ≤ depth + (gapToks prev slot).length + 1 + fuel := by omega
      have kid : ∀ c ∈ t.kids cur, ∃ s, t.blocks.get? c = some (s, cur) := fun c hc => by
        obtain ⟨s, e', -⟩ := (mem_kids hn).1 hc
        exact ⟨s, e'⟩
      split
      next hk =>
        refine ⟨_, rfl, ?_⟩
        rw [List.append_assoc]
        exact mk (Below.leaf hk _)
      next c hk =>
        obtain ⟨s, ec⟩ := kid c (by rw [hk]; exact List.mem_singleton_self c)
        obtain ⟨rest, er, P⟩ := ih c bars last _ (some slot) s cur ec
          (fun ps pp _ h => by rw [e] at h; cases h; rfl) hfuel1 hfuel2
        rw [er]
        refine ⟨_, rfl, ?_⟩
        rw [List.append_assoc]
        exact mk (Below.single hn hk P (.inr rfl))
      next hk0 hk1 =>
        obtain ⟨rest, er, F⟩ := drawKids_forks hn hr (r := cur) (bars := bars ++ [!last])
          (f := fun c l => t.line fuel c (bars ++ [!last]) l (depth + (gapToks prev slot).length + 1) (t.parentSlot c))
          (fun c hc l => by
            obtain ⟨s, ec⟩ := kid c hc
            exact ih c _ l _ _ s cur ec (fun ps pp _ h => parentSlot_eq hn ec h) hfuel1 hfuel2)
          (t.kids cur) (List.Sublist.refl _)
        rw [er]
        refine ⟨_, rfl, ?_⟩
        have := mk (Below.fork F hk0 (.inr rfl) (t.kids cur).length)
        simpa only [List.append_assoc] using this

theorem trunk_pic : ∀ (fuel : Nat) (cur : Root) (depth : Nat) (prev : Option Nat)
    (slot : Nat) (p0 : Root), t.blocks.get? cur = some (slot, p0) →
    (∀ ps pp, p0 ≠ 0 → t.blocks.get? p0 = some (ps, pp) → prev = some ps) → 1 ≤ fuel → maxDepth ≤ depth + fuel →
    ∃ toks tip d, t.trunk fuel cur depth prev = .ok (toks, tip, d) ∧ (∃ e, t.blocks.get? tip = some e) ∧
      ((∃ toks', toks = toks' ++ [.dots]) ∨ (t.kids tip).length ≠ 1) ∧
      ∀ k, (∀ k', (k' = [] ∨ k' = [.dots]) → (k' = [] → (t.kids tip).length ≠ 1) → Below t tip (k' ++ k)) →
        Pic t cur (toks ++ k) := by
  intro fuel
  induction fuel with
  | zero => intro _ _ _ _ _ _ _ h; omega
  | succ fuel ih =>
    intro cur depth prev slot p0 e hp _ hfuel
    unfold Tree.trunk
    simp only [e]
    have mk : ∀ {k}, Below t cur k → Pic t cur (gapToks prev slot ++ [.node cur slot] ++ k) := by
      intro k B
      have := B.pic hn hr e hp
      simpa using this
    split
    · refine ⟨_, _, _, rfl, ⟨_, e⟩, .inl ⟨_, rfl⟩, fun k hk => ?_⟩
      have := mk (hk [.dots] (.inr rfl) (fun h => by cases h))
      simpa only [List.append_assoc] using this
    next hdep =>
      have hfuel1 : 1 ≤ fuel := by omega
      have hfuel2 : maxDepth ≤ depth + (gapToks prev slot).length + 1 + fuel := by omega
      split
      next c hk =>
        obtain ⟨s, ec, -⟩ := (mem_kids hn).1 (show c ∈ t.kids cur by rw [hk]; exact List.mem_singleton_self c)
        obtain ⟨rest, tip, d, er, htip, hend, hrest⟩ := ih c _ (some slot) s cur ec
          (fun ps pp _ h => by rw [e] at h; cases h; rfl) hfuel1 hfuel2
        rw [er]
        refine ⟨_, tip, d, rfl, htip, ?_, fun k hk' => ?_⟩
        · rcases hend with ⟨toks', rfl⟩ | h
          · exact .inl ⟨gapToks prev slot ++ [.node cur slot] ++ .link :: toks', by simp⟩
          · exact .inr h
        · have := mk (Below.single hn hk (hrest k hk') (.inl rfl))
          simpa using this
      next hk1 =>
        have hlen : (t.kids cur).length ≠ 1 := by
          intro h
          obtain ⟨c, hc⟩ := List.length_eq_one_iff.1 h
          exact hk1 c hc
        refine ⟨_, _, _, rfl, ⟨_, e⟩, .inr hlen, fun k hk => ?_⟩
        exact mk (hk [] (.inl rfl) (fun _ => hlen))

end

end Verif.ForkTree
