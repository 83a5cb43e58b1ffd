import Verif.Spec.Merkle
import Verif.Lemmas.Ssz
import Mathlib.Data.List.Forall2

/-
Helper lemmas for C119: equal roots have equal leaves unless two of the hashed inputs collide.
-/

namespace Verif.Merkle

open Verif

theorem node_safe {h : Nat → Nat → Nat} {l r l' r' : Tree} (s : Safe h (.node l r) (.node l' r'))
    (e : root h (.node l r) = root h (.node l' r')) :
    (root h l = root h l' ∧ Safe h l l') ∧ root h r = root h r' ∧ Safe h r r' := by
  have := s (root h l, root h r) (by simp [inputs]) (root h l', root h r') (by simp [inputs]) e
  simp only [Prod.mk.injEq] at this
  exact ⟨⟨this.1, fun p hp q hq => s p (by simp [inputs, hp]) q (by simp [inputs, hq])⟩,
    this.2, fun p hp q hq => s p (by simp [inputs, hp]) q (by simp [inputs, hq])⟩

/-- Same root, and no collision between the two. -/
def Same (h : Nat → Nat → Nat) (t u : Tree) : Prop := root h t = root h u ∧ Safe h t u

theorem merkle_same {h : Nat → Nat → Nat} (d : Nat) (ts us : List Tree) (hl : ts.length = us.length)
    (hd : ts.length ≤ 2 ^ d) (s : Same h (merkle d ts) (merkle d us)) : List.Forall₂ (Same h) ts us := by
  induction d generalizing ts us with
  | zero =>
    match ts, us, hl with
    | [], [], _ => exact .nil
    | [t], [u], _ => exact .cons s .nil
    | _ :: _ :: _, _, _ => simp at hd
  | succ d ih =>
    have hp : 2 ^ (d + 1) = 2 ^ d + 2 ^ d := by rw [Nat.pow_succ]; omega
    obtain ⟨s1, s2⟩ := node_safe s.2 s.1
    have i1 := ih (ts.take (2 ^ d)) (us.take (2 ^ d)) (by simp [hl]) (by simp; omega) s1
    have i2 := ih (ts.drop (2 ^ d)) (us.drop (2 ^ d)) (by simp [hl]) (by simp; omega) s2
    rw [← List.take_append_drop (2 ^ d) ts, ← List.take_append_drop (2 ^ d) us]
    exact List.rel_append i1 i2

theorem forall2_map {α : Type} {R : Tree → Tree → Prop} {f : α → Tree} (hf : ∀ x y, R (f x) (f y) → x = y)
    (xs ys : List α) (h : List.Forall₂ R (xs.map f) (ys.map f)) : xs = ys := by
  induction xs generalizing ys with
  | nil =>
    cases ys with
    | nil => rfl
    | cons y ys => cases h
  | cons x xs ih =>
    cases ys with
    | nil => cases h
    | cons y ys =>
      simp only [List.map_cons, List.forall₂_cons] at h
      rw [hf x y h.1, ih ys h.2]

theorem forall2_map_mem {α : Type} {R : Tree → Tree → Prop} {f : α → Tree} (xs ys : List α)
    (hf : ∀ x ∈ xs, ∀ y ∈ ys, R (f x) (f y) → x = y) (h : List.Forall₂ R (xs.map f) (ys.map f)) : xs = ys := by
  induction xs generalizing ys with
  | nil =>
    cases ys with
    | nil => rfl
    | cons y ys => cases h
  | cons x xs ih =>
    cases ys with
    | nil => cases h
    | cons y ys =>
      simp only [List.map_cons, List.forall₂_cons] at h
      rw [hf x (by simp) y (by simp) h.1,
        ih ys (fun a ha b hb => hf a (by simp [ha]) b (by simp [hb])) h.2]

theorem leaf_same {h : Nat → Nat → Nat} {m n : Nat} (s : Same h (.leaf m) (.leaf n)) : m = n := s.1

theorem listTree_same {h : Nat → Nat → Nat} {α : Type} {d : Nat} {f : α → Tree} {xs ys : List α}
    (hf : ∀ x ∈ xs, ∀ y ∈ ys, Same h (f x) (f y) → x = y) (hx : xs.length ≤ 2 ^ d)
    (s : Same h (listTree d f xs) (listTree d f ys)) : xs = ys := by
  obtain ⟨s1, s2⟩ := node_safe s.2 s.1
  have hl : xs.length = ys.length := s2.1
  exact forall2_map_mem xs ys hf (merkle_same d _ _ (by simp [hl]) (by simpa using hx) s1)

theorem byteOf_inj (xs ys : List Bool) (hl : xs.length = ys.length) (e : Ssz.byteOf xs = Ssz.byteOf ys) : xs = ys := by
  induction xs generalizing ys with
  | nil => cases ys with
    | nil => rfl
    | cons y ys => simp at hl
  | cons x xs ih =>
    cases ys with
    | nil => simp at hl
    | cons y ys =>
      simp only [Ssz.byteOf] at e
      have hx : x.toNat ≤ 1 := by cases x <;> simp
      have hy : y.toNat ≤ 1 := by cases y <;> simp
      have e1 : x.toNat = y.toNat := by omega
      have e2 : Ssz.byteOf xs = Ssz.byteOf ys := by omega
      have e3 : x = y := by cases x <;> cases y <;> simp at e1 <;> rfl
      rw [e3, ih ys (by simpa using hl) e2]

theorem packBits_length (n : Nat) (bits : List Bool) (h : bits.length ≤ 256 * n) :
    (packBits n bits).length = (bits.length + 255) / 256 := by
  induction n generalizing bits with
  | zero => have : bits = [] := by simpa using h
            subst this; rfl
  | succ n ih =>
    unfold packBits
    by_cases hb : bits = []
    · subst hb; rfl
    · have hp : 0 < bits.length := List.length_pos_iff.mpr hb
      rw [if_neg hb, List.length_cons, ih _ (by rw [List.length_drop]; omega), List.length_drop]
      omega

theorem packBits_inj (n : Nat) (xs ys : List Bool) (hl : xs.length = ys.length) (hn : xs.length ≤ 256 * n)
    (e : packBits n xs = packBits n ys) : xs = ys := by
  induction n generalizing xs ys with
  | zero =>
    have h1 : xs = [] := by simpa using hn
    subst h1
    have h2 : ys = [] := by simpa using hl.symm
    exact h2.symm
  | succ n ih =>
    by_cases hx : xs = []
    · subst hx
      have h2 : ys = [] := by simpa using hl.symm
      exact h2.symm
    · have hy : ys ≠ [] := fun h0 => by subst h0; simp at hl; exact hx hl
      unfold packBits at e
      rw [if_neg hx, if_neg hy] at e
      simp only [List.cons.injEq] at e
      have e1 := byteOf_inj _ _ (by simp [hl]) e.1
      have e2 := ih _ _ (by simp [hl]) (by rw [List.length_drop]; omega) e.2
      rw [← List.take_append_drop 256 xs, ← List.take_append_drop 256 ys, e1, e2]

theorem bitsTree_same {h : Nat → Nat → Nat} {d : Nat} {xs ys : List Bool} (hx : xs.length ≤ 256 * 2 ^ d)
    (s : Same h (bitsTree d xs) (bitsTree d ys)) : xs = ys := by
  obtain ⟨s1, s2⟩ := node_safe s.2 s.1
  have hl : xs.length = ys.length := s2.1
  have p1 := packBits_length (xs.length / 256 + 1) xs (by omega)
  have p2 := packBits_length (ys.length / 256 + 1) ys (by omega)
  have f := merkle_same d _ _ (by simp only [List.length_map]; rw [p1, p2, hl]) (by
    simp only [List.length_map]; rw [p1]; omega) s1
  have e := forall2_map (fun _ _ => leaf_same) _ _ f
  rw [← hl] at e
  exact packBits_inj _ xs ys hl (by omega) e

theorem fields_same {h : Nat → Nat → Nat} {d : Nat} {ts us : List Tree} (s : Same h (merkle d ts) (merkle d us))
    (hl : ts.length = us.length) (hd : ts.length ≤ 2 ^ d) : List.Forall₂ (Same h) ts us := merkle_same d ts us hl hd s

theorem cpTree_same {h : Nat → Nat → Nat} {c c' : Checkpoint} (s : Same h (cpTree c) (cpTree c')) : c = c' := by
  unfold cpTree at s
  have f := fields_same s rfl (by simp)
  simp only [List.forall₂_cons, List.Forall₂.nil, and_true] at f
  obtain ⟨f1, f2⟩ := f
  cases c; cases c'
  simp only [Checkpoint.mk.injEq]
  exact ⟨f1.1, f2.1⟩

theorem dataTree_same {h : Nat → Nat → Nat} {d d' : AttData} (s : Same h (dataTree d) (dataTree d')) : d = d' := by
  unfold dataTree at s
  have f := fields_same s rfl (by simp)
  simp only [List.forall₂_cons, List.Forall₂.nil, and_true] at f
  obtain ⟨f1, f2, f3, f4⟩ := f
  cases d; cases d'
  simp only [AttData.mk.injEq]
  exact ⟨f1.1, cpTree_same f2, cpTree_same f3, cpTree_same f4⟩

theorem attTree_same {h : Nat → Nat → Nat} {a a' : AggAtt} (hb : a.bits.length ≤ 4096)
    (s : Same h (attTree a) (attTree a')) : a = a' := by
  unfold attTree at s
  have f := fields_same s rfl (by simp)
  simp only [List.forall₂_cons, List.Forall₂.nil, and_true] at f
  have e1 := bitsTree_same (by omega) f.1
  have e2 := dataTree_same f.2
  cases a; cases a'
  simp only [AggAtt.mk.injEq]
  exact ⟨e1, e2⟩

theorem bodyTree_same {h : Nat → Nat → Nat} {l l' : List AggAtt} (hl : l.length ≤ 4096)
    (hb : ∀ a ∈ l, a.bits.length ≤ 4096) (s : Same h (bodyTree l) (bodyTree l')) : l = l' :=
  listTree_same (d := 12) (fun x hx _ _ => attTree_same (hb x hx)) (by omega) s

theorem headerTree_same {h : Nat → Nat → Nat} {x x' : Header} (s : Same h (headerTree x) (headerTree x')) : x = x' := by
  unfold headerTree at s
  have f := fields_same s rfl (by simp)
  simp only [List.forall₂_cons, List.Forall₂.nil, and_true] at f
  obtain ⟨f1, f2, f3, f4, f5⟩ := f
  cases x; cases x'
  simp only [Header.mk.injEq]
  exact ⟨f1.1, f2.1, f3.1, f4.1, f5.1⟩

theorem blockTree_same {h : Nat → Nat → Nat} {b b' : Block} (hl : b.body.length ≤ 4096)
    (hb : ∀ a ∈ b.body, a.bits.length ≤ 4096) (s : Same h (blockTree b) (blockTree b')) : b = b' := by
  unfold blockTree at s
  have f := fields_same s rfl (by simp)
  simp only [List.forall₂_cons, List.Forall₂.nil, and_true] at f
  obtain ⟨f1, f2, f3, f4, f5⟩ := f
  have e := bodyTree_same hl hb f5
  cases b; cases b'
  simp only [Block.mk.injEq]
  exact ⟨f1.1, f2.1, f3.1, f4.1, e⟩

theorem keyTree_same {h : Nat → Nat → Nat} {k k' : Nat} (s : Same h (keyTree k) (keyTree k')) : k = k' := by
  unfold keyTree at s
  have f := fields_same s rfl (by simp)
  simp only [List.forall₂_cons, List.Forall₂.nil, and_true] at f
  have e1 : k % 2 ^ 256 = k' % 2 ^ 256 := f.1.1
  have e2 : k / 2 ^ 256 = k' / 2 ^ 256 := f.2.1
  rw [← Nat.div_add_mod k (2 ^ 256), ← Nat.div_add_mod k' (2 ^ 256), e1, e2]

theorem validatorTree_same {h : Nat → Nat → Nat} {v v' : Validator} (s : Same h (validatorTree v) (validatorTree v')) :
    v = v' := by
  unfold validatorTree at s
  have f := fields_same s rfl (by simp)
  simp only [List.forall₂_cons, List.Forall₂.nil, and_true] at f
  obtain ⟨f1, f2, f3⟩ := f
  have e1 := keyTree_same f1
  have e2 := keyTree_same f2
  cases v; cases v'
  simp only [Validator.mk.injEq]
  exact ⟨e1, e2, f3.1⟩

theorem stateTree_same {h : Nat → Nat → Nat} {s s' : State} (h1 : s.historicalBlockHashes.length ≤ 262144)
    (h2 : s.justifiedSlots.length ≤ 262144) (h3 : s.validators.length ≤ 4096)
    (h4 : s.justificationsRoots.length ≤ 262144) (h5 : s.justificationsValidators.length ≤ 262144 * 4096)
    (x : Same h (stateTree s) (stateTree s')) : s = s' := by
  unfold stateTree at x
  have f := fields_same x (by simp only [List.length_cons, List.length_nil])
    (by simp only [List.length_cons, List.length_nil]; omega)
  simp only [List.forall₂_cons, List.Forall₂.nil, and_true] at f
  obtain ⟨f1, f2, f3, f4, f5, f6, f7, f8, f9, f10⟩ := f
  have e3 := headerTree_same f3
  have e4 := cpTree_same f4
  have e5 := cpTree_same f5
  have e6 := listTree_same (d := 18) (fun _ _ _ _ => leaf_same) (by omega) f6
  have e7 := bitsTree_same (d := 10) (by omega) f7
  have e8 := listTree_same (d := 12) (fun _ _ _ _ => validatorTree_same) (by omega) f8
  have e9 := listTree_same (d := 18) (fun _ _ _ _ => leaf_same) (by omega) f9
  have e10 := bitsTree_same (d := 22) (by omega) f10
  have e1 : s.genesisTime = s'.genesisTime := f1.1
  cases s; cases s'
  simp only [State.mk.injEq]
  exact ⟨e1, f2.1, e3, e4, e5, e6, e7, e8, e9, e10⟩

/-- A root depends on the roots of the subtrees only. -/
theorem merkle_root {h : Nat → Nat → Nat} (d : Nat) (ts us : List Tree) (e : ts.map (root h) = us.map (root h)) :
    root h (merkle d ts) = root h (merkle d us) := by
  induction d generalizing ts us with
  | zero =>
    cases ts with
    | nil => cases us with
      | nil => rfl
      | cons u us => simp at e
    | cons t ts => cases us with
      | nil => simp at e
      | cons u us => simp only [List.map_cons, List.cons.injEq] at e; exact e.1
  | succ d ih =>
    simp only [merkle, root]
    rw [ih (ts.take (2 ^ d)) (us.take (2 ^ d)) (by rw [List.map_take, List.map_take, e]),
      ih (ts.drop (2 ^ d)) (us.drop (2 ^ d)) (by rw [List.map_drop, List.map_drop, e])]

end Verif.Merkle
