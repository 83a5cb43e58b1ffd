import Verif.Model.Backend
import Verif.Lemmas.AMap
import Mathlib.Data.List.Nodup
import Mathlib.Tactic.Ring
import Mathlib.Data.List.TakeWhile
/-!
# Lemmas about byte keys and tables
-/
namespace Verif.Backend
open Verif

theorem length_beBytes (k n : Nat) : (beBytes k n).length = k := by
  induction k with
  | zero => rfl
  | succ k ih => simp [beBytes, ih]

theorem digit_lt_iff {P x y ra rb : Nat} (ha : ra < P) (hb : rb < P) :
    ra + P * x < rb + P * y ↔ x < y ∨ (x = y ∧ ra < rb) := by
  rcases Nat.lt_trichotomy x y with h | h | h
  · have : P * (x + 1) ≤ P * y := Nat.mul_le_mul_left P h
    rw [Nat.mul_succ] at this
    constructor
    · intro _; exact Or.inl h
    · intro _; omega
  · subst h
    constructor
    · intro _; right; omega
    · rintro (h | h) <;> omega
  · have : P * (y + 1) ≤ P * x := Nat.mul_le_mul_left P h
    rw [Nat.mul_succ] at this
    constructor
    · intro _; omega
    · rintro (h | h) <;> omega

theorem digit_eq_iff {P x y ra rb : Nat} (ha : ra < P) (hb : rb < P) :
    ra + P * x = rb + P * y ↔ x = y ∧ ra = rb := by
  have h1 := digit_lt_iff (x := x) (y := y) ha hb
  have h2 := digit_lt_iff (x := y) (y := x) hb ha
  constructor
  · intro h
    have n1 : ¬ (ra + P * x < rb + P * y) := by omega
    have n2 : ¬ (rb + P * y < ra + P * x) := by omega
    rw [h1] at n1; rw [h2] at n2
    omega
  · rintro ⟨rfl, rfl⟩; rfl

theorem lexLt_beBytes_append (k a b : Nat) (u v : Bytes) :
    lexLt (beBytes k a ++ u) (beBytes k b ++ v) = true ↔
      a % 256 ^ k < b % 256 ^ k ∨ (a % 256 ^ k = b % 256 ^ k ∧ lexLt u v = true) := by
  induction k with
  | zero => simp [beBytes, Nat.mod_one]
  | succ k ih =>
    have hP : 0 < 256 ^ k := Nat.pow_pos (by decide)
    simp only [beBytes, List.cons_append, lexLt, Bool.or_eq_true, Bool.and_eq_true,
      decide_eq_true_eq, ih, Nat.mod_pow_succ]
    rw [digit_lt_iff (Nat.mod_lt _ hP) (Nat.mod_lt _ hP),
      digit_eq_iff (Nat.mod_lt _ hP) (Nat.mod_lt _ hP)]
    tauto

theorem beNat_append_single (b : Bytes) (x : Nat) : beNat (b ++ [x]) = beNat b * 256 + x := by
  simp [beNat]

theorem foldl_be (b : Bytes) (a : Nat) :
    b.foldl (fun a x => a * 256 + x) a = a * 256 ^ b.length + beNat b := by
  unfold beNat
  induction b generalizing a with
  | nil => simp
  | cons x xs ih =>
    simp only [List.foldl_cons, List.length_cons]
    rw [ih, ih (0 * 256 + x)]
    rw [Nat.pow_succ]
    ring_nf

theorem beNat_beBytes (k n : Nat) : beNat (beBytes k n) = n % 256 ^ k := by
  induction k with
  | zero => simp [beBytes, beNat, Nat.mod_one]
  | succ k ih =>
    rw [beBytes, beNat, List.foldl_cons, foldl_be, ih, length_beBytes, Nat.mod_pow_succ]
    ring

theorem beBytes_lt (k n : Nat) : ∀ x ∈ beBytes k n, x < 256 := by
  induction k with
  | zero => simp [beBytes]
  | succ k ih =>
    intro x hx
    rcases List.mem_cons.1 hx with h | h
    · rw [h]; exact Nat.mod_lt _ (by decide)
    · exact ih x h

theorem beNat_lt (b : Bytes) (h : ∀ x ∈ b, x < 256) : beNat b < 256 ^ b.length := by
  induction b with
  | nil => simp [beNat]
  | cons x xs ih =>
    rw [beNat, List.foldl_cons, foldl_be, List.length_cons, Nat.pow_succ]
    have h1 := ih (fun y hy => h y (List.mem_cons_of_mem _ hy))
    have h2 := h x List.mem_cons_self
    have h3 : x * 256 ^ xs.length ≤ 255 * 256 ^ xs.length := Nat.mul_le_mul_right _ (by omega)
    have h4 : (0 * 256 + x) = x := by omega
    rw [h4]; omega

theorem beBytes_add_mul (k n c : Nat) : beBytes k (n + c * 256 ^ k) = beBytes k n := by
  induction k generalizing c with
  | zero => rfl
  | succ k ih =>
    have e1 : n + c * 256 ^ (k + 1) = n + (c * 256) * 256 ^ k := by rw [Nat.pow_succ]; ring
    have hP : 0 < 256 ^ k := Nat.pow_pos (by decide)
    have e2 : (n + (c * 256) * 256 ^ k) / 256 ^ k % 256 = n / 256 ^ k % 256 := by
      rw [Nat.add_mul_div_right _ _ hP, Nat.add_mul_mod_self_right]
    rw [beBytes, e1, ih, e2, beBytes]

theorem beBytes_beNat (b : Bytes) (h : ∀ x ∈ b, x < 256) : beBytes b.length (beNat b) = b := by
  induction b with
  | nil => rfl
  | cons x xs ih =>
    have hxs := ih (fun y hy => h y (List.mem_cons_of_mem _ hy))
    have hlt := beNat_lt xs (fun y hy => h y (List.mem_cons_of_mem _ hy))
    have hx := h x List.mem_cons_self
    have hP : 0 < 256 ^ xs.length := Nat.pow_pos (by decide)
    have e : beNat (x :: xs) = beNat xs + x * 256 ^ xs.length := by
      rw [beNat, List.foldl_cons, foldl_be]; ring
    rw [List.length_cons, beBytes, e, beBytes_add_mul, hxs, Nat.add_mul_div_right _ _ hP,
      Nat.div_eq_of_lt hlt, Nat.zero_add, Nat.mod_eq_of_lt hx]

theorem encodeSlotRoot_inj {s s' : Nat} {r r' : Root} (h1 : s < 2 ^ 64) (h2 : Nat.lt r (2 ^ 256))
    (h3 : s' < 2 ^ 64) (h4 : Nat.lt r' (2 ^ 256))
    (h : encodeSlotRoot s r = encodeSlotRoot s' r') : s = s' ∧ r = r' := by
  unfold encodeSlotRoot at h
  have := List.append_inj h (by rw [length_beBytes, length_beBytes])
  have a := congrArg beNat this.1
  have b := congrArg beNat this.2
  rw [beNat_beBytes, beNat_beBytes, Nat.mod_eq_of_lt, Nat.mod_eq_of_lt] at a
  · rw [beNat_beBytes, beNat_beBytes, Nat.mod_eq_of_lt, Nat.mod_eq_of_lt] at b
    · exact ⟨a, b⟩
    · have := h4; simpa using this
    · have := h2; simpa using this
  · simpa using h3
  · simpa using h1

/-! ## Lexicographic order -/

theorem lexLt_irrefl (a : Bytes) : lexLt a a = false := by
  induction a with
  | nil => rfl
  | cons x xs ih => simp [lexLt, ih]

theorem lexLt_trans {a b c : Bytes} (h1 : lexLt a b = true) (h2 : lexLt b c = true) :
    lexLt a c = true := by
  induction a generalizing b c with
  | nil =>
    cases b with
    | nil => simp [lexLt] at h1
    | cons y ys => cases c with
      | nil => simp [lexLt] at h2
      | cons z zs => rfl
  | cons x xs ih =>
    cases b with
    | nil => simp [lexLt] at h1
    | cons y ys => cases c with
      | nil => simp [lexLt] at h2
      | cons z zs =>
        simp only [lexLt, Bool.or_eq_true, Bool.and_eq_true, decide_eq_true_eq] at h1 h2 ⊢
        rcases h1 with h1 | ⟨h1, h1'⟩ <;> rcases h2 with h2 | ⟨h2, h2'⟩
        · left; omega
        · left; omega
        · left; omega
        · right; exact ⟨by omega, ih h1' h2'⟩

theorem lexLt_total (a b : Bytes) : lexLt a b = true ∨ a = b ∨ lexLt b a = true := by
  induction a generalizing b with
  | nil => cases b <;> simp [lexLt]
  | cons x xs ih =>
    cases b with
    | nil => simp [lexLt]
    | cons y ys =>
      simp only [lexLt, Bool.or_eq_true, Bool.and_eq_true, decide_eq_true_eq, List.cons.injEq]
      rcases Nat.lt_trichotomy x y with h | h | h
      · left; left; exact h
      · rcases ih ys with h' | h' | h'
        · left; right; exact ⟨h, h'⟩
        · right; left; exact ⟨h, h'⟩
        · right; right; right; exact ⟨h.symm, h'⟩
      · right; right; left; exact h

theorem insertEntry_perm (e : Bytes × Bytes) (l : List (Bytes × Bytes)) :
    (insertEntry e l).Perm (e :: l) := by
  induction l with
  | nil => exact .refl _
  | cons f fs ih =>
    unfold insertEntry
    split
    · exact .refl _
    · exact (ih.cons f).trans (List.Perm.swap e f fs)

theorem sortEntries_perm (l : List (Bytes × Bytes)) : (sortEntries l).Perm l := by
  induction l with
  | nil => exact .refl _
  | cons e es ih => exact (insertEntry_perm e _).trans (ih.cons e)

theorem insertEntry_sorted {e : Bytes × Bytes} {l : List (Bytes × Bytes)}
    (h : l.Pairwise (fun a b => lexLt a.1 b.1 = true)) (hne : ∀ f ∈ l, e.1 ≠ f.1) :
    (insertEntry e l).Pairwise (fun a b => lexLt a.1 b.1 = true) := by
  induction l with
  | nil => simp [insertEntry]
  | cons f fs ih =>
    rw [List.pairwise_cons] at h
    unfold insertEntry
    split
    · next hlt =>
      rw [List.pairwise_cons]
      refine ⟨?_, List.pairwise_cons.2 h⟩
      intro g hg
      rcases List.mem_cons.1 hg with rfl | hg
      · exact hlt
      · exact lexLt_trans hlt (h.1 g hg)
    · next hlt =>
      rw [List.pairwise_cons]
      refine ⟨?_, ih h.2 (fun g hg => hne g (List.mem_cons_of_mem _ hg))⟩
      intro g hg
      rcases List.mem_cons.1 ((insertEntry_perm e fs).mem_iff.1 hg) with rfl | hg
      · rcases lexLt_total g.1 f.1 with h' | h' | h'
        · exact absurd h' hlt
        · exact absurd h' (hne f List.mem_cons_self)
        · exact h'
      · exact h.1 g hg

theorem sortEntries_sorted {l : List (Bytes × Bytes)} (h : (l.map Prod.fst).Nodup) :
    (sortEntries l).Pairwise (fun a b => lexLt a.1 b.1 = true) := by
  induction l with
  | nil => simp [sortEntries]
  | cons e es ih =>
    rw [List.map_cons, List.nodup_cons] at h
    refine insertEntry_sorted (ih h.2) ?_
    intro f hf heq
    exact h.1 (List.mem_map.2 ⟨f, (sortEntries_perm es).mem_iff.1 hf, heq.symm⟩)

/-- Two strictly sorted enumerations of the same entries coincide. -/
theorem sorted_unique {l1 l2 : List (Bytes × Bytes)}
    (h1 : l1.Pairwise (fun a b => lexLt a.1 b.1 = true))
    (h2 : l2.Pairwise (fun a b => lexLt a.1 b.1 = true)) (hp : ∀ e, e ∈ l1 ↔ e ∈ l2) : l1 = l2 := by
  induction l1 generalizing l2 with
  | nil =>
    cases l2 with
    | nil => rfl
    | cons f fs => exact absurd ((hp f).2 List.mem_cons_self) (by simp)
  | cons e es ih =>
    cases l2 with
    | nil => exact absurd ((hp e).1 List.mem_cons_self) (by simp)
    | cons f fs =>
      rw [List.pairwise_cons] at h1 h2
      have hef : e = f := by
        rcases List.mem_cons.1 ((hp e).1 List.mem_cons_self) with h | h
        · exact h
        · rcases List.mem_cons.1 ((hp f).2 List.mem_cons_self) with h' | h'
          · exact h'.symm
          · have a := h2.1 e h
            have b := h1.1 f h'
            have c := lexLt_trans a b
            rw [lexLt_irrefl] at c; cases c
      subst hef
      congr 1
      refine ih h1.2 h2.2 ?_
      intro g
      constructor
      · intro hg
        rcases List.mem_cons.1 ((hp g).1 (List.mem_cons_of_mem _ hg)) with h | h
        · subst h; have := h1.1 g hg; rw [lexLt_irrefl] at this; cases this
        · exact h
      · intro hg
        rcases List.mem_cons.1 ((hp g).2 (List.mem_cons_of_mem _ hg)) with h | h
        · subst h; have := h2.1 g hg; rw [lexLt_irrefl] at this; cases this
        · exact h

theorem not_lexLt_of_startsWith {k pre : Bytes} (h : startsWith k pre = true) :
    lexLt k pre = false := by
  induction k generalizing pre with
  | nil => cases pre with
    | nil => rfl
    | cons y ys => simp [startsWith] at h
  | cons x xs ih => cases pre with
    | nil => rfl
    | cons y ys =>
      simp only [startsWith, Bool.and_eq_true, decide_eq_true_eq] at h
      simp [lexLt, h.1, ih h.2]

/-- Once past the keys with the prefix, no later key has it. -/
theorem startsWith_convex {a b pre : Bytes} (h1 : lexLt a pre = false) (h2 : lexLt a b = true)
    (h3 : startsWith b pre = true) : startsWith a pre = true := by
  induction pre generalizing a b with
  | nil => cases a <;> rfl
  | cons p ps ih =>
    cases a with
    | nil => simp [lexLt] at h1
    | cons x xs =>
      cases b with
      | nil => simp [startsWith] at h3
      | cons y ys =>
        simp only [startsWith, Bool.and_eq_true, decide_eq_true_eq] at h3 ⊢
        simp only [lexLt, Bool.or_eq_true, Bool.and_eq_true, decide_eq_true_eq] at h2
        have h1' : ¬ (x < p) ∧ ¬ (x = p ∧ lexLt xs ps = true) := by
          constructor
          · intro h; simp [lexLt, h] at h1
          · rintro ⟨h, h'⟩; simp [lexLt, h, h'] at h1
        rcases h2 with h2 | ⟨h2, h2'⟩
        · omega
        · have hx : x = p := by omega
          refine ⟨hx, ih ?_ h2' h3.2⟩
          cases hl : lexLt xs ps with
          | false => rfl
          | true => exact absurd ⟨hx, hl⟩ h1'.2

theorem mem_takeWhile_imp' {α : Type} {p : α → Bool} {l : List α} {x : α}
    (h : x ∈ l.takeWhile p) : p x = true := by
  induction l with
  | nil => simp at h
  | cons y ys ih =>
    rw [List.takeWhile_cons] at h
    split at h
    · next hy =>
      rcases List.mem_cons.1 h with rfl | h
      · exact hy
      · exact ih h
    · simp at h

theorem rocks_eq {m : TableData} (hn : m.keys.Nodup) (pre : Bytes) :
    rocksPrefixIter m pre = prefixIter m pre := by
  have hs := sortEntries_sorted (l := m) hn
  have hf := sortEntries_sorted (l := m.filter (fun e => startsWith e.1 pre))
    (AMap.nodup_filter hn _)
  refine sorted_unique ?_ hf ?_
  · exact (hs.sublist (List.dropWhile_sublist _)).sublist (List.takeWhile_sublist _)
  · intro e
    unfold rocksPrefixIter prefixIter
    rw [(sortEntries_perm _).mem_iff, List.mem_filter, ← (sortEntries_perm m).mem_iff]
    generalize sortEntries m = l at hs
    constructor
    · intro he
      exact ⟨(List.dropWhile_sublist _).subset ((List.takeWhile_sublist _).subset he),
        mem_takeWhile_imp' (p := fun e : Bytes × Bytes => startsWith e.1 pre) he⟩
    · rintro ⟨he, hpre⟩
      induction l with
      | nil => cases he
      | cons f fs ih =>
        rw [List.pairwise_cons] at hs
        rw [List.dropWhile_cons]
        split
        · next hlt =>
          rcases List.mem_cons.1 he with rfl | he
          · rw [not_lexLt_of_startsWith hpre] at hlt; cases hlt
          · exact ih hs.2 he
        · next hlt =>
          have hlt : lexLt f.1 pre = false := by simpa using hlt
          clear ih
          -- from here on every key before `e` has the prefix
          have key : ∀ l : List (Bytes × Bytes), e ∈ l →
              l.Pairwise (fun a b => lexLt a.1 b.1 = true) → (∀ g ∈ l, lexLt g.1 pre = false) →
              e ∈ l.takeWhile (fun e => startsWith e.1 pre) := by
            intro l
            induction l with
            | nil => intro h; cases h
            | cons g gs ih =>
              intro hm hp hall
              rw [List.pairwise_cons] at hp
              have hg : startsWith g.1 pre = true := by
                rcases List.mem_cons.1 hm with rfl | hm
                · exact hpre
                · exact startsWith_convex (hall g List.mem_cons_self) (hp.1 e hm) hpre
              rw [List.takeWhile_cons, if_pos hg]
              rcases List.mem_cons.1 hm with rfl | hm
              · exact List.mem_cons_self
              · exact List.mem_cons_of_mem _
                  (ih hm hp.2 (fun g' hg' => hall g' (List.mem_cons_of_mem _ hg')))
          refine key _ he (List.pairwise_cons.2 hs) ?_
          intro g hg
          rcases List.mem_cons.1 hg with rfl | hg
          · exact hlt
          · cases hl : lexLt g.1 pre with
            | false => rfl
            | true => rw [lexLt_trans (hs.1 g hg) hl] at hlt; cases hlt

/-! ## Batches -/

theorem nodup_applyOp {m : TableData} (h : m.keys.Nodup) (o : Op) : (applyOp m o).keys.Nodup := by
  cases o with
  | put k v => exact AMap.nodup_insert h k v
  | delete k => exact AMap.nodup_erase h k
  | deleteRange lo hi => exact AMap.nodup_filter h _

theorem nodup_commit {d : Data} (h : ∀ t, (d t).keys.Nodup) (ops : List (Table × Op)) :
    ∀ t, (commit d ops t).keys.Nodup := by
  induction ops generalizing d with
  | nil => exact h
  | cons e es ih =>
    refine ih ?_
    intro t
    show (AMap.keys (if t = e.1 then applyOp (d e.1) e.2 else d t)).Nodup
    split
    · exact nodup_applyOp (h _) _
    · exact h t

end Verif.Backend
