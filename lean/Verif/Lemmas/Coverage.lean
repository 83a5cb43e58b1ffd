import Verif.Model.Coverage
import Mathlib.Data.Finset.Card
import Mathlib.Data.Finset.Image
import Mathlib.Data.Finset.Range
/-!
# The bit vectors of the coverage report as sets
-/
namespace Verif.Node
open Verif Verif.Db Verif.Sync Verif.Buffers Verif.Build

/-- The validators below `k` that satisfy `p`. -/
noncomputable def votersWith (k : Nat) (p : Nat → Prop) : Finset Nat :=
  @Finset.filter _ p (Classical.decPred p) (Finset.range k)

theorem mem_votersWith {k : Nat} {p : Nat → Prop} {v : Nat} : v ∈ votersWith k p ↔ v < k ∧ p v := by
  have := @Finset.mem_filter _ p (Classical.decPred p) (Finset.range k) v
  rw [Finset.mem_range] at this
  exact this

/-- The vectors stand for the set. -/
structure Covers (n cc : Nat) (S : Finset Nat) (c : Cov) : Prop where
  len : c.1.length = n
  slen : c.2.length = cc
  seen : ∀ v : Nat, c.1[v]? = some true ↔ v ∈ S
  has : ∀ i : Nat, c.2[i]? = some true ↔ ∃ v ∈ S, v % cc = i

theorem Covers.congr {n cc : Nat} {S T : Finset Nat} {c : Cov} (h : Covers n cc S c)
    (e : ∀ v, v ∈ S ↔ v ∈ T) : Covers n cc T c := by
  obtain rfl : S = T := Finset.ext e
  exact h

theorem covers_zero (n cc : Nat) : Covers n cc ∅ (Cov.zero n cc) := by
  refine ⟨List.length_replicate, List.length_replicate, fun v => ?_, fun i => ?_⟩
  · simp only [Cov.zero, List.getElem?_replicate]
    constructor
    · intro h; split at h <;> simp at h
    · intro h; simp at h
  · simp only [Cov.zero, List.getElem?_replicate]
    constructor
    · intro h; split at h <;> simp at h
    · rintro ⟨v, h, -⟩; simp at h

theorem covers_one {n cc : Nat} {S : Finset Nat} {c : Cov} (hcc : 0 < cc) (h : Covers n cc S c)
    {v : Nat} (hv : v < n) :
    Covers n cc (insert v S) (c.1.set v true, c.2.set (v % c.2.length) true) := by
  refine ⟨by simp only [List.length_set]; exact h.len, by simp only [List.length_set]; exact h.slen,
    fun w => ?_, fun i => ?_⟩
  · simp only [List.getElem?_set, Finset.mem_insert]
    by_cases e : v = w
    · subst e
      rw [if_pos rfl, if_pos (by rw [h.len]; exact hv)]
      simp
    · rw [if_neg e, h.seen w]
      constructor
      · exact .inr
      · rintro (k | k)
        · exact absurd k.symm e
        · exact k
  · simp only [List.getElem?_set, Finset.mem_insert]
    rw [h.slen]
    by_cases e : v % cc = i
    · rw [if_pos e, if_pos (by have := Nat.mod_lt v hcc; omega)]
      exact iff_of_true rfl ⟨v, .inl rfl, e⟩
    · rw [if_neg e, h.has i]
      constructor
      · rintro ⟨w, k1, k2⟩; exact ⟨w, .inr k1, k2⟩
      · rintro ⟨w, k1 | k1, k2⟩
        · exact absurd (k1 ▸ k2) e
        · exact ⟨w, k1, k2⟩

theorem covers_list {n cc : Nat} (hcc : 0 < cc) (l : List Nat) :
    ∀ {S : Finset Nat} {c : Cov}, Covers n cc S c →
      Covers n cc (S ∪ votersWith n (· ∈ l)) (l.foldl (fun c v =>
        if v < c.1.length then (c.1.set v true, c.2.set (v % c.2.length) true) else c) c) := by
  induction l with
  | nil =>
    intro S c h
    refine h.congr (fun v => ?_)
    rw [Finset.mem_union, mem_votersWith]
    simp
  | cons x l ih =>
    intro S c h
    rw [List.foldl_cons]
    by_cases hx : x < n
    · rw [if_pos (by rw [h.len]; exact hx)]
      refine (ih (covers_one hcc h hx)).congr (fun v => ?_)
      rw [Finset.mem_union, Finset.mem_union, Finset.mem_insert, mem_votersWith, mem_votersWith,
        List.mem_cons]
      constructor
      · rintro ((rfl | k) | ⟨k1, k2⟩)
        · exact .inr ⟨hx, .inl rfl⟩
        · exact .inl k
        · exact .inr ⟨k1, .inr k2⟩
      · rintro (k | ⟨k1, rfl | k2⟩)
        · exact .inl (.inr k)
        · exact .inl (.inl rfl)
        · exact .inr ⟨k1, k2⟩
    · rw [if_neg (by rw [h.len]; exact hx)]
      refine (ih h).congr (fun v => ?_)
      rw [Finset.mem_union, Finset.mem_union, mem_votersWith, mem_votersWith, List.mem_cons]
      constructor
      · rintro (k | ⟨k1, k2⟩)
        · exact .inl k
        · exact .inr ⟨k1, .inr k2⟩
      · rintro (k | ⟨k1, rfl | k2⟩)
        · exact .inl k
        · exact absurd k1 hx
        · exact .inr ⟨k1, k2⟩

theorem mem_indices {bits : Bits} {v : Nat} : v ∈ validatorIndices bits ↔ bits[v]? = some true := by
  unfold validatorIndices
  rw [List.mem_filter, List.mem_range, beq_iff_eq]
  constructor
  · exact fun h => h.2
  · exact fun h => ⟨(List.getElem?_eq_some_iff.1 h).1, h⟩

theorem covers_add {n cc : Nat} {S : Finset Nat} {c : Cov} (hcc : 0 < cc) (h : Covers n cc S c)
    (bits : Bits) :
    Covers n cc (S ∪ votersWith n (fun v => bits[v]? = some true)) (covAdd c bits) := by
  unfold covAdd
  rw [if_neg (by rw [h.slen]; omega)]
  refine (covers_list hcc _ h).congr (fun v => ?_)
  rw [Finset.mem_union, Finset.mem_union, mem_votersWith, mem_votersWith, mem_indices]

theorem covers_fold {n cc : Nat} (hcc : 0 < cc) (round : Nat) (l : List (Nat × Bits)) :
    ∀ {S : Finset Nat} {c : Cov}, Covers n cc S c →
      Covers n cc (S ∪ votersWith n (fun v => ∃ e ∈ l, e.1 = round ∧ e.2[v]? = some true))
        (l.foldl (fun c e => if e.1 = round then covAdd c e.2 else c) c) := by
  induction l with
  | nil =>
    intro S c h
    refine h.congr (fun v => ?_)
    rw [Finset.mem_union, mem_votersWith]
    simp
  | cons x l ih =>
    intro S c h
    rw [List.foldl_cons]
    by_cases hx : x.1 = round
    · rw [if_pos hx]
      refine (ih (covers_add hcc h x.2)).congr (fun v => ?_)
      simp only [Finset.mem_union, mem_votersWith, List.exists_mem_cons_iff]
      tauto
    · rw [if_neg hx]
      refine (ih h).congr (fun v => ?_)
      simp only [Finset.mem_union, mem_votersWith, List.exists_mem_cons_iff]
      tauto

theorem covers_of {n cc : Nat} (hcc : 0 < cc) (round : Nat) (l : List (Nat × Bits)) :
    Covers n cc (votersWith n (fun v => ∃ e ∈ l, e.1 = round ∧ e.2[v]? = some true))
      (covOf n cc round l) :=
  (covers_fold hcc round l (covers_zero n cc)).congr (fun v => by
    rw [Finset.mem_union]
    simp)

theorem covers_all {α : Type} {n cc : Nat} (hcc : 0 < cc) (f : α → Bits) (l : List α) :
    ∀ {S : Finset Nat} {c : Cov}, Covers n cc S c →
      Covers n cc (S ∪ votersWith n (fun v => ∃ e ∈ l, (f e)[v]? = some true))
        (l.foldl (fun c e => covAdd c (f e)) c) := by
  induction l with
  | nil =>
    intro S c h
    refine h.congr (fun v => ?_)
    rw [Finset.mem_union, mem_votersWith]
    simp
  | cons x l ih =>
    intro S c h
    rw [List.foldl_cons]
    refine (ih (covers_add hcc h (f x))).congr (fun v => ?_)
    simp only [Finset.mem_union, mem_votersWith, List.exists_mem_cons_iff]
    tauto

theorem orInto_get (l m : List Bool) (h : l.length = m.length) (i : Nat) :
    (orInto l m)[i]? = some true ↔ l[i]? = some true ∨ m[i]? = some true := by
  unfold orInto
  rw [List.getElem?_zipWith]
  by_cases hi : i < l.length
  · rw [List.getElem?_eq_getElem hi, List.getElem?_eq_getElem (h ▸ hi)]
    simp
  · rw [List.getElem?_eq_none (by omega), List.getElem?_eq_none (by omega)]
    simp

theorem covers_or {n cc : Nat} {S T : Finset Nat} {c d : Cov} (h : Covers n cc S c)
    (k : Covers n cc T d) : Covers n cc (S ∪ T) (orInto c.1 d.1, orInto c.2 d.2) := by
  refine ⟨?_, ?_, fun v => ?_, fun i => ?_⟩
  · simp only [orInto, List.length_zipWith, h.len, k.len, Nat.min_self]
  · simp only [orInto, List.length_zipWith, h.slen, k.slen, Nat.min_self]
  · rw [orInto_get _ _ (h.len.trans k.len.symm), h.seen, k.seen, Finset.mem_union]
  · rw [orInto_get _ _ (h.slen.trans k.slen.symm), h.has, k.has]
    simp only [Finset.mem_union]
    constructor
    · rintro (⟨v, a, b⟩ | ⟨v, a, b⟩)
      · exact ⟨v, .inl a, b⟩
      · exact ⟨v, .inr a, b⟩
    · rintro ⟨v, a | a, b⟩
      · exact .inl ⟨v, a, b⟩
      · exact .inr ⟨v, a, b⟩

theorem get_append_one (l : List Bool) (b : Bool) (v : Nat) :
    (l ++ [b])[v]? = some true ↔ l[v]? = some true ∨ v = l.length ∧ b = true := by
  rw [List.getElem?_append]
  by_cases h : v < l.length
  · rw [if_pos h]
    constructor
    · exact .inl
    · rintro (k | ⟨rfl, -⟩)
      · exact k
      · omega
  · rw [if_neg h, List.getElem?_eq_none (l := l) (by omega)]
    by_cases e : v = l.length
    · subst e; simp
    · rw [List.getElem?_eq_none (by simp; omega)]
      simp [e]

/-- Counting the true entries counts the set. -/
theorem count_card (l : List Bool) : ∀ (S : Finset Nat), (∀ v : Nat, l[v]? = some true ↔ v ∈ S) →
    l.count true = S.card := by
  induction l using List.reverseRecOn with
  | nil =>
    intro S h
    rw [Finset.eq_empty_of_forall_notMem (s := S) (fun v hv => by have := (h v).2 hv; simp at this)]
    rfl
  | append_singleton l b ih =>
    intro S h
    have hl : l.length ∉ S.filter (· < l.length) := by simp
    have ih' := ih (S.filter (· < l.length)) (fun v => by
      rw [Finset.mem_filter, ← h v, get_append_one]
      constructor
      · exact fun k => ⟨.inl k, (List.getElem?_eq_some_iff.1 k).1⟩
      · rintro ⟨k | ⟨rfl, -⟩, k2⟩
        · exact k
        · omega)
    rw [List.count_append, ih']
    cases b with
    | false =>
      have : S.filter (· < l.length) = S := by
        apply Finset.filter_true_of_mem
        intro v hv
        rcases (get_append_one l false v).1 ((h v).2 hv) with k | ⟨-, k⟩
        · exact (List.getElem?_eq_some_iff.1 k).1
        · cases k
      rw [this]; rfl
    | true =>
      have : S = insert l.length (S.filter (· < l.length)) := by
        ext v
        rw [Finset.mem_insert, Finset.mem_filter, ← h v, get_append_one]
        constructor
        · rintro (k | ⟨k, -⟩)
          · exact .inr ⟨.inl k, (List.getElem?_eq_some_iff.1 k).1⟩
          · exact .inl k
        · rintro (k | ⟨k, -⟩)
          · exact .inr ⟨k, rfl⟩
          · exact k
      generalize S.filter (· < l.length) = T at *
      rw [this, Finset.card_insert_of_notMem hl]
      rfl

theorem zipIdx_append_one (l : List Bool) (b : Bool) :
    (l ++ [b]).zipIdx = l.zipIdx ++ [(b, l.length)] := by
  rw [List.zipIdx_append]
  simp

theorem counts_length (l : List (Bool × Nat)) (cc : Nat) : ∀ (m : List Nat),
    (l.foldl (fun m e => if e.1 then m.modify (e.2 % cc) (· + 1) else m) m).length = m.length := by
  induction l with
  | nil => intro m; rfl
  | cons x l ih =>
    intro m
    rw [List.foldl_cons, ih]
    split
    · rw [List.length_modify]
    · rfl

theorem subnetCounts_length (l : List Bool) (cc : Nat) : (subnetCounts l cc).length = cc := by
  unfold subnetCounts
  rw [counts_length, List.length_replicate]

/-- The count of a subnet is the number of seen validators on it. -/
theorem subnetCounts_get (cc : Nat) (l : List Bool) : ∀ (S : Finset Nat),
    (∀ v : Nat, l[v]? = some true ↔ v ∈ S) → ∀ i, i < cc →
    (subnetCounts l cc)[i]? = some (S.filter (fun v => v % cc = i)).card := by
  induction l using List.reverseRecOn with
  | nil =>
    intro S h i hi
    rw [Finset.eq_empty_of_forall_notMem (s := S) (fun v hv => by have := (h v).2 hv; simp at this)]
    simp [subnetCounts, hi]
  | append_singleton l b ih =>
    intro S h i hi
    have ih' := ih (S.filter (· < l.length)) (fun v => by
      rw [Finset.mem_filter, ← h v, get_append_one]
      constructor
      · exact fun k => ⟨.inl k, (List.getElem?_eq_some_iff.1 k).1⟩
      · rintro ⟨k | ⟨rfl, -⟩, k2⟩
        · exact k
        · omega) i hi
    have hs : subnetCounts (l ++ [b]) cc =
        if b then (subnetCounts l cc).modify (l.length % cc) (· + 1) else subnetCounts l cc := by
      unfold subnetCounts
      rw [zipIdx_append_one, List.foldl_append]
      rfl
    rw [hs]
    cases b with
    | false =>
      have : S.filter (· < l.length) = S := by
        apply Finset.filter_true_of_mem
        intro v hv
        rcases (get_append_one l false v).1 ((h v).2 hv) with k | ⟨-, k⟩
        · exact (List.getElem?_eq_some_iff.1 k).1
        · cases k
      rw [this] at ih'
      exact ih'
    | true =>
      have hS : S = insert l.length (S.filter (· < l.length)) := by
        ext v
        rw [Finset.mem_insert, Finset.mem_filter, ← h v, get_append_one]
        constructor
        · rintro (k | ⟨k, -⟩)
          · exact .inr ⟨.inl k, (List.getElem?_eq_some_iff.1 k).1⟩
          · exact .inl k
        · rintro (k | ⟨k, -⟩)
          · exact .inr ⟨k, rfl⟩
          · exact k
      generalize hT : S.filter (· < l.length) = T at *
      have hT' : l.length ∉ T := by rw [← hT]; simp
      rw [if_pos rfl, List.getElem?_modify, ih', hS, Finset.filter_insert]
      by_cases e : l.length % cc = i
      · simp only [e, if_true]
        rw [Finset.card_insert_of_notMem (fun k => hT' (Finset.mem_filter.1 k).1)]
        rfl
      · simp only [e, if_false]
        rfl

theorem put_get (g : Gauges) (k k' : Gauge) (x : Nat) :
    (g.put k x) k' = if k' = k then x else g k' := rfl

theorem putAll_get (s : Section) (l : List Nat) : ∀ (j : Nat) (g : Gauges) (k : Gauge),
    ((l.zipIdx j).foldl (fun g e => g.put (.inSubnet s e.2) e.1) g) k =
      match k with
      | .inSubnet s' i => if s' = s ∧ j ≤ i then (l[i - j]?).getD (g k) else g k
      | _ => g k := by
  induction l with
  | nil => intro j g k; cases k <;> simp
  | cons x l ih =>
    intro j g k
    rw [List.zipIdx_cons, List.foldl_cons, ih]
    cases k with
    | inSubnet s' i =>
      simp only [put_get, Gauge.inSubnet.injEq]
      by_cases hs : s' = s
      · subst hs
        by_cases h1 : i = j
        · subst h1
          simp
        · by_cases h2 : j ≤ i
          · have h3 : j + 1 ≤ i := by omega
            have h4 : i - j = (i - (j + 1)) + 1 := by omega
            simp [h1, h2, h3, h4]
          · have h3 : ¬ j + 1 ≤ i := by omega
            simp [h1, h2, h3]
      · simp [hs]
    | _ => rfl

/-- What recording a section writes. -/
theorem covRecord_spec {n cc : Nat} {S : Finset Nat} {c : Cov} (hcc : 0 < cc) (h : Covers n cc S c)
    (g : Gauges) (s : Section) (k : Gauge) :
    covRecord g s c k = match k with
      | .validators s' => if s' = s then S.card else g k
      | .inSubnet s' i => if s' = s ∧ i < cc then (S.filter (fun v => v % cc = i)).card else g k
      | .subnets s' => if s' = s then (S.image (· % cc)).card else g k
      | _ => g k := by
  have h1 := count_card c.1 S h.seen
  have h2 := count_card c.2 (S.image (· % cc)) (fun i => by
    rw [h.has i, Finset.mem_image])
  unfold covRecord
  rw [if_pos (by rw [h.slen]; exact hcc), h1, h2, h.slen, put_get, putAll_get]
  cases k with
  | validators s' => simp [put_get]
  | inSubnet s' i =>
    simp only [put_get, reduceCtorEq, if_false, Nat.zero_le, and_true, Nat.sub_zero]
    by_cases hs : s' = s
    · by_cases hi : i < cc
      · rw [if_pos hs, if_pos ⟨hs, hi⟩, subnetCounts_get cc c.1 S h.seen i hi]
        rfl
      · rw [if_pos hs, if_neg (fun k => hi k.2),
          List.getElem?_eq_none (by rw [subnetCounts_length]; omega)]
        rfl
    · rw [if_neg hs, if_neg (fun k => hs k.1)]
  | subnets s' =>
    simp only [Gauge.subnets.injEq]
    by_cases hs : s' = s
    · rw [if_pos hs, if_pos hs]
    · rw [if_neg hs, if_neg hs]
      simp [put_get]
  | blockOnly => simp [put_get]
  | timelyOnly => simp [put_get]

/-- The two differences. -/
theorem diff_spec (l m : List Bool) (hlen : l.length = m.length) (B T : Finset Nat)
    (hB : ∀ v : Nat, l[v]? = some true ↔ v ∈ B) (hT : ∀ v : Nat, m[v]? = some true ↔ v ∈ T) :
    diffCounts l m = ((B \ T).card, (T \ B).card) := by
  have key : ∀ (l : List (Bool × Bool)) (d : Nat × Nat),
      l.foldl (fun (d : Nat × Nat) e => match e with
        | (true, false) => (d.1 + 1, d.2)
        | (false, true) => (d.1, d.2 + 1)
        | _ => d) d = (d.1 + (l.map (fun e => e.1 && !e.2)).count true,
          d.2 + (l.map (fun e => e.2 && !e.1)).count true) := by
    intro l
    induction l with
    | nil => intro d; rfl
    | cons x l ih =>
      intro d
      rw [List.foldl_cons, ih]
      obtain ⟨a, b⟩ := x
      cases a <;> cases b <;> simp <;> omega
  unfold diffCounts
  refine (key _ _).trans ?_
  rw [Nat.zero_add, Nat.zero_add]
  have get (f : Bool × Bool → Bool) (v : Nat) : ((l.zip m).map f)[v]? = some true ↔
      ∃ a b, l[v]? = some a ∧ m[v]? = some b ∧ f (a, b) = true := by
    rw [List.getElem?_map, Option.map_eq_some_iff]
    constructor
    · rintro ⟨⟨a, b⟩, h, hf⟩
      obtain ⟨h1, h2⟩ := List.getElem?_zip_eq_some.1 h
      exact ⟨a, b, h1, h2, hf⟩
    · rintro ⟨a, b, h1, h2, hf⟩
      exact ⟨(a, b), List.getElem?_zip_eq_some.2 ⟨h1, h2⟩, hf⟩
  rw [count_card _ (B \ T) (fun v => ?_), count_card _ (T \ B) (fun v => ?_)]
  · rw [get, Finset.mem_sdiff, ← hB, ← hT]
    constructor
    · rintro ⟨a, b, h1, h2, hf⟩
      rw [h1, h2]
      cases a <;> cases b <;> simp_all
    · rintro ⟨h1, h2⟩
      obtain ⟨hv, -⟩ := List.getElem?_eq_some_iff.1 h1
      have hv' : v < l.length := by omega
      refine ⟨l[v], true, List.getElem?_eq_getElem hv', h1, ?_⟩
      rw [List.getElem?_eq_getElem hv'] at h2
      cases h : l[v] with
      | true => exact absurd (by rw [h]) h2
      | false => rfl
  · rw [get, Finset.mem_sdiff, ← hB, ← hT]
    constructor
    · rintro ⟨a, b, h1, h2, hf⟩
      rw [h1, h2]
      cases a <;> cases b <;> simp_all
    · rintro ⟨h1, h2⟩
      obtain ⟨hv, -⟩ := List.getElem?_eq_some_iff.1 h1
      have hv' : v < m.length := by omega
      refine ⟨true, m[v], h1, List.getElem?_eq_getElem hv', ?_⟩
      rw [List.getElem?_eq_getElem hv'] at h2
      cases h : m[v] with
      | true => exact absurd (by rw [h]) h2
      | false => rfl

end Verif.Node
