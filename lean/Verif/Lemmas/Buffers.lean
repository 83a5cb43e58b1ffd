import Verif.Model.Buffers
import Verif.Lemmas.AMap
import Verif.Lemmas.Bits
import Mathlib.Data.List.Induction
/-!
# Lemmas about the FIFO buffers
-/
namespace Verif.Buffers
open Verif

variable {E : Type}

/-- Sum of the entry sizes. -/
def sizeSum (size : E → Nat) (m : AMap Root E) : Nat := (m.map (fun e => size e.2)).sum

/-- Structural invariant of a buffer; `ok` is a per-entry condition. -/
structure FInv (size : E → Nat) (ok : Root → E → Prop) (b : Fifo E) : Prop where
  keys : b.data.keys.Nodup
  orderNodup : b.order.Nodup
  order : ∀ r, r ∈ b.order ↔ r ∈ b.data.keys
  total : b.total = sizeSum size b.data
  ok : ∀ r e, b.data.get? r = some e → ok r e

theorem sizeSum_erase (size : E → Nat) {m : AMap Root E} (hn : m.keys.Nodup) {r : Root} {e : E}
    (hg : m.get? r = some e) : sizeSum size (m.erase r) + size e = sizeSum size m := by
  induction m with
  | nil => cases hg
  | cons x m ih =>
    obtain ⟨k, v⟩ := x
    simp only [AMap.keys, List.map_cons, List.nodup_cons] at hn
    rw [AMap.get?_cons] at hg
    by_cases hk : k = r
    · subst hk
      rw [if_pos rfl] at hg; cases hg
      have : AMap.erase ((k, e) :: m) k = m := by
        unfold AMap.erase
        rw [List.filter_cons_of_neg (by simp), List.filter_eq_self]
        intro y hy
        have : y.1 ≠ k := fun h => hn.1 (List.mem_map.2 ⟨y, hy, h⟩)
        simpa using this
      rw [this]
      simp [sizeSum, Nat.add_comm]
    · rw [if_neg hk] at hg
      have h1 := ih hn.2 hg
      have : AMap.erase ((k, v) :: m) r = (k, v) :: AMap.erase m r := by
        unfold AMap.erase
        rw [List.filter_cons_of_pos (by simpa using hk)]
      rw [this]
      simp only [sizeSum, List.map_cons, List.sum_cons] at *
      omega

theorem sizeSum_insert_new (size : E → Nat) {m : AMap Root E} {r : Root} (e : E)
    (hg : m.get? r = none) : sizeSum size (m.insert r e) = sizeSum size m + size e := by
  induction m with
  | nil => simp [AMap.insert, sizeSum]
  | cons x m ih =>
    obtain ⟨k, v⟩ := x
    rw [AMap.get?_cons] at hg
    by_cases hk : k = r
    · rw [if_pos hk] at hg; cases hg
    · rw [if_neg hk] at hg
      have := ih hg
      simp only [AMap.insert, if_neg hk, sizeSum, List.map_cons, List.sum_cons] at *
      omega

theorem sizeSum_insert_old (size : E → Nat) {m : AMap Root E} {r : Root} {e0 : E} (e : E)
    (hg : m.get? r = some e0) :
    sizeSum size (m.insert r e) + size e0 = sizeSum size m + size e := by
  induction m with
  | nil => cases hg
  | cons x m ih =>
    obtain ⟨k, v⟩ := x
    rw [AMap.get?_cons] at hg
    by_cases hk : k = r
    · rw [if_pos hk] at hg; cases hg
      simp only [AMap.insert, if_pos hk, sizeSum, List.map_cons, List.sum_cons] at *
      omega
    · rw [if_neg hk] at hg
      have := ih hg
      simp only [AMap.insert, if_neg hk, sizeSum, List.map_cons, List.sum_cons] at *
      omega

theorem size_le_sum (size : E → Nat) {m : AMap Root E} {r : Root} {e : E}
    (hg : m.get? r = some e) : size e ≤ sizeSum size m := by
  have hm := AMap.mem_of_get? hg
  unfold sizeSum
  induction m with
  | nil => cases hm
  | cons x m ih =>
    rw [List.map_cons, List.sum_cons]
    rcases List.mem_cons.1 hm with h | h
    · rw [← h]; simp
    · rw [AMap.get?_cons] at hg
      split at hg
      · cases hg; simp
      · have := ih hg h; omega

/-! ### Eviction -/

theorem evict_spec (size : E → Nat) (ok : Root → E → Prop) (b : Fifo E)
    (h : FInv size ok b) :
    ∃ b', Fifo.evict size b = some b' ∧ FInv size ok b' ∧ b'.total ≤ b'.capacity ∧
      b'.capacity = b.capacity ∧
      (∃ gone, b.order = gone ++ b'.order ∧ (gone = [] → b' = b) ∧
        (∀ g x, gone = g ++ [x] → ∃ e, b.data.get? x = some e ∧
          b.capacity < b'.total + size e)) ∧
      (∀ r ∈ b'.order, b'.data.get? r = b.data.get? r) := by
  obtain ⟨data, order, cap, total⟩ := b
  unfold Fifo.evict
  simp only
  induction order generalizing data total with
  | nil =>
    refine ⟨⟨data, [], cap, total⟩, rfl, h, ?_, rfl, ⟨[], rfl, fun _ => rfl, by simp⟩, by simp⟩
    have hk : data = [] := by
      cases data with
      | nil => rfl
      | cons x m => exact absurd ((h.order x.1).2 (by simp [AMap.keys])) List.not_mem_nil
    have := h.total
    simp only [hk, sizeSum, List.map_nil, List.sum_nil] at this
    simp only; omega
  | cons r rest ih =>
    unfold Buffers.evict
    by_cases hc : total > cap
    · rw [if_pos hc]
      obtain ⟨e, he⟩ := AMap.mem_keys_iff.1 ((h.order r).1 (by simp))
      simp only at he
      have ht := h.total
      simp only at ht
      have hle := size_le_sum size he
      have hsum := sizeSum_erase size h.keys he
      simp only at hsum
      have hnd : r ∉ rest ∧ rest.Nodup := by simpa using h.orderNodup
      have hinv : FInv size ok ⟨data.erase r, rest, cap, total - size e⟩ := by
        refine ⟨AMap.nodup_erase h.keys r, hnd.2, ?_, ?_, ?_⟩
        · intro x
          simp only [AMap.mem_keys_iff, AMap.get?_erase]
          have hx := h.order x
          simp only [List.mem_cons, AMap.mem_keys_iff] at hx
          by_cases hxr : r = x
          · subst hxr; simp [hnd.1]
          · simp only [if_neg hxr, ← hx]
            exact ⟨Or.inr, fun h => h.resolve_left (fun hc => hxr hc.symm)⟩
        · simp only; omega
        · intro x y hxy
          simp only [AMap.get?_erase] at hxy
          split at hxy
          · cases hxy
          · exact h.ok x y hxy
      obtain ⟨b', h1, h2, h3, h4, ⟨gone, h5, h5n, h5'⟩, h6⟩ := ih (data.erase r) (total - size e) hinv
      simp only [he, sub?, if_pos (show size e ≤ total by omega), Option.bind_some]
      refine ⟨b', h1, h2, h3, h4, ⟨r :: gone, by rw [h5]; rfl, by simp, ?_⟩, ?_⟩
      · intro g x hg
        cases gone with
        | nil =>
          cases g with
          | nil =>
            simp only [List.nil_append, List.cons.injEq, and_true] at hg
            subst hg
            refine ⟨e, he, ?_⟩
            simp only [List.nil_append] at h5
            have := h5n rfl
            rw [this]; simp only; omega
          | cons a g => simp at hg
        | cons a gone' =>
          cases g with
          | nil => simp at hg
          | cons a' g =>
            simp only [List.cons_append, List.cons.injEq] at hg
            obtain ⟨e', he', hlt⟩ := h5' g x hg.2
            simp only [AMap.get?_erase] at he'
            split at he'
            · cases he'
            · exact ⟨e', he', hlt⟩
      · intro x hx
        rw [h6 x hx]
        simp only [AMap.get?_erase]
        rw [if_neg]
        rintro rfl
        exact hnd.1 (by have : r ∈ gone ++ b'.order := List.mem_append_right _ hx
                        rw [← h5] at this; exact this)
    · rw [if_neg hc]
      exact ⟨⟨data, r :: rest, cap, total⟩, rfl, h, by simp only; omega, rfl,
        ⟨[], rfl, fun _ => rfl, by simp⟩, fun _ _ => rfl⟩

theorem evict_id (size : E → Nat) (b : Fifo E) (h : b.total ≤ b.capacity) :
    Fifo.evict size b = some b := by
  obtain ⟨data, order, cap, total⟩ := b
  unfold Fifo.evict
  simp only at *
  cases order with
  | nil => rfl
  | cons r rest => unfold Buffers.evict; rw [if_neg (by omega)]; rfl

/-! ### Prune -/

theorem retain_spec (size : E → Nat) (keep : E → Bool) (m : AMap Root E) (t c : Nat)
    (ht : t = sizeSum size m + c) :
    retain size keep m t = some (m.filter (fun e => keep e.2),
      sizeSum size (m.filter (fun e => keep e.2)) + c) := by
  induction m generalizing t c with
  | nil => subst ht; simp [retain, sizeSum]
  | cons x m ih =>
    obtain ⟨r, e⟩ := x
    unfold retain
    simp only [sizeSum, List.map_cons, List.sum_cons] at ht
    cases hk : keep e
    · simp only [Bool.false_eq_true, if_false]
      rw [sub?, if_pos (by omega), Option.bind_some, ih (t - size e) c (by simp only [sizeSum]; omega),
        List.filter_cons_of_neg (by simp [hk])]
    · simp only [if_true]
      rw [ih t (size e + c) (by simp only [sizeSum]; omega), List.filter_cons_of_pos (by simp [hk])]
      simp only [Option.map_some, sizeSum, List.map_cons, List.sum_cons]
      congr 2
      omega

theorem prune_spec (size : E → Nat) (ok : Root → E → Prop) (keep : E → Bool) (b : Fifo E)
    (h : FInv size ok b) :
    ∃ b' n, Fifo.prune size keep b = some (b', n) ∧ FInv size ok b' ∧ b'.total ≤ b.total ∧
      b'.capacity = b.capacity ∧ b'.order.Sublist b.order ∧
      (∀ r, b'.data.get? r = (b.data.get? r).filter keep) ∧
      n + b'.data.length = b.data.length := by
  have hr := retain_spec size keep b.data b.total 0 (by have := h.total; omega)
  have hget : ∀ r, AMap.get? (b.data.filter (fun e => keep e.2)) r = (b.data.get? r).filter keep := by
    intro r
    rw [AMap.get?_filter h.keys]
  have hle : (b.data.filter (fun e => keep e.2)).length ≤ b.data.length := List.length_filter_le _ _
  have hsum : sizeSum size (b.data.filter (fun e => keep e.2)) ≤ sizeSum size b.data := by
    generalize b.data = m
    induction m with
    | nil => exact Nat.le_refl _
    | cons x m ih =>
      rw [List.filter_cons]
      simp only [sizeSum, List.map_cons, List.sum_cons] at *
      split
      · rw [List.map_cons, List.sum_cons]; omega
      · omega
  unfold Fifo.prune
  rw [hr]
  refine ⟨_, _, rfl, ?_, ?_, rfl, ?_, ?_, ?_⟩
  · refine ⟨AMap.nodup_filter h.keys _, ?_, ?_, by simp, ?_⟩
    · simp only
      split
      · exact List.Nodup.filter _ h.orderNodup
      · exact h.orderNodup
    · intro r
      simp only
      split
      · rw [List.mem_filter, h.order, AMap.has, Option.isSome_iff_exists, AMap.mem_keys_iff,
          AMap.mem_keys_iff]
        constructor
        · rintro ⟨-, h⟩; exact h
        · rintro ⟨e, he⟩
          refine ⟨?_, e, he⟩
          rw [hget] at he
          cases hb : b.data.get? r with
          | none => rw [hb] at he; cases he
          | some x => exact ⟨x, rfl⟩
      · next hz =>
        have : b.data.filter (fun e => keep e.2) = b.data :=
          List.filter_sublist.eq_of_length (by omega)
        rw [this]; exact h.order r
    · intro r e he
      simp only [hget] at he
      cases hb : b.data.get? r with
      | none => rw [hb] at he; cases he
      | some x =>
        rw [hb] at he
        simp only [Option.filter] at he
        split at he
        · cases he; exact h.ok r _ hb
        · cases he
  · simp only [Nat.add_zero]; rw [h.total]; exact hsum
  · simp only
    split
    · exact List.filter_sublist
    · exact List.Sublist.refl _
  · intro r; exact hget r
  · simp only; omega

/-! ### Payload push -/

/-- Participants covered by a list of proofs. -/
def Covered (ps : List Agg) (v : Nat) : Prop := ∃ p ∈ ps, p.participants[v]? = some true

/-- No proof's participants are contained in another's. -/
def Antichain (ps : List Agg) : Prop :=
  ps.Pairwise (fun p q => bitsIsSubset p.participants q.participants = false ∧
    bitsIsSubset q.participants p.participants = false)

/-- Per-entry condition of the payload buffer. -/
def POk (H : Hash) (r : Root) (e : PEntry) : Prop :=
  H.attData e.data = r ∧ e.proofs ≠ [] ∧ Antichain e.proofs

abbrev PInv (H : Hash) (b : PayloadBuffer) : Prop := FInv PEntry.size (POk H) b

/-- Indices of marked elements, from offset `i`. -/
def marks (q : Agg → Bool) : List Agg → Nat → List Nat
  | [], _ => []
  | p :: ps, i => if q p then i :: marks q ps (i + 1) else marks q ps (i + 1)

theorem scan_none {proof : Agg} {ps : List Agg} {i : Nat} (h : scan proof ps i = none) :
    ∃ p ∈ ps, bitsIsSubset proof.participants p.participants = true := by
  induction ps generalizing i with
  | nil => cases h
  | cons p ps ih =>
    unfold scan at h
    split at h
    · next hs => exact ⟨p, by simp, hs⟩
    · rw [Option.map_eq_none_iff] at h
      obtain ⟨q, hq, hs⟩ := ih h
      exact ⟨q, List.mem_cons_of_mem _ hq, hs⟩

theorem scan_some {proof : Agg} {ps : List Agg} {i : Nat} {l : List Nat}
    (h : scan proof ps i = some l) :
    (∀ p ∈ ps, bitsIsSubset proof.participants p.participants = false) ∧
    l = marks (fun p => bitsIsSubset p.participants proof.participants) ps i := by
  induction ps generalizing i l with
  | nil => cases h; simp [marks]
  | cons p ps ih =>
    unfold scan at h
    split at h
    · cases h
    · next hs =>
      cases hr : scan proof ps (i + 1) with
      | none => rw [hr] at h; cases h
      | some l' =>
        rw [hr] at h
        obtain ⟨h1, h2⟩ := ih hr
        simp only [Option.map_some, Option.some.injEq] at h
        refine ⟨?_, ?_⟩
        · intro q hq
          rcases List.mem_cons.1 hq with rfl | hq
          · simpa using hs
          · exact h1 q hq
        · rw [← h, h2, marks]

theorem marks_append (q : Agg → Bool) (A B : List Agg) (i : Nat) :
    marks q (A ++ B) i = marks q A i ++ marks q B (i + A.length) := by
  induction A generalizing i with
  | nil => simp [marks]
  | cons a A ih =>
    simp only [List.cons_append, marks, ih, List.length_cons]
    rw [show i + 1 + A.length = i + (A.length + 1) by omega]
    split <;> rfl

theorem swapRemove_mid {α : Type} (A B : List α) (a : α) :
    ∃ B', swapRemove (A ++ a :: B) A.length = A ++ B' ∧ B'.Perm B := by
  unfold swapRemove
  rcases List.eq_nil_or_concat B with rfl | ⟨C, x, rfl⟩
  · refine ⟨[], ?_, .refl _⟩
    simp
  · refine ⟨x :: C, ?_, ?_⟩
    · rw [List.concat_eq_append, show A ++ a :: (C ++ [x]) = (A ++ a :: C) ++ [x] by simp,
        List.getLast?_append]
      simp only [List.getLast?_singleton, Option.some_or]
      rw [show (A ++ a :: C) ++ [x] = A ++ (a :: (C ++ [x])) by simp,
        List.set_append_right _ _ (Nat.le_refl _)]
      rw [Nat.sub_self, List.set_cons_zero, List.dropLast_append_cons]
      congr 1
      rw [show x :: (C ++ [x]) = (x :: C) ++ [x] by rfl, List.dropLast_concat]
    · rw [List.concat_eq_append]
      exact (List.perm_append_singleton x C).symm

theorem removeAll_spec (q : Agg → Bool) (A : List Agg) : ∀ (B : List Agg) (t : Nat),
    A.length ≤ t → ∃ ps,
      removeAll (marks q A 0).reverse (A ++ B) t = some (ps, t - A.countP q) ∧
      ps.Perm (A.filter (fun p => !q p) ++ B) := by
  induction A using List.reverseRecOn with
  | nil => intro B t _; exact ⟨B, by simp [marks, removeAll], by simp⟩
  | append_singleton A a ih =>
    intro B t ht
    rw [List.length_append, List.length_singleton] at ht
    rw [marks_append, Nat.zero_add, List.reverse_append, List.countP_append, List.append_assoc,
      List.singleton_append]
    cases hq : q a
    · simp only [marks, hq, Bool.false_eq_true, if_false, List.reverse_nil, List.nil_append]
      obtain ⟨ps, h1, h2⟩ := ih (a :: B) t (by omega)
      refine ⟨ps, by simpa [hq] using h1, ?_⟩
      rw [List.filter_append]
      simpa [hq] using h2
    · simp only [marks, hq, if_true, List.reverse_singleton, List.singleton_append]
      unfold removeAll
      rw [sub?, if_pos (by omega), Option.bind_some]
      obtain ⟨B', hs, hp⟩ := swapRemove_mid A B a
      rw [hs]
      obtain ⟨ps, h1, h2⟩ := ih B' (t - 1) (by omega)
      refine ⟨ps, ?_, ?_⟩
      · rw [h1]
        simp only [List.countP_singleton, hq, if_true]
        rw [show t - 1 - List.countP q A = t - (List.countP q A + 1) by omega]
      · rw [List.filter_append]
        simp only [hq, Bool.not_true, Bool.false_eq_true, not_false_eq_true,
          List.filter_cons_of_neg, List.filter_nil, List.append_nil]
        exact h2.trans (hp.append_left _)

/-- What one push does. -/
theorem push_spec (H : Hash) (b : PayloadBuffer) (d : AttData) (proof : Agg)
    (h : PInv H b) (hb : b.total ≤ b.capacity) :
    ∃ b', b.push H d proof = some b' ∧ PInv H b' ∧ b'.total ≤ b'.capacity ∧
      b'.capacity = b.capacity ∧
      (∃ gone, (if H.attData d ∈ b.order then b.order else b.order ++ [H.attData d]) =
        gone ++ b'.order ∧ (b.total < b.capacity → gone = [])) ∧
      (∀ r ∈ b'.order, r ≠ H.attData d → b'.data.get? r = b.data.get? r) ∧
      (H.attData d ∈ b'.order → ∃ e', b'.data.get? (H.attData d) = some e' ∧
        ∀ v, Covered e'.proofs v ↔
          (∃ e, b.data.get? (H.attData d) = some e ∧ Covered e.proofs v) ∨
          proof.participants[v]? = some true) := by
  unfold PayloadBuffer.push
  simp only
  cases hg : b.data.get? (H.attData d) with
  | some entry =>
    have hin : H.attData d ∈ b.order := (h.order _).2 (AMap.mem_keys_iff.2 ⟨_, hg⟩)
    obtain ⟨ok1, ok2, ok3⟩ := h.ok _ _ hg
    simp only [if_pos hin]
    cases hs : scan proof entry.proofs 0 with
    | none =>
      refine ⟨b, rfl, h, hb, rfl, ⟨[], rfl, fun _ => rfl⟩, fun _ _ _ => rfl, ?_⟩
      intro _
      refine ⟨entry, hg, ?_⟩
      intro v
      constructor
      · intro hc; exact Or.inl ⟨entry, rfl, hc⟩
      · rintro (⟨e, he, hc⟩ | hv)
        · cases he; exact hc
        · obtain ⟨p, hp, hsub⟩ := scan_none hs
          exact ⟨p, hp, (bitsIsSubset_iff _ _).1 hsub v hv⟩
    | some idx =>
      obtain ⟨hnot, rfl⟩ := scan_some hs
      have hsz := size_le_sum PEntry.size hg
      have htot := h.total
      obtain ⟨ps, hrem, hperm⟩ := removeAll_spec
        (fun p => bitsIsSubset p.participants proof.participants) entry.proofs [] b.total
        (by have : entry.proofs.length = PEntry.size entry := rfl
            omega)
      rw [List.append_nil] at hrem hperm
      simp only [hrem, Option.bind_some]
      have hcount : List.countP (fun p => bitsIsSubset p.participants proof.participants)
          entry.proofs + ps.length = entry.proofs.length := by
        rw [hperm.length_eq, ← List.countP_eq_length_filter]
        have := List.length_eq_countP_add_countP
          (fun p : Agg => bitsIsSubset p.participants proof.participants) (l := entry.proofs)
        simp only [Bool.not_eq_true, Bool.decide_eq_false] at this
        omega
      have hmem : ∀ p, p ∈ ps ↔ p ∈ entry.proofs ∧
          bitsIsSubset p.participants proof.participants = false := by
        intro p; rw [hperm.mem_iff, List.mem_filter]; simp
      have hinv : PInv H { b with
          data := b.data.insert (H.attData d) { entry with proofs := ps ++ [proof] },
          total := b.total - List.countP
            (fun p => bitsIsSubset p.participants proof.participants) entry.proofs + 1 } := by
        refine ⟨AMap.nodup_insert h.keys _ _, h.orderNodup, ?_, ?_, ?_⟩
        · intro r
          simp only [AMap.mem_keys_insert]
          rw [h.order]
          constructor
          · exact Or.inr
          · rintro (rfl | h2)
            · exact (h.order _).1 hin
            · exact h2
        · have := sizeSum_insert_old PEntry.size { entry with proofs := ps ++ [proof] } hg
          simp only [PEntry.size, List.length_append, List.length_singleton] at this hsz ⊢
          have htot' : b.total = sizeSum (fun e : PEntry => e.proofs.length) b.data := htot
          change _ = sizeSum (fun e : PEntry => e.proofs.length) _
          change sizeSum (fun e : PEntry => e.proofs.length) _ + _ = _ at this
          omega
        · intro r e he
          simp only [AMap.get?_insert] at he
          split at he
          · next hr =>
            cases he
            subst hr
            refine ⟨ok1, by simp, ?_⟩
            unfold Antichain
            rw [List.pairwise_append]
            refine ⟨?_, List.pairwise_singleton _ _, ?_⟩
            · refine (hperm.pairwise_iff ?_).2 (ok3.filter _)
              intro x y hxy; exact ⟨hxy.2, hxy.1⟩
            · intro p hp q hq
              simp only [List.mem_singleton] at hq
              subst hq
              exact ⟨((hmem p).1 hp).2, hnot p ((hmem p).1 hp).1⟩
          · exact h.ok r e he
      obtain ⟨b', h1, h2, h3, h4, ⟨gone, h5, -, -⟩, h6⟩ := evict_spec PEntry.size (POk H) _ hinv
      refine ⟨b', h1, h2, h3, h4, ⟨gone, h5, ?_⟩, ?_, ?_⟩
      · intro hlt
        rw [evict_id _ _ (by simp only; omega)] at h1
        cases h1
        simpa using h5
      · intro r hr hne
        rw [h6 r hr]
        simp only [AMap.get?_insert]
        rw [if_neg (fun h => hne h.symm)]
      · intro hin'
        rw [h6 _ hin']
        refine ⟨_, AMap.get?_insert_self _ _ _, ?_⟩
        intro v
        simp only [Covered, List.mem_append, List.mem_singleton]
        constructor
        · rintro ⟨p, hp | rfl, hv⟩
          · exact Or.inl ⟨entry, rfl, p, ((hmem p).1 hp).1, hv⟩
          · exact Or.inr hv
        · rintro (⟨e, he, p, hp, hv⟩ | hv)
          · cases he
            cases hsub : bitsIsSubset p.participants proof.participants
            · exact ⟨p, Or.inl ((hmem p).2 ⟨hp, hsub⟩), hv⟩
            · exact ⟨proof, Or.inr rfl, (bitsIsSubset_iff _ _).1 hsub v hv⟩
          · exact ⟨proof, Or.inr rfl, hv⟩
  | none =>
    have hin : H.attData d ∉ b.order := by
      rw [h.order]; exact AMap.get?_eq_none_iff.1 hg
    simp only [if_neg hin]
    have hinv : PInv H { b with
        data := b.data.insert (H.attData d) ⟨d, [proof]⟩,
        order := b.order ++ [H.attData d], total := b.total + 1 } := by
      refine ⟨AMap.nodup_insert h.keys _ _, ?_, ?_, ?_, ?_⟩
      · simp only
        rw [List.nodup_append]
        refine ⟨h.orderNodup, by simp, ?_⟩
        intro a ha c hc
        simp only [List.mem_singleton] at hc
        subst hc
        intro he; subst he; exact hin ha
      · intro r
        simp only [AMap.mem_keys_insert, List.mem_append, List.mem_singleton, h.order]
        exact Or.comm
      · have := sizeSum_insert_new PEntry.size ⟨d, [proof]⟩ hg
        have htot := h.total
        simp only [this, PEntry.size, List.length_singleton]
        change _ = sizeSum PEntry.size b.data + 1
        omega
      · intro r e he
        simp only [AMap.get?_insert] at he
        split at he
        · next hr =>
          cases he; subst hr
          exact ⟨rfl, by simp, List.pairwise_singleton _ _⟩
        · exact h.ok r e he
    obtain ⟨b', h1, h2, h3, h4, ⟨gone, h5, -, -⟩, h6⟩ := evict_spec PEntry.size (POk H) _ hinv
    refine ⟨b', h1, h2, h3, h4, ⟨gone, h5, ?_⟩, ?_, ?_⟩
    · intro hlt
      rw [evict_id _ _ (by simp only; omega)] at h1
      cases h1
      simpa using h5
    · intro r hr hne
      rw [h6 r hr]
      simp only [AMap.get?_insert]
      rw [if_neg (fun h => hne h.symm)]
    · intro hin'
      rw [h6 _ hin']
      refine ⟨_, AMap.get?_insert_self _ _ _, ?_⟩
      intro v
      simp [Covered]

theorem new_inv (H : Hash) (cap : Nat) : PInv H (PayloadBuffer.new cap) := by
  refine ⟨?_, ?_, ?_, rfl, ?_⟩ <;> simp [PayloadBuffer.new, AMap.keys, AMap.get?_nil]

/-! ### Drain -/

theorem drainRest_get? (order : List Root) (m : AMap Root PEntry) (r : Root) :
    (drainRest order m).get? r = if r ∈ order then none else m.get? r := by
  induction order generalizing m with
  | nil => simp [drainRest]
  | cons x order ih =>
    unfold drainRest
    rw [ih, AMap.get?_erase]
    by_cases h1 : r ∈ order
    · simp [h1]
    · by_cases h2 : x = r
      · subst h2; simp
      · have : r ≠ x := fun h => h2 h.symm
        simp [h1, h2, this]

theorem mem_drainLoop (order : List Root) (m : AMap Root PEntry) (hn : order.Nodup)
    (x : AttData × Agg) :
    x ∈ drainLoop order m ↔ ∃ r ∈ order, ∃ e, m.get? r = some e ∧ x.1 = e.data ∧ x.2 ∈ e.proofs := by
  induction order generalizing m with
  | nil => simp [drainLoop]
  | cons r order ih =>
    rw [List.nodup_cons] at hn
    unfold drainLoop
    have hrest : ∀ (m' : AMap Root PEntry), (∀ y ∈ order, m'.get? y = m.get? y) →
        ((∃ r ∈ order, ∃ e, m'.get? r = some e ∧ x.1 = e.data ∧ x.2 ∈ e.proofs) ↔
        (∃ r ∈ order, ∃ e, m.get? r = some e ∧ x.1 = e.data ∧ x.2 ∈ e.proofs)) := by
      intro m' hm
      constructor
      · rintro ⟨y, hy, e, he, h⟩; exact ⟨y, hy, e, by rw [← hm y hy]; exact he, h⟩
      · rintro ⟨y, hy, e, he, h⟩; exact ⟨y, hy, e, by rw [hm y hy]; exact he, h⟩
    cases hg : m.get? r with
    | none =>
      simp only
      rw [ih _ hn.2]
      simp [hg]
    | some e =>
      simp only [List.mem_append, List.mem_map]
      rw [ih _ hn.2, hrest]
      · constructor
        · rintro (⟨p, hp, rfl⟩ | ⟨y, hy, h⟩)
          · exact ⟨r, by simp, e, hg, rfl, hp⟩
          · exact ⟨y, List.mem_cons_of_mem _ hy, h⟩
        · rintro ⟨y, hy, e', he', h1, h2⟩
          rcases List.mem_cons.1 hy with rfl | hy
          · rw [hg] at he'; cases he'
            exact Or.inl ⟨x.2, h2, by rw [← h1]⟩
          · exact Or.inr ⟨y, hy, e', he', h1, h2⟩
      · intro y hy
        rw [AMap.get?_erase, if_neg]
        rintro rfl; exact hn.1 hy

end Verif.Buffers
