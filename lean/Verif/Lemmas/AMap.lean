import Verif.Model.AMap
import Mathlib.Data.List.Perm.Subperm
import Mathlib.Data.List.Nodup
/-!
# Lemmas about finite maps
-/
namespace Verif.AMap
variable {κ α : Type} [DecidableEq κ]

theorem get?_nil (k : κ) : AMap.get? ([] : AMap κ α) k = none := rfl

theorem get?_cons (k' : κ) (v : α) (m : AMap κ α) (k : κ) :
    AMap.get? ((k', v) :: m) k = if k' = k then some v else AMap.get? m k := rfl

theorem mem_of_get? {m : AMap κ α} {k : κ} {v : α} (h : m.get? k = some v) : (k, v) ∈ m := by
  induction m with
  | nil => cases h
  | cons e m ih =>
    obtain ⟨k', v'⟩ := e
    rw [get?_cons] at h
    split at h
    · next hk => cases h; subst hk; simp
    · exact List.mem_cons_of_mem _ (ih h)

theorem get?_eq_none_iff {m : AMap κ α} {k : κ} : m.get? k = none ↔ k ∉ m.keys := by
  induction m with
  | nil => simp [get?_nil, keys]
  | cons e m ih =>
    obtain ⟨k', v'⟩ := e
    rw [get?_cons]
    unfold keys at ih ⊢
    rw [List.map_cons, List.mem_cons]
    split
    · next hk => subst hk; simp
    · next hk => rw [ih]; grind

theorem mem_keys_iff {m : AMap κ α} {k : κ} : k ∈ m.keys ↔ ∃ v, m.get? k = some v := by
  constructor
  · intro h
    cases hg : m.get? k with
    | some v => exact ⟨v, rfl⟩
    | none => rw [get?_eq_none_iff] at hg; exact absurd h hg
  · rintro ⟨v, h⟩
    exact List.mem_map.2 ⟨(k, v), mem_of_get? h, rfl⟩

theorem get?_of_mem {m : AMap κ α} (hn : m.keys.Nodup) {k : κ} {v : α} (h : (k, v) ∈ m) :
    m.get? k = some v := by
  induction m with
  | nil => cases h
  | cons e m ih =>
    obtain ⟨k', v'⟩ := e
    unfold keys at hn ih
    rw [List.map_cons, List.nodup_cons] at hn
    rw [get?_cons]
    rcases List.mem_cons.1 h with h | h
    · cases h; simp
    · rw [if_neg]
      · exact ih hn.2 h
      · rintro rfl
        exact hn.1 (List.mem_map.2 ⟨(_, v), h, rfl⟩)

theorem mem_iff_get? {m : AMap κ α} (hn : m.keys.Nodup) {k : κ} {v : α} :
    (k, v) ∈ m ↔ m.get? k = some v := ⟨get?_of_mem hn, mem_of_get?⟩

theorem get?_insert (m : AMap κ α) (k : κ) (v : α) (k2 : κ) :
    (m.insert k v).get? k2 = if k = k2 then some v else m.get? k2 := by
  induction m with
  | nil => rfl
  | cons e m ih =>
    obtain ⟨k', v'⟩ := e
    unfold insert
    split
    · next hk => subst hk; rw [get?_cons, get?_cons]; grind
    · rw [get?_cons, get?_cons, ih]; grind

theorem get?_insert_self (m : AMap κ α) (k : κ) (v : α) : (m.insert k v).get? k = some v := by
  rw [get?_insert, if_pos rfl]

theorem mem_keys_insert {m : AMap κ α} {k : κ} {v : α} {k2 : κ} :
    k2 ∈ (m.insert k v).keys ↔ k2 = k ∨ k2 ∈ m.keys := by
  rw [mem_keys_iff, mem_keys_iff, get?_insert]
  by_cases h : k = k2
  · simp [h]
  · simp only [if_neg h]
    constructor
    · exact Or.inr
    · rintro (h' | h')
      · exact absurd h'.symm h
      · exact h'

theorem nodup_insert {m : AMap κ α} (h : m.keys.Nodup) (k : κ) (v : α) :
    (m.insert k v).keys.Nodup := by
  induction m with
  | nil => simp [insert, keys]
  | cons e m ih =>
    obtain ⟨k', v'⟩ := e
    unfold insert
    unfold keys at h
    rw [List.map_cons, List.nodup_cons] at h
    split
    · next hk =>
      subst hk
      unfold keys
      rw [List.map_cons, List.nodup_cons]; exact h
    · next hk =>
      have h3 : k' ∉ (insert m k v).keys := by
        rw [mem_keys_insert]
        rintro (h' | h')
        · exact hk h'
        · exact h.1 h'
      have h4 := ih h.2
      unfold keys at h3 h4 ⊢
      rw [List.map_cons, List.nodup_cons]
      exact ⟨h3, h4⟩

omit [DecidableEq κ] in
theorem keys_filter_sublist (m : AMap κ α) (p : κ × α → Bool) :
    (AMap.keys (m.filter p)).Sublist m.keys :=
  List.Sublist.map _ List.filter_sublist

theorem nodup_filter {m : AMap κ α} (h : m.keys.Nodup) (p : κ × α → Bool) :
    (AMap.keys (m.filter p)).Nodup :=
  List.Nodup.sublist (keys_filter_sublist m p) h

theorem nodup_erase {m : AMap κ α} (h : m.keys.Nodup) (k : κ) : (m.erase k).keys.Nodup :=
  nodup_filter h _

theorem get?_filter {m : AMap κ α} (h : m.keys.Nodup) (p : κ × α → Bool) (k : κ) :
    AMap.get? (m.filter p) k = (m.get? k).filter (fun v => p (k, v)) := by
  cases hg : m.get? k with
  | none =>
    rw [get?_eq_none_iff] at hg
    simp only [Option.filter_none]
    rw [get?_eq_none_iff]
    intro hc
    exact hg ((keys_filter_sublist m p).subset hc)
  | some v =>
    rw [Option.filter_some]
    split
    · next hp =>
      exact get?_of_mem (nodup_filter h p) (List.mem_filter.2 ⟨mem_of_get? hg, hp⟩)
    · next hp =>
      rw [get?_eq_none_iff, mem_keys_iff]
      rintro ⟨v', hv'⟩
      have hm := List.mem_filter.1 (mem_of_get? hv')
      rw [get?_of_mem h hm.1] at hg
      cases hg
      exact hp hm.2

theorem get?_erase (m : AMap κ α) (k k2 : κ) :
    (m.erase k).get? k2 = if k = k2 then none else m.get? k2 := by
  unfold erase
  induction m with
  | nil => simp [get?_nil]
  | cons e m ih =>
    obtain ⟨k', v'⟩ := e
    rw [List.filter_cons]
    split
    · next h =>
      simp only [decide_eq_true_eq] at h
      rw [get?_cons, get?_cons, ih]
      grind
    · next h =>
      simp only [decide_eq_true_eq, not_not] at h
      rw [ih, get?_cons]
      grind

omit [DecidableEq κ] in
theorem nodup_entries {m : AMap κ α} (h : m.keys.Nodup) : m.Nodup := List.Nodup.of_map _ h

theorem get?_perm {m1 m2 : AMap κ α} (hp : List.Perm m1 m2) (h : m1.keys.Nodup) (k : κ) :
    m1.get? k = m2.get? k := by
  have h2 : m2.keys.Nodup := (hp.map Prod.fst).nodup_iff.1 h
  cases h1 : m1.get? k with
  | some v => exact (get?_of_mem h2 (hp.mem_iff.1 (mem_of_get? h1))).symm
  | none =>
    symm
    rw [get?_eq_none_iff] at h1 ⊢
    intro hm
    exact h1 ((hp.map Prod.fst).mem_iff.2 hm)

theorem perm_of_get?_eq {m1 m2 : AMap κ α} (h1 : m1.keys.Nodup) (h2 : m2.keys.Nodup)
    (h : ∀ k, m1.get? k = m2.get? k) : List.Perm m1 m2 := by
  rw [List.perm_ext_iff_of_nodup (nodup_entries h1) (nodup_entries h2)]
  rintro ⟨k, v⟩
  rw [mem_iff_get? h1, mem_iff_get? h2, h]

end Verif.AMap
