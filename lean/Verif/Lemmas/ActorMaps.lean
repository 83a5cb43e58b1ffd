import Verif.Lemmas.Discard
import Verif.Lemmas.StoreImport
/-!
# The pending maps stay consistent with the store
-/
namespace Verif.Node
open Verif Verif.Db Verif.Buffers

/-- From `x`, over stored blocks above the anchor, one or more parent links lead to `y`. -/
inductive Up (hs : AMap Root Header) (root : Root) : Root → Root → Prop
  | one {x : Root} {h : Header} : hs.get? x = some h → x ≠ root → Up hs root x h.parentRoot
  | more {x : Root} {h : Header} {y : Root} : hs.get? x = some h → x ≠ root →
      Up hs root h.parentRoot y → Up hs root x y

theorem Up.mono {hs hs' : AMap Root Header} {root x y : Root}
    (hh : ∀ r h, hs.get? r = some h → hs'.get? r = some h) (u : Up hs root x y) :
    Up hs' root x y := by
  induction u with
  | one e h => exact .one (hh _ _ e) h
  | more e h _ ih => exact .more (hh _ _ e) h ih

theorem Up.trans {hs : AMap Root Header} {root x y z : Root} (u : Up hs root x y)
    (v : Up hs root y z) : Up hs root x z := by
  induction u with
  | one e h => exact .more e h v
  | more e h _ ih => exact .more e h (ih v)

/-- The pending maps against the header table and the blocks with a state. -/
structure MInv (rank : Root → Nat) (root : Root) (db : Db) (m : Pending) (ps : AMap Root Root) :
    Prop where
  child : ∀ k r, Edge m k r → r ≠ root ∧ ∃ h, db.headers.get? r = some h ∧ h.parentRoot = k
  par : ∀ r x, ps.get? r = some x → (x ≠ root ∧ rank x < rank r) ∧ Up db.headers root r x

theorem addChild_get (m : Pending) (k r k' : Root) : (addChild m k r).get? k' =
    if k = k' then some (if r ∈ (m.get? k).getD [] then (m.get? k).getD []
      else (m.get? k).getD [] ++ [r]) else m.get? k' := by
  unfold addChild
  simp only
  rw [AMap.get?_insert]

theorem addChild_edge {m : Pending} {k r k' c : Root} :
    Edge (addChild m k r) k' c ↔ Edge m k' c ∨ (k' = k ∧ c = r) := by
  unfold Edge
  constructor
  · rintro ⟨l, h1, h2⟩
    rw [addChild_get] at h1
    split at h1
    next e =>
      subst e
      cases h1
      cases hm : m.get? k with
      | none =>
        rw [hm] at h2
        simp at h2
        exact .inr ⟨rfl, h2⟩
      | some l =>
        rw [hm] at h2
        simp only [Option.getD_some] at h2
        split at h2
        · exact .inl ⟨l, rfl, h2⟩
        · rcases List.mem_append.1 h2 with h2 | h2
          · exact .inl ⟨l, rfl, h2⟩
          · exact .inr ⟨rfl, List.mem_singleton.1 h2⟩
    · exact .inl ⟨l, h1, h2⟩
  · rintro (⟨l, h1, h2⟩ | ⟨rfl, rfl⟩)
    · by_cases e : k = k'
      · subst e
        refine ⟨_, by rw [addChild_get, if_pos rfl], ?_⟩
        rw [h1]
        simp only [Option.getD_some]
        split
        · exact h2
        · exact List.mem_append_left _ h2
      · exact ⟨l, by rw [addChild_get, if_neg e]; exact h1, h2⟩
    · refine ⟨_, by rw [addChild_get, if_pos rfl], ?_⟩
      split
      next h => exact h
      · simp

theorem waiting_insert (m : Pending) (k : Root) (l : List Root) :
    waiting (m.insert k l) + ((m.get? k).getD []).length = waiting m + l.length := by
  induction m with
  | nil => simp [AMap.insert, waiting, AMap.get?_nil]
  | cons x m ih =>
    obtain ⟨k', v⟩ := x
    unfold AMap.insert
    rw [AMap.get?_cons]
    split
    · simp [waiting]; omega
    · simp only [waiting, List.map_cons, List.sum_cons] at ih ⊢
      omega

theorem waiting_addChild (m : Pending) (k r : Root) :
    waiting (addChild m k r) ≤ waiting m + 1 := by
  have := waiting_insert m k (if r ∈ (m.get? k).getD [] then (m.get? k).getD []
    else (m.get? k).getD [] ++ [r])
  have e : addChild m k r = m.insert k (if r ∈ (m.get? k).getD [] then (m.get? k).getD []
    else (m.get? k).getD [] ++ [r]) := rfl
  rw [e]
  split at this
  next h => rw [if_pos h]; omega
  next h => rw [if_neg h]; simp only [List.length_append, List.length_singleton] at this; omega

theorem waiting_sublist {m' m : Pending} (h : List.Sublist m' m) : waiting m' ≤ waiting m := by
  induction h with
  | slnil => exact Nat.le_refl _
  | cons a _ ih => simp only [waiting, List.map_cons, List.sum_cons] at ih ⊢; omega
  | cons_cons a _ ih => simp only [waiting, List.map_cons, List.sum_cons] at ih ⊢; omega

theorem erase_of_none {m : Pending} {k : Root} (h : m.get? k = none) : m.erase k = m := by
  induction m with
  | nil => rfl
  | cons x m ih =>
    obtain ⟨k', v⟩ := x
    rw [AMap.get?_cons] at h
    split at h
    · cases h
    next e =>
      have e2 : AMap.erase ((k', v) :: m) k = (k', v) :: AMap.erase m k := by
        unfold AMap.erase; simp [e]
      rw [e2, ih h]

theorem waiting_erase {m : Pending} {k : Root} {l : List Root} (h : m.get? k = some l) :
    waiting (m.erase k) + l.length ≤ waiting m := by
  induction m with
  | nil => cases h
  | cons x m ih =>
    obtain ⟨k', v⟩ := x
    rw [AMap.get?_cons] at h
    split at h
    next e =>
      cases h
      have : List.Sublist (AMap.erase m k) m := List.filter_sublist
      have := waiting_sublist this
      have e2 : AMap.erase ((k', l) :: m) k = AMap.erase m k := by
        unfold AMap.erase; simp [e]
      rw [e2]
      simp only [waiting, List.map_cons, List.sum_cons] at this ⊢
      omega
    next e =>
      have := ih h
      have e2 : AMap.erase ((k', v) :: m) k = (k', v) :: AMap.erase m k := by
        unfold AMap.erase; simp [e]
      rw [e2]
      simp only [waiting, List.map_cons, List.sum_cons] at this ⊢
      omega

/-! ## The climb -/

theorem climb_ok {rank : Root → Nat} {root : Root} {hs : AMap Root Header} {ps : AMap Root Root}
    (hp : ∀ r x, ps.get? r = some x → (x ≠ root ∧ rank x < rank r) ∧ Up hs root r x) :
    ∀ (n : Nat) (r : Root), ps.countP (fun e => decide (rank e.1 ≤ rank r)) < n → r ≠ root →
      ∃ x, climb ps n r = .ok x ∧ x ≠ root ∧ rank x ≤ rank r ∧ (x = r ∨ Up hs root r x) := by
  intro n
  induction n with
  | zero => intro r h; omega
  | succ n ih =>
    intro r h hr
    unfold climb
    cases e : ps.get? r with
    | none => exact ⟨r, rfl, hr, Nat.le_refl _, .inl rfl⟩
    | some a =>
      obtain ⟨⟨h1, h2⟩, h3⟩ := hp r a e
      have : ps.countP (fun e => decide (rank e.1 ≤ rank a)) <
          ps.countP (fun e => decide (rank e.1 ≤ rank r)) := by
        refine countP_lt (fun x _ hx => ?_) (AMap.mem_of_get? e) ?_ ?_
        · simp only [decide_eq_true_eq] at hx ⊢; omega
        · simp
        · simpa using h2
      obtain ⟨x, e1, e2, e3, e4⟩ := ih a (by omega) h1
      refine ⟨x, e1, e2, by omega, .inr ?_⟩
      rcases e4 with rfl | e4
      · exact h3
      · exact h3.trans e4

/-! ## The walk over stored blocks -/

theorem walkUp_ok {rank : Root → Nat} {root : Root} {db : Db}
    (hr : ∀ r h, db.headers.get? r = some h → rank h.parentRoot < rank r)
    (hroot : hasState db root = true) :
    ∀ (n : Nat) (r : Root) (m : Pending) (ps : AMap Root Root), below rank db.headers r < n →
      r ≠ root → MInv rank root db m ps →
      ∃ e m' ps', walkUp db n r m ps = .ok (e, m', ps') ∧ MInv rank root db m' ps' ∧
        (∀ k c, Edge m k c → Edge m' k c) ∧ waiting m' ≤ waiting m + n ∧
        (∀ x, e = .enqueue x → x ≠ root ∧ (x = r ∨ Up db.headers root r x) ∧
          ∃ h, db.headers.get? x = some h ∧ hasState db h.parentRoot = true) ∧
        ∀ x, e = .fetch x → (x = r ∨ Up db.headers root r x) ∧ db.headers.get? x = none := by
  intro n
  induction n with
  | zero => intro r m ps h; omega
  | succ n ih =>
    intro r m ps h hne I
    unfold walkUp
    cases e : db.headers.get? r with
    | none =>
      refine ⟨_, m, ps, rfl, I, fun _ _ h => h, by omega, fun x h => (by cases h), fun x h => ?_⟩
      cases h
      exact ⟨.inl rfl, e⟩
    | some hd =>
      simp only
      by_cases hs : hasState db hd.parentRoot = true
      · rw [if_pos hs]
        refine ⟨_, m, ps, rfl, I, fun _ _ h => h, by omega, fun x h => ?_, fun x h => by cases h⟩
        cases h
        exact ⟨hne, .inl rfl, hd, e, hs⟩
      · rw [if_neg hs]
        have hpr : hd.parentRoot ≠ root := fun h => hs (by rw [h]; exact hroot)
        have I' : MInv rank root db (addChild m hd.parentRoot r) (ps.insert r hd.parentRoot) := by
          refine ⟨?_, ?_⟩
          · intro k x hx
            rcases addChild_edge.1 hx with hx | ⟨rfl, rfl⟩
            · exact I.child k x hx
            · exact ⟨hne, hd, e, rfl⟩
          · intro x y hxy
            rw [AMap.get?_insert] at hxy
            split at hxy
            next hh => cases hxy; rw [← hh]; exact ⟨⟨hpr, hr r hd e⟩, .one e hne⟩
            · exact I.par x y hxy
        have hb := below_parent hr e
        obtain ⟨w, m', ps', e1, e2, e3, e4, e5, e6⟩ := ih hd.parentRoot _ _ (by omega) hpr I'
        have := waiting_addChild m hd.parentRoot r
        have up : ∀ x, (x = hd.parentRoot ∨ Up db.headers root hd.parentRoot x) →
            Up db.headers root r x := by
          rintro x (rfl | h)
          · exact .one e hne
          · exact .more e hne h
        refine ⟨w, m', ps', e1, e2, fun k c h => e3 k c (addChild_edge.2 (.inl h)), by omega, ?_, ?_⟩
        · intro x hx
          obtain ⟨f1, f2, f3⟩ := e5 x hx
          exact ⟨f1, .inr (up x f2), f3⟩
        · intro x hx
          obtain ⟨f1, f2⟩ := e6 x hx
          exact ⟨.inr (up x f1), f2⟩

/-! ## Loading children -/

theorem loadChildren_fst (H : Hash) (db : Db) (rs : List Root) : ∀ ps : AMap Root Root,
    (loadChildren H db rs ps).1 = rs.filterMap (getSignedBlock H db) := by
  induction rs with
  | nil => intro ps; rfl
  | cons r rs ih =>
    intro ps
    unfold loadChildren
    simp only [List.filterMap_cons]
    have := ih (ps.erase r)
    cases h : loadChildren H db rs (ps.erase r) with
    | mk bs ps' =>
      rw [h] at this
      simp only at this ⊢
      cases getSignedBlock H db r <;> simp [this]

theorem loadChildren_snd (H : Hash) (db : Db) (rs : List Root) : ∀ (ps : AMap Root Root) (x y : Root),
    (loadChildren H db rs ps).2.get? x = some y → ps.get? x = some y := by
  induction rs with
  | nil => intro ps x y h; exact h
  | cons r rs ih =>
    intro ps x y h
    have h' : (loadChildren H db rs (ps.erase r)).2.get? x = some y := by
      unfold loadChildren at h
      cases e : loadChildren H db rs (ps.erase r) with
      | mk bs ps' =>
        rw [e] at h
        simp only at h
        cases e2 : getSignedBlock H db r <;> rw [e2] at h <;> exact h
    have := ih _ x y h'
    rw [AMap.get?_erase] at this
    split at this
    · cases this
    · exact this

theorem Removed.par_sub {m : Pending} {ps : AMap Root Root} {L E : List Root} {m' : Pending}
    {ps' : AMap Root Root} (R : Removed m ps L E m' ps') {x y : Root} (h : ps'.get? x = some y) :
    ps.get? x = some y := by
  by_cases hx : x ∈ E ∨ ∃ k, m'.get? k = none ∧ Edge m k x
  · rw [R.par x hx] at h; cases h
  · simp only [not_or, not_exists, not_and] at hx
    rw [← R.parKeep x hx.1 hx.2]; exact h

end Verif.Node
