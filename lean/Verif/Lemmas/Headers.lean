import Verif.Spec.Headers
import Verif.Lemmas.StoreSteps
/-!
# Facts about ancestry
-/
namespace Verif.Node
open Verif Verif.Db

variable {hs : AMap Root Header}

theorem Back.left {r x : Root} {n : Nat} (b : Back hs r n x) : ∃ h, hs.get? r = some h := by
  cases b with
  | here e => exact ⟨_, e⟩
  | up e _ => exact ⟨_, e⟩

theorem Back.right {r x : Root} {n : Nat} (b : Back hs r n x) : ∃ h, hs.get? x = some h := by
  induction b with
  | here e => exact ⟨_, e⟩
  | up _ _ ih => exact ih

theorem Back.unique {r x y : Root} {n : Nat} (a : Back hs r n x) (b : Back hs r n y) : x = y := by
  induction a with
  | here _ => cases b with | here _ => rfl
  | up e _ ih =>
    cases b with
    | up e' b =>
      rw [e] at e'
      cases e'
      exact ih b

/-- Extending a walk by one step at its end. -/
theorem Back.snoc {r x : Root} {n : Nat} (b : Back hs r n x) {h p : Header}
    (hx : hs.get? x = some h) (hp : hs.get? h.parentRoot = some p) :
    Back hs r (n + 1) h.parentRoot := by
  induction b with
  | here e => rw [e] at hx; cases hx; exact .up e (.here hp)
  | up e _ ih => exact .up e (ih hx)

theorem Back.trans {r x y : Root} {n m : Nat} (a : Back hs r n x) (b : Back hs x m y) :
    Back hs r (n + m) y := by
  induction a with
  | here _ => rw [Nat.zero_add]; exact b
  | up e _ ih => rw [Nat.add_right_comm]; exact .up e (ih b)

theorem Back.prefix {r x : Root} {n : Nat} (b : Back hs r n x) : ∀ m, m ≤ n →
    ∃ y, Back hs r m y ∧ Back hs y (n - m) x := by
  induction b with
  | here e =>
    intro m hm
    rw [Nat.le_zero.1 hm]
    exact ⟨_, .here e, .here e⟩
  | up e b ih =>
    intro m hm
    cases m with
    | zero => exact ⟨_, .here e, .up e b⟩
    | succ m =>
      obtain ⟨y, h1, h2⟩ := ih m (Nat.le_of_succ_le_succ hm)
      exact ⟨y, .up e h1, by rwa [Nat.add_sub_add_right]⟩

theorem Back.slot (hi : Increasing hs) {r x : Root} {n : Nat} (b : Back hs r n x) :
    ∀ {h h' : Header}, hs.get? r = some h → hs.get? x = some h' → h'.slot + n ≤ h.slot := by
  induction b with
  | here e => intro h h' h1 h2; rw [h1] at h2; cases h2; exact Nat.le_refl _
  | up e b ih =>
    intro h h' h1 h2
    rw [e] at h1
    cases h1
    obtain ⟨p, hp⟩ := b.left
    have := ih hp h2
    have := hi _ _ _ e hp
    omega

/-- A test for `Increasing`. -/
theorem increasing_of_all (h : hs.all (fun e => match hs.get? e.2.parentRoot with
    | some p => decide (p.slot < e.2.slot)
    | none => true) = true) : Increasing hs := by
  intro r hd p e1 e2
  have := List.all_eq_true.1 h _ (AMap.mem_of_get? e1)
  simp only [e2] at this
  exact of_decide_eq_true this

/-- In an increasing table the two notions of ancestor agree. -/
theorem ancestor_hanc (hi : Increasing hs) {a d : Root} : Ancestor hs a d ↔ HAnc hs a d := by
  constructor
  · rintro ⟨n, b⟩
    induction b with
    | here e => exact .self e
    | up e b ih =>
      obtain ⟨p, hp⟩ := b.left
      exact .up e hp (hi _ _ _ e hp) ih
  · intro h
    induction h with
    | self e => exact ⟨0, .here e⟩
    | up e _ _ _ ih =>
      obtain ⟨n, b⟩ := ih
      exact ⟨n + 1, .up e b⟩

theorem hanc_ancestor {a d : Root} (h : HAnc hs a d) : Ancestor hs a d := by
  induction h with
  | self e => exact ⟨0, .here e⟩
  | up e _ _ _ ih =>
    obtain ⟨n, b⟩ := ih
    exact ⟨n + 1, .up e b⟩

/-- Slots give a rank. -/
theorem slot_rank (hi : Increasing hs) :
    ∃ rank : Root → Nat, ∀ r h, hs.get? r = some h → rank h.parentRoot < rank r := by
  refine ⟨fun r => match hs.get? r with | some h => h.slot + 1 | none => 0, ?_⟩
  intro r h e
  simp only [e]
  split
  next p hp => have := hi _ _ _ e hp; omega
  · omega

/-- The walk answers "yes" only for an ancestor at the right slot. -/
theorem ancWalk_sound (c : Checkpoint) (n : Nat) : ∀ cur,
    ancWalk hs c n cur = .ok true → Ancestor hs c.root cur ∧ KnownAt hs c := by
  induction n with
  | zero => intro cur h; cases h
  | succ n ih =>
    intro cur h
    unfold ancWalk at h
    split at h
    · cases h
    next hd e =>
      split at h
      next es =>
        have h := of_decide_eq_true (Except.ok.inj h)
        subst h
        exact ⟨⟨0, .here e⟩, hd, e, es⟩
      · split at h
        · cases h
        · obtain ⟨⟨k, b⟩, kn⟩ := ih _ h
          exact ⟨⟨k + 1, .up e b⟩, kn⟩

/-- The walk finds an ancestor reached through increasing slots. -/
theorem ancWalk_complete {c : Checkpoint} (hk : KnownAt hs c) (n : Nat) : ∀ cur,
    HAnc hs c.root cur → ∀ x, ancWalk hs c n cur = .ok x → x = true := by
  obtain ⟨hc, hc1, hc2⟩ := hk
  induction n with
  | zero => intro cur _ x h; cases h
  | succ n ih =>
    intro cur ha x h
    unfold ancWalk at h
    obtain ⟨hd, e⟩ := ha.right
    rw [e] at h
    simp only at h
    have hle := ha.slot
    rw [slotOf_eq hc1, slotOf_eq e] at hle
    split at h
    next es =>
      rcases hle with hle | hle
      · rw [← Except.ok.inj h, hle]; simp
      · omega
    next es =>
      have hne : c.root ≠ cur := by
        intro he
        rw [he, e] at hc1
        cases hc1
        exact es hc2
      have hlt := hle.resolve_left hne
      split at h
      · omega
      · exact ih _ (ha.parent e hne).1 x h

/-- An accepted ancestor check is right. -/
theorem checkpointIsAncestor_sound {a d : Checkpoint} {dh : Header}
    (hd : hs.get? d.root = some dh) (hsl : dh.slot = d.slot)
    (h : checkpointIsAncestor hs a d dh = .ok true) :
    Ancestor hs a.root d.root ∧ KnownAt hs a ∧ a.slot ≤ d.slot := by
  unfold checkpointIsAncestor at h
  split at h
  next hc =>
    have h := Except.ok.inj h
    simp only [Bool.and_eq_true, decide_eq_true_eq] at h
    obtain ⟨h1, h2⟩ := h
    exact ⟨⟨0, by rw [h2]; exact .here hd⟩, ⟨dh, by rw [h2]; exact hd, by omega⟩, by omega⟩
  next hc =>
    obtain ⟨⟨k, b⟩, kn⟩ := ancWalk_sound a _ _ h
    exact ⟨⟨k + 1, .up hd b⟩, kn, by omega⟩

/-- Ancestors along increasing slots pass the check. -/
theorem checkpointIsAncestor_complete {rank : Root → Nat}
    (hr : ∀ r h, hs.get? r = some h → rank h.parentRoot < rank r) {a d : Checkpoint} {dh : Header}
    (hk : KnownAt hs a) (hd : hs.get? d.root = some dh) (hsl : dh.slot = d.slot)
    (h : HAnc hs a.root d.root) : checkpointIsAncestor hs a d dh = .ok true := by
  have hk' := hk
  obtain ⟨ah, ha1, ha2⟩ := hk'
  have hle := h.slot
  rw [slotOf_eq ha1, slotOf_eq hd] at hle
  obtain ⟨b, hb⟩ := checkpointIsAncestor_ok hr a d dh
  rw [hb]
  unfold checkpointIsAncestor at hb
  split at hb
  next hc =>
    rcases hle with hle | hle
    · have : ah = dh := by rw [hle, hd] at ha1; exact (Option.some.inj ha1).symm
      rw [← Except.ok.inj hb, hle]
      subst this
      have : a.slot = d.slot := by omega
      simp [this]
    · omega
  next hc =>
    have hne : a.root ≠ d.root := by
      intro he
      rw [he, hd] at ha1
      cases ha1
      omega
    rw [ancWalk_complete hk _ _ (h.parent hd hne).1 b hb]

end Verif.Node
