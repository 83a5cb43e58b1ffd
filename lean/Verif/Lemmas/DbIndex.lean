import Verif.Lemmas.DbBlocks
/-!
# Lemmas about the canonical slot index
-/
namespace Verif.Db
open Verif

/-- Slot of a stored header (0 if absent). -/
def slotOf (hs : AMap Root Header) (r : Root) : Nat :=
  match hs.get? r with
  | some h => h.slot
  | none => 0

theorem slotOf_eq {hs : AMap Root Header} {r : Root} {h : Header} (e : hs.get? r = some h) :
    slotOf hs r = h.slot := by unfold slotOf; rw [e]

theorem HAnc.left {hs : AMap Root Header} {r h : Root} (a : HAnc hs r h) :
    ∃ hd, hs.get? r = some hd := by
  induction a with
  | self e => exact ⟨_, e⟩
  | up _ _ _ _ ih => exact ih

theorem HAnc.right {hs : AMap Root Header} {r h : Root} (a : HAnc hs r h) :
    ∃ hd, hs.get? h = some hd := by
  cases a with
  | self e => exact ⟨_, e⟩
  | up e _ _ _ => exact ⟨_, e⟩

theorem HAnc.trans {hs : AMap Root Header} {a b c : Root} (h1 : HAnc hs a b) (h2 : HAnc hs b c) :
    HAnc hs a c := by
  induction h2 with
  | self _ => exact h1
  | up e1 e2 e3 _ ih => exact .up e1 e2 e3 ih

theorem HAnc.slot {hs : AMap Root Header} {r h : Root} (a : HAnc hs r h) :
    r = h ∨ slotOf hs r < slotOf hs h := by
  induction a with
  | self _ => exact .inl rfl
  | up e1 e2 e3 _ ih =>
    right
    rw [slotOf_eq e1]
    rw [slotOf_eq e2] at ih
    rcases ih with rfl | ih
    · rw [slotOf_eq e2]; exact e3
    · exact Nat.lt_trans ih e3

theorem HAnc.slot_le {hs : AMap Root Header} {r h : Root} (a : HAnc hs r h) :
    slotOf hs r ≤ slotOf hs h := by
  rcases a.slot with rfl | h
  · exact Nat.le_refl _
  · exact Nat.le_of_lt h

/-- The ancestors of a block form a line. -/
theorem HAnc.linear {hs : AMap Root Header} {a b h : Root} (h1 : HAnc hs a h) (h2 : HAnc hs b h) :
    HAnc hs a b ∨ HAnc hs b a := by
  induction h1 with
  | self e => exact .inr h2
  | up e1 e2 e3 h3 ih =>
    cases h2 with
    | self e => exact .inl (.up e1 e2 e3 h3)
    | up e1' e2' e3' h3' =>
      rw [e1] at e1'
      cases e1'
      exact ih h3'

theorem HAnc.antisymm {hs : AMap Root Header} {a b : Root} (h1 : HAnc hs a b) (h2 : HAnc hs b a) :
    a = b := by
  rcases h1.slot with h | h
  · exact h
  · have := h2.slot_le; omega

/-- `r` lies on the chain from the anchor `a` to the head `h`. -/
def OnChain (hs : AMap Root Header) (a h r : Root) : Prop := HAnc hs a r ∧ HAnc hs r h

/-- The index lists exactly the chain from anchor to head. -/
def Indexed (hs : AMap Root Header) (idx : AMap Nat Root) (a h : Root) : Prop :=
  ∀ n r, idx.get? n = some r ↔ OnChain hs a h r ∧ slotOf hs r = n

/-- A block at or below `c` on the chain to `h` is at or below `c`. -/
theorem HAnc.le_of_slot {hs : AMap Root Header} {a c h : Root} (h1 : HAnc hs a h)
    (h2 : HAnc hs c h) (hs' : slotOf hs a ≤ slotOf hs c) : HAnc hs a c := by
  rcases h1.linear h2 with h | h
  · exact h
  · rcases h.slot with rfl | h'
    · exact h
    · omega

theorem HAnc.parent {hs : AMap Root Header} {a r : Root} {hd : Header} (h : HAnc hs a r)
    (e : hs.get? r = some hd) (hne : a ≠ r) : HAnc hs a hd.parentRoot ∧
      ∃ pd, hs.get? hd.parentRoot = some pd ∧ pd.slot < hd.slot := by
  cases h with
  | self _ => exact absurd rfl hne
  | up e1 e2 e3 h3 => rw [e] at e1; cases e1; exact ⟨h3, _, e2, e3⟩

/-- Loop invariant of `block_root_index_changes`. -/
structure LoopInv (hs : AMap Root Header) (a O N oldR newR : Root) (dels : List Nat)
    (ents : List (Nat × Root)) : Prop where
  aOld : HAnc hs a oldR
  aNew : HAnc hs a newR
  old : HAnc hs oldR O
  new : HAnc hs newR N
  dels : ∀ n, n ∈ dels ↔ ∃ r, HAnc hs r O ∧ HAnc hs oldR r ∧ r ≠ oldR ∧ slotOf hs r = n
  ents : ∀ n r, (n, r) ∈ ents ↔ HAnc hs r N ∧ HAnc hs newR r ∧ r ≠ newR ∧ slotOf hs r = n

/-- Moving one end of a segment to its parent adds exactly that end. -/
theorem segment_step {hs : AMap Root Header} {x T : Root} {hd pd : Header} (h : HAnc hs x T)
    (e : hs.get? x = some hd) (ep : hs.get? hd.parentRoot = some pd) (hlt : pd.slot < hd.slot)
    (r : Root) : (HAnc hs r T ∧ HAnc hs hd.parentRoot r ∧ r ≠ hd.parentRoot) ↔
      (r = x ∨ (HAnc hs r T ∧ HAnc hs x r ∧ r ≠ x)) := by
  have hpx : HAnc hs hd.parentRoot x := .up e ep hlt (.self ep)
  have hne : x ≠ hd.parentRoot := by
    intro he
    have h1 := slotOf_eq e
    have h2 := slotOf_eq ep
    rw [← he] at h2
    omega
  constructor
  · rintro ⟨h1, h2, h3⟩
    by_cases hr : r = x
    · exact .inl hr
    · right
      refine ⟨h1, ?_, hr⟩
      rcases h1.linear h with h4 | h4
      · -- r ≤ x, r ≠ x: r ≤ parent
        obtain ⟨h5, -⟩ := h4.parent e hr
        exact absurd (h5.antisymm h2) h3
      · exact h4
  · rintro (rfl | ⟨h1, h2, h3⟩)
    · exact ⟨h, hpx, hne⟩
    · refine ⟨h1, hpx.trans h2, ?_⟩
      rintro rfl
      exact hne (h2.antisymm hpx)

theorem indexLoop_ok {hs : AMap Root Header} {a O N : Root} :
    ∀ (fuel : Nat) (oldR : Root) (oldH : Header) (newR : Root) (newH : Header) (dels : List Nat)
      (ents : List (Nat × Root)), hs.get? oldR = some oldH → hs.get? newR = some newH →
      LoopInv hs a O N oldR newR dels ents → oldH.slot + newH.slot < fuel →
      ∃ dels' ents' c, indexLoop hs fuel oldR oldH newR newH dels ents = .ok (some (dels', ents')) ∧
        LoopInv hs a O N c c dels' ents' := by
  intro fuel
  induction fuel with
  | zero => intros; omega
  | succ fuel ih =>
    intro oldR oldH newR newH dels ents eo en I hf
    have sa_o := I.aOld.slot_le
    have sa_n := I.aNew.slot_le
    rw [slotOf_eq eo] at sa_o
    rw [slotOf_eq en] at sa_n
    unfold indexLoop
    by_cases h1 : oldR = newR
    · rw [if_pos h1]
      refine ⟨dels, ents, oldR, rfl, ?_⟩
      rw [← h1] at I
      exact I
    · rw [if_neg h1]
      by_cases h2 : oldH.slot < newH.slot
      · rw [if_pos h2]
        have hne : a ≠ newR := by
          rintro rfl
          rw [slotOf_eq en] at sa_o
          omega
        obtain ⟨hap, pd, ep, hlt⟩ := I.aNew.parent en hne
        simp only [ep]
        refine ih _ _ _ _ _ _ eo ep ⟨I.aOld, hap, I.old, .trans (.up en ep hlt (.self ep)) I.new,
          I.dels, ?_⟩ (by omega)
        intro n r
        have hseg := segment_step I.new en ep hlt r
        simp only [List.mem_append, List.mem_singleton, Prod.mk.injEq, I.ents]
        constructor
        · rintro (⟨g1, g2, g3, g4⟩ | ⟨rfl, rfl⟩)
          · obtain ⟨k1, k2, k3⟩ := hseg.2 (.inr ⟨g1, g2, g3⟩)
            exact ⟨k1, k2, k3, g4⟩
          · obtain ⟨k1, k2, k3⟩ := hseg.2 (.inl rfl)
            exact ⟨k1, k2, k3, slotOf_eq en⟩
        · rintro ⟨g1, g2, g3, g4⟩
          rcases hseg.1 ⟨g1, g2, g3⟩ with rfl | ⟨k1, k2, k3⟩
          · exact .inr ⟨g4.symm.trans (slotOf_eq en), rfl⟩
          · exact .inl ⟨k1, k2, k3, g4⟩
      · rw [if_neg h2]
        have hne : a ≠ oldR := by
          rintro rfl
          rw [slotOf_eq eo] at sa_n
          rcases I.aNew.slot with h | h
          · exact h1 h
          · rw [slotOf_eq eo, slotOf_eq en] at h
            omega
        obtain ⟨hap, pd, ep, hlt⟩ := I.aOld.parent eo hne
        simp only [ep]
        refine ih _ _ _ _ _ _ ep en ⟨hap, I.aNew, .trans (.up eo ep hlt (.self ep)) I.old, I.new,
          ?_, I.ents⟩ (by omega)
        intro n
        simp only [List.mem_append, List.mem_singleton, I.dels]
        constructor
        · rintro (⟨r, g1, g2, g3, g4⟩ | rfl)
          · obtain ⟨k1, k2, k3⟩ := (segment_step I.old eo ep hlt r).2 (.inr ⟨g1, g2, g3⟩)
            exact ⟨r, k1, k2, k3, g4⟩
          · obtain ⟨k1, k2, k3⟩ := (segment_step I.old eo ep hlt oldR).2 (.inl rfl)
            exact ⟨oldR, k1, k2, k3, slotOf_eq eo⟩
        · rintro ⟨r, g1, g2, g3, g4⟩
          rcases (segment_step I.old eo ep hlt r).1 ⟨g1, g2, g3⟩ with rfl | ⟨k1, k2, k3⟩
          · exact .inr (g4.symm.trans (slotOf_eq eo))
          · exact .inl ⟨r, k1, k2, k3, g4⟩

theorem changes_ok {hs : AMap Root Header} {a O N : Root} (ho : HAnc hs a O) (hn : HAnc hs a N) :
    ∃ dels ents c, blockRootIndexChanges hs O N = .ok (some (dels, ents)) ∧
      LoopInv hs a O N c c dels ents := by
  obtain ⟨oh, eo⟩ := ho.right
  obtain ⟨nh, en⟩ := hn.right
  unfold blockRootIndexChanges
  simp only [eo, en]
  refine indexLoop_ok _ O oh N nh [] [] eo en ⟨ho, hn, .self eo, .self en, ?_, ?_⟩ (by omega)
  · intro n
    simp only [List.not_mem_nil, false_iff]
    rintro ⟨r, h1, h2, h3, -⟩
    exact h3 (h1.antisymm h2)
  · intro n r
    simp only [List.not_mem_nil, false_iff]
    rintro ⟨h1, h2, h3, -⟩
    exact h3 (h1.antisymm h2)

theorem get?_foldl_erase {α : Type} (dels : List Nat) (m : AMap Nat α) (n : Nat) :
    (dels.foldl (fun m k => m.erase k) m).get? n = if n ∈ dels then none else m.get? n := by
  induction dels generalizing m with
  | nil => simp
  | cons d ds ih =>
    simp only [List.foldl_cons]
    rw [ih, AMap.get?_erase]
    grind

theorem get?_foldl_insert_mem {α : Type} (ents : List (Nat × α)) (m : AMap Nat α) (n : Nat) (r : α)
    (hfun : ∀ x, (n, x) ∈ ents → x = r) (h : (n, r) ∈ ents) :
    (ents.foldl (fun m e => m.insert e.1 e.2) m).get? n = some r := by
  suffices H : ∀ (ents : List (Nat × α)) (m : AMap Nat α), (∀ x, (n, x) ∈ ents → x = r) →
      ((n, r) ∈ ents ∨ m.get? n = some r) →
      (ents.foldl (fun m e => m.insert e.1 e.2) m).get? n = some r from H _ _ hfun (.inl h)
  intro ents
  induction ents with
  | nil => intro m _ h; simpa using h
  | cons e es ih =>
    intro m hf h
    simp only [List.foldl_cons]
    refine ih _ (fun x hx => hf x (List.mem_cons_of_mem _ hx)) ?_
    rw [AMap.get?_insert]
    by_cases he : e.1 = n
    · right
      rw [if_pos he]
      have : e.2 = r := hf e.2 (by rw [← he]; exact List.mem_cons_self)
      rw [this]
    · rcases h with h | h
      · rcases List.mem_cons.1 h with h | h
        · rw [← h] at he; exact absurd rfl he
        · exact .inl h
      · right; rw [if_neg he]; exact h

theorem get?_foldl_insert_not_mem {α : Type} (ents : List (Nat × α)) (m : AMap Nat α) (n : Nat)
    (h : ∀ r, (n, r) ∉ ents) :
    (ents.foldl (fun m e => m.insert e.1 e.2) m).get? n = m.get? n := by
  induction ents generalizing m with
  | nil => rfl
  | cons e es ih =>
    simp only [List.foldl_cons]
    rw [ih _ (fun r hr => h r (List.mem_cons_of_mem _ hr)), AMap.get?_insert, if_neg]
    intro he
    exact h e.2 (by rw [← he]; exact List.mem_cons_self)

/-- Applying the changes turns the index of the old chain into the index of the new chain. -/
theorem indexed_update {hs : AMap Root Header} {idx : AMap Nat Root} {a O N c : Root}
    {dels : List Nat} {ents : List (Nat × Root)} (hidx : Indexed hs idx a O)
    (I : LoopInv hs a O N c c dels ents) :
    Indexed hs (ents.foldl (fun m e => m.insert e.1 e.2)
      (dels.foldl (fun m k => m.erase k) idx)) a N := by
  have huniq : ∀ {T x y}, HAnc hs x T → HAnc hs y T → slotOf hs x = slotOf hs y → x = y := by
    intro T x y h1 h2 h3
    rcases h1.linear h2 with h | h
    · rcases h.slot with h | h
      · exact h
      · omega
    · rcases h.slot with h | h
      · exact h.symm
      · omega
  have above : ∀ {r}, HAnc hs c r → r ≠ c → slotOf hs c < slotOf hs r := by
    intro r h1 h2
    rcases h1.slot with h | h
    · exact absurd h.symm h2
    · exact h
  intro n r
  by_cases hex : ∃ x, (n, x) ∈ ents
  · obtain ⟨x, hx⟩ := hex
    obtain ⟨g1, g2, g3, g4⟩ := (I.ents n x).1 hx
    rw [get?_foldl_insert_mem ents _ n x ?_ hx]
    · constructor
      · intro e; cases e
        exact ⟨⟨I.aOld.trans g2, g1⟩, g4⟩
      · rintro ⟨⟨h1, h2⟩, h3⟩
        rw [huniq g1 h2 (g4.trans h3.symm)]
    · intro y hy
      obtain ⟨k1, k2, k3, k4⟩ := (I.ents n y).1 hy
      exact huniq k1 g1 (k4.trans g4.symm)
  · have hno : ∀ x, (n, x) ∉ ents := fun x hx => hex ⟨x, hx⟩
    rw [get?_foldl_insert_not_mem ents _ n hno, get?_foldl_erase]
    constructor
    · intro h
      split at h
      · cases h
      next hd =>
        obtain ⟨⟨h1, h2⟩, h3⟩ := (hidx n r).1 h
        have hrc : HAnc hs r c := by
          rcases h2.linear I.old with h4 | h4
          · exact h4
          · by_cases hr : r = c
            · rw [hr]; rw [hr] at h4; exact h4
            · exact absurd ((I.dels n).2 ⟨r, h2, h4, hr, h3⟩) hd
        exact ⟨⟨h1, hrc.trans I.new⟩, h3⟩
    · rintro ⟨⟨h1, h2⟩, h3⟩
      have hrc : HAnc hs r c := by
        rcases h2.linear I.new with h4 | h4
        · exact h4
        · by_cases hr : r = c
          · rw [hr]; rw [hr] at h4; exact h4
          · exact absurd ((I.ents n r).2 ⟨h2, h4, hr, h3⟩) (hno r)
      rw [if_neg]
      · exact (hidx n r).2 ⟨⟨h1, hrc.trans I.old⟩, h3⟩
      · intro hd
        obtain ⟨x, g1, g2, g3, g4⟩ := (I.dels n).1 hd
        have := above g2 g3
        have := hrc.slot_le
        omega

/-- Growing the header table without changing existing rows keeps ancestry. -/
theorem HAnc.mono {hs hs' : AMap Root Header} (hm : ∀ r h, hs.get? r = some h → hs'.get? r = some h)
    {a b : Root} (h : HAnc hs a b) : HAnc hs' a b := by
  induction h with
  | self e => exact .self (hm _ _ e)
  | up e1 e2 e3 _ ih => exact .up (hm _ _ e1) (hm _ _ e2) e3 ih

theorem slotOf_mono {hs hs' : AMap Root Header}
    (hm : ∀ r h, hs.get? r = some h → hs'.get? r = some h) {r : Root} {hd : Header}
    (e : hs.get? r = some hd) : slotOf hs' r = slotOf hs r := by
  rw [slotOf_eq e, slotOf_eq (hm _ _ e)]

theorem onChain_back {hs hs' : AMap Root Header} {a h r : Root}
    (hm : ∀ r h, hs.get? r = some h → hs'.get? r = some h) (hah : HAnc hs a h)
    (h1 : HAnc hs' r h) (h2 : HAnc hs' a r) : HAnc hs r h ∧ HAnc hs a r := by
  induction hah with
  | self e =>
    have := h1.antisymm h2
    subst this
    exact ⟨.self e, .self e⟩
  | up e1 e2 e3 h3 ih =>
    next h hd pd =>
    by_cases hr : r = h
    · subst hr; exact ⟨.self e1, .up e1 e2 e3 h3⟩
    · obtain ⟨h4, -⟩ := h1.parent (hm _ _ e1) hr
      obtain ⟨k1, k2⟩ := ih h4
      exact ⟨.up e1 e2 e3 k1, k2⟩

theorem indexed_mono {hs hs' : AMap Root Header} {idx : AMap Nat Root} {a h : Root}
    (hm : ∀ r h, hs.get? r = some h → hs'.get? r = some h) (hah : HAnc hs a h)
    (hidx : Indexed hs idx a h) : Indexed hs' idx a h := by
  intro n r
  rw [hidx]
  constructor
  · rintro ⟨⟨h1, h2⟩, h3⟩
    obtain ⟨hd, e⟩ := h1.right
    exact ⟨⟨h1.mono hm, h2.mono hm⟩, by rw [slotOf_mono hm e]; exact h3⟩
  · rintro ⟨⟨h1, h2⟩, h3⟩
    obtain ⟨k1, k2⟩ := onChain_back hm hah h2 h1
    obtain ⟨hd, e⟩ := k2.right
    exact ⟨⟨k2, k1⟩, by rw [← slotOf_mono hm e]; exact h3⟩

/-- The head descends from the anchor and the index lists its chain. -/
structure IndexInv (root : Root) (m : Mem) : Prop where
  head : HAnc m.db.headers root m.db.head
  idx : Indexed m.db.headers m.db.blockRoots root m.db.head

theorem updateCheckpoints_index {db db' : Db} {a h : Root} {j f : Option Checkpoint}
    (hh : HAnc db.headers a db.head) (hi : Indexed db.headers db.blockRoots a db.head)
    (ha : HAnc db.headers a h) (e : updateCheckpoints db h j f = .ok db') :
    Indexed db.headers db'.blockRoots a h := by
  obtain ⟨dels, ents, c, ec, I⟩ := changes_ok hh ha
  have key := indexed_update hi I
  unfold updateCheckpoints at e
  rw [ec] at e
  simp only at e
  split at e
  · split at e
    · cases e; exact key
    · cases e; exact key
  · cases e; exact key

/-- The header rows only grow in a step. -/
theorem step_headers {H : Hash} {root : Root} {anchor : State} {ops : List Op} {m m' : Mem} {op : Op}
    (J : RunInv H root anchor ops m) (J' : RunInv H root anchor (op :: ops) m')
    (r : Root) (h : Header)
    (e : m.db.headers.get? r = some h) : m'.db.headers.get? r = some h := by
  have hr := J.repr.hdr r h e
  rcases J.seen r h e with rfl | hst
  · rw [← hr, J'.anchorRoot]; exact J'.anchorHdr
  · rw [← hr]; exact J'.stored _ (stored_cons hst)

theorem run_index {H : Hash} {a0 : State} {body : Option (List AggAtt)}
    {root : Root} {anchor : State} {ops : List Op} {m : Mem}
    (h : Run H a0 body root anchor ops m) (hc : CollisionFree H anchor ops) :
    IndexInv root m := by
  induction h with
  | init hi0 hs0 =>
    next m anchor root =>
    have J := run_inv (.init hi0 hs0) hc
    unfold initStore at hi0
    simp only at hi0
    split at hi0
    · cases hi0
    · cases hi0
      simp only [List.cons.injEq, Prod.mk.injEq, and_true] at hs0
      obtain ⟨rfl, rfl⟩ := hs0
      have hself := HAnc.self J.anchorHdr
      refine ⟨hself, ?_⟩
      intro n r
      simp only [AMap.get?_cons, AMap.get?_nil]
      have hsl := slotOf_eq J.anchorHdr
      constructor
      · intro e
        split at e
        next en => cases e; exact ⟨⟨hself, hself⟩, by rw [hsl]; exact en⟩
        · cases e
      · rintro ⟨⟨h1, h2⟩, h3⟩
        have hr := h2.antisymm h1
        have h4 := h3.symm.trans ((congrArg (slotOf _) hr).trans hsl)
        rw [if_pos h4.symm]
        exact congrArg some hr.symm
  | step hr ha hs ih =>
    next root anchor ops m op m' =>
    have K := ih hc.tail
    have J := run_inv hr hc.tail
    have J' := run_inv (.step hr ha hs) hc
    have hm := step_headers J J'
    have keep : m'.db.head = m.db.head → m'.db.blockRoots = m.db.blockRoots → IndexInv root m' := by
      intro e1 e2
      refine ⟨by rw [e1]; exact K.head.mono hm, ?_⟩
      rw [e1, e2]
      exact indexed_mono hm K.head K.idx
    cases op with
    | insertPending sb => cases hs; exact keep rfl rfl
    | insertSigned sb => cases hs; exact keep rfl rfl
    | insertState r st =>
      obtain ⟨-, -, -, h4, h5, -⟩ := insertState_db (show insertState H m r st = .ok m' from hs)
      exact keep h4 h5
    | readState r =>
      have hs : (match getState m r with | .error e => .error e | .ok (_, m) => .ok m : P Mem)
        = .ok m' := hs
      split at hs
      · cases hs
      next x m1 e =>
        cases hs
        have := getState_db e
        exact keep (by rw [this]) (by rw [this])
    | checkpointBatch h j f =>
      have hs : (match checkpointBatch m.db h j f with
        | .error e => .error e | .ok db => .ok { m with db := db } : P Mem) = .ok m' := hs
      split at hs
      · cases hs
      next db2 e =>
        cases hs
        obtain ⟨db', e', rfl⟩ := checkpointBatch_of e
        obtain ⟨h1, -, -, -, -, h6, -⟩ := updateCheckpoints_frame e'
        have ha : HAnc m.db.headers root h := ha
        exact ⟨by simp only [h1, h6]; exact ha,
          by simp only [h1, h6]; exact updateCheckpoints_index K.head K.idx ha e'⟩
    | updateCheckpoints h j f =>
      have hs : (match updateCheckpoints m.db h j f with
        | .error e => .error e | .ok db => .ok { m with db := db } : P Mem) = .ok m' := hs
      split at hs
      · cases hs
      next db' e =>
        cases hs
        obtain ⟨h1, -, -, -, -, h6, -⟩ := updateCheckpoints_frame e
        have ha : HAnc m.db.headers root h := ha
        exact ⟨by simp only [h1, h6]; exact ha,
          by simp only [h1, h6]; exact updateCheckpoints_index K.head K.idx ha e⟩
    | setSafeTarget r => cases hs; exact keep rfl rfl
    | setTime t => cases hs; exact keep rfl rfl
    | restart => cases hs; exact keep rfl rfl
    | pruneOldData =>
      have hs : (match pruneOldData m.db with
        | .error e => .error e | .ok db => .ok { m with db := db } : P Mem) = .ok m' := hs
      split at hs
      · cases hs
      next db' e =>
        cases hs
        obtain ⟨-, -, -, -, h5, h6, -⟩ := pruneOldData_frame e
        exact keep h5 h6

/-! ## Range requests -/

theorem filterMap_first {α : Type} (f : Nat → Option α) (n : Nat) : ∀ (a : Nat) (y : α),
    ((slotsFrom a n).filterMap f)[0]? = some y →
    ∃ s, a ≤ s ∧ s < a + n ∧ f s = some y ∧ ∀ k, a ≤ k → k < s → f k = none := by
  induction n with
  | zero => intro a y h; simp [slotsFrom] at h
  | succ n ih =>
    intro a y h
    simp only [slotsFrom, List.filterMap_cons] at h
    cases hf : f a with
    | none =>
      simp only [hf] at h
      obtain ⟨s, h1, h2, h3, h4⟩ := ih (a + 1) y h
      refine ⟨s, by omega, by omega, h3, fun k hk hk2 => ?_⟩
      by_cases e : k = a
      · rw [e]; exact hf
      · exact h4 k (by omega) hk2
    | some z =>
      simp only [hf, List.getElem?_cons_zero, Option.some.injEq] at h
      exact ⟨a, Nat.le_refl _, by omega, by rw [hf, h], fun k h1 h2 => by omega⟩

theorem filterMap_consec {α : Type} (f : Nat → Option α) (n : Nat) : ∀ (a i : Nat) (x y : α),
    ((slotsFrom a n).filterMap f)[i]? = some x → ((slotsFrom a n).filterMap f)[i + 1]? = some y →
    ∃ s t, a ≤ s ∧ s < t ∧ t < a + n ∧ f s = some x ∧ f t = some y ∧
      ∀ k, s < k → k < t → f k = none := by
  induction n with
  | zero => intro a i x y h; simp [slotsFrom] at h
  | succ n ih =>
    intro a i x y hx hy
    simp only [slotsFrom, List.filterMap_cons] at hx hy
    cases hf : f a with
    | none =>
      simp only [hf] at hx hy
      obtain ⟨s, t, h1, h2, h3, h4⟩ := ih (a + 1) i x y hx hy
      exact ⟨s, t, by omega, h2, by omega, h4⟩
    | some z =>
      simp only [hf] at hx hy
      cases i with
      | zero =>
        simp only [List.getElem?_cons_zero, Option.some.injEq, Nat.zero_add,
          List.getElem?_cons_succ] at hx hy
        obtain ⟨t, h1, h2, h3, h4⟩ := filterMap_first f n (a + 1) y hy
        exact ⟨a, t, Nat.le_refl _, by omega, by omega, by rw [hf, hx], h3,
          fun k h5 h6 => h4 k (by omega) h6⟩
      | succ i =>
        simp only [List.getElem?_cons_succ] at hx hy
        obtain ⟨s, t, h1, h2, h3, h4⟩ := ih (a + 1) i x y hx hy
        exact ⟨s, t, by omega, h2, by omega, h4⟩

theorem mem_slotsFrom {a n s : Nat} : s ∈ slotsFrom a n ↔ a ≤ s ∧ s < a + n := by
  induction n generalizing a with
  | zero => simp [slotsFrom]
  | succ n ih => simp only [slotsFrom, List.mem_cons, ih]; omega

end Verif.Db
