import Verif.Lemmas.StoreSteps
/-!
# What importing one block does, in detail
-/
namespace Verif.Node
open Verif Verif.Db Verif.Buffers

variable {E : Env} {t : Nat} {vals : List Validator} {bs : List Block} {a0 : State}
  {body : Option (List AggAtt)} {K : Header → Prop} {root : Root} {anchor : State}
  {X : State → Prop} {ops : List Db.Op} {s : Store}

/-- The tables from which blocks are read are the same. -/
structure SameBlocks (db db' : Db) : Prop where
  headers : db'.headers = db.headers
  bodies : db'.bodies = db.bodies
  proofs : db'.proofs = db.proofs

theorem SameBlocks.refl (db : Db) : SameBlocks db db := ⟨rfl, rfl, rfl⟩

theorem SameBlocks.trans {a b c : Db} (h1 : SameBlocks a b) (h2 : SameBlocks b c) :
    SameBlocks a c :=
  ⟨h2.headers.trans h1.headers, h2.bodies.trans h1.bodies, h2.proofs.trans h1.proofs⟩

theorem SameBlocks.get {a b : Db} (h : SameBlocks a b) (H : Hash) (r : Root) :
    getSignedBlock H b r = getSignedBlock H a r := by
  unfold getSignedBlock
  rw [h.headers, h.bodies, h.proofs]

theorem setCheckpoints_blocks {s s' : Store} {h : Root} {j f : Option Checkpoint}
    (e : setCheckpoints s h j f = .ok s') :
    SameBlocks s.mem.db s'.mem.db ∧ s'.mem.db.time = s.mem.db.time := by
  have h1 := (setCheckpoints_split e).1
  obtain ⟨f1, -, -, f4, f5, -⟩ := updateCheckpoints_frame h1
  exact ⟨⟨f1, f4, f5⟩, (updateCheckpoints_time h1).1⟩

theorem updateHead_blocks {s s' : Store} (e : updateHead s = .ok s') :
    SameBlocks s.mem.db s'.mem.db ∧ s'.mem.db.time = s.mem.db.time := by
  obtain ⟨x, m1, f, hm, -, hs⟩ := updateHead_split e
  have := setCheckpoints_blocks hs
  simp only [getState_db' hm] at this
  exact this

theorem raiseJustified_blocks {s s' : Store} {st : State} (e : raiseJustified s st = .ok s') :
    SameBlocks s.mem.db s'.mem.db ∧ s'.mem.db.time = s.mem.db.time := by
  unfold raiseJustified at e
  split at e
  · exact setCheckpoints_blocks e
  · cases e; exact ⟨.refl _, rfl⟩

/-- Writing a block changes what is read only under its own root. -/
theorem write_other (H : Hash) (db : Db) (sb : SignedBlock) (r x : Root) (h : x ≠ r) :
    getSignedBlock H (writeSignedBlock H db r sb) x = getSignedBlock H db x := by
  unfold getSignedBlock writeSignedBlock
  simp only
  have hb : (if (sb.block.header H).bodyRoot ≠ H.body [] then db.bodies.insert r sb.block.body
      else db.bodies).get? x = db.bodies.get? x := by
    split
    · rw [AMap.get?_insert, if_neg (fun e => h e.symm)]
    · rfl
  have hp : ∀ n, (db.proofs.insert ((sb.block.header H).slot, r) sb.proof).get? (n, x) =
      db.proofs.get? (n, x) := by
    intro n
    rw [AMap.get?_insert, if_neg]
    intro e
    exact h (Prod.mk.inj e).2.symm
  rw [AMap.get?_insert, if_neg (fun e => h e.symm), hb]
  simp only [hp]

/-- A written block is read back, if only the empty body hashes like the empty body. -/
theorem write_self (H : Hash) (db : Db) (sb : SignedBlock) (r : Root)
    (he : H.body sb.block.body = H.body [] → sb.block.body = []) :
    getSignedBlock H (writeSignedBlock H db r sb) r = some sb := by
  unfold getSignedBlock writeSignedBlock
  simp only
  rw [AMap.get?_insert_self]
  simp only
  have hbr : (sb.block.header H).bodyRoot = H.body sb.block.body := rfl
  by_cases hb : H.body sb.block.body = H.body []
  · rw [hbr, if_pos hb]
    simp only
    rw [AMap.get?_insert_self]
    simp only
    rw [← he hb]
    rfl
  · rw [hbr, if_neg hb, if_pos hb, AMap.get?_insert_self]
    simp only
    rw [AMap.get?_insert_self]
    rfl

theorem commitBlock_blocks {H : Hash} {s s' : Store} {sb : SignedBlock} {st : State}
    (e : commitBlock H s sb st = .ok s') :
    (∀ x, x ≠ sb.block.root H →
      getSignedBlock H s'.mem.db x = getSignedBlock H s.mem.db x) ∧
    s'.mem.db.time = s.mem.db.time := by
  unfold commitBlock at e
  split at e
  · cases e
  next s1 h1 =>
    obtain ⟨b1, t1⟩ := raiseJustified_blocks h1
    simp only at e
    split at e
    · cases e
    next s2 h2 =>
      obtain ⟨b3, t3⟩ := updateHead_blocks e
      unfold putState at h2
      split at h2
      · cases h2
      next m hm =>
        cases h2
        obtain ⟨i1, i2, i3, -⟩ := insertState_db hm
        have it := (insertState_safe hm).2
        have b2 : SameBlocks (insertSigned H s1 (sb.block.root H) sb).mem.db m.db :=
          ⟨i1, i2, i3⟩
        constructor
        · intro x hx
          rw [b3.get, b2.get]
          rw [← b1.get H x, ← write_other H s1.mem.db sb _ x hx]
          rfl
        · rw [t3, it]
          exact t1

theorem commitBlock_self {H : Hash} {s s' : Store} {sb : SignedBlock} {st : State}
    (he : H.body sb.block.body = H.body [] → sb.block.body = [])
    (e : commitBlock H s sb st = .ok s') :
    getSignedBlock H s'.mem.db (sb.block.root H) = some sb := by
  unfold commitBlock at e
  split at e
  · cases e
  next s1 h1 =>
    simp only at e
    split at e
    · cases e
    next s2 h2 =>
      obtain ⟨b3, -⟩ := updateHead_blocks e
      unfold putState at h2
      split at h2
      · cases h2
      next m hm =>
        cases h2
        obtain ⟨i1, i2, i3, -⟩ := insertState_db hm
        have b2 : SameBlocks (insertSigned H s1 (sb.block.root H) sb).mem.db m.db := ⟨i1, i2, i3⟩
        rw [b3.get, b2.get]
        exact write_self H s1.mem.db sb _ he

theorem setCheckpoints_hasState {s s' : Store} {h : Root} {j f : Option Checkpoint}
    (e : setCheckpoints s h j f = .ok s') (k : Root) :
    hasState s'.mem.db k = hasState s.mem.db k := by
  obtain ⟨-, f2, f3, -⟩ := updateCheckpoints_frame (setCheckpoints_split e).1
  unfold hasState
  rw [f2, f3]

theorem insertState_hasState {H : Hash} {m m' : Mem} {r : Root} {st : State}
    (h : insertState H m r st = .ok m') (k : Root) (hk : k ≠ r) :
    hasState m'.db k = hasState m.db k := by
  unfold insertState at h
  split at h
  · cases h
  · cases h
  next p m1 e =>
    have := getState_db e
    simp only at h
    split at h
    · cases h
    · cases h
      unfold hasState
      simp only [this]
      have hi : ∀ {α : Type} (x : AMap Root α) (v : α), (x.insert r v).get? k = x.get? k := by
        intro α x v
        rw [AMap.get?_insert, if_neg (fun e => hk e.symm)]
      rw [hi]
      split
      · rw [hi]
      · rfl

theorem commitBlock_others {H : Hash} {s s' : Store} {sb : SignedBlock} {st : State}
    (h2 : commitBlock H s sb st = .ok s') (k : Root) (hk : k ≠ sb.block.root H) :
    hasState s'.mem.db k = hasState s.mem.db k := by
  unfold commitBlock at h2
  split at h2
  · cases h2
  next s3 h3 =>
    simp only at h2
    split at h2
    · cases h2
    next s4 h4 =>
      unfold putState at h4
      split at h4
      · cases h4
      next m hm =>
        cases h4
        obtain ⟨x, m1, f, g1, -, g2⟩ := updateHead_split h2
        rw [setCheckpoints_hasState g2 k]
        have := getState_db' g1
        simp only [this]
        rw [insertState_hasState hm k hk]
        have h5 : hasState s3.mem.db k = hasState s.mem.db k := by
          unfold raiseJustified at h3
          split at h3
          · exact setCheckpoints_hasState h3 k
          · cases h3; rfl
        rw [← h5]
        rfl

/-- Importing a block stores a state for no other root. -/
theorem onBlock_states {E : Env} {s s' : Store} {sb : SignedBlock} {r : Except Err Unit}
    (e : Node.onBlock E s sb = .ok (s', r)) (k : Root) (hk : k ≠ sb.block.root E.H) :
    hasState s'.mem.db k = hasState s.mem.db k := by
  unfold Node.onBlock at e
  split at e
  · cases e; rfl
  · split at e
    · cases e
    next s1 h1 => cases e; rw [(getState_frame h1).1]
    next p s1 h1 =>
      have hd := (getState_frame h1).1
      split at e
      · cases e; rw [hd]
      next st hst =>
        split at e
        · cases e
        next s2 h2 =>
          cases e
          rw [← hd]
          exact commitBlock_others h2 k hk

/-- The result of importing a block into a consistent store. -/
structure Imported (E : Env) (root : Root) (anchor : State) (ops : List Db.Op) (s : Store)
    (sb : SignedBlock) (ops' : List Db.Op) (s' : Store) (r : Except Err Unit) : Prop where
  ext : Ext root anchor ops s ops' s'
  err : ∀ e, r = .error e → s'.mem.db = s.mem.db
  ok : r = .ok () → ∃ st, stateOf root anchor ops' (sb.block.root E.H) = some st
  good : ∀ p st, stateOf root anchor ops sb.block.parentRoot = some p →
    checkBlock E s p sb = .ok st → r = .ok ()
  blocks : ∀ x, x ≠ sb.block.root E.H →
    getSignedBlock E.H s'.mem.db x = getSignedBlock E.H s.mem.db x
  had : hasState s.mem.db (sb.block.root E.H) = true → s' = s
  time : s'.mem.db.time = s.mem.db.time
  new : r = .ok () → hasState s.mem.db (sb.block.root E.H) = false →
    ∃ p st, stateOf root anchor ops sb.block.parentRoot = some p ∧ checkBlock E s p sb = .ok st ∧
      stateOf root anchor ops' (sb.block.root E.H) = some st
  others : ∀ x, x ≠ sb.block.root E.H → hasState s'.mem.db x = hasState s.mem.db x
  self : r = .ok () → hasState s.mem.db (sb.block.root E.H) = false →
    (E.H.body sb.block.body = E.H.body [] → sb.block.body = []) →
    getSignedBlock E.H s'.mem.db (sb.block.root E.H) = some sb

theorem checkBlock_import {E : Env} {s : Store} {p st : State} {sb : SignedBlock}
    (hc : checkBlock E s p sb = .ok st) : importState E.H p sb.block = .ok st := by
  unfold checkBlock at hc
  split at hc
  · cases hc
  split at hc
  · cases hc
  split at hc
  · cases hc
  split at hc
  · cases hc
  split at hc
  · cases hc
  split at hc
  · cases hc
  next h => cases hc; exact h

theorem NInv.imported (W : World E t vals bs a0 K)
    (A : AnchorOk E.H (State.fromGenesis E.H t vals) K root anchor)
    (I : NInv E t vals a0 body K root anchor X ops s) (sb : SignedBlock)
    (hk : K (sb.block.header E.H)) :
    ∃ s' ops' r, Node.onBlock E s sb = .ok (s', r) ∧
      NInv E t vals a0 body K root anchor X ops' s' ∧
      Imported E root anchor ops s sb ops' s' r := by
  unfold Node.onBlock
  by_cases hh : hasState s.mem.db (sb.block.root E.H) = true
  · rw [if_pos hh]
    refine ⟨s, ops, _, rfl, I, .refl, (fun e h => by cases h), fun _ => ?_, fun _ _ _ _ => rfl,
      fun _ _ => rfl, fun _ => rfl, rfl, (fun _ h => by rw [hh] at h; cases h), fun _ _ => rfl,
      (fun _ h => by rw [hh] at h; cases h)⟩
    rw [hasState_iff (I.inv W).repr] at hh
    exact Option.isSome_iff_exists.1 hh
  · rw [if_neg hh]
    obtain ⟨s1, g1, g2, -, I1⟩ := I.getState W sb.block.parentRoot
    rw [g1]
    have q := stateOf_quiet (root := root) (anchor := anchor) (ops := ops)
      (op := .readState sb.block.parentRoot) trivial
    have x1 : Ext root anchor ops s (.readState sb.block.parentRoot :: ops) s1 :=
      ⟨by rw [q]; exact fun _ _ h => h, by rw [g2]; exact fun _ _ h => h, .inl (by rw [g2]),
      .inl ⟨by rw [g2], by rw [g2]⟩⟩
    have hnew : stateOf root anchor ops (sb.block.root E.H) = none := by
      rw [hasState_iff (I.inv W).repr] at hh
      cases h : stateOf root anchor ops (sb.block.root E.H) with
      | none => rfl
      | some x => rw [h] at hh; exact absurd rfl hh
    have hcur : ∀ p, checkBlock E s1 p sb = checkBlock E s p sb := by
      intro p; unfold checkBlock Store.currentSlot; rw [g2]
    cases hp : stateOf root anchor ops sb.block.parentRoot with
    | none =>
      exact ⟨s1, _, _, rfl, I1, x1, fun _ _ => g2, (fun h => by cases h),
        (fun p st h => by rw [hp] at h; cases h), fun _ _ => by rw [g2],
        fun h => absurd h hh, by rw [g2], (fun h => by cases h), fun _ _ => by rw [g2], (fun h => by cases h)⟩
    | some p =>
      simp only
      cases hc : checkBlock E s1 p sb with
      | error e =>
        exact ⟨s1, _, _, rfl, I1, x1, fun _ _ => g2, (fun h => by cases h),
          (fun p' st h h' => by
            rw [hp] at h; cases h
            rw [← hcur, hc] at h'; cases h'), fun _ _ => by rw [g2],
          fun h => absurd h hh, by rw [g2], (fun h => by cases h), fun _ _ => by rw [g2], (fun h => by cases h)⟩
      | ok st =>
        have hi := checkBlock_import hc
        obtain ⟨s2, ops2, e2, I2, x2, n2⟩ := I1.succeeds_commit W A (by rw [q]; exact hp) hi
          (by rw [q]; exact hnew) hk
        simp only
        rw [e2]
        obtain ⟨b1, b2⟩ := commitBlock_blocks e2
        refine ⟨s2, ops2, _, rfl, I2, x1.trans x2, (fun e h => by cases h), fun _ => ⟨st, n2⟩,
          fun _ _ _ _ => rfl, fun x hx => ?_, fun h => absurd h hh, ?_,
          fun _ _ => ⟨p, st, hp, by rw [← hcur]; exact hc, n2⟩, fun x hx => ?_,
          fun _ _ he => commitBlock_self he e2⟩
        · rw [b1 x hx, g2]
        · rw [b2, g2]
        · rw [commitBlock_others e2 x hx, g2]

/-- A block read from the store is one that was received under its own root. -/
theorem NInv.loaded (W : World E t vals bs a0 K)
    (I : NInv E t vals a0 body K root anchor X ops s) {r : Root} (hr : r ≠ root) {sb : SignedBlock}
    (h : getSignedBlock E.H s.mem.db r = some sb) :
    K (sb.block.header E.H) ∧ sb.block.root E.H = r ∧
      s.mem.db.headers.get? r = some (sb.block.header E.H) := by
  have B := run_blocks I.run
  have hkey : s.mem.db.headers.get? r = some (sb.block.header E.H) := by
    cases hl : lastBlock E.H ops r with
    | none =>
      have := B.absent r hl hr
      unfold getSignedBlock at h
      rw [this] at h
      cases h
    | some s0 =>
      have hh := B.hdr r s0 hl
      rw [hh]
      have hbr : (s0.block.header E.H).bodyRoot = E.H.body s0.block.body := rfl
      unfold getSignedBlock at h
      rw [hh] at h
      simp only at h
      have hbody : ∃ b, sb.block = fromHeaderAndBody (s0.block.header E.H) b ∧
          E.H.body b = E.H.body s0.block.body := by
        by_cases hb : (s0.block.header E.H).bodyRoot = E.H.body []
        · rw [if_pos hb] at h
          simp only at h
          refine ⟨[], ?_, hb.symm.trans hbr⟩
          split at h
          · cases h; rfl
          · split at h
            · cases h; rfl
            · cases h
        · rw [if_neg hb, B.bodyTab r s0 hl (by rw [← hbr]; exact hb)] at h
          simp only at h
          refine ⟨s0.block.body, ?_, rfl⟩
          split at h
          · cases h; rfl
          · split at h
            · cases h; rfl
            · cases h
      obtain ⟨b, e1, e2⟩ := hbody
      rw [e1]
      unfold Block.header fromHeaderAndBody
      simp only [e2]
  obtain ⟨k1, k2⟩ := I.hdrK W r _ hkey
  exact ⟨k1, k2, hkey⟩

end Verif.Node
