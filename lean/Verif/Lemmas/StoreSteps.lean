import Verif.Lemmas.StoreInv
/-!
# Every event keeps the node invariant
-/
namespace Verif.Node
open Verif Verif.Db Verif.Buffers

/-- The head descends from the justified block. -/
def Settled (s : Store) : Prop := HAnc s.mem.db.headers s.mem.db.justified.root s.mem.db.head

/-- Imported states and headers stay, and the justified checkpoint only rises. -/
structure Grow (root : Root) (anchor : State) (ops : List Db.Op) (s : Store)
    (ops' : List Db.Op) (s' : Store) : Prop where
  states : ∀ r st, stateOf root anchor ops r = some st → stateOf root anchor ops' r = some st
  headers : ∀ r h, s.mem.db.headers.get? r = some h → s'.mem.db.headers.get? r = some h
  just : s'.mem.db.justified = s.mem.db.justified ∨
    s.mem.db.justified.slot < s'.mem.db.justified.slot

/-- What an event may do to what was there before: in addition, head and justified checkpoint stay
or the head descends from the justified block. -/
structure Ext (root : Root) (anchor : State) (ops : List Db.Op) (s : Store)
    (ops' : List Db.Op) (s' : Store) : Prop where
  states : ∀ r st, stateOf root anchor ops r = some st → stateOf root anchor ops' r = some st
  headers : ∀ r h, s.mem.db.headers.get? r = some h → s'.mem.db.headers.get? r = some h
  just : s'.mem.db.justified = s.mem.db.justified ∨
    s.mem.db.justified.slot < s'.mem.db.justified.slot
  keep : (s'.mem.db.head = s.mem.db.head ∧ s'.mem.db.justified = s.mem.db.justified) ∨ Settled s'

theorem Ext.refl {root : Root} {anchor : State} {ops : List Db.Op} {s : Store} :
    Ext root anchor ops s ops s := ⟨fun _ _ h => h, fun _ _ h => h, .inl rfl, .inl ⟨rfl, rfl⟩⟩

theorem Grow.trans {root : Root} {anchor : State} {ops ops' ops'' : List Db.Op} {s s' s'' : Store}
    (a : Grow root anchor ops s ops' s') (b : Grow root anchor ops' s' ops'' s'') :
    Grow root anchor ops s ops'' s'' := by
  refine ⟨fun r st h => b.states r st (a.states r st h),
    fun r h e => b.headers r h (a.headers r h e), ?_⟩
  rcases a.just with h1 | h1 <;> rcases b.just with h2 | h2
  · exact .inl (h2.trans h1)
  · exact .inr (by rw [← h1]; exact h2)
  · exact .inr (by rw [h2]; exact h1)
  · exact .inr (by omega)

theorem Ext.grow {root : Root} {anchor : State} {ops ops' : List Db.Op} {s s' : Store}
    (a : Ext root anchor ops s ops' s') : Grow root anchor ops s ops' s' :=
  ⟨a.states, a.headers, a.just⟩

theorem Grow.ext {root : Root} {anchor : State} {ops ops' : List Db.Op} {s s' : Store}
    (a : Grow root anchor ops s ops' s') (h : Settled s') : Ext root anchor ops s ops' s' :=
  ⟨a.states, a.headers, a.just, .inr h⟩

theorem Ext.trans {root : Root} {anchor : State} {ops ops' ops'' : List Db.Op} {s s' s'' : Store}
    (a : Ext root anchor ops s ops' s') (b : Ext root anchor ops' s' ops'' s'') :
    Ext root anchor ops s ops'' s'' := by
  have g := a.grow.trans b.grow
  refine ⟨g.states, g.headers, g.just, ?_⟩
  rcases b.keep with ⟨h1, h2⟩ | h
  · rcases a.keep with ⟨h3, h4⟩ | h
    · exact .inl ⟨h1.trans h3, h2.trans h4⟩
    · right
      unfold Settled at *
      rw [h1, h2]
      exact h.mono b.headers
  · exact .inr h

variable {E : Env} {t : Nat} {vals : List Validator} {bs : List Block} {a0 : State}
  {body : Option (List AggAtt)} {K : Header → Prop} {root : Root} {anchor : State}
  {X : State → Prop} {ops : List Db.Op} {s : Store}

/-- A call that succeeds and keeps the invariant. -/
def Succeeds (E : Env) (t : Nat) (vals : List Validator) (a0 : State)
    (body : Option (List AggAtt)) (K : Header → Prop) (root : Root) (anchor : State)
    (X : State → Prop) (ops : List Db.Op) (s : Store) (r : P Store) : Prop :=
  ∃ s' ops', r = .ok s' ∧ NInv E t vals a0 body K root anchor X ops' s' ∧
    Ext root anchor ops s ops' s'

/-- The invariant speaks only about these parts of the database. -/
theorem CInv.congr {G : Root → Option State} {db db' : Db} (C : CInv root anchor G X db)
    (h1 : db'.liveChain = db.liveChain) (h2 : db'.justified = db.justified)
    (h3 : db'.finalized = db.finalized) (h4 : db'.head = db.head)
    (h5 : db'.headers = db.headers) (h6 : ∃ st, G db'.safeTarget = some st) :
    CInv root anchor G X db' := by
  refine ⟨?_, ?_, ?_, ?_, ?_, ?_, ?_, ?_, h6, ?_, ?_⟩
  · rw [h1]; exact C.live
  · rw [h1, h2]; exact C.liveFull
  · rw [h2]; exact C.just
  · rw [h2]; exact C.justMax
  · rw [h2]; exact C.justOf
  · rw [h3]; exact C.fin
  · rw [h2, h3]; exact C.finLe
  · rw [h4]; exact C.head
  · rw [h3, h4, h5]; exact C.finHead
  · rw [h3]; exact C.finOf

/-- The buffers do not matter to the rest. -/
theorem NInv.buffers (I : NInv E t vals a0 body K root anchor X ops s) {s' : Store}
    (hm : s'.mem = s.mem) (hb : BInv E.H s') : NInv E t vals a0 body K root anchor X ops s' :=
  ⟨by rw [hm]; exact I.run, I.opsK, by rw [hm]; exact I.tree, by rw [hm]; exact I.cp, hb⟩

theorem NInv.succeeds_updateHead (W : World E t vals bs a0 K)
    (A : AnchorOk E.H (State.fromGenesis E.H t vals) K root anchor)
    (I : NInv E t vals a0 body K root anchor X ops s) :
    Succeeds E t vals a0 body K root anchor X ops s (Node.updateHead s) := by
  obtain ⟨s', ops', h1, h2, h3, h4, h5, h6, -⟩ := I.updateHead W A
  exact ⟨s', ops', h1, h2, by rw [h3]; exact fun _ _ h => h, by rw [h4]; exact fun _ _ h => h,
    .inl h5, .inr h6⟩

theorem NInv.succeeds_acceptNew (W : World E t vals bs a0 K)
    (A : AnchorOk E.H (State.fromGenesis E.H t vals) K root anchor)
    (I : NInv E t vals a0 body K root anchor X ops s) :
    Succeeds E t vals a0 body K root anchor X ops s (acceptNew E.H s) := by
  obtain ⟨k, h1, h2⟩ := good_pushBatch I.buf.known s.newP.drain.1
  have hp : promoteNew E.H s = .ok { s with
      newP := s.newP.drain.2, knownP := k, fc := Votes.promote E.H s.fc s.fc.new } := by
    unfold promoteNew
    simp only [h1]
  have I1 := I.buffers (s' := { s with
      newP := s.newP.drain.2, knownP := k, fc := Votes.promote E.H s.fc s.fc.new }) rfl
    ⟨good_drain I.buf.new, h2, I.buf.gossip, I.buf.gossipBound⟩
  obtain ⟨s', ops', e1, e2, e3⟩ := I1.succeeds_updateHead W A
  refine ⟨s', ops', ?_, e2, e3.states, e3.headers, e3.just, e3.keep⟩
  unfold acceptNew
  rw [hp]
  exact e1

theorem NInv.setTime (I : NInv E t vals a0 body K root anchor X ops s) (n : Nat) :
    NInv E t vals a0 body K root anchor X (.setTime n :: ops) (s.setTime n) :=
  I.quiet (s' := s.setTime n) (by exact trivial) (by exact trivial) rfl rfl
    (I.cp.congr rfl rfl rfl rfl rfl I.cp.safe)
    ⟨I.buf.new, I.buf.known, I.buf.gossip, I.buf.gossipBound⟩

theorem NInv.succeeds_updateSafeTarget (W : World E t vals bs a0 K)
    (I : NInv E t vals a0 body K root anchor X ops s) :
    Succeeds E t vals a0 body K root anchor X ops s (updateSafeTarget s) := by
  obtain ⟨st, hst⟩ := I.cp.head
  obtain ⟨s1, g1, g2, g3, I1⟩ := I.getState W s.mem.db.head
  rw [hst] at g1
  have hs : headState s = .ok (st, s1) := by
    unfold headState
    rw [g1]
  obtain ⟨sx, hx, -⟩ := I1.ghost W (Votes.safeVotes s1.fc) ((st.validators.length * 2 + 2) / 3)
  have I2 := I1.quiet (s' := { s1 with mem := { s1.mem with db := { s1.mem.db with
      safeTarget := ForkChoice.safeTarget st.validators.length s1.mem.db.justified.root
        (getLiveChain s1.mem.db) (Votes.safeVotes s1.fc) } } })
    (op := .setSafeTarget (ForkChoice.safeTarget st.validators.length s1.mem.db.justified.root
        (getLiveChain s1.mem.db) (Votes.safeVotes s1.fc)))
    (by exact trivial) (by exact trivial) rfl rfl
    (I1.cp.congr rfl rfl rfl rfl rfl ⟨sx, hx⟩)
    ⟨I1.buf.new, I1.buf.known, I1.buf.gossip, I1.buf.gossipBound⟩
  refine ⟨_, _, ?_, I2, ?_, ?_, .inl ?_, .inl ⟨?_, ?_⟩⟩
  · unfold updateSafeTarget
    rw [hs]
  · intro r st h
    rw [stateOf_quiet (by exact trivial), stateOf_quiet (by exact trivial)]
    exact h
  · intro r h e
    show s1.mem.db.headers.get? r = some h
    rw [g2]; exact e
  · show s1.mem.db.justified = _
    rw [g2]
  · show s1.mem.db.head = _
    rw [g2]
  · show s1.mem.db.justified = _
    rw [g2]

theorem NInv.succeeds_duty (W : World E t vals bs a0 K)
    (A : AnchorOk E.H (State.fromGenesis E.H t vals) K root anchor)
    (I : NInv E t vals a0 body K root anchor X ops s) (i : Interval) (p : Bool) :
    Succeeds E t vals a0 body K root anchor X ops s (duty E.H s i p) := by
  cases i with
  | publication =>
    cases p with
    | true => exact I.succeeds_acceptNew W A
    | false => exact ⟨s, ops, rfl, I, .refl⟩
  | attestation => exact ⟨s, ops, rfl, I, .refl⟩
  | aggregation => exact ⟨s, ops, rfl, I, .refl⟩
  | safeTarget => exact I.succeeds_updateSafeTarget W
  | endOfSlot => exact I.succeeds_acceptNew W A

theorem Ext.setTime (n : Nat) : Ext root anchor ops s (.setTime n :: ops) (s.setTime n) :=
  ⟨fun r st h => by rw [stateOf_quiet (by exact trivial)]; exact h, fun _ _ h => h, .inl rfl,
    .inl ⟨rfl, rfl⟩⟩

theorem ofCount_some (n : Nat) : ∃ i, Interval.ofCount n = some i := by
  unfold Interval.ofCount
  have h := Nat.mod_lt n (show 0 < intervalsPerSlot by decide)
  generalize n % intervalsPerSlot = k at h
  have h : k < 5 := h
  match k, h with
  | 0, _ => exact ⟨_, rfl⟩
  | 1, _ => exact ⟨_, rfl⟩
  | 2, _ => exact ⟨_, rfl⟩
  | 3, _ => exact ⟨_, rfl⟩
  | 4, _ => exact ⟨_, rfl⟩

theorem NInv.succeeds_tickLoop (W : World E t vals bs a0 K)
    (A : AnchorOk E.H (State.fromGenesis E.H t vals) K root anchor) (target : Nat) (p : Bool)
    (n : Nat) : ∀ {ops : List Db.Op} {s : Store},
    NInv E t vals a0 body K root anchor X ops s →
    Succeeds E t vals a0 body K root anchor X ops s (tickLoop E.H target p n s) := by
  induction n with
  | zero => intro ops s I; exact ⟨s, ops, rfl, I, .refl⟩
  | succ n ih =>
    intro ops s I
    have I1 := I.setTime (s.mem.db.time + 1)
    obtain ⟨i, hi⟩ := ofCount_some (s.setTime (s.mem.db.time + 1)).mem.db.time
    obtain ⟨s2, ops2, e1, I2, x2⟩ := I1.succeeds_duty W A i
      (p && decide ((s.setTime (s.mem.db.time + 1)).mem.db.time = target))
    obtain ⟨s3, ops3, e3, I3, x3⟩ := ih I2
    refine ⟨s3, ops3, ?_, I3, ((Ext.setTime _).trans x2).trans x3⟩
    unfold tickLoop
    simp only [hi, e1]
    exact e3

theorem NInv.succeeds_onTick (W : World E t vals bs a0 K)
    (A : AnchorOk E.H (State.fromGenesis E.H t vals) K root anchor)
    (I : NInv E t vals a0 body K root anchor X ops s) (ts : Nat) (p : Bool) :
    Succeeds E t vals a0 body K root anchor X ops s (onTick E.H s ts p) := by
  unfold onTick
  simp only
  split
  · obtain ⟨s', ops', h1, h2, h3⟩ := NInv.succeeds_tickLoop W A (tickTarget s.genesisTime ts) p
      (tickTarget s.genesisTime ts -
        (s.setTime (tickTarget s.genesisTime ts - intervalsPerSlot)).mem.db.time)
      (I.setTime (tickTarget s.genesisTime ts - intervalsPerSlot))
    exact ⟨s', ops', h1, h2, (Ext.setTime _).trans h3⟩
  · exact NInv.succeeds_tickLoop W A _ p _ I

/-! ## Blocks -/

/-- Writing a block's header. -/
theorem NInv.writeHeader (W : World E t vals bs a0 K)
    (I : NInv E t vals a0 body K root anchor X ops s) (b : Block) (hk : K (b.header E.H))
    (hs : anchor.slot < b.slot) :
    (∀ r h, s.mem.db.headers.get? r = some h →
      (s.mem.db.headers.insert (b.root E.H) (b.header E.H)).get? r = some h) ∧
    (∀ r h, (s.mem.db.headers.insert (b.root E.H) (b.header E.H)).get? r = some h →
      r = root ∨ anchor.slot < h.slot) := by
  constructor
  · intro r h e
    rw [AMap.get?_insert]
    split
    next hr =>
      obtain ⟨k1, k2⟩ := I.hdrK W r h e
      have := W.collisionFree _ _ hk k1 (by rw [k2, ← hr]; rfl)
      rw [this]
    · exact e
  · intro r h e
    rw [AMap.get?_insert] at e
    split at e
    · cases e; exact .inr hs
    · exact I.tree.hdrSlot r h e

theorem NInv.anchor_le_fin (I : NInv E t vals a0 body K root anchor X ops s) :
    anchor.slot ≤ s.mem.db.finalized.slot := by
  obtain ⟨st, h1, h2⟩ := I.cp.fin
  rw [← h2]
  exact I.tree.slot_ge h1

theorem seen_insert {H : Hash} {sb : SignedBlock} {op : Db.Op}
    (ho : op = .insertPending sb ∨ op = .insertSigned sb) {h : Header}
    (hs : seen H anchor (op :: ops) h) : h = sb.block.header H ∨ seen H anchor ops h := by
  rcases hs with rfl | ⟨sb', h1 | h1, e⟩
  · exact .inr (.inl rfl)
  · rcases List.mem_cons.1 h1 with h1 | h1
    · rcases ho with rfl | rfl
      · cases h1
      · cases h1; exact .inl e.symm
    · exact .inr (.inr ⟨sb', .inl h1, e⟩)
  · rcases List.mem_cons.1 h1 with h1 | h1
    · rcases ho with rfl | rfl
      · cases h1; exact .inl e.symm
      · cases h1
    · exact .inr (.inr ⟨sb', .inr h1, e⟩)

/-- Storing a block whose parent is not there yet. -/
theorem NInv.succeeds_pending (W : World E t vals bs a0 K)
    (A : AnchorOk E.H (State.fromGenesis E.H t vals) K root anchor)
    (I : NInv E t vals a0 body K root anchor X ops s) (sb : SignedBlock)
    (hk : K (sb.block.header E.H)) (hs : s.mem.db.finalized.slot < sb.block.slot) :
    Succeeds E t vals a0 body K root anchor X ops s (.ok { s with mem := { s.mem with
      db := insertPendingBlock E.H s.mem.db (sb.block.root E.H) sb } }) := by
  have hlt : anchor.slot < sb.block.slot := Nat.lt_of_le_of_lt I.anchor_le_fin hs
  obtain ⟨h1, h2⟩ := I.writeHeader W sb.block hk hlt
  refine ⟨_, .insertPending sb :: ops, rfl, ⟨I.run.step trivial rfl, ?_, ?_, ?_,
    ⟨I.buf.new, I.buf.known, I.buf.gossip, I.buf.gossipBound⟩⟩, ?_, h1, .inl rfl, .inl ⟨rfl, rfl⟩⟩
  · intro h hh
    rcases seen_insert (.inl rfl) hh with rfl | hh
    · exact hk
    · exact I.opsK h hh
  · exact I.tree.mono h1 h2
  · have C := I.cp
    refine ⟨C.live, C.liveFull, C.just, C.justMax, C.justOf, C.fin, C.finLe, C.head, C.safe, ?_,
      C.finOf⟩
    intro st hst hh
    have T' : TInv E.H (State.fromGenesis E.H t vals) root anchor (stateOf root anchor ops)
      (s.mem.db.headers.insert (sb.block.root E.H) (sb.block.header E.H)) := I.tree.mono h1 h2
    have hK' : ∀ r h, (s.mem.db.headers.insert (sb.block.root E.H) (sb.block.header E.H)).get? r =
        some h → K h ∧ E.H.header h = r := by
      intro r h e
      rw [AMap.get?_insert] at e
      split at e
      next hr => cases e; exact ⟨hk, hr⟩
      · exact I.hdrK W r h e
    obtain ⟨-, ⟨sx, hx, -⟩, -⟩ := T'.finalized A rfl W.headerNZ hK' W.collisionFree hst hh
    refine C.finHead st hst ?_
    rw [(I.tree.own _ _ hx).2]; rfl
  · exact fun _ _ h => h

/-- Raising the justified checkpoint to that of a freshly computed post-state. -/
theorem NInv.raise (W : World E t vals bs a0 K)
    (I : NInv E t vals a0 body K root anchor X ops s) {p st : State} {b : Block}
    (C : TInv.Child E.H (State.fromGenesis E.H t vals) anchor (stateOf root anchor ops)
      s.mem.db.headers p b st) :
    ∃ s' ops', raiseJustified s st = .ok s' ∧
      NInv E t vals a0 body K root anchor (Plus X st) ops' s' ∧
      stateOf root anchor ops' = stateOf root anchor ops ∧
      s'.mem.db.headers = s.mem.db.headers ∧
      st.latestJustified.slot ≤ s'.mem.db.justified.slot ∧
      Grow root anchor ops s ops' s' := by
  have weaken : NInv E t vals a0 body K root anchor (Plus X st) ops s := by
    refine ⟨I.run, I.opsK, I.tree, ?_, I.buf⟩
    have C := I.cp
    refine ⟨C.live, C.liveFull, C.just, C.justMax, ?_, C.fin, C.finLe, C.head, C.safe, C.finHead,
      C.finOf⟩
    rcases C.justOf with h | ⟨x, h | h, e⟩
    · exact .inl h
    · exact .inr ⟨x, .inl (.inr h), e⟩
    · exact .inr ⟨x, .inr h, e⟩
  unfold raiseJustified
  by_cases hc : st.latestJustified.slot > s.mem.db.justified.slot
  · rw [if_pos hc]
    obtain ⟨cs, hne, hch⟩ := C.chain
    obtain ⟨-, -, c3, c4⟩ := C06_checkpoints_in_history W.headerNZ hch hne
    obtain ⟨-, -, c3', -⟩ := C06_checkpoints_in_history W.headerNZ hch hne
    have hge : anchor.slot ≤ st.latestJustified.slot := by
      have := I.anchor_le_fin
      have := I.cp.finLe
      omega
    obtain ⟨sh, hsh⟩ := I.cp.head
    have hj : ∃ sx, stateOf root anchor ops st.latestJustified.root = some sx ∧
        sx.slot = st.latestJustified.slot := by
      have h6 := C06_checkpoints_in_history W.headerNZ hch hne
      obtain ⟨-, sx, h1, h2⟩ := C.hist _ _ hge h6.1 h6.2.2.1
      exact ⟨sx, h1, h2⟩
    obtain ⟨s', e1, I', e2, e3, e4, e5, -⟩ := I.setCheckpoints W (Y := Plus X st)
      (r := s.mem.db.head) (j := some st.latestJustified) (f := none) ⟨sh, hsh⟩
      (by intro c hcc; cases hcc; exact ⟨hc, hj, st, .inl rfl, rfl⟩) (fun h => by cases h)
      (fun c h => by cases h) (by
        intro x hx hk
        exact I.cp.finHead x hx hk)
    refine ⟨s', _, e1, I', stateOf_quiet (by exact trivial), e2, ?_, ?_, ?_, .inr ?_⟩
    · rw [e4]; exact Nat.le_refl _
    · intro r x h; rw [stateOf_quiet (by exact trivial)]; exact h
    · rw [e2]; exact fun _ _ h => h
    · rw [e4]; exact hc
  · rw [if_neg hc]
    exact ⟨s, ops, rfl, weaken, rfl, rfl, Nat.le_of_not_gt hc, fun _ _ h => h,
      fun _ _ h => h, .inl rfl⟩

theorem insertState_safe {H : Hash} {m m' : Mem} {r : Root} {st : State}
    (h : insertState H m r st = .ok m') :
    m'.db.safeTarget = m.db.safeTarget ∧ m'.db.time = m.db.time := by
  unfold insertState at h
  split at h
  · cases h
  · cases h
  next p m1 e =>
    have := getState_db e
    simp only at h
    split at h
    · cases h
    · cases h
      simp only [this, and_self]

/-- Storing a block and its post-state. -/
theorem NInv.store (W : World E t vals bs a0 K)
    (A : AnchorOk E.H (State.fromGenesis E.H t vals) K root anchor)
    {p st : State} {sb : SignedBlock}
    (I : NInv E t vals a0 body K root anchor (Plus X st) ops s)
    (hp : stateOf root anchor ops sb.block.parentRoot = some p)
    (C : TInv.Child E.H (State.fromGenesis E.H t vals) anchor (stateOf root anchor ops)
      s.mem.db.headers p sb.block st)
    (hnew : stateOf root anchor ops (sb.block.root E.H) = none) (hk : K (sb.block.header E.H))
    (hj : st.latestJustified.slot ≤ s.mem.db.justified.slot) :
    ∃ s' ops', putState E.H (insertSigned E.H s (sb.block.root E.H) sb) (sb.block.root E.H) st
        = .ok s' ∧ NInv E t vals a0 body K root anchor X ops' s' ∧
      Grow root anchor ops s ops' s' ∧
      stateOf root anchor ops' (sb.block.root E.H) = some st := by
  have hlt : anchor.slot < sb.block.slot := Nat.lt_of_le_of_lt (I.tree.slot_ge hp) C.lt
  obtain ⟨w1, w2⟩ := I.writeHeader W sb.block hk hlt
  have hroot : E.H.header st.latestBlockHeader = sb.block.root E.H := by rw [C.hdr]; rfl
  have hrun1 : Db.Run E.H a0 body root anchor (.insertSigned sb :: ops)
      { s.mem with db := insertSignedBlock E.H s.mem.db (sb.block.root E.H) sb } :=
    I.run.step trivial rfl
  have hseen : ∀ h, seen E.H anchor (.insertSigned sb :: ops) h → K h := by
    intro h hh
    rcases seen_insert (.inr rfl) hh with rfl | hh
    · exact hk
    · exact I.opsK h hh
  have hcf : CollisionFree E.H anchor (.insertSigned sb :: ops) :=
    fun a b ha hb => W.collisionFree a b (hseen a ha) (hseen b hb)
  have hall : Allowed E.H root anchor (.insertSigned sb :: ops)
      { s.mem with db := insertSignedBlock E.H s.mem.db (sb.block.root E.H) sb }
      (.insertState (sb.block.root E.H) st) := by
    refine ⟨hroot, ⟨sb, .inl List.mem_cons_self, C.hdr.symm⟩, ⟨p, ?_, C.valid⟩, .inl hnew⟩
    rw [C.hdr]; exact hp
  have hJ := run_inv hrun1 hcf
  obtain ⟨m', e1, e2, -⟩ := insertState_repr hJ.repr hroot
    (by
      have h := hJ.stored _ ⟨sb, .inl List.mem_cons_self, C.hdr.symm⟩
      rw [hroot] at h
      exact h)
    (by rw [C.hdr]; exact hp) C.valid (.inl hnew)
  obtain ⟨-, -, -, d4, -, d6, d7, d8⟩ := insertState_db e1
  have d9 := insertState_safe e1
  have hrun2 := hrun1.step hall (m' := m') e1
  have hG : stateOf root anchor (.insertState (sb.block.root E.H) st :: .insertSigned sb :: ops)
      = fun r => if r = sb.block.root E.H then some st else stateOf root anchor ops r := rfl
  have T' := I.tree.insert hp C hnew w1 w2 (AMap.get?_insert_self _ _ _)
  have old : ∀ r x, stateOf root anchor ops r = some x →
      (if r = sb.block.root E.H then some st else stateOf root anchor ops r) = some x := by
    intro r x h
    rw [if_neg]
    · exact h
    · intro e; rw [e, hnew] at h; cases h
  refine ⟨{ (insertSigned E.H s (sb.block.root E.H) sb) with mem := m' }, _, ?_,
    ⟨hrun2, ?_, ?_, ?_, ⟨I.buf.new, I.buf.known, I.buf.gossip, I.buf.gossipBound⟩⟩,
    ⟨?_, ?_, .inl ?_⟩, ?_⟩
  · unfold putState insertSigned
    simp only
    rw [e1]
  · intro h hh
    rcases hh with rfl | ⟨sb', h1 | h1, e⟩
    · exact hseen _ (.inl rfl)
    · rcases List.mem_cons.1 h1 with h1 | h1
      · cases h1
      · exact hseen _ (.inr ⟨sb', .inl h1, e⟩)
    · rcases List.mem_cons.1 h1 with h1 | h1
      · cases h1
      · exact hseen _ (.inr ⟨sb', .inr h1, e⟩)
  · rw [hG]
    show TInv _ _ _ _ _ m'.db.headers
    rw [e2]
    exact T'
  · rw [hG]
    have P := I.cp
    have hl : m'.db.liveChain = s.mem.db.liveChain.insert
        (sb.block.slot, sb.block.root E.H) sb.block.parentRoot := d6
    have d4 : m'.db.head = s.mem.db.head := d4
    have d7 : m'.db.justified = s.mem.db.justified := d7
    have d8 : m'.db.finalized = s.mem.db.finalized := d8
    have d9 : m'.db.safeTarget = s.mem.db.safeTarget := d9.1
    show CInv _ _ _ _ m'.db
    refine ⟨?_, ?_, ?_, ?_, ?_, ?_, ?_, ?_, ?_, ?_, ?_⟩
    · intro n r q h
      rw [hl] at h
      rcases mem_insert_imp h with h | h
      · cases h
        exact ⟨st, by simp, C.slot, by rw [C.hdr]; rfl⟩
      · obtain ⟨x, h1, h2⟩ := P.live n r q h
        exact ⟨x, old _ _ h1, h2⟩
    · intro r x hx hle
      rw [hl]
      split at hx
      next e =>
        cases hx
        rw [e, C.slot, C.hdr]
        exact mem_insert_self _ _ _
      next e =>
        refine mem_insert_of_ne (P.liveFull r x hx (by rw [d7] at hle; exact hle)) ?_
        intro h
        exact e (Prod.mk.inj h).2
    · rw [d7]
      obtain ⟨x, h1, h2⟩ := P.just
      exact ⟨x, old _ _ h1, h2⟩
    · intro r x hx
      rw [d7]
      split at hx
      · cases hx; exact hj
      · exact P.justMax r x hx
    · rw [d7]
      rcases P.justOf with h | ⟨x, h | ⟨r, h⟩, e⟩
      · exact .inl h
      · rcases h with rfl | h
        · exact .inr ⟨x, .inr ⟨sb.block.root E.H, by simp⟩, e⟩
        · exact .inr ⟨x, .inl h, e⟩
      · exact .inr ⟨x, .inr ⟨r, old _ _ h⟩, e⟩
    · rw [d8]
      obtain ⟨x, h1, h2⟩ := P.fin
      exact ⟨x, old _ _ h1, h2⟩
    · rw [d7, d8]; exact P.finLe
    · rw [d4]
      obtain ⟨x, h1⟩ := P.head
      exact ⟨x, old _ _ h1⟩
    · rw [d9]
      obtain ⟨x, h1⟩ := P.safe
      exact ⟨x, old _ _ h1⟩
    · intro x hx hh
      rw [d4] at hx
      obtain ⟨y, hy⟩ := P.head
      rw [old _ _ hy] at hx
      cases hx
      rw [d8]
      refine P.finHead x hy ?_
      have T'' : TInv E.H (State.fromGenesis E.H t vals) root anchor (stateOf root anchor ops)
          (s.mem.db.headers.insert (sb.block.root E.H) (sb.block.header E.H)) := I.tree.mono w1 w2
      have hK' : ∀ r h, (s.mem.db.headers.insert (sb.block.root E.H)
          (sb.block.header E.H)).get? r = some h → K h ∧ E.H.header h = r := by
        intro r h e
        rw [AMap.get?_insert] at e
        split at e
        next hr => cases e; exact ⟨hk, hr⟩
        · exact I.hdrK W r h e
      obtain ⟨-, ⟨sx, hx, -⟩, -⟩ := T''.finalized A rfl W.headerNZ hK' W.collisionFree hy
        (by rw [e2] at hh; exact hh)
      rw [(I.tree.own _ _ hx).2]; rfl
    · rw [d8]
      rcases P.finOf with h | ⟨r, x, h1, h2⟩
      · exact .inl h
      · exact .inr ⟨r, x, old _ _ h1, h2⟩
  · intro r x h
    rw [hG]
    exact old r x h
  · intro r h e
    show m'.db.headers.get? r = some h
    rw [e2]
    exact w1 r h e
  · exact d7
  · rw [hG]; simp

theorem NInv.succeeds_commit (W : World E t vals bs a0 K)
    (A : AnchorOk E.H (State.fromGenesis E.H t vals) K root anchor)
    {p st : State} {sb : SignedBlock}
    (I : NInv E t vals a0 body K root anchor X ops s)
    (hp : stateOf root anchor ops sb.block.parentRoot = some p)
    (hi : importState E.H p sb.block = .ok st)
    (hnew : stateOf root anchor ops (sb.block.root E.H) = none) (hk : K (sb.block.header E.H)) :
    ∃ s' ops', commitBlock E.H s sb st = .ok s' ∧
      NInv E t vals a0 body K root anchor X ops' s' ∧ Ext root anchor ops s ops' s' ∧
      stateOf root anchor ops' (sb.block.root E.H) = some st := by
  have C := I.tree.child A W.stateNZ hp hi
  obtain ⟨s1, ops1, e1, I1, g1, h1, j1, x1⟩ := I.raise W C
  rw [← g1] at hp hnew
  rw [← g1, ← h1] at C
  obtain ⟨s2, ops2, e2, I2, x2, n2⟩ := I1.store W A hp C hnew hk j1
  obtain ⟨s3, ops3, e3, I3, h3, h4, h5, h6, -⟩ := I2.updateHead W A
  have x3 : Grow root anchor ops2 s2 ops3 s3 :=
    ⟨by rw [h3]; exact fun _ _ h => h, by rw [h4]; exact fun _ _ h => h, .inl h5⟩
  refine ⟨s3, ops3, ?_, I3, ((x1.trans x2).trans x3).ext h6, x3.states _ _ n2⟩
  unfold commitBlock
  rw [e1]
  simp only
  rw [e2]
  exact e3

/-- Importing a block never panics. -/
theorem NInv.onBlock (W : World E t vals bs a0 K)
    (A : AnchorOk E.H (State.fromGenesis E.H t vals) K root anchor)
    (I : NInv E t vals a0 body K root anchor X ops s) (sb : SignedBlock)
    (hk : K (sb.block.header E.H)) :
    ∃ s' ops' r, onBlock E s sb = .ok (s', r) ∧
      NInv E t vals a0 body K root anchor X ops' s' ∧ Ext root anchor ops s ops' s' := by
  unfold Node.onBlock
  by_cases hh : hasState s.mem.db (sb.block.root E.H) = true
  · rw [if_pos hh]; exact ⟨s, ops, _, rfl, I, .refl⟩
  · rw [if_neg hh]
    obtain ⟨s1, g1, g2, -, I1⟩ := I.getState W sb.block.parentRoot
    rw [g1]
    have q := stateOf_quiet (root := root) (anchor := anchor) (ops := ops)
      (op := .readState sb.block.parentRoot) trivial
    have x1 : Ext root anchor ops s (.readState sb.block.parentRoot :: ops) s1 :=
      ⟨by rw [q]; exact fun _ _ h => h, by rw [g2]; exact fun _ _ h => h, .inl (by rw [g2]),
      .inl ⟨by rw [g2], by rw [g2]⟩⟩
    have hnew : stateOf root anchor ops (sb.block.root E.H) = none := by
      rw [hasState_iff (I.inv W).repr] at hh
      cases h : stateOf root anchor ops (sb.block.root E.H) with
      | none => rfl
      | some x => rw [h] at hh; exact absurd rfl hh
    cases hp : stateOf root anchor ops sb.block.parentRoot with
    | none => exact ⟨s1, _, _, rfl, I1, x1⟩
    | some p =>
      simp only
      cases hc : checkBlock E s1 p sb with
      | error e => exact ⟨s1, _, _, rfl, I1, x1⟩
      | ok st =>
        have hi : importState E.H p sb.block = .ok st := by
          unfold checkBlock at hc
          split at hc
          · cases hc
          split at hc
          · cases hc
          split at hc
          · cases hc
          split at hc
          · cases hc
          split at hc
          · cases hc
          split at hc
          · cases hc
          next h => cases hc; exact h
        obtain ⟨s2, ops2, e2, I2, x2, -⟩ := I1.succeeds_commit W A (by rw [q]; exact hp) hi
          (by rw [q]; exact hnew) hk
        simp only
        rw [e2]
        exact ⟨s2, ops2, _, rfl, I2, x1.trans x2⟩

theorem NInv.succeeds_block (W : World E t vals bs a0 K)
    (A : AnchorOk E.H (State.fromGenesis E.H t vals) K root anchor)
    (I : NInv E t vals a0 body K root anchor X ops s) (sb : SignedBlock)
    (hk : K (sb.block.header E.H)) :
    Succeeds E t vals a0 body K root anchor X ops s (processOrPend E s sb) := by
  unfold processOrPend
  by_cases h1 : sb.block.slot ≤ s.mem.db.finalized.slot
  · rw [if_pos h1]; exact ⟨s, ops, rfl, I, .refl⟩
  rw [if_neg h1]
  by_cases h2 : sb.block.slot * intervalsPerSlot > s.mem.db.time + gossipDisparity
  · rw [if_pos h2]; exact ⟨s, ops, rfl, I, .refl⟩
  rw [if_neg h2]
  by_cases h3 : hasState s.mem.db sb.block.parentRoot = true
  · rw [if_neg (by simpa using h3)]
    obtain ⟨s', ops', r, e, I', x⟩ := I.onBlock W A sb hk
    rw [e]
    exact ⟨s', ops', rfl, I', x⟩
  · rw [if_pos h3]
    exact I.succeeds_pending W A sb hk (Nat.lt_of_not_le h1)

/-! ## Gossip -/

theorem countP_lt {α : Type} {p q : α → Bool} {l : List α} (hpq : ∀ x ∈ l, p x = true → q x = true)
    {x : α} (hx : x ∈ l) (h1 : q x = true) (h2 : p x = false) : l.countP p < l.countP q := by
  induction l with
  | nil => cases hx
  | cons y l ih =>
    have hle : l.countP p ≤ l.countP q :=
      List.countP_mono_left (fun z hz => hpq z (List.mem_cons_of_mem _ hz))
    rw [List.countP_cons, List.countP_cons]
    rcases List.mem_cons.1 hx with rfl | hx
    · rw [h1, h2]; simp; omega
    · have := ih (fun z hz => hpq z (List.mem_cons_of_mem _ hz)) hx
      have hy := hpq y List.mem_cons_self
      cases hp : p y
      · simp; omega
      · rw [hy hp]; simp; omega

/-- The headers at or below a rank. -/
def below (rank : Root → Nat) (hs : AMap Root Header) (r : Root) : Nat :=
  hs.countP (fun e => decide (rank e.1 ≤ rank r))

theorem below_parent {rank : Root → Nat} {hs : AMap Root Header}
    (hr : ∀ r h, hs.get? r = some h → rank h.parentRoot < rank r) {r : Root} {h : Header}
    (e : hs.get? r = some h) : below rank hs h.parentRoot < below rank hs r := by
  have hlt := hr r h e
  refine countP_lt (fun x _ hx => ?_) (AMap.mem_of_get? e) ?_ ?_
  · simp only [decide_eq_true_eq] at hx ⊢; omega
  · simp
  · simpa using hlt

theorem below_le (rank : Root → Nat) (hs : AMap Root Header) (r : Root) :
    below rank hs r < hs.length + 1 := Nat.lt_succ_of_le List.countP_le_length

theorem ancWalk_ok {rank : Root → Nat} {hs : AMap Root Header}
    (hr : ∀ r h, hs.get? r = some h → rank h.parentRoot < rank r) (anc : Checkpoint) (n : Nat) :
    ∀ cur, below rank hs cur < n → ∃ b, ancWalk hs anc n cur = .ok b := by
  induction n with
  | zero => intro cur h; omega
  | succ n ih =>
    intro cur h
    unfold ancWalk
    cases e : hs.get? cur with
    | none => exact ⟨_, rfl⟩
    | some hd =>
      simp only
      split
      · exact ⟨_, rfl⟩
      · split
        · exact ⟨_, rfl⟩
        · exact ih _ (by have := below_parent hr e; omega)

theorem checkpointIsAncestor_ok {rank : Root → Nat} {hs : AMap Root Header}
    (hr : ∀ r h, hs.get? r = some h → rank h.parentRoot < rank r) (a d : Checkpoint) (h : Header) :
    ∃ b, checkpointIsAncestor hs a d h = .ok b := by
  unfold checkpointIsAncestor
  split
  · exact ⟨_, rfl⟩
  · exact ancWalk_ok hr a _ _ (below_le rank hs _)

theorem validateData_ok {rank : Root → Nat}
    (hr : ∀ r h, s.mem.db.headers.get? r = some h → rank h.parentRoot < rank r) (d : AttData) :
    ∃ x, validateData s d = .ok x := by
  unfold validateData
  split
  · exact ⟨_, rfl⟩
  split
  · exact ⟨_, rfl⟩
  split
  · exact ⟨_, rfl⟩
  next sh _ _ th _ _ hh _ =>
  split
  · exact ⟨_, rfl⟩
  split
  · exact ⟨_, rfl⟩
  split
  · exact ⟨_, rfl⟩
  split
  · exact ⟨_, rfl⟩
  split
  · exact ⟨_, rfl⟩
  obtain ⟨b1, e1⟩ := checkpointIsAncestor_ok hr d.source d.target th
  obtain ⟨b2, e2⟩ := checkpointIsAncestor_ok hr d.target d.head hh
  obtain ⟨b3, e3⟩ := checkpointIsAncestor_ok hr s.mem.db.finalized d.head hh
  rw [e1, e2, e3]
  cases b1
  · exact ⟨_, rfl⟩
  cases b2
  · exact ⟨_, rfl⟩
  cases b3
  · exact ⟨_, rfl⟩
  simp only
  split
  · exact ⟨_, rfl⟩
  split
  · exact ⟨_, rfl⟩
  · exact ⟨_, rfl⟩

theorem NInv.readExt (W : World E t vals bs a0 K)
    (I : NInv E t vals a0 body K root anchor X ops s) (r : Root) :
    ∃ s', s.getState r = .ok (stateOf root anchor ops r, s') ∧
      NInv E t vals a0 body K root anchor X (.readState r :: ops) s' ∧
      Ext root anchor ops s (.readState r :: ops) s' := by
  obtain ⟨s1, g1, g2, -, I1⟩ := I.getState W r
  refine ⟨s1, g1, I1, fun x st h => ?_, by rw [g2]; exact fun _ _ h => h, .inl (by rw [g2]),
      .inl ⟨by rw [g2], by rw [g2]⟩⟩
  rw [stateOf_quiet (by exact trivial)]; exact h

theorem NInv.succeeds_attestation (W : World E t vals bs a0 K)
    (I : NInv E t vals a0 body K root anchor X ops s) (vid : Nat) (d : AttData) (sig : Nat)
    (agg : Bool) :
    Succeeds E t vals a0 body K root anchor X ops s
      (R.store (onGossipAttestation E s vid d sig agg)) := by
  obtain ⟨rank, hr⟩ := I.rank W
  obtain ⟨v, hv⟩ := validateData_ok hr d
  obtain ⟨s1, g1, I1, x1⟩ := I.readExt W d.target.root
  have same : Succeeds E t vals a0 body K root anchor X ops s (.ok s) := ⟨s, ops, rfl, I, .refl⟩
  have read : Succeeds E t vals a0 body K root anchor X ops s (.ok s1) := ⟨s1, _, rfl, I1, x1⟩
  unfold onGossipAttestation
  rw [hv]
  cases v with
  | error e => exact same
  | ok u =>
    simp only
    rw [g1]
    cases stateOf root anchor ops d.target.root with
    | none => exact read
    | some st =>
      simp only
      cases st.validators[vid]? with
      | none => exact read
      | some v =>
        simp only
        split
        · exact read
        split
        · exact read
        split
        · obtain ⟨g, b1, b2, b3, -⟩ := ginsert_spec E.H s1.gossip d vid sig I1.buf.gossip
            I1.buf.gossipBound
          rw [b1]
          exact ⟨_, _, rfl, I1.buffers rfl ⟨I1.buf.new, I1.buf.known, b2, b3⟩, x1.states,
            x1.headers, x1.just, x1.keep⟩
        · exact read

theorem NInv.insertNewPayload (I : NInv E t vals a0 body K root anchor X ops s) (d : AttData)
    (a : Agg) : Succeeds E t vals a0 body K root anchor X ops s (insertNewPayload E.H s d a) := by
  obtain ⟨b, e, g⟩ := good_push I.buf.new d a
  unfold Node.insertNewPayload
  rw [e]
  exact ⟨_, ops, rfl, I.buffers rfl ⟨g, I.buf.known, I.buf.gossip, I.buf.gossipBound⟩,
    fun _ _ h => h, fun _ _ h => h, .inl rfl, .inl ⟨rfl, rfl⟩⟩

theorem NInv.succeeds_aggregate (W : World E t vals bs a0 K)
    (I : NInv E t vals a0 body K root anchor X ops s) (d : AttData) (a : Agg) :
    Succeeds E t vals a0 body K root anchor X ops s (R.store (onGossipAggregate E s d a)) := by
  obtain ⟨rank, hr⟩ := I.rank W
  obtain ⟨v, hv⟩ := validateData_ok hr d
  obtain ⟨s1, g1, I1, x1⟩ := I.readExt W d.target.root
  have same : Succeeds E t vals a0 body K root anchor X ops s (.ok s) := ⟨s, ops, rfl, I, .refl⟩
  have read : Succeeds E t vals a0 body K root anchor X ops s (.ok s1) := ⟨s1, _, rfl, I1, x1⟩
  unfold onGossipAggregate
  rw [hv]
  cases v with
  | error e => exact same
  | ok u =>
    simp only
    rw [g1]
    cases stateOf root anchor ops d.target.root with
    | none => exact read
    | some st =>
      simp only
      split
      · exact read
      split
      · exact read
      split
      · exact read
      split
      · exact read
      obtain ⟨s2, ops2, e2, I2, x2⟩ := I1.insertNewPayload d a
      rw [e2]
      exact ⟨s2, ops2, rfl, I2, x1.trans x2⟩

theorem NInv.succeeds_own (I : NInv E t vals a0 body K root anchor X ops s) (d : AttData)
    (a : Agg) (keys : List (Nat × Root)) :
    Succeeds E t vals a0 body K root anchor X ops s (applyAggregate E.H s d a keys) := by
  obtain ⟨s2, ops2, e2, I2, x2⟩ := I.insertNewPayload d a
  obtain ⟨g, b1, b2, b3, b4, -⟩ := delete_spec E.H s2.gossip keys I2.buf.gossip
  unfold applyAggregate
  rw [e2]
  simp only
  rw [b1]
  have := I2.buf.gossipBound
  exact ⟨_, ops2, rfl, I2.buffers rfl ⟨I2.buf.new, I2.buf.known, b2, by
    show g.total ≤ g.capacity
    omega⟩, x2.states, x2.headers, x2.just, x2.keep⟩

theorem NInv.succeeds_prune (I : NInv E t vals a0 body K root anchor X ops s) :
    Succeeds E t vals a0 body K root anchor X ops s (step E s .prune) := by
  obtain ⟨st, hst⟩ := I.cp.head
  have hh := (I.tree.own _ _ hst).2
  have fr : ∀ (db : Db) (a c : Nat), (pruneBelow db a c).liveChain = db.liveChain ∧
      (pruneBelow db a c).justified = db.justified ∧ (pruneBelow db a c).finalized = db.finalized ∧
      (pruneBelow db a c).head = db.head ∧ (pruneBelow db a c).headers = db.headers ∧
      (pruneBelow db a c).safeTarget = db.safeTarget :=
    by intro db a c; unfold pruneBelow; split <;> exact ⟨rfl, rfl, rfl, rfl, rfl, rfl⟩
  obtain ⟨f1, f2, f3, f4, f5, f6⟩ := fr s.mem.db s.mem.db.finalized.slot
    (st.latestBlockHeader.slot - proofPruningRange)
  have e : pruneOldData s.mem.db = .ok (pruneBelow s.mem.db s.mem.db.finalized.slot
      (st.latestBlockHeader.slot - proofPruningRange)) := by
    unfold pruneOldData
    rw [hh]
    simp only [pruneProofs]
  generalize pruneBelow s.mem.db s.mem.db.finalized.slot
    (st.latestBlockHeader.slot - proofPruningRange) = db' at *
  refine ⟨{ s with mem := { s.mem with db := db' } }, .pruneOldData :: ops, ?_,
    I.quiet (by exact trivial) (by exact trivial) ?_ f5
      (I.cp.congr f1 f2 f3 f4 f5 (by rw [f6]; exact I.cp.safe))
    ⟨I.buf.new, I.buf.known, I.buf.gossip, I.buf.gossipBound⟩, ?_, ?_, .inl f2, .inl ⟨f4, f2⟩⟩
  · unfold Node.step
    rw [e]
  · show (match pruneOldData s.mem.db with
      | .error e => .error e | .ok db => .ok { s.mem with db := db } : P Mem) = _
    rw [e]
  · exact fun _ _ h => h
  · show ∀ r h, _ → db'.headers.get? r = some h
    rw [f5]; exact fun _ _ h => h

theorem BInv.fresh {H : Hash} (m : Mem) (fc : Votes.FC) (gt : Nat) :
    BInv H { mem := m, fc := fc, newP := PayloadBuffer.new 64, knownP := PayloadBuffer.new 512,
             gossip := GossipBuffer.new 2048, genesisTime := gt } :=
  ⟨good_new H 64, good_new H 512, gnew_inv H 2048, Nat.zero_le _⟩

theorem NInv.succeeds_restart (I : NInv E t vals a0 body K root anchor X ops s) :
    Succeeds E t vals a0 body K root anchor X ops s (step E s .restart) :=
  ⟨_, .restart :: ops, rfl, I.quiet (by exact trivial) (by exact trivial) rfl rfl
    (I.cp.congr rfl rfl rfl rfl rfl I.cp.safe) (BInv.fresh _ _ _), fun _ _ h => h,
    fun _ _ h => h, .inl rfl, .inl ⟨rfl, rfl⟩⟩

/-- The blocks of an event are among the known ones. -/
def EventK (H : Hash) (K : Header → Prop) : Event → Prop
  | .block sb => K (sb.block.header H)
  | .own sb => K (sb.block.header H)
  | _ => True

/-- **Every event succeeds and keeps the invariant.** -/
theorem NInv.step (W : World E t vals bs a0 K)
    (A : AnchorOk E.H (State.fromGenesis E.H t vals) K root anchor)
    (I : NInv E t vals a0 body K root anchor X ops s) (ev : Event) (hk : EventK E.H K ev) :
    Succeeds E t vals a0 body K root anchor X ops s (step E s ev) := by
  cases ev with
  | block sb => exact I.succeeds_block W A sb hk
  | tick ts p => exact I.succeeds_onTick W A ts p
  | attestation v d sig agg => exact I.succeeds_attestation W v d sig agg
  | aggregate d a => exact I.succeeds_aggregate W d a
  | ownAggregate d a keys => exact I.succeeds_own d a keys
  | accept => exact I.succeeds_acceptNew W A
  | own sb =>
    obtain ⟨s', ops', r, e, I', x⟩ := I.onBlock W A sb hk
    exact ⟨s', ops', by unfold Node.step R.store; simp only [e], I', x⟩
  | read r =>
    obtain ⟨s', e, I', x⟩ := I.readExt W r
    exact ⟨s', _, by unfold Node.step; simp only [e], I', x⟩
  | prune => exact I.succeeds_prune
  | restart => exact I.succeeds_restart

/-- A fresh node satisfies the invariant. -/
theorem init_ninv (W : World E t vals bs a0 K) {s : Store} (h : init E a0 body = .ok s) :
    ∃ root anchor, AnchorOk E.H (State.fromGenesis E.H t vals) K root anchor ∧
      NInv E t vals a0 body K root anchor NoX [] s ∧
      s.mem.db.justified = ⟨root, anchor.slot⟩ ∧ s.mem.db.finalized = ⟨root, anchor.slot⟩ ∧
      s.mem.db.head = root ∧ s.mem.db.states = [(root, anchor)] := by
  unfold init at h
  split at h
  · cases h
  next m hm =>
    cases h
    obtain ⟨root, anchor, h1, A⟩ := anchorOk W hm
    obtain ⟨root', anchor', h1', -, h3, h4, h5⟩ := init_anchor hm
    rw [h1] at h1'
    cases h1'
    have hsl : anchor.latestBlockHeader.slot = anchor.slot := A.slot
    have hhd : m.db.headers = [(root, anchor.latestBlockHeader)] := by rw [h5]
    have hget : ∀ r h, m.db.headers.get? r = some h → r = root ∧ h = anchor.latestBlockHeader := by
      intro r h e
      rw [hhd, AMap.get?_cons, AMap.get?_nil] at e
      split at e
      next hr => cases e; exact ⟨hr.symm, rfl⟩
      · cases e
    have hG : ∀ r st, stateOf root anchor [] r = some st → r = root ∧ st = anchor := by
      intro r st e
      unfold stateOf at e
      split at e
      next hr => cases e; exact ⟨hr, rfl⟩
      · cases e
    have hGr : stateOf root anchor [] root = some anchor := by unfold stateOf; simp
    have hown : m.db.headers.get? root = some anchor.latestBlockHeader := by
      rw [hhd, AMap.get?_cons]; simp
    have hlive : m.db.liveChain = [((anchor.slot, root), anchor.latestBlockHeader.parentRoot)] := by
      rw [h5, ← hsl]
    have hj : m.db.justified = ⟨root, anchor.slot⟩ := by rw [h5, ← hsl]
    have hf : m.db.finalized = ⟨root, anchor.slot⟩ := by rw [h5, ← hsl]
    have hhead : m.db.head = root := by rw [h5]
    have T : TInv E.H (State.fromGenesis E.H t vals) root anchor (stateOf root anchor [])
        m.db.headers := by
      refine ⟨hGr, ?_, ?_, ?_, ?_, ?_, ?_, ?_, ?_, ?_, ?_, ?_⟩
      · intro r st e; obtain ⟨rfl, rfl⟩ := hG r st e; exact ⟨A.root, hown⟩
      · intro r st e; obtain ⟨rfl, rfl⟩ := hG r st e; exact A.sr
      · intro r st e; obtain ⟨rfl, rfl⟩ := hG r st e; exact A.slot
      · intro r st e hr; exact absurd (hG r st e).1 hr
      · intro r st e; obtain ⟨rfl, rfl⟩ := hG r st e; exact .self hown
      · intro r st e hr; exact absurd (hG r st e).1 hr
      · intro r st e; obtain ⟨rfl, rfl⟩ := hG r st e; exact A.histLen
      · intro r st e; obtain ⟨rfl, rfl⟩ := hG r st e; exact fun _ _ => rfl
      · intro r st e j x hjx hx
        obtain ⟨rfl, rfl⟩ := hG r st e
        have := (List.getElem?_eq_some_iff.1 hx).1
        rw [A.histLen] at this
        omega
      · intro r h e; exact .inl (hget r h e).1
      · intro r st e; obtain ⟨rfl, rfl⟩ := hG r st e; rfl
    have hseen : ∀ h, seen E.H anchor [] h → K h := by
      rintro h (rfl | ⟨sb, h1 | h1, -⟩)
      · exact A.known
      · cases h1
      · cases h1
    refine ⟨root, anchor, A, ⟨.init hm h1, hseen, T, ?_, BInv.fresh _ _ _⟩, hj, hf, hhead, h1⟩
    show CInv _ _ _ _ m.db
    refine ⟨?_, ?_, ?_, ?_, ?_, ?_, ?_, ?_, ?_, ?_, .inl hf⟩
    · intro n r p e
      rw [hlive, List.mem_singleton] at e
      cases e
      exact ⟨anchor, hGr, rfl, rfl⟩
    · intro r st e _
      obtain ⟨rfl, rfl⟩ := hG r st e
      rw [hlive, List.mem_singleton]
    · rw [hj]; exact ⟨anchor, hGr, rfl⟩
    · intro r st e
      obtain ⟨rfl, rfl⟩ := hG r st e
      rw [hj]; exact A.just
    · rw [hj]; exact .inl rfl
    · rw [hf]; exact ⟨anchor, hGr, rfl⟩
    · rw [hf, hj]
    · rw [hhead]; exact ⟨anchor, hGr⟩
    · have : m.db.safeTarget = root := by rw [h5]
      rw [this]; exact ⟨anchor, hGr⟩
    · intro st e hk
      exfalso
      rw [hhead] at e
      obtain ⟨-, rfl⟩ := hG _ _ e
      obtain ⟨h, hx⟩ := Option.isSome_iff_exists.1 hk
      obtain ⟨q1, rfl⟩ := hget _ _ hx
      rcases A.fin with z | ⟨z1, -, z3⟩
      · rw [z] at q1
        exact W.headerNZ _ (A.root.trans q1.symm)
      · rw [q1] at z3
        obtain ⟨hy, y1, y2, y3⟩ := A.old _ _ z3 (by rw [← A.root]; exact W.headerNZ _)
        have := W.collisionFree _ _ A.known y1 (A.root.trans y2.symm)
        rw [← this, A.slot] at y3
        omega

/-- **Every reachable store satisfies the invariant.** -/
theorem reach_ninv (W : World E t vals bs a0 K) {evs : List Event} {s : Store}
    (h : Reach E a0 body evs s) (hk : ∀ ev ∈ evs, EventK E.H K ev) :
    ∃ root anchor ops, AnchorOk E.H (State.fromGenesis E.H t vals) K root anchor ∧
      NInv E t vals a0 body K root anchor NoX ops s ∧ Settled s ∧
      ∃ s0, init E a0 body = .ok s0 ∧ s0.mem.db.justified = ⟨root, anchor.slot⟩ ∧
        s0.mem.db.finalized = ⟨root, anchor.slot⟩ ∧ s0.mem.db.head = root := by
  induction h with
  | init hi =>
    obtain ⟨root, anchor, A, I, hj, hf, hh, -⟩ := init_ninv W hi
    refine ⟨root, anchor, [], A, I, ?_, _, hi, hj, hf, hh⟩
    unfold Settled
    rw [hj, hh]
    exact .self (I.tree.own _ _ I.tree.anc).2
  | step hr hs ih =>
    obtain ⟨root, anchor, ops, A, I, hS, h0⟩ := ih (fun ev he => hk ev (List.mem_cons_of_mem _ he))
    obtain ⟨s', ops', e, I', x⟩ := I.step W A _ (hk _ List.mem_cons_self)
    rw [e] at hs
    cases hs
    refine ⟨root, anchor, ops', A, I', ?_, h0⟩
    rcases x.keep with ⟨k1, k2⟩ | k
    · unfold Settled at *
      rw [k1, k2]
      exact hS.mono x.headers
    · exact k

end Verif.Node
