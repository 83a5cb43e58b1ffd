import Verif.Props.C59_NoPanic
/-!
# C34, C35, C61: the checkpoints and the head of a running node
-/
namespace Verif.Node
open Verif Verif.Db Verif.Node.Witness Verif.Witness

/-- Reading the state of `r` gives `st`. -/
def Reads (s : Store) (r : Root) (st : State) : Prop :=
  ∃ m, Db.getState s.mem r = .ok (some st, m)

section
variable {E : Env} {t : Nat} {vals : List Validator} {bs : List Block} {a0 : State}
  {body : Option (List AggAtt)} {K : Header → Prop} {root : Root} {anchor : State}
  {X : State → Prop} {ops : List Db.Op} {s : Store}

theorem NInv.reads (W : World E t vals bs a0 K)
    (I : NInv E t vals a0 body K root anchor X ops s) (r : Root) (st : State) :
    Reads s r st ↔ stateOf root anchor ops r = some st := by
  obtain ⟨c, hg, -⟩ := getState_repr (I.inv W).repr r
  unfold Reads
  rw [hg]
  constructor
  · rintro ⟨m, h⟩
    exact (Prod.mk.inj (Except.ok.inj h)).1
  · intro h
    rw [h]
    exact ⟨_, rfl⟩

/-- Finalization advances along a branch. -/
theorem NInv.fin_mono (I : NInv E t vals a0 body K root anchor X ops s) {a b : Root}
    (h : HAnc s.mem.db.headers a b) : ∀ {sa sb : State}, stateOf root anchor ops a = some sa →
    stateOf root anchor ops b = some sb → sa.latestFinalized.slot ≤ sb.latestFinalized.slot := by
  induction h with
  | self _ => intro sa sb h1 h2; rw [h1] at h2; cases h2; exact Nat.le_refl _
  | @up b hd pd e1 e2 e3 h ih =>
    intro sa sb h1 h2
    by_cases hb : b = root
    · have : a = b := by
        subst hb
        exact HAnc.antisymm (.up e1 e2 e3 h) (I.tree.hanc _ _ h1)
      rw [this, h2] at h1
      cases h1
      exact Nat.le_refl _
    · obtain ⟨p, p1, -, p2, -⟩ := I.tree.parentOf _ _ h2 hb
      have := (I.tree.own _ _ h2).2
      rw [e1] at this
      cases this
      exact Nat.le_trans (ih h1 p1) p2

/-- A branch that has finalized a block at or above the anchor knows that block. -/
theorem NInv.fin_known (W : World E t vals bs a0 K)
    (I : NInv E t vals a0 body K root anchor X ops s) {r : Root} {st : State}
    (h : stateOf root anchor ops r = some st) (hr : r ≠ root)
    (hs : anchor.slot ≤ st.latestFinalized.slot) :
    (s.mem.db.headers.get? st.latestFinalized.root).isSome := by
  obtain ⟨cs, hne, hc⟩ := I.tree.good r st h hr
  obtain ⟨-, c2, -, c4⟩ := C06_checkpoints_in_history W.headerNZ hc hne
  obtain ⟨-, sx, h1, -⟩ := I.tree.hist r st h _ _ hs c2 c4
  rw [(I.tree.own _ _ h1).2]; rfl
end

/-! ## C34 -/

/-- **C34.** The justified slot of every state in the store is at most the store's justified slot. -/
theorem C34_justified_is_max {E : Env} {t : Nat} {vals : List Validator} {bs : List Block}
    {a0 : State} {body : Option (List AggAtt)} {evs : List Event} {s : Store}
    (W : World E t vals bs a0 (Known E.H (State.fromGenesis E.H t vals) bs evs))
    (h : Reach E a0 body evs s) {r : Root} {st : State} (hr : Reads s r st) :
    st.latestJustified.slot ≤ s.mem.db.justified.slot := by
  obtain ⟨root, anchor, ops, -, I, -⟩ := reach_ninv W h eventK_known
  exact I.cp.justMax r st ((I.reads W r st).1 hr)

/-- **C34.** The justified checkpoint is the one the node started with or that of some state in the
store, and it names an imported block at its slot. -/
theorem C34_justified_attained {E : Env} {t : Nat} {vals : List Validator} {bs : List Block}
    {a0 : State} {body : Option (List AggAtt)} {evs : List Event} {s : Store}
    (W : World E t vals bs a0 (Known E.H (State.fromGenesis E.H t vals) bs evs))
    (h : Reach E a0 body evs s) :
    ((∃ s0, init E a0 body = .ok s0 ∧ s.mem.db.justified = s0.mem.db.justified) ∨
      ∃ r st, Reads s r st ∧ st.latestJustified = s.mem.db.justified) ∧
    ∃ st, Reads s s.mem.db.justified.root st ∧ st.slot = s.mem.db.justified.slot := by
  obtain ⟨root, anchor, ops, -, I, -, s0, h0, h1, -⟩ := reach_ninv W h eventK_known
  constructor
  · rcases I.cp.justOf with e | ⟨st, e | ⟨r, e⟩, e'⟩
    · exact .inl ⟨s0, h0, by rw [e, h1]⟩
    · cases e
    · exact .inr ⟨r, st, (I.reads W r st).2 e, e'⟩
  · obtain ⟨st, e1, e2⟩ := I.cp.just
    exact ⟨st, (I.reads W _ _).2 e1, e2⟩

/-- **C34.** An event leaves the justified checkpoint alone or raises its slot. -/
theorem C34_justified_monotone {E : Env} {t : Nat} {vals : List Validator} {bs : List Block}
    {a0 : State} {body : Option (List AggAtt)} {evs : List Event} {ev : Event} {s s' : Store}
    (W : World E t vals bs a0 (Known E.H (State.fromGenesis E.H t vals) bs (ev :: evs)))
    (h : Reach E a0 body evs s) (hs : step E s ev = .ok s') :
    s'.mem.db.justified = s.mem.db.justified ∨
      s.mem.db.justified.slot < s'.mem.db.justified.slot := by
  obtain ⟨root, anchor, ops, A, I, -⟩ := reach_ninv W h
    (fun e he => eventK_known e (List.mem_cons_of_mem _ he))
  obtain ⟨s2, ops', e, -, x⟩ := I.step W A ev (eventK_known ev List.mem_cons_self)
  rw [e] at hs
  cases hs
  exact x.just

/-- Non-vacuity: in the fork run the justified checkpoint is block 2, taken from the state of
block 4. -/
example : (Witness.after Witness.forkEvs).mem.db.justified = ⟨3, 2⟩ ∧
    ((Db.getState (Witness.after Witness.forkEvs).mem 5).toOption.bind
      (fun x => x.1.map State.latestJustified)) = some ⟨3, 2⟩ ∧
    World Witness.wE 0 Verif.Witness.wVals [] Verif.Witness.wG
      (Known Verif.Witness.wH Verif.Witness.wG [] Witness.forkEvs) ∧
    Reach Witness.wE Verif.Witness.wG (some []) Witness.forkEvs (Witness.after Witness.forkEvs) :=
  ⟨by decide +kernel, by decide +kernel,
    Witness.world_of_list (by decide +kernel) (by decide +kernel),
    Witness.reach_after (by decide +kernel)⟩

/-! ## C35 -/

/-- **C35, refuted.** The finalized slot can go down: importing a block on another branch can move
the head there, and the finalized checkpoint follows the head. (Blocks 1, 2, 3; block 4 on 3
finalizes block 1; block 5 on 3 without those votes wins the tie: finalized drops from 1 to 0,
while the justified checkpoint stays at 2.) -/
theorem C35_finalized_regresses :
    ∃ (E : Env) (t : Nat) (vals : List Validator) (a0 : State) (body : Option (List AggAtt))
      (evs : List Event) (ev : Event) (s s' : Store),
      World E t vals [] a0 (Known E.H (State.fromGenesis E.H t vals) [] (ev :: evs)) ∧
      Reach E a0 body evs s ∧ step E s ev = .ok s' ∧
      s'.mem.db.finalized.slot < s.mem.db.finalized.slot := by
  have h1 : isOk (run (forkEv :: forkEvs)) = true := by decide +kernel
  have h2 : isOk (run forkEvs) = true := by decide +kernel
  refine ⟨wE, 0, Verif.Witness.wVals, Verif.Witness.wG, some [], forkEvs, forkEv, after forkEvs,
    after (forkEv :: forkEvs), world_of_list (by decide +kernel) (by decide +kernel),
    reach_after h2, ?_, by decide +kernel⟩
  have h := run_after h1
  unfold run at h
  rw [run_after h2] at h
  exact h

/-- **C35.** What the finalized checkpoint is: the head state's, whenever that block's header is in
the store. -/
theorem C35_finalized_is_the_heads {E : Env} {t : Nat} {vals : List Validator} {bs : List Block}
    {a0 : State} {body : Option (List AggAtt)} {evs : List Event} {s : Store}
    (W : World E t vals bs a0 (Known E.H (State.fromGenesis E.H t vals) bs evs))
    (h : Reach E a0 body evs s) :
    ∃ st, Reads s s.mem.db.head st ∧
      ((s.header st.latestFinalized.root).isSome → s.mem.db.finalized = st.latestFinalized) := by
  obtain ⟨root, anchor, ops, -, I, -⟩ := reach_ninv W h eventK_known
  obtain ⟨st, hst⟩ := I.cp.head
  exact ⟨st, (I.reads W _ _).2 hst, I.cp.finHead st hst⟩

/-- **C35, the part that holds.** Full statement: *no* event lowers the finalized slot. Missing:
events that move the head to another branch (refuted above). An event after which the head is the
old head or a descendant of it never lowers the finalized slot, provided the current finalized
checkpoint is the head state's or still the initial one. -/
theorem C35_finalized_monotone_partial {E : Env} {t : Nat} {vals : List Validator}
    {bs : List Block} {a0 : State} {body : Option (List AggAtt)} {evs : List Event} {ev : Event}
    {s s' : Store}
    (W : World E t vals bs a0 (Known E.H (State.fromGenesis E.H t vals) bs (ev :: evs)))
    (h : Reach E a0 body evs s) (hs : step E s ev = .ok s')
    (hh : HAnc s'.mem.db.headers s.mem.db.head s'.mem.db.head)
    (hf : (∃ st, Reads s s.mem.db.head st ∧ s.mem.db.finalized = st.latestFinalized) ∨
      ∃ s0, init E a0 body = .ok s0 ∧ s.mem.db.finalized.slot = s0.mem.db.finalized.slot) :
    s.mem.db.finalized.slot ≤ s'.mem.db.finalized.slot := by
  obtain ⟨root, anchor, ops, A, I, -, s0, h0, h1, h2, h3⟩ := reach_ninv W h
    (fun e he => eventK_known e (List.mem_cons_of_mem _ he))
  obtain ⟨s2, ops', e, I', x⟩ := I.step W A ev (eventK_known ev List.mem_cons_self)
  rw [e] at hs
  cases hs
  rcases hf with ⟨st, r1, r2⟩ | ⟨s0', r1, r2⟩
  · have hst := (I.reads W _ _).1 r1
    have hst' := x.states _ _ hst
    obtain ⟨sb, hsb⟩ := I'.cp.head
    have hle := I'.fin_mono hh hst' hsb
    have hge := I.anchor_le_fin
    rw [r2] at hge
    by_cases hr : s'.mem.db.head = root
    · have hq : s.mem.db.head = root := by
        rw [hr] at hh
        exact HAnc.antisymm hh (I'.tree.hanc _ _ hst')
      rw [hq] at hst
      rw [hr] at hsb
      have := x.states _ _ hst
      rw [hsb] at this
      cases this
      exfalso
      -- the anchor's own finalized block is older than the anchor
      rw [I.tree.anc] at hst
      cases hst
      obtain ⟨sf, f1, f2⟩ := I.cp.fin
      rw [r2] at f1 f2
      have hk : (s.mem.db.headers.get? anchor.latestFinalized.root).isSome := by
        rw [(I.tree.own _ _ f1).2]; rfl
      obtain ⟨q, hq'⟩ := Option.isSome_iff_exists.1 hk
      obtain ⟨k1, k2⟩ := I.hdrK W _ _ hq'
      rcases A.fin with z | ⟨z1, -, -⟩
      · exact W.headerNZ q (k2.trans z)
      · omega
    · have hk := I'.fin_known W hsb hr (by omega)
      rw [r2, I'.cp.finHead sb hsb hk]
      exact hle
  · rw [h0] at r1
    cases r1
    rw [r2, h2]
    exact I'.anchor_le_fin

theorem genesis_anchor {E : Env} {t : Nat} {vals : List Validator}
    {body : Option (List AggAtt)} {s0 : Store}
    (h : init E (State.fromGenesis E.H t vals) body = .ok s0) : s0.mem.db.justified.slot = 0 := by
  unfold init at h
  split at h
  · cases h
  next m hm =>
    cases h
    obtain ⟨root, anchor, -, -, h3, -, h5⟩ := init_anchor hm
    show m.db.justified.slot = 0
    rw [h5]
    show anchor.latestBlockHeader.slot = 0
    rw [h3]
    rfl

theorem genesis_sync {E : Env} {t : Nat} {vals : List Validator} {K : Header → Prop}
    {body : Option (List AggAtt)} {evs : List Event} {s : Store}
    (W : World E t vals [] (State.fromGenesis E.H t vals) K)
    (h : Reach E (State.fromGenesis E.H t vals) body evs s) (hk : ∀ ev ∈ evs, EventK E.H K ev) :
    (∃ st, Reads s s.mem.db.head st ∧ s.mem.db.finalized = st.latestFinalized) ∨
      ∃ s0, init E (State.fromGenesis E.H t vals) body = .ok s0 ∧
        s.mem.db.finalized = s0.mem.db.finalized := by
  obtain ⟨root, anchor, ops, A, I, S, s0, h0, h1, h2, h3⟩ := reach_ninv W h hk
  have hz : anchor.slot = 0 := by
    have := genesis_anchor h0
    rw [h1] at this
    exact this
  obtain ⟨st, hst⟩ := I.cp.head
  by_cases hr : s.mem.db.head = root
  · right
    refine ⟨s0, h0, ?_⟩
    obtain ⟨sj, j1, j2⟩ := I.cp.just
    have hj : s.mem.db.justified.root = root := by
      have S : HAnc s.mem.db.headers s.mem.db.justified.root s.mem.db.head := S
      rw [hr] at S
      exact HAnc.antisymm S (I.tree.hanc _ _ j1)
    rw [hj, I.tree.anc] at j1
    cases j1
    obtain ⟨sf, f1, f2⟩ := I.cp.fin
    have hle := I.cp.finLe
    have hfr : root = s.mem.db.finalized.root := by
      rcases (I.tree.hanc _ _ f1).slot with e | e
      · exact e
      · rw [I.tree.slotOf I.tree.anc, I.tree.slotOf f1] at e
        omega
    rw [h2]
    have hfs : s.mem.db.finalized.slot = anchor.slot := by omega
    rw [← hfs, hfr]
  · left
    refine ⟨st, (I.reads W _ _).2 hst, I.cp.finHead st hst ?_⟩
    exact I.fin_known W hst hr (by omega)

/-- **C35, the part that holds, from genesis.** Here the side condition is not needed: an event
after which the head is the old head or a descendant of it never lowers the finalized slot. -/
theorem C35_genesis_monotone_partial {E : Env} {t : Nat} {vals : List Validator}
    {body : Option (List AggAtt)} {evs : List Event} {ev : Event} {s s' : Store}
    (W : World E t vals [] (State.fromGenesis E.H t vals)
      (Known E.H (State.fromGenesis E.H t vals) [] (ev :: evs)))
    (h : Reach E (State.fromGenesis E.H t vals) body evs s) (hs : step E s ev = .ok s')
    (hh : HAnc s'.mem.db.headers s.mem.db.head s'.mem.db.head) :
    s.mem.db.finalized.slot ≤ s'.mem.db.finalized.slot := by
  refine C35_finalized_monotone_partial W h hs hh ?_
  rcases genesis_sync W h (fun e he => eventK_known e (List.mem_cons_of_mem _ he)) with
    h | ⟨s0, h1, h2⟩
  · exact .inl h
  · exact .inr ⟨s0, h1, by rw [h2]⟩

/-- Non-vacuity: importing block 4 extends the head, and finalization advances from 0 to 1. -/
example : HAnc (after forkEvs).mem.db.headers (after forkEvs.tail).mem.db.head
      (after forkEvs).mem.db.head ∧
    (after forkEvs.tail).mem.db.finalized.slot = 0 ∧ (after forkEvs).mem.db.finalized.slot = 1 := by
  refine ⟨?_, by decide +kernel, by decide +kernel⟩
  have h1 : (after forkEvs.tail).mem.db.head = 4 := by decide +kernel
  have h2 : (after forkEvs).mem.db.head = 5 := by decide +kernel
  rw [h1, h2]
  exact .up (hd := (mkBlock 4 3 [vote [true, true, true] 1 2]).header wH)
    (pd := (mkBlock 3 2 []).header wH) (by decide +kernel) (by decide +kernel) (by decide +kernel)
    (.self (hd := (mkBlock 3 2 []).header wH) (by decide +kernel))

/-! ## C61 -/

/-- **C61.** After every event the head is an imported block that is, or descends from, the block of
the justified checkpoint, through stored headers. -/
theorem C61_head_descends_from_justified {E : Env} {t : Nat} {vals : List Validator}
    {bs : List Block} {a0 : State} {body : Option (List AggAtt)} {evs : List Event} {s : Store}
    (W : World E t vals bs a0 (Known E.H (State.fromGenesis E.H t vals) bs evs))
    (h : Reach E a0 body evs s) :
    (∃ st, Reads s s.mem.db.head st) ∧
      HAnc s.mem.db.headers s.mem.db.justified.root s.mem.db.head := by
  obtain ⟨root, anchor, ops, A, I, S, -⟩ := reach_ninv W h eventK_known
  obtain ⟨st, hst⟩ := I.cp.head
  exact ⟨⟨st, (I.reads W _ _).2 hst⟩, S⟩

/-- **C61.** Started from genesis, the head also is or descends from the finalized block. -/
theorem C61_head_descends_from_finalized {E : Env} {t : Nat} {vals : List Validator}
    {body : Option (List AggAtt)} {evs : List Event} {s : Store}
    (W : World E t vals [] (State.fromGenesis E.H t vals)
      (Known E.H (State.fromGenesis E.H t vals) [] evs))
    (h : Reach E (State.fromGenesis E.H t vals) body evs s) :
    HAnc s.mem.db.headers s.mem.db.finalized.root s.mem.db.head := by
  obtain ⟨root, anchor, ops, A, I, S, s0, h0, h1, h2, h3⟩ := reach_ninv W h eventK_known
  rcases genesis_sync W h eventK_known with ⟨st, r1, r2⟩ | ⟨s0', r1, r2⟩
  · have hst := (I.reads W _ _).1 r1
    obtain ⟨sf, f1, -⟩ := I.cp.fin
    have hk : (s.mem.db.headers.get? st.latestFinalized.root).isSome := by
      rw [← r2, (I.tree.own _ _ f1).2]; rfl
    rw [r2]
    exact (I.tree.finalized A rfl W.headerNZ (I.hdrK W) W.collisionFree hst hk).1
  · rw [h0] at r1
    cases r1
    rw [r2, h2]
    obtain ⟨st, hst⟩ := I.cp.head
    exact I.tree.hanc _ _ hst

/-- Non-vacuity: in the fork run, head 6 (block 5), justified root 3 (block 2), finalized 1. -/
example : (after (forkEv :: forkEvs)).mem.db.head = 6 ∧
    (after (forkEv :: forkEvs)).mem.db.justified.root = 3 ∧
    HAnc (after (forkEv :: forkEvs)).mem.db.headers 3 6 := by
  have h1 : (after (forkEv :: forkEvs)).mem.db.head = 6 := by decide +kernel
  have h2 : (after (forkEv :: forkEvs)).mem.db.justified.root = 3 := by decide +kernel
  have := (C61_head_descends_from_justified
    (world_of_list (evs := forkEv :: forkEvs) (by decide +kernel) (by decide +kernel))
    (reach_after (by decide +kernel))).2
  rw [h1, h2] at this
  exact ⟨h1, h2, this⟩

end Verif.Node
