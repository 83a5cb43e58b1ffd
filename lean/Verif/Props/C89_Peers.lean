import Verif.Lemmas.SRun
import Verif.Props.C34_C62_Actor
/-!
# C89: who accepts the votes a node makes
-/
namespace Verif.Node
open Verif Verif.Db Verif.Witness Verif.Node.Witness

section
variable {E : Env} {t : Nat} {vals : List Validator} {bs : List Block} {a0 : State}
  {body : Option (List AggAtt)} {K : Header → Prop} {root root' : Root} {anchor anchor' : State}
  {X X' : State → Prop} {ops ops' : List Db.Op} {s s' : Store}

/-- The chain below a block in one node's store is also in the store of every other node that imported
the block, down to where that node started. -/
theorem NInv.hanc_transfer (W : World E t vals bs a0 K)
    (I : NInv E t vals a0 body K root anchor X ops s)
    (I' : NInv E t vals a0 body' K root' anchor' X' ops' s') {x r : Root}
    (h : HAnc s.mem.db.headers x r) : ∀ {st : State}, stateOf root' anchor' ops' r = some st →
    (∀ hd, s.mem.db.headers.get? x = some hd → anchor'.slot ≤ hd.slot) →
    HAnc s'.mem.db.headers x r ∧ ∃ sx, stateOf root' anchor' ops' x = some sx := by
  induction h with
  | self e => intro st hst _; exact ⟨.self (I'.tree.own _ _ hst).2, _, hst⟩
  | @up h hd pd e1 e2 e3 h4 ih =>
    intro st hst hx
    obtain ⟨o1, o2⟩ := I'.tree.own _ _ hst
    obtain ⟨k1, k2⟩ := I.hdrK W _ _ e1
    obtain ⟨k3, k4⟩ := I'.hdrK W _ _ o2
    have he : st.latestBlockHeader = hd := W.collisionFree _ _ k3 k1 (k4.trans k2.symm)
    have hne : h ≠ root' := by
      intro hr
      rw [hr, I'.tree.anc] at hst
      cases hst
      obtain ⟨xd, hxd⟩ := h4.left
      have l1 := hx xd hxd
      have l2 := h4.slot_le
      rw [slotOf_eq hxd, slotOf_eq e2] at l2
      have l3 := I'.tree.slotEq _ _ I'.tree.anc
      rw [he] at l3
      omega
    obtain ⟨p, p1, p2, -⟩ := I'.tree.parentOf _ _ hst hne
    rw [he] at p1
    obtain ⟨a, b⟩ := ih p1 hx
    refine ⟨.up (by rw [o2, he]) (I'.tree.own _ _ p1).2 ?_ a, b⟩
    rw [I'.tree.slotEq _ _ p1, ← he, I'.tree.slotEq _ _ hst]
    exact p2

/-- Below an imported block, following parent links means going down in slots. -/
theorem NInv.hanc_of_back (W : World E t vals bs a0 K)
    (I : NInv E t vals a0 body K root anchor X ops s)
    (hg : anchor.latestBlockHeader.parentRoot = 0) {x r : Root} {n : Nat}
    (h : Back s.mem.db.headers r n x) : ∀ {st : State}, stateOf root anchor ops r = some st →
    HAnc s.mem.db.headers x r := by
  induction h with
  | here e => intro st _; exact .self e
  | @up r hd n x e b ih =>
    intro st hst
    have o := (I.tree.own _ _ hst).2
    rw [o] at e
    cases e
    by_cases hr : r = root
    · rw [hr, I.tree.anc] at hst
      cases hst
      rw [hg] at b
      have : ∃ hd, s.mem.db.headers.get? 0 = some hd := by
        cases b with
        | here e => exact ⟨_, e⟩
        | up e _ => exact ⟨_, e⟩
      obtain ⟨hd, h0⟩ := this
      exact absurd (I.hdrK W _ _ h0).2 (W.headerNZ _)
    · obtain ⟨p, p1, p2, -⟩ := I.tree.parentOf _ _ hst hr
      refine .up o (I.tree.own _ _ p1).2 ?_ (ih p1)
      rw [I.tree.slotEq _ _ p1, I.tree.slotEq _ _ hst]
      exact p2

end

theorem genesis_parent {E : Env} {t : Nat} {vals : List Validator} {body : Option (List AggAtt)}
    {root : Root} {anchor : State} {ops : List Db.Op} {m : Mem}
    (h : Db.Run E.H (State.fromGenesis E.H t vals) body root anchor ops m) :
    anchor.latestBlockHeader.parentRoot = 0 := by
  induction h with
  | init h1 h2 =>
    obtain ⟨root', anchor', e1, -, e3, -⟩ := init_anchor h1
    rw [h2] at e1
    cases e1
    rw [e3]
    rfl
  | step _ _ _ ih => exact ih

theorem EventK.mono {H : Hash} {K K' : Header → Prop} (h : ∀ x, K x → K' x) {ev : Event}
    (e : EventK H K ev) : EventK H K' ev := by
  cases ev <;> first | exact h _ e | trivial

theorem known_sub {H : Hash} {g : State} {bs : List Block} {evs evs' : List Event} (h : evs ⊆ evs')
    (x : Header) : Known H g bs evs x → Known H g bs evs' x := by
  rintro (hx | hx | ⟨sb, hs, hx⟩)
  · exact .inl hx
  · exact .inr (.inl hx)
  · exact .inr (.inr ⟨sb, hs.imp (fun a => h a) (fun a => h a), hx⟩)

/-- **C89.** A node and a peer, both started from the same genesis, have been through
whatever they have been through. When the peer has imported the block that is the head of a vote the
node makes, it accepts the vote if and only if the block does not conflict with what the peer has
finalized, the vote's slot is not before the block's, and the slot has begun by the peer's clock (with
one interval of tolerance). In particular nothing else the two nodes disagree on matters. -/
theorem C89_peer_accepts {c c' : Ctx} {t : Nat} {vals : List Validator}
    {body body' : Option (List AggAtt)} {evs evs' : List Event} {a a' : Actor}
    (hE : c'.E = c.E) (ho : ∀ l, (c.order l).Perm l) (ho' : ∀ l, (c'.order l).Perm l)
    (W : World c.E t vals [] (State.fromGenesis c.E.H t vals)
      (Known c.E.H (State.fromGenesis c.E.H t vals) [] (evs ++ evs')))
    (h : AReach c (State.fromGenesis c.E.H t vals) body evs a)
    (h' : AReach c' (State.fromGenesis c.E.H t vals) body' evs' a') {slot : Nat} {d : AttData}
    {s : Store} (hp : produceAttestationData a.store slot = .ok (d, s)) {st : State}
    (hr : Reads a'.store d.head.root st) :
    validateData a'.store d = .ok (.ok ()) ↔
      Ancestor a'.store.mem.db.headers a'.store.mem.db.finalized.root d.head.root ∧
      d.head.slot ≤ d.slot ∧ d.slot * 5 ≤ a'.store.mem.db.time + 1 := by
  obtain ⟨E, o', g'⟩ := c'
  have hE : E = c.E := hE
  subst hE
  have W1 := W.weaken (known_sub (List.subset_append_left evs evs')) (.inl rfl) (fun b hb => by cases hb)
  have W2 := W.weaken (known_sub (List.subset_append_right evs evs')) (.inl rfl)
    (fun b hb => by cases hb)
  obtain ⟨es, R, hk, -⟩ := areach_reach ho W1 h
  obtain ⟨es', R', hk', -⟩ := areach_reach (c := ⟨c.E, o', g'⟩) ho' W2 h'
  have hk := fun ev he => (hk ev he).mono (known_sub (List.subset_append_left evs evs'))
  have hk' := fun ev he => (hk' ev he).mono (known_sub (List.subset_append_right evs evs'))
  obtain ⟨g3, v1, v2, v3, v4, v5, v6, v7⟩ := own_vote_chain W R hk hp
  obtain ⟨root, anchor, ops, A, I, S, -⟩ := reach_ninv W R hk
  obtain ⟨root', anchor', ops', A', I', S', -⟩ := reach_ninv W R' hk'
  have h0 := (genesis_head I'.run).1
  have hst := (I'.reads W _ _).1 hr
  constructor
  · intro hv
    have := C36_accepted_is_sound _ _ hv
    exact ⟨this.finalHead, this.notBeforeHead, this.notFuture⟩
  · rintro ⟨⟨n, hf⟩, h2, h3⟩
    obtain ⟨rank, hrk⟩ := I'.rank W
    obtain ⟨sf, f1, f2⟩ := I'.cp.fin
    have all : ∀ {x : Checkpoint}, KnownAt a.store.mem.db.headers x →
        HAnc a.store.mem.db.headers x.root d.head.root →
        KnownAt a'.store.mem.db.headers x ∧ ∃ sx, stateOf root' anchor' ops' x.root = some sx := by
      rintro x ⟨hd, e1, e2⟩ hx
      obtain ⟨-, sx, b⟩ := I.hanc_transfer W I' hx hst (fun _ _ => by omega)
      obtain ⟨k1, k2⟩ := I.hdrK W _ _ e1
      obtain ⟨k3, k4⟩ := I'.hdrK W _ _ (I'.tree.own _ _ b).2
      have he := W.collisionFree _ _ k3 k1 (k4.trans k2.symm)
      exact ⟨⟨_, (I'.tree.own _ _ b).2, by rw [he]; exact e2⟩, sx, b⟩
    obtain ⟨t1, sx, t2⟩ := all v4 v7
    refine slotwise_accepted (rank := rank) hrk
      ⟨_, (I'.tree.own _ _ f1).2, by rw [I'.tree.slotEq _ _ f1, f2]⟩
      ⟨(all v3 (v6.trans v7)).1, t1, (all v5 (.self v5.choose_spec.1)).1,
        (I.hanc_transfer W I' v6 t2 (fun _ _ => by omega)).1,
        (I.hanc_transfer W I' v7 hst (fun _ _ => by omega)).1,
        I'.hanc_of_back W (genesis_parent I'.run) hf hst, h2, h3⟩

/-- The peer has justified block 2 and follows block 5. -/
def peerEvs : List Event := forkEv :: forkEvs.dropLast

/-- Non-vacuity: a node that has only blocks 1 to 3 votes for block 3 with target 1; a peer that has
blocks 4 and 5, too, and justified block 2, accepts the vote for slot 8 but not yet that for slot 9.
-/
example : World wE 0 wVals [] wG (Known wH wG []
      ((forkEvs.dropLast.tail ++ [.tick 32000 false]) ++ (peerEvs ++ [.tick 32000 false]))) ∧
    AReach wCtx wG (some []) (forkEvs.dropLast.tail ++ [.tick 32000 false])
      (acted forkEvs.dropLast.tail) ∧
    AReach wCtx wG (some []) (peerEvs ++ [.tick 32000 false]) (acted peerEvs) ∧
    produced (acted forkEvs.dropLast.tail).store 8 = some ⟨8, cp 3, cp 1, cp 1⟩ ∧
    hasState (acted peerEvs).store.mem.db (cp 3).root = true ∧
    (acted peerEvs).store.mem.db.justified = cp 2 ∧ (acted peerEvs).store.mem.db.head = 6 ∧
    validateData (acted peerEvs).store ⟨8, cp 3, cp 1, cp 1⟩ = .ok (.ok ()) ∧
    isOk (validateData (acted peerEvs).store ⟨9, cp 3, cp 1, cp 1⟩) = true ∧
    validateData (acted peerEvs).store ⟨9, cp 3, cp 1, cp 1⟩ ≠ .ok (.ok ()) :=
  ⟨world_of_list (by decide +kernel) (by decide +kernel), acted_reach (by decide +kernel),
    acted_reach (by decide +kernel), by decide +kernel⟩

end Verif.Node
