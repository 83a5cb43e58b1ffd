import Verif.Lemmas.Served
import Verif.Props.C53_Serve
import Verif.Props.C89_Peers
/-!
# C109: what a node serves is good for every other node
-/
namespace Verif.Node
open Verif Verif.Db Verif.Witness Verif.Node.Witness

/-- The headers known to two nodes. -/
def KnownTo (H : Hash) (g : State) (bs bs' : List Block) (evs evs' : List Event) (h : Header) : Prop :=
  Known H g bs evs h ∨ Known H g bs' evs' h

/-- What is hashed into the state root of a header: the state without that root. -/
def unrooted (s : State) : State :=
  { s with latestBlockHeader := { s.latestBlockHeader with stateRoot := 0 } }

/-- Where both stores have a state for one block, the state hash tells the two apart. -/
def StatesApart (H : Hash) (s s' : Store) : Prop :=
  ∀ r x y, Reads s r x → Reads s' r y → H.state (unrooted x) = H.state (unrooted y) →
    unrooted x = unrooted y

section
variable {E : Env} {t : Nat} {vals : List Validator} {bs bs' : List Block} {a0 a0' : State}
  {body body' : Option (List AggAtt)} {K : Header → Prop} {root root' : Root} {anchor anchor' : State}
  {ops ops' : List Db.Op} {s s' : Store}

theorem NInv.ownRoot (I : NInv E t vals a0 body K root anchor NoX ops s) {r : Root} {st : State}
    (h : stateOf root anchor ops r = some st) :
    st.latestBlockHeader.stateRoot = E.H.state (unrooted st) := by
  by_cases hr : r = root
  · rw [hr, I.tree.anc] at h
    cases h
    obtain ⟨m, -, -, -, h3, -⟩ := I.started
    rw [h3]
    rfl
  · obtain ⟨p, -, -, -, b, hb⟩ := I.tree.parentOf _ _ h hr
    have f := import_frame hb
    rw [f.stateRoot, f.ownRoot]
    rfl

/-- Two nodes have the same state for a block. -/
theorem same_state (W : World E t vals bs a0 K) (W' : World E t vals bs' a0' K)
    (I : NInv E t vals a0 body K root anchor NoX ops s)
    (I' : NInv E t vals a0' body' K root' anchor' NoX ops' s') (hst : StatesApart E.H s s')
    {r : Root} {x y : State} (hx : stateOf root anchor ops r = some x)
    (hy : stateOf root' anchor' ops' r = some y) : x = y := by
  obtain ⟨k1, k2⟩ := I.hdrK W _ _ (I.tree.own _ _ hx).2
  obtain ⟨k3, k4⟩ := I'.hdrK W' _ _ (I'.tree.own _ _ hy).2
  have hh : x.latestBlockHeader = y.latestBlockHeader := W.collisionFree _ _ k1 k3 (k2.trans k4.symm)
  have he := hst r x y ((I.reads W _ _).2 hx) ((I'.reads W' _ _).2 hy)
    (by rw [← I.ownRoot hx, ← I'.ownRoot hy, hh])
  have e1 : x = { unrooted x with latestBlockHeader := x.latestBlockHeader } := rfl
  have e2 : y = { unrooted y with latestBlockHeader := y.latestBlockHeader } := rfl
  rw [e1, e2, he, hh]
end

section
variable {c : Ctx} {t : Nat} {vals : List Validator} {bs : List Block} {a0 : State}
  {body : Option (List AggAtt)} {K : Header → Prop} {rank : Root → Nat} {root : Root}
  {anchor : State} {ops : List Db.Op} {a : Actor}

/-- A valid block on an imported parent is imported when it arrives. -/
theorem import_now (ho : ∀ l, (c.order l).Perm l) (W : World c.E t vals bs a0 K)
    (A : AnchorOk c.E.H (State.fromGenesis c.E.H t vals) K root anchor)
    (hR : Ranks c.E.H K rank) (I : AInv c.E t vals a0 body K rank root anchor ops a)
    {sb : SignedBlock} (hk : K (sb.block.header c.E.H)) {p : State}
    (hp : stateOf root anchor ops sb.block.parentRoot = some p) (hv : ValidOn c.E p sb)
    (htime : sb.block.slot * 5 ≤ a.store.mem.db.time + 1)
    (hfin : a.store.mem.db.finalized.slot < sb.block.slot) :
    ∃ a' f, a.step c (.block sb) = .ok (a', f) ∧
      hasState a'.store.mem.db (sb.block.root c.E.H) = true := by
  have hpar := (I.node.hasState_iff W _).2 ⟨p, hp⟩
  have hJ : Kept c t vals a0 body K rank root anchor (fun ops1 a1 q =>
      hasState a1.store.mem.db (sb.block.root c.E.H) = true ∨ (q = [sb] ∧ ops1 = ops ∧ a1 = a)) := by
    intro ops1 a1 y q ops2 o I1 I2 _ x _ _ _ pr J
    left
    rcases J with J | ⟨J1, rfl, rfl⟩
    · exact x.hasState W I1.node I2.node J
    · obtain ⟨rfl, rfl⟩ := List.cons.inj J1
      cases pr with
      | reject why => omega
      | pend _ noState => rw [hpar] at noState; cases noState
      | fail _ imp =>
        obtain ⟨st, hst⟩ := hv.transition
        have hc : checkBlock c.E a1.store p y = .ok st := by
          unfold checkBlock
          rw [if_neg (Nat.not_lt.2 hv.gap), if_neg, if_neg (by rw [(hasDuplicate_iff _).2 hv.nodup]; simp),
            if_neg (Nat.not_lt.2 hv.few), if_neg (by rw [hv.signature]; simp), hst]
          have : a1.store.currentSlot = a1.store.mem.db.time / 5 := rfl
          rw [this]
          omega
        cases imp.good p st hp hc
      | done _ imp =>
        obtain ⟨st, hst⟩ := imp.ok rfl
        exact (I2.node.hasState_iff W _).2 ⟨st, hst⟩
  rcases I.onBlock ho W A hR hJ sb hk (.inr ⟨rfl, rfl, rfl⟩) with
    ⟨-, h, -⟩ | ⟨a1, a2, f2, ops1, ops', db, e, I1, V1, hp, ha, I', x1, x2⟩
  · rw [h] at hpar; cases hpar
  · refine ⟨a2, f2, e, x2.hasState W I1.node I'.node ?_⟩
    rcases V1 with h | ⟨h, -⟩
    · exact h
    · cases h
/-- A copy of a block after the anchor's slot is not one of the anchor. -/
theorem not_anchor (A : AnchorOk c.E.H (State.fromGenesis c.E.H t vals) K root anchor)
    (I : AInv c.E t vals a0 body K rank root anchor ops a) {sb : SignedBlock}
    (hsb : getSignedBlock c.E.H a.store.mem.db (sb.block.root c.E.H) = some sb)
    (hslot : a0.slot < sb.block.slot) : sb.block.root c.E.H ≠ root := by
  intro hr
  have hh : a.store.mem.db.headers.get? (sb.block.root c.E.H) = some anchor.latestBlockHeader := by
    rw [hr]; exact (I.node.tree.own _ _ I.node.tree.anc).2
  have hb : sb.block.slot = anchor.latestBlockHeader.slot := by
    unfold getSignedBlock at hsb
    rw [hh] at hsb
    dsimp only at hsb
    have key : ∀ {q b}, some (SignedBlock.mk (fromHeaderAndBody anchor.latestBlockHeader b) q) = some sb →
        sb.block.slot = anchor.latestBlockHeader.slot := fun {q b} h => by cases h; rfl
    split at hsb
    · cases hsb
    · split at hsb
      · exact key hsb
      · split at hsb
        · exact key hsb
        · cases hsb
  have := run_anchor_slot I.node.run
  rw [A.slot] at hb
  omega

/-- The chain below an imported block of another node. -/
theorem chain_transfer {bs' : List Block} {a0' : State} {body' : Option (List AggAtt)} {root' : Root}
    {anchor' : State} {ops' : List Db.Op} {s s' : Store} (W : World c.E t vals bs a0 K)
    (W' : World c.E t vals bs' a0' K) (I : NInv c.E t vals a0 body K root anchor NoX ops s)
    (I' : NInv c.E t vals a0' body' K root' anchor' NoX ops' s') {x r : Root}
    (h : HAnc s.mem.db.headers x r) : ∀ {st : State}, stateOf root' anchor' ops' r = some st →
    (∀ hd, s.mem.db.headers.get? x = some hd → anchor'.slot ≤ hd.slot) →
    ∃ sx, stateOf root' anchor' ops' x = some sx := by
  induction h with
  | self e => intro st hst _; exact ⟨_, hst⟩
  | @up h hd pd e1 e2 e3 h4 ih =>
    intro st hst hx
    obtain ⟨o1, o2⟩ := I'.tree.own _ _ hst
    obtain ⟨k1, k2⟩ := I.hdrK W _ _ e1
    obtain ⟨k3, k4⟩ := I'.hdrK W' _ _ o2
    have he : st.latestBlockHeader = hd := W.collisionFree _ _ k3 k1 (k4.trans k2.symm)
    have hne : h ≠ root' := by
      intro hr
      rw [hr, I'.tree.anc] at hst
      cases hst
      obtain ⟨xd, hxd⟩ := h4.left
      have l1 := hx xd hxd
      have l2 := h4.slot_le
      rw [slotOf_eq hxd, slotOf_eq e2] at l2
      have l3 := I'.tree.slotEq _ _ I'.tree.anc
      rw [he] at l3
      omega
    obtain ⟨p, p1, p2, -⟩ := I'.tree.parentOf _ _ hst hne
    rw [he] at p1
    exact ih p1 hx

/-- A block of the chain of the node `a` is imported by the node `b`. -/
theorem chain_import {o' g'} {bs' : List Block} {a0' : State} {body' : Option (List AggAtt)}
    {root' : Root} {anchor' : State} {ops' : List Db.Op} {b : Actor}
    (ho' : ∀ l, ((⟨c.E, o', g'⟩ : Ctx).order l).Perm l) (W : World c.E t vals bs a0 K)
    (W' : World c.E t vals bs' a0' K)
    (A : AnchorOk c.E.H (State.fromGenesis c.E.H t vals) K root anchor)
    (A' : AnchorOk c.E.H (State.fromGenesis c.E.H t vals) K root' anchor')
    (hR : Ranks c.E.H K rank) (I : AInv c.E t vals a0 body K rank root anchor ops a)
    (V : CopiesGood c.E root anchor ops a.store.mem.db)
    (I' : AInv c.E t vals a0' body' K rank root' anchor' ops' b)
    (hst : StatesApart c.E.H a.store b.store) {sb : SignedBlock}
    (hsb : getSignedBlock c.E.H a.store.mem.db (sb.block.root c.E.H) = some sb)
    (hhead : HAnc a.store.mem.db.headers (sb.block.root c.E.H) a.store.mem.db.head)
    (hslot : a0.slot < sb.block.slot)
    (hp : hasState b.store.mem.db sb.block.parentRoot = true)
    (htime : sb.block.slot * 5 ≤ b.store.mem.db.time + 1)
    (hfin : HAnc a.store.mem.db.headers b.store.mem.db.finalized.root a.store.mem.db.head) :
    ∃ b' f, b.step ⟨c.E, o', g'⟩ (.block sb) = .ok (b', f) ∧
      hasState b'.store.mem.db (sb.block.root c.E.H) = true := by
  have hne := not_anchor A I hsb hslot
  obtain ⟨hk, -, hh⟩ := I.node.loaded W hne hsb
  obtain ⟨hs0, hhs⟩ := I.node.cp.head
  have has : ∃ st, stateOf root anchor ops (sb.block.root c.E.H) = some st := by
    refine chain_transfer W W I.node I.node hhead hhs (fun hd e => ?_)
    rw [hh] at e
    cases e
    have := run_anchor_slot I.node.run
    show anchor.slot ≤ sb.block.slot
    omega
  obtain ⟨st, hst1⟩ := has
  obtain ⟨p, p1, p2, p3⟩ := V _ _ _ hst1 hne hsb
  obtain ⟨q, q1⟩ := (I'.node.hasState_iff W' _).1 hp
  have hpq := same_state W W' I.node I'.node hst p1 q1
  subst hpq
  by_cases hf : b.store.mem.db.finalized.slot < sb.block.slot
  · exact import_now (c := ⟨c.E, o', g'⟩) ho' W' A' hR I' hk q1 p2 htime hf
  · -- already imported: it is below the finalized block
    have hnow : ∃ sx, stateOf root' anchor' ops' (sb.block.root c.E.H) = some sx := by
      obtain ⟨fs, f1, f2⟩ := I'.node.cp.fin
      obtain ⟨k1, k2⟩ := I'.node.hdrK W' _ _ (I'.node.tree.own _ _ f1).2
      obtain ⟨fd, hfd⟩ := hfin.left
      obtain ⟨k3, k4⟩ := I.node.hdrK W _ _ hfd
      have he : fs.latestBlockHeader = fd := W.collisionFree _ _ k1 k3 (k2.trans k4.symm)
      have hsl := I'.node.tree.slotEq _ _ f1
      have hanc := HAnc.le_of_slot hhead hfin (by
        rw [slotOf_eq hh, slotOf_eq hfd, ← he, hsl, f2]
        exact Nat.not_lt.1 hf)
      refine chain_transfer W W' I.node I'.node hanc f1 (fun hd e => ?_)
      rw [hh] at e
      cases e
      have h1 := I'.node.tree.slot_ge q1
      have h2 := (import_frame p3).slotLt
      show anchor'.slot ≤ sb.block.slot
      omega
    have hs' := (I'.node.hasState_iff W' _).2 hnow
    rcases I'.step (c := ⟨c.E, o', g'⟩) ho' W' A' hR (.block sb) hk with
      ⟨-, y, e, h, -⟩ | ⟨b', f, ops2, e, I2, x⟩
    · cases e
      rw [hp] at h
      cases h
    · exact ⟨b', f, e, x.hasState W' I'.node I2.node hs'⟩

/-- What a range answer consists of. -/
theorem served_copy (W : World c.E t vals bs a0 K)
    (I : AInv c.E t vals a0 body K rank root anchor ops a)
    (hb : ∀ b, body = some b → c.E.H.body b = a0.latestBlockHeader.bodyRoot) {start count : Nat}
    {l : List SignedBlock} (hl : Serve.answerRange c.E.H a.store.mem.db start count = some l)
    {sb : SignedBlock} (hsb : sb ∈ l) :
    getSignedBlock c.E.H a.store.mem.db (sb.block.root c.E.H) = some sb ∧
      HAnc a.store.mem.db.headers (sb.block.root c.E.H) a.store.mem.db.head ∧
      start ≤ sb.block.slot ∧ sb.block.slot < start + count := by
  obtain ⟨m, -, -, -, h3, -⟩ := I.node.started
  have hbr : anchor.latestBlockHeader.bodyRoot = a0.latestBlockHeader.bodyRoot := by rw [h3]
  have hr := C28_range I.node.run (I.node.collisionFree W) (fun b e => by rw [hbr]; exact hb b e)
  unfold Serve.answerRange at hl
  split at hl
  · cases hl
  next hcnt =>
  injection hl with hl
  subst hl
  unfold Serve.canonicalBlocksByRange at hsb
  rw [if_neg (fun e => hcnt (.inl e))] at hsb
  split at hsb
  · cases hsb
  · obtain ⟨k1, k2, -, k4, k5⟩ := ((hr start (start + (count - 1))).1 sb).1 hsb
    exact ⟨k5, k4, k1, by omega⟩
end

section
variable {c c' : Ctx} {t : Nat} {vals : List Validator} {bs bs' : List Block} {a0 a0' : State}
  {body body' : Option (List AggAtt)} {evs evs' : List Event} {a a' : Actor}

/-- **C109, validity.** Two nodes start from states of one chain and go through anything. Let the first
hold a copy of a block that it has imported after its start. If the second has imported the parent, the copy is
a valid block there: every check of the import passes, including that of the proof. -/
theorem C109_valid (hE : c'.E = c.E) (ho : ∀ l, (c.order l).Perm l) (ho' : ∀ l, (c'.order l).Perm l)
    (W : World c.E t vals bs a0 (KnownTo c.E.H (State.fromGenesis c.E.H t vals) bs bs' evs evs'))
    (W' : World c.E t vals bs' a0' (KnownTo c.E.H (State.fromGenesis c.E.H t vals) bs bs' evs evs'))
    (h : AReach c a0 body evs a) (h' : AReach c' a0' body' evs' a')
    (hst : StatesApart c.E.H a.store a'.store)
    (hempty : ∀ sb, .block sb ∈ evs ∨ .own sb ∈ evs →
      c.E.H.body sb.block.body = c.E.H.body [] → sb.block.body = [])
    {sb : SignedBlock} (hsb : getSignedBlock c.E.H a.store.mem.db (sb.block.root c.E.H) = some sb)
    (hs : hasState a.store.mem.db (sb.block.root c.E.H) = true) (hslot : a0.slot < sb.block.slot)
    {p : State} (hp : Reads a'.store sb.block.parentRoot p) : ValidOn c.E p sb := by
  obtain ⟨E, o', g'⟩ := c'
  have hE : E = c.E := hE
  subst hE
  obtain ⟨rank, hR⟩ := W.acyclic
  obtain ⟨root, anchor, ops, A, I, V⟩ := areach_copies ho W hR h
    (fun e he => (eventK_known e he).mono fun _ => .inl) hempty
  obtain ⟨root', anchor', ops', A', I'⟩ := areach_ainv (c := ⟨c.E, o', g'⟩) ho' W' hR h'
    (fun e he => (eventK_known e he).mono fun _ => .inr)
  obtain ⟨st, hstt⟩ := (I.node.hasState_iff W _).1 hs
  have hne := not_anchor A I hsb hslot
  obtain ⟨p', p1, p2, -⟩ := V _ _ _ hstt hne hsb
  rw [← same_state W W' I.node I'.node hst p1 ((I'.node.reads W' _ _).1 hp)]
  exact p2


/-- **C109.** Two nodes start from states of one chain and go through anything. The first answers a range request.
For every block of the answer (other than the first node's anchor): if the second node has imported the parent, its
clock has reached the block's slot and it has not finalized anything off the first node's chain, then it imports the
block when it is delivered (or has it already). -/
theorem C109_served (hE : c'.E = c.E) (ho : ∀ l, (c.order l).Perm l) (ho' : ∀ l, (c'.order l).Perm l)
    (W : World c.E t vals bs a0 (KnownTo c.E.H (State.fromGenesis c.E.H t vals) bs bs' evs evs'))
    (W' : World c.E t vals bs' a0' (KnownTo c.E.H (State.fromGenesis c.E.H t vals) bs bs' evs evs'))
    (h : AReach c a0 body evs a) (h' : AReach c' a0' body' evs' a')
    (hst : StatesApart c.E.H a.store a'.store)
    (hempty : ∀ sb, .block sb ∈ evs ∨ .own sb ∈ evs →
      c.E.H.body sb.block.body = c.E.H.body [] → sb.block.body = [])
    (hb : ∀ b, body = some b → c.E.H.body b = a0.latestBlockHeader.bodyRoot)
    {start count : Nat} {l : List SignedBlock}
    (hl : Serve.answerRange c.E.H a.store.mem.db start count = some l) {sb : SignedBlock} (hsb : sb ∈ l)
    (hslot : a0.slot < sb.block.slot) (hp : hasState a'.store.mem.db sb.block.parentRoot = true)
    (htime : sb.block.slot * 5 ≤ a'.store.mem.db.time + 1)
    (hfin : HAnc a.store.mem.db.headers a'.store.mem.db.finalized.root a.store.mem.db.head) :
    ∃ a'' f, a'.step c' (.block sb) = .ok (a'', f) ∧
      hasState a''.store.mem.db (sb.block.root c.E.H) = true := by
  obtain ⟨E, o', g'⟩ := c'
  have hE : E = c.E := hE
  subst hE
  obtain ⟨rank, hR⟩ := W.acyclic
  obtain ⟨root, anchor, ops, A, I, V⟩ := areach_copies ho W hR h
    (fun e he => (eventK_known e he).mono fun _ => .inl) hempty
  obtain ⟨root', anchor', ops', A', I'⟩ := areach_ainv (c := ⟨c.E, o', g'⟩) ho' W' hR h'
    (fun e he => (eventK_known e he).mono fun _ => .inr)
  obtain ⟨h1, h2, -⟩ := served_copy W I hb hl hsb
  exact chain_import ho' W W' A A' hR I V I' hst h1 h2 hslot hp htime hfin

end

/-! ## Instance -/

/-- The peer has the chain 1, 3, 4, 5 and has finalized slot 3; the node has blocks 1 and 3. -/
def servingActor : Actor := acted (chainT.reverse.map .block)
def hearingActor : Actor := acted ((chainT.take 2).reverse.map .block)

/-- A checkable form of `StatesApart` at one root. -/
def apartB (H : Hash) (s s' : Store) (r : Root) : Bool :=
  match Db.getState s.mem r, Db.getState s'.mem r with
  | .ok (some x, _), .ok (some y, _) =>
    decide (H.state (unrooted x) = H.state (unrooted y) → unrooted x = unrooted y)
  | _, _ => true

theorem apartB_sound {H : Hash} {s s' : Store} {keys : List Root}
    (hkeys : ∀ r x, Reads s r x → r ∈ keys) (h : ∀ r ∈ keys, apartB H s s' r = true) :
    StatesApart H s s' := by
  intro r x y hx hy
  have := h r (hkeys r x hx)
  obtain ⟨m, hm⟩ := hx
  obtain ⟨m', hm'⟩ := hy
  unfold apartB at this
  rw [hm, hm'] at this
  exact of_decide_eq_true this

/-- Where states can be read. -/
theorem reads_keys {c : Ctx} {t : Nat} {vals : List Validator} {bs : List Block} {a0 : State}
    {body : Option (List AggAtt)} {evs : List Event} {a : Actor} (ho : ∀ l, (c.order l).Perm l)
    (W : World c.E t vals bs a0 (Known c.E.H (State.fromGenesis c.E.H t vals) bs evs))
    (h : AReach c a0 body evs a) (r : Root) (x : State) (hr : Reads a.store r x) :
    r ∈ a.store.mem.db.states.keys ++ a.store.mem.db.diffs.keys := by
  obtain ⟨rank, hR⟩ := W.acyclic
  obtain ⟨root, anchor, ops, A, I⟩ := areach_ainv ho W hR h (fun e he => eventK_known e he)
  have := (I.node.hasState_iff W r).2 ⟨x, (I.node.reads W r x).1 hr⟩
  unfold hasState at this
  rw [List.mem_append, AMap.mem_keys_iff, AMap.mem_keys_iff]
  exact (Bool.or_eq_true_iff.1 this).imp Option.isSome_iff_exists.1 Option.isSome_iff_exists.1

/-- A world over the headers of one event list serves for two. -/
theorem World.two {E : Env} {t : Nat} {vals : List Validator} {a0 : State} {evs evs' : List Event}
    (W : World E t vals [] a0 (Known E.H (State.fromGenesis E.H t vals) [] (evs ++ evs'))) :
    World E t vals [] a0 (KnownTo E.H (State.fromGenesis E.H t vals) [] [] evs evs') :=
  W.weaken (fun x hx => hx.elim (known_sub (List.subset_append_left _ _) x)
    (known_sub (List.subset_append_right _ _) x)) (.inl (.inl rfl)) (fun b hb => by cases hb)

/-- Non-vacuity: the node asks the peer for slots 4 to 9, gets blocks 4 and 5 and imports block 4, although it has
finalized nothing and the peer has finalized slot 3. -/
theorem C109_instance :
    ∃ l, Serve.answerRange wH servingActor.store.mem.db 4 6 = some l ∧
      l.map (fun x => x.block.slot) = [4, 5] ∧ servingActor.store.mem.db.finalized.slot = 3 ∧
      hearingActor.store.mem.db.finalized.slot = 0 ∧
      ∀ sb ∈ l, sb.block.slot = 4 → hasState hearingActor.store.mem.db (sb.block.root wH) = false ∧
        ∃ a'' f, hearingActor.step wCtx (.block sb) = .ok (a'', f) ∧
          hasState a''.store.mem.db (sb.block.root wH) = true := by
  have W0 : World wE 0 wVals [] wG (Known wH wG []
      ((chainT.reverse.map .block ++ [.tick 32000 false]) ++
        ((chainT.take 2).reverse.map .block ++ [.tick 32000 false]))) :=
    world_of_list (by decide +kernel) (by decide +kernel)
  have W := World.two (E := wE) W0
  have h : AReach wCtx wG (some []) (chainT.reverse.map .block ++ [.tick 32000 false]) servingActor :=
    acted_reach (by decide +kernel)
  have h' : AReach wCtx wG (some []) ((chainT.take 2).reverse.map .block ++ [.tick 32000 false])
      hearingActor := acted_reach (by decide +kernel)
  have hst : StatesApart wH servingActor.store hearingActor.store :=
    apartB_sound (reads_keys (c := wCtx) (fun l => .refl l) (W0.weaken
      (known_sub (List.subset_append_left _ _)) (.inl rfl) (fun b hb => by cases hb)) h)
      (by decide +kernel)
  have hf : HAnc servingActor.store.mem.db.headers hearingActor.store.mem.db.finalized.root
      servingActor.store.mem.db.head := hancB_sound (n := 9) (by decide +kernel)
  have hempty : ∀ sb ∈ chainT, wH.body sb.block.body = wH.body [] → sb.block.body = [] := by
    decide +kernel
  have e1 : (Serve.answerRange wH servingActor.store.mem.db 4 6).map
      (fun l => l.map (fun x => x.block.slot)) = some [4, 5] := by decide +kernel
  have e2 : ∀ sb ∈ (Serve.answerRange wH servingActor.store.mem.db 4 6).getD [], sb.block.slot = 4 →
      hasState hearingActor.store.mem.db sb.block.parentRoot = true ∧ 0 < sb.block.slot ∧
        sb.block.slot * 5 ≤ hearingActor.store.mem.db.time + 1 ∧
        hasState hearingActor.store.mem.db (sb.block.root wH) = false := by decide +kernel
  cases hl : Serve.answerRange wH servingActor.store.mem.db 4 6 with
  | none => rw [hl] at e1; cases e1
  | some l =>
    rw [hl] at e1 e2
    refine ⟨l, rfl, Option.some.inj e1, by decide +kernel, by decide +kernel, fun sb hb h4 => ?_⟩
    obtain ⟨h1, h2, h3, h5⟩ := e2 sb hb h4
    refine ⟨h5, C109_served (c := wCtx) (c' := wCtx) rfl (fun l => .refl l) (fun l => .refl l) W W h h'
      hst (fun y hy => hempty y ?_) (fun b e => by cases e; decide +kernel) hl hb h2 h1 h3 hf⟩
    rcases hy with hy | hy
    · rcases List.mem_append.1 hy with hy | hy
      · obtain ⟨z, hz, e⟩ := List.mem_map.1 hy
        cases e
        exact List.mem_reverse.1 hz
      · simp at hy
    · rcases List.mem_append.1 hy with hy | hy
      · obtain ⟨z, -, e⟩ := List.mem_map.1 hy
        cases e
      · simp at hy

/-! ## Blocks that were never imported -/

/-- A corrupted copy of block 3, then its parent; newest first. -/
def relayEvs : List Event := [.block (sgn (mkBlock 1 0 [])), .block fakeBlock, .tick 32000 false]

/-- **C109, the other side.** Requests by root are answered from all stored blocks. A node that gets a block with
a broken proof before the parent keeps it; when the parent arrives the block is rejected, but it stays stored and is
served: the answer carries the requested root and is not valid on any state. -/
theorem C109_rejected_served : ∃ a, AReach strictCtx wG (some []) relayEvs a ∧
    hasState a.store.mem.db fakeBlock.block.parentRoot = true ∧
    hasState a.store.mem.db (fakeBlock.block.root wH) = false ∧
    Serve.answerRoots wH a.store.mem.db [fakeBlock.block.root wH] = [fakeBlock] ∧
    ∀ p, ¬ ValidOn strictE p fakeBlock := by
  have e1 : (match Actor.init strictCtx wG (some []) with
      | .error _ => none
      | .ok a0 => match crun strictCtx a0 relayEvs with
        | .error _ => none
        | .ok a => some (hasState a.store.mem.db fakeBlock.block.parentRoot,
          hasState a.store.mem.db (fakeBlock.block.root wH),
          Serve.answerRoots wH a.store.mem.db [fakeBlock.block.root wH])) =
        some (true, false, [fakeBlock]) := by decide +kernel
  revert e1
  cases hi : Actor.init strictCtx wG (some []) with
  | error z => intro h; cases h
  | ok a0 =>
    dsimp only
    cases e : crun strictCtx a0 relayEvs with
    | error z => intro h; cases h
    | ok a =>
      intro h
      have h := Option.some.inj h
      have h2 := (Prod.mk.inj h).2
      have hr := (AReach.init hi).run (crun_arun e)
      rw [List.append_nil] at hr
      refine ⟨a, hr, (Prod.mk.inj h).1, (Prod.mk.inj h2).1, (Prod.mk.inj h2).2, fun p h => ?_⟩
      have h1 := h.signature
      have h2 : strictE.verifyBlock p fakeBlock = false := by
        show decide (fakeBlock.proof = fakeBlock.block.slot) = false
        decide +kernel
      rw [h2] at h1
      cases h1

end Verif.Node
