import Verif.Lemmas.Keyed
import Verif.Spec.Delivery
import Verif.Lemmas.Dup
import Verif.Props.C29_Blocks
import Verif.Props.C59_NoPanic

/-
What holds between deliveries of blocks: every delivered block is imported, or waits under its parent
with the right copy in the database, or is queued.
-/

namespace Verif.Node
open Verif Verif.Db

theorem getSigned_write_self {H : Hash} {db : Db} {sb : SignedBlock}
    (he : H.body sb.block.body = H.body [] → sb.block.body = []) :
    getSignedBlock H (insertPendingBlock H db (sb.block.root H) sb) (sb.block.root H) = some sb := by
  unfold getSignedBlock insertPendingBlock writeSignedBlock
  dsimp only
  rw [AMap.get?_insert_self]
  dsimp only
  rw [AMap.get?_insert_self]
  by_cases hb : (sb.block.header H).bodyRoot = H.body []
  · rw [if_pos hb]
    dsimp only
    have := he hb
    rw [← this, fromHeader_roundtrip]
  · rw [if_neg hb, if_pos hb, AMap.get?_insert_self]
    dsimp only
    rw [fromHeader_roundtrip]

theorem getSigned_write_other {H : Hash} {db : Db} {sb : SignedBlock} {r x : Root} (hx : x ≠ r) :
    getSignedBlock H (insertPendingBlock H db r sb) x = getSignedBlock H db x := by
  have hx' : ¬ r = x := fun h => hx h.symm
  have e1 : (insertPendingBlock H db r sb).headers.get? x = db.headers.get? x := by
    show (db.headers.insert r _).get? x = _
    rw [AMap.get?_insert, if_neg hx']
  have e2 : (insertPendingBlock H db r sb).bodies.get? x = db.bodies.get? x := by
    show AMap.get? (if _ then _ else _) x = _
    split
    · rw [AMap.get?_insert, if_neg hx']
    · rfl
  have e3 : ∀ n, (insertPendingBlock H db r sb).proofs.get? (n, x) = db.proofs.get? (n, x) := by
    intro n
    show (db.proofs.insert _ _).get? (n, x) = _
    rw [AMap.get?_insert, if_neg (fun h => hx' (Prod.mk.inj h).2)]
  unfold getSignedBlock
  rw [e1]
  cases db.headers.get? x with
  | none => rfl
  | some h => dsimp only; rw [e2, e3]

section
variable {c : Ctx} {t : Nat} {vals : List Validator} {bs : List Block} {a0 : State}
  {body : Option (List AggAtt)} {K : Header → Prop} {rank : Root → Nat} {root : Root}
  {anchor : State} {ops : List Db.Op} {a : Actor} {s : Store} {hs : AMap Root Header}

/-- What is assumed of the blocks `T` and of all states imported by the calls `ops`; `hs` are the
headers at the end. -/
structure Fine (c : Ctx) (T : SignedBlock → Prop) (hs : AMap Root Header) (root : Root)
    (anchor : State) (ops : List Db.Op) : Prop where
  hdr : ∀ r st, stateOf root anchor ops r = some st → hs.get? r = some st.latestBlockHeader
  fin : ∀ sb, T sb → ∀ r st, stateOf root anchor ops r = some st →
    st.latestFinalized.slot < sb.block.slot ∨ HAnc hs (sb.block.root c.E.H) r
  valid : ∀ sb, T sb → ∀ p, stateOf root anchor ops sb.block.parentRoot = some p → ValidOn c.E p sb

theorem Fine.mono {T : SignedBlock → Prop} {ops' : List Db.Op} (h : Fine c T hs root anchor ops')
    (hm : ∀ r st, stateOf root anchor ops r = some st → stateOf root anchor ops' r = some st) :
    Fine c T hs root anchor ops :=
  ⟨fun r st e => h.hdr r st (hm r st e), fun sb hb r st e => h.fin sb hb r st (hm r st e),
   fun sb hb p e => h.valid sb hb p (hm _ p e)⟩

/-- Facts about `T` that do not change. -/
structure Tree (c : Ctx) (K : Header → Prop) (T : SignedBlock → Prop) (hs : AMap Root Header)
    (anchor : State) : Prop where
  hdr : ∀ sb, T sb → ∀ hd, hs.get? (sb.block.root c.E.H) = some hd → hd = sb.block.header c.E.H
  known : ∀ sb, T sb → K (sb.block.header c.E.H)
  above : ∀ sb, T sb → anchor.slot < sb.block.slot
  empty : ∀ sb, T sb → c.E.H.body sb.block.body = c.E.H.body [] → sb.block.body = []

/-- Where the delivered blocks `D` of the tree `T` are. -/
structure Deliv (c : Ctx) (T D : SignedBlock → Prop) (a : Actor) (q : List SignedBlock) : Prop where
  time : ∀ sb, T sb → sb.block.slot * 5 ≤ a.store.mem.db.time + 1
  base : ∀ sb, T sb → hasState a.store.mem.db sb.block.parentRoot = true ∨
    ∃ p, T p ∧ p.block.root c.E.H = sb.block.parentRoot
  at_ : ∀ sb, D sb → hasState a.store.mem.db (sb.block.root c.E.H) = true ∨
    (getSignedBlock c.E.H a.store.mem.db (sb.block.root c.E.H) = some sb ∧
      (Edge a.pending sb.block.parentRoot (sb.block.root c.E.H) ∨ sb ∈ q)) ∨ q = [sb]
  copy : ∀ sb, D sb → ∀ x ∈ q, x.block.root c.E.H = sb.block.root c.E.H →
    x = sb ∨ hasState a.store.mem.db (sb.block.root c.E.H) = true ∨
      hasState a.store.mem.db sb.block.parentRoot = true
  keyed : Keyed a.store.mem.db a.pending

theorem root_ne (W : World c.E t vals bs a0 K)
    (A : AnchorOk c.E.H (State.fromGenesis c.E.H t vals) K root anchor) {T : SignedBlock → Prop}
    (hT : Tree c K T hs anchor) {sb : SignedBlock} (hb : T sb) : sb.block.root c.E.H ≠ root := by
  intro h
  have h1 := W.collisionFree _ _ (hT.known sb hb) A.known (h.trans A.root.symm)
  have h2 := hT.above sb hb
  have h3 : sb.block.slot = anchor.latestBlockHeader.slot := by rw [← h1]; rfl
  rw [A.slot] at h3
  omega

/-- The ancestors, down to the anchor, of a block with a state have states. -/
theorem hanc_state (I : AInv c.E t vals a0 body K rank root anchor ops a)
    (A : AnchorOk c.E.H (State.fromGenesis c.E.H t vals) K root anchor)
    (hh : ∀ r st, stateOf root anchor ops r = some st → hs.get? r = some st.latestBlockHeader)
    {x r : Root} (h : HAnc hs x r) : ∀ {hd : Header}, hs.get? x = some hd → anchor.slot < hd.slot →
    ∀ {st : State}, stateOf root anchor ops r = some st → stateOf root anchor ops x ≠ none := by
  induction h with
  | self _ => intro hd _ _ st hst; rw [hst]; simp
  | @up h hd pd e1 e2 e3 h4 ih =>
    intro xd hx hlt st hst
    by_cases hr : h = root
    · exfalso
      have k1 := HAnc.slot_le (.up e1 e2 e3 h4)
      rw [hr] at k1
      have k2 := hh _ _ I.node.tree.anc
      rw [slotOf_eq hx, slotOf_eq k2, A.slot] at k1
      omega
    · obtain ⟨p, p1, -⟩ := I.node.tree.parentOf _ _ hst hr
      have k := hh _ _ hst
      rw [e1] at k
      rw [← Option.some.inj k] at p1
      exact ih hx hlt p1

/-- The finalized slot is below the slot of a block of `T` that is not imported. -/
theorem fin_below {T : SignedBlock → Prop} (W : World c.E t vals bs a0 K)
    (A : AnchorOk c.E.H (State.fromGenesis c.E.H t vals) K root anchor)
    (I : AInv c.E t vals a0 body K rank root anchor ops a) (F : Fine c T hs root anchor ops)
    (hT : Tree c K T hs anchor) {sb : SignedBlock} (hb : T sb)
    (hn : ¬ hasState a.store.mem.db (sb.block.root c.E.H) = true) :
    a.store.mem.db.finalized.slot < sb.block.slot := by
  rcases I.node.cp.finOf with h | ⟨r, st, h1, h2⟩
  · rw [h]; exact hT.above sb hb
  · rcases F.fin sb hb r st h1 with h | h
    · rw [← h2]; exact h
    · exfalso
      obtain ⟨hd, hd1⟩ : ∃ hd, hs.get? (sb.block.root c.E.H) = some hd := by
        clear h1 h2
        induction h with
        | self h => exact ⟨_, h⟩
        | up _ _ _ _ ih => exact ih
      have k := hanc_state I A F.hdr h hd1 (by rw [hT.hdr sb hb hd hd1]; exact hT.above sb hb) h1
      cases e : stateOf root anchor ops (sb.block.root c.E.H) with
      | none => exact k e
      | some z => exact hn ((I.node.hasState_iff W _).2 ⟨z, e⟩)

/-- Two known blocks with the same root have the same header. -/
theorem header_eq (W : World c.E t vals bs a0 K) {x y : SignedBlock}
    (hx : K (x.block.header c.E.H)) (hy : K (y.block.header c.E.H))
    (h : x.block.root c.E.H = y.block.root c.E.H) :
    x.block.header c.E.H = y.block.header c.E.H :=
  W.collisionFree _ _ hx hy h

theorem waits_key {m : Pending} {r k : Root} (hw : Waits m r k) (hk : m.get? k ≠ none) :
    m.get? r ≠ none := by
  induction hw with
  | self => exact hk
  | step _ he ih =>
    obtain ⟨l, hl, -⟩ := he
    exact ih (by rw [hl]; simp)

/-- A block of the tree without state that has an entry in the map: so do all that it waits for. -/
theorem waits_tree (W : World c.E t vals bs a0 K) {T D : SignedBlock → Prop} {q : List SignedBlock}
    (I : AInv c.E t vals a0 body K rank root anchor ops a) (hT : Tree c K T hs anchor)
    (J : Deliv c T D a q) {r k : Root} (hw : Waits a.pending r k)
    (hk : a.pending.get? k ≠ none) (hp : ∃ p, T p ∧ p.block.root c.E.H = k) :
    ∃ p, T p ∧ p.block.root c.E.H = r := by
  induction hw with
  | self => exact hp
  | @step k x h1 he ih =>
    obtain ⟨p, tp, ep⟩ := hp
    obtain ⟨l, hl, hx⟩ := he
    refine ih (by rw [hl]; simp) ?_
    obtain ⟨-, hd, h2, h3⟩ := I.maps.child k x ⟨l, hl, hx⟩
    obtain ⟨k1, k2⟩ := I.node.hdrK W x hd h2
    have : hd = p.block.header c.E.H := W.collisionFree _ _ k1 (hT.known p tp) (k2.trans ep.symm)
    have hpk : p.block.parentRoot = k := by rw [← h3, this]; rfl
    rcases J.base p tp with h | ⟨p', tp', ep'⟩
    · rw [hpk, J.keyed.state k l hl] at h; cases h
    · exact ⟨p', tp', ep'.trans hpk⟩

/-- Each step of the queue loop keeps track of the delivered blocks. -/
theorem deliv_kept (ho : ∀ l, (c.order l).Perm l) (W : World c.E t vals bs a0 K)
    (A : AnchorOk c.E.H (State.fromGenesis c.E.H t vals) K root anchor)
    {T D : SignedBlock → Prop} (hT : Tree c K T hs anchor) (hD : ∀ sb, D sb → T sb) :
    Kept c t vals a0 body K rank root anchor
      (fun ops a q => Fine c T hs root anchor ops → Deliv c T D a q) := by
  intro ops a sb q ops' o I I' hk x hready hrq hproc p hJ F'
  have F := F'.mono x.states
  have J := hJ F
  have grow : ∀ r, hasState a.store.mem.db r = true → hasState o.actor.store.mem.db r = true :=
    fun r h => x.hasState W I.node I'.node h
  have hbase : ∀ sb, T sb → hasState o.actor.store.mem.db sb.block.parentRoot = true ∨
      ∃ p, T p ∧ p.block.root c.E.H = sb.block.parentRoot :=
    fun sb hb => (J.base sb hb).imp (grow _) id
  -- what the four conditions become, given where each delivered block is
  have fin : (o.actor.store.mem.db.time = a.store.mem.db.time) →
      (∀ y, D y → hasState o.actor.store.mem.db (y.block.root c.E.H) = true ∨
        (getSignedBlock c.E.H o.actor.store.mem.db (y.block.root c.E.H) = some y ∧
          (Edge o.actor.pending y.block.parentRoot (y.block.root c.E.H) ∨ y ∈ q ++ o.push))) →
      (∀ b ∈ o.push, ∃ r, r ≠ root ∧ getSignedBlock c.E.H o.actor.store.mem.db r = some b) →
      Deliv c T D o.actor (q ++ o.push) := by
    intro htime hat hpush
    refine ⟨fun y hy => by rw [htime]; exact J.time y hy, hbase,
      fun y hy => (hat y hy).imp id .inl, fun y hy z hz he => ?_, J.keyed.process ho hproc⟩
    rcases List.mem_append.1 hz with hz | hz
    · exact (J.copy y hy z (List.mem_cons_of_mem _ hz) he).imp id (.imp (grow _) (grow _))
    · obtain ⟨r, hr, hg⟩ := hpush z hz
      obtain ⟨-, l2, -⟩ := I'.node.loaded W hr hg
      rcases hat y hy with h | ⟨h, -⟩
      · exact .inr (.inl h)
      · rw [← l2, he, h] at hg
        exact .inl (Option.some.inj hg).symm
  cases p with
  | reject why h1 h2 h3 R =>
    have hnot : ∀ y, T y → ¬ hasState a.store.mem.db (y.block.root c.E.H) = true →
        sb.block.root c.E.H ≠ y.block.root c.E.H := by
      intro y hy hn he
      have hh := header_eq W hk (hT.known y hy) he
      have hs : sb.block.slot = y.block.slot := by
        show (sb.block.header c.E.H).slot = (y.block.header c.E.H).slot
        rw [hh]
      have k1 := fin_below W A I F hT hy hn
      have k2 := J.time y hy
      rcases why with w | w <;> omega
    refine fin (by rw [h2]) (fun y hy => ?_) (fun b hb => by rw [h3] at hb; cases hb)
    rw [h2]
    by_cases hn : hasState a.store.mem.db (y.block.root c.E.H) = true
    · exact .inl hn
    rcases J.at_ y hy with h | ⟨h, h'⟩ | h
    · exact .inl h
    · refine .inr ⟨h, ?_⟩
      rcases h' with ⟨l, hl, hm⟩ | h'
      · left
        rcases R.sub y.block.parentRoot with e | e
        · exfalso
          obtain ⟨c', hc', hw⟩ := R.only y.block.parentRoot (by rw [hl]; simp) e
          rw [List.mem_singleton] at hc'
          subst hc'
          have hpt : ∃ p, T p ∧ p.block.root c.E.H = y.block.parentRoot := by
            rcases J.base y (hD y hy) with hb | hb
            · rw [J.keyed.state _ l hl] at hb; cases hb
            · exact hb
          obtain ⟨p, tp, ep⟩ := waits_tree W I hT J hw (by rw [hl]; simp) hpt
          refine hnot p tp (fun hst => ?_) ep.symm
          have hkey := waits_key hw (by rw [hl]; simp)
          cases e' : a.pending.get? (sb.block.root c.E.H) with
          | none => exact hkey e'
          | some l' => rw [ep, J.keyed.state _ l' e'] at hst; cases hst
        · exact ⟨l, e.trans hl, hm⟩
      · rcases List.mem_cons.1 h' with h' | h'
        · exact absurd (congrArg (fun z : SignedBlock => z.block.root c.E.H) h'.symm) (hnot y (hD y hy) hn)
        · exact .inr (List.mem_append_left _ h')
    · injection h with h _
      exact absurd (congrArg (fun z : SignedBlock => z.block.root c.E.H) h) (hnot y (hD y hy) hn)
  | pend h1 h2 h3 h4 h5 h6 h7 h8 =>
    refine fin (by rw [h4]; rfl) (fun y hy => ?_) (fun b hb => ?_)
    · have hmine : sb = y → getSignedBlock c.E.H o.actor.store.mem.db (y.block.root c.E.H) = some y ∧
          (Edge o.actor.pending y.block.parentRoot (y.block.root c.E.H) ∨ y ∈ q ++ o.push) := by
        rintro rfl
        rw [h4]
        exact ⟨getSigned_write_self (hT.empty _ (hD _ hy)), .inl h6⟩
      rcases J.at_ y hy with h | ⟨h, h'⟩ | h
      · exact .inl (grow _ h)
      · by_cases hroot : sb.block.root c.E.H = y.block.root c.E.H
        · rcases J.copy y hy sb List.mem_cons_self hroot with e | e | e
          · exact .inr (hmine e)
          · exact .inl (grow _ e)
          · have hh := header_eq W hk (hT.known y (hD y hy)) hroot
            have hp : sb.block.parentRoot = y.block.parentRoot := by
              show (sb.block.header c.E.H).parentRoot = (y.block.header c.E.H).parentRoot
              rw [hh]
            rw [← hp, h2] at e
            cases e
        · refine .inr ⟨?_, ?_⟩
          · rw [h4, getSigned_write_other (fun e => hroot e.symm)]
            exact h
          · rcases h' with h' | h'
            · exact .inl (h5 _ _ h')
            · rcases List.mem_cons.1 h' with h' | h'
              · rw [h'] at hroot; exact absurd rfl hroot
              · exact .inr (List.mem_append_left _ h')
      · injection h with h _
        exact .inr (hmine h)
    · rcases h7 with h7 | ⟨r, b', h7, h9, h10, -⟩
      · rw [h7] at hb; cases hb
      · rw [h7, List.mem_singleton] at hb
        subst hb
        exact ⟨r, h9, h10⟩
  | @fail s' e h1 h2 h3 h4 =>
    have hdb : o.actor.store.mem.db = a.store.mem.db := by rw [h3]; exact h2.err e rfl
    have hpend : o.actor.pending = a.pending := by rw [h3]
    have hnot : ∀ y, D y → sb = y → False := by
      rintro y hy rfl
      obtain ⟨pst, hp⟩ := (I.node.hasState_iff W _).1 h1
      have V := F.valid sb (hD _ hy) pst hp
      obtain ⟨st, hst⟩ := V.transition
      have hc : checkBlock c.E a.store pst sb = .ok st := by
        have ht := J.time sb (hD _ hy)
        unfold checkBlock
        rw [if_neg (Nat.not_lt.2 V.gap), if_neg, if_neg (by rw [(hasDuplicate_iff _).2 V.nodup]; simp),
          if_neg (Nat.not_lt.2 V.few), if_neg (by rw [V.signature]; simp), hst]
        have : a.store.currentSlot = a.store.mem.db.time / 5 := rfl
        rw [this]
        omega
      have := h2.good pst st hp hc
      cases this
    refine fin (by rw [hdb]) (fun y hy => ?_) (fun b hb => by rw [h4] at hb; cases hb)
    rw [hdb, hpend]
    rcases J.at_ y hy with h | ⟨h, h'⟩ | h
    · exact .inl h
    · refine .inr ⟨h, h'.imp id (fun h' => ?_)⟩
      rcases List.mem_cons.1 h' with h' | h'
      · exact (hnot y hy h'.symm).elim
      · exact List.mem_append_left _ h'
    · injection h with h _
      exact (hnot y hy h).elim
  | @done s' h1 h2 h3 h4 h5 h6 =>
    obtain ⟨st, hst⟩ := h2.ok rfl
    have hnow : hasState o.actor.store.mem.db (sb.block.root c.E.H) = true :=
      (I'.node.hasState_iff W _).2 ⟨st, hst⟩
    refine fin (by rw [h3]; exact h2.time) (fun y hy => ?_) (fun b hb => ?_)
    · by_cases hroot : y.block.root c.E.H = sb.block.root c.E.H
      · rw [hroot]; exact .inl hnow
      · rcases J.at_ y hy with h | ⟨h, h'⟩ | h
        · exact .inl (grow _ h)
        · have hg : getSignedBlock c.E.H o.actor.store.mem.db (y.block.root c.E.H) = some y := by
            rw [h3, h2.blocks _ hroot]; exact h
          refine .inr ⟨hg, ?_⟩
          rcases h' with ⟨l, hl, hm⟩ | h'
          · by_cases hpar : y.block.parentRoot = sb.block.root c.E.H
            · right
              refine List.mem_append_right _ ?_
              rw [h5, List.mem_filterMap]
              refine ⟨_, (ho _).mem_iff.2 ?_, hg⟩
              rw [← hpar, hl]
              exact hm
            · left
              refine ⟨l, ?_, hm⟩
              rw [h4, AMap.get?_erase, if_neg (fun e => hpar e.symm)]
              exact hl
          · rcases List.mem_cons.1 h' with h' | h'
            · exact absurd (by rw [h']) hroot
            · exact .inr (List.mem_append_left _ h')
        · injection h with h _
          exact absurd (by rw [h]) hroot
    · rw [h5, List.mem_filterMap] at hb
      obtain ⟨r, hr, hg⟩ := hb
      refine ⟨r, ?_, hg⟩
      have hr := (ho _).mem_iff.1 hr
      cases e : a.pending.get? (sb.block.root c.E.H) with
      | none => rw [e] at hr; cases hr
      | some l => rw [e] at hr; exact (I.maps.child _ _ ⟨l, e, hr⟩).1

/-- Pruning keeps the copies of blocks above the finalized slot. -/
theorem prune_keeps (W : World c.E t vals bs a0 K)
    (I : AInv c.E t vals a0 body K rank root anchor ops a) {db : Db}
    (h : pruneOldData a.store.mem.db = .ok db) {sb : SignedBlock}
    (hr : sb.block.root c.E.H ≠ root)
    (hs : a.store.mem.db.finalized.slot < sb.block.slot)
    (hg : getSignedBlock c.E.H a.store.mem.db (sb.block.root c.E.H) = some sb) :
    getSignedBlock c.E.H db (sb.block.root c.E.H) = some sb := by
  have hh := (I.node.loaded W hr hg).2.2
  rw [C29_prune_keeps I.node.run h _ _ hh]
  · exact hg
  · intro tip _
    by_cases hc : a.store.mem.db.finalized.slot < tip.slot - 21600
    · exact .inr hc
    · left
      show _ ≤ sb.block.slot
      omega

/-- One event of the window. -/
theorem deliv_step (ho : ∀ l, (c.order l).Perm l) (W : World c.E t vals bs a0 K)
    (A : AnchorOk c.E.H (State.fromGenesis c.E.H t vals) K root anchor)
    (hR : Ranks c.E.H K rank) {T D : SignedBlock → Prop} (hT : Tree c K T hs anchor)
    (hD : ∀ sb, D sb → T sb) (I : AInv c.E t vals a0 body K rank root anchor ops a)
    (J : Fine c T hs root anchor ops → Deliv c T D a []) {ev : Event} (hk : EventK c.E.H K ev)
    (hre : ev ≠ .restart)
    (hcopy : ∀ x, ev = .block x → ∀ sb, T sb → x.block.root c.E.H = sb.block.root c.E.H →
      x = sb ∨ hasState a.store.mem.db sb.block.parentRoot = true)
    (hkey' : ∀ a' f, a.step c ev = .ok (a', f) →
      Keyed a'.store.mem.db a'.pending)
    {a' : Actor} {f : List Root} (he : a.step c ev = .ok (a', f)) :
    ∃ ops', AInv c.E t vals a0 body K rank root anchor ops' a' ∧
      Ext root anchor ops a.store ops' a'.store ∧
      (Fine c T hs root anchor ops' → Deliv c T (fun sb => D sb ∨ T sb ∧ ev = .block sb) a' []) := by
  have he0 := he
  by_cases hb : ∃ sb, ev = .block sb
  · obtain ⟨e, rfl⟩ := hb
    have hJ := deliv_kept (body := body) (rank := rank) ho W A (D := fun sb => D sb ∨ T sb ∧ Event.block e = .block sb)
      hT (fun sb h => h.elim (hD sb) (fun h => h.1))
    rcases I.onBlock ho W A hR hJ e hk (by
      intro F
      have J := J F
      refine ⟨J.time, J.base, fun y hy => ?_, fun y hy z hz hze => ?_, J.keyed⟩
      · rcases hy with hy | ⟨_, hy⟩
        · rcases J.at_ y hy with h | ⟨h, h'⟩ | h
          · exact .inl h
          · refine .inr (.inl ⟨h, .inl ?_⟩)
            rcases h' with h' | h'
            · exact h'
            · cases h'
          · cases h
        · cases hy; exact .inr (.inr rfl)
      · rw [List.mem_singleton] at hz
        subst hz
        refine (hcopy _ rfl y ?_ hze).imp id .inr
        exact hy.elim (hD y) (fun h => h.1)) with
      ⟨h1, -⟩ | ⟨a1, a2, f', ops1, ops', db, e1, I1, J1, e2, e3, I2, x1, x2⟩
    · have he : a.onBlock c e = .ok (a', f) := he
      rw [h1] at he; cases he
    · have he : a.onBlock c e = .ok (a', f) := he
      rw [e1] at he
      obtain ⟨rfl, rfl⟩ := Prod.mk.inj (Except.ok.inj he)
      refine ⟨ops', I2, x1.trans x2, fun F' => ?_⟩
      have F1 := F'.mono x2.states
      have J1 := J1 F1
      have hdb : a2.store.mem.db = db := by rw [e3]
      have hpd : a2.pending = a1.pending := by rw [e3]
      have hst : ∀ r, hasState a1.store.mem.db r = true → hasState a2.store.mem.db r = true :=
        fun r h => x2.hasState W I1.node I2.node h
      obtain ⟨g1, g2, g3, g4, -⟩ := pruneOldData_frame e2
      have htime : db.time = a1.store.mem.db.time := by
        unfold pruneOldData at e2
        split at e2
        · cases e2
        · have e2 := Except.ok.inj e2
          rw [← e2]
          unfold pruneProofs pruneBelow
          split <;> rfl
      refine ⟨fun y hy => by rw [hdb, htime]; exact J1.time y hy,
        fun y hy => (J1.base y hy).imp (hst _) id, fun y hy => ?_, (fun y hy z hz => by cases hz),
        hkey' _ _ he0⟩
      by_cases hn : hasState a1.store.mem.db (y.block.root c.E.H) = true
      · exact .inl (hst _ hn)
      rcases J1.at_ y hy with h | ⟨h, h'⟩ | h
      · exact .inl (hst _ h)
      · refine .inr (.inl ⟨?_, .inl ?_⟩)
        · rw [hdb]
          have hyT : T y := hy.elim (hD y) (fun h => h.1)
          exact prune_keeps W I1 e2 (root_ne W A hT hyT) (fin_below W A I1 F1 hT hyT hn) h
        · rcases h' with h' | h'
          · rw [hpd]; exact h'
          · cases h'
      · cases h
  · have hb' : ∀ sb, ev ≠ .block sb := fun sb h => hb ⟨sb, h⟩
    obtain ⟨a2, f2, ops', e, I', x⟩ := I.other W A ev hb' hk
    rw [e] at he
    obtain ⟨rfl, rfl⟩ := Prod.mk.inj (Except.ok.inj he)
    refine ⟨ops', I', x, fun F' => ?_⟩
    have F := F'.mono x.states
    have J := J F
    obtain ⟨s1, s2, s3⟩ := Actor.step_other hb' hre e
    by_cases hown : ∃ sb, ev = .own sb
    · obtain ⟨sb, rfl⟩ := hown
      have s1 : R.store (onBlock c.E a.store sb) = .ok a2.store := s1
      obtain ⟨s', opsi, r, q1, Ii, q⟩ := I.node.imported W A sb hk
      rw [q1] at s1
      have s1 : s' = a2.store := Except.ok.inj s1
      rw [s1] at q
      have grow : ∀ x, hasState a.store.mem.db x = true → hasState a2.store.mem.db x = true :=
        fun z h => x.hasState W I.node I'.node h
      refine ⟨fun y hy => by rw [q.time]; exact J.time y hy,
        fun y hy => (J.base y hy).imp (grow _) id, fun y hy => ?_,
        (fun y hy z hz => by cases hz), hkey' _ _ he0⟩
      have hy : D y := hy.elim id (fun h => absurd h.2 (hb' y))
      rcases J.at_ y hy with h | ⟨h, h'⟩ | h
      · exact .inl (grow _ h)
      · cases hr : r with
        | error z =>
          refine .inr (.inl ⟨?_, h'.imp (fun h' => ?_) (fun h' => by cases h')⟩)
          · rw [q.err z hr]; exact h
          · rw [s2]; exact h'
        | ok z =>
          by_cases hroot : y.block.root c.E.H = sb.block.root c.E.H
          · left
            obtain ⟨st, hst⟩ := q.ok hr
            rw [hroot, ← s1]
            exact (Ii.hasState_iff W _).2 ⟨st, hst⟩
          · refine .inr (.inl ⟨?_, h'.imp (fun h' => ?_) (fun h' => by cases h')⟩)
            · rw [q.blocks _ hroot]; exact h
            · rw [s2]; exact h'
      · cases h
    obtain ⟨S, hp⟩ := step_still (fun sb => ⟨hb' sb, fun h => hown ⟨sb, h⟩⟩) s1
    refine ⟨fun y hy => Nat.le_trans (J.time y hy) (Nat.succ_le_succ S.time),
      fun y hy => (J.base y hy).imp (fun h => by rw [S.hasState]; exact h) id, fun y hy => ?_,
      (fun y hy z hz => by cases hz), hkey' _ _ he0⟩
    have hy : D y := hy.elim id (fun h => absurd h.2 (hb' y))
    by_cases hn : hasState a.store.mem.db (y.block.root c.E.H) = true
    · left; rw [S.hasState]; exact hn
    rcases J.at_ y hy with h | ⟨h, h'⟩ | h
    · left; rw [S.hasState]; exact h
    · refine .inr (.inl ⟨?_, .inl ?_⟩)
      · rcases hp with hp | hp
        · have : getSignedBlock c.E.H a2.store.mem.db (y.block.root c.E.H)
              = getSignedBlock c.E.H a.store.mem.db (y.block.root c.E.H) := by
            unfold getSignedBlock
            rw [S.headers, S.bodies, hp]
          rw [this]; exact h
        · exact prune_keeps W I hp (root_ne W A hT (hD y hy)) (fin_below W A I F hT (hD y hy) hn) h
      · rcases h' with h' | h'
        · rw [s2]; exact h'
        · cases h'
    · cases h

end

end Verif.Node
