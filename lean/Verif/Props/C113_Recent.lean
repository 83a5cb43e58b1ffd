import Verif.Lemmas.Retained
import Verif.Props.C110_Join
/-!
# C113: a node keeps what others need to follow it
-/
namespace Verif.Node
open Verif Verif.Db Verif.Net Verif.Witness Verif.Node.Witness

section
variable {c : Ctx} {t : Nat} {vals : List Validator} {bs : List Block} {a0 : State}
  {body : Option (List AggAtt)} {evs : List Event} {a : Actor}

/-- Blocks of a chain above the anchor are imported if its end is. -/
theorem above_state {K : Header → Prop} {root : Root} {anchor : State} {ops : List Db.Op} {s : Store}
    (A : AnchorOk c.E.H (State.fromGenesis c.E.H t vals) K root anchor)
    (I : NInv c.E t vals a0 body K root anchor NoX ops s) {r x : Root}
    (h : HAnc s.mem.db.headers r x) (hs : a0.slot < slotOf s.mem.db.headers r) :
    ∀ st, stateOf root anchor ops x = some st → ∃ st', stateOf root anchor ops r = some st' := by
  induction h with
  | self _ => exact fun st e => ⟨st, e⟩
  | @up x hd pd h1 h2 h3 h4 ih =>
    intro st e
    have hx := (I.tree.own _ _ e).2
    rw [h1] at hx
    have hx := Option.some.inj hx
    by_cases hne : x = root
    · exfalso
      have hle := (HAnc.up h1 h2 h3 h4).slot_le
      rw [hne, slotOf_eq (I.tree.own _ _ I.tree.anc).2, A.slot] at hle
      have := run_anchor_slot I.run
      omega
    · obtain ⟨p, p1, -⟩ := I.tree.parentOf _ _ e hne
      rw [← hx] at p1
      exact ih p p1

/-- **C113.** After any events: let a node have imported a block after its starting state, and let no block it has
imported lie more than 21600 slots (a day) above that block. Then the node has the complete block, with body and
proof, and answers a request for its root with it. -/
theorem C113_kept (ho : ∀ l, (c.order l).Perm l)
    (W : World c.E t vals bs a0 (Known c.E.H (State.fromGenesis c.E.H t vals) bs evs))
    (h : AReach c a0 body evs a)
    (hempty : ∀ sb, .block sb ∈ evs ∨ .own sb ∈ evs →
      c.E.H.body sb.block.body = c.E.H.body [] → sb.block.body = [])
    {r : Root} {x : Header} (hr : hasState a.store.mem.db r = true)
    (hx : a.store.mem.db.headers.get? r = some x) (hslot : a0.slot < x.slot)
    (hrec : ∀ r' x', hasState a.store.mem.db r' = true → a.store.mem.db.headers.get? r' = some x' →
      x'.slot ≤ x.slot + 21600) :
    ∃ sb, Serve.answerRoots c.E.H a.store.mem.db [r] = [sb] ∧ sb.block.root c.E.H = r ∧
      sb.block.header c.E.H = x := by
  obtain ⟨rank, hR⟩ := W.acyclic
  obtain ⟨root, anchor, ops, A, I, -, U⟩ := areach_retains ho W hR h (fun e he => eventK_known e he) hempty
  obtain ⟨st, hst⟩ := (I.node.hasState_iff W r).1 hr
  have hxs := (I.node.tree.own _ _ hst).2
  rw [hx] at hxs
  have hxs := Option.some.inj hxs
  have hne : r ≠ root := by
    rintro rfl
    have := (I.node.tree.own _ _ I.node.tree.anc).2
    rw [hx] at this
    have e := Option.some.inj this
    rw [e, A.slot] at hslot
    have := run_anchor_slot I.node.run
    omega
  obtain ⟨sb, hsb⟩ := U r st hst hne (fun r' st' h' => by
    rw [← hxs]
    exact hrec r' _ ((I.node.hasState_iff W r').2 ⟨st', h'⟩) (I.node.tree.own _ _ h').2)
  obtain ⟨-, h2, h3⟩ := I.node.loaded W hne hsb
  rw [hx] at h3
  refine ⟨sb, ?_, h2, (Option.some.inj h3).symm⟩
  show [r].filterMap _ = _
  simp only [List.filterMap_cons, hsb, List.filterMap_nil]

end

section
variable {c c' : Ctx} {t : Nat} {vals : List Validator} {bs bs' : List Block} {a0 a0' : State}
  {body body' : Option (List AggAtt)} {evs evs' evs2 : List Event} {a b b' : Actor}

/-- **C110, without trust in the peer's storage.** As `C110_join`, where instead of the peer having the
blocks it is asked that `b` is not more than 21600 slots behind any block the peer has imported. -/
theorem C110_recent (hE : c'.E = c.E) (ho : ∀ l, (c.order l).Perm l) (ho' : ∀ l, (c'.order l).Perm l)
    (W : World c.E t vals bs a0
      (KnownTo c.E.H (State.fromGenesis c.E.H t vals) bs bs' evs (evs2 ++ evs')))
    (W' : World c.E t vals bs' a0'
      (KnownTo c.E.H (State.fromGenesis c.E.H t vals) bs bs' evs (evs2 ++ evs')))
    (h : AReach c a0 body evs a) (h' : AReach c' a0' body' evs' b) (h2 : ARun c' b evs2 b')
    (hst : StatesApart c.E.H a.store b'.store)
    (hempty : ∀ sb, .block sb ∈ evs ∨ .own sb ∈ evs →
      c.E.H.body sb.block.body = c.E.H.body [] → sb.block.body = [])
    (hb : ∀ b, body = some b → c.E.H.body b = a0.latestBlockHeader.bodyRoot)
    {tip own : Header} (htip : a.store.mem.db.headers.get? a.store.mem.db.head = some tip)
    (hown : b.store.mem.db.headers.get? b.store.mem.db.head = some own)
    (hlate : own.slot < tip.slot) (h64 : tip.slot + 1 < 2 ^ 64) (hanchor : a0.slot ≤ own.slot)
    (hon : HAnc a.store.mem.db.headers b.store.mem.db.head a.store.mem.db.head)
    (hrec : ∀ r x, hasState a.store.mem.db r = true → a.store.mem.db.headers.get? r = some x →
      x.slot ≤ own.slot + 21600)
    (hwin : ∀ k, own.slot + 1024 * k < tip.slot →
      ∃ r x, a.store.mem.db.headers.get? r = some x ∧
        HAnc a.store.mem.db.headers r a.store.mem.db.head ∧ own.slot + 1024 * k < x.slot ∧
        x.slot ≤ own.slot + 1024 * (k + 1))
    {ord : AMap Peer Nat → AMap Peer Nat} (hord : ∀ m, (ord m).Perm m) {w : PWorld} {p : Peer}
    (hc : w.srv.chain = true) (hr : w.srv.range = none) {n : Nat} (hn : 64 ≤ n)
    {l : List SignedBlock} (hl : ∀ x ∈ l, x ∈ canon c.E.H a.store.mem.db tip.slot)
    (hfwd : forwards (syncFrom ord ((canon c.E.H a.store.mem.db tip.slot).map (toR c.E.H)) n w p
      tip.slot own.slot).2 = l.map (toR c.E.H))
    (hdel : (l.map Event.block).reverse.Sublist evs2)
    (htime : tip.slot * 5 ≤ b.store.mem.db.time + 1)
    (hfin : ∀ e2 e1 x, evs2 = e2 ++ e1 → ARun c' b e1 x →
      HAnc a.store.mem.db.headers x.store.mem.db.finalized.root a.store.mem.db.head) :
    hasState b'.store.mem.db a.store.mem.db.head = true := by
  obtain ⟨rank, hR⟩ := W.acyclic
  obtain ⟨root, anchor, ops, A, I, -, U⟩ := areach_retains ho W hR h
    (fun e he => (eventK_known e he).mono fun _ => .inl) hempty
  obtain ⟨hs0, hhs⟩ := I.node.cp.head
  have hhead := (I.node.hasState_iff W a.store.mem.db.head).2 ⟨_, hhs⟩
  have htl := hrec _ _ hhead htip
  have hfar : ∀ n, n ≤ own.slot + 21600 → n ≤ own.slot + 65536 := fun n hn => by omega
  have hself : ∀ r x, a.store.mem.db.headers.get? r = some x →
      HAnc a.store.mem.db.headers r a.store.mem.db.head → x.slot ≤ tip.slot := fun r x e1 e2 => by
    have := e2.slot_le
    rwa [slotOf_eq e1, slotOf_eq htip] at this
  refine C110_join hE ho ho' W W' h h' h2 hst hempty hb htip hown hlate h64 hanchor hon
    (fun r x e1 e2 e3 => ?_) (fun k hk => ?_) hord hc hr hn hl hfwd hdel htime hfin htip
    (.self htip) hlate (hfar _ htl)
  · obtain ⟨st, hst⟩ := above_state A I.node e2 (by rw [slotOf_eq e1]; omega) _ hhs
    have hxs := (I.node.tree.own _ _ hst).2
    rw [e1] at hxs
    have hxs := Option.some.inj hxs
    have hne : r ≠ root := by
      rintro rfl
      have := (I.node.tree.own _ _ I.node.tree.anc).2
      rw [e1] at this
      have e := Option.some.inj this
      rw [e, A.slot] at e3
      have := run_anchor_slot I.node.run
      omega
    obtain ⟨sb, hsb⟩ := U r st hst hne (fun r' st' h' => by
      have := hrec r' _ ((I.node.hasState_iff W r').2 ⟨st', h'⟩) (I.node.tree.own _ _ h').2
      rw [← hxs]
      show _ ≤ x.slot + 21600
      omega)
    rw [hsb]
    exact Option.some_ne_none sb
  · obtain ⟨r, x, e1, e2, e3, e4⟩ := hwin k (by omega)
    have := hself r x e1 e2
    exact ⟨r, x, e1, e2, e3, e4, hfar _ (Nat.le_trans this htl)⟩

end

/-- Non-vacuity: all hypotheses of `C113_kept` hold of `servingActor` (blocks of slots 1, 3, 4 and 5) and each of its
four blocks, and it answers for each. -/
theorem C113_instance : ∀ r x, servingActor.store.mem.db.headers.get? r = some x → 0 < x.slot →
    ∃ sb, Serve.answerRoots wH servingActor.store.mem.db [r] = [sb] ∧ sb.block.root wH = r ∧
      sb.block.header wH = x := by
  intro r x hx h0
  have h : AReach wCtx wG (some []) (chainT.reverse.map .block ++ [.tick 32000 false]) servingActor :=
    acted_reach (by decide +kernel)
  have hempty : ∀ sb ∈ chainT, wH.body sb.block.body = wH.body [] → sb.block.body = [] := by
    decide +kernel
  have hstate : ∀ r ∈ servingActor.store.mem.db.headers.keys,
      hasState servingActor.store.mem.db r = true ∧
      ((servingActor.store.mem.db.headers.get? r).map (·.slot)).getD 0 ≤ 5 := by decide +kernel
  refine C113_kept (c := wCtx) (bs := []) (fun l => .refl l)
    (world_of_list (by decide +kernel) (by decide +kernel)) h (fun y hy => hempty y ?_)
    (hstate r (AMap.mem_keys_iff.2 ⟨x, hx⟩)).1 hx h0 (fun r' x' _ h' => ?_)
  · rcases hy with hy | hy
    · rcases List.mem_append.1 hy with hy | hy
      · obtain ⟨z, hz, e⟩ := List.mem_map.1 hy
        cases e
        exact List.mem_reverse.1 hz
      · simp at hy
    · rcases List.mem_append.1 hy with hy | hy
      · obtain ⟨z, -, e⟩ := List.mem_map.1 hy
        cases e
      · simp at hy
  · have := (hstate r' (AMap.mem_keys_iff.2 ⟨x', h'⟩)).2
    rw [h'] at this
    have this : x'.slot ≤ 5 := this
    omega

example : servingActor.store.mem.db.headers.length = 5 := by decide +kernel

end Verif.Node
