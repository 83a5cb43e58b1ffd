import Verif.Lemmas.ClockFrame
import Verif.Props.C109_Served
import Verif.Props.C75_Sync
/-!
# C110: a node that joins late gets the chain of its peer

The pieces put together: the peer's server (C53), the requests of the node (C75) and the imports (C109).
-/
namespace Verif.Node
open Verif Verif.Db Verif.Net Verif.Witness Verif.Node.Witness

section
variable {c : Ctx} {t : Nat} {vals : List Validator} {bs : List Block} {a0 : State}
  {body : Option (List AggAtt)} {K : Header → Prop} {rank : Root → Nat} {root : Root}
  {anchor : State} {ops : List Db.Op} {a : Actor}

theorem StatesApart.back {H : Hash} {s s1 s2 : Store} (h : StatesApart H s s2)
    (hx : ∀ r x, Reads s1 r x → Reads s2 r x) : StatesApart H s s1 :=
  fun r x y h1 h2 => h r x y h1 (hx r y h2)

/-- Blocks of the chain of `a`, delivered to `b` in order, with anything in between. -/
theorem chain_run {o' g'} {bs' : List Block} {a0' : State} {body' : Option (List AggAtt)}
    {root' : Root} {anchor' : State} {ops' : List Db.Op} {b b' : Actor} {evs2 : List Event}
    (ho' : ∀ l, ((⟨c.E, o', g'⟩ : Ctx).order l).Perm l) (W : World c.E t vals bs a0 K)
    (W' : World c.E t vals bs' a0' K)
    (A : AnchorOk c.E.H (State.fromGenesis c.E.H t vals) K root anchor)
    (A' : AnchorOk c.E.H (State.fromGenesis c.E.H t vals) K root' anchor')
    (hR : Ranks c.E.H K rank) (I : AInv c.E t vals a0 body K rank root anchor ops a)
    (V : CopiesGood c.E root anchor ops a.store.mem.db)
    (I' : AInv c.E t vals a0' body' K rank root' anchor' ops' b)
    (h2 : ARun ⟨c.E, o', g'⟩ b evs2 b') (hk2 : ∀ ev ∈ evs2, EventK c.E.H K ev)
    (hst : StatesApart c.E.H a.store b'.store)
    (hfin : ∀ e2 e1 x, evs2 = e2 ++ e1 → ARun ⟨c.E, o', g'⟩ b e1 x →
      HAnc a.store.mem.db.headers x.store.mem.db.finalized.root a.store.mem.db.head) :
    ∃ ops2, AInv c.E t vals a0' body' K rank root' anchor' ops2 b' ∧
      (∀ r x, Reads b.store r x → Reads b'.store r x) ∧
      (∀ r, hasState b.store.mem.db r = true → hasState b'.store.mem.db r = true) ∧
      b.store.mem.db.time ≤ b'.store.mem.db.time ∧
      ∀ l : List SignedBlock, (l.map Event.block).reverse.Sublist evs2 →
        (∀ y ∈ l, getSignedBlock c.E.H a.store.mem.db (y.block.root c.E.H) = some y ∧
          HAnc a.store.mem.db.headers (y.block.root c.E.H) a.store.mem.db.head ∧
          a0.slot < y.block.slot ∧ y.block.slot * 5 ≤ b.store.mem.db.time + 1) →
        (∀ l1 y l2, l = l1 ++ y :: l2 → hasState b.store.mem.db y.block.parentRoot = true ∨
          ∃ z ∈ l1, z.block.root c.E.H = y.block.parentRoot) →
        ∀ y ∈ l, hasState b'.store.mem.db (y.block.root c.E.H) = true := by
  induction h2 with
  | nil =>
    refine ⟨ops', I', fun _ _ h => h, fun _ h => h, Nat.le_refl _, fun l hl _ _ y hy => ?_⟩
    have : l = [] := by simpa using hl
    subst this
    cases hy
  | @step evs b1 ev b2 f h1 hs ih =>
    have hk1 : ∀ ev ∈ evs, EventK c.E.H K ev := fun e he => hk2 e (List.mem_cons_of_mem _ he)
    obtain ⟨ops1, I1, x1⟩ := arun_ext (c := ⟨c.E, o', g'⟩) ho' W' A' hR I' h1 hk1
    rcases I1.step (c := ⟨c.E, o', g'⟩) ho' W' A' hR ev (hk2 _ List.mem_cons_self) with
      ⟨e, -⟩ | ⟨b3, f3, ops2, e, I2, x2⟩
    · rw [e] at hs; cases hs
    rw [e] at hs
    obtain ⟨rfl, rfl⟩ := Prod.mk.inj (Except.ok.inj hs)
    have hread : ∀ r x, Reads b1.store r x → Reads b3.store r x := fun r x h =>
      (I2.node.reads W' _ _).2 (x2.states _ _ ((I1.node.reads W' _ _).1 h))
    have hst1 := hst.back hread
    have hfin1 : ∀ e2 e1 x, evs = e2 ++ e1 → ARun ⟨c.E, o', g'⟩ b e1 x →
        HAnc a.store.mem.db.headers x.store.mem.db.finalized.root a.store.mem.db.head :=
      fun e2 e1 x he => hfin (ev :: e2) e1 x (by rw [he]; rfl)
    obtain ⟨ops1', I1', r1, s1, t1, imp⟩ := ih hk1 hst1 hfin1
    have grow : ∀ r, hasState b1.store.mem.db r = true → hasState b3.store.mem.db r = true :=
      fun r h => x2.hasState W' I1.node I2.node h
    refine ⟨ops2, I2, fun r x h => hread r x (r1 r x h), fun r h => grow r (s1 r h),
      Nat.le_trans t1 (Later.actorStep e).time, fun l hl hgood hpar => ?_⟩
    cases hrev : (l.map Event.block).reverse with
    | nil =>
      intro y hy
      have : l = [] := by simpa using hrev
      subst this
      cases hy
    | cons e0 rest =>
      rw [hrev] at hl
      rcases List.sublist_cons_iff.1 hl with hl1 | ⟨r, hr, hl2⟩
      · rw [← hrev] at hl1
        exact fun y hy => grow _ (imp l hl1 hgood hpar y hy)
      · obtain ⟨rfl, rfl⟩ := List.cons.inj hr
        obtain ⟨l0, y0, rfl⟩ : ∃ l0 y0, l = l0 ++ [y0] := by
          rcases List.eq_nil_or_concat l with h | ⟨l0, y0, h⟩
          · subst h; cases hrev
          · exact ⟨l0, y0, by rw [h, List.concat_eq_append]⟩
        rw [List.map_append, List.reverse_append] at hrev
        obtain ⟨rfl, rfl⟩ := List.cons.inj hrev
        have hl0 : ∀ y ∈ l0, hasState b1.store.mem.db (y.block.root c.E.H) = true :=
          imp l0 hl2 (fun y hy => hgood y (List.mem_append_left _ hy))
            (fun l1 y l2 e => hpar l1 y (l2 ++ [y0]) (by rw [e]; simp))
        obtain ⟨g1, g2, g3, g4⟩ := hgood y0 (List.mem_append_right _ (List.mem_singleton.2 rfl))
        have hp : hasState b1.store.mem.db y0.block.parentRoot = true := by
          rcases hpar l0 y0 [] rfl with h | ⟨z, hz, e⟩
          · exact s1 _ h
          · rw [← e]; exact hl0 z hz
        obtain ⟨b4, f4, e4, h4⟩ := chain_import ho' W W' A A' hR I V I1 hst1 g1 g2 g3 hp
          (by omega) (hfin1 [] evs b1 rfl h1)
        rw [e] at e4
        obtain ⟨rfl, rfl⟩ := Prod.mk.inj (Except.ok.inj e4)
        intro y hy
        rcases List.mem_append.1 hy with hy | hy
        · exact grow _ (hl0 y hy)
        · rw [List.mem_singleton] at hy; subst hy; exact h4

/-- As the network actor sees a block. -/
def toR (H : Hash) (x : SignedBlock) : RBlock := ⟨x.block.root H, x.block.slot⟩

/-- All blocks of a node's chain that it can serve. -/
def canon (H : Hash) (db : Db) (headSlot : Nat) : List SignedBlock :=
  getSignedBlocksBySlotRange H db 0 headSlot

theorem map_inj_of {α β : Type} {f : α → β} : ∀ {l l' : List α},
    (∀ x ∈ l, ∀ y ∈ l', f x = f y → x = y) → l.map f = l'.map f → l = l'
  | [], [], _, _ => rfl
  | [], _ :: _, _, h => by cases h
  | _ :: _, [], _, h => by cases h
  | x :: l, y :: l', hi, h => by
    obtain ⟨h1, h2⟩ := List.cons.inj h
    rw [hi x List.mem_cons_self y List.mem_cons_self h1, map_inj_of (fun x hx y hy =>
      hi x (List.mem_cons_of_mem _ hx) y (List.mem_cons_of_mem _ hy)) h2]

/-- Strictly sorted lists with the same members are equal. -/
theorem sorted_ext {α : Type} (f : α → Nat) : ∀ {l l' : List α},
    l.Pairwise (fun x y => f x < f y) → l'.Pairwise (fun x y => f x < f y) →
    (∀ x, x ∈ l ↔ x ∈ l') → l = l'
  | [], [], _, _, _ => rfl
  | [], y :: _, _, _, h => absurd ((h y).2 List.mem_cons_self) List.not_mem_nil
  | x :: _, [], _, _, h => absurd ((h x).1 List.mem_cons_self) List.not_mem_nil
  | x :: l, y :: l', h1, h2, h => by
    obtain ⟨a1, a2⟩ := List.pairwise_cons.1 h1
    obtain ⟨b1, b2⟩ := List.pairwise_cons.1 h2
    have hxy : x = y := by
      rcases List.mem_cons.1 ((h x).1 List.mem_cons_self) with e | e
      · exact e
      · rcases List.mem_cons.1 ((h y).2 List.mem_cons_self) with e' | e'
        · exact e'.symm
        · have := b1 x e; have := a1 y e'; omega
    subst hxy
    rw [sorted_ext f a2 b2 (fun z => ?_)]
    constructor
    · intro hz
      rcases List.mem_cons.1 ((h z).1 (List.mem_cons_of_mem _ hz)) with e | e
      · subst e; have := a1 z hz; omega
      · exact e
    · intro hz
      rcases List.mem_cons.1 ((h z).2 (List.mem_cons_of_mem _ hz)) with e | e
      · subst e; have := b1 z hz; omega
      · exact e

/-- What is in `canon`. -/
theorem canon_spec (W : World c.E t vals bs a0 K)
    (I : AInv c.E t vals a0 body K rank root anchor ops a)
    (hb : ∀ b, body = some b → c.E.H.body b = a0.latestBlockHeader.bodyRoot) (start stop : Nat) :
    (∀ x, x ∈ getSignedBlocksBySlotRange c.E.H a.store.mem.db start stop ↔
      start ≤ x.block.slot ∧ x.block.slot ≤ stop ∧
        HAnc a.store.mem.db.headers root (x.block.root c.E.H) ∧
        HAnc a.store.mem.db.headers (x.block.root c.E.H) a.store.mem.db.head ∧
        getSignedBlock c.E.H a.store.mem.db (x.block.root c.E.H) = some x) ∧
    (getSignedBlocksBySlotRange c.E.H a.store.mem.db start stop).Pairwise
      (fun x y => x.block.slot < y.block.slot) := by
  obtain ⟨m, -, -, -, h3, -⟩ := I.node.started
  have hbr : anchor.latestBlockHeader.bodyRoot = a0.latestBlockHeader.bodyRoot := by rw [h3]
  obtain ⟨h1, h2⟩ := C28_range I.node.run (I.node.collisionFree W)
    (fun b e => by rw [hbr]; exact hb b e) start stop
  exact ⟨h1, Serve.pairwise_of_consecutive (R := fun x y : SignedBlock => x.block.slot < y.block.slot)
    (fun _ _ _ => Nat.lt_trans) _ h2⟩
end

section
variable {c c' : Ctx} {t : Nat} {vals : List Validator} {bs bs' : List Block} {a0 a0' : State}
  {body body' : Option (List AggAtt)} {evs evs' evs2 : List Event} {a b b' : Actor}

/-- The peer's answers are those assumed in C75. -/
theorem C110_answers (ho : ∀ l, (c.order l).Perm l)
    (W : World c.E t vals bs a0 (Known c.E.H (State.fromGenesis c.E.H t vals) bs evs))
    (h : AReach c a0 body evs a)
    (hb : ∀ b, body = some b → c.E.H.body b = a0.latestBlockHeader.bodyRoot) {tip : Header}
    (htip : a.store.mem.db.headers.get? a.store.mem.db.head = some tip)
    {start count : Nat} (h1 : 1 ≤ count) (h2 : count ≤ 1024) (h64 : start + count ≤ 2 ^ 64) :
    ∃ l, Serve.answerRange c.E.H a.store.mem.db start count = some l ∧
      l.map (toR c.E.H) = served ((canon c.E.H a.store.mem.db tip.slot).map (toR c.E.H)) start count := by
  obtain ⟨rank, hR⟩ := W.acyclic
  obtain ⟨root, anchor, ops, A, I⟩ := areach_ainv ho W hR h (fun e he => eventK_known e he)
  refine ⟨getSignedBlocksBySlotRange c.E.H a.store.mem.db start (start + (count - 1)), ?_, ?_⟩
  · unfold Serve.answerRange
    rw [if_neg (by omega)]
    unfold Serve.canonicalBlocksByRange
    rw [if_neg (by omega), if_neg (by omega)]
  · obtain ⟨m1, p1⟩ := canon_spec W I hb start (start + (count - 1))
    obtain ⟨m2, p2⟩ := canon_spec W I hb 0 tip.slot
    unfold served canon
    rw [List.filter_map]
    congr 1
    refine sorted_ext (fun x => x.block.slot) p1 (p2.filter _) (fun x => ?_)
    rw [List.mem_filter, m1, m2]
    constructor
    · rintro ⟨q1, q2, q3, q4, q5⟩
      refine ⟨⟨Nat.zero_le _, ?_, q3, q4, q5⟩, decide_eq_true (⟨q1, by omega⟩ :
        start ≤ x.block.slot ∧ x.block.slot < start + count)⟩
      have := q4.slot_le
      obtain ⟨hd, hh⟩ := q4.left
      have e := (served_root I.node.run (I.node.collisionFree W) (fun b e => by
        obtain ⟨m, -, -, -, h3, -⟩ := I.node.started
        rw [h3]; exact hb b e) q5).2
      rw [slotOf_eq e, slotOf_eq htip] at this
      exact this
    · rintro ⟨⟨-, -, q3, q4, q5⟩, q⟩
      obtain ⟨q1, q2⟩ : start ≤ x.block.slot ∧ x.block.slot < start + count := of_decide_eq_true q
      exact ⟨q1, by omega, q3, q4, q5⟩


/-- C110: the node `b` learns from a status that its peer `a` has a higher head, its own head being on the
peer's chain, at the anchor of the peer or later.  The peer answers every request for a range from what it has
(`C110_answers`) and has not dropped the blocks after `b`'s head, and no 1024 slots of the chain are empty.  The
blocks that `b`'s network actor hands over arrive at the blockchain actor in this order, with any other messages,
ticks and restarts in between, and `b` does not finalize another chain meanwhile.  Then `b` has imported every
block of the peer's chain after its head, up to 65536 slots further. -/
theorem C110_join (hE : c'.E = c.E) (ho : ∀ l, (c.order l).Perm l) (ho' : ∀ l, (c'.order l).Perm l)
    (W : World c.E t vals bs a0
      (KnownTo c.E.H (State.fromGenesis c.E.H t vals) bs bs' evs (evs2 ++ evs')))
    (W' : World c.E t vals bs' a0'
      (KnownTo c.E.H (State.fromGenesis c.E.H t vals) bs bs' evs (evs2 ++ evs')))
    (h : AReach c a0 body evs a) (h' : AReach c' a0' body' evs' b) (h2 : ARun c' b evs2 b')
    (hst : StatesApart c.E.H a.store b'.store)
    (hempty : ∀ sb, .block sb ∈ evs ∨ .own sb ∈ evs →
      c.E.H.body sb.block.body = c.E.H.body [] → sb.block.body = [])
    (hb : ∀ b, body = some b → c.E.H.body b = a0.latestBlockHeader.bodyRoot)
    {tip own : Header} (htip : a.store.mem.db.headers.get? a.store.mem.db.head = some tip)
    (hown : b.store.mem.db.headers.get? b.store.mem.db.head = some own)
    (hlate : own.slot < tip.slot) (h64 : tip.slot + 1 < 2 ^ 64) (hanchor : a0.slot ≤ own.slot)
    (hon : HAnc a.store.mem.db.headers b.store.mem.db.head a.store.mem.db.head)
    (hhas : ∀ r x, a.store.mem.db.headers.get? r = some x →
      HAnc a.store.mem.db.headers r a.store.mem.db.head → own.slot < x.slot →
      getSignedBlock c.E.H a.store.mem.db r ≠ none)
    (hwin : ∀ k, own.slot + 1024 * k < min tip.slot (own.slot + 65536) →
      ∃ r x, a.store.mem.db.headers.get? r = some x ∧
        HAnc a.store.mem.db.headers r a.store.mem.db.head ∧ own.slot + 1024 * k < x.slot ∧
        x.slot ≤ own.slot + 1024 * (k + 1) ∧ x.slot ≤ own.slot + 65536)
    {ord : AMap Peer Nat → AMap Peer Nat} (hord : ∀ m, (ord m).Perm m) {w : PWorld} {p : Peer}
    (hc : w.srv.chain = true) (hr : w.srv.range = none) {n : Nat} (hn : 64 ≤ n)
    {l : List SignedBlock} (hl : ∀ x ∈ l, x ∈ canon c.E.H a.store.mem.db tip.slot)
    (hfwd : forwards (syncFrom ord ((canon c.E.H a.store.mem.db tip.slot).map (toR c.E.H)) n w p
      tip.slot own.slot).2 = l.map (toR c.E.H))
    (hdel : (l.map Event.block).reverse.Sublist evs2)
    (htime : tip.slot * 5 ≤ b.store.mem.db.time + 1)
    (hfin : ∀ e2 e1 x, evs2 = e2 ++ e1 → ARun c' b e1 x →
      HAnc a.store.mem.db.headers x.store.mem.db.finalized.root a.store.mem.db.head)
    {r : Root} {x : Header} (hx : a.store.mem.db.headers.get? r = some x)
    (hxc : HAnc a.store.mem.db.headers r a.store.mem.db.head) (hx1 : own.slot < x.slot)
    (hx2 : x.slot ≤ own.slot + 65536) :
    hasState b'.store.mem.db r = true := by
  obtain ⟨E, o', g'⟩ := c'
  have hE : E = c.E := hE
  subst hE
  obtain ⟨rank, hR⟩ := W.acyclic
  obtain ⟨root, anchor, ops, A, I, V⟩ := areach_copies ho W hR h
    (fun e he => (eventK_known e he).mono fun _ => .inl) hempty
  obtain ⟨root', anchor', ops', A', I'⟩ := areach_ainv (c := ⟨c.E, o', g'⟩) ho' W' hR h'
    (fun e he => (eventK_known e (List.mem_append_right evs2 he)).mono fun _ => .inr)
  obtain ⟨m1, p1⟩ := canon_spec W I hb 0 tip.slot
  have hb' : ∀ b, body = some b → c.E.H.body b = anchor.latestBlockHeader.bodyRoot := fun b e => by
    obtain ⟨m, -, -, -, h3, -⟩ := I.node.started
    rw [h3]; exact hb b e
  have hroot : ∀ {r x}, getSignedBlock c.E.H a.store.mem.db r = some x → x.block.root c.E.H = r ∧
      a.store.mem.db.headers.get? r = some (x.block.header c.E.H) := fun e =>
    served_root I.node.run (I.node.collisionFree W) hb' e
  -- the head of `b` as `a` knows it
  have hown' : a.store.mem.db.headers.get? b.store.mem.db.head = some own := by
    obtain ⟨xd, e⟩ := hon.left
    obtain ⟨k1, k2⟩ := I.node.hdrK W _ _ e
    obtain ⟨k3, k4⟩ := I'.node.hdrK W' _ _ hown
    rw [e, W.collisionFree _ _ k1 k3 (k2.trans k4.symm)]
  -- the anchor of `a`
  have hanc : HAnc a.store.mem.db.headers root a.store.mem.db.head :=
    (run_index I.node.run (I.node.collisionFree W)).head
  have hrs : slotOf a.store.mem.db.headers root = a0.slot := by
    rw [slotOf_eq (I.node.tree.own _ _ I.node.tree.anc).2, A.slot]
    exact run_anchor_slot I.node.run
  -- every block of the chain after `own` is there
  have hin : ∀ {r x}, a.store.mem.db.headers.get? r = some x →
      HAnc a.store.mem.db.headers r a.store.mem.db.head → own.slot < x.slot →
      ∃ y ∈ canon c.E.H a.store.mem.db tip.slot, y.block.root c.E.H = r ∧ y.block.slot = x.slot := by
    intro r x e1 e2 e3
    cases hg : getSignedBlock c.E.H a.store.mem.db r with
    | none => exact absurd hg (hhas r x e1 e2 e3)
    | some y =>
      obtain ⟨rfl, f2⟩ := hroot hg
      rw [e1] at f2
      have f3 : x = y.block.header c.E.H := Option.some.inj f2
      have f4 : y.block.slot = x.slot := by rw [f3]; rfl
      refine ⟨y, (m1 y).2 ⟨Nat.zero_le _, ?_, ?_, e2, hg⟩, rfl, f4⟩
      · have := e2.slot_le
        rw [slotOf_eq e1, slotOf_eq htip] at this
        omega
      · refine hanc.le_of_slot e2 ?_
        rw [hrs, slotOf_eq e1]
        omega
  have hcanon : ∀ y ∈ canon c.E.H a.store.mem.db tip.slot, y.block.slot ≤ tip.slot ∧
      HAnc a.store.mem.db.headers (y.block.root c.E.H) a.store.mem.db.head ∧
      getSignedBlock c.E.H a.store.mem.db (y.block.root c.E.H) = some y ∧
      a.store.mem.db.headers.get? (y.block.root c.E.H) = some (y.block.header c.E.H) := fun y hy => by
    obtain ⟨-, q1, -, q2, q3⟩ := (m1 y).1 hy
    exact ⟨q1, q2, q3, (hroot q3).2⟩
  -- what is handed over
  have hsort : ((canon c.E.H a.store.mem.db tip.slot).map (toR c.E.H)).Pairwise
      (fun x y => x.slot ≤ y.slot) :=
    List.pairwise_map.2 (p1.imp (fun h => Nat.le_of_lt h))
  obtain ⟨-, hf, -⟩ := C75_partial hord (w := w) (p := p) hc hr hlate h64 hsort (fun k hk => by
    obtain ⟨r, x, e1, e2, e3, e4, e5⟩ := hwin k hk
    obtain ⟨y, hy, -, f⟩ := hin e1 e2 (by omega)
    refine ⟨toR c.E.H y, List.mem_map.2 ⟨y, hy, rfl⟩, ?_⟩
    have := (hcanon y hy).1
    show own.slot + 1024 * k < y.block.slot ∧ y.block.slot ≤ _ ∧ y.block.slot ≤ _
    omega) hn
  rw [hfwd, List.filter_map] at hf
  have hll := map_inj_of (f := toR c.E.H) (fun x hx y hy e => by
    have e' : x.block.root c.E.H = y.block.root c.E.H := congrArg RBlock.root e
    have g1 := (hcanon x (hl x hx)).2.2.1
    have g2 := (hcanon y (List.mem_filter.1 hy).1).2.2.1
    rw [e', g2] at g1
    exact (Option.some.inj g1).symm) hf
  have hmem : ∀ y, y ∈ l ↔ y ∈ canon c.E.H a.store.mem.db tip.slot ∧ own.slot < y.block.slot ∧
      y.block.slot ≤ min tip.slot (own.slot + 65536) := fun y => by
    rw [hll, List.mem_filter]
    exact and_congr_right fun _ => decide_eq_true_iff
  have hpw : l.Pairwise (fun x y => x.block.slot < y.block.slot) := by
    rw [hll]; exact p1.filter _
  obtain ⟨ops2, -, -, -, -, imp⟩ := chain_run ho' W W' A A' hR I V I' h2
    (fun e he => (eventK_known e (List.mem_append_left evs' he)).mono fun _ => .inr) hst hfin
  obtain ⟨y, hy, rfl, hys⟩ := hin hx hxc hx1
  refine imp l hdel (fun y hy => ?_) (fun l1 y l2 e => ?_) y ((hmem y).2 ⟨hy, by omega, ?_⟩)
  · obtain ⟨g1, g2, g3⟩ := (hmem y).1 hy
    obtain ⟨q1, q2, q3, -⟩ := hcanon y g1
    exact ⟨q3, q2, by omega, by omega⟩
  · have hyl : y ∈ l := by rw [e]; simp
    obtain ⟨g1, g2, g3⟩ := (hmem y).1 hyl
    obtain ⟨q1, q2, q3, q4⟩ := hcanon y g1
    have hle := hon.le_of_slot q2 (by
      rw [slotOf_eq hown', slotOf_eq q4]; exact Nat.le_of_lt g2)
    have hne : b.store.mem.db.head ≠ y.block.root c.E.H := fun e => by
      rw [e, q4] at hown'
      have : y.block.slot = own.slot := congrArg Header.slot (Option.some.inj hown')
      omega
    obtain ⟨h3, pd, h4, h5⟩ := hle.parent q4 hne
    rcases h3.slot with h6 | h6
    · left
      obtain ⟨hs0, hhs⟩ := I'.node.cp.head
      have h6 : b.store.mem.db.head = y.block.parentRoot := h6
      rw [← h6]
      exact (I'.node.hasState_iff W' _).2 ⟨_, hhs⟩
    · right
      rw [slotOf_eq hown', slotOf_eq h4] at h6
      have h5 : pd.slot < y.block.slot := h5
      obtain ⟨hyd, hya⟩ : HAnc a.store.mem.db.headers y.block.parentRoot (y.block.root c.E.H) ∧ True :=
        ⟨.up q4 h4 h5 (.self h4), trivial⟩
      obtain ⟨z, z1, z2, z3⟩ := hin h4 (hyd.trans q2) h6
      have hz := (hmem z).2 ⟨z1, by omega, by omega⟩
      refine ⟨z, ?_, z2⟩
      rw [e] at hz hpw
      rcases List.mem_append.1 hz with hz | hz
      · exact hz
      · exfalso
        have hcons := (List.pairwise_append.1 hpw).2.1
        rcases List.mem_cons.1 hz with hz | hz
        · rw [hz] at z3; omega
        · have := (List.pairwise_cons.1 hcons).1 z hz
          omega
  · have := (hcanon y hy).1
    omega

end

/-! ## Instance -/

theorem arun_crun {c : Ctx} {a : Actor} {evs : List Event} {a' : Actor} (h : ARun c a evs a') :
    crun c a evs = .ok a' := by
  induction h with
  | nil => rfl
  | step _ hs ih => unfold crun; rw [ih]; dsimp only; rw [hs]

/-- Blocks 4 and 5 as the peer sends them. -/
def joinBlocks : List SignedBlock :=
  (canon wH servingActor.store.mem.db 5).filter (fun x => decide (3 < x.block.slot))

/-- They arrive with a tick in between; newest first. -/
def joinEvs : List Event :=
  match joinBlocks with
  | [x, y] => [.block y, .tick 32800 false, .block x]
  | _ => []

def joinedActor : Actor := (crun wCtx hearingActor joinEvs).toOption.getD hearingActor

/-- Non-vacuity: `hearingActor` has the blocks of slots 1 and 3, its peer those of 4 and 5 as well; at the end it has
the peer's head, which it did not have before. -/
theorem C110_instance : hasState hearingActor.store.mem.db servingActor.store.mem.db.head = false ∧
    hasState joinedActor.store.mem.db servingActor.store.mem.db.head = true := by
  refine ⟨by decide +kernel, ?_⟩
  have W0 : World wE 0 wVals [] wG (Known wH wG []
      ((chainT.reverse.map .block ++ [.tick 32000 false]) ++ (joinEvs ++
        ((chainT.take 2).reverse.map .block ++ [.tick 32000 false])))) :=
    world_of_list (by decide +kernel) (by decide +kernel)
  have W := World.two (E := wE) W0
  have h : AReach wCtx wG (some []) (chainT.reverse.map .block ++ [.tick 32000 false]) servingActor :=
    acted_reach (by decide +kernel)
  have h' : AReach wCtx wG (some []) ((chainT.take 2).reverse.map .block ++ [.tick 32000 false])
      hearingActor := acted_reach (by decide +kernel)
  have h2 : ARun wCtx hearingActor joinEvs joinedActor := by
    have : isOk (crun wCtx hearingActor joinEvs) = true := by decide +kernel
    refine crun_arun ?_
    unfold joinedActor
    cases e : crun wCtx hearingActor joinEvs with
    | error z => rw [e] at this; cases this
    | ok a => rfl
  have hst : StatesApart wH servingActor.store joinedActor.store :=
    apartB_sound (reads_keys (c := wCtx) (fun l => .refl l) (W0.weaken
      (known_sub (List.subset_append_left _ _)) (.inl rfl) (fun b hb => by cases hb)) h)
      (by decide +kernel)
  have hempty : ∀ sb ∈ chainT, wH.body sb.block.body = wH.body [] → sb.block.body = [] := by
    decide +kernel
  have hslots : (servingActor.store.mem.db.headers.get? servingActor.store.mem.db.head).map (·.slot)
      = some 5 ∧ (hearingActor.store.mem.db.headers.get? hearingActor.store.mem.db.head).map (·.slot)
      = some 3 := by decide +kernel
  obtain ⟨tip, htip, ht⟩ := Option.map_eq_some_iff.1 hslots.1
  obtain ⟨own, hown, ho⟩ := Option.map_eq_some_iff.1 hslots.2
  have hhas : ∀ r ∈ servingActor.store.mem.db.headers.keys,
      getSignedBlock wH servingActor.store.mem.db r ≠ none := by decide +kernel
  have hfwd : forwards (syncFrom id ((canon wH servingActor.store.mem.db 5).map (toR wH)) 64
      (PWorld.init.step id .initChain).1 7 5 3).2 = joinBlocks.map (toR wH) := by decide +kernel
  have hdel : (joinBlocks.map Event.block).reverse.Sublist joinEvs := by
    have : joinBlocks.length = 2 := by decide +kernel
    unfold joinEvs
    generalize joinBlocks = l at this
    match l, this with
    | [x, y], _ => exact .cons_cons _ (.cons _ (.refl _))
  have hfin : ∀ k ∈ List.range 4, hancB servingActor.store.mem.db.headers 9
      ((crun wCtx hearingActor (joinEvs.drop k)).toOption.getD hearingActor).store.mem.db.finalized.root
      servingActor.store.mem.db.head = true := by decide +kernel
  have hhead : HAnc servingActor.store.mem.db.headers servingActor.store.mem.db.head
      servingActor.store.mem.db.head := hancB_sound (n := 9) (by decide +kernel)
  refine C110_join (c := wCtx) (c' := wCtx) rfl (fun l => .refl l) (fun l => .refl l) W W h h' h2 hst
    (fun y hy => hempty y ?_) (fun b e => by cases e; decide +kernel) htip hown (by omega)
    (by rw [ht]; decide) (by rw [ho]; decide +kernel) (hancB_sound (n := 9) (by decide +kernel))
    (fun r x e _ _ => hhas r (AMap.mem_keys_iff.2 ⟨x, e⟩))
    (fun k hk => ⟨_, tip, htip, hhead, by omega⟩) (ord := id) (fun m => .refl m)
    (w := (PWorld.init.step id .initChain).1) (p := 7) rfl rfl (Nat.le_refl 64)
    (l := joinBlocks) (fun x hx => by rw [ht]; exact (List.mem_filter.1 hx).1)
    (by rw [ht, ho]; exact hfwd) hdel (by rw [ht]; decide +kernel) (fun e2 e1 x he hx => ?_) htip hhead
    (by omega) (by omega)
  · rcases hy with hy | hy
    · rcases List.mem_append.1 hy with hy | hy
      · obtain ⟨z, hz, e⟩ := List.mem_map.1 hy
        cases e
        exact List.mem_reverse.1 hz
      · simp at hy
    · rcases List.mem_append.1 hy with hy | hy
      · obtain ⟨z, -, e⟩ := List.mem_map.1 hy
        cases e
      · simp at hy
  · have hn : joinEvs.length = 3 := by decide +kernel
    rw [he, List.length_append] at hn
    have hm := hfin e2.length (List.mem_range.2 (by omega))
    rw [he, List.drop_left, arun_crun hx] at hm
    exact hancB_sound hm

end Verif.Node
