import Verif.Model.Serve
import Verif.Spec.Headers
import Verif.Props.C60_BlockPanic
import Verif.Props.C34_C35_C61_Checkpoints

/-
C53: what a node answers to range requests (and to requests by root).
C70: its status messages are truthful.

All statements are about every state a node can reach, for every request.
-/

namespace Verif.Serve
open Verif Verif.Db Verif.Node

/-- Requests for nothing and for more than 1024 slots are refused, all others are answered. -/
theorem C53_refused (H : Hash) (db : Db) (start count : Nat) :
    answerRange H db start count = none ↔ count = 0 ∨ 1024 < count := by
  unfold answerRange
  split
  next h => exact ⟨fun _ => h, fun _ => rfl⟩
  next h => exact ⟨fun e => by (cases e), fun e => absurd e h⟩

theorem pairwise_of_consecutive {α : Type} {R : α → α → Prop} (ht : ∀ a b c, R a b → R b c → R a c)
    (l : List α) (h : ∀ i x y, l[i]? = some x → l[i + 1]? = some y → R x y) : l.Pairwise R := by
  induction l with
  | nil => exact .nil
  | cons x l ih =>
    have hl := ih (fun i a b ha hb => h (i + 1) a b ha hb)
    refine List.pairwise_cons.2 ⟨fun z hz => ?_, hl⟩
    cases l with
    | nil => cases hz
    | cons y l =>
      have hxy := h 0 x y rfl rfl
      rcases List.mem_cons.1 hz with e | e
      · rw [e]; exact hxy
      · exact ht _ _ _ hxy ((List.pairwise_cons.1 hl).1 z e)

theorem slotsFrom_length : ∀ start n, (slotsFrom start n).length = n
  | _, 0 => rfl
  | start, n + 1 => by
    show (slotsFrom (start + 1) n).length + 1 = n + 1
    rw [slotsFrom_length]

variable {c : Ctx} {t : Nat} {vals : List Validator} {bs : List Block} {a0 : State}
  {body : Option (List AggAtt)} {evs : List Event} {a : Actor}

/-- What the storage layer guarantees in a reachable actor. -/
theorem areach_run (ho : ∀ l, (c.order l).Perm l)
    (W : World c.E t vals bs a0 (Known c.E.H (State.fromGenesis c.E.H t vals) bs evs))
    (h : AReach c a0 body evs a) : ∃ root anchor ops,
      Db.Run c.E.H a0 body root anchor ops a.store.mem ∧ CollisionFree c.E.H anchor ops ∧
      anchor.latestBlockHeader.bodyRoot = a0.latestBlockHeader.bodyRoot := by
  obtain ⟨rank, hR⟩ := W.acyclic
  obtain ⟨root, anchor, ops, A, I⟩ := areach_ainv ho W hR h (fun e he => eventK_known e he)
  refine ⟨root, anchor, ops, I.node.run, I.node.collisionFree W, ?_⟩
  clear hR
  have key : ∀ {root anchor ops m}, Db.Run c.E.H a0 body root anchor ops m →
      anchor.latestBlockHeader.bodyRoot = a0.latestBlockHeader.bodyRoot := by
    intro root anchor ops m hrun
    clear A I
    induction hrun with
    | init hi hs =>
      unfold initStore at hi
      dsimp only at hi
      split at hi
      · cases hi
      · cases hi
        injection hs with hs _
        have := (Prod.mk.inj hs).2
        rw [← this]
    | step _ _ _ ih => exact ih
  exact key I.node.run

/-- Every block in an answer lies in the requested slots and on the chain from the node's anchor to its
head; slots strictly increase, so there is at most one per slot; there are at most `count`.  The
hypothesis about the anchor's body is what the start-up check of the anchor establishes (C54_pair). -/
theorem C53_range (ho : ∀ l, (c.order l).Perm l)
    (W : World c.E t vals bs a0 (Known c.E.H (State.fromGenesis c.E.H t vals) bs evs))
    (h : AReach c a0 body evs a)
    (hb : ∀ b, body = some b → c.E.H.body b = a0.latestBlockHeader.bodyRoot)
    {start count : Nat} {l : List SignedBlock}
    (hl : answerRange c.E.H a.store.mem.db start count = some l) :
    (∀ x ∈ l, start ≤ x.block.slot ∧ x.block.slot < start + count ∧
      HAnc a.store.mem.db.headers (x.block.root c.E.H) a.store.mem.db.head) ∧
    l.Pairwise (fun x y => x.block.slot < y.block.slot) ∧
    l.length ≤ count := by
  obtain ⟨root, anchor, ops, hrun, hcf, hbr⟩ := areach_run ho W h
  have hr := C28_range hrun hcf (fun b e => by rw [hbr]; exact hb b e)
  unfold answerRange at hl
  split at hl
  · cases hl
  next hcnt =>
  injection hl with hl
  subst hl
  unfold canonicalBlocksByRange
  rw [if_neg (fun e => hcnt (.inl e))]
  split
  · exact ⟨fun x hx => (by cases hx), .nil, Nat.zero_le _⟩
  · obtain ⟨h1, h2⟩ := hr start (start + (count - 1))
    refine ⟨fun x hx => ?_, pairwise_of_consecutive
      (R := fun x y : SignedBlock => x.block.slot < y.block.slot)
      (fun _ _ _ => Nat.lt_trans) _ h2, ?_⟩
    · obtain ⟨k1, k2, _, k4, _⟩ := (h1 x).1 hx
      exact ⟨k1, by omega, k4⟩
    · unfold getSignedBlocksBySlotRange
      refine Nat.le_trans (List.length_filterMap_le _ _) ?_
      rw [slotsFrom_length]
      omega

/-- Nothing is left out: if the slots fit into 64 bits, every block of the chain in the requested slots
that the node still has (with its proof) is in the answer. -/
theorem C53_complete (ho : ∀ l, (c.order l).Perm l)
    (W : World c.E t vals bs a0 (Known c.E.H (State.fromGenesis c.E.H t vals) bs evs))
    (h : AReach c a0 body evs a)
    (hb : ∀ b, body = some b → c.E.H.body b = a0.latestBlockHeader.bodyRoot)
    {start count : Nat} {l : List SignedBlock} (h64 : start + count ≤ 2 ^ 64)
    (hl : answerRange c.E.H a.store.mem.db start count = some l) :
    ∃ root, ∀ x : SignedBlock, start ≤ x.block.slot → x.block.slot < start + count →
      HAnc a.store.mem.db.headers root (x.block.root c.E.H) →
      HAnc a.store.mem.db.headers (x.block.root c.E.H) a.store.mem.db.head →
      getSignedBlock c.E.H a.store.mem.db (x.block.root c.E.H) = some x → x ∈ l := by
  obtain ⟨root, anchor, ops, hrun, hcf, hbr⟩ := areach_run ho W h
  have hr := C28_range hrun hcf (fun b e => by rw [hbr]; exact hb b e)
  refine ⟨root, fun x x1 x2 x3 x4 x5 => ?_⟩
  unfold answerRange at hl
  split at hl
  · cases hl
  next hcnt =>
  injection hl with hl
  subst hl
  unfold canonicalBlocksByRange
  rw [if_neg (fun e => hcnt (.inl e)), if_neg (by omega)]
  exact ((hr start (start + (count - 1))).1 x).2 ⟨x1, by omega, x3, x4, x5⟩

/-- Blocks served by root carry a requested root, in the order of the request; a requested root is
answered exactly when the node has the signed block. -/
theorem C53_roots (ho : ∀ l, (c.order l).Perm l)
    (W : World c.E t vals bs a0 (Known c.E.H (State.fromGenesis c.E.H t vals) bs evs))
    (h : AReach c a0 body evs a)
    (hb : ∀ b, body = some b → c.E.H.body b = a0.latestBlockHeader.bodyRoot) (roots : List Root) :
    (answerRoots c.E.H a.store.mem.db roots).map (fun x => x.block.root c.E.H)
      = roots.filter (fun r => (getSignedBlock c.E.H a.store.mem.db r).isSome) := by
  obtain ⟨root, anchor, ops, hrun, hcf, hbr⟩ := areach_run ho W h
  unfold answerRoots
  induction roots with
  | nil => rfl
  | cons r roots ih =>
    cases hg : getSignedBlock c.E.H a.store.mem.db r with
    | none => simpa [List.filterMap_cons, List.filter_cons, hg] using ih
    | some x =>
      have := (served_root hrun hcf (fun b e => by rw [hbr]; exact hb b e) hg).1
      simpa [List.filterMap_cons, List.filter_cons, hg, this] using ih

/-- Building a status message never panics; it names the current head with its slot, a finalized block
that the node has imported, with its slot, and the finalized slot is not after the head's slot. -/
theorem C70_status (ho : ∀ l, (c.order l).Perm l)
    (W : World c.E t vals bs a0 (Known c.E.H (State.fromGenesis c.E.H t vals) bs evs))
    (h : AReach c a0 body evs a) :
    ∃ st, buildStatus a.store.mem.db = .ok st ∧ st.head.root = a.store.mem.db.head ∧
      KnownAt a.store.mem.db.headers st.head ∧ hasState a.store.mem.db st.head.root = true ∧
      st.finalized = a.store.mem.db.finalized ∧
      KnownAt a.store.mem.db.headers st.finalized ∧
      hasState a.store.mem.db st.finalized.root = true ∧
      st.finalized.slot ≤ st.head.slot := by
  obtain ⟨rank, hR⟩ := W.acyclic
  obtain ⟨root, anchor, ops, A, I⟩ := areach_ainv ho W hR h (fun e he => eventK_known e he)
  obtain ⟨hst, hhd⟩ := I.node.cp.head
  obtain ⟨fst', hf1, hf2⟩ := I.node.cp.fin
  obtain ⟨jst, hj1, hj2⟩ := I.node.cp.just
  have hh := (I.node.tree.own _ _ hhd).2
  have hfh := (I.node.tree.own _ _ hf1).2
  have hjh := (I.node.tree.own _ _ hj1).2
  refine ⟨⟨a.store.mem.db.finalized, ⟨a.store.mem.db.head, hst.latestBlockHeader.slot⟩⟩, ?_, rfl,
    ⟨_, hh, rfl⟩, (I.node.hasState_iff W _).2 ⟨_, hhd⟩, rfl,
    ⟨_, hfh, by rw [I.node.tree.slotEq _ _ hf1, hf2]⟩, (I.node.hasState_iff W _).2 ⟨_, hf1⟩, ?_⟩
  · unfold buildStatus; rw [hh]
  · have h1 := I.node.cp.finLe
    have hset : HAnc a.store.mem.db.headers a.store.mem.db.justified.root a.store.mem.db.head :=
      I.settled
    have mono : ∀ {r x : Root} {hr hx : Header}, HAnc a.store.mem.db.headers r x →
        a.store.mem.db.headers.get? r = some hr → a.store.mem.db.headers.get? x = some hx →
        hr.slot ≤ hx.slot := by
      intro r x hr hx ha
      induction ha generalizing hx with
      | self _ => intro e1 e2; rw [e1] at e2; cases e2; exact Nat.le_refl _
      | up e1 e2 e3 _ ih =>
        intro e4 e5
        rw [e1] at e5
        cases e5
        exact Nat.le_of_lt (Nat.lt_of_le_of_lt (ih e4 e2) e3)
    have h2 := mono hset hjh hh
    rw [I.node.tree.slotEq _ _ hj1, hj2] at h2
    exact Nat.le_trans h1 h2

/-! ### A case

The node of `C60_BlockPanic` after a day: block 2 was never imported, the chain is 1, 3, 4, 5. -/

def servedSlots (start count : Nat) : Option (List Nat) :=
  match arun (dayEvs.drop 1) with
  | .ok a => (answerRange badCtx.E.H a.store.mem.db start count).map (·.map (fun x => x.block.slot))
  | .error _ => none

example : servedSlots 1 10 = some [1, 3, 4, 5] ∧ servedSlots 2 2 = some [3] ∧ servedSlots 2 0 = none ∧
    servedSlots 2 1025 = none ∧ servedSlots (2 ^ 64 - 1) 2 = some [] := by
  decide +kernel

example : (match arun (dayEvs.drop 1) with
    | .ok a => (match buildStatus a.store.mem.db with
      | .ok st => some (st.finalized.slot, st.head.slot)
      | .error _ => none)
    | .error _ => none) = some (3, 5) := by
  decide +kernel

end Verif.Serve
