import Verif.Lemmas.DbIndex
import Verif.Spec.DbWitness
/-!
# C28: the canonical slot index
-/
namespace Verif.Db
open Verif

/-- **C28.** After any run of storage calls with any sequence of head changes, a slot lookup yields
`r` exactly when `r` is the block at that slot on the chain from the anchor to the current head. -/
theorem C28_index_exact {H : Hash} {a0 : State} {body : Option (List AggAtt)} {root : Root}
    {anchor : State} {ops : List Op} {m : Mem} (h : Run H a0 body root anchor ops m)
    (hc : CollisionFree H anchor ops) (n : Nat) (r : Root) :
    m.db.blockRoots.get? n = some r ↔
      HAnc m.db.headers root r ∧ HAnc m.db.headers r m.db.head ∧
        ∃ hd, m.db.headers.get? r = some hd ∧ hd.slot = n := by
  have K := run_index h hc
  rw [K.idx n r]
  constructor
  · rintro ⟨⟨h1, h2⟩, h3⟩
    obtain ⟨hd, e⟩ := h1.right
    exact ⟨h1, h2, hd, e, by rw [← slotOf_eq e]; exact h3⟩
  · rintro ⟨h1, h2, hd, e, h3⟩
    exact ⟨⟨h1, h2⟩, by rw [slotOf_eq e]; exact h3⟩

/-- **C28.** A head update to a stored block that descends from the anchor never fails and the
ancestor search terminates. -/
theorem C28_update_succeeds {H : Hash} {a0 : State} {body : Option (List AggAtt)} {root : Root}
    {anchor : State} {ops : List Op} {m : Mem} (h : Run H a0 body root anchor ops m)
    (hc : CollisionFree H anchor ops) {head : Root} {j f : Option Checkpoint}
    (ha : HAnc m.db.headers root head) :
    ∃ m', step H m (.updateCheckpoints head j f) = .ok m' ∧ m'.db.head = head := by
  have K := run_index h hc
  obtain ⟨dels, ents, c, ec, -⟩ := changes_ok K.head ha
  have hex : ∃ db', updateCheckpoints m.db head j f = .ok db' := by
    unfold updateCheckpoints
    rw [ec]
    simp only
    split
    · split
      · exact ⟨_, rfl⟩
      · exact ⟨_, rfl⟩
    · exact ⟨_, rfl⟩
  obtain ⟨db', e⟩ := hex
  refine ⟨{ m with db := db' }, ?_, (updateCheckpoints_frame e).2.2.2.2.2.1⟩
  show (match updateCheckpoints m.db head j f with
    | .error e => .error e | .ok db => .ok { m with db := db } : P Mem) = _
  rw [e]

/-- The block served for a root has that root. -/
theorem served_root {H : Hash} {a0 : State} {body : Option (List AggAtt)} {root : Root}
    {anchor : State} {ops : List Op} {m : Mem} (h : Run H a0 body root anchor ops m)
    (hc : CollisionFree H anchor ops)
    (hb : ∀ b, body = some b → H.body b = anchor.latestBlockHeader.bodyRoot)
    {r : Root} {x : SignedBlock} (hx : getSignedBlock H m.db r = some x) :
    x.block.root H = r ∧ m.db.headers.get? r = some (x.block.header H) := by
  have B := run_blocks h
  have J := run_inv h hc
  unfold getSignedBlock at hx
  split at hx
  · cases hx
  next hd hh =>
    simp only at hx
    split at hx
    · cases hx
    next b hbb =>
      have hbody : H.body b = hd.bodyRoot := by
        split at hbb
        next e => cases hbb; exact e.symm
        next e =>
          cases hl : lastBlock H ops r with
          | some sb =>
            have e1 := B.hdr r sb hl
            rw [hh] at e1
            cases e1
            have e2 := B.bodyTab r sb hl e
            rw [hbb] at e2
            cases e2
            rfl
          | none =>
            by_cases hr : r = root
            · subst hr
              obtain ⟨e1, e2⟩ := B.anchorHdr hl
              rw [hh] at e1
              cases e1
              rw [hbb] at e2
              exact hb b e2.symm
            · rw [B.absent r hl hr] at hh; cases hh
      have hblk : x.block = fromHeaderAndBody hd b := by
        split at hx
        · cases hx; rfl
        · split at hx
          · cases hx; rfl
          · cases hx
      have hhd : x.block.header H = hd := by
        rw [hblk]
        show Header.mk hd.slot hd.proposerIndex hd.parentRoot hd.stateRoot (H.body b) = hd
        rw [hbody]
      refine ⟨?_, by rw [hhd]; exact hh⟩
      rw [root_eq, hhd]
      exact J.repr.hdr r hd hh

/-- **C28.** A range request returns blocks of the canonical chain in the requested range only, in
strictly increasing slot order, and all of those that are available. -/
theorem C28_range {H : Hash} {a0 : State} {body : Option (List AggAtt)} {root : Root}
    {anchor : State} {ops : List Op} {m : Mem} (h : Run H a0 body root anchor ops m)
    (hc : CollisionFree H anchor ops)
    (hb : ∀ b, body = some b → H.body b = anchor.latestBlockHeader.bodyRoot) (start stop : Nat) :
    (∀ x, x ∈ getSignedBlocksBySlotRange H m.db start stop ↔
      (start ≤ x.block.slot ∧ x.block.slot ≤ stop ∧
        HAnc m.db.headers root (x.block.root H) ∧ HAnc m.db.headers (x.block.root H) m.db.head ∧
        getSignedBlock H m.db (x.block.root H) = some x)) ∧
    (∀ i (x y : SignedBlock), (getSignedBlocksBySlotRange H m.db start stop)[i]? = some x →
      (getSignedBlocksBySlotRange H m.db start stop)[i + 1]? = some y →
      x.block.slot < y.block.slot) := by
  have spec : ∀ s x, (match m.db.blockRoots.get? s with
      | none => none
      | some root => getSignedBlock H m.db root) = some x ↔
      (x.block.slot = s ∧ HAnc m.db.headers root (x.block.root H) ∧
        HAnc m.db.headers (x.block.root H) m.db.head ∧
        getSignedBlock H m.db (x.block.root H) = some x) := by
    intro s x
    constructor
    · intro hx
      split at hx
      · cases hx
      next r hr =>
        obtain ⟨e1, e2⟩ := served_root h hc hb hx
        obtain ⟨h1, h2, hd, h3, h4⟩ := (C28_index_exact h hc s r).1 hr
        rw [e2] at h3
        cases h3
        rw [e1]
        exact ⟨h4, h1, h2, hx⟩
    · rintro ⟨h1, h2, h3, h4⟩
      obtain ⟨-, e2⟩ := served_root h hc hb h4
      rw [(C28_index_exact h hc s _).2 ⟨h2, h3, _, e2, h1⟩]
      exact h4
  unfold getSignedBlocksBySlotRange
  refine ⟨fun x => ?_, ?_⟩
  · rw [List.mem_filterMap]
    constructor
    · rintro ⟨s, hs, hx⟩
      rw [mem_slotsFrom] at hs
      obtain ⟨h1, h2⟩ := (spec s x).1 hx
      exact ⟨by omega, by omega, h2⟩
    · rintro ⟨h1, h2, h3⟩
      exact ⟨x.block.slot, mem_slotsFrom.2 (by omega), (spec _ x).2 ⟨rfl, h3⟩⟩
  · intro i x y hx hy
    obtain ⟨s, t, -, hst, -, fs, ft, -⟩ := filterMap_consec _ _ _ _ _ _ hx hy
    rw [((spec s x).1 fs).1, ((spec t y).1 ft).1]
    exact hst

/-- **C28.** When every canonical block in the range is available, each block returned is the child
of the one returned just before it. -/
theorem C28_range_linked {H : Hash} {a0 : State} {body : Option (List AggAtt)} {root : Root}
    {anchor : State} {ops : List Op} {m : Mem} (h : Run H a0 body root anchor ops m)
    (hc : CollisionFree H anchor ops)
    (hb : ∀ b, body = some b → H.body b = anchor.latestBlockHeader.bodyRoot) (start stop : Nat)
    (hav : ∀ n r, start ≤ n → n ≤ stop → m.db.blockRoots.get? n = some r →
      getSignedBlock H m.db r ≠ none) (i : Nat) (x y : SignedBlock)
    (hx : (getSignedBlocksBySlotRange H m.db start stop)[i]? = some x)
    (hy : (getSignedBlocksBySlotRange H m.db start stop)[i + 1]? = some y) :
    y.block.parentRoot = x.block.root H := by
  unfold getSignedBlocksBySlotRange at hx hy
  obtain ⟨s, t, hs, hst, ht, fs, ft, fn⟩ := filterMap_consec _ _ _ _ _ _ hx hy
  split at fs
  · cases fs
  next rx hrx =>
  split at ft
  · cases ft
  next ry hry =>
  obtain ⟨ex, hdx⟩ := served_root h hc hb fs
  obtain ⟨ey, hdy⟩ := served_root h hc hb ft
  obtain ⟨ax, xh, hd1, e1, s1⟩ := (C28_index_exact h hc s rx).1 hrx
  obtain ⟨ay, yh, hd2, e2, s2⟩ := (C28_index_exact h hc t ry).1 hry
  rw [hdx] at e1
  rw [hdy] at e2
  have e1 := Option.some.inj e1
  have e2 := Option.some.inj e2
  rw [← e1] at s1
  rw [← e2] at s2
  have hsx : slotOf m.db.headers rx = s := by rw [slotOf_eq hdx]; exact s1
  have hsy : slotOf m.db.headers ry = t := by rw [slotOf_eq hdy]; exact s2
  -- `x` is an ancestor of `y`
  have hxy : HAnc m.db.headers rx ry := xh.le_of_slot yh (by omega)
  have hne : rx ≠ ry := by
    intro e
    rw [e] at hsx
    exact absurd (hsx.symm.trans hsy) (by omega)
  obtain ⟨hxp, pd, ep, hlt⟩ := hxy.parent hdy hne
  rw [ex]
  by_cases heq : rx = (y.block.header H).parentRoot
  · exact heq.symm
  · exfalso
    have hsp := slotOf_eq ep
    have h1 : s < pd.slot := by
      rcases hxp.slot with h | h
      · exact absurd h heq
      · rw [hsx, hsp] at h; exact h
    have h2 : pd.slot < t := by
      have : (y.block.header H).slot = t := s2
      omega
    have hcan := (C28_index_exact h hc pd.slot _).2
      ⟨ax.trans hxp, .trans (.up hdy ep hlt (.self ep)) yh, pd, ep, rfl⟩
    have hnone := fn pd.slot h1 h2
    rw [hcan] at hnone
    exact hav pd.slot _ (by omega) (by omega) hcan hnone

/-- Non-vacuity: in the witness run the index holds slots 0, 1, 2 and the range 1..2 is served
linked; the anchor's body is consistent. -/
example : Run Verif.Witness.wH Verif.Witness.wG (some []) 1 Witness.anchorS Witness.ops
      Witness.m7 ∧
    Witness.m7.db.blockRoots.get? 2 = some 3 ∧
    (getSignedBlocksBySlotRange Verif.Witness.wH Witness.m7.db 1 2).map (·.proof) = [11, 22] ∧
    (∀ n ∈ [1, 2], ∀ r, Witness.m7.db.blockRoots.get? n = some r →
      getSignedBlock Verif.Witness.wH Witness.m7.db r ≠ none) ∧
    Verif.Witness.wH.body [] = Witness.anchorS.latestBlockHeader.bodyRoot := by
  refine ⟨Witness.run7, by decide +kernel, by decide +kernel, ?_, by decide +kernel⟩
  intro n hn r
  simp only [List.mem_cons, List.not_mem_nil, or_false] at hn
  rcases hn with rfl | rfl
  · rw [show Witness.m7.db.blockRoots.get? 1 = some 2 by decide +kernel]
    rintro h; cases h; decide +kernel
  · rw [show Witness.m7.db.blockRoots.get? 2 = some 3 by decide +kernel]
    rintro h; cases h; decide +kernel

/-- A fork off genesis at slot 3. -/
def forkBlock : SignedBlock := { block := Verif.Witness.mkBlock 3 0 [], proof := 33 }

/-- Non-vacuity: a reorg of depth two. Slots 1 and 2 leave the index, slot 3 enters. -/
example : ∃ m, Run Verif.Witness.wH Verif.Witness.wG (some []) 1 Witness.anchorS
      (.updateCheckpoints 4 none none :: .insertPending forkBlock :: Witness.ops) m ∧
    CollisionFree Verif.Witness.wH Witness.anchorS
      (.updateCheckpoints 4 none none :: .insertPending forkBlock :: Witness.ops) ∧
    [0, 1, 2, 3].map (fun n => m.db.blockRoots.get? n) = [some 1, none, none, some 4] := by
  refine ⟨_, (Witness.run7.step (op := .insertPending forkBlock) trivial rfl).step
    (op := .updateCheckpoints 4 none none) ?_
    (m' := Witness.get! (step Verif.Witness.wH (Witness.get! (step Verif.Witness.wH Witness.m7
      (.insertPending forkBlock))) (.updateCheckpoints 4 none none))) (by decide +kernel),
    Witness.collisionFree_of_list (by decide +kernel), by decide +kernel⟩
  refine .up (hd := forkBlock.block.header Verif.Witness.wH)
    (pd := Witness.anchorS.latestBlockHeader) (by decide +kernel) (by decide +kernel)
    (by decide +kernel) ?_
  exact .self (hd := Witness.anchorS.latestBlockHeader) (by decide +kernel)

end Verif.Db
