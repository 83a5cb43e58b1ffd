import Verif.Spec.Store
import Verif.Lemmas.StoreFrame
import Verif.Lemmas.StfFrame
import Verif.Props.C05_C08_Checkpoints
import Verif.Props.C26_StateDiff
/-!
# Facts about the anchor
-/
namespace Verif.Node
open Verif Verif.Db

/-- Filling in the genesis header's state root beforehand makes no difference. -/
theorem import_filled {H : Hash} {s : State} {b : Block} (hz : H.state s ≠ 0)
    (h0 : s.latestBlockHeader.stateRoot = 0) :
    importState H { s with latestBlockHeader := { s.latestBlockHeader with stateRoot := H.state s } }
      b = importState H s b := by
  unfold importState stateTransition
  have : processSlots H
      { s with latestBlockHeader := { s.latestBlockHeader with stateRoot := H.state s } } b.slot
      = processSlots H s b.slot := by
    unfold processSlots
    simp only [if_neg hz, if_pos h0]
  rw [this]

/-- What the invariants use about the anchor state as stored. -/
structure AnchorOk (H : Hash) (g : State) (K : Header → Prop) (root : Root) (anchor : State) : Prop
    where
  sr : anchor.latestBlockHeader.stateRoot ≠ 0
  slot : anchor.latestBlockHeader.slot = anchor.slot
  histLen : anchor.historicalBlockHashes.length = anchor.slot
  known : K anchor.latestBlockHeader
  just : anchor.latestJustified.slot ≤ anchor.slot
  fin : anchor.latestFinalized.root = 0 ∨
    (anchor.latestFinalized.slot < anchor.slot ∧ anchor.latestFinalized.root ≠ 0 ∧
      anchor.historicalBlockHashes[anchor.latestFinalized.slot]? = some anchor.latestFinalized.root)
  old : ∀ j x, anchor.historicalBlockHashes[j]? = some x → x ≠ 0 →
    ∃ hx, K hx ∧ H.header hx = x ∧ hx.slot = j
  imp : ∀ b st, importState H anchor b = .ok st → ∃ cs, cs ≠ [] ∧ Chain H g cs st
  root : H.header anchor.latestBlockHeader = root

/-- The anchor state with the state root of its header cleared. -/
def zeroed (s : State) : State :=
  { s with latestBlockHeader := { s.latestBlockHeader with stateRoot := 0 } }

theorem init_anchor {H : Hash} {a0 : State} {body : Option (List AggAtt)} {m : Mem}
    (h : initStore H a0 body = .ok m) :
    ∃ root anchor, m.db.states = [(root, anchor)] ∧
      (a0.latestBlockHeader.stateRoot = 0 ∨ a0.latestBlockHeader.stateRoot = H.state (zeroed a0)) ∧
      anchor = { a0 with
        latestBlockHeader := { a0.latestBlockHeader with stateRoot := H.state (zeroed a0) } } ∧
      root = H.header anchor.latestBlockHeader ∧
      m = { db :=
            { time := 0, head := root, safeTarget := root
              justified := { root := root, slot := anchor.latestBlockHeader.slot }
              finalized := { root := root, slot := anchor.latestBlockHeader.slot }
              headers := [(root, anchor.latestBlockHeader)]
              bodies := match body with | some b => [(root, b)] | none => []
              proofs := []
              blockRoots := [(anchor.latestBlockHeader.slot, root)]
              states := [(root, anchor)]
              diffs := []
              liveChain := [((anchor.latestBlockHeader.slot, root),
                anchor.latestBlockHeader.parentRoot)] }
            cache := [] } := by
  unfold initStore at h
  simp only at h
  split at h
  · cases h
  next hn =>
    have hn := Classical.not_not.1 hn
    refine ⟨_, { a0 with
      latestBlockHeader := { a0.latestBlockHeader with stateRoot := H.state (zeroed a0) } },
      ?_, hn, rfl, rfl, ?_⟩
    · rw [← Except.ok.inj h]; rfl
    · have h := (Except.ok.inj h).symm
      refine h.trans ?_
      cases body <;> rfl

theorem anchorOk {E : Env} {t : Nat} {vals : List Validator} {bs : List Block} {a0 : State}
    {K : Header → Prop} (W : World E t vals bs a0 K) {body : Option (List AggAtt)} {m : Mem}
    (h : initStore E.H a0 body = .ok m) :
    ∃ root anchor, m.db.states = [(root, anchor)] ∧
      AnchorOk E.H (State.fromGenesis E.H t vals) K root anchor := by
  obtain ⟨root, anchor, h1, h2, h3, h4, -⟩ := init_anchor h
  refine ⟨root, anchor, h1, ?_⟩
  cases bs with
  | nil =>
    have hc := W.chain
    cases hc
    have hz0 : (State.fromGenesis E.H t vals).latestBlockHeader.stateRoot = 0 := rfl
    have hzero : zeroed (State.fromGenesis E.H t vals) = State.fromGenesis E.H t vals := rfl
    rw [hzero] at h3
    refine ⟨?_, ?_, ?_, ?_, ?_, ?_, ?_, ?_, h4.symm⟩
    · rw [h3]; exact W.stateNZ _
    · rw [h3]; rfl
    · rw [h3]; rfl
    · rw [h3]; exact W.genesis
    · rw [h3]; exact Nat.le_refl _
    · rw [h3]; exact .inl rfl
    · rw [h3]; intro j x hx; cases hx
    · intro b st hi
      rw [h3, import_filled (W.stateNZ _) hz0] at hi
      exact ⟨[b], by simp, .cons .nil hi⟩
  | cons b bs =>
    have hc := W.chain
    have hne : b :: bs ≠ [] := by simp
    have hb : a0.latestBlockHeader = b.header E.H ∧ a0.slot = b.slot ∧
        a0.latestBlockHeader.stateRoot ≠ 0 := by
      cases hc with
      | cons hc0 hi0 =>
        have f := import_frame hi0
        obtain ⟨s1, s2, s3, e1, e2, e3, e4, e5⟩ := importState_ok hi0
        refine ⟨f.hdr, f.slot, ?_⟩
        rw [f.stateRoot, e4]
        exact W.stateNZ _
    obtain ⟨hb1, hb2, hb3⟩ := hb
    have ha : anchor = a0 := by
      rw [h3]
      have h2 := h2.resolve_left hb3
      cases a0
      simp only [State.mk.injEq, true_and, and_true] at *
      rw [← h2]
    obtain ⟨c1, c2, c3⟩ := C03_history_is_chain W.stateNZ hc
    obtain ⟨c4, c5⟩ := C05_checkpoints_ordered hc hne
    obtain ⟨c6, c7, c8, c9⟩ := C06_checkpoints_in_history W.headerNZ hc hne
    refine ⟨?_, ?_, ?_, ?_, ?_, ?_, ?_, ?_, h4.symm⟩
    · rw [ha]; exact hb3
    · rw [ha, hb1, hb2]; rfl
    · rw [ha, c2, hb2]
    · rw [ha, hb1]; exact W.old b (by simp)
    · rw [ha]; omega
    · rw [ha]; exact .inr ⟨by omega, c9, c7⟩
    · rw [ha]
      intro j x hx hx0
      have hlt : j < b.slot := by
        rw [← c2]
        exact (List.getElem?_eq_some_iff.1 hx).1
      rw [c3 j hlt] at hx
      have hx := Option.some.inj hx
      unfold rootAt at hx
      split at hx
      next b' hb' =>
        have hm := List.mem_of_find?_eq_some hb'
        have hp := List.find?_some hb'
        refine ⟨b'.header E.H, W.old b' (List.mem_cons_of_mem _ hm), hx, ?_⟩
        exact of_decide_eq_true hp
      next hnone =>
        split at hx
        next hj =>
          refine ⟨_, W.genesis, hx, ?_⟩
          subst hj
          rfl
        · exact absurd hx.symm hx0
    · intro b' st hi
      rw [ha] at hi
      exact ⟨b' :: b :: bs, by simp, .cons hc hi⟩

end Verif.Node
