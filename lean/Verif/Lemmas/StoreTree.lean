import Verif.Lemmas.StoreAnchor
import Verif.Lemmas.DbIndex
/-!
# The tree of imported blocks
-/
namespace Verif.Node
open Verif Verif.Db

/-- Facts about the imported blocks: `G` maps roots to post-states, `hs` is the header table. -/
structure TInv (H : Hash) (g : State) (root : Root) (anchor : State) (G : Root → Option State)
    (hs : AMap Root Header) : Prop where
  anc : G root = some anchor
  own : ∀ r st, G r = some st → H.header st.latestBlockHeader = r ∧
    hs.get? r = some st.latestBlockHeader
  sr : ∀ r st, G r = some st → st.latestBlockHeader.stateRoot ≠ 0
  slotEq : ∀ r st, G r = some st → st.latestBlockHeader.slot = st.slot
  good : ∀ r st, G r = some st → r ≠ root → ∃ cs, cs ≠ [] ∧ Chain H g cs st
  hanc : ∀ r st, G r = some st → HAnc hs root r
  parentOf : ∀ r st, G r = some st → r ≠ root →
    ∃ p, G st.latestBlockHeader.parentRoot = some p ∧ p.slot < st.slot ∧
      p.latestFinalized.slot ≤ st.latestFinalized.slot ∧ ∃ b, importState H p b = .ok st
  histLen : ∀ r st, G r = some st → st.historicalBlockHashes.length = st.slot
  pre : ∀ r st, G r = some st → ∀ j, j < anchor.slot →
    st.historicalBlockHashes[j]? = anchor.historicalBlockHashes[j]?
  hist : ∀ r st, G r = some st → ∀ j x, anchor.slot ≤ j →
    st.historicalBlockHashes[j]? = some x → x ≠ 0 →
      HAnc hs x r ∧ ∃ sx, G x = some sx ∧ sx.slot = j
  hdrSlot : ∀ r h, hs.get? r = some h → r = root ∨ anchor.slot < h.slot
  vals : ∀ r st, G r = some st → st.validators = anchor.validators

namespace TInv
variable {H : Hash} {g : State} {root : Root} {anchor : State} {G : Root → Option State}
  {hs : AMap Root Header}

theorem slotOf (T : TInv H g root anchor G hs) {r : Root} {st : State} (h : G r = some st) :
    Db.slotOf hs r = st.slot := by
  rw [slotOf_eq (T.own r st h).2, T.slotEq r st h]

theorem slot_ge (T : TInv H g root anchor G hs) {r : Root} {st : State} (h : G r = some st) :
    anchor.slot ≤ st.slot := by
  have := (T.hanc r st h).slot_le
  rw [T.slotOf T.anc, T.slotOf h] at this
  exact this

/-- The tree facts survive growth of the header table. -/
theorem mono (T : TInv H g root anchor G hs) {hs' : AMap Root Header}
    (hm : ∀ r h, hs.get? r = some h → hs'.get? r = some h)
    (hd : ∀ r h, hs'.get? r = some h → r = root ∨ anchor.slot < h.slot) :
    TInv H g root anchor G hs' :=
  { anc := T.anc
    own := fun r st h => ⟨(T.own r st h).1, hm _ _ (T.own r st h).2⟩
    sr := T.sr
    slotEq := T.slotEq
    good := T.good
    hanc := fun r st h => (T.hanc r st h).mono hm
    parentOf := T.parentOf
    histLen := T.histLen
    pre := T.pre
    hist := fun r st h j x h1 h2 h3 =>
      ⟨(T.hist r st h j x h1 h2 h3).1.mono hm, (T.hist r st h j x h1 h2 h3).2⟩
    hdrSlot := hd
    vals := T.vals }

/-- A successful import on an imported parent, before it is stored. -/
structure Child (H : Hash) (g : State) (anchor : State) (G : Root → Option State)
    (hs : AMap Root Header) (p : State) (b : Block) (st : State) : Prop where
  hdr : st.latestBlockHeader = b.header H
  slot : st.slot = b.slot
  lt : p.slot < b.slot
  sr : st.latestBlockHeader.stateRoot ≠ 0
  chain : ∃ cs, cs ≠ [] ∧ Chain H g cs st
  histLen : st.historicalBlockHashes.length = st.slot
  pre : ∀ j, j < anchor.slot → st.historicalBlockHashes[j]? = anchor.historicalBlockHashes[j]?
  hist : ∀ j x, anchor.slot ≤ j → st.historicalBlockHashes[j]? = some x → x ≠ 0 →
      HAnc hs x b.parentRoot ∧ ∃ sx, G x = some sx ∧ sx.slot = j
  vals : st.validators = anchor.validators
  fin : p.latestFinalized.slot ≤ st.latestFinalized.slot
  just : p.latestJustified.slot ≤ st.latestJustified.slot
  valid : ValidChild H p st
  imp : importState H p b = .ok st

theorem child {K : Header → Prop} (T : TInv H g root anchor G hs) (A : AnchorOk H g K root anchor)
    (hz : ∀ s, H.state s ≠ 0) {p st : State} {b : Block} (hp : G b.parentRoot = some p)
    (hi : importState H p b = .ok st) : Child H g anchor G hs p b st := by
  have f := import_frame hi
  have hv := (C26_import_is_valid_child hi (T.sr _ _ hp) (T.slotEq _ _ hp)).1
  have hge := T.slot_ge hp
  have hplen := T.histLen _ _ hp
  obtain ⟨s1, s2, s3, e1, e2, e3, e4, e5⟩ := importState_ok hi
  have hchain : ∃ cs, cs ≠ [] ∧ Chain H g cs st := by
    by_cases hr : b.parentRoot = root
    · rw [hr, T.anc] at hp
      cases hp
      exact A.imp b st hi
    · obtain ⟨cs, -, hc⟩ := T.good _ _ hp hr
      exact ⟨b :: cs, by simp, .cons hc hi⟩
  have hist : st.historicalBlockHashes = p.historicalBlockHashes ++
      b.parentRoot :: List.replicate (b.slot - p.slot - 1) 0 := by
    rw [f.hist, T.slotEq _ _ hp]
  refine ⟨f.hdr, f.slot, f.slotLt, ?_, hchain, ?_, ?_, ?_, f.vals.trans (T.vals _ _ hp), f.fin,
    f.just, hv, hi⟩
  · rw [f.stateRoot, e4]; exact hz _
  · rw [hist, f.slot]
    have := f.slotLt
    simp only [List.length_append, List.length_cons, List.length_replicate, hplen]
    omega
  · intro j hj
    rw [hist, List.getElem?_append_left (by omega)]
    exact T.pre _ _ hp j hj
  · intro j x hj hx hx0
    rw [hist] at hx
    by_cases h1 : j < p.slot
    · rw [List.getElem?_append_left (by omega)] at hx
      exact T.hist _ _ hp j x hj hx hx0
    · rw [List.getElem?_append_right (by omega), hplen] at hx
      by_cases h2 : j = p.slot
      · subst h2
        simp only [Nat.sub_self, List.getElem?_cons_zero, Option.some.injEq] at hx
        subst hx
        exact ⟨.self (T.own _ _ hp).2, p, hp, rfl⟩
      · rw [show j - p.slot = (j - p.slot - 1) + 1 by omega, List.getElem?_cons_succ,
          List.getElem?_replicate] at hx
        split at hx
        · exact absurd (Option.some.inj hx).symm hx0
        · cases hx

/-- Storing an imported block and its state. -/
theorem insert (T : TInv H g root anchor G hs) {p st : State} {b : Block}
    (hp : G b.parentRoot = some p) (C : Child H g anchor G hs p b st)
    (hnew : G (b.root H) = none) {hs' : AMap Root Header}
    (hm : ∀ r h, hs.get? r = some h → hs'.get? r = some h)
    (hd : ∀ r h, hs'.get? r = some h → r = root ∨ anchor.slot < h.slot)
    (hown : hs'.get? (b.root H) = some (b.header H)) :
    TInv H g root anchor (fun r => if r = b.root H then some st else G r) hs' := by
  have T' := T.mono hm hd
  have hne : b.parentRoot ≠ b.root H := by intro e; rw [e, hnew] at hp; cases hp
  have hroot : root ≠ b.root H := by intro e; rw [← e, T.anc] at hnew; cases hnew
  have hx : ∀ r s, G r = some s → (if r = b.root H then some st else G r) = some s := by
    intro r s h
    rw [if_neg]
    · exact h
    · intro e; rw [e, hnew] at h; cases h
  have hup : HAnc hs' b.parentRoot (b.root H) := by
    refine .up hown (pd := p.latestBlockHeader) (T'.own _ _ hp).2 ?_ (.self (T'.own _ _ hp).2)
    show p.latestBlockHeader.slot < b.slot
    rw [T.slotEq _ _ hp]; exact C.lt
  have cas : ∀ r s, (if r = b.root H then some st else G r) = some s →
      (r = b.root H ∧ s = st) ∨ G r = some s := by
    intro r s h
    split at h
    next e => cases h; exact .inl ⟨e, rfl⟩
    · exact .inr h
  refine ⟨hx _ _ T.anc, ?_, ?_, ?_, ?_, ?_, ?_, ?_, ?_, ?_, hd, ?_⟩
  · intro r s h
    rcases cas r s h with ⟨rfl, rfl⟩ | h
    · rw [C.hdr]; exact ⟨rfl, hown⟩
    · exact T'.own r s h
  · intro r s h
    rcases cas r s h with ⟨rfl, rfl⟩ | h
    · exact C.sr
    · exact T.sr r s h
  · intro r s h
    rcases cas r s h with ⟨rfl, rfl⟩ | h
    · rw [C.hdr, C.slot]; rfl
    · exact T.slotEq r s h
  · intro r s h hr
    rcases cas r s h with ⟨rfl, rfl⟩ | h
    · exact C.chain
    · exact T.good r s h hr
  · intro r s h
    rcases cas r s h with ⟨rfl, rfl⟩ | h
    · exact (T'.hanc _ _ hp).trans hup
    · exact T'.hanc r s h
  · intro r s h hr
    rcases cas r s h with ⟨rfl, rfl⟩ | h
    · refine ⟨p, ?_, by rw [C.slot]; exact C.lt, C.fin, b, C.imp⟩
      rw [C.hdr]
      exact hx _ _ hp
    · obtain ⟨q, h1, h2⟩ := T.parentOf r s h hr
      exact ⟨q, hx _ _ h1, h2⟩
  · intro r s h
    rcases cas r s h with ⟨rfl, rfl⟩ | h
    · exact C.histLen
    · exact T.histLen r s h
  · intro r s h
    rcases cas r s h with ⟨rfl, rfl⟩ | h
    · exact C.pre
    · exact T.pre r s h
  · intro r s h j x hj hjx hx0
    rcases cas r s h with ⟨rfl, rfl⟩ | h
    · obtain ⟨h1, sx, h2, h3⟩ := C.hist j x hj hjx hx0
      exact ⟨(h1.mono hm).trans hup, sx, hx _ _ h2, h3⟩
    · obtain ⟨h1, sx, h2, h3⟩ := T'.hist r s h j x hj hjx hx0
      exact ⟨h1, sx, hx _ _ h2, h3⟩
  · intro r s h
    rcases cas r s h with ⟨rfl, rfl⟩ | h
    · exact C.vals
    · exact T.vals r s h

/-- The finalized checkpoint of an imported state, if its header is in the table, names an imported
ancestor at that slot. -/
theorem finalized {K : Header → Prop} (T : TInv H g root anchor G hs)
    (A : AnchorOk H g K root anchor) {t : Nat} {vals : List Validator}
    (hg : g = State.fromGenesis H t vals) (hz : ∀ h, H.header h ≠ 0)
    (hK : ∀ r h, hs.get? r = some h → K h ∧ H.header h = r)
    (hcol : ∀ a b, K a → K b → H.header a = H.header b → a = b)
    {r : Root} {st : State} (hr : G r = some st)
    (hh : (hs.get? st.latestFinalized.root).isSome) :
    HAnc hs st.latestFinalized.root r ∧
      (∃ sx, G st.latestFinalized.root = some sx ∧ sx.slot = st.latestFinalized.slot) ∧
      st.latestFinalized.slot ≤ st.latestJustified.slot := by
  have old : ∀ j, j < anchor.slot →
      anchor.historicalBlockHashes[j]? = some st.latestFinalized.root → False := by
    intro j hj hx
    obtain ⟨h, he⟩ := Option.isSome_iff_exists.1 hh
    obtain ⟨k1, k2⟩ := hK _ _ he
    have hx0 : st.latestFinalized.root ≠ 0 := by rw [← k2]; exact hz h
    obtain ⟨hx', k3, k4, k5⟩ := A.old j _ hx hx0
    have := hcol _ _ k1 k3 (k2.trans k4.symm)
    subst this
    rcases T.hdrSlot _ _ he with e | e
    · rw [e, (T.own _ _ T.anc).2] at he
      cases he
      rw [A.slot] at k5
      omega
    · omega
  by_cases e : r = root
  · exfalso
    subst e
    rw [T.anc] at hr
    cases hr
    rcases A.fin with h0 | ⟨h1, -, h3⟩
    · obtain ⟨h, he⟩ := Option.isSome_iff_exists.1 hh
      obtain ⟨-, k2⟩ := hK _ _ he
      exact hz h (k2.trans h0)
    · exact old _ h1 h3
  · obtain ⟨cs, hne, hc⟩ := T.good r st hr e
    subst hg
    obtain ⟨c1, c2, c3, c4⟩ := C06_checkpoints_in_history hz hc hne
    have hle := (C05_checkpoints_ordered hc hne).1
    have hge : anchor.slot ≤ st.latestFinalized.slot := by
      by_contra hlt
      have hlt : st.latestFinalized.slot < anchor.slot := by omega
      rw [T.pre r st hr _ hlt] at c2
      exact old _ hlt c2
    obtain ⟨d1, d2⟩ := T.hist r st hr _ _ hge c2 c4
    exact ⟨d1, d2, hle⟩

end TInv
end Verif.Node
