import Verif.Lemmas.Verified
import Verif.Lemmas.Dup
import Verif.Lemmas.Stored
/-!
# The stored copy of an imported block is a valid one
-/
namespace Verif.Node
open Verif Verif.Db

theorem checkBlock_validOn {E : Env} {s : Store} {p st : State} {sb : SignedBlock}
    (hc : checkBlock E s p sb = .ok st) : ValidOn E p sb := by
  have h1 := checkBlock_import hc
  have h2 := checkBlock_verified hc
  unfold checkBlock at hc
  split at hc
  · cases hc
  next g1 =>
  split at hc
  · cases hc
  split at hc
  · cases hc
  next g2 =>
  split at hc
  · cases hc
  next g3 =>
  refine ⟨by omega, ?_, by omega, h2, _, h1⟩
  rw [← hasDuplicate_iff]
  exact Bool.eq_false_iff.2 g2

/-- No other body has the hash of the empty one. -/
def Plump (H : Hash) (sb : SignedBlock) : Prop := H.body sb.block.body = H.body [] → sb.block.body = []

/-- The stored copy of every imported block but the anchor is the block the state comes from, with a proof
that passes the check. -/
def CopiesGood (E : Env) (root : Root) (anchor : State) (ops : List Db.Op) (db : Db) : Prop :=
  ∀ r st sb, stateOf root anchor ops r = some st → r ≠ root → getSignedBlock E.H db r = some sb →
    ∃ p, stateOf root anchor ops sb.block.parentRoot = some p ∧ ValidOn E p sb ∧
      importState E.H p sb.block = .ok st

section
variable {c : Ctx} {t : Nat} {vals : List Validator} {bs : List Block} {a0 : State}
  {body : Option (List AggAtt)} {K : Header → Prop} {rank : Root → Nat} {root : Root}
  {anchor : State} {ops ops' : List Db.Op} {a a' : Actor} {E : Env} {s s' : Store}

theorem loaded_plump (W : World E t vals bs a0 K)
    (I : NInv E t vals a0 body K root anchor NoX ops s) {r : Root} (hr : r ≠ root) {sb : SignedBlock}
    (h : getSignedBlock E.H s.mem.db r = some sb) : Plump E.H sb := by
  intro hb
  have hh := (I.loaded W hr h).2.2
  unfold getSignedBlock at h
  rw [hh] at h
  have hb : (sb.block.header E.H).bodyRoot = E.H.body [] := hb
  simp only [hb, if_true] at h
  split at h
  · exact (congrArg (fun x : SignedBlock => x.block.body) (Option.some.inj h)).symm
  · split at h
    · exact (congrArg (fun x : SignedBlock => x.block.body) (Option.some.inj h)).symm
    · cases h

theorem CopiesGood.still (V : CopiesGood E root anchor ops s.mem.db) (W : World E t vals bs a0 K)
    (I : NInv E t vals a0 body K root anchor NoX ops s)
    (I' : NInv E t vals a0 body K root anchor NoX ops' s')
    (hx : ∀ r st, stateOf root anchor ops r = some st → stateOf root anchor ops' r = some st)
    (hh : ∀ r, hasState s'.mem.db r = hasState s.mem.db r)
    (hg : ∀ r sb, r ≠ root → getSignedBlock E.H s'.mem.db r = some sb →
      getSignedBlock E.H s.mem.db r = some sb) : CopiesGood E root anchor ops' s'.mem.db := by
  intro r st sb hr hne hsb
  rw [back_state W I I' hx (hh r)] at hr
  obtain ⟨p, h1, h2⟩ := V r st sb hr hne (hg r sb hne hsb)
  exact ⟨p, hx _ _ h1, h2⟩

theorem CopiesGood.import (V : CopiesGood E root anchor ops s.mem.db) (W : World E t vals bs a0 K)
    (I : NInv E t vals a0 body K root anchor NoX ops s)
    (I' : NInv E t vals a0 body K root anchor NoX ops' s') {sb : SignedBlock} {s1 : Store}
    {r : Except Err Unit} (hp : Plump E.H sb) (x : Imported E root anchor ops s sb ops' s1 r)
    (hm : s'.mem.db = s1.mem.db) : CopiesGood E root anchor ops' s'.mem.db := by
  by_cases hh : hasState s.mem.db (sb.block.root E.H) = true
  · exact V.still W I I' x.ext.states (fun k => by rw [hm, x.had hh])
      (fun k y _ h => by rw [hm, x.had hh] at h; exact h)
  · have hh : hasState s.mem.db (sb.block.root E.H) = false := by
      cases h : hasState s.mem.db (sb.block.root E.H) with
      | true => exact absurd h hh
      | false => rfl
    cases hr : r with
    | error e =>
      exact V.still W I I' x.ext.states (fun k => by rw [hm, x.err e hr])
        (fun k y _ h => by rw [hm, x.err e hr] at h; exact h)
    | ok u =>
      obtain ⟨p, st, h1, h2, h3⟩ := x.new hr hh
      have h4 := x.self hr hh hp
      intro k st' y hk hne hy
      by_cases hks : k = sb.block.root E.H
      · subst hks
        rw [h3] at hk
        cases hk
        rw [hm, h4] at hy
        cases hy
        exact ⟨p, x.ext.states _ _ h1, checkBlock_validOn h2, checkBlock_import h2⟩
      · rw [back_state W I I' x.ext.states (by rw [hm]; exact x.others k hks)] at hk
        rw [hm, x.blocks k hks] at hy
        obtain ⟨p', q1, q2⟩ := V k st' y hk hne hy
        exact ⟨p', x.ext.states _ _ q1, q2⟩

/-- What is carried through the queue. -/
def GoodQueue (c : Ctx) (root : Root) (anchor : State) (ops : List Db.Op) (a : Actor)
    (q : List SignedBlock) : Prop :=
  CopiesGood c.E root anchor ops a.store.mem.db ∧ ∀ x ∈ q, Plump c.E.H x

theorem kept_goodQueue (ho : ∀ l, (c.order l).Perm l) (W : World c.E t vals bs a0 K) :
    Kept c t vals a0 body K rank root anchor (GoodQueue c root anchor) := by
  intro ops a sb q ops' o I I' hk x hready hrq _ p V
  have hq : ∀ y ∈ q, Plump c.E.H y := fun y hy => V.2 y (List.mem_cons_of_mem _ hy)
  have hsb := V.2 sb List.mem_cons_self
  refine ⟨?_, fun y hy => ?_⟩
  · cases p with
    | reject why ops_eq store push rem fetch => rw [ops_eq, store]; exact V.1
    | pend fin noState states db =>
      intro r st y hr hne hy
      rw [states] at hr ⊢
      by_cases hrs : r = sb.block.root c.E.H
      · subst hrs
        obtain ⟨p, p1, -⟩ := I.node.tree.parentOf _ _ hr hne
        obtain ⟨k1, k2⟩ := I.node.hdrK W _ _ (I.node.tree.own _ _ hr).2
        have he : st.latestBlockHeader = sb.block.header c.E.H := W.collisionFree _ _ k1 hk k2
        rw [he] at p1
        have := (I.node.hasState_iff W sb.block.parentRoot).2 ⟨p, p1⟩
        rw [this] at noState
        cases noState
      · rw [db, getSigned_write_other hrs] at hy
        exact V.1 r st y hr hne hy
    | fail hasParent imp actor push fetch =>
      exact V.1.import W I.node I'.node hsb imp (by rw [actor])
    | done hasParent imp mem => exact V.1.import W I.node I'.node hsb imp (by rw [mem])
  · rcases List.mem_append.1 hy with hy | hy
    · exact hq y hy
    · cases p with
      | reject why ops_eq store push => rw [push] at hy; cases hy
      | pend _ _ _ _ _ _ push =>
        rcases push with h7 | ⟨r, b', h7, h9, h10, h11⟩
        · rw [h7] at hy; cases hy
        · rw [h7, List.mem_singleton] at hy
          subst hy
          exact loaded_plump W I'.node h9 h10
      | fail _ _ _ push => rw [push] at hy; cases hy
      | done _ _ _ _ push =>
        rw [push, List.mem_filterMap] at hy
        obtain ⟨r, hr, hg⟩ := hy
        have hr := (ho _).mem_iff.1 hr
        have he : Edge a.pending (sb.block.root c.E.H) r := by
          cases e : a.pending.get? (sb.block.root c.E.H) with
          | none => rw [e] at hr; cases hr
          | some l => rw [e] at hr; exact ⟨l, e, hr⟩
        exact loaded_plump W I'.node (I.maps.child _ _ he).1 hg

/-- Pruning removes copies, it does not change them. -/
theorem prune_copies (I : NInv E t vals a0 body K root anchor NoX ops s) {db : Db}
    (h : pruneOldData s.mem.db = .ok db) {r : Root} (hr : r ≠ root) {sb : SignedBlock}
    (hg : getSignedBlock E.H db r = some sb) : getSignedBlock E.H s.mem.db r = some sb := by
  obtain ⟨h1, -, -, h2, -⟩ := pruneOldData_frame h
  obtain ⟨-, hp⟩ := pruneOldData_proofs h (run_blocks I.run).nodup
  unfold getSignedBlock at hg ⊢
  simp only [h1, h2, hp] at hg
  cases hh : s.mem.db.headers.get? r with
  | none => rw [hh] at hg; cases hg
  | some hd =>
    rw [hh] at hg
    simp only at hg ⊢
    have hs : hd.slot ≠ 0 := by
      rcases I.tree.hdrSlot r hd hh with h | h
      · exact absurd h hr
      · omega
    split at hg
    · cases hg
    · split at hg
      next q hq =>
        split at hq
        · cases hq
        · rw [hq]; exact hg
      next hq => rw [if_neg hs] at hg; cases hg

/-- Every reachable actor holds good copies. -/
theorem areach_copies (ho : ∀ l, (c.order l).Perm l)
    (W : World c.E t vals bs a0 K) (hR : Ranks c.E.H K rank) {evs : List Event}
    (h : AReach c a0 body evs a) (hk : ∀ ev ∈ evs, EventK c.E.H K ev)
    (hpl : ∀ sb, .block sb ∈ evs ∨ .own sb ∈ evs → Plump c.E.H sb) :
    ∃ root anchor ops, AnchorOk c.E.H (State.fromGenesis c.E.H t vals) K root anchor ∧
      AInv c.E t vals a0 body K rank root anchor ops a ∧
      CopiesGood c.E root anchor ops a.store.mem.db := by
  induction h with
  | init hi =>
    obtain ⟨root, anchor, A, I⟩ := init_ainv W rank hi
    refine ⟨root, anchor, [], A, I, fun r st sb hr hne => ?_⟩
    unfold stateOf at hr
    rw [if_neg hne] at hr
    cases hr
  | @step evs a ev a' f hr hs ih =>
    obtain ⟨root, anchor, ops, A, I, V⟩ := ih (fun ev he => hk ev (List.mem_cons_of_mem _ he))
      (fun sb he => hpl sb (he.imp (List.mem_cons_of_mem _) (List.mem_cons_of_mem _)))
    by_cases hb : ∃ sb, ev = .block sb
    · obtain ⟨sb, rfl⟩ := hb
      rcases I.onBlock ho W A hR (kept_goodQueue ho W) sb (hk _ List.mem_cons_self) ⟨V, fun x hx => by
          rw [List.mem_singleton] at hx; subst hx; exact hpl x (.inl List.mem_cons_self)⟩ with
        ⟨h1, -⟩ | ⟨a1, a2, f2, ops1, ops', db, e, I1, V1, hp, ha, I', x1, x2⟩
      · have hs : a.onBlock c sb = .ok (a', f) := hs
        rw [h1] at hs; cases hs
      · have hs : a.onBlock c sb = .ok (a', f) := hs
        rw [e] at hs
        cases hs
        refine ⟨root, anchor, ops', A, I', V1.1.still W I1.node I'.node x2.states (fun r => ?_)
          (fun r y hne hy => ?_)⟩
        · rw [ha]
          have hs : step c.E a1.store .prune =
              .ok { a1.store with mem := { a1.store.mem with db := db } } := by
            unfold step; rw [hp]
          exact (step_still (by intro sb; constructor <;> (intro h; cases h)) hs).1.hasState r
        · rw [ha] at hy
          exact prune_copies I1.node hp hne hy
    · have hb : ∀ sb, ev ≠ .block sb := fun sb h => hb ⟨sb, h⟩
      by_cases hown : ∃ sb, ev = .own sb
      · obtain ⟨sb, rfl⟩ := hown
        obtain ⟨s', ops', r, -, e, I', q⟩ := I.own W A sb (hk _ List.mem_cons_self)
        rw [e] at hs
        cases hs
        exact ⟨root, anchor, ops', A, I', V.import W I.node I'.node
          (hpl sb (.inr List.mem_cons_self)) q rfl⟩
      have hpl : ev.Plain := fun sb => ⟨hb sb, fun h => hown ⟨sb, h⟩⟩
      obtain ⟨a2, f2, ops', e, I', x⟩ := I.other W A ev hb (hk _ List.mem_cons_self)
      rw [e] at hs
      cases hs
      have hst : Still a.store.mem.db a'.store.mem.db ∧
          (a'.store.mem.db.proofs = a.store.mem.db.proofs ∨
            pruneOldData a.store.mem.db = .ok a'.store.mem.db) := by
        by_cases hr : ev = .restart
        · subst hr
          unfold Actor.step at e
          simp only at e
          split at e
          · cases e
          next s1 h1 => cases e; exact step_still hpl h1
        · exact step_still hpl (Actor.step_other hb hr e).1
      refine ⟨root, anchor, ops', A, I', V.still W I.node I'.node x.states hst.1.hasState
        (fun r y hne hy => ?_)⟩
      rcases hst.2 with hp | hp
      · unfold getSignedBlock at hy ⊢
        rw [hst.1.headers, hst.1.bodies, hp] at hy
        exact hy
      · exact prune_copies I.node hp hne hy

end
end Verif.Node
