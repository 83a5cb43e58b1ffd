import Verif.Lemmas.Served
/-!
# Copies of recent blocks are kept
-/
namespace Verif.Node
open Verif Verif.Db

/-- Every imported block but the anchor has a full copy, unless some imported block lies more than the pruning
range above it. -/
def Retains (E : Env) (root : Root) (anchor : State) (ops : List Db.Op) (db : Db) : Prop :=
  ∀ r st, stateOf root anchor ops r = some st → r ≠ root →
    (∀ r' st', stateOf root anchor ops r' = some st' →
      st'.latestBlockHeader.slot ≤ st.latestBlockHeader.slot + proofPruningRange) →
    ∃ sb, getSignedBlock E.H db r = some sb

section
variable {c : Ctx} {t : Nat} {vals : List Validator} {bs : List Block} {a0 : State}
  {body : Option (List AggAtt)} {K : Header → Prop} {rank : Root → Nat} {root : Root}
  {anchor : State} {ops ops' : List Db.Op} {a a' : Actor} {E : Env} {s s' : Store}

theorem Retains.still (V : Retains E root anchor ops s.mem.db) (W : World E t vals bs a0 K)
    (I : NInv E t vals a0 body K root anchor NoX ops s)
    (I' : NInv E t vals a0 body K root anchor NoX ops' s')
    (hx : ∀ r st, stateOf root anchor ops r = some st → stateOf root anchor ops' r = some st)
    (hh : ∀ r, hasState s'.mem.db r = hasState s.mem.db r)
    (hg : ∀ r st sb, stateOf root anchor ops r = some st → r ≠ root →
      (∀ r' st', stateOf root anchor ops r' = some st' →
        st'.latestBlockHeader.slot ≤ st.latestBlockHeader.slot + proofPruningRange) →
      getSignedBlock E.H s.mem.db r = some sb → getSignedBlock E.H s'.mem.db r = some sb) :
    Retains E root anchor ops' s'.mem.db := by
  intro r st hr hne hw
  rw [back_state W I I' hx (hh r)] at hr
  have hw' : ∀ r' st', stateOf root anchor ops r' = some st' →
      st'.latestBlockHeader.slot ≤ st.latestBlockHeader.slot + proofPruningRange :=
    fun r' st' h => hw r' st' (hx _ _ h)
  obtain ⟨sb, h⟩ := V r st hr hne hw'
  exact ⟨sb, hg r st sb hr hne hw' h⟩

theorem Retains.import (V : Retains E root anchor ops s.mem.db) (W : World E t vals bs a0 K)
    (I : NInv E t vals a0 body K root anchor NoX ops s)
    (I' : NInv E t vals a0 body K root anchor NoX ops' s') {sb : SignedBlock} {s1 : Store}
    {r : Except Err Unit} (hp : Plump E.H sb) (x : Imported E root anchor ops s sb ops' s1 r)
    (hm : s'.mem.db = s1.mem.db) : Retains E root anchor ops' s'.mem.db := by
  by_cases hh : hasState s.mem.db (sb.block.root E.H) = true
  · exact V.still W I I' x.ext.states (fun k => by rw [hm, x.had hh])
      (fun k _ y _ _ _ h => by rw [hm, x.had hh]; exact h)
  · have hh : hasState s.mem.db (sb.block.root E.H) = false := by
      cases h : hasState s.mem.db (sb.block.root E.H) with
      | true => exact absurd h hh
      | false => rfl
    cases hr : r with
    | error e =>
      exact V.still W I I' x.ext.states (fun k => by rw [hm, x.err e hr])
        (fun k _ y _ _ _ h => by rw [hm, x.err e hr]; exact h)
    | ok u =>
      intro k st' hk hne hw
      by_cases hks : k = sb.block.root E.H
      · subst hks
        exact ⟨sb, by rw [hm]; exact x.self hr hh hp⟩
      · rw [back_state W I I' x.ext.states (by rw [hm]; exact x.others k hks)] at hk
        obtain ⟨y, hy⟩ := V k st' hk hne (fun r' st' h => hw r' st' (x.ext.states _ _ h))
        exact ⟨y, by rw [hm, x.blocks k hks]; exact hy⟩

/-- What is carried through the queue. -/
def KeepQueue (c : Ctx) (root : Root) (anchor : State) (ops : List Db.Op) (a : Actor)
    (q : List SignedBlock) : Prop :=
  Retains c.E root anchor ops a.store.mem.db ∧ GoodQueue c root anchor ops a q

theorem kept_keepQueue (ho : ∀ l, (c.order l).Perm l) (W : World c.E t vals bs a0 K) :
    Kept c t vals a0 body K rank root anchor (KeepQueue c root anchor) := by
  intro ops a sb q ops' o I I' hk x hready hrq hproc p V
  refine ⟨?_, kept_goodQueue ho W ops a sb q ops' o I I' hk x hready hrq hproc p V.2⟩
  have hsb := V.2.2 sb List.mem_cons_self
  cases p with
  | reject why ops_eq store push rem fetch => rw [ops_eq, store]; exact V.1
  | pend fin noState states db =>
    intro r st hr hne hw
    have hr' := hr
    simp only [states] at hr hw
    by_cases hrs : r = sb.block.root c.E.H
    · subst hrs
      obtain ⟨p, p1, -⟩ := I.node.tree.parentOf _ _ hr hne
      obtain ⟨k1, k2⟩ := I.node.hdrK W _ _ (I.node.tree.own _ _ hr).2
      have he : st.latestBlockHeader = sb.block.header c.E.H := W.collisionFree _ _ k1 hk k2
      rw [he] at p1
      have := (I.node.hasState_iff W sb.block.parentRoot).2 ⟨p, p1⟩
      rw [this] at noState
      cases noState
    · obtain ⟨y, hy⟩ := V.1 r st hr hne hw
      exact ⟨y, by rw [db, getSigned_write_other hrs]; exact hy⟩
  | fail hasParent imp actor push fetch =>
    exact V.1.import W I.node I'.node hsb imp (by rw [actor])
  | done hasParent imp mem => exact V.1.import W I.node I'.node hsb imp (by rw [mem])

/-- Pruning keeps copies within the range. -/
theorem prune_retains (W : World E t vals bs a0 K)
    (I : NInv E t vals a0 body K root anchor NoX ops s) {db : Db}
    (h : pruneOldData s.mem.db = .ok db) {r : Root} {st : State}
    (hr : stateOf root anchor ops r = some st)
    (hw : ∀ r' st', stateOf root anchor ops r' = some st' →
        st'.latestBlockHeader.slot ≤ st.latestBlockHeader.slot + proofPruningRange)
    {sb : SignedBlock} (hg : getSignedBlock E.H s.mem.db r = some sb) :
    getSignedBlock E.H db r = some sb := by
  obtain ⟨h1, -, -, h2, -⟩ := pruneOldData_frame h
  obtain ⟨-, hp⟩ := pruneOldData_proofs h (run_blocks I.run).nodup
  have hhd := (I.tree.own _ _ hr).2
  have hno : ¬ ∃ c, proofCutoff s.mem.db = some c ∧ st.latestBlockHeader.slot < c := by
    rintro ⟨c, hc, hlt⟩
    unfold proofCutoff at hc
    split at hc
    · cases hc
    next tip htip =>
      unfold effective at hc
      split at hc
      · cases hc
      · have hc := Option.some.inj hc
        obtain ⟨hst, hs⟩ := I.cp.head
        have ht := (I.tree.own _ _ hs).2
        rw [ht] at htip
        have htip := Option.some.inj htip
        have := hw _ _ hs
        rw [htip] at this
        omega
  unfold getSignedBlock at hg ⊢
  simp only [h1, h2, hp]
  rw [hhd] at hg ⊢
  simp only [if_neg hno] at hg ⊢
  exact hg

/-- Every reachable actor keeps its copies. -/
theorem areach_retains (ho : ∀ l, (c.order l).Perm l)
    (W : World c.E t vals bs a0 K) (hR : Ranks c.E.H K rank) {evs : List Event}
    (h : AReach c a0 body evs a) (hk : ∀ ev ∈ evs, EventK c.E.H K ev)
    (hpl : ∀ sb, .block sb ∈ evs ∨ .own sb ∈ evs → Plump c.E.H sb) :
    ∃ root anchor ops, AnchorOk c.E.H (State.fromGenesis c.E.H t vals) K root anchor ∧
      AInv c.E t vals a0 body K rank root anchor ops a ∧
      CopiesGood c.E root anchor ops a.store.mem.db ∧
      Retains c.E root anchor ops a.store.mem.db := by
  induction h with
  | init hi =>
    obtain ⟨root, anchor, A, I⟩ := init_ainv W rank hi
    refine ⟨root, anchor, [], A, I, fun r st sb hr hne => ?_, fun r st hr hne => ?_⟩ <;>
    · unfold stateOf at hr
      rw [if_neg hne] at hr
      cases hr
  | @step evs a ev a' f hr hs ih =>
    obtain ⟨root, anchor, ops, A, I, V, U⟩ := ih (fun ev he => hk ev (List.mem_cons_of_mem _ he))
      (fun sb he => hpl sb (he.imp (List.mem_cons_of_mem _) (List.mem_cons_of_mem _)))
    by_cases hb : ∃ sb, ev = .block sb
    · obtain ⟨sb, rfl⟩ := hb
      rcases I.onBlock ho W A hR (kept_keepQueue ho W) sb (hk _ List.mem_cons_self) ⟨U, V, fun x hx => by
          rw [List.mem_singleton] at hx; subst hx; exact hpl x (.inl List.mem_cons_self)⟩ with
        ⟨h1, -⟩ | ⟨a1, a2, f2, ops1, ops', db, e, I1, V1, hp, ha, I', x1, x2⟩
      · have hs : a.onBlock c sb = .ok (a', f) := hs
        rw [h1] at hs; cases hs
      · have hs : a.onBlock c sb = .ok (a', f) := hs
        rw [e] at hs
        cases hs
        have hst : ∀ r, hasState a'.store.mem.db r = hasState a1.store.mem.db r := by
          intro r
          rw [ha]
          have hs : step c.E a1.store .prune =
              .ok { a1.store with mem := { a1.store.mem with db := db } } := by
            unfold step; rw [hp]
          exact (step_still (by intro sb; constructor <;> (intro h; cases h)) hs).1.hasState r
        refine ⟨root, anchor, ops', A, I', V1.2.1.still W I1.node I'.node x2.states hst
          (fun r y hne hy => ?_), V1.1.still W I1.node I'.node x2.states hst
          (fun r st y hr hne hw hy => ?_)⟩
        · rw [ha] at hy
          exact prune_copies I1.node hp hne hy
        · rw [ha]
          exact prune_retains W I1.node hp hr hw hy
    · have hb : ∀ sb, ev ≠ .block sb := fun sb h => hb ⟨sb, h⟩
      by_cases hown : ∃ sb, ev = .own sb
      · obtain ⟨sb, rfl⟩ := hown
        obtain ⟨s', ops', r, -, e, I', q⟩ := I.own W A sb (hk _ List.mem_cons_self)
        rw [e] at hs
        cases hs
        have := hpl sb (.inr List.mem_cons_self)
        exact ⟨root, anchor, ops', A, I', V.import W I.node I'.node this q rfl,
          U.import W I.node I'.node this q rfl⟩
      have hpl : ev.Plain := fun sb => ⟨hb sb, fun h => hown ⟨sb, h⟩⟩
      obtain ⟨a2, f2, ops', e, I', x⟩ := I.other W A ev hb (hk _ List.mem_cons_self)
      rw [e] at hs
      cases hs
      have hst : Still a.store.mem.db a'.store.mem.db ∧
          (a'.store.mem.db.proofs = a.store.mem.db.proofs ∨
            pruneOldData a.store.mem.db = .ok a'.store.mem.db) := by
        by_cases hr : ev = .restart
        · subst hr
          unfold Actor.step at e
          simp only at e
          split at e
          · cases e
          next s1 h1 => cases e; exact step_still hpl h1
        · exact step_still hpl (Actor.step_other hb hr e).1
      refine ⟨root, anchor, ops', A, I', V.still W I.node I'.node x.states hst.1.hasState
        (fun r y hne hy => ?_), U.still W I.node I'.node x.states hst.1.hasState
        (fun r st y hr hne hw hy => ?_)⟩ <;> rcases hst.2 with hp | hp
      · unfold getSignedBlock at hy ⊢
        rw [hst.1.headers, hst.1.bodies, hp] at hy
        exact hy
      · exact prune_copies I.node hp hne hy
      · unfold getSignedBlock at hy ⊢
        rw [hst.1.headers, hst.1.bodies, hp]
        exact hy
      · exact prune_retains W I.node hp hr hw hy

end
end Verif.Node
