import Verif.Lemmas.ActorSteps
import Verif.Props.C34_C35_C61_Checkpoints
/-!
# Every imported block was verified
-/
namespace Verif.Node
open Verif Verif.Db

/-- Every state but the anchor's comes from a block that passed the signature check against the
state of its parent. -/
def Verified (E : Env) (root : Root) (anchor : State) (ops : List Db.Op) : Prop :=
  ∀ r st, stateOf root anchor ops r = some st → r ≠ root →
    ∃ p sb, stateOf root anchor ops sb.block.parentRoot = some p ∧
      importState E.H p sb.block = .ok st ∧ E.verifyBlock p sb = true ∧ sb.block.root E.H = r

theorem checkBlock_verified {E : Env} {s : Store} {p st : State} {sb : SignedBlock}
    (hc : checkBlock E s p sb = .ok st) : E.verifyBlock p sb = true := by
  unfold checkBlock at hc
  split at hc
  · cases hc
  split at hc
  · cases hc
  split at hc
  · cases hc
  split at hc
  · cases hc
  split at hc
  · cases hc
  next h => exact not_not.1 h

variable {E : Env} {t : Nat} {vals : List Validator} {bs : List Block} {a0 : State}
  {body : Option (List AggAtt)} {K : Header → Prop} {root : Root} {anchor : State}
  {ops ops' : List Db.Op} {s s' : Store}

theorem back_state (W : World E t vals bs a0 K) (I : NInv E t vals a0 body K root anchor NoX ops s)
    (I' : NInv E t vals a0 body K root anchor NoX ops' s')
    (hx : ∀ r st, stateOf root anchor ops r = some st → stateOf root anchor ops' r = some st)
    {r : Root} (hh : hasState s'.mem.db r = hasState s.mem.db r) :
    stateOf root anchor ops' r = stateOf root anchor ops r := by
  rw [hasState_iff (I.inv W).repr, hasState_iff (I'.inv W).repr] at hh
  cases h : stateOf root anchor ops r with
  | none =>
    rw [h] at hh
    cases h' : stateOf root anchor ops' r with
    | none => rfl
    | some x => rw [h'] at hh; cases hh
  | some st => exact hx r st h

theorem Verified.still (V : Verified E root anchor ops) (W : World E t vals bs a0 K)
    (I : NInv E t vals a0 body K root anchor NoX ops s)
    (I' : NInv E t vals a0 body K root anchor NoX ops' s')
    (hx : ∀ r st, stateOf root anchor ops r = some st → stateOf root anchor ops' r = some st)
    (hh : ∀ r, hasState s'.mem.db r = hasState s.mem.db r) : Verified E root anchor ops' := by
  intro r st hr hne
  rw [back_state W I I' hx (hh r)] at hr
  obtain ⟨p, sb, h1, h2⟩ := V r st hr hne
  exact ⟨p, sb, hx _ _ h1, h2⟩

theorem Verified.import (V : Verified E root anchor ops) (W : World E t vals bs a0 K)
    (I : NInv E t vals a0 body K root anchor NoX ops s)
    (I' : NInv E t vals a0 body K root anchor NoX ops' s') {sb : SignedBlock} {s1 : Store}
    {r : Except Err Unit} (x : Imported E root anchor ops s sb ops' s1 r)
    (hm : ∀ k, hasState s'.mem.db k = hasState s1.mem.db k) : Verified E root anchor ops' := by
  by_cases hh : hasState s.mem.db (sb.block.root E.H) = true
  · exact V.still W I I' x.ext.states (fun k => by rw [hm, x.had hh])
  · have hh : hasState s.mem.db (sb.block.root E.H) = false := by
      cases h : hasState s.mem.db (sb.block.root E.H) with
      | true => exact absurd h hh
      | false => rfl
    cases hr : r with
    | error e => exact V.still W I I' x.ext.states (fun k => by rw [hm, x.err e hr])
    | ok u =>
      obtain ⟨p, st, h1, h2, h3⟩ := x.new hr hh
      intro k st' hk hne
      by_cases hks : k = sb.block.root E.H
      · subst hks
        rw [h3] at hk
        cases hk
        exact ⟨p, sb, x.ext.states _ _ h1, checkBlock_import h2, checkBlock_verified h2, rfl⟩
      · rw [back_state W I I' x.ext.states ((hm k).trans (x.others k hks))] at hk
        obtain ⟨p', sb', q1, q2⟩ := V k st' hk hne
        exact ⟨p', sb', x.ext.states _ _ q1, q2⟩

theorem kept_verified {c : Ctx} {rank : Root → Nat} (W : World c.E t vals bs a0 K) :
    Kept c t vals a0 body K rank root anchor (fun ops _ _ => Verified c.E root anchor ops) := by
  intro ops a sb q ops' o I I' hk x hready hrq _ p V
  cases p with
  | reject why ops_eq store push rem fetch => rw [ops_eq]; exact V
  | pend fin noState states db =>
    intro r st hr hne
    rw [states] at hr
    obtain ⟨p, sb, h1, h2⟩ := V r st hr hne
    exact ⟨p, sb, by rw [states]; exact h1, h2⟩
  | fail hasParent imp actor push fetch =>
    exact V.import W I.node I'.node imp (fun k => by rw [actor])
  | done hasParent imp mem => exact V.import W I.node I'.node imp (fun k => by rw [mem])

/-- Every reachable actor holds only verified blocks. -/
theorem areach_verified {c : Ctx} {rank : Root → Nat} {a : Actor} (ho : ∀ l, (c.order l).Perm l)
    (W : World c.E t vals bs a0 K) (hR : Ranks c.E.H K rank) {evs : List Event}
    (h : AReach c a0 body evs a) (hk : ∀ ev ∈ evs, EventK c.E.H K ev) :
    ∃ root anchor ops, AnchorOk c.E.H (State.fromGenesis c.E.H t vals) K root anchor ∧
      AInv c.E t vals a0 body K rank root anchor ops a ∧ Verified c.E root anchor ops := by
  induction h with
  | init hi =>
    obtain ⟨root, anchor, A, I⟩ := init_ainv W rank hi
    refine ⟨root, anchor, [], A, I, fun r st hr hne => ?_⟩
    unfold stateOf at hr
    rw [if_neg hne] at hr
    cases hr
  | @step evs a ev a' f hr hs ih =>
    obtain ⟨root, anchor, ops, A, I, V⟩ := ih (fun ev he => hk ev (List.mem_cons_of_mem _ he))
    by_cases hb : ∃ sb, ev = .block sb
    · obtain ⟨sb, rfl⟩ := hb
      rcases I.onBlock ho W A hR (kept_verified W) sb (hk _ List.mem_cons_self) V with
        ⟨h1, -⟩ | ⟨a1, a2, f2, ops1, ops', db, e, I1, V1, hp, ha, I', x1, x2⟩
      · have hs : a.onBlock c sb = .ok (a', f) := hs
        rw [h1] at hs; cases hs
      · have hs : a.onBlock c sb = .ok (a', f) := hs
        rw [e] at hs
        cases hs
        refine ⟨root, anchor, ops', A, I', V1.still W I1.node I'.node x2.states fun r => ?_⟩
        rw [ha]
        have hs : step c.E a1.store .prune =
            .ok { a1.store with mem := { a1.store.mem with db := db } } := by
          unfold step; rw [hp]
        exact (step_still (by intro sb; constructor <;> (intro h; cases h)) hs).1.hasState r
    · have hb : ∀ sb, ev ≠ .block sb := fun sb h => hb ⟨sb, h⟩
      by_cases hown : ∃ sb, ev = .own sb
      · obtain ⟨sb, rfl⟩ := hown
        obtain ⟨s', ops', r, -, e, I', q⟩ := I.own W A sb (hk _ List.mem_cons_self)
        rw [e] at hs
        cases hs
        exact ⟨root, anchor, ops', A, I', V.import W I.node I'.node q (fun _ => rfl)⟩
      have hpl : ev.Plain := fun sb => ⟨hb sb, fun h => hown ⟨sb, h⟩⟩
      obtain ⟨a2, f2, ops', e, I', x⟩ := I.other W A ev hb (hk _ List.mem_cons_self)
      rw [e] at hs
      cases hs
      refine ⟨root, anchor, ops', A, I', V.still W I.node I'.node x.states fun r => ?_⟩
      by_cases hr : ev = .restart
      · subst hr
        unfold Actor.step at e
        simp only at e
        split at e
        · cases e
        next s1 h1 => cases e; exact (step_still hpl h1).1.hasState r
      · exact (step_still hpl (Actor.step_other hb hr e).1).1.hasState r

/-- What the node started from. -/
theorem NInv.started (I : NInv E t vals a0 body K root anchor NoX ops s) :
    ∃ m, initStore E.H a0 body = .ok m ∧ m.db.head = root ∧
      (a0.latestBlockHeader.stateRoot = 0 ∨ a0.latestBlockHeader.stateRoot = E.H.state (zeroed a0)) ∧
      anchor = { a0 with
        latestBlockHeader := { a0.latestBlockHeader with stateRoot := E.H.state (zeroed a0) } } ∧
      root = E.H.header anchor.latestBlockHeader := by
  have hi : ∃ m, initStore E.H a0 body = .ok m ∧ m.db.states = [(root, anchor)] := by
    have := I.run
    clear I
    generalize s.mem = m at this
    induction this with
    | init h1 h2 => exact ⟨_, h1, h2⟩
    | step _ _ _ ih => exact ih
  obtain ⟨m, h1, h2⟩ := hi
  obtain ⟨root', anchor', h1', h2', h3, h4, h5⟩ := init_anchor h1
  rw [h2] at h1'
  cases h1'
  exact ⟨m, h1, by rw [h5], h2', h3, h4⟩

/-- Blocks on the anchor import as on the state the node was given. -/
theorem anchor_import (W : World E t vals bs a0 K)
    (I : NInv E t vals a0 body K root anchor NoX ops s) (b : Block) :
    importState E.H anchor b = importState E.H a0 b := by
  obtain ⟨m, -, -, hz, h3, -⟩ := I.started
  rcases hz with hz | hz
  · have hzz : zeroed a0 = a0 := by unfold zeroed; rw [← hz]
    rw [hzz] at h3
    rw [h3, import_filled (W.stateNZ _) hz]
  · rw [h3, ← hz]

/-- The blocks between the anchor and an imported state, all verified. -/
theorem verified_chain (W : World E t vals bs a0 K)
    (I : NInv E t vals a0 body K root anchor NoX ops s) (V : Verified E root anchor ops) :
    ∀ (n : Nat) (r : Root) (st : State), st.slot ≤ n → stateOf root anchor ops r = some st →
      r ≠ root → ∃ sbs : List SignedBlock, sbs ≠ [] ∧
        Chain E.H (State.fromGenesis E.H t vals) (sbs.map (·.block) ++ bs) st ∧
        (∃ sb, sbs.head? = some sb ∧ sb.block.root E.H = r) ∧
        ∀ sb ∈ sbs, ∃ p, p.validators = vals ∧ E.verifyBlock p sb = true ∧
          ∃ st', importState E.H p sb.block = .ok st' := by
  intro n
  induction n with
  | zero =>
    intro r st hn hr hne
    obtain ⟨p, sb, h1, h2, h3, h4⟩ := V r st hr hne
    have f := import_frame h2
    have := f.slotLt
    have := f.slot
    omega
  | succ n ih =>
    intro r st hn hr hne
    obtain ⟨p, sb, h1, h2, h3, h4⟩ := V r st hr hne
    have f := import_frame h2
    have := f.slotLt
    have := f.slot
    by_cases hp : sb.block.parentRoot = root
    · rw [hp, I.tree.anc] at h1
      cases h1
      have h2' := h2
      rw [anchor_import W I] at h2'
      have hc := Chain.cons W.chain h2'
      refine ⟨[sb], by simp, hc, ⟨sb, rfl, h4⟩, fun x hx => ?_⟩
      rw [List.mem_singleton] at hx
      subst hx
      refine ⟨anchor, ?_, h3, st, h2⟩
      rw [← f.vals, chain_validators hc]
    · obtain ⟨sbs, -, hc, -, hall⟩ := ih _ p (by omega) h1 hp
      have hv := chain_validators hc
      refine ⟨sb :: sbs, by simp, .cons hc h2, ⟨sb, rfl, h4⟩, fun x hx => ?_⟩
      rcases List.mem_cons.1 hx with rfl | hx
      · exact ⟨p, hv, h3, st, h2⟩
      · exact hall x hx

end Verif.Node
