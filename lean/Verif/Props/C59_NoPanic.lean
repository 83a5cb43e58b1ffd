import Verif.Lemmas.StoreSteps
import Verif.Spec.StoreWitness
/-!
# C59: no event can crash the store
-/
namespace Verif.Node
open Verif Verif.Db

theorem eventK_known {H : Hash} {g : State} {bs : List Block} {evs : List Event} :
    ∀ ev ∈ evs, EventK H (Known H g bs evs) ev := by
  intro ev h
  cases ev with
  | block sb => exact .inr (.inr ⟨sb, .inl h, rfl⟩)
  | own sb => exact .inr (.inr ⟨sb, .inr h, rfl⟩)
  | _ => trivial

theorem Known.tail {H : Hash} {g : State} {bs : List Block} {ev : Event} {evs : List Event}
    {h : Header} (hk : Known H g bs evs h) : Known H g bs (ev :: evs) h := by
  rcases hk with h | h | ⟨sb, h1, h2⟩
  · exact .inl h
  · exact .inr (.inl h)
  · exact .inr (.inr ⟨sb, h1.imp (List.mem_cons_of_mem _) (List.mem_cons_of_mem _), h2⟩)

theorem World.tail {E : Env} {t : Nat} {vals : List Validator} {bs : List Block} {a0 : State}
    {ev : Event} {evs : List Event}
    (W : World E t vals bs a0 (Known E.H (State.fromGenesis E.H t vals) bs (ev :: evs))) :
    World E t vals bs a0 (Known E.H (State.fromGenesis E.H t vals) bs evs) :=
  { chain := W.chain, headerNZ := W.headerNZ, stateNZ := W.stateNZ
    genesis := .inl rfl, old := fun b hb => .inr (.inl ⟨b, hb, rfl⟩)
    collisionFree := fun a b ha hb => W.collisionFree a b ha.tail hb.tail
    acyclic := by
      obtain ⟨rank, h⟩ := W.acyclic
      exact ⟨rank, fun h' hk => h h' hk.tail⟩ }

/-- **C59.** A node can be started from the post-state of any chain of valid blocks (or genesis). -/
theorem C59_init_succeeds {E : Env} {t : Nat} {vals : List Validator} {bs : List Block}
    {a0 : State}
    (hc : Chain E.H (State.fromGenesis E.H t vals) bs a0) (body : Option (List AggAtt)) :
    ∃ s, init E a0 body = .ok s := by
  have key : a0.latestBlockHeader.stateRoot = 0 ∨
      a0.latestBlockHeader.stateRoot = E.H.state (zeroed a0) := by
    cases hc with
    | nil => exact .inl rfl
    | cons hc0 hi0 =>
      right
      have f := import_frame hi0
      exact f.stateRoot.trans f.ownRoot
  have : ∃ m, initStore E.H a0 body = .ok m := by
    unfold initStore
    simp only
    split
    next h => exact absurd key h
    · exact ⟨_, rfl⟩
  obtain ⟨m, hm⟩ := this
  unfold init
  rw [hm]
  exact ⟨_, rfl⟩

/-- **C59.** No sequence of events can make the store panic: from any anchor that is the post-state
of a valid chain, every event sequence (blocks valid or not, in any order; any votes, aggregates
and ticks; promotions, pruning and restarts at any point) runs to the end. -/
theorem C59_no_panic {E : Env} {t : Nat} {vals : List Validator} {bs : List Block} {a0 : State}
    (body : Option (List AggAtt)) (evs : List Event)
    (W : World E t vals bs a0 (Known E.H (State.fromGenesis E.H t vals) bs evs)) :
    ∃ s, Reach E a0 body evs s := by
  induction evs with
  | nil =>
    obtain ⟨s, hs⟩ := C59_init_succeeds W.chain body
    exact ⟨s, .init hs⟩
  | cons ev evs ih =>
    obtain ⟨s, hs⟩ := ih W.tail
    obtain ⟨root, anchor, ops, A, I, -⟩ := reach_ninv W hs
      (fun e he => eventK_known e (List.mem_cons_of_mem _ he))
    obtain ⟨s', ops', e, -⟩ := I.step W A ev (eventK_known ev List.mem_cons_self)
    exact ⟨s', hs.step e⟩

/-- Non-vacuity: the hypotheses hold for a run with a fork, and the run imports all five blocks. -/
example : World Witness.wE 0 Verif.Witness.wVals [] Verif.Witness.wG
      (Known Verif.Witness.wH Verif.Witness.wG [] (Witness.forkEv :: Witness.forkEvs)) ∧
    (Witness.after (Witness.forkEv :: Witness.forkEvs)).mem.db.diffs.length = 5 :=
  ⟨Witness.world_of_list (by decide +kernel) (by decide +kernel), by decide +kernel⟩

end Verif.Node
