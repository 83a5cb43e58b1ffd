import Verif.Lemmas.Discard
import Verif.Spec.StoreWitness
/-!
# C40: rejecting a block forgets everything that waits for it
-/
namespace Verif.Node
open Verif Verif.Db Verif.Node.Witness Verif.Witness

/-- **C40.** A block at or below the finalized slot, or too far in the future, is dropped without
touching the store, and exactly the blocks that wait for it, directly or not, leave the pending
bookkeeping. This holds for all contents of the two maps. -/
theorem C40_discard_exact (c : Ctx) (ho : ∀ l, (c.order l).Perm l) (a : Actor) (sb : SignedBlock)
    (h : sb.block.slot ≤ a.store.mem.db.finalized.slot ∨
      sb.block.slot * 5 > a.store.mem.db.time + 1) :
    ∃ a', a.process c sb = .ok ⟨a', [], []⟩ ∧ a'.store = a.store ∧
      (∀ k, Waits a.pending (sb.block.root c.E.H) k → a'.pending.get? k = none) ∧
      (∀ k, ¬ Waits a.pending (sb.block.root c.E.H) k →
        a'.pending.get? k = a.pending.get? k) ∧
      (∀ k x, Waits a.pending (sb.block.root c.E.H) k → Edge a.pending k x →
        a'.parents.get? x = none) ∧
      (∀ x, (∀ k, Waits a.pending (sb.block.root c.E.H) k → ¬ Edge a.pending k x) →
        a'.parents.get? x = a.parents.get? x) := by
  obtain ⟨m', ps', e, R⟩ := discard_removed ho (a.pending.length + 1) (sb.block.root c.E.H)
    a.pending a.parents (Nat.lt_succ_self _)
  have hd : a.discard c (sb.block.root c.E.H) =
      .ok { a with pending := m', parents := ps' } := by
    unfold Actor.discard
    rw [e]
  have hw : ∀ k, Waits a.pending (sb.block.root c.E.H) k → m'.get? k = none := by
    intro k w
    induction w with
    | self => exact R.gone _ (List.mem_singleton.2 rfl)
    | step _ he ih => exact R.closed _ _ ih he
  have hno : ∀ k, ¬ Waits a.pending (sb.block.root c.E.H) k → m'.get? k = none →
      a.pending.get? k = none := by
    intro k hk hk'
    by_cases hn : a.pending.get? k = none
    · exact hn
    · obtain ⟨r, hr, w⟩ := R.only k hn hk'
      rw [List.mem_singleton.1 hr] at w
      exact absurd w hk
  refine ⟨{ a with pending := m', parents := ps' }, ?_, rfl, hw, ?_, ?_, ?_⟩
  · unfold Actor.process
    simp only
    by_cases h1 : sb.block.slot ≤ a.store.mem.db.finalized.slot
    · rw [if_pos h1, hd]
    · rw [if_neg h1, if_pos (by
        have := h.resolve_left h1
        simp only [intervalsPerSlot, gossipDisparity]
        exact this), hd]
  · intro k hk
    rcases R.sub k with h | h
    · rw [h, hno k hk h]
    · exact h
  · intro k x w he
    exact R.par x (.inr ⟨k, hw k w, he⟩)
  · intro x hx
    refine R.parKeep x List.not_mem_nil (fun k hk he => ?_)
    by_cases w : Waits a.pending (sb.block.root c.E.H) k
    · exact hx k w he
    · have := hno k w hk
      obtain ⟨l, e1, -⟩ := he
      rw [this] at e1
      cases e1

/-- Non-vacuity: block 1 (root 2) at slot 1 is stale for a node that finalized slot 1; blocks with
roots 3, 4 wait for it, 5 waits for 4, and 7 waits for 6: only 7 stays. -/
def waitActor : Actor :=
  { store := after forkEvs, pending := [(2, [3, 4]), (4, [5]), (6, [7])]
    parents := [(3, 2), (4, 2), (5, 2), (7, 6)] }

def wCtx : Ctx := { E := wE, order := fun l => l, reagg := fun _ _ => [] }

example : (mkBlock 1 0 []).slot ≤ waitActor.store.mem.db.finalized.slot ∧
    ((waitActor.process wCtx (sgn (mkBlock 1 0 []))).toOption.map
      (fun o => (o.actor.pending, o.actor.parents))) = some ([(6, [7])], [(7, 6)]) :=
  ⟨by decide +kernel, by decide +kernel⟩

end Verif.Node
