import Verif.Spec.DbWitness
/-!
# C27: the state store
-/
namespace Verif.Db
open Verif

/-- **C27.** After any run of storage calls (block and state insertions, reads, head updates,
pruning, restarts), reading a root's state gives exactly the state last inserted for it, or
nothing if none was. No panic, and the diff walk ends. -/
theorem C27_read_back {H : Hash} {a0 : State} {body : Option (List AggAtt)} {root : Root}
    {anchor : State} {ops : List Op} {m : Mem} (h : Run H a0 body root anchor ops m)
    (hc : CollisionFree H anchor ops) (r : Root) :
    ∃ m', getState m r = .ok (stateOf root anchor ops r, m') := by
  obtain ⟨c, e, -⟩ := getState_repr (run_inv h hc).repr r
  exact ⟨_, e⟩

/-- **C27.** `has_state` answers exactly whether a state was inserted. -/
theorem C27_has_state {H : Hash} {a0 : State} {body : Option (List AggAtt)} {root : Root}
    {anchor : State} {ops : List Op} {m : Mem} (h : Run H a0 body root anchor ops m)
    (hc : CollisionFree H anchor ops) (r : Root) :
    hasState m.db r = (stateOf root anchor ops r).isSome := hasState_iff (run_inv h hc).repr r

/-- **C27.** An insertion that follows the rules never panics. -/
theorem C27_insert_succeeds {H : Hash} {a0 : State} {body : Option (List AggAtt)} {root : Root}
    {anchor : State} {ops : List Op} {m : Mem} (h : Run H a0 body root anchor ops m)
    (hc : CollisionFree H anchor ops) {r : Root} {st : State}
    (ha : Allowed H root anchor ops m (.insertState r st)) :
    ∃ m', step H m (.insertState r st) = .ok m' := by
  obtain ⟨h1, h2, ⟨p, h3, h4⟩, h5⟩ := ha
  have J := run_inv h hc
  obtain ⟨m', e, -⟩ := insertState_repr J.repr h1 (by rw [← h1]; exact J.stored _ h2) h3 h4 h5
  exact ⟨m', e⟩

/-- **C58.** Reconstruction never replays `1024` diffs or more: from any stored state, the walk
reaches a snapshot within `slot % 1024` steps. -/
theorem C58_walk_bounded {H : Hash} {a0 : State} {body : Option (List AggAtt)} {root : Root}
    {anchor : State} {ops : List Op} {m : Mem} (h : Run H a0 body root anchor ops m)
    (hc : CollisionFree H anchor ops) {r : Root} {st : State}
    (hst : stateOf root anchor ops r = some st) :
    ∃ snap ds, walkDiffs m.db (st.slot % 1024 + 1) r [] = .ok (some (snap, ds)) ∧
      ds.length < 1024 := by
  obtain ⟨snap, ds, e, hl⟩ := walk_short (run_inv h hc).repr (st.slot % 1024) r st [] hst
    (Nat.le_refl _)
  refine ⟨snap, ds, e, ?_⟩
  have := Nat.mod_lt st.slot (show 0 < 1024 by decide)
  simp only [List.length_nil] at hl
  omega

/-- Non-vacuity: two blocks, a restart (empty cache), and block 2's state comes back through two
diffs on the genesis snapshot. -/
example : Run Verif.Witness.wH Verif.Witness.wG (some []) 1 Witness.anchorS Witness.ops
      Witness.m7 ∧
    CollisionFree Verif.Witness.wH Witness.anchorS Witness.ops ∧
    Witness.m7.cache = [] ∧ Witness.m7.db.states.get? 3 = none ∧
    (∃ m', getState Witness.m7 3 = .ok (some Witness.st2, m')) ∧
    (∃ m', getState Witness.m7 99 = .ok (none, m')) := by
  refine ⟨Witness.run7, Witness.cf7, by decide +kernel, by decide +kernel, ?_, ?_⟩
  · exact C27_read_back Witness.run7 Witness.cf7 3
  · exact C27_read_back Witness.run7 Witness.cf7 99

/-- Non-vacuity of the bound. -/
example : stateOf 1 Witness.anchorS Witness.ops 3 = some Witness.st2 := by decide +kernel

end Verif.Db
