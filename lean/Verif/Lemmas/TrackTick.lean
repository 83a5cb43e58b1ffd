import Verif.Lemmas.Track
/-!
# Ticks of a node on a track
-/
namespace Verif.Node
open Verif Verif.Db Verif.Sync Verif.Buffers Verif.Build

section
variable {c : VCtx} {t : Nat} {vals : List Validator} {K : Header → Prop} {root : Root}
  {anchor : State} {f : Nat → Root} {s : Nat} {top : State} {ops : List Db.Op} {σ : Store}

theorem Track.updateSync {E : Env} (R : Track E t vals K root anchor f s top ops σ) (tr : Tracker) :
    ∃ tr', updateSync tr σ s = .ok tr' ∧ tr'.dutiesAllowed = true := by
  unfold Node.updateSync
  rw [R.headSlot]
  refine ⟨_, rfl, ?_⟩
  unfold Tracker.update Tracker.dutiesAllowed lagThreshold
  simp only [Nat.sub_self]
  split
  · simp
  · split <;> simp

theorem Track.ourProposer (W : World c.ctx.E t vals [] (State.fromGenesis c.ctx.E.H t vals) K)
    (R : Track c.ctx.E t vals K root anchor f s top ops σ) (slot : Nat) :
    ∃ σ' ops', ourProposer c.ids σ slot =
        .ok (c.ids.find? (fun v => isProposer v slot vals.length), σ') ∧
      σ'.mem.db = σ.mem.db ∧ SameMem σ σ' ∧ Track c.ctx.E t vals K root anchor f s top ops' σ' := by
  obtain ⟨σ', ops', h1, h3, h4, h5⟩ := R.headState W
  refine ⟨σ', ops', ?_, h3, h4, h5⟩
  unfold Node.ourProposer
  rw [h1]
  simp only [state_vals W R.inv R.topIs]

/-- One interval: the store's own work, then the duty of the actor. -/
theorem Track.tick (W : World c.ctx.E t vals [] (State.fromGenesis c.ctx.E.H t vals) K) {n : VNode}
    (R : Track c.ctx.E t vals K root anchor f s top ops n.actor.store) (hv : 0 < vals.length)
    {now j : Nat} (hj : 1 ≤ j) (hj' : j ≤ 4) (agg : Bool) {i : Interval}
    (hi : Interval.ofCount j = some i)
    (hnow : (now - n.actor.store.genesisTime * 1000) / 800 = 5 * s + j)
    (htime : n.actor.store.mem.db.time + 1 = 5 * s + j) :
    ∃ sync σ1 ops1, sync.dutiesAllowed = true ∧ σ1.mem.db = n.actor.store.mem.db ∧
      SameMem n.actor.store σ1 ∧ Track c.ctx.E t vals K root anchor f s top ops1 σ1 ∧
      n.tick c now agg =
        match duty c.H (σ1.setTime (5 * s + j)) i false with
        | .error e => .error e
        | .ok σ2 =>
          match actorDuty c sync s agg i σ2 with
          | .error e => .error e
          | .ok (σ3, l) => .ok ({ actor := { n.actor with store := σ3 }, sync := sync }, l) := by
  obtain ⟨σ1, ops1, h1, h3, h4, R1⟩ := R.headState W
  obtain ⟨sync, h5, h6⟩ := R1.updateSync n.sync
  refine ⟨sync, σ1, ops1, h6, h3, h4, R1, ?_⟩
  have hms := ofMs_interval hnow hi
  have hs : (now - n.actor.store.genesisTime * 1000) / 4000 = s := by omega
  have e1 : (now - n.actor.store.genesisTime * 1000) / msPerSlot = s := hs
  have e2 : (now - n.actor.store.genesisTime * 1000) / msPerInterval = 5 * s + j := hnow
  have hne : i ≠ .publication := by
    intro h
    subst h
    have : j = 1 ∨ j = 2 ∨ j = 3 ∨ j = 4 := by omega
    rcases this with rfl | rfl | rfl | rfl <;> cases hi
  have ht : onTick c.H σ1 now false = duty c.H (σ1.setTime (5 * s + j)) i false := by
    unfold onTick tickTarget
    simp only [h4.genesis, e2, h3]
    have hgap : ¬ (5 * s + j - n.actor.store.mem.db.time > intervalsPerSlot) := by
      show ¬ (_ > 5)
      omega
    rw [if_neg hgap]
    have h1' : 5 * s + j - σ1.mem.db.time = 1 := by rw [h3]; omega
    rw [h1']
    unfold tickLoop
    have hst : σ1.setTime (σ1.mem.db.time + 1) = σ1.setTime (5 * s + j) := by rw [h3, htime]
    have hic : Interval.ofCount (σ1.setTime (5 * s + j)).mem.db.time = some i := by
      show Interval.ofCount (5 * s + j) = some i
      unfold Interval.ofCount at hi ⊢
      have : (5 * s + j) % intervalsPerSlot = j % intervalsPerSlot := by
        show (5 * s + j) % 5 = j % 5
        omega
      rw [this]
      exact hi
    simp only [hst, hic, Bool.false_and]
    cases duty c.H (σ1.setTime (5 * s + j)) i false with
    | error e => rfl
    | ok x => rfl
  unfold VNode.tick
  simp only [e1, e2]
  rw [if_neg (by omega), hms]
  simp only
  rw [h1]
  simp only
  rw [if_neg (by
    rw [state_vals W R.inv R.topIs]
    simp only [List.isEmpty_iff]
    intro h
    rw [h] at hv
    exact absurd hv (Nat.lt_irrefl _)), h5]
  simp only
  rw [if_neg (fun h => hne h.1)]
  simp only [Option.isSome_none]
  rw [ht]
  cases duty c.H (σ1.setTime (5 * s + j)) i false with
  | error e => rfl
  | ok σ2 =>
    simp only
    cases actorDuty c sync s agg i σ2 with
    | error e => rfl
    | ok x => rfl

/-- The aggregation tick does nothing else. -/
theorem Track.aggTick (W : World c.ctx.E t vals [] (State.fromGenesis c.ctx.E.H t vals) K) {n : VNode}
    (R : Track c.ctx.E t vals K root anchor f s top ops n.actor.store) (hv : 0 < vals.length)
    {now : Nat} (hnow : (now - n.actor.store.genesisTime * 1000) / 800 = 5 * s + 2)
    (htime : n.actor.store.mem.db.time = 5 * s + 1) (agg : Bool) :
    ∃ n' ops', n.tick c now agg = .ok (n', []) ∧ n'.actor.pending = n.actor.pending ∧
      n'.actor.store.mem.db = { n.actor.store.mem.db with time := 5 * s + 2 } ∧
      SameMem n.actor.store n'.actor.store ∧
      Track c.ctx.E t vals K root anchor f s top ops' n'.actor.store := by
  obtain ⟨sync, σ1, ops1, h1, h2, h3, R1, h4⟩ := R.tick W hv (j := 2) (by omega) (by omega) agg
    (i := .aggregation) rfl hnow (by omega)
  refine ⟨⟨{ n.actor with store := σ1.setTime (5 * s + 2) }, sync⟩, _, ?_, rfl, ?_, ?_,
    R1.setTime (5 * s + 2)⟩
  · rw [h4]
    rfl
  · show { σ1.mem.db with time := 5 * s + 2 } = _
    rw [h2]
  · exact ⟨h3.fc, h3.newP, h3.knownP, h3.gossip, h3.genesis⟩

/-- The publication tick does nothing: the block of this slot was made at the end of the last one. -/
theorem Track.pubTick {n : VNode}
    (R : Track c.ctx.E t vals K root anchor f s top ops n.actor.store)
    {now : Nat} (hnow : (now - n.actor.store.genesisTime * 1000) / 800 = 5 * s)
    (htime : n.actor.store.mem.db.time = 5 * s) (agg : Bool) : n.tick c now agg = .ok (n, []) := by
  have e2 : (now - n.actor.store.genesisTime * 1000) / msPerInterval = 5 * s := hnow
  have h1 := R.order
  have h2 := R.pos
  unfold VNode.tick
  simp only [e2]
  rw [if_pos (by omega)]

/-- The tick after the aggregation moves the safe target. -/
theorem Track.safeTick (W : World c.ctx.E t vals [] (State.fromGenesis c.ctx.E.H t vals) K)
    {n : VNode} (R : Track c.ctx.E t vals K root anchor f s top ops n.actor.store)
    (hv : 0 < vals.length)
    {now : Nat} (hnow : (now - n.actor.store.genesisTime * 1000) / 800 = 5 * s + 3)
    (htime : n.actor.store.mem.db.time = 5 * s + 2) {z : Nat}
    (hn : (z = s ∧ (∀ v, v < vals.length → v ∈ n.actor.store.fc.new.keys) ∧
        ∀ e ∈ n.actor.store.fc.new, e.2.head.root = f s) ∨
      (z = top.latestJustified.slot ∧ n.actor.store.fc.new = [])) (agg : Bool) :
    ∃ n' ops', n.tick c now agg = .ok (n', []) ∧ n'.actor.pending = n.actor.pending ∧
      n'.actor.store.mem.db.time = 5 * s + 3 ∧
      n'.actor.store.mem.db.safeTarget = f z ∧ SameMem n.actor.store n'.actor.store ∧
      Track c.ctx.E t vals K root anchor f s top ops' n'.actor.store := by
  obtain ⟨sync, σ1, ops1, h1, h2, h3, R1, h4⟩ := R.tick W hv (j := 3) (by omega) (by omega) agg
    (i := .safeTarget) rfl hnow (by omega)
  have R2 := R1.setTime (5 * s + 3)
  obtain ⟨σ2, ops2, u1, u2, u3, u4, R2⟩ := R2.updateSafeTarget W (x := f z) (by
    have hfc : (σ1.setTime (5 * s + 3)).fc.new = n.actor.store.fc.new := by
      show σ1.fc.new = _
      rw [h3.fc]
    rw [hfc]
    rcases hn with ⟨rfl, k1, k2⟩ | ⟨rfl, k1⟩
    · refine R2.ghost W _ _ (.inr ⟨?_, k2⟩)
      have : List.range vals.length ⊆ n.actor.store.fc.new.keys :=
        fun v hv => k1 v (List.mem_range.1 hv)
      have := (List.subperm_of_subset List.nodup_range this).length_le
      unfold AMap.keys at this
      rw [List.length_range, List.length_map] at this
      omega
    · rw [k1, ← R2.justRoot]
      exact R2.ghostNone W (by omega))
  refine ⟨⟨{ n.actor with store := σ2 }, sync⟩, ops2, ?_, rfl, u3, u4, ?_, R2⟩
  · rw [h4]
    simp only [duty, u1, actorDuty]
  · exact SameMem.trans (b := σ1.setTime (5 * s + 3))
      ⟨h3.fc, h3.newP, h3.knownP, h3.gossip, h3.genesis⟩ u2

end
end Verif.Node
