import Verif.Lemmas.SoloVote
/-!
# The first two ticks of a slot
-/
namespace Verif.Node
open Verif Verif.Db Verif.Sync Verif.Buffers Verif.Build

section
variable {c : VCtx} {t : Nat} {vals : List Validator} {K : Header → Prop} {root : Root}
  {anchor : State} {f : Nat → Root} {s : Nat} {top : State} {ops : List Db.Op}

/-- The publication tick does nothing: the block of this slot was made at the end of the last one. -/
theorem Row.pubTick (W : World c.ctx.E t vals [] (State.fromGenesis c.ctx.E.H t vals) K) {n : VNode}
    (R : Row c.ctx.E t vals K root anchor f s top ops n.actor.store) (hv : 0 < vals.length)
    {now : Nat} (hnow : (now - n.actor.store.genesisTime * 1000) / 800 = 5 * s)
    (htime : n.actor.store.mem.db.time = 5 * s) (agg : Bool) :
    ∃ n' ops', n.tick c now agg = .ok (n', []) ∧ n'.actor.pending = n.actor.pending ∧
      n'.actor.store.mem.db = n.actor.store.mem.db ∧ SameMem n.actor.store n'.actor.store ∧
      Row c.ctx.E t vals K root anchor f s top ops' n'.actor.store := by
  have e2 : (now - n.actor.store.genesisTime * 1000) / msPerInterval = 5 * s := hnow
  rcases Nat.eq_zero_or_pos s with h0 | h0
  swap
  · refine ⟨n, ops, ?_, rfl, rfl, .refl _, R⟩
    unfold VNode.tick
    simp only [e2]
    rw [if_pos (by omega)]
  · subst h0
    obtain ⟨st, σ1, ops1, h1, h2, h3, h4, R1⟩ := R.headState W
    obtain ⟨sync, h5, h6⟩ := R1.updateSync n.sync
    refine ⟨⟨{ n.actor with store := σ1 }, sync⟩, ops1, ?_, rfl, h3, h4, R1⟩
    have e1 : (now - n.actor.store.genesisTime * 1000) / msPerSlot = 0 := by
      show _ / 4000 = 0
      omega
    have hms : Interval.ofMs (now - n.actor.store.genesisTime * 1000) = some .publication := by
      unfold Interval.ofMs
      rw [e2]
      rfl
    have ht : onTick c.H σ1 now false = .ok σ1 := by
      unfold onTick tickTarget
      simp only [h4.genesis, e2]
      rw [if_neg (by show ¬ (_ > 5); omega)]
      rw [show 5 * 0 - σ1.mem.db.time = 0 by omega]
      rfl
    unfold VNode.tick
    simp only [e1, e2]
    rw [if_neg (by omega), hms]
    simp only
    rw [h1]
    simp only
    rw [if_neg (by
      rw [state_vals W R.inv h2]
      simp only [List.isEmpty_iff]
      intro h
      rw [h] at hv
      exact absurd hv (Nat.lt_irrefl _)), h5]
    simp only
    rw [if_neg (fun h => absurd h.2 (Nat.lt_irrefl _))]
    simp only [Option.isSome_none]
    rw [ht]
    rfl

/-- The attestation tick: the node's validators vote for the line. -/
theorem Row.voteTick (Q : Able c vals)
    (W : World c.ctx.E t vals [] (State.fromGenesis c.ctx.E.H t vals) K) {n : VNode}
    (R : Row c.ctx.E t vals K root anchor f s top ops n.actor.store) (hv : 0 < vals.length)
    (hvl : vals.length ≤ n.actor.store.gossip.capacity) (hs : s < 2 ^ 32)
    {now : Nat} (hnow : (now - n.actor.store.genesisTime * 1000) / 800 = 5 * s + 1)
    (htime : n.actor.store.mem.db.time = 5 * s)
    (hsafe : n.actor.store.mem.db.safeTarget = f (s - 1))
    (hgossip : n.actor.store.gossip.data = []) (agg : Bool) :
    ∃ n' ops', n.tick c now agg =
        .ok (n', c.ids.map (fun v => .vote v (lineVote f s) (c.sign v (lineVote f s)))) ∧
      n'.actor.pending = n.actor.pending ∧
      n'.actor.store.mem.db = { n.actor.store.mem.db with time := 5 * s + 1 } ∧
      n'.actor.store.fc = n.actor.store.fc ∧ n'.actor.store.newP = n.actor.store.newP ∧
      n'.actor.store.knownP = n.actor.store.knownP ∧
      n'.actor.store.genesisTime = n.actor.store.genesisTime ∧
      n'.actor.store.gossip.capacity = n.actor.store.gossip.capacity ∧
      Row c.ctx.E t vals K root anchor f s top ops' n'.actor.store ∧
      Collected c.X c.H vals (lineVote f s) (if agg then c.ids else []) n'.actor.store.gossip := by
  obtain ⟨sync, σ1, ops1, h1, h2, h3, R1, h4⟩ := R.tick W hv (j := 1) (by omega) (by omega) agg
    (i := .attestation) rfl hnow (by omega)
  have R2 := R1.setTime (5 * s + 1)
  obtain ⟨σ3, ops3, p1, p2, p3, R3⟩ := R2.produce W (by
    show σ1.mem.db.safeTarget = _
    rw [h2]; exact hsafe)
  have hg3 : σ3.gossip = n.actor.store.gossip := by rw [p3.gossip]; exact h3.gossip
  obtain ⟨σ4, ops4, q1, q2, q3, q4, q5, q6, q7, R4, q8⟩ := R3.signVotes Q W hs agg c.ids []
    (by rw [p2]; show 5 * s ≤ 5 * s + 1 + 1; omega) (fun v hv => hv) (by rw [hg3]; exact hvl)
    (.inl ⟨rfl, by rw [hg3]; exact hgossip⟩)
  refine ⟨⟨{ n.actor with store := σ4 }, sync⟩, ops4, ?_, rfl, ?_, ?_, ?_, ?_, ?_, ?_, R4, ?_⟩
  · rw [h4]
    simp only [duty, actorDuty, h1, if_true, produceVotes]
    rw [p1]
    simp only
    rw [q1]
  · show σ4.mem.db = _
    rw [q2, p2]
    show { σ1.mem.db with time := 5 * s + 1 } = _
    rw [h2]
  · show σ4.fc = _
    rw [q3, p3.fc]; exact h3.fc
  · show σ4.newP = _
    rw [q4, p3.newP]; exact h3.newP
  · show σ4.knownP = _
    rw [q5, p3.knownP]; exact h3.knownP
  · show σ4.genesisTime = _
    rw [q6, p3.genesis]; exact h3.genesis
  · show σ4.gossip.capacity = _
    rw [q7, hg3]
  · simpa using q8
end

end Verif.Node
