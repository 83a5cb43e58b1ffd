import Verif.Lemmas.TrackGossip
/-!
# Voting, on a track
-/
namespace Verif.Node
open Verif Verif.Db Verif.Sync Verif.Buffers Verif.Build

section
variable {c : VCtx} {t : Nat} {vals : List Validator} {K : Header → Prop} {root : Root}
  {anchor : State} {f : Nat → Root} {s : Nat} {top : State} {ops : List Db.Op} {σ : Store}

/-- A vote for the line arrives; an aggregator keeps it. -/
theorem Track.takeVote
    (W : World c.ctx.E t vals [] (State.fromGenesis c.ctx.E.H t vals) K)
    (hs : s < 2 ^ 32) {S : AttData → Prop} {done : List Nat} {v sig : Nat}
    (R : Track c.ctx.E t vals K root anchor f s top ops σ) (ht : 5 * s ≤ σ.mem.db.time + 1)
    {j u : Nat} (hj : j ≤ u) (hu : u ≤ s)
    (hsig : ValidSig c.X c.H vals v (voteOn f s j u) sig)
    (hcap : vals.length ≤ σ.gossip.capacity)
    (hc : Gathered c.X c.H vals S (voteOn f s j u) done σ.gossip) :
    ∃ σ' ops', onGossipAttestation c.ctx.E σ v (voteOn f s j u) sig true = .ok (σ', .ok ()) ∧
      σ'.mem.db = σ.mem.db ∧ σ'.fc = σ.fc ∧ σ'.newP = σ.newP ∧ σ'.knownP = σ.knownP ∧
      σ'.genesisTime = σ.genesisTime ∧ σ'.gossip.capacity = σ.gossip.capacity ∧
      Track c.ctx.E t vals K root anchor f s top ops' σ' ∧
      Gathered c.X c.H vals S (voteOn f s j u) (done ++ [v]) σ'.gossip := by
  have hsig0 := hsig
  obtain ⟨val, k, sg, k1, k2, k3, k4⟩ := hsig
  obtain ⟨st, t1⟩ := R.states u hu
  obtain ⟨σ1, t2, t3, t4, R1⟩ := R.getState W (f u)
  rw [t1] at t2
  have hvl : st.validators = vals := state_vals W R.inv t1
  have hd : (voteOn f s j u).slot = s := rfl
  have hgo : ∀ {r : _root_.Verif.Node.R}, (
        match σ1.gossip.insert c.H (voteOn f s j u) v sig with
        | none => .error 445
        | some g => .ok ({ σ1 with gossip := g }, .ok ())) = r →
      onGossipAttestation c.ctx.E σ v (voteOn f s j u) sig true = r := by
    rintro r rfl
    unfold onGossipAttestation
    rw [R.voteOk W ht hj hu]
    simp only
    show (match σ.getState (f u) with | .error e => _ | .ok (none, s) => _ | .ok (some st, s) => _) = _
    rw [t2]
    simp only
    rw [hvl, k1]
    simp only [envOf, k2, k3, hd, Option.isSome_some, not_true_eq_false, if_false]
    rw [if_neg (by
      rw [hd] at k4
      rw [k4, decide_eq_true hs]
      simp)]
    rfl
  obtain ⟨b', b1, b2, b3, b4, b5⟩ := Gathered.insert (H := c.H) (b := σ1.gossip) R1.inv.buf.gossip
    (by rw [t4.gossip]; exact hc) hsig0 (by rw [t4.gossip]; exact hcap)
  refine ⟨{ σ1 with gossip := b' }, _, hgo ?_, t3, t4.fc, t4.newP, t4.knownP, t4.genesis,
    by show b'.capacity = _; rw [b4, t4.gossip],
    R1.buffers rfl ⟨R1.inv.buf.new, R1.inv.buf.known, b2, b3⟩, b5⟩
  simp only [b1]

/-- The validators of an aggregator vote; every vote ends up in the gossip buffer. -/
theorem Track.signVotes (Q : Able c vals)
    (W : World c.ctx.E t vals [] (State.fromGenesis c.ctx.E.H t vals) K)
    (hs : s < 2 ^ 32) {S : AttData → Prop} (todo : List Nat) (done : List Nat)
    (R : Track c.ctx.E t vals K root anchor f s top ops σ) (ht : 5 * s ≤ σ.mem.db.time + 1)
    {j u : Nat} (hj : j ≤ u) (hu : u ≤ s)
    (hv : ∀ v ∈ todo, v ∈ c.ids) (hcap : vals.length ≤ σ.gossip.capacity)
    (hc : Gathered c.X c.H vals S (voteOn f s j u) done σ.gossip) :
    ∃ σ' ops', Node.signVotes c (voteOn f s j u) true todo σ =
        .ok (σ', todo.map (fun v => .vote v (voteOn f s j u) (c.sign v (voteOn f s j u)))) ∧
      σ'.mem.db = σ.mem.db ∧ σ'.fc = σ.fc ∧ σ'.newP = σ.newP ∧ σ'.knownP = σ.knownP ∧
      σ'.genesisTime = σ.genesisTime ∧ σ'.gossip.capacity = σ.gossip.capacity ∧
      Track c.ctx.E t vals K root anchor f s top ops' σ' ∧
      Gathered c.X c.H vals S (voteOn f s j u) (done ++ todo) σ'.gossip := by
  induction todo generalizing done σ ops with
  | nil =>
    exact ⟨σ, ops, rfl, rfl, rfl, rfl, rfl, rfl, rfl, R, by simpa using hc⟩
  | cons v todo ih =>
    obtain ⟨sig, g1, g2⟩ := Q.votes v (hv v List.mem_cons_self) (voteOn f s j u)
    obtain ⟨σ1, ops1, a1, a2, a3, a4, a5, a6, a7, R1, a8⟩ := R.takeVote W hs ht hj hu g2 hcap hc
    obtain ⟨σ', ops', i1, i2, i3, i4, i5, i6, i7, i8, i9⟩ := ih (done ++ [v]) R1
      (by rw [a2]; exact ht) (fun w hw => hv w (List.mem_cons_of_mem _ hw))
      (by rw [a7]; exact hcap) a8
    refine ⟨σ', ops', ?_, i2.trans a2, i3.trans a3, i4.trans a4, i5.trans a5, i6.trans a6,
      i7.trans a7, i8, by simpa using i9⟩
    unfold Node.signVotes
    rw [g1]
    simp only [if_true]
    rw [a1]
    simp only [_root_.Verif.Node.R.store]
    rw [i1]
    simp [g1]

/-- A node without the role only publishes its votes. -/
theorem signVotes_off (d : AttData) (todo : List Nat) (σ : Store)
    (h : ∀ v ∈ todo, ∃ sig, c.sign v d = some sig) :
    Node.signVotes c d false todo σ = .ok (σ, todo.map (fun v => .vote v d (c.sign v d))) := by
  induction todo with
  | nil => rfl
  | cons v todo ih =>
    obtain ⟨sig, g1⟩ := h v List.mem_cons_self
    unfold Node.signVotes
    rw [g1]
    simp only [Bool.false_eq_true, if_false]
    rw [ih (fun w hw => h w (List.mem_cons_of_mem _ hw))]
    simp [g1]

/-- The attestation tick: the node's validators vote for the line. -/
theorem Track.voteTick (Q : Able c vals)
    (W : World c.ctx.E t vals [] (State.fromGenesis c.ctx.E.H t vals) K) {n : VNode}
    (R : Track c.ctx.E t vals K root anchor f s top ops n.actor.store) (hv : 0 < vals.length)
    (hvl : vals.length ≤ n.actor.store.gossip.capacity) (hs : s < 2 ^ 32)
    {now : Nat} (hnow : (now - n.actor.store.genesisTime * 1000) / 800 = 5 * s + 1)
    (htime : n.actor.store.mem.db.time = 5 * s) {z : Nat} (hz : z ≤ s)
    (hsafe : n.actor.store.mem.db.safeTarget = f z) {d : AttData}
    (hd : d = voteOn f s top.latestJustified.slot (paceOf s z top).aim) {S : AttData → Prop}
    (hgossip : OldOnly S n.actor.store.gossip)
    (hfresh : n.actor.store.gossip.data.get? (c.H.attData d) = none) (agg : Bool) :
    ∃ n' ops', n.tick c now agg = .ok (n', c.ids.map (fun v => .vote v d (c.sign v d))) ∧
      n'.actor.pending = n.actor.pending ∧
      n'.actor.store.mem.db = { n.actor.store.mem.db with time := 5 * s + 1 } ∧
      n'.actor.store.fc = n.actor.store.fc ∧ n'.actor.store.newP = n.actor.store.newP ∧
      n'.actor.store.knownP = n.actor.store.knownP ∧
      n'.actor.store.genesisTime = n.actor.store.genesisTime ∧
      n'.actor.store.gossip.capacity = n.actor.store.gossip.capacity ∧
      Track c.ctx.E t vals K root anchor f s top ops' n'.actor.store ∧
      (agg = false → n'.actor.store.gossip = n.actor.store.gossip) ∧
      (agg = true → Gathered c.X c.H vals S d c.ids n'.actor.store.gossip) := by
  subst hd
  obtain ⟨sync, σ1, ops1, h1, h2, h3, R1, h4⟩ := R.tick W hv (j := 1) (by omega) (by omega) agg
    (i := .attestation) rfl hnow (by omega)
  have R2 := R1.setTime (5 * s + 1)
  obtain ⟨σ3, ops3, p1, p2, p3, R3⟩ := R2.produce W hz (by
    show σ1.mem.db.safeTarget = _
    rw [h2]; exact hsafe)
  have hg3 : σ3.gossip = n.actor.store.gossip := by rw [p3.gossip]; exact h3.gossip
  have hju : top.latestJustified.slot ≤ (paceOf s z top).aim := (paceOf s z top).just_le
  have hus := Pace.aim_le (p := paceOf s z top) (Nat.le_of_lt R.order.2) hz
  cases agg with
  | true =>
    obtain ⟨σ4, ops4, q1, q2, q3, q4, q5, q6, q7, R4, q8⟩ := R3.signVotes Q W hs (S := S) c.ids []
      (by rw [p2]; show 5 * s ≤ 5 * s + 1 + 1; omega) hju hus (fun v hv => hv)
      (by rw [hg3]; exact hvl)
      ⟨fun r e hr _ => by rw [hg3] at hr; exact hgossip r e hr,
        .inl ⟨rfl, by rw [hg3]; exact hfresh⟩⟩
    refine ⟨⟨{ n.actor with store := σ4 }, sync⟩, ops4, ?_, rfl, ?_, ?_, ?_, ?_, ?_, ?_, R4,
      (by intro h; cases h), fun _ => by simpa using q8⟩
    · rw [h4]
      simp only [duty, actorDuty, h1, if_true, produceVotes]
      rw [p1]
      simp only
      rw [q1]
    · show σ4.mem.db = _
      rw [q2, p2]
      show { σ1.mem.db with time := 5 * s + 1 } = _
      rw [h2]
    · show σ4.fc = _
      rw [q3, p3.fc]; exact h3.fc
    · show σ4.newP = _
      rw [q4, p3.newP]; exact h3.newP
    · show σ4.knownP = _
      rw [q5, p3.knownP]; exact h3.knownP
    · show σ4.genesisTime = _
      rw [q6, p3.genesis]; exact h3.genesis
    · show σ4.gossip.capacity = _
      rw [q7, hg3]
  | false =>
    have q1 := signVotes_off (c := c) (voteOn f s top.latestJustified.slot (paceOf s z top).aim)
      c.ids σ3 (fun v hv => by
        obtain ⟨sig, g1, -⟩ := Q.votes v hv (voteOn f s top.latestJustified.slot (paceOf s z top).aim)
        exact ⟨sig, g1⟩)
    refine ⟨⟨{ n.actor with store := σ3 }, sync⟩, ops3, ?_, rfl, ?_, ?_, ?_, ?_, ?_, ?_, R3,
      fun _ => hg3, (by intro h; cases h)⟩
    · rw [h4]
      simp only [duty, actorDuty, h1, if_true, produceVotes]
      rw [p1]
      simp only
      rw [q1]
    · show σ3.mem.db = _
      rw [p2]
      show { σ1.mem.db with time := 5 * s + 1 } = _
      rw [h2]
    · show σ3.fc = _
      rw [p3.fc]; exact h3.fc
    · show σ3.newP = _
      rw [p3.newP]; exact h3.newP
    · show σ3.knownP = _
      rw [p3.knownP]; exact h3.knownP
    · show σ3.genesisTime = _
      rw [p3.genesis]; exact h3.genesis
    · show σ3.gossip.capacity = _
      rw [hg3]
end

end Verif.Node
