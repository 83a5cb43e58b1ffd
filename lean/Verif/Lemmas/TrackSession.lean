import Verif.Lemmas.TrackSign
import Verif.Lemmas.TrackJobs
/-!
# The aggregation session, on a track
-/
namespace Verif.Node
open Verif Verif.Db Verif.Sync Verif.Votes Verif.Buffers Verif.Build

section
variable {c : VCtx} {t : Nat} {vals : List Validator} {K : Header → Prop} {root : Root}
  {anchor : State} {f : Nat → Root} {s : Nat} {top : State} {ops : List Db.Op} {σ : Store}

/-- The state at the end of the line. -/
theorem Track.tipOpen (W : World c.ctx.E t vals [] (State.fromGenesis c.ctx.E.H t vals) K)
    (A : AnchorOk c.ctx.E.H (State.fromGenesis c.ctx.E.H t vals) K root anchor)
    (R : Track c.ctx.E t vals K root anchor f s top ops σ) :
    Open top.validators.length
      (unpackTally top.validators.length top.justificationsRoots top.justificationsValidators) := by
  obtain ⟨cs, st', h1, -, h3⟩ := state_chain W A R.inv R.topIs
  have := chain_open h1
  rcases h3 with rfl | ⟨-, rfl⟩
  · exact this
  · exact this

/-- A target after the justified slot may be justified. -/
theorem aim_justifiable {s z : Nat} {top : State}
    (h : top.latestFinalized.slot ≤ top.latestJustified.slot)
    (hlt : top.latestJustified.slot < (paceOf s z top).aim) :
    slotIsJustifiableAfter (paceOf s z top).aim top.latestFinalized.slot = true := by
  have ha : (paceOf s z top).aim =
      lastJustifiable top.latestFinalized.slot (max z (s - 3)) := by
    have : (paceOf s z top).aim = max top.latestJustified.slot
      (lastJustifiable top.latestFinalized.slot (max z (s - 3))) := rfl
    omega
  rw [ha] at hlt ⊢
  rcases lastJustifiable_ok top.latestFinalized.slot (max z (s - 3)) with h' | h'
  · omega
  · exact h'

/-- The vote of the slot passes the filters of the session. -/
theorem Track.votePasses (W : World c.ctx.E t vals [] (State.fromGenesis c.ctx.E.H t vals) K)
    (R : Track c.ctx.E t vals K root anchor f s top ops σ) {z : Nat} (hz : z ≤ s)
    (hlt : top.latestJustified.slot < (paceOf s z top).aim) :
    (Projected.ofState top).passes (voteOn f s top.latestJustified.slot (paceOf s z top).aim)
      (σ.mem.db.liveChain.map (fun e => e.1.2)) (top.historicalBlockHashes ++ [f s]) = true := by
  have hord := R.order
  have hus := Pace.aim_le (p := paceOf s z top) (Nat.le_of_lt R.order.2) hz
  have hus : (paceOf s z top).aim ≤ s := hus
  have hjd := aim_justifiable hord.1 hlt
  generalize (paceOf s z top).aim = u at *
  have hlen : top.historicalBlockHashes.length = s := by
    rw [R.inv.tree.histLen _ _ R.topIs, R.slot (Nat.le_refl _) R.topIs]
  have hget : ∀ i, i ≤ s → (top.historicalBlockHashes ++ [f s])[i]? = some (f i) := by
    intro i hi
    rcases Nat.lt_or_ge i s with hlt | hge
    · rw [List.getElem?_append_left (by omega)]
      exact R.hist i hlt
    · obtain rfl : i = s := by omega
      rw [List.getElem?_append_right (by omega), hlen, Nat.sub_self]
      rfl
  have hm : attestationDataMatchesChain (top.historicalBlockHashes ++ [f s])
      (voteOn f s top.latestJustified.slot u) = true :=
    (matchesChain_iff _ _).2 ⟨R.nz W (by omega), R.nz W (by omega), R.nz W (Nat.le_refl _),
      hget _ (Nat.le_of_lt hord.2), hget u (by omega), hget s (Nat.le_refl _)⟩
  have hk := R.live
  have hsrc : (JustifiedSlots.isSlotJustified (Projected.ofState top).justifiedSlots
      (Projected.ofState top).finalizedSlot
      (voteOn f s top.latestJustified.slot u).source.slot).getD false = true := R.isJust
  have htgt : ¬ ((JustifiedSlots.isSlotJustified (Projected.ofState top).justifiedSlots
      (Projected.ofState top).finalizedSlot
      (voteOn f s top.latestJustified.slot u).target.slot).getD false = true) := by
    intro h
    have := R.cap u h
    omega
  unfold Projected.passes
  rw [if_neg (by simpa [voteOn] using hk), if_neg (by simpa using hsrc), if_neg (by simpa using hm)]
  rw [if_neg (fun h => by
      have := h.2
      simp only [voteOn] at this
      omega), if_neg (fun h => htgt h.2), if_neg (fun h => h.2 hjd)]

/-- The session aggregates the votes of all validators, if their target is not justified yet. -/
theorem Track.session (Q : Able c vals)
    (W : World c.ctx.E t vals [] (State.fromGenesis c.ctx.E.H t vals) K)
    (A : AnchorOk c.ctx.E.H (State.fromGenesis c.ctx.E.H t vals) K root anchor) {n : VNode}
    (R : Track c.ctx.E t vals K root anchor f s top ops n.actor.store) (hv : 2 ≤ vals.length)
    (hv' : vals.length ≤ registryLimit) (hs : s < 2 ^ 32) (hs' : s ≤ historicalRootsLimit)
    {vs : List Nat} (hvs : ∀ v, v ∈ vs ↔ v < vals.length) {z : Nat} (hz : z ≤ s)
    (hlt : top.latestJustified.slot < (paceOf s z top).aim) {d : AttData}
    (hd : d = voteOn f s top.latestJustified.slot (paceOf s z top).aim) {S : AttData → Prop}
    (hS : ∀ x, S x → 1 ≤ x.target.slot ∧
      jst top.justifiedSlots top.latestFinalized.slot x.target.slot = true)
    (hc : Gathered c.X c.H vals S d vs n.actor.store.gossip)
    (hnew : n.actor.store.newP.data = []) (hfc : n.actor.store.fc.new = [])
    (hfresh : n.actor.store.knownP.data.get? (c.H.attData d) = none) :
    ∃ (n' : VNode) (ops' : List Db.Op) (a : Agg), n.session c s = .ok (n', [(d, a)]) ∧
      n'.actor.pending = n.actor.pending ∧
      n'.actor.store.mem.db = n.actor.store.mem.db ∧
      n'.actor.store.knownP = n.actor.store.knownP ∧
      n'.actor.store.genesisTime = n.actor.store.genesisTime ∧
      OldOnly S n'.actor.store.gossip ∧
      n'.actor.store.gossip.capacity = n.actor.store.gossip.capacity ∧
      n'.actor.store.newP.data = [(c.H.attData d, ⟨d, [a]⟩)] ∧
      (∀ v, v < vals.length → In v a) ∧ ValidAgg c.X c.H vals d a ∧
      (∀ v, v < vals.length → v ∈ n'.actor.store.fc.new.keys) ∧
      (∀ e ∈ n'.actor.store.fc.new, e.2 = d) ∧
      Track c.ctx.E t vals K root anchor f s top ops' n'.actor.store := by
  have hus : d.target.slot ≤ s := by
    rw [hd]
    exact Pace.aim_le (p := paceOf s z top) (Nat.le_of_lt R.order.2) hz
  have hsl : d.slot = s := by rw [hd]; rfl
  obtain ⟨σ1, ops1, p1, p2, p3, R1⟩ := R.ourProposer W (s + 1)
  obtain ⟨σ2, ops2, q1, q3, q4, R2⟩ := R1.headState W
  have q2 := R1.topIs
  have hvals := state_vals W R1.inv q2
  have m2 : SameMem n.actor.store σ2 := p3.trans q4
  obtain ⟨hold, hc⟩ := hc
  obtain ⟨-, sigs, pre, g1, -, g2, g4⟩ := hc.resolve_left (fun h => by
    have := (hvs 0).2 (by omega)
    rw [h.1] at this
    cases this)
  simp only [hvs] at g2
  have hres : ∀ x ∈ sigs, resolves (fun b => (c.X.decodeKey b).isSome) vals x.1 = true := by
    intro x hx
    obtain ⟨val, k, sg, k1, k2, -⟩ := g4 x hx
    unfold resolves
    rw [k1]
    simp only [k2, Option.isSome_some]
  have hjob := resolve_raw (d := d) (root := c.H.attData d)
    (vs := List.range vals.length) List.nodup_range (fun v => by rw [g2, List.mem_range])
    (by rw [List.length_range]; exact hv) hres
  obtain ⟨r1, r2, r3⟩ := rawById_spec (fun b => (c.X.decodeKey b).isSome) vals sigs
  generalize hraw : rawById (fun b => (c.X.decodeKey b).isSome) vals sigs = raw at *
  have hgi : GInv c.H σ2.gossip := R2.inv.buf.gossip
  obtain ⟨c1, c2, c3⟩ := candidates_idle (decodes := fun b => (c.X.decodeKey b).isSome)
    (vals := vals) (p := ⟨σ2.gossip, σ2.newP, σ2.knownP⟩) hgi (by rw [m2.newP]; exact hnew)
  have hcand := c3 (c.H.attData d) ⟨d, sigs⟩ (by rw [m2.gossip]; exact g1)
  rw [show proofsFor σ2.knownP (c.H.attData d) = [] by
    unfold proofsFor
    rw [m2.knownP, hfresh]
    rfl, hjob] at hcand
  have hall : ∀ v, v < vals.length → v ∈ raw.map Prod.fst := by
    intro v hv
    obtain ⟨x, hx, rfl⟩ := List.mem_map.1 ((g2 v).2 hv)
    exact r3 x hx (hres x hx)
  have hnz : raw ≠ [] := by
    rintro rfl
    have := hall 0 (by omega)
    cases this
  have hscore : ∃ sc, jobScore (top.historicalBlockHashes ++ [σ2.mem.db.head])
      (σ2.mem.db.liveChain.map (fun e => e.1.2)) top.validators.length (Projected.ofState top)
      ⟨d, c.H.attData d, [], [], raw,
          sigs.map (fun x => (x.1, c.H.attData d))⟩ = some sc := by
    unfold jobScore
    simp only
    rw [q3, R1.head, hd, if_neg (by rw [R1.votePasses W hz hlt]; simp)]
    rw [← hd]
    obtain ⟨x, hx⟩ := score_all (s := top) (d := d)
      (cov := Job.coverage ⟨d, c.H.attData d, [], [], raw,
          sigs.map (fun x => (x.1, c.H.attData d))⟩) (by rw [hvals]; omega)
      (R1.tipOpen W A) (by
        intro v hv
        rw [hvals] at hv
        unfold Job.coverage
        rw [List.mem_dedup]
        simp only [List.append_nil]
        exact hall v hv)
    exact ⟨x.1, by rw [hx]; rfl⟩
  obtain ⟨sc, hscore⟩ := hscore
  have hjobs : sessionJobs c n.sync n.actor.store s = .ok ([⟨d,
      c.H.attData d, [], [], raw,
      sigs.map (fun x => (x.1, c.H.attData d))⟩], vals, σ2) := by
    unfold sessionJobs
    rw [p1]
    simp only
    rw [q1]
    simp only
    unfold snapshotJobs
    rw [jobs_one ?_ hscore (Nat.le_trans hus hs') (by rw [hvals]; exact c1)
      (by rw [hvals]; exact hcand) ?_, hvals]
    swap
    · intro e he hne
      rw [hvals] at he
      obtain ⟨e', g1', g2'⟩ := c2 e.1 e.2 (AMap.get?_of_mem c1 he)
      have g1' : σ2.gossip.data.get? e.1 = some e' := g1'
      rw [m2.gossip] at g1'
      have := hS _ (hold _ _ g1' hne)
      rw [g2']
      exact this
    split
    · omega
    · unfold maxAggregationJobs; omega
  obtain ⟨pr, hpr⟩ := proveJob_live (keys := sigs.map (fun x => (x.1, c.H.attData d)))
    Q.live Q.keys hnz r1 (fun x hx => g4 x (r2 x hx).1)
  have hout : aggregateJob (proveJob c.X vals) ⟨d, c.H.attData d, [], [], raw,
      sigs.map (fun x => (x.1, c.H.attData d))⟩ = .ok (some ⟨d,
        ⟨bitsFromIndices (sortDedup (raw.map Prod.fst ++ [])), pr⟩,
        sortDedup (raw.map Prod.fst ++ []),
        sigs.map (fun x => (x.1, c.H.attData d))⟩) := by
    unfold aggregateJob
    simp only
    rw [if_neg (by
      rintro ⟨h, -⟩
      exact hnz (List.isEmpty_iff.1 h)), if_neg (by rw [hsl]; omega), hpr]
    simp only
    rw [if_neg]
    intro h
    obtain ⟨v, hv, hl⟩ := List.any_eq_true.1 h
    rw [mem_sortDedup, List.append_nil] at hv
    obtain ⟨x, hx, rfl⟩ := List.mem_map.1 hv
    have := (g2 x.1).1 (List.mem_map_of_mem (r2 x hx).1)
    simp only [decide_eq_true_eq] at hl
    omega
  obtain ⟨b', e1, e2, e3⟩ := push_empty R2.inv.buf.new (by omega) d
    ⟨bitsFromIndices (sortDedup (raw.map Prod.fst ++ [])), pr⟩ (by rw [m2.newP]; exact hnew)
  obtain ⟨gb, d1, d2, d3, d4, d5, d6⟩ := delete_one (H := c.H) (b := σ2.gossip) R2.inv.buf.gossip
    (by rw [m2.gossip]; exact g1)
  have hin : ∀ v, v < vals.length →
      (bitsFromIndices (sortDedup (raw.map Prod.fst ++ [])))[v]? = some true := by
    intro v hv
    rw [bitsFromIndices_get, mem_sortDedup, List.append_nil]
    exact hall v hv
  let σ3 : Store := { σ2 with
    fc := insertNew c.H σ2.fc [(bitsFromIndices (sortDedup (raw.map Prod.fst ++ [])), d)]
    newP := b'
    gossip := gb }
  have happ : applyAggregate c.H σ2 d
      ⟨bitsFromIndices (sortDedup (raw.map Prod.fst ++ [])), pr⟩
      (sigs.map (fun x => (x.1, c.H.attData d))) = .ok σ3 := by
    unfold applyAggregate insertNewPayload
    rw [show σ2.newP.push c.H = σ2.newP.push c.ctx.E.H from rfl, e1]
    simp only
    rw [d1]
  have hfn : σ3.fc.new = recordAll c.H [] (bitsFromIndices (sortDedup (raw.map Prod.fst ++ [])))
      d := by
    show (insertNew c.H σ2.fc [(bitsFromIndices (sortDedup (raw.map Prod.fst ++ [])),
      d)]).new = _
    unfold insertNew
    simp only [List.foldl_cons, List.foldl_nil, m2.fc, hfc]
  refine ⟨{ n with actor := { n.actor with store := σ3 } }, ops2,
    ⟨bitsFromIndices (sortDedup (raw.map Prod.fst ++ [])), pr⟩, ?sess, rfl, q3.trans p2, m2.knownP,
    m2.genesis, ?oldg, by show gb.capacity = _; rw [d4, m2.gossip], e3, fun v hv => hin v hv, ?_, ?_, ?_, ?_⟩
  case oldg =>
    intro r e hr
    have hr : gb.data.get? r = some e := hr
    obtain ⟨z, z1, z2⟩ := d6 r e hr
    rw [m2.gossip] at z1
    rw [← z2]
    refine hold _ _ z1 ?_
    rintro rfl
    rw [d5] at hr
    cases hr
  case sess =>
    unfold VNode.session
    rw [hjobs]
    simp only
    unfold runJobs
    rw [hout]
    simp only
    rw [happ]
    rfl
  · exact (proveJob_valid (D := fun _ => True) Q.complete Q.keys (by
      refine ⟨trivial, rfl, r1, by simp, fun x hx => g4 x (r2 x hx).1, [], by simp, rfl, rfl⟩)
      hout).1
  · intro v hv
    show v ∈ σ3.fc.new.keys
    rw [hfn]
    exact recordAll_keys (.inl (hin v hv))
  · show ∀ e ∈ σ3.fc.new, _
    rw [hfn]
    exact recordAll_same (by intro e he; cases he)
  · refine R2.buffers (by rfl) ⟨e2, R2.inv.buf.known, d2, ?_⟩
    show gb.total ≤ gb.capacity
    rw [d4]
    exact Nat.le_trans d3 R2.inv.buf.gossipBound

/-- If the target of the votes is justified, there is nothing to aggregate. -/
theorem Track.sessionNone
    (W : World c.ctx.E t vals [] (State.fromGenesis c.ctx.E.H t vals) K) {n : VNode}
    (R : Track c.ctx.E t vals K root anchor f s top ops n.actor.store)
    (hS : ∀ r e, n.actor.store.gossip.data.get? r = some e → 1 ≤ e.data.target.slot ∧
      jst top.justifiedSlots top.latestFinalized.slot e.data.target.slot = true)
    (hnew : n.actor.store.newP.data = []) :
    ∃ (n' : VNode) (ops' : List Db.Op), n.session c s = .ok (n', []) ∧
      n'.actor.store.mem.db = n.actor.store.mem.db ∧ SameMem n.actor.store n'.actor.store ∧
      Track c.ctx.E t vals K root anchor f s top ops' n'.actor.store := by
  obtain ⟨σ1, ops1, p1, p2, p3, R1⟩ := R.ourProposer W (s + 1)
  obtain ⟨σ2, ops2, q1, q3, q4, R2⟩ := R1.headState W
  have m2 : SameMem n.actor.store σ2 := p3.trans q4
  have hgi : GInv c.H σ2.gossip := R2.inv.buf.gossip
  obtain ⟨c1, c2, -⟩ := candidates_idle (decodes := fun b => (c.X.decodeKey b).isSome)
    (vals := top.validators) (p := ⟨σ2.gossip, σ2.newP, σ2.knownP⟩) hgi (by rw [m2.newP]; exact hnew)
  refine ⟨{ n with actor := { n.actor with store := σ2 } }, ops2, ?_, q3.trans p2, m2, R2⟩
  unfold VNode.session sessionJobs
  rw [p1]
  simp only
  rw [q1]
  simp only
  unfold snapshotJobs
  rw [jobs_none]
  · rfl
  · intro e he
    obtain ⟨e', g1', g2'⟩ := c2 e.1 e.2 (AMap.get?_of_mem c1 he)
    have g1' : σ2.gossip.data.get? e.1 = some e' := g1'
    rw [m2.gossip] at g1'
    rw [g2']
    exact hS _ _ g1'

end
end Verif.Node
