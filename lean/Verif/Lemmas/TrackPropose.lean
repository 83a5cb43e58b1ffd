import Verif.Lemmas.TrackImport
import Verif.Lemmas.SoloPropose
/-!
# The end of a slot, on a track
-/
namespace Verif.Node
open Verif Verif.Db Verif.Sync Verif.Votes Verif.Buffers Verif.Build

section
variable {E : Env} {t : Nat} {vals : List Validator} {K : Header → Prop} {root : Root}
  {anchor : State} {f : Nat → Root} {s : Nat} {top : State} {ops : List Db.Op} {σ : Store}

theorem Track.acceptEmpty (W : World E t vals [] (State.fromGenesis E.H t vals) K)
    (A : AnchorOk E.H (State.fromGenesis E.H t vals) K root anchor)
    (R : Track E t vals K root anchor f s top ops σ) {S : AttData → Prop} {Q : Root → PEntry → Prop} (hI : Rested S Q σ) :
    ∃ σ' ops', acceptNew E.H σ = .ok σ' ∧ σ'.knownP = σ.knownP ∧
      σ'.mem.db.time = σ.mem.db.time ∧ σ'.mem.db.safeTarget = σ.mem.db.safeTarget ∧
      σ'.genesisTime = σ.genesisTime ∧ Rested S Q σ' ∧ Track E t vals K root anchor f s top ops' σ' := by
  obtain ⟨d1, d2⟩ := drain_empty R.inv.buf.new hI.newP
  have hp : promoteNew E.H σ = .ok { σ with
      newP := σ.newP.drain.2, fc := Votes.promote E.H σ.fc σ.fc.new } := by
    unfold promoteNew
    simp only [d1, PayloadBuffer.pushBatch]
  have R1 := R.buffers (σ' := { σ with
      newP := σ.newP.drain.2, fc := Votes.promote E.H σ.fc σ.fc.new }) rfl
    ⟨good_drain R.inv.buf.new, R.inv.buf.known, R.inv.buf.gossip, R.inv.buf.gossipBound⟩
  obtain ⟨σ', ops', u1, u2, u3, u4, -, R2⟩ := R1.updateHead W A
  refine ⟨σ', ops', ?_, u2.knownP, u3, u4, u2.genesis, u2.rested ?_, R2⟩
  · unfold acceptNew
    rw [hp]
    exact u1
  · exact ⟨hI.gossip, hI.cap, d2, rfl, hI.pool⟩

theorem Track.acceptOne (W : World E t vals [] (State.fromGenesis E.H t vals) K)
    (A : AnchorOk E.H (State.fromGenesis E.H t vals) K root anchor)
    (R : Track E t vals K root anchor f s top ops σ) {D : AttData → Prop} {P : AttData → Agg → Prop}
    (hD : ∀ d d', D d → D d' → E.H.attData d = E.H.attData d' → d = d')
    {d : AttData} {a : Agg} (hd : D d) (ha : P d a) {S : AttData → Prop}
    (hg : All (fun _ e => S e.data) σ.gossip.data)
    (hcap : σ.gossip.capacity = 2048) (hn : σ.newP.data = [(E.H.attData d, ⟨d, [a]⟩)])
    (hk : All (PQ E.H D P) σ.knownP.data) (hfr : σ.knownP.data.get? (E.H.attData d) = none) :
    ∃ σ' ops', acceptNew E.H σ = .ok σ' ∧
      σ'.knownP.data.get? (E.H.attData d) = some ⟨d, [a]⟩ ∧
      σ'.mem.db.time = σ.mem.db.time ∧ σ'.mem.db.safeTarget = σ.mem.db.safeTarget ∧
      σ'.genesisTime = σ.genesisTime ∧ Rested S (PQ E.H D P) σ' ∧
      Track E t vals K root anchor f s top ops' σ' := by
  obtain ⟨d1, d2⟩ := drain_single R.inv.buf.new hn
  obtain ⟨k, k1, k2, k3⟩ := push_fresh R.inv.buf.known (by omega) a hfr
  have kb : σ.knownP.pushBatch E.H [(d, a)] = some k := by
    simp [PayloadBuffer.pushBatch, k1]
  have hp : promoteNew E.H σ = .ok { σ with
      newP := σ.newP.drain.2, knownP := k, fc := Votes.promote E.H σ.fc σ.fc.new } := by
    unfold promoteNew
    simp only [d1, kb]
  have R1 := R.buffers (σ' := { σ with
      newP := σ.newP.drain.2, knownP := k, fc := Votes.promote E.H σ.fc σ.fc.new }) rfl
    ⟨good_drain R.inv.buf.new, k2, R.inv.buf.gossip, R.inv.buf.gossipBound⟩
  obtain ⟨σ', ops', u1, u2, u3, u4, -, R2⟩ := R1.updateHead W A
  refine ⟨σ', ops', ?_, ?_, u3, u4, u2.genesis, u2.rested ?_, R2⟩
  · unfold acceptNew
    rw [hp]
    exact u1
  · rw [u2.knownP]; exact k3
  · refine ⟨hg, hcap, d2, rfl, ?_⟩
    exact push_all hD hk hd ha k1

theorem Track.proposal (W : World E t vals [] (State.fromGenesis E.H t vals) K)
    (A : AnchorOk E.H (State.fromGenesis E.H t vals) K root anchor)
    (R : Track E t vals K root anchor f s top ops σ) {S : AttData → Prop} {Q : Root → PEntry → Prop} (hI : Rested S Q σ)
    (ht : σ.mem.db.time = 5 * s + 4) :
    ∃ σ' ops', proposalStore E.H σ (s + 1) = .ok σ' ∧ σ'.knownP = σ.knownP ∧
      σ'.mem.db.time = 5 * (s + 1) ∧ σ'.mem.db.safeTarget = σ.mem.db.safeTarget ∧
      σ'.genesisTime = σ.genesisTime ∧ Rested S Q σ' ∧ Track E t vals K root anchor f s top ops' σ' := by
  have R1 := R.setTime (5 * (s + 1))
  have I1 : Rested S Q (σ.setTime (5 * (s + 1))) := ⟨hI.gossip, hI.cap, hI.newP, hI.fcNew, hI.pool⟩
  obtain ⟨σ1, ops1, a1, a2, a3, a4, a5, a6, R2⟩ := R1.acceptEmpty W A I1
  obtain ⟨σ2, ops2, b1, b2, b3, b4, b5, b6, R3⟩ := R2.acceptEmpty W A a6
  refine ⟨σ2, ops2, ?_, b2.trans a2, b3.trans a3, b4.trans a4, b5.trans a5, b6, R3⟩
  have htick : onTick E.H σ (σ.genesisTime * 1000 + (s + 1) * msPerSlot) true = .ok σ1 := by
    unfold onTick tickTarget
    have e : (σ.genesisTime * 1000 + (s + 1) * msPerSlot - σ.genesisTime * 1000) / msPerInterval =
        5 * (s + 1) := by
      show (σ.genesisTime * 1000 + (s + 1) * 4000 - σ.genesisTime * 1000) / 800 = _
      omega
    simp only [e, ht]
    rw [if_neg (by show ¬ (_ > 5); omega)]
    have : 5 * (s + 1) - σ.mem.db.time = 1 := by omega
    rw [this]
    unfold tickLoop
    have hst : σ.setTime (σ.mem.db.time + 1) = σ.setTime (5 * (s + 1)) := by
      rw [show σ.mem.db.time + 1 = 5 * (s + 1) by omega]
    have hic : Interval.ofCount (σ.setTime (5 * (s + 1))).mem.db.time = some .publication := by
      show Interval.ofCount (5 * (s + 1)) = _
      unfold Interval.ofCount
      have : 5 * (s + 1) % intervalsPerSlot = 0 := by
        show 5 * (s + 1) % 5 = 0
        omega
      rw [this]
      rfl
    have htm : decide ((σ.setTime (5 * (s + 1))).mem.db.time = 5 * (s + 1)) = true :=
      decide_eq_true rfl
    simp only [hst, hic, htm, Bool.and_self, duty, if_true]
    rw [a1]
    rfl
  unfold proposalStore
  rw [htick]
  exact b1

end

section
variable {c : VCtx} {t : Nat} {vals : List Validator} {K : Header → Prop} {root : Root}
  {anchor : State} {f : Nat → Root} {s : Nat} {top : State} {ops : List Db.Op} {σ : Store}

/-- The proposal of the next slot. -/
theorem Track.propose (Q : Able c vals)
    (W : World c.ctx.E t vals [] (State.fromGenesis c.ctx.E.H t vals) K)
    (A : AnchorOk c.ctx.E.H (State.fromGenesis c.ctx.E.H t vals) K root anchor)
    (R : Track c.ctx.E t vals K root anchor f s top ops σ) (hv : 0 < vals.length)
    (hmine : (s + 1) % vals.length ∈ c.ids) (hvl : vals.length ≤ validatorRegistryLimit) (hlim : s + 1 ≤ historicalRootsLimit)
    {D S : AttData → Prop} (hI : Rested S (Proved c vals D) σ) {P : Prop} {u : Nat} {v : AttData}
    (hvote : v = voteOn f s top.latestJustified.slot u)
    (hP : P → top.latestJustified.slot < u ∧ u ≤ s ∧
      slotIsJustifiableAfter u top.latestFinalized.slot = true)
    (hD : ∀ d, D d → jst top.justifiedSlots top.latestFinalized.slot d.target.slot = true ∨
      P ∧ d = v) (ht : σ.mem.db.time = 5 * s + 4) {a : Agg}
    (hget : P → σ.knownP.data.get? (c.H.attData v) = some ⟨v, [a]⟩ ∧
      ∀ w, w < vals.length → In w a) :
    ∃ (σ1 : Store) (sb : SignedBlock) (st : State), NextStep c.ctx.E f s top st sb ∧
      Moved top v P st ∧ (P → st.latestJustified.slot = u) ∧
      Node.propose c σ (s + 1) ((s + 1) % vals.length) =
        (match onBlock c.ctx.E σ1 sb with
        | .error e => .error e
        | .ok (s', r) => .ok (s', [.block ((s + 1) % vals.length) (s + 1) (sb.block.root c.H)
            (some (sb, r))])) ∧
      ∀ K' : Header → Prop, (∀ h, K h → K' h) →
        World c.ctx.E t vals [] (State.fromGenesis c.ctx.E.H t vals) K' →
        K' (sb.block.header c.H) →
        ∃ σ' ops', onBlock c.ctx.E σ1 sb = .ok (σ', .ok ()) ∧
          Track c.ctx.E t vals K' root anchor (extend f s (sb.block.root c.H)) (s + 1) st ops' σ' ∧
          σ'.mem.db.time = 5 * (s + 1) ∧ σ'.mem.db.safeTarget = σ.mem.db.safeTarget ∧
          σ'.genesisTime = σ.genesisTime ∧ Rested S (Proved c vals D) σ' := by
  obtain ⟨σ0, ops0, p1, p2, p3, p4, p5, I0, R0⟩ := R.proposal W A hI ht
  have hst := R0.topIs
  obtain ⟨σ1, g1, g2, g3, R1⟩ := R0.getState W (f s)
  rw [hst] at g1
  have I1 := g3.rested I0
  have hsv : top.validators = vals := state_vals W R0.inv hst
  have hlen : top.historicalBlockHashes.length = s := by
    rw [R0.inv.tree.histLen _ _ hst, R0.slot (Nat.le_refl _) hst]
  have hn : (knownPool σ1).keys.Nodup := by
    have hd := R1.inv.buf.known.inv
    have : (knownPool σ1).keys = σ1.knownP.data.keys := by
      simp [knownPool, AMap.keys, List.map_map, Function.comp_def]
    rw [this]
    exact hd.keys
  have hQ : ∀ e ∈ knownPool σ1, e.1 = c.H.attData e.2.1 ∧ D e.2.1 ∧
      ∀ g ∈ e.2.2, ValidAgg c.X c.H top.validators e.2.1 g ∧ e.2.1.slot < 2 ^ 32 := by
    intro e he
    obtain ⟨x, hx, rfl⟩ := List.mem_map.1 he
    obtain ⟨x1, x2, x3⟩ := I1.pool x hx
    refine ⟨x1.symm, x2, ?_⟩
    rw [hsv]
    exact x3
  have hpool : ∀ e ∈ knownPool σ1, ∀ g ∈ e.2.2,
      ValidAgg c.X c.H top.validators e.2.1 g ∧ e.2.1.slot < 2 ^ 32 := fun e he => (hQ e he).2.2
  have hin : ∀ e ∈ knownPool σ1, ∀ g ∈ e.2.2, ∀ v, In v g → v < vals.length := by
    intro e he g hg v hvg
    obtain ⟨⟨ks, k1, -⟩, -⟩ := hpool e he g hg
    have hvg : g.participants[v]? = some true := hvg
    obtain ⟨k, -, val, hval, -⟩ := forall2_mem_left k1 (List.mem_filter.2
      ⟨List.mem_range.2 (List.getElem?_eq_some_iff.1 hvg).1, by simp [hvg]⟩)
    rw [← hsv]
    exact (List.getElem?_eq_some_iff.1 hval).1
  have hl : historicalRootsLimit = 262144 := rfl
  have hs32 : s + 1 < 2 ^ 32 := by omega
  have hss : top.slot = s := R0.slot (Nat.le_refl _) hst
  -- the block is built
  obtain ⟨cs, top', hc, htip, hst'⟩ := state_chain W A R0.inv hst
  have hbb : (∀ parent known pool cfg,
      buildBlock c.H (mergeProofs c.X c.H vals) c.ord top (s + 1) ((s + 1) % vals.length) parent
        known pool cfg =
      buildBlock c.H (mergeProofs c.X c.H vals) c.ord top' (s + 1) ((s + 1) % vals.length) parent
        known pool cfg) ∧ (∀ b, importState c.H top b = importState c.H top' b) ∧
      top'.slot = top.slot ∧ top'.historicalBlockHashes = top.historicalBlockHashes ∧
      top'.latestJustified = top.latestJustified ∧ top'.latestFinalized = top.latestFinalized ∧
      top'.justifiedSlots = top.justifiedSlots := by
    rcases hst' with rfl | ⟨h0, rfl⟩
    · exact ⟨fun _ _ _ _ => rfl, fun _ => rfl, rfl, rfl, rfl, rfl, rfl⟩
    · exact ⟨fun _ _ _ _ => buildBlock_filled (W.stateNZ _) h0,
        fun _ => import_filled (W.stateNZ _) h0, rfl, rfl, rfl, rfl, rfl⟩
  obtain ⟨e1, e2, e3, e4, e5, e6, e7⟩ := hbb
  have htip : tipRoot c.H (State.fromGenesis c.H t vals) cs = f s := htip
  obtain ⟨b, proofs, post, hb⟩ := C43_succeeds (H := c.H) W.stateNZ hc
    (merge := mergeProofs c.X c.H vals) (ord := c.ord) Q.ord (slot := s + 1)
    (by rw [e3, hss]; omega) hlim hv hvl
    (known := σ1.mem.db.liveChain.map (fun e => e.1.2)) (pool := knownPool σ1) hn hin
    (c := c.config)
    (by
      intro _ d ps hlen hps
      have hd : d.slot < 2 ^ 32 := by
        obtain ⟨p, hp⟩ : ∃ p, p ∈ ps := by
          cases ps with
          | nil => simp at hlen
          | cons p ps => exact ⟨p, List.mem_cons_self⟩
        obtain ⟨e, he, rfl, hp⟩ := hps p hp
        exact (hpool e he p hp).2
      refine mergeProofs_some Q.live hlen (fun g hg => ?_) hd
      obtain ⟨e, he, rfl, hp⟩ := hps g hg
      have := (hpool e he g hp).1
      rw [hsv] at this
      exact this)
  rw [htip] at hb
  have hb0 := hb
  rw [← e1] at hb
  have hp1 : σ1.mem.db.head = f s := R1.head
  have hprod : produceBlock c.X c.H c.ord σ0 (s + 1) ((s + 1) % vals.length) c.config =
      .ok (σ1, some (b, proofs)) := by
    unfold produceBlock
    rw [R0.head, g1]
    simp only
    rw [if_neg (by
      rw [hsv]
      simp [isProposer, currentProposer, Nat.ne_of_gt hv]), hsv, hp1, hb]
  have hmod : (s + 1) % vals.length < vals.length := Nat.mod_lt _ hv
  have hb1 := hb
  rw [← hsv] at hb1
  obtain ⟨sb, hasm⟩ := assembleProof_some (vid := (s + 1) % vals.length) Q.complete Q.live Q.ord hn
    hpool (by rw [hsv]; exact Q.signs _ hmine) (by rw [hsv]; exact Q.can _ hmine)
    (by rw [hsv]; exact hmod) hs32 (by rw [hsv]; exact hb)
  obtain ⟨k1, -, k3⟩ := C80_own_block (vid := (s + 1) % vals.length) Q.complete Q.ord hn hpool
    (by rw [hsv]; exact Q.signs _ hmine) hs32 (by rw [hsv]; exact hb) hasm
  obtain ⟨b1, b2, b3, -⟩ := C43_accepted hn hb
  obtain ⟨σ2, h1, h3, h4, R2⟩ := R1.getState W (f s)
  have hst1 : stateOf root anchor (.readState (f s) :: ops0) (f s) = some top := by
    rw [stateOf_quiet (op := .readState _) trivial, hst]
  rw [hst1] at h1
  have hh : Node.headState σ1 = .ok (top, σ2) := by
    unfold Node.headState
    rw [hp1, h1]
  have I2 := h4.rested I1
  have hslot2 : s + 1 ≤ σ2.currentSlot + 1 := by
    unfold Store.currentSlot
    rw [h3, g2, p3]
    show s + 1 ≤ 5 * (s + 1) / 5 + 1
    omega
  obtain ⟨imp, c1, c2⟩ := k3 σ2 (by omega) hslot2
  have hcheck : ∀ σ : Store, s + 1 ≤ σ.currentSlot + 1 → checkBlock c.ctx.E σ top sb = .ok imp := by
    intro σ hσ
    obtain ⟨imp', z1, z2⟩ := k3 σ (by omega) hσ
    rw [c2] at z2
    cases z2
    exact z1
  -- the state after it
  have hB : P → Below top (voteOn f s top.latestJustified.slot u) := fun h =>
    ⟨rfl, (hP h).1, R0.order.1, R0.isJust, R0.cap⟩
  have hlive : f s ∈ σ1.mem.db.liveChain.map (fun e => e.1.2) := R1.live
  have hmem : P → (c.H.attData v, voteOn f s top.latestJustified.slot u, [a]) ∈ knownPool σ1 ∧
      f s ∈ σ1.mem.db.liveChain.map (fun e => e.1.2) ∧ ∀ w, w < vals.length → In w a := by
    intro h
    obtain ⟨h1, h2⟩ := hget h
    have : σ1.knownP.data.get? (c.H.attData v) = some ⟨v, [a]⟩ := by
      rw [g3.knownP, p2]; exact h1
    refine ⟨?_, hlive, h2⟩
    rw [← hvote]
    exact List.mem_map.2 ⟨_, AMap.mem_of_get? this, rfl⟩
  have hpost : Moved top (voteOn f s top.latestJustified.slot u) P imp ∧
      (P → imp.latestJustified.slot = u) := by
    have hi := (e2 b).symm.trans c2
    have hD' : ∀ e ∈ knownPool σ1,
        jst top.justifiedSlots top.latestFinalized.slot e.2.1.target.slot = true ∨
        P ∧ e.2.1 = voteOn f s top.latestJustified.slot u := by
      intro e he
      rw [← hvote]
      exact hD _ (hQ e he).2.1
    have hord := R0.order.2
    have hh := R0.hist
    rcases hst' with rfl | ⟨h0, rfl⟩
    · exact track_post W.stateNZ hc Q.ord hv hn (fun e he => (hQ e he).1) hin Q.merges
        Q.room hb0 htip (e3.trans hss) hlim hh hlen
        (fun i j hi hj => R0.inj hi hj) (fun i hi => R0.nz W hi) hord hB (fun h => (hP h).2) hD' hmem hi
    · have := track_post W.stateNZ hc Q.ord hv hn (fun e he => (hQ e he).1) hin Q.merges
        Q.room hb0 htip (e3.trans hss) hlim hh hlen
        (fun i j hi hj => R0.inj hi hj) (fun i hi => R0.nz W hi) hord
        (P := P) (u := u) (fun h => ⟨rfl, (hP h).1, R0.order.1, R0.isJust, R0.cap⟩)
        (fun h => (hP h).2) hD' hmem hi
      refine ⟨?_, this.2⟩
      cases this.1 with
      | still x y z => exact .still x y z
      | up p x y z w k => exact .up p x y z w k
  rw [← hvote] at hpost
  have hmono : top.latestJustified.slot ≤ imp.latestJustified.slot ∧
      top.latestFinalized.slot ≤ imp.latestFinalized.slot ∧
      ∀ k, jst imp.justifiedSlots imp.latestFinalized.slot k = true →
        k ≤ imp.latestJustified.slot := by
    have hord := R0.order.1
    cases hpost.1 with
    | still x y z => exact ⟨by omega, by omega, fun k hk => by rw [x]; exact R0.cap k ((z k).symm.trans hk)⟩
    | up p x y z w k =>
      have hu : v.target.slot = u := by rw [hvote]; rfl
      have hs' : v.source.slot = top.latestJustified.slot := by rw [hvote]; rfl
      refine ⟨?_, ?_, fun i hi => by rw [x]; exact k i hi⟩
      · have := (hP p).1
        omega
      · rw [y]
        split
        · exact Nat.le_refl _
        · omega
  have N : NextStep c.ctx.E f s top imp sb :=
    ⟨by rw [k1, b3], by rw [k1, b1], hcheck, hmono.1, hmono.2.1, hmono.2.2⟩
  refine ⟨σ2, sb, imp, N, hpost.1, hpost.2, ?_, ?_⟩
  · unfold Node.propose
    have p1 : proposalStore c.H σ (s + 1) = .ok σ0 := p1
    rw [p1]
    simp only
    rw [hprod]
    simp only
    rw [hh]
    simp only
    rw [hasm]
    simp only
    rw [k1]
    rfl
  · intro K' hK W' hk
    obtain ⟨σ', ops', i1, i2, i3, i4, i5, i6⟩ := (R2.mono hK).import W' (A.mono hK) hk N hslot2
    exact ⟨σ', ops', i1, i2, by rw [i3, h3, g2, p3], by rw [i4, h3, g2, p4],
      by rw [i5, h4.genesis, g3.genesis, p5], i6 _ _ I2⟩

end
end Verif.Node
