import Verif.Lemmas.SoloPropose
/-!
# A whole slot
-/
namespace Verif.Node
open Verif Verif.Db Verif.Sync Verif.Votes Verif.Buffers Verif.Build

section
variable {c : VCtx} {t : Nat} {vals : List Validator} {K : Header → Prop} {root : Root}
  {anchor : State} {f : Nat → Root} {s : Nat} {top : State} {ops : List Db.Op}

/-- The last tick of a slot: the votes become known, and if it is the node's turn, it goes on to make
the next block. -/
theorem Row.endAccept
    (W : World c.ctx.E t vals [] (State.fromGenesis c.ctx.E.H t vals) K)
    (A : AnchorOk c.ctx.E.H (State.fromGenesis c.ctx.E.H t vals) K root anchor) {n : VNode}
    (R : Row c.ctx.E t vals K root anchor f s top ops n.actor.store) (hv : 0 < vals.length)
    (hlim : s + 1 ≤ historicalRootsLimit)
    {now : Nat} (hnow : (now - n.actor.store.genesisTime * 1000) / 800 = 5 * s + 4)
    (htime : n.actor.store.mem.db.time = 5 * s + 3)
    {D : AttData → Prop} (hinj : ∀ d d', D d → D d' → c.H.attData d = c.H.attData d' → d = d')
    (hd : D (lineVote f s)) {a : Agg}
    (hg : n.actor.store.gossip.data = []) (hcap : n.actor.store.gossip.capacity = 2048)
    (hnew : n.actor.store.newP.data = [(c.H.attData (lineVote f s), ⟨lineVote f s, [a]⟩)])
    (hk : All (Proved c vals D) n.actor.store.knownP.data)
    (hfr : n.actor.store.knownP.data.get? (c.H.attData (lineVote f s)) = none)
    (hval : ValidAgg c.X c.H vals (lineVote f s) a) (agg : Bool) :
    ∃ (sync : Tracker) (σ1 : Store) (ops1 : List Db.Op),
      n.tick c now agg =
        (match c.ids.find? (fun v => isProposer v (s + 1) vals.length) with
        | none => .ok (⟨{ n.actor with store := σ1 }, sync⟩, [])
        | some v =>
          match Node.propose c σ1 (s + 1) v with
          | .error e => .error e
          | .ok (σ', l) => .ok (⟨{ n.actor with store := σ' }, sync⟩, l)) ∧
      Row c.ctx.E t vals K root anchor f s top ops1 σ1 ∧
      Idle (Proved c vals D) σ1 ∧ σ1.mem.db.time = 5 * s + 4 ∧
      σ1.mem.db.safeTarget = n.actor.store.mem.db.safeTarget ∧
      σ1.genesisTime = n.actor.store.genesisTime ∧
      σ1.knownP.data.get? (c.H.attData (lineVote f s)) = some ⟨lineVote f s, [a]⟩ := by
  obtain ⟨sync, σ1, ops1, h1, h2, h3, R1, h4⟩ := R.tick W hv (j := 4) (by omega) (by omega) agg
    (i := .endOfSlot) rfl hnow (by omega)
  have hl : historicalRootsLimit = 262144 := rfl
  obtain ⟨σ2, ops2, a1, a2, a3, a4, a5, I2, R2⟩ := (R1.setTime (5 * s + 4)).acceptOne W A
    (P := fun d g => ValidAgg c.X c.H vals d g ∧ d.slot < 2 ^ 32) hinj hd
    ⟨hval, by show s < 2 ^ 32; omega⟩ (by show σ1.gossip.data = _; rw [h3.gossip]; exact hg)
    (by show σ1.gossip.capacity = _; rw [h3.gossip]; exact hcap)
    (by show σ1.newP.data = _; rw [h3.newP]; exact hnew)
    (by show All _ σ1.knownP.data; rw [h3.knownP]; exact hk)
    (by show σ1.knownP.data.get? _ = none; rw [h3.knownP]; exact hfr)
  obtain ⟨σ3, ops3, o1, o2, o3, R3⟩ := R2.ourProposer W (s + 1)
  refine ⟨sync, σ3, ops3, ?_, R3, o3.idle I2, by rw [o2, a3]; rfl, ?_, ?_, ?_⟩
  · rw [h4]
    have a1 : acceptNew c.H (σ1.setTime (5 * s + 4)) = .ok σ2 := a1
    simp only [duty, a1, actorDuty, o1, h1, if_true]
    cases c.ids.find? (fun v => isProposer v (s + 1) vals.length) with
    | none => rfl
    | some v =>
      simp only
      cases Node.propose c σ3 (s + 1) v with
      | error e => rfl
      | ok x => rfl
  · rw [o2, a4]
    show σ1.mem.db.safeTarget = _
    rw [h2]
  · rw [o3.genesis, a5]
    exact h3.genesis
  · rw [o3.knownP]; exact a2

/-- The same, for the node whose turn it is. -/
theorem Row.endTick (Q : Able c vals)
    (W : World c.ctx.E t vals [] (State.fromGenesis c.ctx.E.H t vals) K)
    (A : AnchorOk c.ctx.E.H (State.fromGenesis c.ctx.E.H t vals) K root anchor) {n : VNode}
    (R : Row c.ctx.E t vals K root anchor f s top ops n.actor.store) (hv : 0 < vals.length)
    (hmine : (s + 1) % vals.length ∈ c.ids)
    (hvl : vals.length ≤ validatorRegistryLimit) (hlim : s + 1 ≤ historicalRootsLimit)
    {now : Nat} (hnow : (now - n.actor.store.genesisTime * 1000) / 800 = 5 * s + 4)
    (htime : n.actor.store.mem.db.time = 5 * s + 3)
    {D : AttData → Prop} (hinj : ∀ d d', D d → D d' → c.H.attData d = c.H.attData d' → d = d')
    (hD : ∀ d, D d → d.target.slot ≤ s - 1) (hd : D (lineVote f s)) {a : Agg}
    (hg : n.actor.store.gossip.data = []) (hcap : n.actor.store.gossip.capacity = 2048)
    (hnew : n.actor.store.newP.data = [(c.H.attData (lineVote f s), ⟨lineVote f s, [a]⟩)])
    (hk : All (Proved c vals D) n.actor.store.knownP.data)
    (hfr : n.actor.store.knownP.data.get? (c.H.attData (lineVote f s)) = none)
    (hval : ValidAgg c.X c.H vals (lineVote f s) a) (ha : ∀ v, v < vals.length → In v a)
    (agg : Bool) :
    ∃ (sync : Tracker) (σ1 : Store) (sb : SignedBlock) (st : State),
      NextBlock c.ctx.E f s top st sb ∧
      n.tick c now agg =
        (match onBlock c.ctx.E σ1 sb with
        | .error e => .error e
        | .ok (σ', r) => .ok (⟨{ n.actor with store := σ' }, sync⟩,
            [.block ((s + 1) % vals.length) (s + 1) (sb.block.root c.H) (some (sb, r))])) ∧
      ∀ K' : Header → Prop, (∀ h, K h → K' h) →
        World c.ctx.E t vals [] (State.fromGenesis c.ctx.E.H t vals) K' →
        K' (sb.block.header c.H) →
        ∃ σ' ops', onBlock c.ctx.E σ1 sb = .ok (σ', .ok ()) ∧
          Row c.ctx.E t vals K' root anchor (extend f s (sb.block.root c.H)) (s + 1) st ops' σ' ∧
          σ'.mem.db.time = 5 * (s + 1) ∧ σ'.mem.db.safeTarget = n.actor.store.mem.db.safeTarget ∧
          σ'.genesisTime = n.actor.store.genesisTime ∧ Idle (Proved c vals D) σ' := by
  obtain ⟨sync, σ3, ops3, h1, R3, I3, h3, h4, h5, h6⟩ := R.endAccept W A hv hlim hnow htime hinj hd hg
    hcap hnew hk hfr hval agg
  rw [find_proposer hv hmine] at h1
  obtain ⟨σ4, sb, st, N, p1, p2⟩ := R3.propose Q W A hv hmine hvl hlim (D := D) I3 hD h3 (a := a) h6 ha
  refine ⟨sync, σ4, sb, st, N, ?_, ?_⟩
  · rw [h1]
    simp only
    rw [p1]
    cases onBlock c.ctx.E σ4 sb with
    | error e => rfl
    | ok x => rfl
  · intro K' hK W' hk
    obtain ⟨σ', ops', q1, q2, q3, q4, q5, q6⟩ := p2 K' hK W' hk
    exact ⟨σ', ops', q1, q2, q3, by rw [q4, h4], by rw [q5, h5], q6⟩

/-- A node at the start of slot `s`, all of whose blocks lie on the line `f`; votes it knows are in
`D`. -/
structure Calm (c : VCtx) (t : Nat) (vals : List Validator) (K : Header → Prop)
    (D : AttData → Prop) (root : Root) (anchor : State) (f : Nat → Root) (s : Nat) (top : State)
    (ops : List Db.Op) (σ : Store) : Prop where
  row : Row c.ctx.E t vals K root anchor f s top ops σ
  time : σ.mem.db.time = 5 * s
  safe : σ.mem.db.safeTarget = f (s - 1)
  genesis : σ.genesisTime = t
  idle : Idle (Proved c vals (fun d => D d ∧ d.slot < s ∧ d.target.slot ≤ s - 2)) σ

/-- What follows the votes of a slot. -/
def slotRest (c : VCtx) (n : VNode) (slot : Nat) (w : Times) (l : List Signed) :
    P (VNode × List Signed) :=
  match n.tick c w.aggregation true with
  | .error e => .error e
  | .ok (n, l2) =>
  match n.session c slot with
  | .error e => .error e
  | .ok (n, _) =>
  match n.tick c w.safeTarget true with
  | .error e => .error e
  | .ok (n, l3) =>
  match n.tick c w.endOfSlot true with
  | .error e => .error e
  | .ok (n, l4) => .ok (n, l ++ l2 ++ l3 ++ l4)

/-- The votes of a slot. -/
def lineVotes (c : VCtx) (f : Nat → Root) (s : Nat) : List Signed :=
  c.ids.map (fun v => .vote v (lineVote f s) (c.sign v (lineVote f s)))

theorem Calm.votes (Q : Equipped c vals)
    (W : World c.ctx.E t vals [] (State.fromGenesis c.ctx.E.H t vals) K) {D : AttData → Prop}
    {n : VNode} (C : Calm c t vals K D root anchor f s top ops n.actor.store) (hv : 0 < vals.length)
    (hv' : vals.length ≤ 2048) (hlim : s ≤ historicalRootsLimit) {w : Times} (hw : OnTime t s w) :
    ∃ n' ops', n.slot c s w = slotRest c n' s w (lineVotes c f s) ∧
      n'.actor.store.mem.db = { n.actor.store.mem.db with time := 5 * s + 1 } ∧
      n'.actor.store.fc = n.actor.store.fc ∧ n'.actor.store.newP = n.actor.store.newP ∧
      n'.actor.store.knownP = n.actor.store.knownP ∧ n'.actor.store.genesisTime = t ∧
      n'.actor.store.gossip.capacity = 2048 ∧
      Row c.ctx.E t vals K root anchor f s top ops' n'.actor.store ∧
      Collected c.X c.H vals (lineVote f s) c.ids n'.actor.store.gossip := by
  have hl : historicalRootsLimit = 262144 := rfl
  obtain ⟨n1, ops1, a1, -, a2, a3, R1⟩ := C.row.pubTick W hv (now := w.publication)
    (by rw [C.genesis]; exact hw.publication) C.time true
  obtain ⟨n2, ops2, b1, -, b2, b3, b4, b5, b6, b7, R2, b8⟩ := R1.voteTick Q.toAble W hv
    (by rw [a3.gossip, C.idle.cap]; exact hv') (by omega) (now := w.attestation)
    (by rw [a3.genesis, C.genesis]; exact hw.attestation) (by rw [a2]; exact C.time)
    (by rw [a2]; exact C.safe) (by rw [a3.gossip]; exact C.idle.gossip) true
  refine ⟨n2, ops2, ?_, by rw [b2, a2], b3.trans a3.fc, b4.trans a3.newP, b5.trans a3.knownP,
    by rw [b6, a3.genesis, C.genesis], by rw [b7, a3.gossip, C.idle.cap], R2, b8⟩
  unfold VNode.slot slotRest
  rw [a1]
  simp only
  rw [b1]
  rfl

theorem Calm.slot (Q : Equipped c vals)
    (W : World c.ctx.E t vals [] (State.fromGenesis c.ctx.E.H t vals) K)
    (A : AnchorOk c.ctx.E.H (State.fromGenesis c.ctx.E.H t vals) K root anchor)
    {D : AttData → Prop} (hinj : ∀ d d', D d → D d' → c.H.attData d = c.H.attData d' → d = d')
    {n : VNode} (C : Calm c t vals K D root anchor f s top ops n.actor.store) (hv : 2 ≤ vals.length)
    (hv' : vals.length ≤ 2048) (hlim : s + 1 ≤ historicalRootsLimit) {w : Times}
    (hw : OnTime t s w) (hd : D (lineVote f s)) :
    ∃ (a0 : Actor) (sync : Tracker) (σ1 : Store) (sb : SignedBlock) (st : State),
      n.slot c s w =
        (match onBlock c.ctx.E σ1 sb with
        | .error e => .error e
        | .ok (σ', r) => .ok (⟨{ a0 with store := σ' }, sync⟩, lineVotes c f s ++
            [.block ((s + 1) % vals.length) (s + 1) (sb.block.root c.H) (some (sb, r))])) ∧
      ∀ K' : Header → Prop, (∀ h, K h → K' h) →
        World c.ctx.E t vals [] (State.fromGenesis c.ctx.E.H t vals) K' →
        K' (sb.block.header c.H) →
        ∃ σ' ops', onBlock c.ctx.E σ1 sb = .ok (σ', .ok ()) ∧
          Calm c t vals K' D root anchor (extend f s (sb.block.root c.H)) (s + 1) st ops' σ' := by
  have hl : historicalRootsLimit = 262144 := rfl
  obtain ⟨n2, ops2, b1, b2, b3, b4, b5, b6, b7, R2, b8⟩ := C.votes Q W (by omega) hv' (by omega) hw
  obtain ⟨n3, ops3, c1, -, c2, c3, R3⟩ := R2.aggTick W (by omega) (now := w.aggregation)
    (by rw [b6]; exact hw.aggregation) (by rw [b2]) true
  have hfresh : n3.actor.store.knownP.data.get? (c.H.attData (lineVote f s)) = none := by
    rw [c3.knownP, b5]
    cases hx : n.actor.store.knownP.data.get? (c.H.attData (lineVote f s)) with
    | none => rfl
    | some e =>
      obtain ⟨x1, x2, -⟩ := C.idle.pool.get hx
      have := hinj _ _ x2.1 hd x1
      have := x2.2.1
      rw [‹e.data = _›] at this
      exact absurd this (Nat.lt_irrefl _)
  obtain ⟨n4, ops4, a, d1, -, d2, d3, d4, d5, d6, d7, d8, d9, d10, d11, R4⟩ := R3.session Q.toAble W
    A hv (by show _ ≤ 4096; omega) (by omega) (by omega) (vs := c.ids)
    (fun v => ⟨Q.mine v, Q.all v⟩) (by rw [c3.gossip]; exact b8)
    (by rw [c3.newP, b4]; exact C.idle.newP) (by rw [c3.fc, b3]; exact C.idle.fcNew) hfresh
  obtain ⟨n5, ops5, e1, -, e2, e3, e4, R5⟩ := R4.safeTick W (by omega) (now := w.safeTarget)
    (by rw [d4, c3.genesis, b6]; exact hw.safeTarget) (by rw [d2, c2]) d10 d11 true
  have hknown : n5.actor.store.knownP = n.actor.store.knownP := by
    rw [e4.knownP, d3, c3.knownP, b5]
  have hgen : n5.actor.store.genesisTime = t := by rw [e4.genesis, d4, c3.genesis, b6]
  obtain ⟨sync, σ1, sb, st, -, g1, g2⟩ := R5.endTick Q.toAble W A (by omega)
    (Q.all _ (Nat.mod_lt _ (by omega))) (by show _ ≤ 4096; omega) hlim
    (now := w.endOfSlot) (by rw [hgen]; exact hw.endOfSlot) e2
    (D := fun d => D d ∧ d.slot < s + 1 ∧ d.target.slot ≤ s - 1)
    (fun d d' h h' => hinj d d' h.1 h'.1) (fun d h => h.2.2)
    ⟨hd, Nat.lt_succ_self _, Nat.le_refl _⟩ (a := a)
    (by rw [e4.gossip]; exact d5) (by rw [e4.gossip, d6, c3.gossip]; exact b7)
    (by rw [e4.newP]; exact d7)
    (by
      rw [hknown]
      intro x hx
      obtain ⟨x1, x2, x3⟩ := C.idle.pool x hx
      exact ⟨x1, ⟨x2.1, by have := x2.2.1; omega, by have := x2.2.2; omega⟩, x3⟩)
    (by
      rw [hknown, ← b5, ← c3.knownP]
      exact hfresh) d9 d8 true
  refine ⟨n5.actor, sync, σ1, sb, st, ?_, ?_⟩
  · rw [b1]
    unfold slotRest
    rw [c1]
    simp only
    rw [d1]
    simp only
    rw [e1]
    simp only
    rw [g1]
    cases onBlock c.ctx.E σ1 sb with
    | error e => rfl
    | ok x => simp
  · intro K' hK W' hk
    obtain ⟨σ', ops', q1, q2, q3, q4, q5, q6⟩ := g2 K' hK W' hk
    refine ⟨σ', ops', q1, q2, q3, ?_, by rw [q5, hgen], q6⟩
    rw [q4, e3, Nat.add_sub_cancel]
    unfold extend
    rw [if_neg (by omega)]

end
end Verif.Node
