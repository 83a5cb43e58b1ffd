import Verif.Lemmas.FleetHear
import Verif.Lemmas.SoloRun
/-!
# The intervals of a slot at a node of a network
-/
namespace Verif.Node
open Verif Verif.Db Verif.Sync Verif.Votes Verif.Buffers Verif.Build

section
variable {c : VCtx} {t : Nat} {vals : List Validator} {K : Header → Prop} {D : AttData → Prop}
  {root : Root} {anchor : State} {f : Nat → Root} {s : Nat} {top : State} {n : VNode}

theorem Steady.pubTick (W : World c.ctx.E t vals [] (State.fromGenesis c.ctx.E.H t vals) K)
    (V : Steady c t vals K D root anchor f s top n) (hv : 0 < vals.length) {now : Nat}
    (hnow : (now - t * 1000) / 800 = 5 * s) (agg : Bool) :
    ∃ n', n.tick c now agg = .ok (n', []) ∧ Steady c t vals K D root anchor f s top n' := by
  obtain ⟨ops, C⟩ := V.calm
  obtain ⟨n1, ops1, a1, a2, a3, a4, R1⟩ := C.row.pubTick W hv (now := now)
    (by rw [C.genesis]; exact hnow) C.time agg
  exact ⟨n1, a1, ⟨ops1, R1, by rw [a3]; exact C.time, by rw [a3]; exact C.safe,
    by rw [a4.genesis]; exact C.genesis, a4.idle C.idle⟩, by rw [a2]; exact V.pending⟩

theorem Steady.attest (Q : Able c vals)
    (W : World c.ctx.E t vals [] (State.fromGenesis c.ctx.E.H t vals) K)
    (V : Steady c t vals K D root anchor f s top n) (hv : 0 < vals.length)
    (hv' : vals.length ≤ 2048) (hs : s < 2 ^ 32) {now : Nat}
    (hnow : (now - t * 1000) / 800 = 5 * s + 1) (agg : Bool) :
    ∃ n', n.tick c now agg = .ok (n', lineVotes c f s) ∧
      Voted c t vals K D root anchor f s top 1 (if agg then c.ids else []) n' := by
  obtain ⟨ops, C⟩ := V.calm
  obtain ⟨n2, ops2, b1, b0, b2, b3, b4, b5, b6, b7, R2, b8⟩ := C.row.voteTick Q W hv
    (by rw [C.idle.cap]; exact hv') hs (now := now) (by rw [C.genesis]; exact hnow) C.time C.safe
    C.idle.gossip agg
  exact ⟨n2, b1, ⟨⟨ops2, R2⟩, by rw [b2], by rw [b2]; exact C.safe, b6.trans C.genesis,
    b7.trans C.idle.cap, by rw [b5]; exact C.idle.pool, b0.trans V.pending⟩,
    by rw [b4]; exact C.idle.newP, by rw [b3]; exact C.idle.fcNew, b8⟩

theorem Voted.aggTick (W : World c.ctx.E t vals [] (State.fromGenesis c.ctx.E.H t vals) K)
    {vs : List Nat} (V : Voted c t vals K D root anchor f s top 1 vs n) (hv : 0 < vals.length)
    {now : Nat} (hnow : (now - t * 1000) / 800 = 5 * s + 2) (agg : Bool) :
    ∃ n', n.tick c now agg = .ok (n', []) ∧ Voted c t vals K D root anchor f s top 2 vs n' := by
  obtain ⟨ops, R⟩ := V.row
  obtain ⟨n3, ops3, c1, c0, c2, c3, R3⟩ := R.aggTick W hv (now := now)
    (by rw [V.genesis]; exact hnow) V.time agg
  exact ⟨n3, c1, ⟨⟨ops3, R3⟩, by rw [c2], by rw [c2]; exact V.safe, c3.genesis.trans V.genesis,
    by rw [c3.gossip]; exact V.cap, by rw [c3.knownP]; exact V.pool, c0.trans V.pending⟩,
    by rw [c3.newP]; exact V.newP, by rw [c3.fc]; exact V.fcNew, by rw [c3.gossip]; exact V.votes⟩

/-- The vote of the slot is not known yet. -/
theorem Mid.fresh (hinj : ∀ d d', D d → D d' → c.H.attData d = c.H.attData d' → d = d') {j : Nat}
    {safe : Root} (V : Mid c t vals K D root anchor f s top j safe n) (hd : D (lineVote f s)) :
    n.actor.store.knownP.data.get? (c.H.attData (lineVote f s)) = none := by
  cases hx : n.actor.store.knownP.data.get? (c.H.attData (lineVote f s)) with
  | none => rfl
  | some e =>
    obtain ⟨x1, x2, -⟩ := V.pool.get hx
    have := hinj _ _ x2.1 hd x1
    have := x2.2.1
    rw [‹e.data = _›] at this
    exact absurd this (Nat.lt_irrefl _)

theorem Voted.session (Q : Able c vals)
    (W : World c.ctx.E t vals [] (State.fromGenesis c.ctx.E.H t vals) K)
    (A : AnchorOk c.ctx.E.H (State.fromGenesis c.ctx.E.H t vals) K root anchor)
    (hinj : ∀ d d', D d → D d' → c.H.attData d = c.H.attData d' → d = d') (hd : D (lineVote f s))
    {vs : List Nat} (V : Voted c t vals K D root anchor f s top 2 vs n) (hv : 2 ≤ vals.length)
    (hv' : vals.length ≤ 2048) (hs : s ≤ historicalRootsLimit)
    (hvs : ∀ v, v ∈ vs ↔ v < vals.length) :
    ∃ n' a, n.session c s = .ok (n', [(lineVote f s, a)]) ∧
      Tallied c t vals K D root anchor f s top 2 (f (s - 1)) True n' ∧
      (∀ v, v < vals.length → In v a) ∧ ValidAgg c.X c.H vals (lineVote f s) a := by
  have hl : historicalRootsLimit = 262144 := rfl
  obtain ⟨ops, R⟩ := V.row
  obtain ⟨n4, ops4, a, d1, d0, d2, d3, d4, d5, d6, d7, d8, d9, d10, d11, R4⟩ := R.session Q W
    A hv (by show _ ≤ 4096; omega) (by omega) hs hvs V.votes V.newP V.fcNew (V.fresh hinj hd)
  exact ⟨n4, a, d1, ⟨⟨⟨ops4, R4⟩, by rw [d2]; exact V.time, by rw [d2]; exact V.safe,
    d4.trans V.genesis, d6.trans V.cap, by rw [d3]; exact V.pool, d0.trans V.pending⟩, d5,
    .inr ⟨⟨a, d7, d8, d9⟩, d10, d11⟩⟩, d8, d9⟩

theorem Voted.noSession (V : Voted c t vals K D root anchor f s top 2 [] n) :
    Tallied c t vals K D root anchor f s top 2 (f (s - 1)) False n := by
  refine ⟨V.toMid, ?_, .inl ⟨id, V.newP, V.fcNew⟩⟩
  rcases V.votes with ⟨-, h⟩ | ⟨h, -⟩
  · exact h
  · exact absurd rfl h

theorem Tallied.safeTick (W : World c.ctx.E t vals [] (State.fromGenesis c.ctx.E.H t vals) K)
    {safe : Root} {full : Prop} (V : Tallied c t vals K D root anchor f s top 2 safe full n) (hf : full)
    (hv : 0 < vals.length) {now : Nat} (hnow : (now - t * 1000) / 800 = 5 * s + 3) (agg : Bool) :
    ∃ n', n.tick c now agg = .ok (n', []) ∧
      Tallied c t vals K D root anchor f s top 3 (f s) True n' := by
  obtain ⟨ops, R⟩ := V.row
  rcases V.tally with ⟨h, -⟩ | ⟨⟨a, h1, h2⟩, h3, h4⟩
  · exact absurd hf h
  obtain ⟨n5, ops5, e1, e0, e2, e3, e4, R5⟩ := R.safeTick W hv (now := now)
    (by rw [V.genesis]; exact hnow) V.time h3 h4 agg
  exact ⟨n5, e1, ⟨⟨ops5, R5⟩, e2, e3, e4.genesis.trans V.genesis, by rw [e4.gossip]; exact V.cap,
    by rw [e4.knownP]; exact V.pool, e0.trans V.pending⟩, by rw [e4.gossip]; exact V.gossip,
    .inr ⟨⟨a, by rw [e4.newP]; exact h1, h2⟩, by rw [e4.fc]; exact h3, by rw [e4.fc]; exact h4⟩⟩

theorem Mid.pool_next {j : Nat} {safe : Root} (V : Mid c t vals K D root anchor f s top j safe n) :
    All (Proved c vals (fun d => D d ∧ d.slot < s + 1 ∧ d.target.slot ≤ s - 1))
      n.actor.store.knownP.data := by
  intro x hx
  obtain ⟨x1, x2, x3⟩ := V.pool x hx
  exact ⟨x1, ⟨x2.1, by have := x2.2.1; omega, by have := x2.2.2; omega⟩, x3⟩

theorem Tallied.endOther (W : World c.ctx.E t vals [] (State.fromGenesis c.ctx.E.H t vals) K)
    (A : AnchorOk c.ctx.E.H (State.fromGenesis c.ctx.E.H t vals) K root anchor)
    (hinj : ∀ d d', D d → D d' → c.H.attData d = c.H.attData d' → d = d') (hd : D (lineVote f s))
    (V : Tallied c t vals K D root anchor f s top 3 (f s) True n) (hv : 0 < vals.length)
    (hlim : s + 1 ≤ historicalRootsLimit) (hnot : (s + 1) % vals.length ∉ c.ids) {now : Nat}
    (hnow : (now - t * 1000) / 800 = 5 * s + 4) (agg : Bool) :
    ∃ n', n.tick c now agg = .ok (n', []) ∧
      Poised c t vals K D root anchor f s top (5 * s + 4) n' := by
  obtain ⟨ops, R⟩ := V.row
  rcases V.tally with ⟨h, -⟩ | ⟨⟨a, h1, h2, h3⟩, -, -⟩
  · exact absurd trivial h
  obtain ⟨sync, σ1, ops1, g1, R1, g2, g3, g4, g5, -⟩ := R.endAccept W A hv hlim (now := now)
    (by rw [V.genesis]; exact hnow) V.time
    (D := fun d => D d ∧ d.slot < s + 1 ∧ d.target.slot ≤ s - 1)
    (fun d d' h h' => hinj d d' h.1 h'.1) ⟨hd, Nat.lt_succ_self _, Nat.le_refl _⟩ (a := a) V.gossip
    V.cap h1 V.pool_next (V.fresh hinj hd) h3 agg
  rw [find_none hnot] at g1
  exact ⟨_, g1, ⟨ops1, R1⟩, g3, g4.trans V.safe, g5.trans V.genesis, g2, V.pending⟩

theorem Tallied.endProposer (Q : Able c vals)
    (W : World c.ctx.E t vals [] (State.fromGenesis c.ctx.E.H t vals) K)
    (A : AnchorOk c.ctx.E.H (State.fromGenesis c.ctx.E.H t vals) K root anchor)
    (hinj : ∀ d d', D d → D d' → c.H.attData d = c.H.attData d' → d = d') (hd : D (lineVote f s))
    (V : Tallied c t vals K D root anchor f s top 3 (f s) True n) (hv : 0 < vals.length)
    (hv' : vals.length ≤ 2048) (hlim : s + 1 ≤ historicalRootsLimit)
    (hmine : (s + 1) % vals.length ∈ c.ids) {now : Nat}
    (hnow : (now - t * 1000) / 800 = 5 * s + 4) (agg : Bool) :
    ∃ (sync : Tracker) (σ1 : Store) (sb : SignedBlock) (st : State),
      NextBlock c.ctx.E f s top st sb ∧
      n.tick c now agg =
        (match onBlock c.ctx.E σ1 sb with
        | .error e => .error e
        | .ok (σ', r) => .ok (⟨{ n.actor with store := σ' }, sync⟩,
            [.block ((s + 1) % vals.length) (s + 1) (sb.block.root c.H) (some (sb, r))])) ∧
      (K (sb.block.header c.ctx.E.H) → ∃ σ', onBlock c.ctx.E σ1 sb = .ok (σ', .ok ()) ∧
        Steady c t vals K D root anchor (extend f s (sb.block.root c.H)) (s + 1) st
          ⟨{ n.actor with store := σ' }, sync⟩) := by
  obtain ⟨ops, R⟩ := V.row
  rcases V.tally with ⟨h, -⟩ | ⟨⟨a, h1, h2, h3⟩, -, -⟩
  · exact absurd trivial h
  obtain ⟨sync, σ1, sb, st, N, g1, g2⟩ := R.endTick Q W A hv hmine (by show _ ≤ 4096; omega) hlim
    (now := now) (by rw [V.genesis]; exact hnow) V.time
    (D := fun d => D d ∧ d.slot < s + 1 ∧ d.target.slot ≤ s - 1)
    (fun d d' h h' => hinj d d' h.1 h'.1) (fun d h => h.2.2)
    ⟨hd, Nat.lt_succ_self _, Nat.le_refl _⟩ (a := a) V.gossip V.cap h1 V.pool_next
    (V.fresh hinj hd) h3 h2 agg
  refine ⟨sync, σ1, sb, st, N, g1, fun hk => ?_⟩
  obtain ⟨σ', ops', q1, q2, q3, q4, q5, q6⟩ := g2 K (fun _ h => h) W hk
  refine ⟨σ', q1, ⟨ops', q2, q3, ?_, q5.trans V.genesis, q6⟩, V.pending⟩
  show σ'.mem.db.safeTarget = _
  rw [q4, V.safe, Nat.add_sub_cancel]
  unfold extend
  rw [if_neg (by omega)]

end
end Verif.Node
