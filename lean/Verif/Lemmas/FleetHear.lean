import Verif.Lemmas.SoloSlot
import Verif.Spec.Fleet
import Verif.Props.C82_Counted
/-!
# Messages from other nodes on the same line
-/
namespace Verif.Node
open Verif Verif.Db Verif.Sync Verif.Votes Verif.Buffers Verif.Build

/-- A valid aggregate passes the check. -/
theorem validAgg_verify {X : Crypto} {H : Hash} {vals : List Validator} {d : AttData} {a : Agg}
    (h : ValidAgg X H vals d a) (hs : d.slot < 2 ^ 32) :
    (∀ v ∈ validatorIndices a.participants, v < vals.length ∧
      (X.decodeKey (vals.getD v default).attestationPubkey).isSome = true) ∧
    (envOf X H).verifyAgg a ((validatorIndices a.participants).map
      (fun v => (vals.getD v default).attestationPubkey)) (H.attData d) d.slot = true := by
  obtain ⟨ks, h1, h2, h3⟩ := h
  have hall : ∀ {l : List Nat} {ks : List Nat}, List.Forall₂ (fun v k => ∃ val, vals[v]? = some val ∧
      X.decodeKey val.attestationPubkey = some k) l ks →
      List.Forall₂ (fun v k => v < vals.length ∧
        X.decodeKey (vals.getD v default).attestationPubkey = some k) l ks := by
    intro l ks h
    refine h.imp ?_
    rintro v k ⟨val, e1, e2⟩
    have hlt := (List.getElem?_eq_some_iff.1 e1).1
    refine ⟨hlt, ?_⟩
    rw [List.getD, e1]
    exact e2
  have h1 := hall h1
  have hset : ((List.range a.participants.length).filter
      (fun v => a.participants[v]? == some true)) = validatorIndices a.participants := rfl
  rw [hset] at h1
  constructor
  · intro v hv
    obtain ⟨k, -, e1, e2⟩ := forall2_mem_left h1 hv
    exact ⟨e1, by rw [e2]; rfl⟩
  · have hdec : decodeAll X ((validatorIndices a.participants).map
        (fun v => (vals.getD v default).attestationPubkey)) = some ks := by
      rw [decodeAll_iff, List.forall₂_map_left_iff]
      exact h1.imp (fun _ _ h => h.2)
    simp only [envOf, hdec]
    unfold verifyType1
    rw [h2]
    simp only [ne_eq, not_true_eq_false, or_self, if_false, h3, if_true, decide_eq_true hs,
      Bool.true_and]
    rfl

section
variable {c : VCtx} {t : Nat} {vals : List Validator} {K : Header → Prop} {D : AttData → Prop}
  {root : Root} {anchor : State} {f : Nat → Root} {s : Nat} {top : State} {ops : List Db.Op}
  {σ : Store}

/-- What does not change while the messages of an interval arrive. -/
structure Mid (c : VCtx) (t : Nat) (vals : List Validator) (K : Header → Prop) (D : AttData → Prop)
    (root : Root) (anchor : State) (f : Nat → Root) (s : Nat) (top : State) (j : Nat) (safe : Root)
    (n : VNode) : Prop where
  row : ∃ ops, Row c.ctx.E t vals K root anchor f s top ops n.actor.store
  time : n.actor.store.mem.db.time = 5 * s + j
  safe : n.actor.store.mem.db.safeTarget = safe
  genesis : n.actor.store.genesisTime = t
  cap : n.actor.store.gossip.capacity = 2048
  pool : All (Proved c vals (fun d => D d ∧ d.slot < s ∧ d.target.slot ≤ s - 2))
    n.actor.store.knownP.data
  pending : n.actor.pending = []

/-- After the votes. -/
structure Voted (c : VCtx) (t : Nat) (vals : List Validator) (K : Header → Prop) (D : AttData → Prop)
    (root : Root) (anchor : State) (f : Nat → Root) (s : Nat) (top : State) (j : Nat)
    (vs : List Nat) (n : VNode) : Prop extends
    Mid c t vals K D root anchor f s top j (f (s - 1)) n where
  newP : n.actor.store.newP.data = []
  fcNew : n.actor.store.fc.new = []
  votes : Collected c.X c.H vals (lineVote f s) vs n.actor.store.gossip

/-- An aggregate of the votes of all validators has been seen, if `full`; nothing else has. -/
def TallyOf (X : Crypto) (H : Hash) (vals : List Validator) (d : AttData) (full : Prop) (σ : Store) :
    Prop :=
  (¬ full ∧ σ.newP.data = [] ∧ σ.fc.new = []) ∨
    (∃ a, σ.newP.data = [(H.attData d, ⟨d, [a]⟩)] ∧ (∀ v, v < vals.length → In v a) ∧
      ValidAgg X H vals d a) ∧
    (∀ v, v < vals.length → v ∈ σ.fc.new.keys) ∧ ∀ e ∈ σ.fc.new, e.2 = d

/-- After the aggregation. -/
structure Tallied (c : VCtx) (t : Nat) (vals : List Validator) (K : Header → Prop)
    (D : AttData → Prop) (root : Root) (anchor : State) (f : Nat → Root) (s : Nat) (top : State)
    (j : Nat) (safe : Root) (full : Prop) (n : VNode) : Prop extends
    Mid c t vals K D root anchor f s top j safe n where
  gossip : n.actor.store.gossip.data = []
  tally : TallyOf c.X c.H vals (lineVote f s) full n.actor.store

/-- Votes arrive. -/
theorem Voted.hear (W : World c.ctx.E t vals [] (State.fromGenesis c.ctx.E.H t vals) K)
    (hs : s < 2 ^ 32) (hv' : vals.length ≤ 2048) {agg : Bool} {vs : List Nat} {n : VNode}
    (V : Voted c t vals K D root anchor f s top 1 vs n) {e : List Event}
    (he : ∀ x ∈ e, ∃ v sig, x = .attestation v (lineVote f s) sig agg ∧
      ValidSig c.X c.H vals v (lineVote f s) sig) :
    ∃ n' vs', n.hear c e = .ok n' ∧ Voted c t vals K D root anchor f s top 1 vs' n' ∧
      ∀ v, v ∈ vs' ↔ v ∈ vs ∨ agg = true ∧ ∃ sig, Event.attestation v (lineVote f s) sig agg ∈ e := by
  induction e generalizing n vs with
  | nil => exact ⟨n, vs, rfl, V, by simp⟩
  | cons x e ih =>
    obtain ⟨v, sig, rfl, hsig⟩ := he x List.mem_cons_self
    obtain ⟨ops, R⟩ := V.row
    obtain ⟨σ', ops', h1, h2, h3, h4, h5, h6, h7, R', h8⟩ := R.takeVote W hs agg
      (by rw [V.time]; omega) hsig (by rw [V.cap]; exact hv') V.votes
    have V' : Voted c t vals K D root anchor f s top 1 (if agg then vs ++ [v] else vs)
        ⟨{ n.actor with store := σ' }, n.sync⟩ :=
      ⟨⟨⟨ops', R'⟩, by show σ'.mem.db.time = _; rw [h2]; exact V.time,
        by show σ'.mem.db.safeTarget = _; rw [h2]; exact V.safe, h6.trans V.genesis,
        h7.trans V.cap, by show All _ σ'.knownP.data; rw [h5]; exact V.pool, V.pending⟩,
        by show σ'.newP.data = _; rw [h4]; exact V.newP,
        by show σ'.fc.new = _; rw [h3]; exact V.fcNew, h8⟩
    obtain ⟨n', vs', g1, g2, g3⟩ := ih V' (fun x hx => he x (List.mem_cons_of_mem _ hx))
    refine ⟨n', vs', ?_, g2, ?_⟩
    · unfold VNode.hear VNode.step Actor.step Node.step
      simp only [h1, _root_.Verif.Node.R.store]
      exact g1
    · intro w
      rw [g3]
      cases agg with
      | false => simp
      | true =>
        simp only [if_true, List.mem_append, List.mem_cons, List.not_mem_nil, or_false, true_and,
          Event.attestation.injEq]
        constructor
        · rintro ((h | rfl) | ⟨sg, h⟩)
          · exact .inl h
          · exact .inr ⟨sig, .inl (by simp)⟩
          · exact .inr ⟨sg, .inr h⟩
        · rintro (h | ⟨sg, ⟨rfl, -⟩ | h⟩)
          · exact .inl (.inl h)
          · exact .inl (.inr rfl)
          · exact .inr ⟨sg, h⟩

/-- A full aggregate arrives. -/
theorem Row.takeAggregate (W : World c.ctx.E t vals [] (State.fromGenesis c.ctx.E.H t vals) K)
    (hs : s < 2 ^ 32) (hv : 0 < vals.length)
    (R : Row c.ctx.E t vals K root anchor f s top ops σ) (ht : 5 * s ≤ σ.mem.db.time + 1)
    {full : Prop} (T : TallyOf c.X c.H vals (lineVote f s) full σ) {a : Agg}
    (ha : ∀ v, v < vals.length → In v a) (hval : ValidAgg c.X c.H vals (lineVote f s) a) :
    ∃ σ' ops', onGossipAggregate c.ctx.E σ (lineVote f s) a = .ok (σ', .ok ()) ∧
      σ'.mem.db = σ.mem.db ∧ σ'.knownP = σ.knownP ∧ σ'.gossip = σ.gossip ∧
      σ'.genesisTime = σ.genesisTime ∧ Row c.ctx.E t vals K root anchor f s top ops' σ' ∧
      TallyOf c.X c.H vals (lineVote f s) True σ' := by
  obtain ⟨st, t1⟩ := R.states (s - 1) (by omega)
  obtain ⟨σ1, t2, t3, t4, R1⟩ := R.getState W (f (s - 1))
  rw [t1] at t2
  have hvl : st.validators = vals := state_vals W R.inv t1
  obtain ⟨k1, k2⟩ := validAgg_verify hval hs
  have hgo : onGossipAggregate c.ctx.E σ (lineVote f s) a =
      match insertNewPayload c.H σ1 (lineVote f s) a with
      | .error e => .error e
      | .ok s => .ok (s, .ok ()) := by
    unfold onGossipAggregate
    rw [R.voteOk W ht]
    simp only
    show (match σ.getState (f (s - 1)) with | .error e => _ | .ok (none, s) => _ | .ok (some st, s) => _) = _
    rw [t2]
    simp only
    rw [if_neg (by
      rw [List.isEmpty_iff]
      intro h
      have := mem_validatorIndices.2 (ha 0 hv)
      rw [h] at this
      cases this), hvl, if_neg (by
      rw [not_not, List.all_eq_true]
      intro v hv
      exact decide_eq_true (k1 v hv).1), if_neg (by
      rw [not_not, List.all_eq_true]
      intro b hb
      obtain ⟨v, hv, rfl⟩ := List.mem_map.1 hb
      exact (k1 v hv).2), if_neg (by
      rw [not_not]
      exact k2)]
    rfl
  have hin : ∀ v, v < vals.length → a.participants[v]? = some true := fun v hv => ha v hv
  rcases T with ⟨-, T1, T2⟩ | ⟨⟨b, T1, T2, T3⟩, T4, T5⟩
  · obtain ⟨b', e1, e2, e3⟩ := push_empty R1.inv.buf.new (by omega) (lineVote f s) a
      (by rw [t4.newP]; exact T1)
    refine ⟨{ σ1 with fc := insertNew c.H σ1.fc [(a.participants, lineVote f s)], newP := b' }, _, ?_,
      t3, t4.knownP, t4.gossip, t4.genesis,
      R1.buffers rfl ⟨e2, R1.inv.buf.known, R1.inv.buf.gossip, R1.inv.buf.gossipBound⟩,
      .inr ⟨⟨a, e3, ha, hval⟩, ?_, ?_⟩⟩
    · rw [hgo]
      unfold insertNewPayload
      rw [show σ1.newP.push c.H = σ1.newP.push c.ctx.E.H from rfl, e1]
    · intro v hv
      exact recordAll_keys (.inl (hin v hv))
    · show ∀ e ∈ recordAll c.H σ1.fc.new _ _, _
      rw [t4.fc, T2]
      exact recordAll_same (by intro e he; cases he)
  · have hsub : bitsIsSubset a.participants b.participants = true := by
      rw [bitsIsSubset_iff_indices]
      intro v hv
      exact mem_validatorIndices.2 (T2 v (k1 v hv).1)
    have hpush : σ1.newP.push c.H (lineVote f s) a = some σ1.newP := by
      unfold PayloadBuffer.push
      rw [t4.newP, T1]
      simp only [AMap.get?_cons, if_true, scan, hsub]
    refine ⟨{ σ1 with fc := insertNew c.H σ1.fc [(a.participants, lineVote f s)] }, _, ?_,
      t3, t4.knownP, t4.gossip, t4.genesis,
      R1.buffers rfl ⟨R1.inv.buf.new, R1.inv.buf.known, R1.inv.buf.gossip, R1.inv.buf.gossipBound⟩,
      .inr ⟨⟨b, by show σ1.newP.data = _; rw [t4.newP]; exact T1, T2, T3⟩, ?_, ?_⟩⟩
    · rw [hgo]
      unfold insertNewPayload
      rw [hpush]
    · intro v hv
      exact recordAll_keys (.inl (hin v hv))
    · show ∀ e ∈ recordAll c.H σ1.fc.new _ _, _
      rw [t4.fc]
      exact recordAll_same T5

/-- Aggregates arrive. -/
theorem Tallied.hear (W : World c.ctx.E t vals [] (State.fromGenesis c.ctx.E.H t vals) K)
    (hs : s < 2 ^ 32) (hv : 0 < vals.length) {safe : Root} {full : Prop} {n : VNode}
    (V : Tallied c t vals K D root anchor f s top 2 safe full n) {e : List Event}
    (he : ∀ x ∈ e, ∃ a, x = .aggregate (lineVote f s) a ∧ (∀ v, v < vals.length → In v a) ∧
      ValidAgg c.X c.H vals (lineVote f s) a) :
    ∃ n', n.hear c e = .ok n' ∧
      Tallied c t vals K D root anchor f s top 2 safe (full ∨ e ≠ []) n' := by
  induction e generalizing n full with
  | nil => exact ⟨n, rfl, by simpa using V⟩
  | cons x e ih =>
    obtain ⟨a, rfl, ha, hval⟩ := he x List.mem_cons_self
    obtain ⟨ops, R⟩ := V.row
    obtain ⟨σ', ops', h1, h2, h3, h4, h5, R', h6⟩ := R.takeAggregate W hs hv
      (by rw [V.time]; omega) V.tally ha hval
    have V' : Tallied c t vals K D root anchor f s top 2 safe True
        ⟨{ n.actor with store := σ' }, n.sync⟩ :=
      ⟨⟨⟨ops', R'⟩, by show σ'.mem.db.time = _; rw [h2]; exact V.time,
        by show σ'.mem.db.safeTarget = _; rw [h2]; exact V.safe, h5.trans V.genesis,
        by show σ'.gossip.capacity = _; rw [h4]; exact V.cap,
        by show All _ σ'.knownP.data; rw [h3]; exact V.pool, V.pending⟩,
        by show σ'.gossip.data = _; rw [h4]; exact V.gossip, h6⟩
    obtain ⟨n', g1, g2⟩ := ih V' (fun x hx => he x (List.mem_cons_of_mem _ hx))
    refine ⟨n', ?_, by simpa using g2⟩
    unfold VNode.hear VNode.step Actor.step Node.step
    simp only [h1, _root_.Verif.Node.R.store]
    exact g1

/-- The cleanup after a block. -/
theorem Row.prune {E : Env} (R : Row E t vals K root anchor f s top ops σ) :
    ∃ db ops', pruneOldData σ.mem.db = .ok db ∧
      Row E t vals K root anchor f s top ops' { σ with mem := { σ.mem with db := db } } ∧
      db.time = σ.mem.db.time ∧ db.safeTarget = σ.mem.db.safeTarget := by
  have I := R.inv
  obtain ⟨st, hst⟩ := I.cp.head
  have hh := (I.tree.own _ _ hst).2
  have fr : ∀ (db : Db) (a c : Nat), (pruneBelow db a c).liveChain = db.liveChain ∧
      (pruneBelow db a c).justified = db.justified ∧ (pruneBelow db a c).finalized = db.finalized ∧
      (pruneBelow db a c).head = db.head ∧ (pruneBelow db a c).headers = db.headers ∧
      (pruneBelow db a c).safeTarget = db.safeTarget ∧ (pruneBelow db a c).time = db.time :=
    by intro db a c; unfold pruneBelow; split <;> exact ⟨rfl, rfl, rfl, rfl, rfl, rfl, rfl⟩
  obtain ⟨f1, f2, f3, f4, f5, f6, f7⟩ := fr σ.mem.db σ.mem.db.finalized.slot
    (st.latestBlockHeader.slot - proofPruningRange)
  have e : pruneOldData σ.mem.db = .ok (pruneBelow σ.mem.db σ.mem.db.finalized.slot
      (st.latestBlockHeader.slot - proofPruningRange)) := by
    unfold pruneOldData
    rw [hh]
    simp only [pruneProofs]
  generalize pruneBelow σ.mem.db σ.mem.db.finalized.slot
    (st.latestBlockHeader.slot - proofPruningRange) = db' at *
  refine ⟨db', .pruneOldData :: ops, e, R.congr (I.quiet (by exact trivial) (by exact trivial) ?_ f5
      (I.cp.congr f1 f2 f3 f4 f5 (by rw [f6]; exact I.cp.safe))
      ⟨I.buf.new, I.buf.known, I.buf.gossip, I.buf.gossipBound⟩) (stateOf_quiet (by exact trivial))
      f5 f4 (by show db'.justified.slot = _; rw [f2]) (by show db'.finalized.slot = _; rw [f3]),
    f7, f6⟩
  show (match pruneOldData σ.mem.db with
    | .error e => .error e | .ok db => .ok { σ.mem with db := db } : P Mem) = _
  rw [e]

/-- Nothing is recovered from a block all of whose targets are justified. -/
theorem reaggregate_nil {X : Crypto} {H : Hash} {sb : SignedBlock}
    (h : ∀ x ∈ sb.block.body, x.data.target.slot ≤ σ.mem.db.justified.slot) :
    reaggregate X H σ sb = [] := by
  have hc : selectCands H σ sb.block.body = [] := by
    unfold selectCands
    rw [List.filterMap_eq_nil_iff.2]
    · rfl
    · rintro ⟨x, i⟩ hx
      have := (List.mem_zipIdx hx).2.2
      unfold candOf
      rw [if_pos]
      refine h x ?_
      rw [this]
      exact List.getElem_mem _
  unfold reaggregate
  simp only [hc, List.filterMap_nil]
  repeat' split
  all_goals rfl

/-- A node that waits for the block of slot `s + 1`. -/
structure Poised (c : VCtx) (t : Nat) (vals : List Validator) (K : Header → Prop) (D : AttData → Prop)
    (root : Root) (anchor : State) (f : Nat → Root) (s : Nat) (top : State) (time : Nat) (n : VNode) :
    Prop where
  row : ∃ ops, Row c.ctx.E t vals K root anchor f s top ops n.actor.store
  time : n.actor.store.mem.db.time = time
  safe : n.actor.store.mem.db.safeTarget = f s
  genesis : n.actor.store.genesisTime = t
  idle : Idle (Proved c vals (fun d => D d ∧ d.slot < s + 1 ∧ d.target.slot ≤ s - 1)) n.actor.store
  pending : n.actor.pending = []

/-- The publication tick of a node that is not the proposer. -/
theorem Poised.pubTick (W : World c.ctx.E t vals [] (State.fromGenesis c.ctx.E.H t vals) K) {n : VNode}
    (V : Poised c t vals K D root anchor f s top (5 * s + 4) n) (hv : 0 < vals.length)
    (hnot : (s + 1) % vals.length ∉ c.ids) {now : Nat}
    (hnow : (now - t * 1000) / 800 = 5 * (s + 1)) (agg : Bool) :
    ∃ n', n.tick c now agg = .ok (n', []) ∧
      Poised c t vals K D root anchor f s top (5 * (s + 1)) n' := by
  obtain ⟨ops, R⟩ := V.row
  rw [← V.genesis] at hnow
  have e2 : (now - n.actor.store.genesisTime * 1000) / msPerInterval = 5 * (s + 1) := hnow
  obtain ⟨st, σ1, ops1, h1, h2, h3, h4, R1⟩ := R.headState W
  obtain ⟨σ2, ops2, o1, o2, o3, R2⟩ := R1.ourProposer W (s + 1)
  rw [find_none hnot] at o1
  obtain ⟨sync, h5⟩ : ∃ sync, updateSync n.sync σ1 (s + 1) = .ok sync := by
    unfold Node.updateSync
    rw [R1.headSlot]
    exact ⟨_, rfl⟩
  have e1 : (now - n.actor.store.genesisTime * 1000) / msPerSlot = s + 1 := by
    show _ / 4000 = _
    omega
  have hms : Interval.ofMs (now - n.actor.store.genesisTime * 1000) = some .publication := by
    unfold Interval.ofMs
    rw [e2]
    unfold Interval.ofCount
    rw [show 5 * (s + 1) % intervalsPerSlot = 0 by show 5 * (s + 1) % 5 = 0; omega]
    rfl
  have hdb : σ2.mem.db = n.actor.store.mem.db := o2.trans h3
  have hm : SameMem n.actor.store σ2 := h4.trans o3
  have ht : onTick c.H σ2 now false = .ok (σ2.setTime (5 * (s + 1))) := by
    unfold onTick tickTarget
    simp only [hm.genesis, e2, hdb, V.time]
    rw [if_neg (by show ¬ (_ > 5); omega)]
    have h1' : 5 * (s + 1) - σ2.mem.db.time = 1 := by rw [hdb, V.time]; omega
    rw [h1']
    unfold tickLoop
    have hst : σ2.setTime (σ2.mem.db.time + 1) = σ2.setTime (5 * (s + 1)) := by
      rw [hdb, V.time]
      rfl
    have hic : Interval.ofCount (σ2.setTime (5 * (s + 1))).mem.db.time = some .publication := by
      show Interval.ofCount (5 * (s + 1)) = _
      unfold Interval.ofCount
      rw [show 5 * (s + 1) % intervalsPerSlot = 0 by show 5 * (s + 1) % 5 = 0; omega]
      rfl
    simp only [hst, hic, Bool.false_and, duty, Bool.false_eq_true, if_false]
    rfl
  refine ⟨⟨{ n.actor with store := σ2.setTime (5 * (s + 1)) }, sync⟩, ?_, ⟨_, R2.setTime _⟩, rfl,
    ?_, ?_, ?_, V.pending⟩
  · unfold VNode.tick
    simp only [e1, e2]
    rw [if_neg (by rw [V.time]; omega), hms]
    simp only
    rw [h1]
    simp only
    rw [if_neg (by
      rw [state_vals W R.inv h2]
      simp only [List.isEmpty_iff]
      intro h
      rw [h] at hv
      exact absurd hv (Nat.lt_irrefl _)), h5]
    simp only
    rw [if_pos (by simp), o1]
    simp only [Option.isSome_none]
    rw [ht]
    rfl
  · show σ2.mem.db.safeTarget = _
    rw [hdb]
    exact V.safe
  · show σ2.genesisTime = _
    rw [hm.genesis]
    exact V.genesis
  · have := hm.idle V.idle
    exact ⟨this.gossip, this.cap, this.newP, this.fcNew, this.pool⟩

/-- A node of the network at the start of slot `s`. -/
structure Steady (c : VCtx) (t : Nat) (vals : List Validator) (K : Header → Prop)
    (D : AttData → Prop) (root : Root) (anchor : State) (f : Nat → Root) (s : Nat) (top : State)
    (n : VNode) : Prop where
  calm : ∃ ops, Calm c t vals K D root anchor f s top ops n.actor.store
  pending : n.actor.pending = []

theorem hear_block {n : VNode} {sb : SignedBlock} {σ1 : Store}
    (hrg : ∀ σ' sb', c.reagg σ' sb' = [] ∨ c.reagg σ' sb' = reaggregate c.X c.H σ' sb')
    (hp : n.actor.pending = [])
    (hs : n.actor.store.mem.db.finalized.slot < sb.block.slot)
    (ht : sb.block.slot * 5 ≤ n.actor.store.mem.db.time + 1)
    (hpar : hasState n.actor.store.mem.db sb.block.parentRoot = true)
    (hon : onBlock c.ctx.E n.actor.store sb = .ok (σ1, .ok ()))
    (hre : ∀ x ∈ sb.block.body, x.data.target.slot ≤ σ1.mem.db.justified.slot)
    {db : Db} (hpr : pruneOldData σ1.mem.db = .ok db) :
    n.step c (.other (.block sb)) = .ok (⟨⟨{ σ1 with mem := { σ1.mem with db := db } },
      n.actor.pending, n.actor.parents⟩, n.sync⟩, []) := by
  have hreagg : c.reagg σ1 sb = [] := by
    rcases hrg σ1 sb with h | h
    · exact h
    · exact h.trans (reaggregate_nil hre)
  have hproc : n.actor.process c.ctx sb = .ok ⟨⟨σ1, n.actor.pending, n.actor.parents⟩, [], []⟩ := by
    unfold Actor.process
    simp only
    rw [if_neg (by omega), if_neg (by
      show ¬ (sb.block.slot * 5 > n.actor.store.mem.db.time + 1)
      omega), if_neg (by rw [hpar]; simp), hon]
    simp only
    rw [hreagg]
    simp only [foldAggs, foldP, Actor.collect, hp, AMap.get?_nil]
  have hd : drain c.ctx (waiting n.actor.pending + n.actor.store.mem.db.headers.length + 5) n.actor
      [sb] = .ok (⟨σ1, n.actor.pending, n.actor.parents⟩, []) := by
    rw [show waiting n.actor.pending + n.actor.store.mem.db.headers.length + 5 =
      (waiting n.actor.pending + n.actor.store.mem.db.headers.length + 4) + 1 by omega]
    unfold drain
    rw [hproc]
    simp only [List.nil_append]
    rw [show waiting n.actor.pending + n.actor.store.mem.db.headers.length + 4 =
      (waiting n.actor.pending + n.actor.store.mem.db.headers.length + 3) + 1 by omega]
    rfl
  unfold VNode.step Actor.step Actor.onBlock
  simp only
  rw [hd]
  simp only
  rw [hpr]

/-- The block of the new slot arrives. -/
theorem Poised.block (W : World c.ctx.E t vals [] (State.fromGenesis c.ctx.E.H t vals) K)
    (A : AnchorOk c.ctx.E.H (State.fromGenesis c.ctx.E.H t vals) K root anchor)
    (hrg : ∀ σ' sb', c.reagg σ' sb' = [] ∨ c.reagg σ' sb' = reaggregate c.X c.H σ' sb')
    {n : VNode} (V : Poised c t vals K D root anchor f s top (5 * (s + 1)) n) {sb : SignedBlock}
    {st : State} (N : NextBlock c.ctx.E f s top st sb) (hk : K (sb.block.header c.ctx.E.H)) :
    ∃ n', n.step c (.other (.block sb)) = .ok (n', []) ∧
      Steady c t vals K D root anchor (extend f s (sb.block.root c.H)) (s + 1) st n' := by
  obtain ⟨ops, R⟩ := V.row
  have hcs : n.actor.store.currentSlot = s + 1 := by
    unfold Store.currentSlot
    rw [V.time]
    show 5 * (s + 1) / 5 = _
    omega
  obtain ⟨σ1, ops1, h1, R1, h2, h3, h4, h5⟩ := R.import W A hk N (by omega)
  obtain ⟨db, ops2, h6, R2, h7, h8⟩ := R1.prune
  refine ⟨_, hear_block hrg V.pending (by rw [R.fin, N.slot]; omega)
    (by rw [N.slot, V.time]; omega) ?_ h1 ?_ h6, ⟨ops2, R2, ?_, ?_, ?_, ?_⟩, V.pending⟩
  · obtain ⟨x, hx⟩ := R.states s (Nat.le_refl _)
    rw [hasState_iff (R.inv.inv W).repr, N.parent, hx]
    rfl
  · intro x hx
    rw [R1.just]
    exact N.targets x hx
  · show db.time = _
    rw [h7, h2, V.time]
  · show db.safeTarget = _
    rw [h8, h3, V.safe, Nat.add_sub_cancel]
    unfold extend
    rw [if_neg (by omega)]
  · exact h4.trans V.genesis
  · have := h5 _ V.idle
    exact ⟨this.gossip, this.cap, this.newP, this.fcNew, this.pool⟩

/-- It arrives again. -/
theorem Steady.block (W : World c.ctx.E t vals [] (State.fromGenesis c.ctx.E.H t vals) K)
    (hrg : ∀ σ' sb', c.reagg σ' sb' = [] ∨ c.reagg σ' sb' = reaggregate c.X c.H σ' sb')
    {n : VNode} {sb : SignedBlock} {st : State} (N : NextBlock c.ctx.E f s top st sb)
    (V : Steady c t vals K D root anchor (extend f s (sb.block.root c.H)) (s + 1) st n) :
    ∃ n', n.step c (.other (.block sb)) = .ok (n', []) ∧
      Steady c t vals K D root anchor (extend f s (sb.block.root c.H)) (s + 1) st n' := by
  obtain ⟨ops, C⟩ := V.calm
  have R := C.row
  obtain ⟨db, ops2, h6, R2, h7, h8⟩ := R.prune
  have hst : ∀ i, i ≤ s + 1 → hasState n.actor.store.mem.db
      (extend f s (sb.block.root c.H) i) = true := by
    intro i hi
    obtain ⟨x, hx⟩ := R.states i hi
    rw [hasState_iff (R.inv.inv W).repr, hx]
    rfl
  refine ⟨_, hear_block (σ1 := n.actor.store) hrg V.pending (by rw [R.fin, N.slot]; omega)
    (by rw [N.slot, C.time]; omega) ?_ ?_ ?_ h6, ⟨ops2, R2, ?_, ?_, C.genesis, ?_⟩, V.pending⟩
  · have := hst s (by omega)
    unfold extend at this
    rw [if_neg (by omega)] at this
    rw [N.parent]
    exact this
  · have := hst (s + 1) (by omega)
    unfold extend at this
    rw [if_pos rfl] at this
    unfold Node.onBlock
    exact if_pos this
  · intro x hx
    rw [R.just]
    exact N.targets x hx
  · show db.time = _
    rw [h7, C.time]
  · show db.safeTarget = _
    rw [h8, C.safe]
  · exact ⟨C.idle.gossip, C.idle.cap, C.idle.newP, C.idle.fcNew, C.idle.pool⟩

theorem Steady.hear (W : World c.ctx.E t vals [] (State.fromGenesis c.ctx.E.H t vals) K)
    (hrg : ∀ σ' sb', c.reagg σ' sb' = [] ∨ c.reagg σ' sb' = reaggregate c.X c.H σ' sb')
    {sb : SignedBlock} {st : State} (N : NextBlock c.ctx.E f s top st sb) {e : List Event} {n : VNode}
    (V : Steady c t vals K D root anchor (extend f s (sb.block.root c.H)) (s + 1) st n)
    (he : ∀ x ∈ e, x = .block sb) :
    ∃ n', n.hear c e = .ok n' ∧
      Steady c t vals K D root anchor (extend f s (sb.block.root c.H)) (s + 1) st n' := by
  induction e generalizing n with
  | nil => exact ⟨n, rfl, V⟩
  | cons x e ih =>
    obtain rfl := he x List.mem_cons_self
    obtain ⟨n1, h1, V1⟩ := V.block W hrg N
    obtain ⟨n', h2, V2⟩ := ih V1 (fun x hx => he x (List.mem_cons_of_mem _ hx))
    refine ⟨n', ?_, V2⟩
    unfold VNode.hear
    rw [h1]
    exact h2

theorem Poised.hear (W : World c.ctx.E t vals [] (State.fromGenesis c.ctx.E.H t vals) K)
    (A : AnchorOk c.ctx.E.H (State.fromGenesis c.ctx.E.H t vals) K root anchor)
    (hrg : ∀ σ' sb', c.reagg σ' sb' = [] ∨ c.reagg σ' sb' = reaggregate c.X c.H σ' sb')
    {n : VNode} (V : Poised c t vals K D root anchor f s top (5 * (s + 1)) n) {sb : SignedBlock}
    {st : State} (N : NextBlock c.ctx.E f s top st sb) (hk : K (sb.block.header c.ctx.E.H))
    {e : List Event} (he : ∀ x ∈ e, x = .block sb) (hne : e ≠ []) :
    ∃ n', n.hear c e = .ok n' ∧
      Steady c t vals K D root anchor (extend f s (sb.block.root c.H)) (s + 1) st n' := by
  cases e with
  | nil => exact absurd rfl hne
  | cons x e =>
    obtain rfl := he x List.mem_cons_self
    obtain ⟨n1, h1, V1⟩ := V.block W A hrg N hk
    obtain ⟨n', h2, V2⟩ := V1.hear W hrg N (fun x hx => he x (List.mem_cons_of_mem _ hx))
    refine ⟨n', ?_, V2⟩
    unfold VNode.hear
    rw [h1]
    exact h2

end
end Verif.Node
