import Verif.Lemmas.SessionSound
/-!
# C99: What an aggregator publishes

All executions of a node with its aggregation sessions: worker threads, delayed messages, deadlines, the
early start, role switches and restarts in any order.
-/
namespace Verif.Node
open Verif Verif.Db Verif.Sync Verif.Buffers Verif.Build

section
variable {c : VCtx} {u : Subnets} {a0 : State} {body : Option (List AggAtt)} {t : Nat}
  {vals : List Validator} {bs : List Block} {n m : ANode} {aevs : List AEvent} {out : List Signed}
  {pub : List Published}

/-- **C99, history.** Whatever the workers and timers do, a run of an aggregating node is a run of its
actor, in which besides the events from outside there are only cached reads, ticks, promotions, the
node's own votes and blocks, and the delivery of the aggregates it publishes; and these are the outputs
of its worker on jobs snapshotted earlier in that run. So what is proved of nodes whose own aggregates
are made that way holds of every node. -/
theorem C99_history (h0 : n.Fresh c a0 body) (h : ANRun c u n aevs m out pub) :
    ∃ evs, AReach c.ctx a0 body evs m.node.actor ∧ OwnMade c.X c.ctx (proveJob c.X) a0 body evs ∧
      (∀ ev ∈ evs, (∃ x ∈ aevs, x.outer = some ev) ∨ (∃ agg, ev.Caused out agg) ∨
        ∃ p ∈ pub, ∃ keys, ev = .ownAggregate p.data p.agg keys) ∧
      ∀ p ∈ pub, ∃ keys, Event.ownAggregate p.data p.agg keys ∈ evs := by
  obtain ⟨evs, K, h1, h2⟩ := h.kept h0
  exact ⟨evs, K.reach, K.own, h1, h2⟩

/-- **C99, timing.** No aggregate of the session of a slot is published before the third interval of
that slot, however early the session started. -/
theorem C99_timely (h0 : n.Fresh c a0 body) (h : ANRun c u n aevs m out pub) :
    ∀ p ∈ pub, n.node.actor.store.genesisTime * 1000 + p.id * 4000 + 1600 ≤ p.now := by
  suffices Punctual (n.node.actor.store.genesisTime * 1000) m ∧
      m.node.actor.store.genesisTime = n.node.actor.store.genesisTime ∧
      ∀ p ∈ pub, n.node.actor.store.genesisTime * 1000 + p.id * 4000 + 1600 ≤ p.now from this.2.2
  induction h with
  | nil =>
    refine ⟨⟨fun w hw => ?_, fun p hp => ?_⟩, rfl, fun p hp => (nomatch hp)⟩
    · rw [h0.workers] at hw; cases hw
    · rw [h0.mail] at hp; cases hp
  | step _ e ih =>
    obtain ⟨i1, i2, i3⟩ := ih
    obtain ⟨k1, k2⟩ := step_punctual (by rw [i2]) i1 e
    refine ⟨k1, (step_genesis e).genesis.trans i2, fun p hp => ?_⟩
    rcases List.mem_append.1 hp with hp | hp
    · exact i3 p hp
    · exact k2 p hp

/-- **C99, nothing is made up.** If signatures cannot be forged, every participant of every aggregate
the node publishes signed the vote. -/
theorem C99_signed {Signs : Nat → Nat → Root → Prop} (hX : Sound c.X Signs)
    (ho : ∀ l, (c.order l).Perm l)
    (hre : ∀ s sb, c.reagg s sb = reaggregate c.X c.H s sb ∨ c.reagg s sb = [])
    (h0 : n.Fresh c a0 body) (h : ANRun c u n aevs m out pub)
    (W : World (envOf c.X c.H) t vals bs a0 (HeaderIn c.H (State.fromGenesis c.H t vals) bs aevs out))
    (hN : RunInjective c.H aevs out) :
    ∀ p ∈ pub, ∀ v : Nat, p.agg.participants[v]? = some true →
      SignedVote c.X c.H Signs vals v p.data := by
  obtain ⟨evs, K, h1, h2⟩ := h.kept h0
  intro p hp
  obtain ⟨keys, hk⟩ := h2 p hp
  have W' := Accounted.world (E := envOf c.X c.H) h1 W
  have hN' := Accounted.noCollision h1 hN
  refine published_job (P := fun d g => ∀ v : Nat, g.participants[v]? = some true →
    SignedVote c.X c.H Signs vals v d) K.own (fun vals' jobs j o hm hj ha => ?_) hk
  refine hm.output (P := fun d g => ∀ v : Nat, g.participants[v]? = some true →
    SignedVote c.X c.H Signs vals v d) ho W'
    (fun evs' hs => signed_laws (X := c.X) (H := c.H) (order := c.order) (vals := vals) hX
      (hN'.suffix hs) hre) (fun D j out J hout v hv => ?_) K.own hj ha
  rcases ((C46_published _ _ _ hout).2.2.2.1 v).1 hv with hr | hc
  · obtain ⟨x, hx, rfl⟩ := List.mem_map.1 hr
    exact J.raw x hx
  · obtain ⟨qs, k1, -, k3⟩ := J.children
    rw [k3] at hc
    obtain ⟨q, hq, hvq⟩ := List.mem_flatMap.1 hc
    exact k1 q hq v (mem_validatorIndices.1 hvq)

/-- **C99, nothing is spoilt.** For nodes that see only one copy of each block, every aggregate the
node publishes is a valid proof that exactly its participants cast the vote. -/
theorem C99_valid (hX : Complete c.X) (hK : KeysDistinct c.X vals) (ho : ∀ l, (c.order l).Perm l)
    (hre : ∀ s sb, c.reagg s sb = reaggregate c.X c.H s sb ∨ c.reagg s sb = [])
    (h0 : n.Fresh c a0 body) (h : ANRun c u n aevs m out pub)
    (W : World (envOf c.X c.H) t vals bs a0 (HeaderIn c.H (State.fromGenesis c.H t vals) bs aevs out))
    (hN : RunInjective c.H aevs out)
    (h1 : ∀ sb sb', Brought aevs out sb → Brought aevs out sb' → sb.block = sb'.block → sb = sb') :
    ∀ p ∈ pub, ValidAgg c.X c.H vals p.data p.agg := by
  obtain ⟨evs, K, k1, k2⟩ := h.kept h0
  intro p hp
  obtain ⟨keys, hk⟩ := k2 p hp
  have W' := Accounted.world (E := envOf c.X c.H) k1 W
  have hN' := Accounted.noCollision k1 hN
  have hO : OneCopy evs := fun sb sb' a b => h1 sb sb' (Accounted.arrived k1 a) (Accounted.arrived k1 b)
  refine published_job (P := fun d g => ValidAgg c.X c.H vals d g) K.own
    (fun vals' jobs j o hm hj ha => ?_) hk
  exact (hm.output (P := fun d g => ValidAgg c.X c.H vals d g ∧ d.slot < 2 ^ 32) ho W'
    (fun evs' hs => valid_laws (X := c.X) (H := c.H) (order := c.order) (vals := vals) hX
      (hN'.suffix hs) (hO.suffix hs) hre)
    (fun D j out J hout => proveJob_valid hX hK J hout) K.own hj ha).1

/-- **C99, order and number.** As long as the wall clock does not go back and the node is not
restarted, the aggregates are published in the order of the sessions, so nothing of an earlier session
after a later one's, and at most two for each. -/
theorem C99_at_most_two (h0 : n.Fresh c a0 body) (h : ANRun c u n aevs m out pub)
    (hr : .restart ∉ aevs) (hc : ClockForward aevs) :
    (pub.map Published.id).Pairwise (· ≤ ·) ∧
    ∀ i, (pub.filter (fun p => decide (p.id = i))).length ≤ 2 := by
  obtain ⟨h1, -, h3⟩ := h.sessions h0 hr hc
  refine ⟨h1.order, fun i => ?_⟩
  have := h3 (fun _ => true) 2 (fun _ _ _ _ _ _ _ _ _ _ w _ hl => by
    refine Nat.le_trans List.countP_le_length hl) i
  unfold amount at this
  rw [← List.countP_eq_length_filter]
  simp only [Bool.and_true] at this
  omega

/-- **C99, no vote twice.** And no session publishes two aggregates of the same vote. -/
theorem C99_once (ho : ∀ l, (c.order l).Perm l)
    (h0 : n.Fresh c a0 body) (h : ANRun c u n aevs m out pub)
    (hr : .restart ∉ aevs) (hc : ClockForward aevs)
    (W : World (envOf c.X c.H) t vals bs a0
      (HeaderIn c.H (State.fromGenesis c.H t vals) bs aevs out)) :
    ∀ i d, (pub.filter (fun p => decide (p.id = i ∧ p.data = d))).length ≤ 1 := by
  intro i d
  obtain ⟨-, -, h3⟩ := h.sessions h0 hr hc
  have := h3 (fun d' => decide (d' = d)) 1 (fun aevs' m' out' pub' evs' r s o K k1 w hw _ => by
    obtain ⟨jobs, hm, hs⟩ := K.jobs w hw
    have W1 : World (envOf c.X c.H) t vals bs a0
        (HeaderIn c.H (State.fromGenesis c.H t vals) bs aevs' out') := by
      refine W.weaken ?_ (.inl rfl) (fun b hb => .inr (.inl ⟨b, hb, rfl⟩))
      rintro x (rfl | ⟨b, hb, rfl⟩ | ⟨sb, hs, rfl⟩)
      · exact W.genesis
      · exact W.old b hb
      · refine .inr (.inr ⟨sb, ?_, rfl⟩)
        rcases hs with hs | ⟨a, b, c, d, hs⟩
        · exact .inl (s.subset hs)
        · exact .inr ⟨a, b, c, d, o hs⟩
    have W' := Accounted.world (E := envOf c.X c.H) k1 W1
    have hn := hm.nodup ho W'
    refine Nat.le_trans (hs.countP_le (p := fun j => decide (j.data = d))) ?_
    have : jobs.countP (fun j => decide (j.data = d)) = (jobs.map Job.data).count d := by
      rw [List.count, List.countP_map]
      refine List.countP_congr fun x _ => ?_
      simp
    rw [this]
    exact List.nodup_iff_count_le_one.1 hn d) i
  unfold amount at this
  rw [← List.countP_eq_length_filter]
  simp only [Bool.decide_and]
  simp only at this
  omega

end

namespace Witness
open Verif.Witness

/-- A node without validators. -/
def sessCtx : VCtx := { dutyCtx with ids := [] }

def oneSubnet : Subnets := ⟨1, [0]⟩

def sessNode : ANode := match Actor.init sessCtx.ctx wG (some []) with
  | .error _ => ⟨⟨clockActor, Tracker.new true⟩, none, [], []⟩
  | .ok a => ⟨⟨a, Tracker.new true⟩, none, [], []⟩

theorem sessNode_fresh : sessNode.Fresh sessCtx wG (some []) := by
  have h : isOk (Actor.init sessCtx.ctx wG (some [])) = true := by decide +kernel
  unfold sessNode
  cases e : Actor.init sessCtx.ctx wG (some []) with
  | error x => rw [e] at h; cases h
  | ok a => exact ⟨e, rfl, rfl, rfl⟩

/-- Run, newest event first. -/
def anrun (c : VCtx) (u : Subnets) (n : ANode) :
    List AEvent → P (ANode × List Signed × List Published)
  | [] => .ok (n, [], [])
  | ev :: evs => match anrun c u n evs with
    | .error e => .error e
    | .ok (m, out, pub) => match m.step c u ev with
      | .error e => .error e
      | .ok (m, l, p) => .ok (m, out ++ l, pub ++ p)

theorem anrun_run {c : VCtx} {u : Subnets} {n : ANode} : ∀ {evs : List AEvent} {m : ANode}
    {out : List Signed} {pub : List Published}, anrun c u n evs = .ok (m, out, pub) →
    ANRun c u n evs m out pub
  | [], _, _, _, h => by cases h; exact .nil
  | ev :: evs, m, out, pub, h => by
    unfold anrun at h
    split at h
    · cases h
    next e1 =>
      split at h
      · cases h
      next e2 => cases h; exact (anrun_run e1).step e2

/-- Block 1 and validator 0's vote for it arrive in time, and validator 1's vote at 1.1 s into the slot
makes two of three: the session starts. Validator 2's vote, 0.1 s later, is left out. The worker is
done before the third interval; its message is held until then. -/
def sessEvs : List AEvent :=
  [ .deliver 0 5600, .timer 5600 true, .deliver 0 5300, .finish 0 5250, .begin 0,
    .attestation 2 (vote [] 0 1).data 1 5200 true, .attestation 1 (vote [] 0 1).data 1 5100 true,
    .attestation 0 (vote [] 0 1).data 1 5000 true, .timer 4900 true, .block (sgn (mkBlock 1 0 [])), .timer 4000 true ]

/-- What was voted and published. -/
def sessSeen (r : P (ANode × List Signed × List Published)) :
    Option (List (Nat × Nat) × List (Nat × Nat × AttData × Agg)) :=
  r.toOption.map (fun x => (x.2.1.map (fun s => match s with
    | Signed.vote v d _ => (v, d.slot)
    | Signed.block v s _ _ => (v, s)), x.2.2.map (fun p => (p.now, p.id, p.data, p.agg))))

/-- Everything of a run that came from outside or was signed, as events of the actor. -/
def asEvents (aevs : List AEvent) (out : List Signed) : List Event :=
  aevs.filterMap AEvent.outer ++ out.filterMap (fun s => match s with
    | .vote v d sig => sig.map (fun x => .attestation v d x true)
    | .block _ _ _ o => o.map (fun x => .own x.1))

theorem brought_arrived {aevs : List AEvent} {out : List Signed} {sb : SignedBlock}
    (h : Brought aevs out sb) : Arrived (asEvents aevs out) sb := by
  rcases h with h | ⟨v, s, r, o, h⟩
  · exact .inl (List.mem_append_left _ (List.mem_filterMap.2 ⟨_, h, rfl⟩))
  · exact .inr (List.mem_append_right _ (List.mem_filterMap.2 ⟨_, h, rfl⟩))

theorem voteIn_occurs {aevs : List AEvent} {out : List Signed} {d : AttData}
    (h : VoteIn aevs out d) : Occurs (asEvents aevs out) d := by
  rcases h with ⟨sb, h, x⟩ | ⟨v, sig, now, agg, h⟩ | ⟨g, h⟩ | ⟨v, sig, h⟩
  · exact .inl ⟨sb, brought_arrived h, x⟩
  · exact .inr (.inl ⟨v, sig, agg, List.mem_append_left _ (List.mem_filterMap.2 ⟨_, h, rfl⟩)⟩)
  · exact .inr (.inr ⟨g, List.mem_append_left _ (List.mem_filterMap.2 ⟨_, h, rfl⟩)⟩)
  · exact .inr (.inl ⟨v, sig, true, List.mem_append_right _ (List.mem_filterMap.2 ⟨_, h, rfl⟩)⟩)

theorem world_asEvents {aevs : List AEvent} {out : List Signed}
    (W : World (envOf wX wH) 0 wVals [] wG (Known wH wG [] (asEvents aevs out))) :
    World (envOf wX wH) 0 wVals [] wG (HeaderIn wH wG [] aevs out) := by
  refine W.weaken ?_ (.inl rfl) (fun b hb => .inr (.inl ⟨b, hb, rfl⟩))
  rintro x (h | h | ⟨sb, h, rfl⟩)
  · exact .inl h
  · exact .inr (.inl h)
  · exact .inr (.inr ⟨sb, brought_arrived h, rfl⟩)

theorem injective_asEvents {H : Hash} {aevs : List AEvent} {out : List Signed}
    (h : NoCollision H (asEvents aevs out)) : RunInjective H aevs out := by
  have hb : ∀ l, (l = [] ∨ ∃ sb, Brought aevs out sb ∧ sb.block.body = l) →
      BodyIn (asEvents aevs out) l := by
    rintro l (h | ⟨sb, h, x⟩)
    · exact .inl h
    · exact .inr ⟨sb, brought_arrived h, x⟩
  exact ⟨fun d d' h1 h2 => h.votes d d' (voteIn_occurs h1) (voteIn_occurs h2),
    fun l l' h1 h2 => h.bodies l l' (hb l h1) (hb l' h2)⟩

/-- What `sessEvs` made the node sign. -/
def sessOut : List Signed := match anrun sessCtx oneSubnet sessNode sessEvs with
  | .error _ => []
  | .ok (_, out, _) => out

theorem sess_run : ∃ m pub, ANRun sessCtx oneSubnet sessNode sessEvs m sessOut pub ∧
    pub = [⟨5600, 1, (vote [] 0 1).data, ⟨[true, true], 1001⟩⟩] := by
  have h : sessSeen (anrun sessCtx oneSubnet sessNode sessEvs) =
      some ([], [(5600, 1, (vote [] 0 1).data, ⟨[true, true], 1001⟩)]) := by decide +kernel
  cases e : anrun sessCtx oneSubnet sessNode sessEvs with
  | error x => rw [e] at h; cases h
  | ok x =>
    obtain ⟨m, out, pub⟩ := x
    have ho : sessOut = out := by unfold sessOut; rw [e]
    rw [ho]
    refine ⟨m, pub, anrun_run e, ?_⟩
    rw [e] at h
    have h2 := (Prod.mk.injEq _ _ _ _ ▸ Option.some.inj h).2
    match pub, h2 with
    | [⟨a, b, c, d⟩], h2 => 
      simp at h2
      simp [h2]

theorem sess_forward : ClockForward sessEvs := by
  show ([5600, 5600, 5300, 5250, 5200, 5100, 5000, 4900, 4000] : List Nat).Pairwise (· ≥ ·)
  decide

theorem sess_valid : ValidSig sessCtx.X sessCtx.H wG.validators 2 (vote [] 0 1).data 1 :=
  ⟨_, _, _, rfl, rfl, rfl, by decide +kernel⟩

/-- Non-vacuity: all hypotheses hold of this run, in which one aggregate is published. -/
example : sessNode.Fresh sessCtx wG (some []) ∧ Sound sessCtx.X wSigns ∧ Complete sessCtx.X ∧
    KeysDistinct sessCtx.X wVals ∧ (∀ l, (sessCtx.order l).Perm l) ∧
    (∀ s sb, sessCtx.reagg s sb = reaggregate wX wH s sb ∨ sessCtx.reagg s sb = []) ∧
    .restart ∉ sessEvs ∧ ClockForward sessEvs ∧
    World (envOf wX wH) 0 wVals [] wG (HeaderIn wH wG [] sessEvs sessOut) ∧
    RunInjective wH sessEvs sessOut ∧
    (∀ sb sb', Brought sessEvs sessOut sb → Brought sessEvs sessOut sb' → sb.block = sb'.block →
      sb = sb') ∧
    ∃ m, ANRun sessCtx oneSubnet sessNode sessEvs m sessOut
      [⟨5600, 1, (vote [] 0 1).data, ⟨[true, true], 1001⟩⟩] := by
  refine ⟨sessNode_fresh, wX_sound, wX_complete, wVals_distinct, fun l => .refl _, fun _ _ => .inr rfl,
    by simp [sessEvs], ?_, world_asEvents (rWorld (by decide +kernel) (by decide +kernel)),
    injective_asEvents (noCollision_of_list (by decide +kernel) (by decide +kernel)),
    fun sb sb' h1 h2 => ?_, ?_⟩
  · exact sess_forward
  · exact oneCopy_of_list (evs := asEvents sessEvs sessOut) (by decide +kernel) sb sb'
      (brought_arrived h1) (brought_arrived h2)
  · obtain ⟨m, pub, h, rfl⟩ := sess_run
    exact ⟨m, h⟩

end Witness

/-- **C99, refuted: not every vote that is in time is in the aggregate.** Validator 2's vote arrived
0.4 s before the third interval, after the session had started early; the aggregate that the session
publishes 0.4 s later is without it, and there is no other session in that slot. -/
theorem C99_every_vote_false :
    ¬ ∀ (c : VCtx) (u : Subnets) (a0 : State) (n m : ANode) (aevs : List AEvent) (out : List Signed)
      (pub : List Published), n.Fresh c a0 (some []) → ANRun c u n aevs m out pub →
      .restart ∉ aevs → ClockForward aevs →
      ∀ v d sig now, AEvent.attestation v d sig now true ∈ aevs → ValidSig c.X c.H a0.validators v d sig →
        now < n.node.actor.store.genesisTime * 1000 + d.slot * 4000 + 1600 →
        ∀ p ∈ pub, p.data = d → p.agg.participants[v]? = some true := by
  intro h
  obtain ⟨m, pub, hr, rfl⟩ := Witness.sess_run
  have := h _ _ _ _ _ _ _ _ Witness.sessNode_fresh hr (by simp [Witness.sessEvs])
    Witness.sess_forward 2 _ 1 5200
    (by simp [Witness.sessEvs]) Witness.sess_valid (by decide +kernel) _
    (List.mem_singleton.2 rfl) rfl
  revert this
  decide

end Verif.Node
