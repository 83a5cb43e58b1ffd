import Verif.Spec.Coverage
import Verif.Props.C114_Jobs
import Verif.Props.C82_Counted
/-!
# C115: the coverage gauges
-/
namespace Verif.Node
open Verif Verif.Db Verif.Sync Verif.Buffers Verif.Build

section
variable {c : VCtx} {u : Subnets} {a0 : State} {body : Option (List AggAtt)} {t : Nat}
  {vals : List Validator} {bs : List Block}

theorem Mon.step_inv {m m' : Mon} {ev : AEvent} {l : List Signed} {p : List Published}
    (h : m.step c u ev = .ok (m', l, p)) :
    m.node.step c u ev = .ok (m'.node, l, p) ∧ m'.snap = m.snapAfter ev ∧
      m.gaugesAfter c.H u.committees m'.node ev = .ok m'.gauges := by
  unfold Mon.step at h
  split at h
  · cases h
  next n' l' p' e1 =>
  split at h
  · cases h
  next g e2 =>
  cases h
  exact ⟨e1, rfl, e2⟩

theorem MRun.nodes {n : ANode} {m : Mon} {aevs : List AEvent} {out : List Signed}
    {pub : List Published} (h : MRun c u n.monitored aevs m out pub) :
    ANRun c u n aevs m.node out pub := by
  induction h with
  | nil => exact .nil
  | step _ e ih => exact .step ih (Mon.step_inv e).1

theorem mem_participantsOf {p : PayloadBuffer} (hk : p.data.keys.Nodup) {x : Nat × Bits} :
    x ∈ participantsOf p ↔ ∃ r e, p.data.get? r = some e ∧ e.data.slot = x.1 ∧
      ∃ g ∈ e.proofs, g.participants = x.2 := by
  unfold participantsOf
  rw [List.mem_flatMap]
  constructor
  · rintro ⟨⟨r, e⟩, he, hx⟩
    obtain ⟨g, hg, rfl⟩ := List.mem_map.1 hx
    exact ⟨r, e, AMap.get?_of_mem hk he, rfl, g, hg, rfl⟩
  · rintro ⟨r, e, he, h1, g, hg, h2⟩
    exact ⟨(r, e), AMap.mem_of_get? he, List.mem_map.2 ⟨g, hg, Prod.ext h1 h2⟩⟩

/-- What the proofs below need of a store in a run. -/
structure MGood (vals : List Validator) (s : Store) : Prop where
  head : ∃ st s', headState s = .ok (st, s') ∧ st.validators = vals
  keys : s.newP.data.keys.Nodup

theorem ANRun.good {n m : ANode} {aevs : List AEvent} {out : List Signed} {pub : List Published}
    (ho : ∀ l, (c.order l).Perm l) (h0 : n.Fresh c a0 body) (h : ANRun c u n aevs m out pub)
    (W : World (envOf c.X c.H) t vals bs a0
      (HeaderIn c.H (State.fromGenesis c.H t vals) bs aevs out)) :
    MGood vals m.node.actor.store := by
  obtain ⟨evs, K, k1, -⟩ := h.kept h0
  have W' := Accounted.world (E := envOf c.X c.H) k1 W
  obtain ⟨evs', rr, -, W''⟩ := areach_reach (c := c.ctx) ho W' K.reach
  obtain ⟨root, anchor, ops, A, I⟩ := reach_ninv W'' rr eventK_known
  obtain ⟨st, h1⟩ := I.1.cp.head
  obtain ⟨s1, g1, -⟩ := I.1.getState W'' m.node.actor.store.mem.db.head
  refine ⟨⟨st, s1, ?_, state_vals W'' I.1 h1⟩, I.1.buf.new.inv.keys⟩
  unfold Node.headState
  rw [g1, h1]

theorem brought_mono {aevs aevs' : List AEvent} {out out' : List Signed} (s : aevs ⊆ aevs')
    (o : out ⊆ out') {sb : SignedBlock} (h : Brought aevs out sb) : Brought aevs' out' sb := by
  rcases h with h | ⟨a, b, c, d, h⟩
  · exact .inl (s h)
  · exact .inr ⟨a, b, c, d, o h⟩

theorem world_mono {aevs aevs' : List AEvent} {out out' : List Signed}
    (W : World (envOf c.X c.H) t vals bs a0
      (HeaderIn c.H (State.fromGenesis c.H t vals) bs aevs' out'))
    (s : aevs ⊆ aevs') (o : out ⊆ out') :
    World (envOf c.X c.H) t vals bs a0
      (HeaderIn c.H (State.fromGenesis c.H t vals) bs aevs out) := by
  refine W.weaken ?_ (.inl rfl) (fun b hb => .inr (.inl ⟨b, hb, rfl⟩))
  rintro x (rfl | ⟨b, hb, rfl⟩ | ⟨sb, hs, rfl⟩)
  · exact W.genesis
  · exact W.old b hb
  · exact .inr (.inr ⟨sb, brought_mono s o hs, rfl⟩)

theorem voteIn_mono {aevs aevs' : List AEvent} {out out' : List Signed} (s : aevs ⊆ aevs')
    (o : out ⊆ out') {d : AttData} (h : VoteIn aevs out d) : VoteIn aevs' out' d := by
  rcases h with ⟨sb, h1, h2⟩ | ⟨v, sig, now, agg, h⟩ | ⟨g, h⟩ | ⟨v, sig, h⟩
  · exact .inl ⟨sb, brought_mono s o h1, h2⟩
  · exact .inr (.inl ⟨v, sig, now, agg, s h⟩)
  · exact .inr (.inr (.inl ⟨g, s h⟩))
  · exact .inr (.inr (.inr ⟨v, sig, o h⟩))

theorem injective_mono {H : Hash} {aevs aevs' : List AEvent} {out out' : List Signed}
    (h : RunInjective H aevs' out') (s : aevs ⊆ aevs') (o : out ⊆ out') : RunInjective H aevs out := by
  refine ⟨fun d d' a b => h.votes d d' (voteIn_mono s o a) (voteIn_mono s o b), fun l l' a b => ?_⟩
  refine h.bodies l l' ?_ ?_
  · rcases a with a | ⟨sb, a, b⟩
    · exact .inl a
    · exact .inr ⟨sb, brought_mono s o a, b⟩
  · rcases b with a | ⟨sb, a, b⟩
    · exact .inl a
    · exact .inr ⟨sb, brought_mono s o a, b⟩

theorem ofMs_attestation (ms : Nat) :
    Interval.ofMs ms = some .attestation ↔ 800 ≤ ms % 4000 ∧ ms % 4000 < 800 + 800 := by
  have e : ms / msPerInterval % intervalsPerSlot = ms / 800 % 5 := rfl
  have hk : ms / 800 % 5 = 1 ↔ 800 ≤ ms % 4000 ∧ ms % 4000 < 800 + 800 := by omega
  rw [← hk]
  unfold Interval.ofMs Interval.ofCount
  rw [e]
  have h5 : ms / 800 % 5 < 5 := Nat.mod_lt _ (by decide)
  generalize ms / 800 % 5 = x at h5
  match x, h5 with
  | 0, _ => simp
  | 1, _ => simp
  | 2, _ => simp
  | 3, _ => simp
  | 4, _ => simp

theorem ofMs_endOfSlot (ms : Nat) :
    Interval.ofMs ms = some .endOfSlot ↔ 3200 ≤ ms % 4000 ∧ ms % 4000 < 3200 + 800 := by
  have e : ms / msPerInterval % intervalsPerSlot = ms / 800 % 5 := rfl
  have hk : ms / 800 % 5 = 4 ↔ 3200 ≤ ms % 4000 ∧ ms % 4000 < 3200 + 800 := by omega
  rw [← hk]
  unfold Interval.ofMs Interval.ofCount
  rw [e]
  have h5 : ms / 800 % 5 < 5 := Nat.mod_lt _ (by decide)
  generalize ms / 800 % 5 = x at h5
  match x, h5 with
  | 0, _ => simp
  | 1, _ => simp
  | 2, _ => simp
  | 3, _ => simp
  | 4, _ => simp

theorem live_iff {s : Store} {now : Nat} (G : MGood vals s) :
    tickLive s now = true ↔ (s.mem.db.time = 0 ∨ s.mem.db.time < (now - s.genesisTime * 1000) / 800) ∧
      vals ≠ [] := by
  obtain ⟨st, s', h1, h2⟩ := G.head
  have e : ∀ ms : Nat, ms / msPerInterval = ms / 800 := fun _ => rfl
  unfold tickLive
  simp only
  rw [h1, e]
  split
  · refine iff_of_false (by simp) (fun h => ?_)
    obtain ⟨h, -⟩ := h
    omega
  · simp only [h2, Bool.not_eq_true']
    rw [List.isEmpty_eq_false_iff]
    constructor
    · exact fun h => ⟨by omega, h⟩
    · exact fun h => h.2

theorem record_other {g : Gauges} {s : Section} {cv : Cov} {n cc : Nat} {S : Finset Nat}
    (hcc : 0 < cc) (h : Covers n cc S cv) {k : Gauge} (hk : k.of ≠ some s) :
    covRecord g s cv k = g k := by
  rw [covRecord_spec hcc h]
  cases k with
  | validators s' => exact if_neg (fun e => hk (by rw [e]; rfl))
  | inSubnet s' i => exact if_neg (fun e => hk (by rw [e.1]; rfl))
  | subnets s' => exact if_neg (fun e => hk (by rw [e]; rfl))
  | blockOnly => rfl
  | timelyOnly => rfl

theorem record_shows {g : Gauges} {s : Section} {cv : Cov} {n cc : Nat} {S : Finset Nat}
    (hcc : 0 < cc) (h : Covers n cc S cv) : Shows (covRecord g s cv) s cc S := by
  refine ⟨?_, fun i hi => ?_, ?_⟩
  · rw [covRecord_spec hcc h]; exact if_pos rfl
  · rw [covRecord_spec hcc h]; exact if_pos ⟨rfl, hi⟩
  · rw [covRecord_spec hcc h]; exact if_pos rfl

theorem Shows.congr {g g' : Gauges} {s : Section} {cc : Nat} {S : Finset Nat} (h : Shows g s cc S)
    (e : ∀ k : Gauge, k.of = some s → g' k = g k) : Shows g' s cc S :=
  ⟨(e _ rfl).trans h.1, fun i hi => (e _ rfl).trans (h.2.1 i hi), (e _ rfl).trans h.2.2⟩

/-- What the report writes. -/
theorem post_spec {H : Hash} {s : Store} {snap : Option (List (Nat × Bits))} {cc round : Nat}
    {g g' : Gauges} (G : MGood vals s) (h : emitPostBlock H s snap cc round g = .ok g') :
    let T := votersWith vals.length (fun v => ∃ e ∈ snap.getD [], e.1 = round ∧ e.2[v]? = some true)
    let L := votersWith vals.length (fun v => ∃ bits, Waiting s round bits ∧ bits[v]? = some true)
    let B := votersWith vals.length (fun v => ∃ b, getBlock H s.mem.db s.mem.db.head = some b ∧
      ∃ a ∈ b.body, a.data.slot = round ∧ a.bits[v]? = some true)
    (¬ (0 < cc ∧ B.Nonempty) → g' = g) ∧
    (0 < cc → B.Nonempty → Shows g' .timely cc T ∧ Shows g' .late cc L ∧ Shows g' .block cc B ∧
      Shows g' .combined cc (T ∪ L ∪ B) ∧ g' .blockOnly = (B \ T).card ∧
      g' .timelyOnly = (T \ B).card ∧
      ∀ k : Gauge, k.of = some .aggStartNew ∨ k.of = some .proposalCombined → g' k = g k) := by
  intro T L B
  obtain ⟨st, s', h1, h2⟩ := G.head
  unfold emitPostBlock at h
  rw [h1] at h
  simp only [h2] at h
  have empty (hn : vals.length = 0) : ¬ B.Nonempty := by
    rintro ⟨v, hv⟩
    have := (mem_votersWith.1 hv).1
    omega
  split at h
  next h0 =>
    cases h
    refine ⟨fun _ => rfl, fun hc hB => ?_⟩
    rcases h0 with h0 | h0
    · exact absurd hB (empty h0)
    · omega
  next h0 =>
  have hcc : 0 < cc := by omega
  have hT : Covers vals.length cc T (covOf vals.length cc round (snap.getD [])) := covers_of hcc _ _
  have hL : Covers vals.length cc L (covOf vals.length cc round (participantsOf s.newP)) := by
    refine (covers_of hcc _ _).congr (fun v => ?_)
    rw [mem_votersWith, mem_votersWith]
    refine and_congr_right (fun _ => ⟨?_, ?_⟩)
    · rintro ⟨e, he, rfl, hv⟩
      exact ⟨e.2, (mem_participantsOf G.keys).1 he, hv⟩
    · rintro ⟨bits, hw, hv⟩
      exact ⟨(round, bits), (mem_participantsOf G.keys).2 hw, rfl, hv⟩
  have hB : Covers vals.length cc B (covOf vals.length cc round (headVotes H s)) := by
    refine (covers_of hcc _ _).congr (fun v => ?_)
    rw [mem_votersWith, mem_votersWith]
    refine and_congr_right (fun _ => ?_)
    unfold headVotes
    cases getBlock H s.mem.db s.mem.db.head with
    | none => simp
    | some b =>
      constructor
      · rintro ⟨e, he, h3, hv⟩
        obtain ⟨a, ha, rfl⟩ := List.mem_map.1 he
        exact ⟨b, rfl, a, ha, h3, hv⟩
      · rintro ⟨b', hb, a, ha, h3, hv⟩
        cases hb
        exact ⟨_, List.mem_map.2 ⟨a, ha, rfl⟩, h3, hv⟩
  have hC := covers_or (covers_or hT hL) hB
  have hany : ∀ l : List Bool, l.any id = true ↔ ∃ v : Nat, l[v]? = some true := by
    intro l
    rw [List.any_eq_true]
    constructor
    · rintro ⟨x, hx, hid⟩
      obtain ⟨v, hv⟩ := List.mem_iff_getElem?.1 hx
      have hid : x = true := hid
      exact ⟨v, by rw [hv, hid]⟩
    · rintro ⟨v, hv⟩
      exact ⟨true, List.mem_of_getElem? hv, rfl⟩
  split at h
  next h3 =>
    cases h
    refine ⟨fun _ => rfl, fun _ hne => ?_⟩
    obtain ⟨v, hv⟩ := hne
    exact absurd ((hany _).2 ⟨v, (hB.seen v).2 hv⟩) h3
  next h3 =>
  have h3 := Classical.not_not.1 h3
  refine ⟨fun hn => ?_, fun _ _ => ?_⟩
  · exfalso
    obtain ⟨v, hv⟩ := (hany _).1 h3
    exact hn ⟨hcc, v, (hB.seen v).1 hv⟩
  rw [diff_spec _ _ (hB.len.trans hT.len.symm) B T hB.seen hT.seen] at h
  cases h
  have pp : ∀ (g : Gauges) (x y : Nat) (k : Gauge) (s : Section), k.of = some s →
      ((g.put .blockOnly x).put .timelyOnly y) k = g k := by
    intro g x y k s hk
    rw [put_get, put_get, if_neg (by rintro rfl; cases hk), if_neg (by rintro rfl; cases hk)]
  refine ⟨?_, ?_, ?_, ?_, rfl, rfl, ?_⟩
  · refine (record_shows (g := g) hcc hT).congr (fun k hk => ?_)
    rw [pp _ _ _ _ _ hk, record_other hcc hC (by rw [hk]; decide),
      record_other hcc hB (by rw [hk]; decide), record_other hcc hL (by rw [hk]; decide)]
  · refine (record_shows (g := covRecord g .timely
      (covOf vals.length cc round (snap.getD []))) hcc hL).congr (fun k hk => ?_)
    rw [pp _ _ _ _ _ hk, record_other hcc hC (by rw [hk]; decide),
      record_other hcc hB (by rw [hk]; decide)]
  · refine (record_shows (g := covRecord (covRecord g .timely
      (covOf vals.length cc round (snap.getD []))) .late
      (covOf vals.length cc round (participantsOf s.newP))) hcc hB).congr (fun k hk => ?_)
    rw [pp _ _ _ _ _ hk, record_other hcc hC (by rw [hk]; decide)]
  · refine (record_shows (g := covRecord (covRecord (covRecord g .timely
      (covOf vals.length cc round (snap.getD []))) .late
      (covOf vals.length cc round (participantsOf s.newP))) .block
      (covOf vals.length cc round (headVotes H s))) hcc hC).congr (fun k hk => ?_)
    rw [pp _ _ _ _ _ hk]
  · intro k hk
    have hk' : ∀ s : Section, s ≠ .aggStartNew → s ≠ .proposalCombined → k.of ≠ some s := by
      intro s h1 h2 h3
      rcases hk with hk | hk
      · exact h1 (Option.some.inj (h3.symm.trans hk))
      · exact h2 (Option.some.inj (h3.symm.trans hk))
    obtain ⟨s0, hs0⟩ : ∃ s0, k.of = some s0 := by
      rcases hk with hk | hk
      · exact ⟨_, hk⟩
      · exact ⟨_, hk⟩
    rw [pp _ _ _ _ _ hs0, record_other hcc hC (hk' _ (by decide) (by decide)),
      record_other hcc hB (hk' _ (by decide) (by decide)),
      record_other hcc hL (hk' _ (by decide) (by decide)),
      record_other hcc hT (hk' _ (by decide) (by decide))]

/-- **C115, the report.** On a tick that is not skipped, in the second interval of slot `i + 1`, the
gauges are set from the votes for slot `i`, if the head block carries any: to the validators in the last
snapshot, in the aggregates still waiting, in the head block, and in any of these; and to the numbers
of those in the block but not in the snapshot, and the reverse. No other tick changes a gauge. -/
theorem C115_report {n : ANode} {m m' : Mon} {aevs : List AEvent} {out l : List Signed}
    {pub p : List Published} {now : Nat} {agg : Bool} (ho : ∀ l, (c.order l).Perm l)
    (h0 : n.Fresh c a0 body) (h : MRun c u n.monitored aevs m out pub)
    (e : m.step c u (.timer now agg) = .ok (m', l, p))
    (W : World (envOf c.X c.H) t vals bs a0
      (HeaderIn c.H (State.fromGenesis c.H t vals) bs (.timer now agg :: aevs) (out ++ l))) :
    let s := m'.node.node.actor.store
    let before := m.node.node.actor.store
    let round := (now - before.genesisTime * 1000) / 4000 - 1
    let T := votersWith vals.length (fun v => ∃ e ∈ m.snap.getD [], e.1 = round ∧ e.2[v]? = some true)
    let L := votersWith vals.length (fun v => ∃ bits, Waiting s round bits ∧ bits[v]? = some true)
    let B := votersWith vals.length (fun v => ∃ b, getBlock c.H s.mem.db s.mem.db.head = some b ∧
      ∃ a ∈ b.body, a.data.slot = round ∧ a.bits[v]? = some true)
    let due := TicksAt before now 800 ∧ 4000 ≤ now - before.genesisTime * 1000 ∧ 0 < u.committees ∧
      B.Nonempty
    (¬ due → m'.gauges = m.gauges) ∧
    (due → Shows m'.gauges .timely u.committees T ∧ Shows m'.gauges .late u.committees L ∧
      Shows m'.gauges .block u.committees B ∧ Shows m'.gauges .combined u.committees (T ∪ L ∪ B) ∧
      m'.gauges .blockOnly = (B \ T).card ∧ m'.gauges .timelyOnly = (T \ B).card ∧
      (∀ i, m'.gauges (.validators .aggStartNew) = m.gauges (.validators .aggStartNew) ∧
        m'.gauges (.inSubnet .aggStartNew i) = m.gauges (.inSubnet .aggStartNew i) ∧
        m'.gauges (.subnets .aggStartNew) = m.gauges (.subnets .aggStartNew) ∧
        m'.gauges (.validators .proposalCombined) = m.gauges (.validators .proposalCombined) ∧
        m'.gauges (.inSubnet .proposalCombined i) = m.gauges (.inSubnet .proposalCombined i) ∧
        m'.gauges (.subnets .proposalCombined) = m.gauges (.subnets .proposalCombined))) := by
  intro s before round T L B due
  obtain ⟨e1, -, e3⟩ := Mon.step_inv e
  have W1 := world_mono W (List.subset_cons_self _ _) (List.subset_append_left _ _)
  have G := ANRun.good ho h0 h.nodes W1
  have G' := ANRun.good ho h0 (.step h.nodes e1) W
  have hq : ∀ ms : Nat, ms / msPerSlot = ms / 4000 := fun _ => rfl
  unfold Mon.gaugesAfter at e3
  simp only [hq] at e3
  split at e3
  next hc =>
    obtain ⟨c1, c2, c3⟩ := hc
    obtain ⟨p1, p2⟩ := post_spec G' e3
    have c1 := ((live_iff G).1 c1).1
    have c2 := (ofMs_attestation _).1 c2
    refine ⟨fun hn => p1 (fun k => hn ⟨⟨c1, c2⟩, ?_, k⟩), fun hd => ?_⟩
    · simp only [before]; omega
    · obtain ⟨-, -, d3, d4⟩ := hd
      obtain ⟨q1, q2, q3, q4, q5, q6, q7⟩ := p2 d3 d4
      exact ⟨q1, q2, q3, q4, q5, q6, fun i => ⟨q7 _ (.inl rfl), q7 _ (.inl rfl), q7 _ (.inl rfl),
        q7 _ (.inr rfl), q7 _ (.inr rfl), q7 _ (.inr rfl)⟩⟩
  next hc =>
    refine ⟨fun _ => (Except.ok.inj e3).symm, fun hd => ?_⟩
    exfalso
    obtain ⟨d1, d2, -, d4⟩ := hd
    refine hc ⟨(live_iff G).2 ⟨d1.1, ?_⟩, (ofMs_attestation _).2 d1.2, ?_⟩
    · rintro rfl
      obtain ⟨v, hv⟩ := d4
      exact absurd (mem_votersWith.1 hv).1 (Nat.not_lt_zero _)
    · simp only [before] at d2; omega

/-- **C115, nothing else.** Only a tick changes a gauge, except that a restarted process starts with
fresh ones. -/
theorem C115_other {m m' : Mon} {ev : AEvent} {l : List Signed} {p : List Published}
    (e : m.step c u ev = .ok (m', l, p)) :
    (∃ now agg, ev = .timer now agg) ∨ (ev = .restart ∧ ∀ k, m'.gauges k = 0) ∨
      m'.gauges = m.gauges := by
  obtain ⟨-, -, e3⟩ := Mon.step_inv e
  cases ev with
  | timer now agg => exact .inl ⟨now, agg, rfl⟩
  | restart => exact .inr (.inl ⟨rfl, fun k => by rw [← Except.ok.inj e3]⟩)
  | _ => exact .inr (.inr (Except.ok.inj e3).symm)

/-- **C115, pure observability.** Taking snapshots and writing reports never fails and never changes
what the node does: every run of the node is one of the node with its gauges, and vice versa. -/
theorem C115_observes {n m : ANode} {aevs : List AEvent} {out : List Signed} {pub : List Published}
    (ho : ∀ l, (c.order l).Perm l) (h0 : n.Fresh c a0 body)
    (W : World (envOf c.X c.H) t vals bs a0
      (HeaderIn c.H (State.fromGenesis c.H t vals) bs aevs out)) :
    ANRun c u n aevs m out pub ↔ ∃ M, MRun c u n.monitored aevs M out pub ∧ M.node = m := by
  refine ⟨fun h => ?_, fun ⟨M, h, e⟩ => e ▸ h.nodes⟩
  induction h with
  | nil => exact ⟨_, .nil, rfl⟩
  | @step evs m1 out pub ev m' l p h e ih =>
    obtain ⟨M, hM, rfl⟩ := ih (world_mono W (List.subset_cons_self _ _) (List.subset_append_left _ _))
    have G' := ANRun.good ho h0 (.step h e) W
    have : ∃ g, M.gaugesAfter c.H u.committees m' ev = .ok g := by
      cases ev with
      | timer now agg =>
        unfold Mon.gaugesAfter
        simp only
        split
        · obtain ⟨st, s', h1, -⟩ := G'.head
          unfold emitPostBlock
          rw [h1]
          simp only
          split
          · exact ⟨_, rfl⟩
          split
          · exact ⟨_, rfl⟩
          · exact ⟨_, rfl⟩
        · exact ⟨_, rfl⟩
      | _ => exact ⟨_, rfl⟩
    obtain ⟨g, hg⟩ := this
    refine ⟨⟨m', M.snapAfter ev, g⟩, .step hM ?_, rfl⟩
    unfold Mon.step
    rw [e]
    simp only [hg]

theorem MRun.det {n : Mon} {aevs : List AEvent} {m m' : Mon} {out out' : List Signed}
    {pub pub' : List Published} (h : MRun c u n aevs m out pub) (h' : MRun c u n aevs m' out' pub') :
    m = m' ∧ out = out' := by
  induction h generalizing m' out' pub' with
  | nil => cases h'; exact ⟨rfl, rfl⟩
  | step h e ih =>
    cases h' with
    | step h' e' =>
      obtain ⟨rfl, rfl⟩ := ih h'
      rw [e] at e'
      cases e'
      exact ⟨rfl, rfl⟩

theorem MRun.split {n : Mon} {b : List AEvent} : ∀ {a : List AEvent} {m : Mon} {out : List Signed}
    {pub : List Published}, MRun c u n (a ++ b) m out pub →
    ∃ m0 out0 pub0, MRun c u n b m0 out0 pub0 ∧ out0 ⊆ out
  | [], m, out, pub, h => ⟨m, out, pub, h, List.Subset.refl _⟩
  | _ :: a, m, out, pub, h => by
    cases h with
    | step h e =>
      obtain ⟨m0, out0, pub0, h1, h2⟩ := MRun.split (n := n) (a := a) h
      exact ⟨m0, out0, pub0, h1, fun x hx => List.mem_append_left _ (h2 hx)⟩

theorem snapshotNew_some {s : Store} {l : List (Nat × Bits)} (G : MGood vals s)
    (h : snapshotNew s = some l) : ∀ slot bits, (slot, bits) ∈ l ↔ Waiting s slot bits := by
  intro slot bits
  unfold snapshotNew at h
  simp only at h
  split at h
  · cases h
  · cases h
    exact mem_participantsOf G.keys

theorem snapshotNew_none {s : Store} (G : MGood vals s) (h : snapshotNew s = none) :
    ∀ slot bits, ¬ Waiting s slot bits := by
  intro slot bits hw
  unfold snapshotNew at h
  simp only at h
  split at h
  next h1 =>
    have := (mem_participantsOf (x := (slot, bits)) G.keys).2 hw
    rw [List.isEmpty_iff.1 h1] at this
    cases this
  · cases h

/-- What a tick does to the snapshot. -/
theorem tick_snap (hv : vals ≠ []) {m : Mon} {now : Nat} {agg : Bool}
    (G : MGood vals m.node.node.actor.store) :
    (∃ l, m.snapAfter (.timer now agg) = some l ∧ TicksAt m.node.node.actor.store now 3200 ∧
      ∀ slot bits, (slot, bits) ∈ l ↔ Waiting m.node.node.actor.store slot bits) ∨
    (m.snapAfter (.timer now agg) = m.snap ∧ (TicksAt m.node.node.actor.store now 3200 →
      ∀ slot bits, ¬ Waiting m.node.node.actor.store slot bits)) := by
  unfold Mon.snapAfter
  simp only
  split
  next hc =>
    obtain ⟨c1, c2⟩ := hc
    cases e : snapshotNew m.node.node.actor.store with
    | some l =>
      exact .inl ⟨l, rfl, ⟨((live_iff G).1 c1).1, (ofMs_endOfSlot _).1 c2⟩, snapshotNew_some G e⟩
    | none => exact .inr ⟨rfl, fun _ => snapshotNew_none G e⟩
  next hc =>
    exact .inr ⟨rfl, fun ht => absurd ⟨(live_iff G).2 ⟨ht.1, hv⟩, (ofMs_endOfSlot _).2 ht.2⟩ hc⟩

/-- **C115, the snapshot.** The snapshot the report uses holds exactly the aggregates that were waiting
just before the last tick in the fifth interval of a slot at which there were any, since the node
started. -/
theorem C115_snapshot {n : ANode} {m : Mon} {aevs : List AEvent} {out : List Signed}
    {pub : List Published} (hv : vals ≠ []) (ho : ∀ l, (c.order l).Perm l)
    (h0 : n.Fresh c a0 body) (h : MRun c u n.monitored aevs m out pub)
    (W : World (envOf c.X c.H) t vals bs a0
      (HeaderIn c.H (State.fromGenesis c.H t vals) bs aevs out)) :
    (m.snap = none → ∀ later now agg earlier m0 out0 pub0, aevs = later ++ .timer now agg :: earlier →
      AEvent.restart ∉ later → MRun c u n.monitored earlier m0 out0 pub0 →
      TicksAt m0.node.node.actor.store now 3200 →
      ∀ slot bits, ¬ Waiting m0.node.node.actor.store slot bits) ∧
    ∀ l, m.snap = some l → ∃ later now agg earlier m0 out0 pub0,
      aevs = later ++ .timer now agg :: earlier ∧ AEvent.restart ∉ later ∧
      MRun c u n.monitored earlier m0 out0 pub0 ∧ TicksAt m0.node.node.actor.store now 3200 ∧
      (∀ slot bits, (slot, bits) ∈ l ↔ Waiting m0.node.node.actor.store slot bits) ∧
      ∀ later1 now1 agg1 mid m1 out1 pub1, later = later1 ++ .timer now1 agg1 :: mid →
        MRun c u n.monitored (mid ++ .timer now agg :: earlier) m1 out1 pub1 →
        TicksAt m1.node.node.actor.store now1 3200 →
        ∀ slot bits, ¬ Waiting m1.node.node.actor.store slot bits := by
  induction h with
  | nil =>
    refine ⟨fun _ later now agg earlier m0 out0 pub0 e => ?_, fun l e => by cases e⟩
    have := congrArg List.length e
    simp at this
  | @step evs m out pub ev m' l p h e ih =>
    have W1 := world_mono W (List.subset_cons_self _ _) (List.subset_append_left _ _)
    obtain ⟨i1, i2⟩ := ih W1
    have G := ANRun.good ho h0 h.nodes W1
    obtain ⟨-, e2, -⟩ := Mon.step_inv e
    -- an event that leaves the snapshot alone
    have same : m'.snap = m.snap → ev ≠ .restart →
        (∀ now agg, ev = .timer now agg → TicksAt m.node.node.actor.store now 3200 →
          ∀ slot bits, ¬ Waiting m.node.node.actor.store slot bits) →
        ((m'.snap = none → ∀ later now agg earlier m0 out0 pub0,
          ev :: evs = later ++ .timer now agg :: earlier → AEvent.restart ∉ later →
          MRun c u n.monitored earlier m0 out0 pub0 → TicksAt m0.node.node.actor.store now 3200 →
          ∀ slot bits, ¬ Waiting m0.node.node.actor.store slot bits) ∧
        ∀ l, m'.snap = some l → ∃ later now agg earlier m0 out0 pub0,
          ev :: evs = later ++ .timer now agg :: earlier ∧ AEvent.restart ∉ later ∧
          MRun c u n.monitored earlier m0 out0 pub0 ∧ TicksAt m0.node.node.actor.store now 3200 ∧
          (∀ slot bits, (slot, bits) ∈ l ↔ Waiting m0.node.node.actor.store slot bits) ∧
          ∀ later1 now1 agg1 mid m1 out1 pub1, later = later1 ++ .timer now1 agg1 :: mid →
            MRun c u n.monitored (mid ++ .timer now agg :: earlier) m1 out1 pub1 →
            TicksAt m1.node.node.actor.store now1 3200 →
            ∀ slot bits, ¬ Waiting m1.node.node.actor.store slot bits) := by
      intro hs hr ht
      refine ⟨fun hn later now agg earlier m0 out0 pub0 he hnr hrun => ?_, fun l hl => ?_⟩
      · cases later with
        | nil =>
          obtain ⟨rfl, rfl⟩ := List.cons.inj he
          obtain ⟨rfl, -⟩ := h.det hrun
          exact ht _ _ rfl
        | cons x later =>
          obtain ⟨rfl, he2⟩ := List.cons.inj he
          exact i1 (hs ▸ hn) later now agg earlier m0 out0 pub0 he2
            (fun k => hnr (List.mem_cons_of_mem _ k)) hrun
      · obtain ⟨later, now, agg, earlier, m0, out0, pub0, k1, k2, k3, k4, k5, k6⟩ := i2 l (hs ▸ hl)
        refine ⟨ev :: later, now, agg, earlier, m0, out0, pub0, by rw [k1]; rfl, ?_, k3, k4, k5, ?_⟩
        · rw [List.mem_cons]
          rintro (k | k)
          · exact hr k.symm
          · exact k2 k
        · intro later1 now1 agg1 mid m1 out1 pub1 he hrun
          cases later1 with
          | nil =>
            obtain ⟨rfl, rfl⟩ := List.cons.inj he
            rw [← k1] at hrun
            obtain ⟨rfl, -⟩ := h.det hrun
            exact ht _ _ rfl
          | cons x later1 =>
            obtain ⟨rfl, he2⟩ := List.cons.inj he
            exact k6 later1 now1 agg1 mid m1 out1 pub1 he2 hrun
    cases ev with
    | timer now agg =>
      rcases tick_snap (now := now) (agg := agg) hv G with ⟨l0, t1, t2, t3⟩ | ⟨t1, t2⟩
      · refine ⟨fun hn => absurd ((e2.trans t1).symm.trans hn) (by simp), fun l hl => ?_⟩
        rw [e2, t1] at hl
        cases hl
        refine ⟨[], now, agg, evs, m, out, pub, rfl, by simp, h, t2, t3, ?_⟩
        intro later1 now1 agg1 mid m1 out1 pub1 he
        have := congrArg List.length he
        simp at this
      · exact same (e2.trans t1) (by simp) (fun now' agg' he => by cases he; exact t2)
    | restart =>
      refine ⟨fun _ later now agg earlier m0 out0 pub0 he hnr => ?_, fun l hl => by rw [e2] at hl; cases hl⟩
      cases later with
      | nil => cases (List.cons.inj he).1
      | cons x later => exact absurd (by rw [(List.cons.inj he).1]; exact List.mem_cons_self) hnr
    | _ => exact same e2 (by simp) (fun _ _ he => by cases he)

/-- **C115, signed.** If signatures cannot be forged, every validator in the snapshot, and every one in
an aggregate still waiting, signed a vote for the slot it is counted in. -/
theorem C115_signed {Signs : Nat → Nat → Root → Prop} {n : ANode} {m : Mon} {aevs : List AEvent}
    {out : List Signed} {pub : List Published} (hX : Sound c.X Signs) (hv : vals ≠ [])
    (ho : ∀ l, (c.order l).Perm l)
    (hre : ∀ s sb, c.reagg s sb = reaggregate c.X c.H s sb ∨ c.reagg s sb = [])
    (h0 : n.Fresh c a0 body) (h : MRun c u n.monitored aevs m out pub)
    (W : World (envOf c.X c.H) t vals bs a0
      (HeaderIn c.H (State.fromGenesis c.H t vals) bs aevs out)) (hN : RunInjective c.H aevs out) :
    (∀ e ∈ m.snap.getD [], ∀ v : Nat, e.2[v]? = some true →
      ∃ d : AttData, d.slot = e.1 ∧ SignedVote c.X c.H Signs vals v d) ∧
    ∀ slot bits, Waiting m.node.node.actor.store slot bits → ∀ v : Nat, bits[v]? = some true →
      ∃ d : AttData, d.slot = slot ∧ SignedVote c.X c.H Signs vals v d := by
  have key : ∀ {aevs' : List AEvent} {m' : Mon} {out' : List Signed} {pub' : List Published},
      MRun c u n.monitored aevs' m' out' pub' → aevs' ⊆ aevs → out' ⊆ out →
      ∀ slot bits, Waiting m'.node.node.actor.store slot bits → ∀ v : Nat, bits[v]? = some true →
      ∃ d : AttData, d.slot = slot ∧ SignedVote c.X c.H Signs vals v d := by
    intro aevs' m' out' pub' h s o slot bits hw v hb
    obtain ⟨evs, K, k1, -⟩ := h.nodes.kept h0
    have W' := Accounted.world (E := envOf c.X c.H) k1 (world_mono W s o)
    have hN' := Accounted.noCollision k1 (injective_mono hN s o)
    obtain ⟨r, e, g1, g2, g, g3, g4⟩ := hw
    exact ⟨e.data, g2, (C82_counted_signed hX ho W' hN' hre K.own K.reach).2.1 r e (.inl g1) g g3 v
      (g4 ▸ hb)⟩
  refine ⟨fun e he v hb => ?_, key h (List.Subset.refl _) (List.Subset.refl _)⟩
  cases hs : m.snap with
  | none => rw [hs] at he; cases he
  | some l =>
    rw [hs] at he
    obtain ⟨later, now, agg, earlier, m0, out0, pub0, k1, -, k3, -, k5, -⟩ :=
      (C115_snapshot hv ho h0 h W).2 l hs
    rw [k1] at h
    obtain ⟨m1, out1, pub1, r1, r2⟩ := MRun.split (n := n.monitored)
      (a := later ++ [.timer now agg]) (b := earlier) (by simpa using h)
    obtain ⟨rfl, rfl⟩ := r1.det k3
    exact key r1 (by rw [k1]; exact fun x hx => List.mem_append_right _ (List.mem_cons_of_mem _ hx)) r2
      e.1 e.2 ((k5 e.1 e.2).1 he) v hb

/-- **C115, start of a session.** The report at the start of a session shows the validators in the
waiting aggregates of any slot, and leaves the other gauges. -/
theorem C115_agg_start {s s' : Store} {st : State} {committees : Nat} {g g' : Gauges}
    (hs : headState s = .ok (st, s')) (hk : s.newP.data.keys.Nodup)
    (h : emitAggStart s committees g = .ok g') :
    (committees = 0 ∨ st.validators = [] → g' = g) ∧
    (0 < committees → st.validators ≠ [] → Shows g' .aggStartNew committees
      (votersWith st.validators.length (fun v => ∃ slot bits, Waiting s slot bits ∧ bits[v]? = some true)) ∧
      ∀ k : Gauge, k.of ≠ some .aggStartNew → g' k = g k) := by
  unfold emitAggStart at h
  rw [hs] at h
  simp only at h
  split at h
  next hc =>
    cases h
    refine ⟨fun _ => rfl, fun h1 h2 => ?_⟩
    rcases hc with hc | hc
    · exact absurd (List.length_eq_zero_iff.1 hc) h2
    · omega
  next hc =>
    cases h
    have hcc : 0 < committees := by omega
    have hC := (covers_all (n := st.validators.length) hcc Prod.snd (participantsOf s.newP)
      (covers_zero _ committees)).congr
      (T := votersWith st.validators.length (fun v => ∃ slot bits, Waiting s slot bits ∧ bits[v]? = some true))
      (fun v => by
        rw [Finset.mem_union, mem_votersWith, mem_votersWith]
        constructor
        · rintro (k | ⟨k1, x, k2, k3⟩)
          · simp at k
          · exact ⟨k1, x.1, x.2, (mem_participantsOf hk).1 k2, k3⟩
        · rintro ⟨k1, slot, bits, k2, k3⟩
          exact .inr ⟨k1, (slot, bits), (mem_participantsOf hk).2 k2, k3⟩)
    refine ⟨fun hn => ?_, fun _ _ => ⟨record_shows hcc hC, fun k hk => record_other hcc hC hk⟩⟩
    exfalso
    rcases hn with hn | hn
    · omega
    · exact hc (.inl (by rw [hn]; rfl))

/-- **C115, a proposal.** The report for a block of ours shows the validators whose votes it carries,
for whatever slot, and leaves the other gauges. -/
theorem C115_proposal {s s' : Store} {st : State} {committees : Nat} {selected : List AggAtt}
    {g g' : Gauges} (hs : headState s = .ok (st, s'))
    (h : emitProposal s committees selected g = .ok g') :
    (committees = 0 ∨ st.validators = [] → g' = g) ∧
    (0 < committees → st.validators ≠ [] → Shows g' .proposalCombined committees
      (votersWith st.validators.length (fun v => ∃ a ∈ selected, a.bits[v]? = some true)) ∧
      ∀ k : Gauge, k.of ≠ some .proposalCombined → g' k = g k) := by
  unfold emitProposal at h
  rw [hs] at h
  simp only at h
  split at h
  next hc =>
    cases h
    refine ⟨fun _ => rfl, fun h1 h2 => ?_⟩
    rcases hc with hc | hc
    · exact absurd (List.length_eq_zero_iff.1 hc) h2
    · omega
  next hc =>
    cases h
    have hcc : 0 < committees := by omega
    have hC := (covers_all (n := st.validators.length) hcc AggAtt.bits selected
      (covers_zero _ committees)).congr
      (T := votersWith st.validators.length (fun v => ∃ a ∈ selected, a.bits[v]? = some true))
      (fun v => by
        rw [Finset.mem_union]
        simp)
    refine ⟨fun hn => ?_, fun _ _ => ⟨record_shows hcc hC, fun k hk => record_other hcc hC hk⟩⟩
    exfalso
    rcases hn with hn | hn
    · omega
    · exact hc (.inl (by rw [hn]; rfl))

end
namespace Witness
open Verif.Witness

/-- Any number of events, newest first. -/
def mrun (c : VCtx) (u : Subnets) (n : Mon) : List AEvent → P (Mon × List Signed × List Published)
  | [] => .ok (n, [], [])
  | ev :: evs =>
    match mrun c u n evs with
    | .error e => .error e
    | .ok (m, out, pub) =>
      match m.step c u ev with
      | .error e => .error e
      | .ok (m, l, p) => .ok (m, out ++ l, pub ++ p)

theorem mrun_run {c : VCtx} {u : Subnets} {n : Mon} : ∀ {evs : List AEvent} {m : Mon}
    {out : List Signed} {pub : List Published}, mrun c u n evs = .ok (m, out, pub) →
    MRun c u n evs m out pub
  | [], _, _, _, h => by cases h; exact .nil
  | ev :: evs, m, out, pub, h => by
    unfold mrun at h
    split at h
    · cases h
    next e1 =>
      split at h
      · cases h
      next e2 => cases h; exact (mrun_run e1).step e2

/-- Two subnets. -/
def twoSubnets : Subnets := ⟨2, [0, 1]⟩

/-- The votes of validators 0 and 1 for slot 1 wait at the end of the slot and are promoted; then that
of validator 2 arrives, and block 2 with the votes of validators 1 and 2. -/
def covEvs : List AEvent :=
  [ .block (sgn (mkBlock 2 1 [vote [false, true, true] 0 1])),
    .aggregate (vote [] 0 1).data ⟨[false, false, true], 1001⟩, .timer 7300 false,
    .aggregate (vote [] 0 1).data ⟨[true, true], 1001⟩, .timer 4900 false,
    .block (sgn (mkBlock 1 0 [])), .timer 4000 false ]

/-- The gauges of a section: all, on each of two subnets, and the subnets. -/
def shown (g : Gauges) (s : Section) : List Nat :=
  [g (.validators s), g (.inSubnet s 0), g (.inSubnet s 1), g (.subnets s)]

def covSeen (r : P (Mon × List Signed × List Published)) : Option (List (List Nat) × Nat) :=
  r.toOption.map (fun x => ([shown x.1.gauges .timely, shown x.1.gauges .late, shown x.1.gauges .block,
    shown x.1.gauges .combined, [x.1.gauges .blockOnly, x.1.gauges .timelyOnly]], x.2.1.length))

def covOut : List Signed := match mrun sessCtx twoSubnets sessNode.monitored (.timer 9000 false :: covEvs) with
  | .ok (_, out, _) => out
  | .error _ => []

/-- The run above, and the tick of the second interval of slot 2. -/
theorem cov_run : ∃ m out pub m' l p, MRun sessCtx twoSubnets sessNode.monitored covEvs m out pub ∧
    m.step sessCtx twoSubnets (.timer 9000 false) = .ok (m', l, p) ∧ covOut = out ++ l ∧
    m.snap = some [(1, [true, true])] ∧ (∀ k, m.gauges k = 0) ∧
    [shown m'.gauges .timely, shown m'.gauges .late, shown m'.gauges .block,
      shown m'.gauges .combined, [m'.gauges .blockOnly, m'.gauges .timelyOnly]] =
    [[2, 1, 1, 2], [1, 1, 0, 1], [2, 1, 1, 2], [3, 2, 1, 2], [1, 1]] := by
  have h1 : (mrun sessCtx twoSubnets sessNode.monitored covEvs).toOption.map (fun x => x.1.snap) =
      some (some [(1, [true, true])]) := by decide +kernel
  have h2 : covSeen (mrun sessCtx twoSubnets sessNode.monitored (.timer 9000 false :: covEvs)) =
      some ([[2, 1, 1, 2], [1, 1, 0, 1], [2, 1, 1, 2], [3, 2, 1, 2], [1, 1]], 0) := by decide +kernel
  unfold covOut
  cases e : mrun sessCtx twoSubnets sessNode.monitored covEvs with
  | error x => rw [e] at h1; cases h1
  | ok x =>
    obtain ⟨m, out, pub⟩ := x
    cases e2 : m.step sessCtx twoSubnets (.timer 9000 false) with
    | error k => unfold mrun at h2; rw [e] at h2; simp only [e2] at h2; cases h2
    | ok y =>
      obtain ⟨m', l, p⟩ := y
      have e3 : mrun sessCtx twoSubnets sessNode.monitored (.timer 9000 false :: covEvs) =
          .ok (m', out ++ l, pub ++ p) := by
        unfold mrun
        rw [e]
        simp only [e2]
      rw [e] at h1
      rw [e3] at h2
      simp only [e3]
      refine ⟨m, out, pub, m', l, p, mrun_run e, e2, rfl, Option.some.inj h1, ?_,
        (Prod.mk.inj (Option.some.inj h2)).1⟩
      have h4 : (mrun sessCtx twoSubnets sessNode.monitored covEvs).toOption.map
          (fun x => x.1.gauges) = some (fun _ => 0) := by rfl
      rw [e] at h4
      intro k
      exact congrFun (Option.some.inj h4) k

/-- Non-vacuity: this run meets all hypotheses, and the report counts each validator where it was
seen. -/
example : wVals ≠ [] ∧ Sound sessCtx.X wSigns ∧ sessNode.Fresh sessCtx wG (some []) ∧
    (∀ l, (sessCtx.order l).Perm l) ∧
    (∀ s sb, sessCtx.reagg s sb = reaggregate wX wH s sb ∨ sessCtx.reagg s sb = []) ∧
    World (envOf wX wH) 0 wVals [] wG (HeaderIn wH wG [] (.timer 9000 false :: covEvs) covOut) ∧
    RunInjective wH (.timer 9000 false :: covEvs) covOut ∧
    ∃ m out pub m' l p, MRun sessCtx twoSubnets sessNode.monitored covEvs m out pub ∧
      m.step sessCtx twoSubnets (.timer 9000 false) = .ok (m', l, p) ∧ covOut = out ++ l ∧
      m.snap = some [(1, [true, true])] ∧
      [shown m'.gauges .timely, shown m'.gauges .late, shown m'.gauges .block,
        shown m'.gauges .combined, [m'.gauges .blockOnly, m'.gauges .timelyOnly]] =
      [[2, 1, 1, 2], [1, 1, 0, 1], [2, 1, 1, 2], [3, 2, 1, 2], [1, 1]] := by
  obtain ⟨m, out, pub, m', l, p, h1, h2, h3, h4, -, h5⟩ := cov_run
  exact ⟨by decide, wX_sound, sessNode_fresh, fun l => .refl _, fun _ _ => .inr rfl,
    world_asEvents (rWorld (by decide +kernel) (by decide +kernel)),
    injective_asEvents (noCollision_of_list (by decide +kernel) (by decide +kernel)),
    m, out, pub, m', l, p, h1, h2, h3, h4, h5⟩

/-- Non-vacuity of `C115_proposal`: on the genesis store, a block with the votes of validators 1 and 2. -/
example : (emitProposal wEmpty 2 [vote [false, true] 0 1, vote [false, true, true] 0 1]
    (fun _ => 0)).toOption.map (fun g => shown g .proposalCombined) = some [2, 1, 1, 2] := by
  decide +kernel

/-- Non-vacuity of `C115_agg_start`: at the end of the run, validator 2's vote waits. -/
example : (mrun sessCtx twoSubnets sessNode.monitored covEvs).toOption.bind (fun x =>
    (emitAggStart x.1.node.node.actor.store 2 (fun _ => 0)).toOption.map
      (fun g => shown g .aggStartNew)) = some [1, 1, 0, 1] := by
  decide +kernel

end Witness
end Verif.Node
