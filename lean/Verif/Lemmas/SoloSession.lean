import Verif.Lemmas.SoloTicks
import Verif.Props.C87_NothingWasted
import Verif.Props.C83_PoolValid
import Verif.Props.C18_C19_Votes
/-!
# The aggregation session of a node on a line that runs all validators
-/
namespace Verif.Build
open Verif Verif.Buffers

/-- The job for a group of signatures of which nothing has been aggregated. -/
theorem resolve_raw {decodes : Nat → Bool} {vals : List Validator} {d : AttData} {root : Root}
    {sigs : List (Nat × Nat)} {vs : List Nat} (hn : vs.Nodup)
    (hm : ∀ v, v ∈ sigs.map Prod.fst ↔ v ∈ vs) (h2 : 2 ≤ vs.length)
    (hr : ∀ x ∈ sigs, resolves decodes vals x.1 = true) :
    resolveJob decodes vals d root sigs [] [] =
      some ⟨d, root, [], [], rawById decodes vals sigs, sigs.map (fun x => (x.1, root))⟩ := by
  obtain ⟨r1, r2, r3⟩ := rawById_spec decodes vals sigs
  have hsel : (selectGreedily [] [] (rawById decodes vals sigs).keys).1 = [] := by
    simp [selectGreedily, selectLoop, maxChildren]
  have hlen : 2 ≤ (rawById decodes vals sigs).length := by
    have hsub : vs ⊆ (rawById decodes vals sigs).keys := by
      intro v hv
      obtain ⟨x, hx, rfl⟩ := List.mem_map.1 ((hm v).2 hv)
      exact r3 x hx (hr x hx)
    have := (List.subperm_of_subset hn hsub).length_le
    unfold AMap.keys at this
    rw [List.length_map] at this
    omega
  unfold resolveJob
  simp only [hsel, resolveChildren, List.not_mem_nil, not_false_eq_true, decide_true,
    List.filter_true, List.isEmpty_nil, true_and]
  rw [if_neg, if_neg (by omega)]
  rintro ⟨h, -⟩
  rw [List.isEmpty_iff] at h
  rw [h] at hlen
  simp at hlen

/-- Recorded votes alone are never two thirds. -/
theorem running_few {s : State} (hv : 0 < s.validators.length)
    (ho : Open s.validators.length
      (unpackTally s.validators.length s.justificationsRoots s.justificationsValidators)) (r : Root) :
    3 * (((runningVotes s).get? r).getD []).length < 2 * s.validators.length := by
  rw [runningVotes_get?]
  cases h : (unpackTally s.validators.length s.justificationsRoots
      s.justificationsValidators).get? r with
  | none => simp only [Option.map_none, Option.getD_none, List.length_nil]; omega
  | some w =>
    have hm := Tally.mem_of_get? h
    have h1 := ho.few _ hm
    have h2 := ho.len _ hm
    simp only at h1 h2
    rw [count_true_eq_filter_length, h2] at h1
    simpa [setOf] using h1

/-- A vote of all validators scores. -/
theorem score_all {s : State} {d : AttData} {cov : List Nat} (hv : 0 < s.validators.length)
    (ho : Open s.validators.length
      (unpackTally s.validators.length s.justificationsRoots s.justificationsValidators))
    (hc : ∀ v, v < s.validators.length → v ∈ cov) :
    ∃ x, (Projected.ofState s).score d cov s.validators.length = some x := by
  have hf := running_few hv ho d.target.root
  have hne : ¬ ((cov.filter (fun v => decide (v ∉
      (((Projected.ofState s).votes.get? d.target.root).getD [])))).isEmpty = true) := by
    intro h
    rw [List.isEmpty_iff, List.filter_eq_nil_iff] at h
    have hsub : List.range s.validators.length ⊆
        ((runningVotes s).get? d.target.root).getD [] := by
      intro v hv
      have := h v (hc v (List.mem_range.1 hv))
      by_contra hx
      exact this (decide_eq_true hx)
    have := (List.subperm_of_subset List.nodup_range hsub).length_le
    rw [List.length_range] at this
    omega
  unfold Projected.score
  simp only
  rw [if_neg hne]
  exact ⟨_, rfl⟩

/-- A session with one candidate, which passes and scores, runs it. -/
theorem jobs_single {hist known : List Root} {n slot m : Nat} {p : Projected} {r : Root} {j : Job}
    {sc : Score} (hm : 0 < m) (hs : jobScore hist known n p j = some sc)
    (ht : j.data.target.slot ≤ historicalRootsLimit) :
    jobRounds hist known n slot m [(r, j)] p = some [j] := by
  obtain ⟨m, rfl⟩ := Nat.exists_eq_succ_of_ne_zero (Nat.pos_iff_ne_zero.1 hm)
  obtain ⟨p', hp'⟩ := advance_isSome (p := p) (tier := sc.tier) (new := j.coverage) ht
  unfold jobRounds
  have : pickJob hist known n slot p [(r, j)] = some (r, j, sc) := by
    unfold pickJob
    simp only [List.foldl_cons, List.foldl_nil, hs]
  rw [this]
  simp only [hp', Option.bind_some]
  have he : AMap.erase ([(r, j)] : AMap Root Job) r = [] := by simp [AMap.erase]
  rw [he]
  cases m with
  | zero => rfl
  | succ m => rfl

end Verif.Build

namespace Verif.Node
open Verif Verif.Db Verif.Sync Verif.Votes Verif.Buffers Verif.Build

/-- Raw signatures that are valid can be aggregated. -/
theorem proveJob_live {X : Crypto} {H : Hash} {vals : List Validator} (hL : Live X)
    (hK : KeysDistinct X vals) {d : AttData} {raw : List (Nat × Nat)} {keys : List (Nat × Root)}
    (hne : raw ≠ []) (hn : (raw.map Prod.fst).Nodup) (hr : ∀ x ∈ raw, ValidSig X H vals x.1 d x.2) :
    ∃ pr, proveJob X vals ⟨d, H.attData d, [], [], raw, keys⟩ = some pr := by
  have hin : ∃ l, List.Forall₂ (fun (x y : Nat × Nat) =>
      ∃ val, vals[x.1]? = some val ∧ X.decodeKey val.attestationPubkey = some y.1 ∧
        X.decodeSig x.2 = some y.2) raw l := by
    clear hne hn
    induction raw with
    | nil => exact ⟨[], .nil⟩
    | cons x raw ih =>
      obtain ⟨l, hl⟩ := ih (fun y hy => hr y (List.mem_cons_of_mem _ hy))
      obtain ⟨val, k, sg, h1, h2, h3, -⟩ := hr x List.mem_cons_self
      exact ⟨(k, sg) :: l, .cons ⟨val, h1, h2, h3⟩ hl⟩
  obtain ⟨l, hl⟩ := hin
  have hnd : (l.map Prod.fst).Nodup := by
    clear hne hr
    induction hl with
    | nil => exact List.nodup_nil
    | @cons x y xs raw h1 h2 ih =>
      rw [List.map_cons, List.nodup_cons] at hn ⊢
      refine ⟨fun hm => ?_, ih hn.2⟩
      obtain ⟨y', hy', e⟩ := List.mem_map.1 hm
      obtain ⟨x', hx', val', f1, f2, -⟩ := forall2_mem_right h2 hy'
      obtain ⟨val, e1, e2, -⟩ := h1
      rw [e] at f2
      have := hK _ _ _ _ _ e1 f1 e2 f2
      rw [this] at hn
      exact hn.1 (List.mem_map_of_mem hx')
  have hsig : ∀ y ∈ l, X.xmss y.1 d.slot (H.attData d) y.2 = true := by
    intro y hy
    obtain ⟨x, hx, val, e1, e2, e3⟩ := forall2_mem_right hl hy
    obtain ⟨val', k, sg, f1, f2, f3, f4⟩ := hr x hx
    rw [e1] at f1; cases f1
    rw [e2] at f2; cases f2
    rw [e3] at f3; cases f3
    exact f4
  have hlne : l ≠ [] := by
    rintro rfl
    cases hl
    exact hne rfl
  unfold proveJob
  rw [show childInputs X vals [] = some [] from rfl, rawInputs_iff.2 hl]
  simp only
  unfold aggregateMixed
  rw [if_neg (by
    rintro ⟨h, -⟩
    exact hlne (List.isEmpty_iff.1 h))]
  exact Option.ne_none_iff_exists'.1
    (hL.single [] l (H.attData d) d.slot (by simp) hsig hnd (by simp))

/-- Everybody's first vote. -/
theorem recordAll_keys {H : Hash} {m : AMap Nat AttData} {bits : Bits} {d : AttData} {v : Nat}
    (hv : bits[v]? = some true ∨ v ∈ m.keys) : v ∈ (recordAll H m bits d).keys := by
  unfold recordAll
  have keep : ∀ (l : List Nat) (m : AMap Nat AttData), (v ∈ l ∨ m.get? v ≠ none) →
      (l.foldl (fun m v => recordVote H m v d) m).get? v ≠ none := by
    intro l
    induction l with
    | nil => intro m h; exact h.resolve_left List.not_mem_nil
    | cons w l ih =>
      intro m h
      rw [List.foldl_cons]
      apply ih
      by_cases hvw : w = v
      · subst hvw
        right
        unfold recordVote
        cases hg : m.get? w with
        | none => simp [AMap.get?_insert_self]
        | some e =>
          simp only
          split
          · simp [AMap.get?_insert_self]
          · simp [hg]
      · rcases h with h | h
        · rcases List.mem_cons.1 h with h | h
          · exact absurd h.symm hvw
          · exact .inl h
        · right
          rw [recordVote_other _ _ _ _ _ hvw]
          exact h
  by_contra hc
  refine keep _ m ?_ (AMap.get?_eq_none_iff.2 hc)
  rcases hv with hv | hv
  · exact .inl (mem_validatorIndices.2 hv)
  · exact .inr (fun h => AMap.get?_eq_none_iff.1 h hv)

theorem recordAll_same {H : Hash} {m : AMap Nat AttData} {bits : Bits} {d : AttData}
    (h : ∀ e ∈ m, e.2 = d) : ∀ e ∈ recordAll H m bits d, e.2 = d :=
  recordAll_all (H := H) (V := fun _ x => x = d) (m := m) (bits := bits) (d := d) h
    (fun _ _ => rfl)

section
variable {c : VCtx} {t : Nat} {vals : List Validator} {K : Header → Prop} {root : Root}
  {anchor : State} {f : Nat → Root} {s : Nat} {top : State} {ops : List Db.Op} {σ : Store}

/-- The state at the end of the line. -/
theorem Row.tipOpen (W : World c.ctx.E t vals [] (State.fromGenesis c.ctx.E.H t vals) K)
    (A : AnchorOk c.ctx.E.H (State.fromGenesis c.ctx.E.H t vals) K root anchor)
    (R : Row c.ctx.E t vals K root anchor f s top ops σ) {st : State}
    (h : stateOf root anchor ops (f s) = some st) :
    Open st.validators.length
      (unpackTally st.validators.length st.justificationsRoots st.justificationsValidators) := by
  obtain ⟨cs, st', h1, -, h3⟩ := state_chain W A R.inv h
  have := chain_open h1
  rcases h3 with rfl | ⟨-, rfl⟩
  · exact this
  · exact this

theorem Row.nz (W : World c.ctx.E t vals [] (State.fromGenesis c.ctx.E.H t vals) K)
    (R : Row c.ctx.E t vals K root anchor f s top ops σ) {i : Nat} (hi : i ≤ s) : f i ≠ 0 := by
  obtain ⟨st, h⟩ := R.states i hi
  rw [← (R.inv.tree.own _ _ h).1]
  exact W.headerNZ _

/-- The vote of the slot passes the filters of the session. -/
theorem Row.votePasses (W : World c.ctx.E t vals [] (State.fromGenesis c.ctx.E.H t vals) K)
    (R : Row c.ctx.E t vals K root anchor f s top ops σ) {st : State}
    (h : stateOf root anchor ops (f s) = some st) :
    (Projected.ofState st).passes (lineVote f s) (σ.mem.db.liveChain.map (fun e => e.1.2))
      (st.historicalBlockHashes ++ [f s]) = true := by
  obtain ⟨t1, t2, t3, t4⟩ := R.tip st h
  have hlen : st.historicalBlockHashes.length = s := by
    rw [R.inv.tree.histLen _ _ h, R.slot (Nat.le_refl _) h]
  have hget : ∀ i, i ≤ s → (st.historicalBlockHashes ++ [f s])[i]? = some (f i) := by
    intro i hi
    rcases Nat.lt_or_ge i s with hlt | hge
    · rw [List.getElem?_append_left (by omega)]
      exact t3 i hlt
    · obtain rfl : i = s := by omega
      rw [List.getElem?_append_right (by omega), hlen, Nat.sub_self]
      rfl
  have hk : f s ∈ σ.mem.db.liveChain.map (fun e => e.1.2) := by
    have := R.inv.cp.liveFull _ _ h (by rw [R.slot (Nat.le_refl _) h, R.just]; omega)
    exact List.mem_map.2 ⟨_, this, rfl⟩
  have hm : attestationDataMatchesChain (st.historicalBlockHashes ++ [f s]) (lineVote f s) = true :=
    (matchesChain_iff _ _).2 ⟨R.nz W (by omega), R.nz W (by omega), R.nz W (Nat.le_refl _),
      hget (s - 2) (by omega), hget (s - 1) (by omega), hget s (Nat.le_refl _)⟩
  have hsrc : (JustifiedSlots.isSlotJustified (Projected.ofState st).justifiedSlots
      (Projected.ofState st).finalizedSlot (lineVote f s).source.slot).getD false = true :=
    (t4 (s - 2)).2 (Nat.le_refl _)
  unfold Projected.passes
  rw [if_neg (by simpa [lineVote] using hk), if_neg (by simpa using hsrc), if_neg (by simpa using hm)]
  by_cases hg : genesisSelfVote (lineVote f s) = true
  · simp [hg]
  · have h2 : 2 ≤ s := by
      unfold genesisSelfVote lineVote at hg
      simp only [decide_eq_true_eq] at hg
      omega
    have htgt : ¬ ((JustifiedSlots.isSlotJustified (Projected.ofState st).justifiedSlots
        (Projected.ofState st).finalizedSlot (lineVote f s).target.slot).getD false = true) := by
      intro h
      have := (t4 (s - 1)).1 h
      omega
    have hjd : slotIsJustifiableAfter (lineVote f s).target.slot
        (Projected.ofState st).finalizedSlot = true := by
      show slotIsJustifiableAfter (s - 1) st.latestFinalized.slot = true
      rw [t2]
      unfold slotIsJustifiableAfter
      rw [if_neg (by omega)]
      simp only [Bool.or_eq_true, decide_eq_true_eq]
      exact .inl (.inl (by omega))
    rw [if_neg (fun h => by
        have := h.2
        simp only [lineVote] at this
        omega), if_neg (fun h => htgt h.2), if_neg (fun h => h.2 hjd)]

/-- The session aggregates the votes of all validators. -/
theorem Row.session (Q : Able c vals)
    (W : World c.ctx.E t vals [] (State.fromGenesis c.ctx.E.H t vals) K)
    (A : AnchorOk c.ctx.E.H (State.fromGenesis c.ctx.E.H t vals) K root anchor) {n : VNode}
    (R : Row c.ctx.E t vals K root anchor f s top ops n.actor.store) (hv : 2 ≤ vals.length)
    (hv' : vals.length ≤ registryLimit) (hs : s < 2 ^ 32) (hs' : s ≤ historicalRootsLimit)
    {vs : List Nat} (hvs : ∀ v, v ∈ vs ↔ v < vals.length)
    (hc : Collected c.X c.H vals (lineVote f s) vs n.actor.store.gossip)
    (hnew : n.actor.store.newP.data = []) (hfc : n.actor.store.fc.new = [])
    (hfresh : n.actor.store.knownP.data.get? (c.H.attData (lineVote f s)) = none) :
    ∃ (n' : VNode) (ops' : List Db.Op) (a : Agg), n.session c s = .ok (n', [(lineVote f s, a)]) ∧
      n'.actor.pending = n.actor.pending ∧
      n'.actor.store.mem.db = n.actor.store.mem.db ∧
      n'.actor.store.knownP = n.actor.store.knownP ∧
      n'.actor.store.genesisTime = n.actor.store.genesisTime ∧
      n'.actor.store.gossip.data = [] ∧
      n'.actor.store.gossip.capacity = n.actor.store.gossip.capacity ∧
      n'.actor.store.newP.data = [(c.H.attData (lineVote f s), ⟨lineVote f s, [a]⟩)] ∧
      (∀ v, v < vals.length → In v a) ∧ ValidAgg c.X c.H vals (lineVote f s) a ∧
      (∀ v, v < vals.length → v ∈ n'.actor.store.fc.new.keys) ∧
      (∀ e ∈ n'.actor.store.fc.new, e.2 = lineVote f s) ∧
      Row c.ctx.E t vals K root anchor f s top ops' n'.actor.store := by
  obtain ⟨σ1, ops1, p1, p2, p3, R1⟩ := R.ourProposer W (s + 1)
  obtain ⟨st, σ2, ops2, q1, q2, q3, q4, R2⟩ := R1.headState W
  have hvals := state_vals W R1.inv q2
  have m2 : SameMem n.actor.store σ2 := p3.trans q4
  obtain ⟨-, sigs, g1, g2, g4⟩ := hc.resolve_left (fun h => by
    have := (hvs 0).2 (by omega)
    rw [h.1] at this
    cases this)
  simp only [hvs] at g2
  have hres : ∀ x ∈ sigs, resolves (fun b => (c.X.decodeKey b).isSome) vals x.1 = true := by
    intro x hx
    obtain ⟨val, k, sg, k1, k2, -⟩ := g4 x hx
    unfold resolves
    rw [k1]
    simp only [k2, Option.isSome_some]
  have hjob := resolve_raw (d := lineVote f s) (root := c.H.attData (lineVote f s))
    (vs := List.range vals.length) List.nodup_range (fun v => by rw [g2, List.mem_range])
    (by rw [List.length_range]; exact hv) hres
  obtain ⟨r1, r2, r3⟩ := rawById_spec (fun b => (c.X.decodeKey b).isSome) vals sigs
  generalize hraw : rawById (fun b => (c.X.decodeKey b).isSome) vals sigs = raw at *
  have hcand : candidates c.H (fun b => (c.X.decodeKey b).isSome) vals
      ⟨σ2.gossip, σ2.newP, σ2.knownP⟩ = [(c.H.attData (lineVote f s),
        ⟨lineVote f s, c.H.attData (lineVote f s), [], [], raw,
          sigs.map (fun x => (x.1, c.H.attData (lineVote f s)))⟩)] := by
    unfold candidates
    simp only [m2.gossip, m2.newP, m2.knownP, GossipBuffer.snapshot, g1, hnew, List.map_cons,
      List.map_nil, List.foldl_cons, List.foldl_nil, proofsFor, AMap.get?_nil, hfresh,
      Option.map_none, Option.getD_none, hjob]
    rfl
  have hall : ∀ v, v < vals.length → v ∈ raw.map Prod.fst := by
    intro v hv
    obtain ⟨x, hx, rfl⟩ := List.mem_map.1 ((g2 v).2 hv)
    exact r3 x hx (hres x hx)
  have hnz : raw ≠ [] := by
    rintro rfl
    have := hall 0 (by omega)
    cases this
  have hscore : ∃ sc, jobScore (st.historicalBlockHashes ++ [σ2.mem.db.head])
      (σ2.mem.db.liveChain.map (fun e => e.1.2)) st.validators.length (Projected.ofState st)
      ⟨lineVote f s, c.H.attData (lineVote f s), [], [], raw,
          sigs.map (fun x => (x.1, c.H.attData (lineVote f s)))⟩ = some sc := by
    unfold jobScore
    simp only
    rw [q3, R1.head, if_neg (by rw [R1.votePasses W q2]; simp)]
    obtain ⟨x, hx⟩ := score_all (s := st) (d := lineVote f s)
      (cov := Job.coverage ⟨lineVote f s, c.H.attData (lineVote f s), [], [], raw,
          sigs.map (fun x => (x.1, c.H.attData (lineVote f s)))⟩) (by rw [hvals]; omega)
      (R1.tipOpen W A q2) (by
        intro v hv
        rw [hvals] at hv
        unfold Job.coverage
        rw [List.mem_dedup]
        simp only [List.append_nil]
        exact hall v hv)
    exact ⟨x.1, by rw [hx]; rfl⟩
  obtain ⟨sc, hscore⟩ := hscore
  have hjobs : sessionJobs c n.sync n.actor.store s = .ok ([⟨lineVote f s,
      c.H.attData (lineVote f s), [], [], raw,
      sigs.map (fun x => (x.1, c.H.attData (lineVote f s)))⟩], vals, σ2) := by
    unfold sessionJobs
    rw [p1]
    simp only
    rw [q1]
    simp only
    unfold snapshotJobs
    rw [hvals, hcand, ← hvals, jobs_single ?_ hscore (by simp only [lineVote]; omega)]
    split
    · omega
    · unfold maxAggregationJobs; omega
  obtain ⟨pr, hpr⟩ := proveJob_live (keys := sigs.map (fun x => (x.1, c.H.attData (lineVote f s))))
    Q.live Q.keys hnz r1 (fun x hx => g4 x (r2 x hx).1)
  have hout : aggregateJob (proveJob c.X vals) ⟨lineVote f s, c.H.attData (lineVote f s), [], [], raw,
      sigs.map (fun x => (x.1, c.H.attData (lineVote f s)))⟩ = .ok (some ⟨lineVote f s,
        ⟨bitsFromIndices (sortDedup (raw.map Prod.fst ++ [])), pr⟩,
        sortDedup (raw.map Prod.fst ++ []),
        sigs.map (fun x => (x.1, c.H.attData (lineVote f s)))⟩) := by
    unfold aggregateJob
    simp only
    rw [if_neg (by
      rintro ⟨h, -⟩
      exact hnz (List.isEmpty_iff.1 h)), if_neg (by simp only [lineVote]; omega), hpr]
    simp only
    rw [if_neg]
    intro h
    obtain ⟨v, hv, hl⟩ := List.any_eq_true.1 h
    rw [mem_sortDedup, List.append_nil] at hv
    obtain ⟨x, hx, rfl⟩ := List.mem_map.1 hv
    have := (g2 x.1).1 (List.mem_map_of_mem (r2 x hx).1)
    simp only [decide_eq_true_eq] at hl
    omega
  obtain ⟨b', e1, e2, e3⟩ := push_empty R2.inv.buf.new (by omega) (lineVote f s)
    ⟨bitsFromIndices (sortDedup (raw.map Prod.fst ++ [])), pr⟩ (by rw [m2.newP]; exact hnew)
  obtain ⟨gb, d1, d2, d3, d4, d5⟩ := delete_group R2.inv.buf.gossip (by rw [m2.gossip]; exact g1)
  have hin : ∀ v, v < vals.length →
      (bitsFromIndices (sortDedup (raw.map Prod.fst ++ [])))[v]? = some true := by
    intro v hv
    rw [bitsFromIndices_get, mem_sortDedup, List.append_nil]
    exact hall v hv
  let σ3 : Store := { σ2 with
    fc := insertNew c.H σ2.fc [(bitsFromIndices (sortDedup (raw.map Prod.fst ++ [])), lineVote f s)]
    newP := b'
    gossip := gb }
  have happ : applyAggregate c.H σ2 (lineVote f s)
      ⟨bitsFromIndices (sortDedup (raw.map Prod.fst ++ [])), pr⟩
      (sigs.map (fun x => (x.1, c.H.attData (lineVote f s)))) = .ok σ3 := by
    unfold applyAggregate insertNewPayload
    rw [show σ2.newP.push c.H = σ2.newP.push c.ctx.E.H from rfl, e1]
    simp only
    rw [d1]
  have hfn : σ3.fc.new = recordAll c.H [] (bitsFromIndices (sortDedup (raw.map Prod.fst ++ [])))
      (lineVote f s) := by
    show (insertNew c.H σ2.fc [(bitsFromIndices (sortDedup (raw.map Prod.fst ++ [])),
      lineVote f s)]).new = _
    unfold insertNew
    simp only [List.foldl_cons, List.foldl_nil, m2.fc, hfc]
  refine ⟨{ n with actor := { n.actor with store := σ3 } }, ops2,
    ⟨bitsFromIndices (sortDedup (raw.map Prod.fst ++ [])), pr⟩, ?_, rfl, q3.trans p2, m2.knownP,
    m2.genesis, d5, by show gb.capacity = _; rw [d4, m2.gossip], e3, fun v hv => hin v hv, ?_, ?_, ?_, ?_⟩
  · unfold VNode.session
    rw [hjobs]
    simp only
    unfold runJobs
    rw [hout]
    simp only
    rw [happ]
    rfl
  · exact (proveJob_valid (D := fun _ => True) Q.complete Q.keys (by
      refine ⟨trivial, rfl, r1, by simp, fun x hx => g4 x (r2 x hx).1, [], by simp, rfl, rfl⟩)
      hout).1
  · intro v hv
    show v ∈ σ3.fc.new.keys
    rw [hfn]
    exact recordAll_keys (.inl (hin v hv))
  · show ∀ e ∈ σ3.fc.new, _
    rw [hfn]
    exact recordAll_same (by intro e he; cases he)
  · refine R2.buffers (by rfl) ⟨e2, R2.inv.buf.known, d2, ?_⟩
    show gb.total ≤ gb.capacity
    rw [d4]
    exact Nat.le_trans d3 R2.inv.buf.gossipBound

/-- The aggregation tick does nothing else. -/
theorem Row.aggTick (W : World c.ctx.E t vals [] (State.fromGenesis c.ctx.E.H t vals) K) {n : VNode}
    (R : Row c.ctx.E t vals K root anchor f s top ops n.actor.store) (hv : 0 < vals.length)
    {now : Nat} (hnow : (now - n.actor.store.genesisTime * 1000) / 800 = 5 * s + 2)
    (htime : n.actor.store.mem.db.time = 5 * s + 1) (agg : Bool) :
    ∃ n' ops', n.tick c now agg = .ok (n', []) ∧ n'.actor.pending = n.actor.pending ∧
      n'.actor.store.mem.db = { n.actor.store.mem.db with time := 5 * s + 2 } ∧
      SameMem n.actor.store n'.actor.store ∧
      Row c.ctx.E t vals K root anchor f s top ops' n'.actor.store := by
  obtain ⟨sync, σ1, ops1, h1, h2, h3, R1, h4⟩ := R.tick W hv (j := 2) (by omega) (by omega) agg
    (i := .aggregation) rfl hnow (by omega)
  refine ⟨⟨{ n.actor with store := σ1.setTime (5 * s + 2) }, sync⟩, _, ?_, rfl, ?_, ?_,
    R1.setTime (5 * s + 2)⟩
  · rw [h4]
    rfl
  · show { σ1.mem.db with time := 5 * s + 2 } = _
    rw [h2]
  · exact ⟨h3.fc, h3.newP, h3.knownP, h3.gossip, h3.genesis⟩

/-- The tick after it moves the safe target to the head. -/
theorem Row.safeTick (W : World c.ctx.E t vals [] (State.fromGenesis c.ctx.E.H t vals) K) {n : VNode}
    (R : Row c.ctx.E t vals K root anchor f s top ops n.actor.store) (hv : 0 < vals.length)
    {now : Nat} (hnow : (now - n.actor.store.genesisTime * 1000) / 800 = 5 * s + 3)
    (htime : n.actor.store.mem.db.time = 5 * s + 2)
    (hn : ∀ v, v < vals.length → v ∈ n.actor.store.fc.new.keys)
    (hf : ∀ e ∈ n.actor.store.fc.new, e.2 = lineVote f s) (agg : Bool) :
    ∃ n' ops', n.tick c now agg = .ok (n', []) ∧ n'.actor.pending = n.actor.pending ∧
      n'.actor.store.mem.db.time = 5 * s + 3 ∧
      n'.actor.store.mem.db.safeTarget = f s ∧ SameMem n.actor.store n'.actor.store ∧
      Row c.ctx.E t vals K root anchor f s top ops' n'.actor.store := by
  obtain ⟨sync, σ1, ops1, h1, h2, h3, R1, h4⟩ := R.tick W hv (j := 3) (by omega) (by omega) agg
    (i := .safeTarget) rfl hnow (by omega)
  obtain ⟨σ2, ops2, u1, u2, u3, u4, R2⟩ := (R1.setTime (5 * s + 3)).updateSafeTarget W
    (by
      show _ ≤ σ1.fc.new.length
      rw [h3.fc]
      have : List.range vals.length ⊆ n.actor.store.fc.new.keys :=
        fun v hv => hn v (List.mem_range.1 hv)
      have := (List.subperm_of_subset List.nodup_range this).length_le
      unfold AMap.keys at this
      rw [List.length_range, List.length_map] at this
      omega)
    (by
      intro e he
      have he : e ∈ σ1.fc.new := he
      rw [h3.fc] at he
      rw [hf e he]
      rfl)
  refine ⟨⟨{ n.actor with store := σ2 }, sync⟩, ops2, ?_, rfl, u3, u4, ?_, R2⟩
  · rw [h4]
    simp only [duty, u1, actorDuty]
  · exact SameMem.trans (b := σ1.setTime (5 * s + 3)) ⟨h3.fc, h3.newP, h3.knownP, h3.gossip, h3.genesis⟩ u2

end
end Verif.Node
