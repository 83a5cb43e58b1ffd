import Verif.Lemmas.Projection
/-!
# C64: every vote a merging proposer packs is counted
-/
namespace Verif.Build
open Verif Verif.Buffers JustifiedSlots

/-- Along the rounds, each packed attestation is countable when the loop reaches it. -/
theorem rounds_counted {s0 : State} {rts : Root → Option Nat}
    (hrts : ∀ k r, s0.latestFinalized.slot < k → s0.historicalBlockHashes[k]? = some r →
      ∃ k', rts r = some k' ∧ k ≤ k')
    (hu : UniqueRoots s0.historicalBlockHashes)
    (hl : s0.historicalBlockHashes.length ≤ historicalRootsLimit)
    {known done : List Root} {pool : Pool} {p : Projected} {ks : List Pick}
    (hR : Rounds s0.historicalBlockHashes known s0.validators.length pool done p ks) :
    ∀ (st : State × Tally) (as : List AggAtt), LoopInv s0 rts (fun _ _ => True) st →
    Sim s0.historicalBlockHashes s0.validators.length p st →
    (∀ k ∈ ks, ∀ v ∈ coverage k.proofs, v < s0.validators.length) →
    List.Forall₂ (fun (k : Pick) (a : AggAtt) => a.data = k.data ∧
      ∀ v : Nat, a.bits[v]? = some true ↔ v ∈ coverage k.proofs) ks as →
    ∀ pre a suf, as = pre ++ a :: suf → ∃ sti, attLoop s0.validators.length rts pre st = .ok sti ∧
      (genesisSelfVote a.data = false → Countable sti.1 a.data) := by
  induction hR with
  | nil =>
    intro st as _ _ _ hF pre a suf he
    cases hF
    simp at he
  | cons h1 h2 h3 h4 h5 hr ih =>
    intro st as hI hS hc hF pre a suf he
    cases hF with
    | @cons k a0 ks as' hka hF =>
      obtain ⟨s1, st', s2, s3, s4⟩ := sim_step hrts hu hl hI hS h3 h4 (List.nodup_dedup _)
        (hc _ List.mem_cons_self) h5 hka.1 hka.2
      cases pre with
      | nil =>
        simp only [List.nil_append, List.cons.injEq] at he
        obtain ⟨rfl, -⟩ := he
        refine ⟨st, rfl, fun hg => ?_⟩
        rw [hka.1] at hg ⊢
        exact s1 hg
      | cons x pre =>
        simp only [List.cons_append, List.cons.injEq] at he
        obtain ⟨rfl, he⟩ := he
        obtain ⟨sti, i1, i2⟩ := ih st' as' s3 s4 (fun k hk => hc k (List.mem_cons_of_mem _ hk)) hF
          pre a suf he
        refine ⟨sti, ?_, i2⟩
        unfold attLoop
        rw [s2]
        exact i1

/-- The order of the compacted entries is the order of the rounds. -/
theorem dataOrder_flatMap {ord : Root → List Nat → List Nat} : ∀ {ks : List Pick},
    (ks.map Pick.data).Nodup → (∀ k ∈ ks, Pick.entries ord k ≠ []) →
    dataOrder (ks.flatMap (Pick.entries ord)) = ks.map Pick.data
  | [], _, _ => rfl
  | k :: ks, hn, hne => by
    rw [List.map_cons, List.nodup_cons] at hn
    rw [List.flatMap_cons, List.map_cons, ← dataOrder_flatMap hn.2 (fun x hx => hne x
      (List.mem_cons_of_mem _ hx))]
    have hd : k.data ∉ dataOrder (ks.flatMap (Pick.entries ord)) := by
      rw [dataOrder_flatMap hn.2 (fun x hx => hne x (List.mem_cons_of_mem _ hx))]
      exact hn.1
    have hall : ∀ e ∈ Pick.entries ord k, e.1.data = k.data := fun e he => (mem_entries he).1
    have hk := hne k List.mem_cons_self
    revert hall hk
    generalize Pick.entries ord k = l
    intro hall hk
    induction l with
    | nil => exact absurd rfl hk
    | cons e l ih =>
      have he := hall e List.mem_cons_self
      rw [List.cons_append, dataOrder, he]
      congr 1
      cases l with
      | nil =>
        rw [List.nil_append]
        exact List.filter_eq_self.2 (fun d hdm => by
          have : d ≠ k.data := fun e => hd (e ▸ hdm)
          simpa using this)
      | cons e' l =>
        rw [ih (fun x hx => hall x (List.mem_cons_of_mem _ hx)) (by simp)]
        rw [List.filter_cons_of_neg (by simp)]
        exact List.filter_eq_self.2 (fun d hdm => by
          have : d ≠ k.data := fun e => hd (e ▸ hdm)
          simpa using this)

/-- What header processing leaves alone. -/
theorem header_frame {H : Hash} {s s1 s2 : State} {b : Block}
    (h1 : processSlots H s b.slot = .ok s1) (h2 : processBlockHeader H s1 b = .ok s2) :
    s2.latestFinalized.slot = s.latestFinalized.slot ∧
    extendToSlot s.justifiedSlots s.latestFinalized.slot (b.slot - 1) = some s2.justifiedSlots ∧
    s2.validators = s.validators ∧ s2.justificationsRoots = s.justificationsRoots ∧
    s2.justificationsValidators = s.justificationsValidators := by
  unfold processSlots at h1
  split at h1
  · cases h1
  simp only [Except.ok.injEq] at h1
  have e1 : s1 = { s with slot := b.slot, latestBlockHeader := s1.latestBlockHeader } := by
    rw [← h1]; split <;> rfl
  clear h1
  unfold processBlockHeader at h2
  simp only at h2
  split at h2
  · cases h2
  split at h2
  · cases h2
  split at h2
  · cases h2
  split at h2
  · cases h2
  split at h2
  · cases h2
  by_cases h0 : s1.latestBlockHeader.slot = 0
  · simp only [if_pos h0] at h2
    split at h2
    · cases h2
    split at h2
    · cases h2
    next js hm =>
    cases h2
    rw [e1] at hm ⊢
    exact ⟨rfl, hm, rfl, rfl, rfl⟩
  · simp only [if_neg h0] at h2
    split at h2
    · cases h2
    split at h2
    · cases h2
    next js hm =>
    cases h2
    rw [e1] at hm ⊢
    exact ⟨rfl, hm, rfl, rfl, rfl⟩

/-- A built block, taken apart: the rounds of the selection, the state its attestations are applied to,
and the correspondence between the rounds and the attestations. -/
theorem build_picks {H : Hash} (hz : ∀ s, H.state s ≠ 0) {t : Nat}
    {vals : List Validator} {bs : List Block} {s : State}
    (hc : Chain H (State.fromGenesis H t vals) bs s)
    {merge : AttData → List Agg → Option Nat} {ord : Root → List Nat → List Nat}
    (ho : ∀ r l, (ord r l).Perm l)
    {slot : Nat} (hslot : s.slot < slot) (hlim : slot ≤ historicalRootsLimit)
    (hv : 0 < vals.length)
    {known : List Root} {pool : Pool} (hn : pool.keys.Nodup)
    (hkey : ∀ e ∈ pool, e.1 = H.attData e.2.1)
    (hpool : ∀ e ∈ pool, ∀ p ∈ e.2.2, ∀ v, In v p → v < vals.length)
    (hu : UniqueRoots (extendedHist s slot (tipRoot H (State.fromGenesis H t vals) bs)))
    {c : Config} (hagg : c.aggregate = true) {b : Block} {proofs : List Agg} {post : State}
    (h : buildBlock H merge ord s slot (slot % vals.length)
      (tipRoot H (State.fromGenesis H t vals) bs) known pool c = .ok (b, proofs, post)) :
    ∃ (s1 s2 : State) (ks : List Pick) (q : Projected),
      processSlots H s b.slot = .ok s1 ∧ processBlockHeader H s1 b = .ok s2 ∧
      processAttestations s2 b.body = .ok post ∧
      Run s2.historicalBlockHashes known s2.validators.length pool
        (min c.maxAtts maxAttestationsData) [] (Projected.ofState s) ks q ∧
      List.Forall₂ (fun (k : Pick) (a : AggAtt) => a.data = k.data ∧
        ∀ v : Nat, a.bits[v]? = some true ↔ v ∈ coverage k.proofs) ks b.body ∧
      SInv (fun _ _ => True) s2 ∧
      Sim s2.historicalBlockHashes s2.validators.length (Projected.ofState s)
        (s2, unpackTally s2.validators.length s2.justificationsRoots s2.justificationsValidators) ∧
      (∀ k ∈ ks, ∀ v ∈ coverage k.proofs, v < s2.validators.length) ∧
      UniqueRoots s2.historicalBlockHashes ∧ s2.validators = vals ∧
      s2.historicalBlockHashes = extendedHist s slot (tipRoot H (State.fromGenesis H t vals) bs) ∧
      s2.historicalBlockHashes.length ≤ historicalRootsLimit := by
  generalize hpr : tipRoot H (State.fromGenesis H t vals) bs = pr at *
  unfold buildBlock at h
  cases hsel : selectAttestations s slot pr known ord pool c.maxAtts with
  | none => rw [hsel] at h; cases h
  | some sel =>
  rw [hsel] at h
  simp only at h
  rw [if_pos hagg] at h
  cases hes : compact merge sel with
  | none => rw [hes] at h; cases h
  | some es =>
  rw [hes] at h
  simp only at h
  obtain ⟨ks, q, hrun, hk3⟩ := selectAttestations_run hn hsel
  have hk2 := hrun.rounds
  have hali : ∀ e ∈ sel, e.1.bits = e.2.participants := by rw [hk3]; exact entries_aligned
  obtain ⟨hone, hall⟩ := C44_compact hali hes
  -- the block and the state it is applied to
  have hbody : b.slot = slot ∧ b.proposerIndex = slot % vals.length ∧ b.parentRoot = pr ∧
      b.body = es.map Prod.fst := by
    cases hs1 : processSlots H s slot with
    | error e => rw [hs1] at h; cases h
    | ok s1 =>
      rw [hs1] at h
      simp only at h
      split at h
      · cases h
      · simp only [Except.ok.injEq, Prod.mk.injEq] at h
        obtain ⟨rfl, -⟩ := h
        exact ⟨rfl, rfl, rfl, rfl⟩
  obtain ⟨hb1, hb2, hb3, hb4⟩ := hbody
  obtain ⟨hsv, hhdr, s1, s2, hs1, hs2, hinv, hvs2, hh2, hl2⟩ := chain_header (b := b) hz hc
    (by omega) (by omega) hv (by rw [hb2, hb1]) (by rw [hb3, hpr])
  rw [hb1, hb3] at hh2
  -- order and content of the packed attestations
  have hcov : ∀ k ∈ ks, Pick.entries ord k ≠ [] ∧ ∀ v, v ∈ coverage k.proofs ↔
      ∃ e ∈ Pick.entries ord k, Votes e v := by
    intro k hk
    obtain ⟨k1, -, -, k4⟩ := hk2.mem k hk
    have hcv : ∀ v, v ∈ coverage k.proofs ↔ ∃ e ∈ Pick.entries ord k, Votes e v := by
      intro v
      rw [mem_coverage, (C45_builder k.proofs (ord k.root) (ho k.root)).2.1 v]
      unfold Pick.entries
      constructor
      · rintro ⟨q, hq, hv⟩
        exact ⟨_, List.mem_map_of_mem hq, hv⟩
      · rintro ⟨e, he, hv⟩
        obtain ⟨q, hq, rfl⟩ := List.mem_map.1 he
        exact ⟨q, hq, hv⟩
    refine ⟨fun hnil => ?_, hcv⟩
    obtain ⟨v, hv⟩ := List.exists_mem_of_ne_nil _ k4
    obtain ⟨e, he, -⟩ := (hcv v).1 hv
    rw [hnil] at he
    cases he
  have hdn : (ks.map Pick.data).Nodup := by
    have hrn := hk2.nodup
    have : ks.map Pick.root = (ks.map Pick.data).map H.attData := by
      rw [List.map_map]
      apply List.map_congr_left
      intro k hk
      exact hkey _ (hk2.mem k hk).1
    rw [this] at hrn
    exact hrn.of_map
  have hord : dataOrder sel = ks.map Pick.data := by
    rw [hk3]; exact dataOrder_flatMap hdn (fun k hk => (hcov k hk).1)
  have hesd : es.map (·.1.data) = ks.map Pick.data := by
    rw [← hord]
    have h1 := dataOrder_pairwise sel
    have h2 := hone.order
    have hperm : (es.map (·.1.data)).Perm (dataOrder sel) := by
      rw [List.perm_ext_iff_of_nodup hone.nodup (by rw [hord]; exact hdn)]
      intro d
      rw [hone.same, mem_dataOrder]
    exact hperm.eq_of_pairwise (fun a b _ _ hab hba => by omega) h2 h1
  have hF : List.Forall₂ (fun (k : Pick) (a : AggAtt) => a.data = k.data ∧
      ∀ v : Nat, a.bits[v]? = some true ↔ v ∈ coverage k.proofs) ks b.body := by
    have hlen : ks.length = b.body.length := by
      have := congrArg List.length hesd
      simp only [List.length_map] at this
      rw [hb4, List.length_map, this]
    rw [List.forall₂_iff_get]
    refine ⟨hlen, fun i hi hi' => ?_⟩
    simp only [List.get_eq_getElem]
    have hie : i < es.length := by rw [hb4, List.length_map] at hi'; exact hi'
    have hbi : b.body[i] = es[i].1 := by simp only [hb4, List.getElem_map]
    have hdi : es[i].1.data = ks[i].data := by
      have := congrArg (fun l => l[i]?) hesd
      simp only [List.getElem?_map, List.getElem?_eq_getElem hie, List.getElem?_eq_getElem hi,
        Option.map_some, Option.some.injEq] at this
      exact this
    rw [hbi]
    refine ⟨hdi, fun v => ?_⟩
    obtain ⟨-, x2⟩ := hall es[i] (List.getElem_mem hie)
    have x2 := x2 v
    show Votes es[i] v ↔ _
    rw [x2, (hcov _ (List.getElem_mem hi)).2]
    constructor
    · rintro ⟨e, he, hd, hve⟩
      rw [hk3] at he
      obtain ⟨k, hk, hek⟩ := List.mem_flatMap.1 he
      have : k = ks[i] := by
        apply List.inj_on_of_nodup_map hdn hk (List.getElem_mem hi)
        rw [← (mem_entries hek).1, hd, hdi]
      subst this
      exact ⟨e, hek, hve⟩
    · rintro ⟨e, he, hve⟩
      refine ⟨e, ?_, ?_, hve⟩
      · rw [hk3]; exact List.mem_flatMap.2 ⟨_, List.getElem_mem hi, he⟩
      · rw [(mem_entries he).1, hdi]
  -- the relation holds at the start
  obtain ⟨f1, f2, f3, f4, f5⟩ := header_frame hs1 hs2
  have hS : Sim s2.historicalBlockHashes s2.validators.length (Projected.ofState s)
      (s2, unpackTally s2.validators.length s2.justificationsRoots s2.justificationsValidators) := by
    refine ⟨f1.symm, fun k => ?_, fun k r hk hr hr0 => ?_⟩
    · simp only [Projected.ofState]
      rw [f1, jst_extend f2]
    · simp only [Projected.ofState]
      rw [runningVotes_get?, ← f3, ← f4, ← f5]
      unfold votesOf
      cases hg : (unpackTally s2.validators.length s2.justificationsRoots
          s2.justificationsValidators).get? r with
      | none =>
        refine ⟨.nil, fun v => ?_⟩
        simp [List.getElem?_replicate]
      | some w =>
        simp only [Option.map_some, Option.getD_some]
        unfold setOf
        refine ⟨List.nodup_range.filter _, fun v => ?_⟩
        rw [List.mem_filter, List.mem_range, decide_eq_true_eq]
  have hvl : s2.validators.length = s.validators.length := by rw [f3]
  have hcl : ∀ k ∈ ks, ∀ v ∈ coverage k.proofs, v < s2.validators.length := by
    intro k hk v hv
    obtain ⟨q, hq, hin⟩ := mem_coverage.1 hv
    rw [hvs2]
    exact hpool _ (hk2.mem k hk).1 _ hq v hin
  rw [← hh2, ← hvl] at hrun
  refine ⟨s1, s2, ks, q, hs1, hs2, ?_, hrun, hF, hinv, hS, hcl, by rw [hh2]; exact hu, hvs2,
    hh2, by rw [hl2, hb1]; exact hlim⟩
  rw [hb1] at hs1
  rw [hs1] at h
  simp only at h
  split at h
  · cases h
  next s3 h3 =>
  simp only [Except.ok.injEq, Prod.mk.injEq] at h
  obtain ⟨hb, -, rfl⟩ := h
  unfold processBlock at h3
  have he : processBlockHeader H s1 ⟨slot, slot % vals.length, pr, 0, es.map Prod.fst⟩ =
      processBlockHeader H s1 b := by
    rw [← hb]; rfl
  rw [he, hs2] at h3
  rw [hb4]
  exact h3

/-- **C64.** On the head of any valid chain, with a pool keyed by data root whose participants are
validators, and no two blocks of the chain with the same root: in a block built by a proposer that
merges proofs, every attestation except votes from genesis to genesis is counted. That is, when
the state transition of the block reaches the attestation, its vote is countable: source
justified, target open, on this chain, at a justifiable distance. -/
theorem C64_every_vote_counts {H : Hash} (hz : ∀ s, H.state s ≠ 0) {t : Nat}
    {vals : List Validator} {bs : List Block} {s : State}
    (hc : Chain H (State.fromGenesis H t vals) bs s)
    {merge : AttData → List Agg → Option Nat} {ord : Root → List Nat → List Nat}
    (ho : ∀ r l, (ord r l).Perm l)
    {slot : Nat} (hslot : s.slot < slot) (hlim : slot ≤ historicalRootsLimit)
    (hv : 0 < vals.length)
    {known : List Root} {pool : Pool} (hn : pool.keys.Nodup)
    (hkey : ∀ e ∈ pool, e.1 = H.attData e.2.1)
    (hpool : ∀ e ∈ pool, ∀ p ∈ e.2.2, ∀ v, In v p → v < vals.length)
    (hu : UniqueRoots (extendedHist s slot (tipRoot H (State.fromGenesis H t vals) bs)))
    {c : Config} (hagg : c.aggregate = true) {b : Block} {proofs : List Agg} {post : State}
    (h : buildBlock H merge ord s slot (slot % vals.length)
      (tipRoot H (State.fromGenesis H t vals) bs) known pool c = .ok (b, proofs, post)) :
    ∃ s1 s2, processSlots H s b.slot = .ok s1 ∧ processBlockHeader H s1 b = .ok s2 ∧
    ∀ pre a suf, b.body = pre ++ a :: suf →
      ¬ (a.data.source.slot = 0 ∧ a.data.target.slot = 0) →
      ∃ st, attLoop s2.validators.length
          (rootToSlot s2.historicalBlockHashes s2.latestFinalized.slot) pre
          (s2, unpackTally s2.validators.length s2.justificationsRoots s2.justificationsValidators)
          = .ok st ∧ Countable st.1 a.data := by
  obtain ⟨s1, s2, ks, q, hs1, hs2, -, hrun, hF, hinv, hS, hcl, hu2, -, -, hl2⟩ :=
    build_picks hz hc ho hslot hlim hv hn hkey hpool hu hagg h
  refine ⟨s1, s2, hs1, hs2, ?_⟩
  intro pre a suf he hng
  obtain ⟨sti, i1, i2⟩ := rounds_counted (fun k r h1 h2 => rootToSlot_ge h1 h2) hu2
    hl2 hrun.rounds _ _ hinv.loopInv hS hcl hF pre a suf he
  exact ⟨sti, i1, i2 (by simpa [genesisSelfVote] using hng)⟩

/-! ## Concrete cases, and the other proposer mode -/

/-- Two empty blocks on genesis. -/
def eState : State :=
  match Witness.importAll Witness.wH Witness.wG [Witness.mkBlock 1 0 [], Witness.mkBlock 2 1 []] with
  | .ok s => s
  | .error _ => Witness.wG

theorem eChain : Chain Witness.wH Witness.wG [Witness.mkBlock 2 1 [], Witness.mkBlock 1 0 []] eState :=
  Witness.chain_of_importAll (cs := [Witness.mkBlock 1 0 [], Witness.mkBlock 2 1 []])
    (by decide +kernel)

/-- Votes `0 → 1` of validators 0 and 1 in two proofs, and votes `1 → 2` of both in one. -/
def ePool : Pool :=
  [ (1, (Witness.vote [] 0 1).data, [⟨[true], 1⟩, ⟨[false, true], 2⟩]),
    (2, (Witness.vote [] 1 2).data, [⟨[true, true], 3⟩]) ]

/-- The builder, with or without merging. -/
def eBuild (agg : Bool) : Except BuildError (Block × List Agg × State) :=
  buildBlock Witness.wH (fun _ _ => some 9) (fun _ l => l) eState 3 (3 % 3) 3 [2, 3] ePool ⟨agg, 8⟩

/-- The hypotheses of C64 hold for this chain and pool. -/
example : (∀ s, Witness.wH.state s ≠ 0) ∧ eState.slot < 3 ∧ ePool.keys.Nodup ∧
    tipRoot Witness.wH Witness.wG [Witness.mkBlock 2 1 [], Witness.mkBlock 1 0 []] = 3 ∧
    (∀ e ∈ ePool, e.1 = Witness.wH.attData e.2.1) ∧
    (∀ e ∈ ePool, ∀ p ∈ e.2.2, ∀ v ∈ Agg.ids p, v < Witness.wVals.length) ∧
    (extendedHist eState 3 3) = [1, 2, 3] :=
  ⟨fun _ => Nat.one_ne_zero, by decide +kernel⟩

/-- With merging, both votes count: slots 1 and 2 become justified and slot 1 is finalized. -/
example : (match eBuild true with
    | .ok (b, _, post) => decide (b.body = [Witness.vote [true, true] 0 1,
        Witness.vote [true, true] 1 2] ∧ post.latestJustified = Witness.cp 2 ∧
        post.latestFinalized = Witness.cp 1)
    | .error _ => false) = true := by decide +kernel

/-- **C64 fails for a proposer that does not merge.** The same state and pool without merging: the
block carries both attestations, but the one for `1 → 2` is dead weight. Only one proof for
`0 → 1` survives, slot 1 is not justified, so the second vote's source is not justified, it is
not countable and nothing of it is recorded. -/
theorem C64_fails_without_merging :
    (match eBuild false with
    | .ok (b, _, post) => decide (b.body = [Witness.vote [false, true] 0 1, Witness.vote [true, true] 1 2] ∧
        post.latestJustified = Witness.cp 0 ∧ post.justificationsRoots = [2] ∧
        post.justificationsValidators = [false, true, false])
    | .error _ => false) = true ∧
    (match processSlots Witness.wH eState 3 with
    | .ok s1 => match processBlockHeader Witness.wH s1 ⟨3, 0, 3, 1, []⟩ with
      | .ok s2 => match attLoop 3 (rootToSlot s2.historicalBlockHashes 0) [Witness.vote [false, true] 0 1]
          (s2, []) with
        | .ok st => decide (isSlotJustified st.1.justifiedSlots st.1.latestFinalized.slot 1
            = some false)
        | .error _ => false
      | .error _ => false
    | .error _ => false) = true := by decide +kernel

end Verif.Build
