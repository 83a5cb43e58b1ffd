import Verif.Props.C64_Counted
import Verif.Props.C65_Priority
import Verif.Props.C11_MapOrder
import Verif.Lemmas.StfFrame
/-!
# The outcome of the builder's rounds and of the attestation loop
-/
namespace Verif.Build
open Verif Verif.Buffers JustifiedSlots

/-- The rounds and the loop over the packed attestations end in corresponding states. -/
theorem run_final {s0 : State} {rts : Root → Option Nat}
    (hrts : ∀ k r, s0.latestFinalized.slot < k → s0.historicalBlockHashes[k]? = some r →
      ∃ k', rts r = some k' ∧ k ≤ k')
    (hu : UniqueRoots s0.historicalBlockHashes)
    (hl : s0.historicalBlockHashes.length ≤ historicalRootsLimit)
    {known done : List Root} {pool : Pool} {m : Nat} {p q : Projected} {ks : List Pick}
    (hR : Run s0.historicalBlockHashes known s0.validators.length pool m done p ks q) :
    ∀ (st : State × Tally) (as : List AggAtt), LoopInv s0 rts (fun _ _ => True) st →
    Sim s0.historicalBlockHashes s0.validators.length p st →
    (∀ k ∈ ks, ∀ v ∈ coverage k.proofs, v < s0.validators.length) →
    List.Forall₂ (fun (k : Pick) (a : AggAtt) => a.data = k.data ∧
      ∀ v : Nat, a.bits[v]? = some true ↔ v ∈ coverage k.proofs) ks as →
    ∃ st', attLoop s0.validators.length rts as st = .ok st' ∧
      LoopInv s0 rts (fun _ _ => True) st' ∧
      Sim s0.historicalBlockHashes s0.validators.length q st' := by
  induction hR with
  | stop _ =>
    intro st as hI hS _ hF
    cases hF
    exact ⟨st, rfl, hI, hS⟩
  | pick _ h1 h2 h3 h4 h5 hr ih =>
    intro st as hI hS hc hF
    cases hF with
    | @cons k a0 ks as' hka hF =>
      obtain ⟨-, st', s2, s3, s4⟩ := sim_step hrts hu hl hI hS h3 h4 (List.nodup_dedup _)
        (hc _ List.mem_cons_self) h5 hka.1 hka.2
      obtain ⟨st2, i1, i2⟩ := ih st' as' s3 s4 (fun k hk => hc k (List.mem_cons_of_mem _ hk)) hF
      refine ⟨st2, ?_, i2⟩
      unfold attLoop
      rw [s2]
      exact i1

/-- What one round does to the projection. -/
theorem advance_effect {p p' : Projected} {d : AttData} {known hist : List Root} {cov : List Nat}
    {n : Nat} {sc : Score} {new : List Nat}
    (hpass : p.passes d known hist = true) (hsc : p.score d cov n = some (sc, new))
    (hadv : p.advance sc.tier d new = some p') :
    p.finalizedSlot ≤ p'.finalizedSlot ∧
    (∀ k, jst p.justifiedSlots p.finalizedSlot k = true →
      jst p'.justifiedSlots p'.finalizedSlot k = true) ∧
    (sc.tier ≠ .build → jst p.justifiedSlots p.finalizedSlot d.target.slot = false ∧
      jst p'.justifiedSlots p'.finalizedSlot d.target.slot = true ∧
      ∀ r, r ≠ d.target.root → p'.votes.get? r = p.votes.get? r) ∧
    (sc.tier = .finalize → p.finalizedSlot < p'.finalizedSlot) ∧
    (sc.tier = .build → (∀ r, r ≠ d.target.root → p'.votes.get? r = p.votes.get? r) ∧
      ∀ v, v ∈ (p'.votes.get? d.target.root).getD [] ↔
        v ∈ (p.votes.get? d.target.root).getD [] ∨ v ∈ cov) := by
  obtain ⟨-, -, -, f4⟩ := passes_facts hpass
  obtain ⟨n1, -, n3, n4⟩ := score_spec hsc
  unfold Projected.advance at hadv
  simp only at hadv
  by_cases ht : sc.tier = .build
  · rw [if_pos ht] at hadv
    cases hadv
    refine ⟨Nat.le_refl _, fun k h => h, fun h => absurd ht h, (by rw [ht]; rintro ⟨⟩),
      fun _ => ⟨fun r hr => ?_, fun v => ?_⟩⟩
    · simp only
      rw [AMap.get?_insert, if_neg (fun e => hr e.symm)]
    · simp only
      rw [AMap.get?_insert, if_pos rfl, Option.getD_some, List.mem_append, List.mem_filter, n1,
        List.mem_filter]
      simp only [decide_eq_true_eq]
      by_cases hv : v ∈ (p.votes.get? d.target.root).getD [] <;> simp [hv]
  · rw [if_neg ht] at hadv
    have hg : genesisSelfVote d = false := by
      cases hg : genesisSelfVote d with
      | false => rfl
      | true => exact absurd (n3 hg) ht
    obtain ⟨g1, g2, g3⟩ := f4 hg
    have g2' : jst p.justifiedSlots p.finalizedSlot d.target.slot = false := g2
    have htf : p.finalizedSlot < d.target.slot := by
      by_contra hc
      rw [jst_le (by omega)] at g2'
      cases g2'
    cases he : extendToSlot p.justifiedSlots p.finalizedSlot d.target.slot with
    | none => rw [he] at hadv; cases hadv
    | some js1 =>
    rw [he] at hadv
    simp only [Option.bind_some] at hadv
    cases hs : setJustified js1 p.finalizedSlot d.target.slot with
    | none => rw [hs] at hadv; cases hadv
    | some js2 =>
    rw [hs] at hadv
    simp only [Option.map_some, Option.some.injEq] at hadv
    have hj : ∀ m, jst js2 p.finalizedSlot m
        = if m = d.target.slot then true else jst p.justifiedSlots p.finalizedSlot m := by
      intro m
      rw [jst_set htf hs, jst_extend he]
    have hvt : ∀ r, r ≠ d.target.root →
        ((p.votes.insert d.target.root ((p.votes.get? d.target.root).getD [] ++
          new.filter (fun v => v ∉ (p.votes.get? d.target.root).getD []))).erase
          d.target.root).get? r = p.votes.get? r := by
      intro r hr
      rw [AMap.get?_erase, if_neg (fun e => hr e.symm), AMap.get?_insert,
        if_neg (fun e => hr e.symm)]
    by_cases hf : sc.tier = .finalize
    · rw [if_pos hf] at hadv
      subst hadv
      simp only
      have hsf : p.finalizedSlot < d.source.slot := by
        rcases n4 hg with ⟨-, h⟩ | ⟨-, ⟨h, -, -⟩ | ⟨-, h⟩⟩
        · exact absurd h ht
        · exact h
        · rw [hf] at h; cases h
      refine ⟨by omega, fun k hk => ?_, fun _ => ⟨g2', ?_, hvt⟩, fun _ => hsf,
        fun h => absurd h ht⟩
      · rw [jst_shift (by omega)]
        split
        · rfl
        · rw [hj]
          split
          · rfl
          · exact hk
      · rw [jst_shift (by omega), if_neg (by omega), hj, if_pos rfl]
    · rw [if_neg hf] at hadv
      subst hadv
      simp only
      refine ⟨Nat.le_refl _, fun k hk => ?_, fun _ => ⟨g2', ?_, hvt⟩, fun h => absurd h hf,
        fun h => absurd h ht⟩
      · rw [hj]
        split
        · rfl
        · exact hk
      · rw [hj, if_pos rfl]

theorem run_mono {hist known : List Root} {n : Nat} {pool : Pool} {m : Nat} {done : List Root}
    {p q : Projected} {ks : List Pick} (h : Run hist known n pool m done p ks q) :
    p.finalizedSlot ≤ q.finalizedSlot ∧
    ∀ k, jst p.justifiedSlots p.finalizedSlot k = true →
      jst q.justifiedSlots q.finalizedSlot k = true := by
  induction h with
  | stop _ => exact ⟨Nat.le_refl _, fun k h => h⟩
  | pick _ _ _ h3 h4 h5 _ ih =>
    obtain ⟨e1, e2, -⟩ := advance_effect h3 h4 h5
    exact ⟨Nat.le_trans e1 ih.1, fun k hk => ih.2 k (e2 k hk)⟩

/-- What holds of the entries already packed. -/
def Packed (hist : List Root) (pool : Pool) (done : List Root) (p : Projected) : Prop :=
  ∀ e ∈ pool, e.1 ∈ done → attestationDataMatchesChain hist e.2.1 = true ∧
    (jst p.justifiedSlots p.finalizedSlot e.2.1.target.slot = true ∨
      ∀ v ∈ coverage e.2.2, v ∈ (p.votes.get? e.2.1.target.root).getD [])

/-- The rounds end because the limit is reached or because nothing is left, and everything packed
is counted. -/
theorem run_end {hist known : List Root} (hu : UniqueRoots hist) {n : Nat} {pool : Pool}
    (hn : pool.keys.Nodup) {m : Nat} {done : List Root} {p q : Projected} {ks : List Pick}
    (h : Run hist known n pool m done p ks q) (hP : Packed hist pool done p) :
    ks.length = m ∨ ∃ done', Packed hist pool done' q ∧
      pickBest hist known n done' q pool = none := by
  induction h with
  | stop h =>
    rcases h with rfl | h
    · exact .inl rfl
    · exact .inr ⟨_, hP, h⟩
  | @pick m done p p' q k ks _ h1 h2 h3 h4 h5 _ ih =>
    have hP' : Packed hist pool (k.root :: done) p' := by
      intro e he hd
      obtain ⟨-, e2, e3, -, e5⟩ := advance_effect h3 h4 h5
      have hm3 := (passes_facts h3).2.2.1
      rcases List.mem_cons.1 hd with hd | hd
      · have : e = (k.root, k.data, k.proofs) := by
          have x1 := get?_of_mem_pool hn he
          have x2 := get?_of_mem_pool hn h1
          rw [hd, x2] at x1
          exact Prod.ext hd (Option.some.inj x1).symm
        subst this
        refine ⟨hm3, ?_⟩
        by_cases ht : k.score.tier = .build
        · exact .inr fun v hv => (((e5 ht).2 v).2 (.inr hv))
        · exact .inl (e3 ht).2.1
      · obtain ⟨i1, i2⟩ := hP e he hd
        refine ⟨i1, ?_⟩
        rcases i2 with i2 | i2
        · exact .inl (e2 _ i2)
        by_cases hr : e.2.1.target.root = k.data.target.root
        · by_cases ht : k.score.tier = .build
          · right
            intro v hv
            rw [hr]
            exact ((e5 ht).2 v).2 (.inl (by rw [← hr]; exact i2 v hv))
          · left
            have a := (matchesChain_iff _ _).1 i1
            have b := (matchesChain_iff _ _).1 hm3
            have : e.2.1.target.slot = k.data.target.slot :=
              hu _ _ _ a.2.2.2.2.1 (by rw [hr]; exact b.2.2.2.2.1) a.2.1
            rw [this]
            exact (e3 ht).2.1
        · right
          intro v hv
          have : p'.votes.get? e.2.1.target.root = p.votes.get? e.2.1.target.root := by
            by_cases ht : k.score.tier = .build
            · exact (e5 ht).1 _ hr
            · exact (e3 ht).2.2 _ hr
          rw [this]
          exact i2 v hv
    rcases ih hP' with h | h
    · exact .inl (by simpa using h)
    · exact .inr h

/-- A countable vote passes the builder's filters. -/
theorem passes_of_countable {hist known : List Root} {n : Nat} {p : Projected} {st : State × Tally}
    (hS : Sim hist n p st) {d : AttData} (hk : d.head.root ∈ known)
    (hh : st.1.historicalBlockHashes = hist) (hl : hist.length ≤ historicalRootsLimit)
    (hc : Countable st.1 d) : p.passes d known hist = true ∧ genesisSelfVote d = false ∧
      st.1.latestFinalized.slot < d.target.slot := by
  have hv := (countable_iff _ _ (by rw [hh]; exact hl)).2 hc
  rw [isValidVote_true_iff] at hv
  obtain ⟨h1, h2, h3, h4, h5, h6, h7, h8, h9, h10⟩ := hv
  rw [hh] at h6 h7 h8
  have hg : genesisSelfVote d = false := by
    unfold genesisSelfVote
    rw [decide_eq_false_iff_not]
    omega
  have hm : attestationDataMatchesChain hist d = true :=
    (matchesChain_iff _ _).2 ⟨h3, h4, h5, h6, h7, h8⟩
  have j1 : (isSlotJustified p.justifiedSlots p.finalizedSlot d.source.slot).getD false = true := by
    have := hS.just d.source.slot
    unfold jst at this
    rw [this, h1]; rfl
  have j2 : (isSlotJustified p.justifiedSlots p.finalizedSlot d.target.slot).getD false = false := by
    have := hS.just d.target.slot
    unfold jst at this
    rw [this, h2]; rfl
  refine ⟨?_, hg, ?_⟩
  · unfold Projected.passes
    rw [if_neg (by simpa using hk), if_neg (by simpa using j1), if_neg (by simpa using hm),
      if_neg (by simp; omega), if_neg (by simp [j2]), if_neg (by rw [hS.fin]; simp [h10])]
  · by_contra hcon
    rw [isSlotJustified_le (by omega)] at h2
    cases h2

/-! ## No root in the tally has two thirds -/

/-- A well-formed tally in which every root has less than two thirds of the votes. -/
structure Open (n : Nat) (t : Tally) : Prop where
  nodup : (t.map Prod.fst).Nodup
  len : ∀ e ∈ t, e.2.length = n
  few : ∀ e ∈ t, 3 * e.2.count true < 2 * n

theorem tryFinalize_open {n : Nat} {s : State} {src tgt : Checkpoint} {t : Tally}
    {rts : Root → Option Nat} (h : Open n t) : Open n (tryFinalize s src tgt t rts).2 := by
  unfold tryFinalize
  split
  · exact h
  split
  · exact h
  exact ⟨Tally.nodup_filter h.nodup _, fun e he => h.len e (List.mem_filter.1 he).1,
    fun e he => h.few e (List.mem_filter.1 he).1⟩

theorem attStep_open {n : Nat} {rts : Root → Option Nat} {st st' : State × Tally} {a : AggAtt}
    (h : Open n st.2) (hs : attStep n rts st a = .ok st') : Open n st'.2 := by
  have hvl : ((st.2.get? a.data.target.root).getD (List.replicate n false)).length = n := by
    cases hg : st.2.get? a.data.target.root with
    | none => simp
    | some w => exact h.len _ (Tally.mem_of_get? hg)
  unfold attStep at hs
  split at hs
  · cases hs
  · cases hs; exact h
  split at hs
  · cases hs
  split at hs
  · cases hs
  simp only at hs
  split at hs
  · split at hs
    · cases hs
    · cases hs
      apply tryFinalize_open
      have hmem : ∀ e ∈ (st.2.insert a.data.target.root (recordVotes ((st.2.get?
          a.data.target.root).getD (List.replicate n false)) a.bits)).erase a.data.target.root,
          e ∈ st.2 := by
        intro e he
        obtain ⟨h1, h2⟩ := Tally.mem_erase.1 he
        rcases Tally.mem_insert.1 h2 with rfl | ⟨-, h2⟩
        · exact absurd rfl h1
        · exact h2
      exact ⟨Tally.nodup_erase (Tally.nodup_insert h.nodup _ _) _, fun e he => h.len e (hmem e he),
        fun e he => h.few e (hmem e he)⟩
  next hlt =>
    cases hs
    refine ⟨Tally.nodup_insert h.nodup _ _, fun e he => ?_, fun e he => ?_⟩
    · rcases Tally.mem_insert.1 he with rfl | ⟨-, he⟩
      · simp only; rw [recordVotes_length]; exact hvl
      · exact h.len e he
    · rcases Tally.mem_insert.1 he with rfl | ⟨-, he⟩
      · simp only; omega
      · exact h.few e he

theorem attLoop_open {n : Nat} {rts : Root → Option Nat} : ∀ (as : List AggAtt)
    {st st' : State × Tally}, Open n st.2 → attLoop n rts as st = .ok st' → Open n st'.2
  | [], _, _, h, hs => by cases hs; exact h
  | a :: as, st, st', h, hs => by
    unfold attLoop at hs
    split at hs
    · cases hs
    next st1 h1 => exact attLoop_open as (attStep_open h h1) hs

/-- On every chain, no root the state keeps votes for has two thirds of them. -/
theorem chain_open {H : Hash} {t : Nat} {vals : List Validator}
    {bs : List Block} {s : State} (hc : Chain H (State.fromGenesis H t vals) bs s) :
    Open s.validators.length
      (unpackTally s.validators.length s.justificationsRoots s.justificationsValidators) := by
  induction hc with
  | nil => exact ⟨.nil, (by intro e he; cases he), (by intro e he; cases he)⟩
  | @cons bs s s' b hc hi ih =>
    obtain ⟨s1, s2, s3, e1, e2, e3, e4, e5⟩ := importState_ok hi
    obtain ⟨f1, f2, f3, f4, f5⟩ := header_frame e1 e2
    rw [← f3, ← f4, ← f5] at ih
    have hf := processAttestations_frame e3
    have hv3 : s3.validators = s2.validators := hf.vals
    subst e5
    simp only
    rw [hv3]
    unfold processAttestations at e3
    split at e3
    · cases e3
    simp only at e3
    split at e3
    · cases e3
    split at e3
    · cases e3
    split at e3
    · cases e3
    split at e3
    · cases e3
    next st' t' hl =>
    have ho : Open s2.validators.length t' := attLoop_open _ ih hl
    obtain ⟨-, hr⟩ := C11_tally_round_trip ho.nodup ho.len e3
    have hmem : ∀ e ∈ unpackTally s2.validators.length s3.justificationsRoots
        s3.justificationsValidators, e ∈ t' := by
      intro e he
      have h1 := Tally.get?_of_mem (unpackTally_spec _ _ _).1 he
      rw [hr] at h1
      exact Tally.mem_of_get? h1
    exact ⟨(unpackTally_spec _ _ _).1, fun e he => ho.len e (hmem e he),
      fun e he => ho.few e (hmem e he)⟩

end Verif.Build
