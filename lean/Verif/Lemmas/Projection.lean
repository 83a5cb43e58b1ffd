import Verif.Props.C43_Build
import Verif.Props.C12_Votes
/-!
# The builder's projection follows the attestation loop
-/
namespace Verif.Build
open Verif Verif.Buffers JustifiedSlots

/-! ## Justified slots with the default for untracked ones -/

/-- Is a slot justified, untracked slots counting as not justified. -/
def jst (js : List Bool) (f k : Nat) : Bool := (isSlotJustified js f k).getD false

theorem jst_le {js : List Bool} {f k : Nat} (h : k ≤ f) : jst js f k = true := by
  unfold jst; rw [isSlotJustified_le h]; rfl

theorem jst_extend {js js' : List Bool} {f k : Nat} (h : extendToSlot js f k = some js') (m : Nat) :
    jst js' f m = jst js f m := by
  by_cases hm : m ≤ f
  · rw [jst_le hm, jst_le hm]
  unfold jst
  rw [isSlotJustified_gt (by omega), isSlotJustified_gt (by omega)]
  unfold extendToSlot at h
  split at h
  · cases h; rfl
  split at h
  · cases h; rfl
  split at h
  · cases h
    rw [List.getElem?_append]
    split
    · rfl
    · next hl =>
      rw [List.getElem?_replicate, List.getElem?_eq_none (by omega : js.length ≤ _)]
      split <;> rfl
  · cases h

theorem jst_set {js js' : List Bool} {f k : Nat} (hk : f < k) (h : setJustified js f k = some js')
    (m : Nat) : jst js' f m = if m = k then true else jst js f m := by
  unfold setJustified at h
  rw [relativeIndex_some hk] at h
  simp only at h
  split at h
  next hl =>
    obtain ⟨js2, h1, -, h3⟩ := setJustified_spec (js := js) hk (by omega)
    unfold setJustified at h1
    rw [relativeIndex_some hk] at h1
    simp only [if_pos hl] at h1
    have : js' = js2 := by rw [h] at h1; exact Option.some.inj h1
    subst this
    unfold jst
    rw [h3]
    split <;> rfl
  · cases h

theorem jst_shift {js : List Bool} {f g : Nat} (h : f ≤ g) (m : Nat) :
    jst (shiftWindow js (g - f)) g m = if m ≤ g then true else jst js f m := by
  split
  next hm => exact jst_le hm
  next hm => unfold jst; rw [C02_finalize_preserves_status f g js h m (by omega)]

/-! ## Tally lookups -/

theorem tally_get?_insert_ne {t : Tally} (hn : (t.map Prod.fst).Nodup) {r r' : Root}
    (h : r' ≠ r) (v : List Bool) : (t.insert r v).get? r' = t.get? r' := by
  cases hg : t.get? r' with
  | none =>
    rw [Tally.get?_none_iff] at hg ⊢
    intro hm
    obtain ⟨e, he, rfl⟩ := List.mem_map.1 hm
    rcases Tally.mem_insert.1 he with rfl | ⟨-, he⟩
    · exact h rfl
    · exact hg (List.mem_map_of_mem he)
  | some w =>
    exact Tally.get?_of_mem (Tally.nodup_insert hn r v)
      (Tally.mem_insert.2 (.inr ⟨h, Tally.mem_of_get? hg⟩))

theorem tally_get?_filter {t : Tally} (hn : (t.map Prod.fst).Nodup) (p : Root × List Bool → Bool)
    {r : Root} (hp : ∀ v, p (r, v) = true) : Tally.get? (t.filter p) r = t.get? r := by
  cases hg : t.get? r with
  | none =>
    rw [Tally.get?_none_iff] at hg ⊢
    intro hm
    obtain ⟨e, he, rfl⟩ := List.mem_map.1 hm
    exact hg (List.mem_map_of_mem (List.mem_filter.1 he).1)
  | some w =>
    exact Tally.get?_of_mem (Tally.nodup_filter hn p)
      (List.mem_filter.2 ⟨Tally.mem_of_get? hg, hp w⟩)

theorem tally_get?_erase_self (t : Tally) (r : Root) : (t.erase r).get? r = none := by
  rw [Tally.get?_none_iff]
  intro hm
  obtain ⟨e, he, hr⟩ := List.mem_map.1 hm
  exact (Tally.mem_erase.1 he).1 hr

theorem tally_get?_erase_ne {t : Tally} (hn : (t.map Prod.fst).Nodup) {r r' : Root} (h : r' ≠ r) :
    (t.erase r).get? r' = t.get? r' := by
  unfold Tally.erase
  exact tally_get?_filter hn _ (fun v => by simpa using h)

/-! ## The initial vote sets -/

/-- The set positions of a vote vector. -/
def setOf (v : List Bool) (n : Nat) : List Nat :=
  (List.range n).filter (fun j => decide (v[j]? = some true))

theorem runningVotes_get? (s : State) (r : Root) :
    (runningVotes s).get? r =
      ((unpackTally s.validators.length s.justificationsRoots s.justificationsValidators).get? r).map
        (fun v => setOf v s.validators.length) := by
  unfold runningVotes unpackTally
  have gen : ∀ (l : List Nat) (m : AMap Root (List Nat)) (t : Tally),
      (t.map Prod.fst).Nodup →
      (∀ r, m.get? r = (t.get? r).map (fun v => setOf v s.validators.length)) →
      ∀ r, (l.foldl (fun m i =>
        match s.justificationsRoots[i]? with
        | none => m
        | some r => m.insert r ((List.range s.validators.length).filter (fun j =>
            s.justificationsValidators[i * s.validators.length + j]? == some true))) m).get? r =
        ((l.foldl (fun (t : Tally) i =>
          match s.justificationsRoots[i]? with
          | none => t
          | some r => t.insert r ((List.range s.validators.length).map (fun j =>
              decide (s.justificationsValidators[i * s.validators.length + j]? = some true)))) t).get?
          r).map (fun v => setOf v s.validators.length) := by
    intro l
    induction l with
    | nil => intro m t _ h r; exact h r
    | cons i l ih =>
      intro m t hn h r
      rw [List.foldl_cons, List.foldl_cons]
      apply ih
      · split
        · exact hn
        · exact Tally.nodup_insert hn _ _
      · intro r'
        split
        · exact h r'
        next r0 hr0 =>
          rw [AMap.get?_insert]
          by_cases hrr : r0 = r'
          · subst hrr
            rw [if_pos rfl, Tally.get?_insert_self hn, Option.map_some]
            congr 1
            unfold setOf
            apply List.filter_congr
            intro j hj
            rw [List.mem_range] at hj
            simp [List.getElem?_map, List.getElem?_range hj, beq_eq_decide]
          · rw [if_neg hrr, tally_get?_insert_ne hn (fun e => hrr e.symm), h r']
  exact gen _ [] [] (by simp) (fun _ => rfl) r

/-! ## The simulation relation -/

/-- The recorded votes for a root. -/
def votesOf (n : Nat) (t : Tally) (r : Root) : List Bool := (t.get? r).getD (List.replicate n false)

/-- The projection agrees with the loop state: same finalized slot, same justified slots, and for
every block above the finalized slot the same voters. -/
structure Sim (hist : List Root) (n : Nat) (p : Projected) (st : State × Tally) : Prop where
  fin : p.finalizedSlot = st.1.latestFinalized.slot
  just : ∀ k, jst p.justifiedSlots p.finalizedSlot k
    = jst st.1.justifiedSlots st.1.latestFinalized.slot k
  votes : ∀ (k : Nat) (r : Root), p.finalizedSlot < k → hist[k]? = some r → r ≠ 0 →
    ((p.votes.get? r).getD []).Nodup ∧
    ∀ v, v ∈ (p.votes.get? r).getD [] ↔ v < n ∧ (votesOf n st.2 r)[v]? = some true

/-- No non-zero root occurs twice. -/
def UniqueRoots (hist : List Root) : Prop :=
  ∀ (i j : Nat) (r : Root), hist[i]? = some r → hist[j]? = some r → r ≠ 0 → i = j

/-- What `score` decides. -/
theorem score_spec {p : Projected} {d : AttData} {cov : List Nat} {n : Nat} {sc : Score}
    {new : List Nat} (h : p.score d cov n = some (sc, new)) :
    new = cov.filter (fun v => v ∉ (p.votes.get? d.target.root).getD []) ∧ new ≠ [] ∧
    (genesisSelfVote d = true → sc.tier = .build) ∧
    (genesisSelfVote d = false →
      (¬ 3 * (((p.votes.get? d.target.root).getD []).length + new.length) ≥ 2 * n ∧ sc.tier = .build) ∨
      (3 * (((p.votes.get? d.target.root).getD []).length + new.length) ≥ 2 * n ∧
        ((d.source.slot > p.finalizedSlot ∧
          (List.range' (d.source.slot + 1) (d.target.slot - (d.source.slot + 1))).any
            (fun k => slotIsJustifiableAfter k p.finalizedSlot) = false ∧ sc.tier = .finalize) ∨
         (¬ (d.source.slot > p.finalizedSlot ∧
          (List.range' (d.source.slot + 1) (d.target.slot - (d.source.slot + 1))).any
            (fun k => slotIsJustifiableAfter k p.finalizedSlot) = false) ∧ sc.tier = .justify)))) := by
  unfold Projected.score at h
  simp only at h
  split at h
  · cases h
  next hne =>
  simp only [Option.some.injEq, Prod.mk.injEq] at h
  obtain ⟨hsc, hnew⟩ := h
  rw [hnew] at hsc hne
  have hall : (List.range' (d.source.slot + 1) (d.target.slot - (d.source.slot + 1))).all
      (fun k => !slotIsJustifiableAfter k p.finalizedSlot) =
      !(List.range' (d.source.slot + 1) (d.target.slot - (d.source.slot + 1))).any
      (fun k => slotIsJustifiableAfter k p.finalizedSlot) := by
    rw [List.not_any_eq_all_not]
  rw [hall] at hsc
  refine ⟨hnew.symm, fun he => hne (by simp [he]), fun hg => ?_, fun hg => ?_⟩
  · rw [← hsc, hg]; rfl
  · rw [← hsc, hg]
    by_cases hcr : 3 * (((p.votes.get? d.target.root).getD []).length + new.length) ≥ 2 * n
    · right
      refine ⟨hcr, ?_⟩
      simp only [Bool.false_or, hcr, decide_true, Bool.not_true, Bool.false_eq_true, if_false,
        Bool.true_and]
      by_cases hf : d.source.slot > p.finalizedSlot ∧
          (List.range' (d.source.slot + 1) (d.target.slot - (d.source.slot + 1))).any
            (fun k => slotIsJustifiableAfter k p.finalizedSlot) = false
      · left
        exact ⟨hf.1, hf.2, by rw [hf.2]; simp [hf.1]⟩
      · right
        refine ⟨hf, ?_⟩
        rw [if_neg]
        intro hc
        simp only [Bool.and_eq_true, decide_eq_true_eq, Bool.not_eq_true'] at hc
        exact hf hc
    · left
      exact ⟨hcr, by simp [hcr]⟩

/-- One round of the selection and one iteration of the attestation loop keep the relation, and a
vote that is not a genesis self-vote is countable. -/
theorem sim_step {s0 : State} {rts : Root → Option Nat}
    (hrts : ∀ k r, s0.latestFinalized.slot < k → s0.historicalBlockHashes[k]? = some r →
      ∃ k', rts r = some k' ∧ k ≤ k')
    (hu : UniqueRoots s0.historicalBlockHashes)
    (hl : s0.historicalBlockHashes.length ≤ historicalRootsLimit)
    {p p' : Projected} {st : State × Tally} (hI : LoopInv s0 rts (fun _ _ => True) st)
    (hS : Sim s0.historicalBlockHashes s0.validators.length p st)
    {d : AttData} {known : List Root} {cov : List Nat} {sc : Score} {new : List Nat}
    (hpass : p.passes d known s0.historicalBlockHashes = true)
    (hsc : p.score d cov s0.validators.length = some (sc, new))
    (hcn : cov.Nodup) (hcl : ∀ v ∈ cov, v < s0.validators.length)
    (hadv : p.advance sc.tier d new = some p')
    {a : AggAtt} (had : a.data = d) (hbits : ∀ v : Nat, a.bits[v]? = some true ↔ v ∈ cov) :
    (genesisSelfVote d = false → Countable st.1 d) ∧
    ∃ st', attStep s0.validators.length rts st a = .ok st' ∧
      LoopInv s0 rts (fun _ _ => True) st' ∧
      Sim s0.historicalBlockHashes s0.validators.length p' st' := by
  obtain ⟨-, f2, f3, f4⟩ := passes_facts hpass
  have fsrc : jst p.justifiedSlots p.finalizedSlot d.source.slot = true := f2
  rw [hS.just] at fsrc
  have fm := (matchesChain_iff _ _).1 f3
  obtain ⟨m1, m2, m3, m4, m5, m6⟩ := fm
  obtain ⟨n1, n2, n3, n4⟩ := score_spec hsc
  have hsrcJ : isSlotJustified st.1.justifiedSlots st.1.latestFinalized.slot d.source.slot
      = some true := by
    unfold jst at fsrc
    cases hj : isSlotJustified st.1.justifiedSlots st.1.latestFinalized.slot d.source.slot with
    | none => rw [hj] at fsrc; cases fsrc
    | some b => rw [hj] at fsrc; cases fsrc; rfl
  have hnewN : new.Nodup := by rw [n1]; exact hcn.filter _
  cases hg : genesisSelfVote d with
  | true =>
    refine ⟨(by intro h; cases h), st, ?_, hI, ?_⟩
    · have ht0 : d.target.slot = 0 := by
        unfold genesisSelfVote at hg
        simp only [decide_eq_true_eq] at hg
        exact hg.2
      unfold attStep isValidVote
      rw [had, hsrcJ]
      simp only
      rw [isSlotJustified_le (by omega)]
    · have ht0 : d.target.slot = 0 := by
        unfold genesisSelfVote at hg
        simp only [decide_eq_true_eq] at hg
        exact hg.2
      unfold Projected.advance at hadv
      simp only at hadv
      rw [if_pos (n3 hg)] at hadv
      cases hadv
      refine ⟨hS.fin, hS.just, fun k r hk hr hr0 => ?_⟩
      simp only at hk ⊢
      rw [AMap.get?_insert, if_neg]
      · exact hS.votes k r hk hr hr0
      · intro e
        rw [← e] at hr
        have := hu _ _ _ hr m5 m2
        omega
  | false =>
    obtain ⟨g1, g2, g3⟩ := f4 hg
    have g2' : jst p.justifiedSlots p.finalizedSlot d.target.slot = false := g2
    rw [hS.just] at g2'
    have htl := getElem?_lt m5
    have hwin := hI.win
    have htf : st.1.latestFinalized.slot < d.target.slot := by
      by_contra hc
      rw [jst_le (by omega)] at g2'
      cases g2'
    have htgtJ : isSlotJustified st.1.justifiedSlots st.1.latestFinalized.slot d.target.slot
        = some false := by
      unfold jst at g2'
      rw [isSlotJustified_gt htf] at g2' ⊢
      have hin : d.target.slot - st.1.latestFinalized.slot - 1 < st.1.justifiedSlots.length := by
        omega
      rw [List.getElem?_eq_getElem hin] at g2' ⊢
      simpa using g2'
    rw [hS.fin] at g3
    have hV : isValidVote st.1 d = .ok true := by
      rw [isValidVote_true_iff]
      exact ⟨hsrcJ, htgtJ, m1, m2, m3, by rw [hI.hist]; exact m4, by rw [hI.hist]; exact m5,
        by rw [hI.hist]; exact m6, g1, g3⟩
    refine ⟨fun _ => (countable_iff _ _ (by rw [hI.hist]; exact hl)).1 hV, ?_⟩
    -- the vote sets
    obtain ⟨p1, p2⟩ := hS.votes d.target.slot d.target.root (by rw [hS.fin]; exact htf) m5 m2
    generalize hprior : (p.votes.get? d.target.root).getD [] = prior at *
    generalize hv0 : votesOf s0.validators.length st.2 d.target.root = v0 at *
    have hv0l : v0.length = s0.validators.length := by
      rw [← hv0]
      unfold votesOf
      cases hgt : st.2.get? d.target.root with
      | none => simp
      | some w => exact hI.vecLen _ (Tally.mem_of_get? hgt)
    have hvget : ∀ v : Nat, (recordVotes v0 a.bits)[v]? = some true ↔
        v < s0.validators.length ∧ (v0[v]? = some true ∨ v ∈ cov) := by
      intro v
      rw [recordVotes_get?]
      by_cases hvn : v < s0.validators.length
      · rw [List.getElem?_eq_getElem (by omega : v < v0.length)]
        have := hbits v
        simp only [Option.map_some, Option.some.injEq, Bool.or_eq_true, decide_eq_true_eq, this, hvn,
          true_and]
      · have hvn' : v0.length ≤ v := by omega
        rw [List.getElem?_eq_none hvn']
        simp [hvn]
    have hmem : ∀ v, v ∈ prior ++ new ↔ (recordVotes v0 a.bits)[v]? = some true := by
      intro v
      rw [hvget, List.mem_append, p2, n1, List.mem_filter]
      simp only [decide_eq_true_eq]
      constructor
      · rintro (⟨h1, h2⟩ | ⟨h1, h2⟩)
        · exact ⟨h1, .inl h2⟩
        · exact ⟨hcl v h1, .inr h1⟩
      · rintro ⟨h1, h2 | h2⟩
        · exact .inl ⟨h1, h2⟩
        · by_cases hp : v ∈ prior
          · exact .inl ((p2 v).1 hp)
          · exact .inr ⟨h2, hp⟩
    have hpn : (prior ++ new).Nodup := by
      rw [List.nodup_append]
      refine ⟨p1, hnewN, ?_⟩
      intro x hx y hy e
      subst e
      rw [n1, List.mem_filter] at hy
      simp only [decide_eq_true_eq] at hy
      exact hy.2 hx
    have hcount : (recordVotes v0 a.bits).count true = prior.length + new.length := by
      rw [count_true_eq_filter_length, ← List.length_append]
      apply List.Perm.length_eq
      rw [List.perm_ext_iff_of_nodup (List.nodup_range.filter _) hpn]
      intro v
      rw [hmem, List.mem_filter, List.mem_range, decide_eq_true_eq]
      exact ⟨fun h => h.2, fun h => ⟨getElem?_lt h, h⟩⟩
    have hfilt : new.filter (fun v => v ∉ prior) = new := by
      apply List.filter_eq_self.2
      intro v hv
      rw [n1, List.mem_filter] at hv
      exact hv.2
    -- what is not an error
    have hc0 : ¬ a.bits.count true = 0 := by
      rw [List.count_eq_zero]
      intro hm
      obtain ⟨v, hv⟩ := List.exists_mem_of_ne_nil _ n2
      rw [n1, List.mem_filter] at hv
      exact hm (List.mem_of_getElem? ((hbits v).2 hv.1))
    have hob : ¬ ((List.range' s0.validators.length (a.bits.length - s0.validators.length)).any
        (fun i => decide (a.bits[i]? = some true)) = true) := by
      simp only [List.any_eq_true, decide_eq_true_eq, not_exists, not_and]
      intro i hi hbi
      have h1 := (List.mem_range'_1.1 hi).1
      have h2 := hcl i ((hbits i).1 hbi)
      omega
    have hv0' : (st.2.get? d.target.root).getD (List.replicate s0.validators.length false) = v0 := hv0
    have key : ∃ st', attStep s0.validators.length rts st a = .ok st' ∧
        Sim s0.historicalBlockHashes s0.validators.length p' st' := by
      unfold attStep
      rw [had, hV]
      simp only
      rw [if_neg hc0, if_neg hob]
      simp only [hv0', hcount]
      unfold Projected.advance at hadv
      simp only [hprior, hfilt] at hadv
      -- the updated vote sets agree
      have hvotes : ∀ (k : Nat) (r : Root), p.finalizedSlot < k →
          s0.historicalBlockHashes[k]? = some r → r ≠ 0 →
          (((p.votes.insert d.target.root (prior ++ new)).get? r).getD []).Nodup ∧
          ∀ v, v ∈ ((p.votes.insert d.target.root (prior ++ new)).get? r).getD [] ↔
            v < s0.validators.length ∧
            (votesOf s0.validators.length
              (st.2.insert d.target.root (recordVotes v0 a.bits)) r)[v]? = some true := by
        intro k r hk hr hr0
        rw [AMap.get?_insert]
        unfold votesOf
        by_cases hrr : d.target.root = r
        · subst hrr
          rw [if_pos rfl, Tally.get?_insert_self hI.keysNodup]
          refine ⟨hpn, fun v => ?_⟩
          rw [Option.getD_some, Option.getD_some, hmem]
          refine ⟨fun h => ⟨?_, h⟩, fun h => h.2⟩
          exact ((hvget v).1 h).1
        · rw [if_neg hrr, tally_get?_insert_ne hI.keysNodup (fun e => hrr e.symm)]
          exact hS.votes k r hk hr hr0
      have hvotesE : ∀ (k : Nat) (r : Root), p.finalizedSlot < k →
          s0.historicalBlockHashes[k]? = some r → r ≠ 0 →
          ((((p.votes.insert d.target.root (prior ++ new)).erase d.target.root).get? r).getD
            []).Nodup ∧
          ∀ v, v ∈ (((p.votes.insert d.target.root (prior ++ new)).erase d.target.root).get? r).getD
              [] ↔ v < s0.validators.length ∧
            (votesOf s0.validators.length
              ((st.2.insert d.target.root (recordVotes v0 a.bits)).erase d.target.root) r)[v]?
              = some true := by
        intro k r hk hr hr0
        rw [AMap.get?_erase]
        by_cases hrr : d.target.root = r
        · subst hrr
          rw [if_pos rfl]
          unfold votesOf
          rw [tally_get?_erase_self]
          refine ⟨.nil, fun v => ?_⟩
          simp [List.getElem?_replicate]
        · rw [if_neg hrr]
          unfold votesOf
          rw [tally_get?_erase_ne (Tally.nodup_insert hI.keysNodup _ _) (fun e => hrr e.symm)]
          exact hvotes k r hk hr hr0
      rcases n4 hg with ⟨c1, c2⟩ | ⟨c1, c2⟩
      · -- below two thirds
        rw [if_neg c1]
        rw [if_pos c2] at hadv
        cases hadv
        exact ⟨_, rfl, hS.fin, hS.just, hvotes⟩
      · rw [if_pos c1]
        have hnb : ¬ sc.tier = .build := by
          rcases c2 with ⟨-, -, h⟩ | ⟨-, h⟩ <;> rw [h] <;> decide
        rw [if_neg hnb] at hadv
        obtain ⟨js', hset, hjl, hjspec⟩ := setJustified_spec (js := st.1.justifiedSlots) htf (by omega)
        rw [hset]
        simp only
        cases hx1 : extendToSlot p.justifiedSlots p.finalizedSlot d.target.slot with
        | none => rw [hx1] at hadv; cases hadv
        | some q1 =>
        rw [hx1, Option.bind_some] at hadv
        cases hx2 : setJustified q1 p.finalizedSlot d.target.slot with
        | none => rw [hx2] at hadv; cases hadv
        | some q2 =>
        rw [hx2, Option.map_some, Option.some.injEq] at hadv
        have hjq : ∀ m, jst q2 p.finalizedSlot m = jst js' st.1.latestFinalized.slot m := by
          intro m
          rw [jst_set (by rw [hS.fin]; exact htf) hx2, jst_extend hx1, jst_set htf hset, hS.just]
        unfold tryFinalize
        simp only
        rcases c2 with ⟨d1, d2, d3⟩ | ⟨d1, d2⟩
        · -- finalizes the source
          rw [hS.fin] at d1 d2
          rw [if_neg (by omega), if_neg (by rw [d2]; simp)]
          rw [if_pos d3] at hadv
          subst hadv
          refine ⟨_, rfl, rfl, ?_, ?_⟩
          · intro k
            simp only
            rw [jst_shift (by rw [hS.fin]; omega), jst_shift (by omega)]
            split
            · rfl
            · exact hjq k
          · intro k r hk hr hr0
            simp only at hk ⊢
            have := hvotesE k r (by rw [hS.fin]; omega) hr hr0
            unfold votesOf at this ⊢
            rw [tally_get?_filter (Tally.nodup_erase (Tally.nodup_insert hI.keysNodup _ _) _)]
            · exact this
            · intro v
              obtain ⟨k', h1, h2⟩ := hrts k r (by have := hI.finGe; omega) hr
              simp only [h1, decide_eq_true_eq]
              omega
        · -- justifies only
          rw [hS.fin] at d1
          rw [if_neg (by rw [d2]; decide)] at hadv
          subst hadv
          by_cases e1 : d.source.slot ≤ st.1.latestFinalized.slot
          · rw [if_pos e1]
            exact ⟨_, rfl, hS.fin, hjq, hvotesE⟩
          · rw [if_neg e1, if_pos]
            · exact ⟨_, rfl, hS.fin, hjq, hvotesE⟩
            · by_contra hc
              exact d1 ⟨by omega, by simpa using hc⟩
    obtain ⟨st', h1, h2⟩ := key
    exact ⟨st', h1, attStep_inv hrts hI (fun _ _ _ => trivial) h1, h2⟩

end Verif.Build
