import Verif.Props.C43_Build
/-!
# C65: which vote a proposer packs first, independently of hash-map order
-/
namespace Verif.Build
open Verif Verif.Buffers

/-- Finalizing before justifying before the rest. -/
inductive TierBefore : Tier → Tier → Prop
  | finalize_justify : TierBefore .finalize .justify
  | finalize_build : TierBefore .finalize .build
  | justify_build : TierBefore .justify .build

theorem tierBefore_iff (a b : Tier) : TierBefore a b ↔ a.num < b.num := by
  constructor
  · intro h; cases h <;> decide
  · intro h
    cases a <;> cases b <;> first | exact absurd h (by decide) | constructor

/-- Priority of one scored entry over another, in plain words: finalizing entries before
justifying ones before the rest. Among finalizing or justifying entries the later target wins, then
the later vote slot, then more new voters. Among the rest more new voters win, then the later
target, then the later vote slot. Remaining ties go to the smaller data root. -/
inductive Better : Score × Root → Score × Root → Prop
  | tier {a b : Score} {r s : Root} : TierBefore a.tier b.tier → Better (a, r) (b, s)
  | advTarget {a b : Score} {r s : Root} : a.tier = b.tier → a.tier ≠ .build →
      b.targetSlot < a.targetSlot → Better (a, r) (b, s)
  | advSlot {a b : Score} {r s : Root} : a.tier = b.tier → a.tier ≠ .build →
      a.targetSlot = b.targetSlot → b.attSlot < a.attSlot → Better (a, r) (b, s)
  | advVoters {a b : Score} {r s : Root} : a.tier = b.tier → a.tier ≠ .build →
      a.targetSlot = b.targetSlot → a.attSlot = b.attSlot → b.newVoters < a.newVoters →
      Better (a, r) (b, s)
  | voters {a b : Score} {r s : Root} : a.tier = b.tier → a.tier = .build →
      b.newVoters < a.newVoters → Better (a, r) (b, s)
  | target {a b : Score} {r s : Root} : a.tier = b.tier → a.tier = .build →
      a.newVoters = b.newVoters → b.targetSlot < a.targetSlot → Better (a, r) (b, s)
  | slot {a b : Score} {r s : Root} : a.tier = b.tier → a.tier = .build →
      a.newVoters = b.newVoters → a.targetSlot = b.targetSlot → b.attSlot < a.attSlot →
      Better (a, r) (b, s)
  | root {a : Score} {r s : Root} : (show Nat from r) < (show Nat from s) → Better (a, r) (a, s)

theorem tier_num_inj {a b : Tier} (h : a.num = b.num) : a = b := by
  cases a <;> cases b <;> simp_all [Tier.num]

theorem lt_iff_better (a b : Score) (r s : Root) :
    Key.lt (a.key r) (b.key s) = true ↔ Better (a, r) (b, s) := by
  unfold Key.lt
  rw [decide_eq_true_eq]
  obtain ⟨ta, va, ga, sa⟩ := a
  obtain ⟨tb, vb, gb, sb⟩ := b
  have hr : Nat.blt r s = true ↔ (show Nat from r) < (show Nat from s) := by
    rw [Nat.blt_eq]
  have k1 : ∀ (t : Tier) (v g s : Nat) (r : Root), (Score.key ⟨t, v, g, s⟩ r).1 = t.num := by
    intro t v g s r; cases t <;> rfl
  constructor
  · intro h
    by_cases ht : ta.num = tb.num
    · have htt := tier_num_inj ht
      subst htt
      simp only [k1] at h
      rcases h with h | ⟨-, h⟩
      · omega
      cases ta with
      | build =>
        simp only [Score.key] at h
        rcases h with h | ⟨e1, h⟩
        · exact .voters rfl rfl h
        rcases h with h | ⟨e2, h⟩
        · exact .target rfl rfl e1 h
        rcases h with h | ⟨e3, h⟩
        · exact .slot rfl rfl e1 e2 h
        subst e1 e2 e3
        exact .root (hr.1 h)
      | finalize =>
        simp only [Score.key] at h
        rcases h with h | ⟨e1, h⟩
        · exact .advTarget rfl (by simp) h
        rcases h with h | ⟨e2, h⟩
        · exact .advSlot rfl (by simp) e1 h
        rcases h with h | ⟨e3, h⟩
        · exact .advVoters rfl (by simp) e1 e2 h
        subst e1 e2 e3
        exact .root (hr.1 h)
      | justify =>
        simp only [Score.key] at h
        rcases h with h | ⟨e1, h⟩
        · exact .advTarget rfl (by simp) h
        rcases h with h | ⟨e2, h⟩
        · exact .advSlot rfl (by simp) e1 h
        rcases h with h | ⟨e3, h⟩
        · exact .advVoters rfl (by simp) e1 e2 h
        subst e1 e2 e3
        exact .root (hr.1 h)
    · simp only [k1] at h
      rcases h with h | ⟨h, -⟩
      · exact .tier ((tierBefore_iff _ _).2 h)
      · exact absurd h ht
  · intro h
    cases h with
    | tier h => left; simpa only [k1] using (tierBefore_iff _ _).1 h
    | advTarget e h1 h =>
      simp only at e h1 h; subst e
      right
      cases ta <;> simp_all [Score.key]
    | advSlot e h1 h2 h =>
      simp only at e h1 h2 h; subst e
      right
      cases ta <;> simp_all [Score.key]
    | advVoters e h1 h2 h3 h =>
      simp only at e h1 h2 h3 h; subst e
      right
      cases ta <;> simp_all [Score.key]
    | voters e h1 h => simp only at e h1 h; subst e h1; right; simp_all [Score.key]
    | target e h1 h2 h => simp only at e h1 h2 h; subst e h1; right; simp_all [Score.key]
    | slot e h1 h2 h3 h => simp only at e h1 h2 h3 h; subst e h1; right; simp_all [Score.key]
    | root h =>
      right
      have := hr.2 h
      cases ta <;> exact ⟨rfl, .inr ⟨rfl, .inr ⟨rfl, .inr ⟨rfl, this⟩⟩⟩⟩

/-- The order on keys as a lexicographic order on numbers. -/
theorem key_lt_iff (a b : Key) : Key.lt a b = true ↔
    (a.1 < b.1 ∨ a.1 = b.1 ∧ (b.2.1 < a.2.1 ∨ a.2.1 = b.2.1 ∧ (b.2.2.1 < a.2.2.1 ∨
      a.2.2.1 = b.2.2.1 ∧ (b.2.2.2.1 < a.2.2.2.1 ∨ a.2.2.2.1 = b.2.2.2.1 ∧
        (show Nat from a.2.2.2.2) < (show Nat from b.2.2.2.2))))) := by
  unfold Key.lt
  rw [decide_eq_true_eq, Nat.blt_eq]

theorem key_lt_trans {a b c : Key} (h1 : Key.lt a b = true) (h2 : Key.lt b c = true) :
    Key.lt a c = true := by
  rw [key_lt_iff] at *
  omega

theorem key_lt_irrefl (a : Key) : ¬ Key.lt a a = true := by
  rw [key_lt_iff]; omega

theorem key_lt_total (a b : Key) : Key.lt a b = true ∨ Key.lt b a = true ∨ a.2.2.2.2 = b.2.2.2.2 := by
  rw [key_lt_iff, key_lt_iff]
  by_cases h : (show Nat from a.2.2.2.2) = (show Nat from b.2.2.2.2)
  · exact .inr (.inr h)
  · omega

theorem key_root (s : Score) (r : Root) : (s.key r).2.2.2.2 = r := by
  unfold Score.key; split <;> rfl

/-- Nothing scored is better than the pick; if nothing is picked nothing is scored. -/
theorem pickBest_max {hist known : List Root} {n : Nat} {done : List Root} {p : Projected}
    {pool : Pool} :
    (pickBest hist known n done p pool = none →
      ∀ e ∈ pool, candidate hist known n done p e = none) ∧
    (∀ r sc new, pickBest hist known n done p pool = some (r, sc, new) →
      ∀ e ∈ pool, ∀ x, candidate hist known n done p e = some x →
        ¬ Key.lt (x.1.key e.1) (sc.key r) = true) := by
  unfold pickBest
  have gen : ∀ (l : Pool) (b : Option (Root × Score × List Nat)),
      let out := l.foldl (fun best e =>
        match candidate hist known n done p e with
        | none => best
        | some (sc, new) =>
          match best with
          | none => some (e.1, sc, new)
          | some b => if Key.lt (sc.key e.1) (b.2.1.key b.1) then some (e.1, sc, new) else best) b
      (out = none → b = none ∧ ∀ e ∈ l, candidate hist known n done p e = none) ∧
      (∀ y, out = some y → (∀ z, b = some z → ¬ Key.lt (z.2.1.key z.1) (y.2.1.key y.1) = true) ∧
        ∀ e ∈ l, ∀ x, candidate hist known n done p e = some x →
          ¬ Key.lt (x.1.key e.1) (y.2.1.key y.1) = true) := by
    intro l
    induction l with
    | nil =>
      intro b
      refine ⟨fun h => ⟨h, by simp⟩, fun y h => ⟨fun z hz => ?_, by simp⟩⟩
      simp only [List.foldl_nil] at h
      rw [h] at hz; cases hz; exact key_lt_irrefl _
    | cons e l ih =>
      intro b
      simp only [List.foldl_cons]
      cases hc : candidate hist known n done p e with
      | none =>
        obtain ⟨i1, i2⟩ := ih b
        refine ⟨fun h => ?_, fun y h => ?_⟩
        · obtain ⟨j1, j2⟩ := i1 h
          refine ⟨j1, fun e' he' => ?_⟩
          rcases List.mem_cons.1 he' with rfl | he'
          · exact hc
          · exact j2 e' he'
        · obtain ⟨j1, j2⟩ := i2 y h
          refine ⟨j1, fun e' he' x hx => ?_⟩
          rcases List.mem_cons.1 he' with rfl | he'
          · rw [hc] at hx; cases hx
          · exact j2 e' he' x hx
      | some x0 =>
        obtain ⟨sc0, new0⟩ := x0
        simp only
        -- with any new best that is at least as good as this entry and the old best
        have fin : ∀ b' : Root × Score × List Nat,
            ¬ Key.lt (sc0.key e.1) (b'.2.1.key b'.1) = true →
            (∀ z, b = some z → ¬ Key.lt (z.2.1.key z.1) (b'.2.1.key b'.1) = true) →
            ∀ out, out = l.foldl (fun best e =>
              match candidate hist known n done p e with
              | none => best
              | some (sc, new) =>
                match best with
                | none => some (e.1, sc, new)
                | some b => if Key.lt (sc.key e.1) (b.2.1.key b.1) then some (e.1, sc, new)
                  else best) (some b') →
            (out = none → b = none ∧ ∀ e' ∈ e :: l, candidate hist known n done p e' = none) ∧
            (∀ y, out = some y →
              (∀ z, b = some z → ¬ Key.lt (z.2.1.key z.1) (y.2.1.key y.1) = true) ∧
              ∀ e' ∈ e :: l, ∀ x, candidate hist known n done p e' = some x →
                ¬ Key.lt (x.1.key e'.1) (y.2.1.key y.1) = true) := by
          intro b' hb1 hb2 out hout
          obtain ⟨i1, i2⟩ := ih (some b')
          refine ⟨fun h => ?_, fun y h => ?_⟩
          · exact absurd (i1 (hout.symm.trans h)).1 (by simp)
          · obtain ⟨j1, j2⟩ := i2 y (hout.symm.trans h)
            have hyb := j1 b' rfl
            have chain : ∀ k : Key, ¬ Key.lt k (b'.2.1.key b'.1) = true →
                ¬ Key.lt k (y.2.1.key y.1) = true := by
              intro k hk hky
              rw [key_lt_iff] at hk hky hyb
              omega
            refine ⟨fun z hz => chain _ (hb2 z hz), fun e' he' x hx => ?_⟩
            rcases List.mem_cons.1 he' with rfl | he'
            · rw [hc] at hx; cases hx; exact chain _ hb1
            · exact j2 e' he' x hx
        cases b with
        | none => exact fin (e.1, sc0, new0) (key_lt_irrefl _) (by simp) _ rfl
        | some z =>
          by_cases hlt : Key.lt (sc0.key e.1) (z.2.1.key z.1) = true
          · refine fin (e.1, sc0, new0) (key_lt_irrefl _) ?_ _ (by simp only [hlt, if_true])
            rintro z' ⟨⟩ hc'
            exact key_lt_irrefl _ (key_lt_trans hlt hc')
          · refine fin z hlt ?_ _ (by simp only [hlt, if_false]; rfl)
            rintro z' ⟨⟩
            exact key_lt_irrefl _
  refine ⟨fun h => ((gen pool none).1 h).2, fun r sc new h => ((gen pool none).2 _ h).2⟩

/-- A slot counts as justified: up to the finalized slot, or marked in the window after it. -/
def Marked (p : Projected) (slot : Nat) : Prop :=
  slot ≤ p.finalizedSlot ∨ p.justifiedSlots[slot - p.finalizedSlot - 1]? = some true

theorem marked_iff (p : Projected) (slot : Nat) :
    Marked p slot ↔ (JustifiedSlots.isSlotJustified p.justifiedSlots p.finalizedSlot slot).getD false = true := by
  unfold Marked JustifiedSlots.isSlotJustified JustifiedSlots.relativeIndex
  by_cases h : slot ≤ p.finalizedSlot
  · have e : (if slot < p.finalizedSlot then none
        else if slot - p.finalizedSlot < 1 then none else some (slot - p.finalizedSlot - 1)) = (none : Option Nat) := by
      split
      · rfl
      · rw [if_pos (by omega)]
    rw [e]
    simp [h]
  · rw [or_iff_right h, if_neg (by omega), if_neg (by omega)]
    show _ ↔ (p.justifiedSlots[slot - p.finalizedSlot - 1]?).getD false = true
    cases p.justifiedSlots[slot - p.finalizedSlot - 1]? with
    | none => simp
    | some b => simp

/-- **C65, the filters.** Which entries qualify: the head block of the vote is known, source, target and head are blocks
of the chain, the source is justified, and, unless source and target are genesis, the target is later than the
source, not justified yet and justifiable. The voters of an entry are those of all its proofs. -/
theorem C65_qualifies (p : Projected) (d : AttData) (known hist : List Root) (proofs : List Agg) :
    (p.passes d known hist = true ↔
      d.head.root ∈ known ∧
      (∀ c, c = d.source ∨ c = d.target ∨ c = d.head → c.root ≠ 0 ∧ hist[c.slot]? = some c.root) ∧
      Marked p d.source.slot ∧
      (¬ (d.source.slot = 0 ∧ d.target.slot = 0) →
        d.source.slot < d.target.slot ∧ ¬ Marked p d.target.slot ∧
          slotIsJustifiableAfter d.target.slot p.finalizedSlot = true)) ∧
    ∀ v : Nat, v ∈ coverage proofs ↔ ∃ g ∈ proofs, g.participants[v]? = some true := by
  refine ⟨?_, fun v => mem_coverage⟩
  have hg : genesisSelfVote d = true ↔ d.source.slot = 0 ∧ d.target.slot = 0 := by
    unfold genesisSelfVote; exact decide_eq_true_iff
  have hch : (∀ c, c = d.source ∨ c = d.target ∨ c = d.head → c.root ≠ 0 ∧ hist[c.slot]? = some c.root) ↔
      attestationDataMatchesChain hist d = true := by
    rw [matchesChain_iff]
    constructor
    · intro h
      have h1 := h _ (.inl rfl)
      have h2 := h _ (.inr (.inl rfl))
      have h3 := h _ (.inr (.inr rfl))
      exact ⟨h1.1, h2.1, h3.1, h1.2, h2.2, h3.2⟩
    · rintro ⟨a1, a2, a3, b1, b2, b3⟩ c (rfl | rfl | rfl)
      · exact ⟨a1, b1⟩
      · exact ⟨a2, b2⟩
      · exact ⟨a3, b3⟩
  rw [hch, marked_iff, marked_iff, ← hg]
  constructor
  · intro h
    obtain ⟨h1, h2, h3, h4⟩ := passes_facts h
    exact ⟨h1, h3, h2, fun hn => (h4 (Bool.eq_false_iff.2 hn)).imp id (fun h => ⟨by rw [h.1]; simp, h.2⟩)⟩
  · rintro ⟨h1, h3, h2, h4⟩
    unfold Projected.passes
    rw [if_neg (not_not.2 h1), if_neg (not_not.2 h2), if_neg (not_not.2 h3)]
    by_cases hs : genesisSelfVote d = true
    · rw [if_neg (by simp [hs]), if_neg (by simp [hs]), if_neg (by simp [hs])]
    · obtain ⟨c1, c2, c3⟩ := h4 hs
      rw [if_neg (by omega), if_neg (fun h => c2 h.2), if_neg (fun h => h.2 c3)]

/-- **C65, the classes.** What makes an entry finalizing, justifying or neither: whether its new voters
lift the votes for the target to two thirds, and whether no justifiable slot lies between source and
target (with a source after the finalized slot). -/
theorem C65_tier {p : Projected} {d : AttData} {cov : List Nat} {n : Nat} {sc : Score}
    {new : List Nat} (h : p.score d cov n = some (sc, new)) :
    let before := (p.votes.get? d.target.root).getD []
    let selfVote := d.source.slot = 0 ∧ d.target.slot = 0
    let crosses := 2 * n ≤ 3 * (before.length + new.length)
    let adjacent := p.finalizedSlot < d.source.slot ∧
      ∀ k, d.source.slot < k → k < d.target.slot → slotIsJustifiableAfter k p.finalizedSlot = false
    (∀ v, v ∈ new ↔ v ∈ cov ∧ v ∉ before) ∧
    (sc.tier = .finalize ↔ ¬ selfVote ∧ crosses ∧ adjacent) ∧
    (sc.tier = .justify ↔ ¬ selfVote ∧ crosses ∧ ¬ adjacent) ∧
    (sc.tier = .build ↔ selfVote ∨ ¬ crosses) ∧
    sc.newVoters = new.length ∧ sc.targetSlot = d.target.slot ∧ sc.attSlot = d.slot := by
  intro before selfVote crosses adjacent
  unfold Projected.score at h
  dsimp only at h
  split at h
  · cases h
  injection h with h
  obtain ⟨h1, h2⟩ := Prod.mk.inj h
  have hself : genesisSelfVote d = true ↔ selfVote := by
    unfold genesisSelfVote; rw [decide_eq_true_eq]
  have hadj : (decide (d.source.slot > p.finalizedSlot) &&
      (List.range' (d.source.slot + 1) (d.target.slot - (d.source.slot + 1))).all
        (fun k => !slotIsJustifiableAfter k p.finalizedSlot)) = true ↔ adjacent := by
    rw [Bool.and_eq_true, decide_eq_true_eq, List.all_eq_true]
    refine and_congr Iff.rfl ⟨fun hk k h3 h4 => ?_, fun hk k hm => ?_⟩
    · have := hk k (List.mem_range'_1.2 ⟨by omega, by omega⟩)
      simpa using this
    · obtain ⟨h3, h4⟩ := List.mem_range'_1.1 hm
      rw [hk k (by omega) (by omega)]; rfl
  rw [h2] at h1
  have hcr : decide (3 * (((p.votes.get? d.target.root).getD []).length + new.length) ≥ 2 * n) = true
      ↔ crosses := decide_eq_true_iff
  rw [Bool.and_assoc] at h1
  generalize genesisSelfVote d = x1 at h1 hself
  generalize decide (3 * (((p.votes.get? d.target.root).getD []).length + new.length) ≥ 2 * n)
    = x2 at h1 hcr
  generalize (decide (d.source.slot > p.finalizedSlot) &&
      (List.range' (d.source.slot + 1) (d.target.slot - (d.source.slot + 1))).all
        (fun k => !slotIsJustifiableAfter k p.finalizedSlot)) = x3 at h1 hadj
  refine ⟨fun v => ?_, ?_, ?_, ?_, ?_, ?_, ?_⟩
  · rw [← h2, List.mem_filter, decide_eq_true_eq]
  · rw [← h1, ← hself, ← hcr, ← hadj]
    cases x1 <;> cases x2 <;> cases x3 <;> simp
  · rw [← h1, ← hself, ← hcr, ← hadj]
    cases x1 <;> cases x2 <;> cases x3 <;> simp
  · rw [← h1, ← hself, ← hcr]
    cases x1 <;> cases x2 <;> cases x3 <;> simp
  · rw [← h1]
  · rw [← h1]
  · rw [← h1]

/-- **C65, priority.** In each round the entry picked is one that is not packed yet, passes the
filters and adds new voters, and no other such entry of the pool is better. If nothing is picked,
no entry qualifies. -/
theorem C65_best_first {hist known : List Root} {n : Nat} {done : List Root} {p : Projected}
    {pool : Pool} :
    match pickBest hist known n done p pool with
    | none => ∀ e ∈ pool, e.1 ∈ done ∨ p.passes e.2.1 known hist = false ∨
        ∀ v ∈ coverage e.2.2, v ∈ (p.votes.get? e.2.1.target.root).getD []
    | some (r, sc, new) =>
      (∃ d proofs, (r, d, proofs) ∈ pool ∧ r ∉ done ∧ p.passes d known hist = true ∧
        p.score d (coverage proofs) n = some (sc, new)) ∧
      ∀ e ∈ pool, e.1 ∉ done → p.passes e.2.1 known hist = true → ∀ sc' new',
        p.score e.2.1 (coverage e.2.2) n = some (sc', new') → ¬ Better (sc', e.1) (sc, r) := by
  obtain ⟨h1, h2⟩ := pickBest_max (hist := hist) (known := known) (n := n) (done := done) (p := p)
    (pool := pool)
  cases hb : pickBest hist known n done p pool with
  | none =>
    intro e he
    have hc := h1 hb e he
    unfold candidate at hc
    by_cases hd : e.1 ∈ done
    · exact .inl hd
    rw [if_neg hd] at hc
    cases hp : p.passes e.2.1 known hist with
    | false => exact .inr (.inl rfl)
    | true =>
      rw [hp] at hc
      simp only [not_true, if_false] at hc
      refine .inr (.inr fun v hv => ?_)
      unfold Projected.score at hc
      simp only at hc
      split at hc
      next hemp =>
        by_contra hnot
        have : v ∈ (coverage e.2.2).filter
            (fun v => v ∉ (p.votes.get? e.2.1.target.root).getD []) :=
          List.mem_filter.2 ⟨hv, by simpa using hnot⟩
        rw [List.isEmpty_iff.1 hemp] at this
        cases this
      · cases hc
  | some x =>
    obtain ⟨r, sc, new⟩ := x
    refine ⟨?_, ?_⟩
    · obtain ⟨⟨r', d, ps⟩, he, rfl, hc⟩ := pickBest_mem hb
      obtain ⟨c1, c2, c3⟩ := candidate_some hc
      exact ⟨d, ps, he, c1, c2, c3⟩
    · intro e he hd hp sc' new' hs hbet
      have hc : candidate hist known n done p e = some (sc', new') := by
        unfold candidate
        rw [if_neg hd, if_neg (by simp [hp]), hs]
      exact h2 r sc new hb e he _ hc ((lt_iff_better _ _ _ _).2 hbet)

/-- **C65, order independence.** The whole selection does not depend on the order in which the
hash map of payloads is enumerated. -/
theorem C65_order_independent {hist known : List Root} {n : Nat} {ord : Root → List Nat → List Nat}
    {pool pool' : Pool} (hn : pool.keys.Nodup) (hp : List.Perm pool pool') :
    ∀ (k : Nat) (done : List Root) (p : Projected) (sel : List Entry),
    selectRounds hist known n ord pool k done p sel = selectRounds hist known n ord pool' k done p sel
  | 0, _, _, _ => rfl
  | k + 1, done, p, sel => by
    have hn' : pool'.keys.Nodup := (hp.map Prod.fst).nodup_iff.1 hn
    have hbest : pickBest hist known n done p pool = pickBest hist known n done p pool' := by
      obtain ⟨h1, h2⟩ := pickBest_max (hist := hist) (known := known) (n := n) (done := done) (p := p)
        (pool := pool)
      obtain ⟨g1, g2⟩ := pickBest_max (hist := hist) (known := known) (n := n) (done := done) (p := p)
        (pool := pool')
      cases hb : pickBest hist known n done p pool with
      | none =>
        cases hb' : pickBest hist known n done p pool' with
        | none => rfl
        | some y =>
          obtain ⟨r, sc, new⟩ := y
          obtain ⟨e, he, -, hc⟩ := pickBest_mem hb'
          rw [h1 hb e (hp.mem_iff.2 he)] at hc
          cases hc
      | some y =>
        obtain ⟨r, sc, new⟩ := y
        obtain ⟨e, he, rfl, hc⟩ := pickBest_mem hb
        cases hb' : pickBest hist known n done p pool' with
        | none => rw [g1 hb' e (hp.mem_iff.1 he)] at hc; cases hc
        | some y' =>
          obtain ⟨r', sc', new'⟩ := y'
          obtain ⟨e', he', rfl, hc'⟩ := pickBest_mem hb'
          have a1 := h2 _ _ _ hb e' (hp.mem_iff.2 he') _ hc'
          have a2 := g2 _ _ _ hb' e (hp.mem_iff.1 he) _ hc
          have : e.1 = e'.1 := by
            rcases key_lt_total (sc.key e.1) (sc'.key e'.1) with h | h | h
            · exact absurd h a2
            · exact absurd h a1
            · rwa [key_root, key_root] at h
          have hee : e = e' := by
            have x1 := get?_of_mem_pool hn he
            have x2 := get?_of_mem_pool hn (hp.mem_iff.2 he')
            rw [this, x2] at x1
            exact Prod.ext this (Option.some.inj x1).symm
          subst hee
          rw [hc] at hc'
          cases hc'
          rfl
    unfold selectRounds
    rw [hbest]
    cases hb : pickBest hist known n done p pool' with
    | none => rfl
    | some y =>
      obtain ⟨r, sc, new⟩ := y
      simp only
      rw [AMap.get?_perm hp hn]
      cases hg : AMap.get? pool' r with
      | none => rfl
      | some dp =>
        obtain ⟨d, proofs⟩ := dp
        simp only
        congr 1
        funext p'
        exact C65_order_independent hn hp k _ _ _

/-- A justifying entry is packed before one that merely has more new voters: with four validators
and three votes already recorded for slot 1, one new vote for it beats two votes for slot 2. -/
example :
    let p : Projected := ⟨[], 0, [(2, [0, 1])]⟩
    pickBest [1, 2, 3] [2, 3] 4 [] p
      [ (7, (Witness.vote [] 0 2).data, [⟨[true, true], 1⟩]),
        (8, (Witness.vote [] 0 1).data, [⟨[true, false, true], 2⟩]) ]
      = some (8, ⟨.justify, 1, 1, 1⟩, [2]) := by decide +kernel

end Verif.Build
