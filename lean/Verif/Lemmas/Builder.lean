import Verif.Model.BlockBuilder
import Verif.Props.C44_Compact
import Verif.Lemmas.StfChain
/-!
# The rounds of attestation selection
-/
namespace Verif.Build
open Verif Verif.Buffers JustifiedSlots

/-- One selected data entry. -/
structure Pick where
  root : Root
  data : AttData
  proofs : List Agg
  score : Score
  new : List Nat

/-- What a pick contributes to the selection. -/
def Pick.entries (ord : Root → List Nat → List Nat) (k : Pick) : List Entry :=
  (extendGreedily k.proofs (ord k.root)).map
    (fun a => (({ bits := a.participants, data := k.data } : AggAtt), a))

/-- A successful sequence of rounds, from a projection. -/
inductive Rounds (hist known : List Root) (n : Nat) (pool : Pool) :
    List Root → Projected → List Pick → Prop
  | nil {done : List Root} {p : Projected} : Rounds hist known n pool done p []
  | cons {done : List Root} {p p' : Projected} {k : Pick} {ks : List Pick} :
      (k.root, k.data, k.proofs) ∈ pool → k.root ∉ done → p.passes k.data known hist = true →
      p.score k.data (coverage k.proofs) n = some (k.score, k.new) →
      p.advance k.score.tier k.data k.new = some p' →
      Rounds hist known n pool (k.root :: done) p' ks →
      Rounds hist known n pool done p (k :: ks)

theorem pickBest_mem {hist known : List Root} {n : Nat} {done : List Root} {p : Projected}
    {pool : Pool} {r : Root} {sc : Score} {new : List Nat}
    (h : pickBest hist known n done p pool = some (r, sc, new)) :
    ∃ e ∈ pool, e.1 = r ∧ candidate hist known n done p e = some (sc, new) := by
  unfold pickBest at h
  have gen : ∀ (l : Pool) (b : Option (Root × Score × List Nat)),
      l.foldl (fun best e =>
        match candidate hist known n done p e with
        | none => best
        | some (sc, new) =>
          match best with
          | none => some (e.1, sc, new)
          | some b => if Key.lt (sc.key e.1) (b.2.1.key b.1) then some (e.1, sc, new) else best) b
        = some (r, sc, new) →
      b = some (r, sc, new) ∨
        ∃ e ∈ l, e.1 = r ∧ candidate hist known n done p e = some (sc, new) := by
    intro l
    induction l with
    | nil => intro b hb; exact .inl hb
    | cons e l ih =>
      intro b hb
      rw [List.foldl_cons] at hb
      rcases ih _ hb with h1 | ⟨e', h1, h2⟩
      · cases hc : candidate hist known n done p e with
        | none => rw [hc] at h1; exact .inl h1
        | some x =>
          rw [hc] at h1
          obtain ⟨sc', new'⟩ := x
          simp only at h1
          split at h1
          · cases h1; exact .inr ⟨e, List.mem_cons_self, rfl, hc⟩
          · split at h1
            · cases h1; exact .inr ⟨e, List.mem_cons_self, rfl, hc⟩
            · exact .inl h1
      · exact .inr ⟨e', List.mem_cons_of_mem _ h1, h2⟩
  rcases gen pool none h with h | h
  · cases h
  · exact h

theorem candidate_some {hist known : List Root} {n : Nat} {done : List Root} {p : Projected}
    {e : Root × AttData × List Agg} {x : Score × List Nat}
    (h : candidate hist known n done p e = some x) :
    e.1 ∉ done ∧ p.passes e.2.1 known hist = true ∧ p.score e.2.1 (coverage e.2.2) n = some x := by
  unfold candidate at h
  split at h
  · cases h
  next h1 =>
    split at h
    · cases h
    next h2 => exact ⟨h1, by simpa using h2, h⟩

theorem get?_of_mem_pool {pool : Pool} (hn : pool.keys.Nodup) {e : Root × AttData × List Agg}
    (he : e ∈ pool) : pool.get? e.1 = some e.2 := (AMap.mem_iff_get? hn).1 he

theorem selectRounds_rounds {hist known : List Root} {n : Nat} {ord : Root → List Nat → List Nat}
    {pool : Pool} (hn : pool.keys.Nodup) : ∀ (k : Nat) (done : List Root) (p : Projected)
    (sel out : List Entry), selectRounds hist known n ord pool k done p sel = some out →
    ∃ ks : List Pick, ks.length ≤ k ∧ Rounds hist known n pool done p ks ∧
      out = sel ++ ks.flatMap (Pick.entries ord)
  | 0, done, p, sel, out, h => by
    cases h
    exact ⟨[], Nat.zero_le _, .nil, by simp⟩
  | k + 1, done, p, sel, out, h => by
    unfold selectRounds at h
    split at h
    · cases h
      exact ⟨[], Nat.zero_le _, .nil, by simp⟩
    next r sc new hp =>
      obtain ⟨e, he, rfl, hc⟩ := pickBest_mem hp
      obtain ⟨c1, c2, c3⟩ := candidate_some hc
      rw [get?_of_mem_pool hn he] at h
      obtain ⟨r, d, proofs⟩ := e
      simp only at h
      cases ha : p.advance sc.tier d new with
      | none => rw [ha] at h; cases h
      | some p' =>
        rw [ha] at h
        simp only [Option.bind_some] at h
        obtain ⟨ks, h1, h2, h3⟩ := selectRounds_rounds hn k _ _ _ _ h
        refine ⟨⟨r, d, proofs, sc, new⟩ :: ks, by simpa using h1, .cons he c1 c2 c3 ha h2, ?_⟩
        rw [h3, List.flatMap_cons, List.append_assoc]
        rfl

/-- The rounds with their outcome: each pick is the best candidate, and the rounds end when the limit
is reached or no candidate is left. -/
inductive Run (hist known : List Root) (n : Nat) (pool : Pool) :
    Nat → List Root → Projected → List Pick → Projected → Prop
  | stop {m : Nat} {done : List Root} {p : Projected} :
      (m = 0 ∨ pickBest hist known n done p pool = none) → Run hist known n pool m done p [] p
  | pick {m : Nat} {done : List Root} {p p' q : Projected} {k : Pick} {ks : List Pick} :
      pickBest hist known n done p pool = some (k.root, k.score, k.new) →
      (k.root, k.data, k.proofs) ∈ pool → k.root ∉ done → p.passes k.data known hist = true →
      p.score k.data (coverage k.proofs) n = some (k.score, k.new) →
      p.advance k.score.tier k.data k.new = some p' →
      Run hist known n pool m (k.root :: done) p' ks q →
      Run hist known n pool (m + 1) done p (k :: ks) q

theorem Run.rounds {hist known : List Root} {n : Nat} {pool : Pool} {m : Nat} {done : List Root}
    {p q : Projected} {ks : List Pick} (h : Run hist known n pool m done p ks q) :
    Rounds hist known n pool done p ks := by
  induction h with
  | stop _ => exact .nil
  | pick _ h1 h2 h3 h4 h5 _ ih => exact .cons h1 h2 h3 h4 h5 ih

theorem selectRounds_run {hist known : List Root} {n : Nat} {ord : Root → List Nat → List Nat}
    {pool : Pool} (hn : pool.keys.Nodup) : ∀ (k : Nat) (done : List Root) (p : Projected)
    (sel out : List Entry), selectRounds hist known n ord pool k done p sel = some out →
    ∃ (ks : List Pick) (q : Projected), Run hist known n pool k done p ks q ∧
      out = sel ++ ks.flatMap (Pick.entries ord)
  | 0, done, p, sel, out, h => by
    cases h
    exact ⟨[], p, .stop (.inl rfl), by simp⟩
  | k + 1, done, p, sel, out, h => by
    unfold selectRounds at h
    split at h
    next hp =>
      cases h
      exact ⟨[], p, .stop (.inr hp), by simp⟩
    next r sc new hp =>
      obtain ⟨e, he, rfl, hc⟩ := pickBest_mem hp
      obtain ⟨c1, c2, c3⟩ := candidate_some hc
      rw [get?_of_mem_pool hn he] at h
      obtain ⟨r, d, proofs⟩ := e
      simp only at h
      cases ha : p.advance sc.tier d new with
      | none => rw [ha] at h; cases h
      | some p' =>
        rw [ha] at h
        simp only [Option.bind_some] at h
        obtain ⟨ks, q, h2, h3⟩ := selectRounds_run hn k _ _ _ _ h
        refine ⟨⟨r, d, proofs, sc, new⟩ :: ks, q, .pick hp he c1 c2 c3 ha h2, ?_⟩
        rw [h3, List.flatMap_cons, List.append_assoc]
        rfl

theorem advance_isSome {p : Projected} {tier : Tier} {d : AttData} {new : List Nat}
    (h : d.target.slot ≤ historicalRootsLimit) : ∃ p', p.advance tier d new = some p' := by
  unfold Projected.advance
  simp only
  by_cases ht : tier = .build
  · rw [if_pos ht]; exact ⟨_, rfl⟩
  · rw [if_neg ht]
    have : ∃ js, extendToSlot p.justifiedSlots p.finalizedSlot d.target.slot = some js ∧
        ∃ js', setJustified js p.finalizedSlot d.target.slot = some js' := by
      unfold extendToSlot setJustified
      by_cases hf : d.target.slot ≤ p.finalizedSlot
      · rw [relativeIndex_none hf]; exact ⟨_, rfl, _, rfl⟩
      · rw [relativeIndex_some (by omega)]
        simp only
        split
        next hl => exact ⟨_, rfl, by rw [if_pos (by omega)]; exact ⟨_, rfl⟩⟩
        next hl =>
          rw [if_pos (by omega)]
          refine ⟨_, rfl, ?_⟩
          rw [if_pos (by simp; omega)]
          exact ⟨_, rfl⟩
    obtain ⟨js, h1, js', h2⟩ := this
    rw [h1, Option.bind_some, h2]
    exact ⟨_, rfl⟩

theorem passes_facts {p : Projected} {d : AttData} {known hist : List Root}
    (h : p.passes d known hist = true) :
    d.head.root ∈ known ∧
    (isSlotJustified p.justifiedSlots p.finalizedSlot d.source.slot).getD false = true ∧
    attestationDataMatchesChain hist d = true ∧
    (genesisSelfVote d = false → d.source.slot < d.target.slot ∧
      (isSlotJustified p.justifiedSlots p.finalizedSlot d.target.slot).getD false = false ∧
      slotIsJustifiableAfter d.target.slot p.finalizedSlot = true) := by
  unfold Projected.passes at h
  split at h
  · cases h
  next h1 =>
  split at h
  · cases h
  next h2 =>
  split at h
  · cases h
  next h3 =>
  split at h
  · cases h
  next h4 =>
  split at h
  · cases h
  next h5 =>
  split at h
  · cases h
  next h6 =>
  refine ⟨by simpa using h1, by simpa using h2, by simpa using h3, fun hg => ?_⟩
  simp only [hg, Bool.false_eq_true, not_false_eq_true, true_and] at h4 h5 h6
  exact ⟨by omega, by simpa using h5, by simpa using h6⟩

theorem Rounds.mem {hist known : List Root} {n : Nat} {pool : Pool} {done : List Root}
    {p : Projected} {ks : List Pick} (h : Rounds hist known n pool done p ks) :
    ∀ k ∈ ks, (k.root, k.data, k.proofs) ∈ pool ∧ k.root ∉ done ∧
      attestationDataMatchesChain hist k.data = true ∧ coverage k.proofs ≠ [] := by
  induction h with
  | nil => intro k hk; cases hk
  | cons h1 h2 h3 h4 _ _ ih =>
    intro k hk
    rcases List.mem_cons.1 hk with rfl | hk
    · refine ⟨h1, h2, (passes_facts h3).2.2.1, fun hc => ?_⟩
      rw [hc] at h4
      unfold Projected.score at h4
      simp at h4
    · obtain ⟨a, b, c⟩ := ih k hk
      exact ⟨a, fun hd => b (List.mem_cons_of_mem _ hd), c⟩

theorem Rounds.nodup {hist known : List Root} {n : Nat} {pool : Pool} {done : List Root}
    {p : Projected} {ks : List Pick} (h : Rounds hist known n pool done p ks) :
    (ks.map Pick.root).Nodup := by
  induction h with
  | nil => exact .nil
  | cons _ _ _ _ _ hr ih =>
    refine List.nodup_cons.2 ⟨fun hm => ?_, ih⟩
    obtain ⟨k', hk', he⟩ := List.mem_map.1 hm
    exact (hr.mem k' hk').2.1 (by rw [he]; exact List.mem_cons_self)

theorem mem_coverage {proofs : List Agg} {v : Nat} : v ∈ coverage proofs ↔ ∃ p ∈ proofs, In v p := by
  unfold coverage
  rw [List.mem_dedup, List.mem_flatMap]
  simp only [mem_ids]

theorem mem_entries {ord : Root → List Nat → List Nat} {k : Pick} {e : Entry}
    (h : e ∈ k.entries ord) : e.1.data = k.data ∧ e.1.bits = e.2.participants ∧
      e.2 ∈ extendGreedily k.proofs (ord k.root) := by
  obtain ⟨a, ha, rfl⟩ := List.mem_map.1 h
  exact ⟨rfl, rfl, ha⟩

/-- Rounds never panic when all slots of the chain view are within the limit. -/
theorem selectRounds_isSome {hist known : List Root} {n : Nat} {ord : Root → List Nat → List Nat}
    {pool : Pool} (hn : pool.keys.Nodup) (hl : hist.length ≤ historicalRootsLimit) :
    ∀ (k : Nat) (done : List Root) (p : Projected) (sel : List Entry),
    ∃ out, selectRounds hist known n ord pool k done p sel = some out
  | 0, _, _, sel => ⟨sel, rfl⟩
  | k + 1, done, p, sel => by
    unfold selectRounds
    cases hp : pickBest hist known n done p pool with
    | none => exact ⟨sel, rfl⟩
    | some x =>
      obtain ⟨r, sc, new⟩ := x
      obtain ⟨e, he, rfl, hc⟩ := pickBest_mem hp
      obtain ⟨-, c2, -⟩ := candidate_some hc
      have hm := (matchesChain_iff _ _).1 (passes_facts c2).2.2.1
      have ht := getElem?_lt hm.2.2.2.2.1
      obtain ⟨p', hp'⟩ := advance_isSome (p := p) (tier := sc.tier) (d := e.2.1) (new := new)
        (by omega)
      simp only [get?_of_mem_pool hn he, hp', Option.bind_some]
      exact selectRounds_isSome hn hl k _ _ _

end Verif.Build
