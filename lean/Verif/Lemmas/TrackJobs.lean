import Verif.Lemmas.SoloSession
/-!
# The jobs of a session when at most one group may still count
-/
namespace Verif.Build
open Verif Verif.Buffers JustifiedSlots

/-- The candidates, when no aggregate is pending. -/
theorem candidates_idle {H : Hash} {decodes : Nat → Bool} {vals : List Validator} {p : Pools}
    (hg : GInv H p.gossip) (hn : p.new.data = []) :
    (candidates H decodes vals p).keys.Nodup ∧
    (∀ r j, (candidates H decodes vals p).get? r = some j →
      ∃ e, p.gossip.data.get? r = some e ∧ j.data = e.data) ∧
    ∀ r e, p.gossip.data.get? r = some e →
      (candidates H decodes vals p).get? r =
        resolveJob decodes vals e.data r e.sigs [] (proofsFor p.known r) := by
  have hpf : ∀ r, proofsFor p.new r = [] := by
    intro r
    unfold proofsFor
    rw [hn]
    rfl
  have hkey : ∀ x ∈ p.gossip.data, H.attData x.2.data = x.1 := by
    intro x hx
    exact (hg.ok x.1 x.2 (AMap.get?_of_mem hg.keys hx)).1
  have hc : candidates H decodes vals p = p.gossip.data.foldl (fun (m : AMap Root Job) x =>
      match resolveJob decodes vals x.2.data x.1 x.2.sigs [] (proofsFor p.known x.1) with
      | none => m
      | some j => m.insert x.1 j) [] := by
    unfold candidates
    simp only [hn, List.foldl_nil, GossipBuffer.snapshot, List.foldl_map, hpf]
    generalize ([] : AMap Root Job) = m0
    clear hn hpf
    have hkey' := hkey
    revert m0 hkey'
    clear hkey hg
    generalize p.gossip.data = l
    induction l with
    | nil => intro m0 _; rfl
    | cons x l ih =>
      intro m0 h
      simp only [List.foldl_cons]
      rw [h x List.mem_cons_self]
      exact ih _ (fun y hy => h y (List.mem_cons_of_mem _ hy))
  rw [hc]
  have hnod := hg.keys
  clear hc hkey hg hpf hn
  -- the fold
  have main : ∀ (l : AMap Root GEntry) (m : AMap Root Job), l.keys.Nodup → m.keys.Nodup →
      (∀ r ∈ l.keys, m.get? r = none) →
      (l.foldl (fun (m : AMap Root Job) x =>
        match resolveJob decodes vals x.2.data x.1 x.2.sigs [] (proofsFor p.known x.1) with
        | none => m
        | some j => m.insert x.1 j) m).keys.Nodup ∧
      ∀ r, (l.foldl (fun (m : AMap Root Job) x =>
        match resolveJob decodes vals x.2.data x.1 x.2.sigs [] (proofsFor p.known x.1) with
        | none => m
        | some j => m.insert x.1 j) m).get? r =
        match l.get? r with
        | none => m.get? r
        | some e => resolveJob decodes vals e.data r e.sigs [] (proofsFor p.known r) := by
    intro l
    induction l with
    | nil => intro m _ hm _; exact ⟨hm, fun r => rfl⟩
    | cons x l ih =>
      intro m hl hm hd
      obtain ⟨k, e⟩ := x
      simp only [AMap.keys, List.map_cons, List.nodup_cons] at hl
      simp only [List.foldl_cons]
      have hlk : AMap.get? l k = none := AMap.get?_eq_none_iff.2 hl.1
      have hmk : m.get? k = none := hd k (by simp [AMap.keys])
      cases hr : resolveJob decodes vals e.data k e.sigs [] (proofsFor p.known k) with
      | none =>
        simp only
        obtain ⟨i1, i2⟩ := ih m hl.2 hm (fun r hr => hd r (by
          simp only [AMap.keys, List.map_cons, List.mem_cons]; exact .inr hr))
        refine ⟨i1, fun r => ?_⟩
        rw [i2 r, AMap.get?_cons]
        by_cases hkr : k = r
        · subst hkr
          rw [hlk, if_pos rfl]
          exact hmk.trans hr.symm
        · rw [if_neg hkr]
      | some j =>
        simp only
        obtain ⟨i1, i2⟩ := ih (m.insert k j) hl.2 (AMap.nodup_insert hm k j) (fun r hr => by
          rw [AMap.get?_insert, if_neg (by rintro rfl; exact hl.1 hr)]
          exact hd r (by simp only [AMap.keys, List.map_cons, List.mem_cons]; exact .inr hr))
        refine ⟨i1, fun r => ?_⟩
        rw [i2 r, AMap.get?_cons, AMap.get?_insert]
        by_cases hkr : k = r
        · subst hkr
          rw [hlk, if_pos rfl, if_pos rfl]
          exact hr.symm
        · rw [if_neg hkr, if_neg hkr]
  obtain ⟨m1, m2⟩ := main p.gossip.data [] hnod (by simp [AMap.keys]) (fun r _ => rfl)
  refine ⟨m1, ?_, ?_⟩
  · intro r j hj
    rw [m2] at hj
    split at hj
    · cases hj
    next e he =>
      refine ⟨e, he, ?_⟩
      unfold resolveJob at hj
      simp only at hj
      split at hj
      · cases hj
      split at hj
      · cases hj
      cases hj
      rfl
  · intro r e he
    rw [m2, he]

/-- Votes for a justified target do not score. -/
theorem jobScore_justified {hist known : List Root} {n : Nat} {p : Projected} {j : Job}
    (h1 : 1 ≤ j.data.target.slot)
    (h2 : jst p.justifiedSlots p.finalizedSlot j.data.target.slot = true) :
    jobScore hist known n p j = none := by
  unfold jobScore
  rw [if_pos]
  have hg : genesisSelfVote j.data = false := by
    unfold genesisSelfVote
    simp only [decide_eq_false_iff_not]
    omega
  unfold jst at h2
  unfold Projected.passes
  simp only [hg, h2]
  repeat' split
  all_goals simp_all

theorem pickJob_none {hist known : List Root} {n slot : Nat} {p : Projected} {pool : AMap Root Job}
    (h : ∀ e ∈ pool, jobScore hist known n p e.2 = none) :
    pickJob hist known n slot p pool = none := by
  unfold pickJob
  have : ∀ best : Option (Root × Job × Score), pool.foldl (fun best e =>
      match jobScore hist known n p e.2 with
      | none => best
      | some sc =>
        match best with
        | none => some (e.1, e.2, sc)
        | some b => if jobLt slot (e.1, e.2, sc) b then some (e.1, e.2, sc) else best) best = best := by
    induction pool with
    | nil => intro best; rfl
    | cons x pool ih =>
      intro best
      rw [List.foldl_cons, h x List.mem_cons_self]
      exact ih (fun e he => h e (List.mem_cons_of_mem _ he)) best
  exact this none

theorem pickJob_only {hist known : List Root} {n slot : Nat} {p : Projected} {pool : AMap Root Job}
    {r : Root} {j : Job} {sc : Score} (hj : jobScore hist known n p j = some sc)
    (h : ∀ e ∈ pool, e = (r, j) ∨ jobScore hist known n p e.2 = none) (hm : (r, j) ∈ pool) :
    pickJob hist known n slot p pool = some (r, j, sc) := by
  unfold pickJob
  have : ∀ best : Option (Root × Job × Score), (best = none ∧ (r, j) ∈ pool) ∨ best = some (r, j, sc) →
      pool.foldl (fun best e =>
      match jobScore hist known n p e.2 with
      | none => best
      | some sc =>
        match best with
        | none => some (e.1, e.2, sc)
        | some b => if jobLt slot (e.1, e.2, sc) b then some (e.1, e.2, sc) else best) best =
      some (r, j, sc) := by
    clear hm
    induction pool with
    | nil =>
      rintro best (⟨-, h⟩ | h)
      · cases h
      · exact h
    | cons x pool ih =>
      intro best hb
      rw [List.foldl_cons]
      apply ih (fun e he => h e (List.mem_cons_of_mem _ he))
      rcases h x List.mem_cons_self with rfl | hx
      · right
        simp only [hj]
        rcases hb with ⟨rfl, -⟩ | rfl
        · rfl
        · simp
      · simp only [hx]
        rcases hb with ⟨h1, h2⟩ | h1
        · rcases List.mem_cons.1 h2 with rfl | h2
          · rw [hj] at hx; cases hx
          · exact .inl ⟨h1, h2⟩
        · exact .inr h1
  exact this none (.inl ⟨rfl, hm⟩)

theorem advance_slots {p x : Projected} {tier : Tier} {d : AttData} {a : List Nat} (b : List Nat)
    (h : p.advance tier d a = some x) :
    ∃ y, p.advance tier d b = some y ∧ y.justifiedSlots = x.justifiedSlots ∧
      y.finalizedSlot = x.finalizedSlot := by
  unfold Projected.advance at h ⊢
  simp only at h ⊢
  by_cases ht : tier = .build
  · rw [if_pos ht] at h ⊢
    cases h
    exact ⟨_, rfl, rfl, rfl⟩
  · rw [if_neg ht] at h ⊢
    obtain ⟨js, h1, h⟩ := Option.bind_eq_some_iff.1 h
    obtain ⟨js', h2, h⟩ := Option.map_eq_some_iff.1 h
    rw [h1, Option.bind_some, h2, Option.map_some]
    refine ⟨_, rfl, ?_⟩
    subst h
    by_cases hf : tier = .finalize
    · simp only [if_pos hf, and_self]
    · simp only [if_neg hf, and_self]

/-- A session in which one candidate scores, and all others are for justified targets. -/
theorem jobs_one {hist known : List Root} {n slot m : Nat} {p : Projected} {pool : AMap Root Job}
    {r : Root} {j : Job} {sc : Score} (hm : 0 < m) (hs : jobScore hist known n p j = some sc)
    (ht : j.data.target.slot ≤ historicalRootsLimit) (hn : pool.keys.Nodup)
    (hg : pool.get? r = some j)
    (ho : ∀ e ∈ pool, e.1 ≠ r → 1 ≤ e.2.data.target.slot ∧
      jst p.justifiedSlots p.finalizedSlot e.2.data.target.slot = true) :
    jobRounds hist known n slot m pool p = some [j] := by
  obtain ⟨m, rfl⟩ := Nat.exists_eq_succ_of_ne_zero (Nat.pos_iff_ne_zero.1 hm)
  have hpick : pickJob hist known n slot p pool = some (r, j, sc) := by
    refine pickJob_only hs (fun e he => ?_) (AMap.mem_of_get? hg)
    by_cases her : e.1 = r
    · left
      have := AMap.get?_of_mem hn he
      rw [her, hg] at this
      exact Prod.ext her (Option.some.inj this).symm
    · right
      obtain ⟨h1, h2⟩ := ho e he her
      exact jobScore_justified h1 h2
  have hs0 := hs
  unfold jobScore at hs
  split at hs
  · cases hs
  next hpass =>
  rw [not_not] at hpass
  obtain ⟨⟨sc', new⟩, hsc, rfl⟩ := Option.map_eq_some_iff.1 hs
  obtain ⟨p', hp'⟩ := advance_isSome (p := p) (tier := sc'.tier) (new := j.coverage) ht
  obtain ⟨y, hy1, hy2, hy3⟩ := advance_slots new hp'
  obtain ⟨-, hmono, -⟩ := advance_effect hpass hsc hy1
  unfold jobRounds
  rw [hpick]
  simp only [hp', Option.bind_some]
  have hrest : jobRounds hist known n slot m (pool.erase r) p' = some [] := by
    cases m with
    | zero => rfl
    | succ m =>
      unfold jobRounds
      rw [pickJob_none]
      intro e he
      have he' : e ∈ pool ∧ e.1 ≠ r := by
        unfold AMap.erase at he
        have := List.mem_filter.1 he
        exact ⟨this.1, by simpa using this.2⟩
      obtain ⟨h1, h2⟩ := ho e he'.1 he'.2
      refine jobScore_justified h1 ?_
      rw [← hy2, ← hy3]
      exact hmono _ h2
  rw [hrest]
  rfl

theorem jobs_none {hist known : List Root} {n slot m : Nat} {p : Projected} {pool : AMap Root Job}
    (ho : ∀ e ∈ pool, 1 ≤ e.2.data.target.slot ∧
      jst p.justifiedSlots p.finalizedSlot e.2.data.target.slot = true) :
    jobRounds hist known n slot m pool p = some [] := by
  cases m with
  | zero => rfl
  | succ m =>
    unfold jobRounds
    rw [pickJob_none (fun e he => jobScore_justified (ho e he).1 (ho e he).2)]

end Verif.Build
