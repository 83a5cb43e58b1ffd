import Verif.Props.C65_Priority
import Verif.Lemmas.Aggregation
/-!
# The order of aggregation jobs
-/
namespace Verif.Build
open Verif Verif.Buffers

/-- The bucket of a job as a number. -/
def bucketOf (slot : Nat) (j : Job) : Nat := if j.data.slot = slot then 0 else 1

theorem jobLt_iff (slot : Nat) (a b : Root × Job × Score) : jobLt slot a b = true ↔
    (bucketOf slot a.2.1 < bucketOf slot b.2.1 ∨ bucketOf slot a.2.1 = bucketOf slot b.2.1 ∧
      Key.lt (a.2.2.key a.1) (b.2.2.key b.1) = true) := by
  unfold jobLt bucketOf
  simp only [Bool.or_eq_true, Bool.and_eq_true, decide_eq_true_eq]

theorem jobLt_trans {slot : Nat} {a b c : Root × Job × Score} (h1 : jobLt slot a b = true)
    (h2 : jobLt slot b c = true) : jobLt slot a c = true := by
  rw [jobLt_iff] at *
  rcases h1 with h1 | ⟨e1, h1⟩ <;> rcases h2 with h2 | ⟨e2, h2⟩
  · exact .inl (by omega)
  · exact .inl (by omega)
  · exact .inl (by omega)
  · exact .inr ⟨by omega, key_lt_trans h1 h2⟩

theorem jobLt_irrefl (slot : Nat) (a : Root × Job × Score) : ¬ jobLt slot a a = true := by
  rw [jobLt_iff]
  rintro (h | ⟨-, h⟩)
  · omega
  · exact key_lt_irrefl _ h

theorem key_lt_negtrans {a b c : Key} (h1 : ¬ Key.lt a b = true) (h2 : ¬ Key.lt b c = true) :
    ¬ Key.lt a c = true := by
  rw [key_lt_iff] at *
  omega

theorem jobLt_negtrans {slot : Nat} {a b c : Root × Job × Score} (h1 : ¬ jobLt slot a b = true)
    (h2 : ¬ jobLt slot b c = true) : ¬ jobLt slot a c = true := by
  rw [jobLt_iff] at *
  rintro (h | ⟨e, h⟩)
  · by_cases hb : bucketOf slot a.2.1 < bucketOf slot b.2.1
    · exact h1 (.inl hb)
    · exact h2 (.inl (by omega))
  · by_cases hb : bucketOf slot a.2.1 < bucketOf slot b.2.1
    · exact h1 (.inl hb)
    · by_cases hc : bucketOf slot b.2.1 < bucketOf slot c.2.1
      · exact h2 (.inl hc)
      · exact key_lt_negtrans (fun hk => h1 (.inr ⟨by omega, hk⟩))
          (fun hk => h2 (.inr ⟨by omega, hk⟩)) h

/-- No other candidate precedes the one picked; none is picked only if none qualifies. -/
theorem pickJob_least {hist known : List Root} {n slot : Nat} {p : Projected}
    {pool : AMap Root Job} :
    (pickJob hist known n slot p pool = none → ∀ e ∈ pool, jobScore hist known n p e.2 = none) ∧
    ∀ x, pickJob hist known n slot p pool = some x → ∀ e ∈ pool, ∀ sc,
      jobScore hist known n p e.2 = some sc → ¬ jobLt slot (e.1, e.2, sc) x = true := by
  unfold pickJob
  suffices gen : ∀ (l : AMap Root Job) (b : Option (Root × Job × Score)),
      let out := l.foldl (fun best e =>
        match jobScore hist known n p e.2 with
        | none => best
        | some sc =>
          match best with
          | none => some (e.1, e.2, sc)
          | some b => if jobLt slot (e.1, e.2, sc) b then some (e.1, e.2, sc) else best) b
      (out = none → b = none ∧ ∀ e ∈ l, jobScore hist known n p e.2 = none) ∧
      ∀ x, out = some x → (∀ y, b = some y → ¬ jobLt slot y x = true) ∧
        ∀ e ∈ l, ∀ sc, jobScore hist known n p e.2 = some sc →
          ¬ jobLt slot (e.1, e.2, sc) x = true from
    ⟨fun h => (gen pool none).1 h |>.2, fun x h => ((gen pool none).2 x h).2⟩
  intro l
  induction l with
  | nil =>
    intro b
    refine ⟨fun h => ⟨h, by simp⟩, fun x h => ⟨fun y hy => ?_, by simp⟩⟩
    have : b = some x := h
    rw [this] at hy
    cases hy
    exact jobLt_irrefl slot _
  | cons e l ih =>
    intro b
    simp only [List.foldl_cons]
    cases hj : jobScore hist known n p e.2 with
    | none =>
      obtain ⟨i1, i2⟩ := ih b
      refine ⟨fun h => ⟨(i1 h).1, ?_⟩, fun x h => ⟨(i2 x h).1, ?_⟩⟩
      · intro e' he'
        rcases List.mem_cons.1 he' with rfl | he'
        · exact hj
        · exact (i1 h).2 e' he'
      · intro e' he' sc hs
        rcases List.mem_cons.1 he' with rfl | he'
        · rw [hj] at hs; cases hs
        · exact (i2 x h).2 e' he' sc hs
    | some sc0 =>
      cases b with
      | none =>
        obtain ⟨i1, i2⟩ := ih (some (e.1, e.2, sc0))
        refine ⟨fun h => absurd (i1 h).1 (by simp), fun x h => ⟨by simp, ?_⟩⟩
        intro e' he' sc hs
        rcases List.mem_cons.1 he' with rfl | he'
        · rw [hj] at hs; cases hs
          exact (i2 x h).1 _ rfl
        · exact (i2 x h).2 e' he' sc hs
      | some b =>
        simp only
        by_cases hlt : jobLt slot (e.1, e.2, sc0) b = true
        · rw [if_pos hlt]
          obtain ⟨i1, i2⟩ := ih (some (e.1, e.2, sc0))
          refine ⟨fun h => absurd (i1 h).1 (by simp), fun x h => ⟨?_, ?_⟩⟩
          · intro y hy hc
            cases hy
            exact (i2 x h).1 _ rfl (jobLt_trans hlt hc)
          · intro e' he' sc hs
            rcases List.mem_cons.1 he' with rfl | he'
            · rw [hj] at hs; cases hs
              exact (i2 x h).1 _ rfl
            · exact (i2 x h).2 e' he' sc hs
        · rw [if_neg hlt]
          obtain ⟨i1, i2⟩ := ih (some b)
          refine ⟨fun h => absurd (i1 h).1 (by simp), fun x h => ⟨(i2 x h).1, ?_⟩⟩
          intro e' he' sc hs
          rcases List.mem_cons.1 he' with rfl | he'
          · rw [hj] at hs; cases hs
            intro hc
            have hb := (i2 x h).1 _ rfl
            exact jobLt_negtrans hlt hb hc
          · exact (i2 x h).2 e' he' sc hs

theorem fold_insert {α : Type} {f : Root → α → Option Job} : ∀ (l : AMap Root α) (m : AMap Root Job),
    l.keys.Nodup → ∀ r,
    (l.foldl (fun (m : AMap Root Job) x =>
      match f x.1 x.2 with
      | none => m
      | some j => m.insert x.1 j) m).get? r =
      match (l.get? r).bind (f r) with
      | some j => some j
      | none => m.get? r
  | [], m, _, r => rfl
  | (k, e) :: l, m, hn, r => by
    simp only [AMap.keys, List.map_cons, List.nodup_cons] at hn
    have hk : AMap.get? l k = none := AMap.get?_eq_none_iff.2 hn.1
    rw [List.foldl_cons, fold_insert l _ hn.2 r, AMap.get?_cons]
    by_cases hkr : k = r
    · subst hkr
      rw [hk, if_pos rfl]
      simp only [Option.bind_none, Option.bind_some]
      cases f k e with
      | none => rfl
      | some j => simp only; rw [AMap.get?_insert, if_pos rfl]
    · rw [if_neg hkr]
      cases hf : (AMap.get? l r).bind (f r) with
      | some j => rfl
      | none =>
        simp only
        cases f k e with
        | none => rfl
        | some j => simp only; rw [AMap.get?_insert, if_neg hkr]

theorem fold_missing {α : Type} {f : Root → α → Option Job} : ∀ (l : AMap Root α) (m : AMap Root Job),
    l.keys.Nodup → ∀ r,
    (l.foldl (fun (m : AMap Root Job) x =>
      if m.has x.1 then m
      else match f x.1 x.2 with
      | none => m
      | some j => m.insert x.1 j) m).get? r =
      match m.get? r with
      | some j => some j
      | none => (l.get? r).bind (f r)
  | [], m, _, r => by
    show m.get? r = _
    cases m.get? r <;> rfl
  | (k, e) :: l, m, hn, r => by
    simp only [AMap.keys, List.map_cons, List.nodup_cons] at hn
    have hk : AMap.get? l k = none := AMap.get?_eq_none_iff.2 hn.1
    rw [List.foldl_cons, fold_missing l _ hn.2 r, AMap.get?_cons]
    have hhas : m.has k = true ↔ ∃ j, m.get? k = some j := by
      unfold AMap.has; exact Option.isSome_iff_exists
    by_cases hkr : k = r
    · subst hkr
      rw [hk, if_pos rfl]
      simp only [Option.bind_none, Option.bind_some]
      by_cases hh : m.has k = true
      · rw [if_pos hh]
        obtain ⟨j, hj⟩ := hhas.1 hh
        rw [hj]
      · rw [if_neg hh]
        have hm : m.get? k = none := by
          cases hg : m.get? k with
          | none => rfl
          | some j => exact absurd (hhas.2 ⟨j, hg⟩) hh
        cases f k e with
        | none => simp only [hm]
        | some j => simp only [hm]; rw [AMap.get?_insert, if_pos rfl]
    · rw [if_neg hkr]
      by_cases hh : m.has k = true
      · rw [if_pos hh]
      · rw [if_neg hh]
        cases f k e with
        | none => rfl
        | some j => simp only; rw [AMap.get?_insert, if_neg hkr]

/-- The candidate for a message: what resolves from its stored signatures, else from at least two
proofs. -/
theorem candidates_get {H : Hash} {decodes : Nat → Bool} {vals : List Validator} {p : Pools}
    (hg : GInv H p.gossip) (hp : PInv H p.new) (r : Root) :
    (candidates H decodes vals p).get? r =
      match (p.gossip.data.get? r).bind (fun e => resolveJob decodes vals e.data r e.sigs
        (proofsFor p.new r) (proofsFor p.known r)) with
      | some j => some j
      | none => (p.new.data.get? r).bind (fun e =>
          if (proofsFor p.new r).length + (proofsFor p.known r).length < 2 then none
          else resolveJob decodes vals e.data r [] (proofsFor p.new r) (proofsFor p.known r)) := by
  have e1 : (p.gossip.snapshot).foldl (fun (m : AMap Root Job) g =>
      match resolveJob decodes vals g.1 (H.attData g.1) g.2 (proofsFor p.new (H.attData g.1))
        (proofsFor p.known (H.attData g.1)) with
      | none => m
      | some j => m.insert (H.attData g.1) j) [] =
      p.gossip.data.foldl (fun (m : AMap Root Job) x =>
        match (fun r (e : GEntry) => resolveJob decodes vals e.data r e.sigs (proofsFor p.new r)
          (proofsFor p.known r)) x.1 x.2 with
        | none => m
        | some j => m.insert x.1 j) [] := by
    unfold GossipBuffer.snapshot
    rw [List.foldl_map]
    apply List.foldl_ext
    intro m x hx
    have := (hg.ok x.1 x.2 (AMap.get?_of_mem hg.keys hx)).1
    simp only [this]
  have e2 : ∀ m : AMap Root Job, p.new.data.foldl (fun (m : AMap Root Job) e =>
      if m.has e.1 then m
      else if (proofsFor p.new e.1).length + (proofsFor p.known e.1).length < 2 then m
      else match resolveJob decodes vals e.2.data (H.attData e.2.data) []
          (proofsFor p.new e.1) (proofsFor p.known e.1) with
        | none => m
        | some j => m.insert e.1 j) m =
      p.new.data.foldl (fun (m : AMap Root Job) x =>
        if m.has x.1 then m
        else match (fun r (e : PEntry) =>
            if (proofsFor p.new r).length + (proofsFor p.known r).length < 2 then none
            else resolveJob decodes vals e.data r [] (proofsFor p.new r) (proofsFor p.known r))
            x.1 x.2 with
          | none => m
          | some j => m.insert x.1 j) m := by
    intro m
    apply List.foldl_ext
    intro m x hx
    have := (hp.ok x.1 x.2 (AMap.get?_of_mem hp.keys hx)).1
    simp only [this]
    split
    · rfl
    split <;> rfl
  have e3 : candidates H decodes vals p = _ :=
    (e2 _).trans (congrArg (fun m : AMap Root Job => p.new.data.foldl _ m) e1)
  have h1 := fold_insert (f := fun r (e : GEntry) => resolveJob decodes vals e.data r e.sigs
    (proofsFor p.new r) (proofsFor p.known r)) p.gossip.data [] hg.keys r
  refine (congrArg (fun m => AMap.get? m r) e3).trans ((fold_missing (f := fun r (e : PEntry) =>
    if (proofsFor p.new r).length + (proofsFor p.known r).length < 2 then none
    else resolveJob decodes vals e.data r [] (proofsFor p.new r) (proofsFor p.known r))
    p.new.data _ hp.keys r).trans ?_)
  refine (congrArg (fun o : Option Job => match o with
    | some j => some j
    | none => (p.new.data.get? r).bind (fun e =>
        if (proofsFor p.new r).length + (proofsFor p.known r).length < 2 then none
        else resolveJob decodes vals e.data r [] (proofsFor p.new r) (proofsFor p.known r))) h1).trans ?_
  cases (p.gossip.data.get? r).bind (fun e => resolveJob decodes vals e.data r e.sigs
        (proofsFor p.new r) (proofsFor p.known r)) with
  | some j => rfl
  | none => rfl

/-- Why there is no job: nothing to combine. -/
theorem resolveJob_none {decodes : Nat → Bool} {vals : List Validator} {d : AttData} {root : Root}
    {sigs : List (Nat × Nat)} {new known : List Agg}
    (h : resolveJob decodes vals d root sigs new known = none) :
    (∀ x ∈ sigs, ∀ y ∈ sigs, resolves decodes vals x.1 = true → resolves decodes vals y.1 = true →
      x.1 = y.1) ∨
    ∃ q ∈ new ++ known, ∀ x ∈ sigs, resolves decodes vals x.1 = true → In x.1 q := by
  unfold resolveJob at h
  simp only at h
  obtain ⟨r1, r2, r3⟩ := rawById_spec decodes vals sigs
  obtain ⟨fn, fk, g1, g2, g3, g4, -⟩ := C45_aggregator new known (rawById decodes vals sigs).keys
  obtain ⟨qs, s1, s2, s3, s4⟩ := resolveChildren_spec decodes vals
    (selectGreedily new known (rawById decodes vals sigs).keys).1
  have hsub : ∀ q ∈ qs, q ∈ new ++ known := by
    intro q hq
    have := s1.subset hq
    rw [g1] at this
    rcases List.mem_append.1 this with hm | hm
    · exact List.mem_append_left _ (g3 q hm)
    · exact List.mem_append_right _ (g4 q hm)
  rw [s2, s3] at h
  have hin : ∀ x ∈ sigs, resolves decodes vals x.1 = true →
      x.1 ∈ ((rawById decodes vals sigs).filter
        (fun x => decide (x.1 ∉ qs.flatMap Agg.ids))).map Prod.fst ∨ ∃ q ∈ qs, In x.1 q := by
    intro x hx hr
    by_cases hc : x.1 ∈ qs.flatMap Agg.ids
    · right
      obtain ⟨q, hq, hv⟩ := List.mem_flatMap.1 hc
      exact ⟨q, hq, mem_ids.1 hv⟩
    · left
      obtain ⟨y, hy, he⟩ := List.mem_map.1 (r3 x hx hr)
      exact List.mem_map.2 ⟨y, List.mem_filter.2 ⟨hy, by rw [he]; simpa using hc⟩, he⟩
  generalize hA : (rawById decodes vals sigs).filter
    (fun x => decide (x.1 ∉ qs.flatMap Agg.ids)) = A at h hin
  rw [List.length_map] at h
  split at h
  next c =>
    have hA0 : A = [] := List.isEmpty_iff.1 c.1
    have hq := c.2
    subst hA0
    match qs, hq, hsub, hin with
    | [], _, _, hin =>
      left
      intro x hx y _ hr _
      rcases hin x hx hr with h | ⟨q, hq, _⟩
      · cases h
      · cases hq
    | [q], _, hsub, hin =>
      right
      refine ⟨q, hsub q List.mem_cons_self, fun x hx hr => ?_⟩
      rcases hin x hx hr with h | ⟨q', hq, hi⟩
      · cases h
      · obtain rfl := List.mem_singleton.1 hq
        exact hi
    | _ :: _ :: _, hq, _, _ => simp only [List.length_cons] at hq; omega
  split at h
  next c =>
    left
    have hq : qs = [] := by
      have := List.isEmpty_iff.1 c.1
      exact List.map_eq_nil_iff.1 this
    subst hq
    have hl := c.2
    intro x hx y hy hr hr'
    have hx' := (hin x hx hr).resolve_right (by rintro ⟨q, hq, _⟩; cases hq)
    have hy' := (hin y hy hr').resolve_right (by rintro ⟨q, hq, _⟩; cases hq)
    match A, hl, hx', hy' with
    | [], _, hx', _ => cases hx'
    | [a], _, hx', hy' =>
      simp only [List.map_cons, List.map_nil, List.mem_singleton] at hx' hy'
      rw [hx', hy']
    | _ :: _ :: _, hl, _, _ => simp only [List.length_cons] at hl; omega
  · cases h

end Verif.Build
