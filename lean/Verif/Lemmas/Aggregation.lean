import Verif.Model.Aggregation
import Verif.Lemmas.Builder
import Mathlib.Tactic.Tauto
import Verif.Props.C20_C21_Payloads
import Verif.Props.C22_GossipPool
/-!
# Aggregation jobs and session rounds
-/
namespace Verif.Build
open Verif Verif.Buffers JustifiedSlots

theorem rawById_spec (decodes : Nat → Bool) (vals : List Validator) (sigs : List (Nat × Nat)) :
    (rawById decodes vals sigs).keys.Nodup ∧
    (∀ x ∈ rawById decodes vals sigs, x ∈ sigs ∧ resolves decodes vals x.1 = true) ∧
    ∀ x ∈ sigs, resolves decodes vals x.1 = true → x.1 ∈ (rawById decodes vals sigs).keys := by
  have gen : ∀ (l : List (Nat × Nat)) (m : AMap Nat Nat), m.keys.Nodup →
      let m' := l.foldl (fun m x => if resolves decodes vals x.1 then m.insert x.1 x.2 else m) m
      m'.keys.Nodup ∧
      (∀ x ∈ m', x ∈ m ∨ x ∈ l ∧ resolves decodes vals x.1 = true) ∧
      (∀ v ∈ m.keys, v ∈ m'.keys) ∧
      ∀ x ∈ l, resolves decodes vals x.1 = true → x.1 ∈ m'.keys := by
    intro l
    induction l with
    | nil => intro m h; exact ⟨h, fun x hx => .inl hx, fun v hv => hv, by simp⟩
    | cons a l ih =>
      intro m h
      simp only [List.foldl_cons]
      by_cases ha : resolves decodes vals a.1 = true
      · rw [if_pos ha]
        obtain ⟨h1, h2, h3, h4⟩ := ih _ (AMap.nodup_insert h a.1 a.2)
        refine ⟨h1, ?_, ?_, ?_⟩
        · intro x hx
          rcases h2 x hx with hx | hx
          · have hg := AMap.get?_of_mem (AMap.nodup_insert h a.1 a.2) (k := x.1) (v := x.2) hx
            rw [AMap.get?_insert] at hg
            split at hg
            next he =>
              right
              exact ⟨List.mem_cons.2 (.inl (Prod.ext he.symm (Option.some.inj hg).symm)),
                by rw [← he]; exact ha⟩
            next he => exact .inl (AMap.mem_of_get? hg)
          · exact .inr ⟨List.mem_cons_of_mem _ hx.1, hx.2⟩
        · intro v hv; exact h3 v (AMap.mem_keys_insert.2 (.inr hv))
        · intro x hx hr
          rcases List.mem_cons.1 hx with rfl | hx
          · exact h3 _ (AMap.mem_keys_insert.2 (.inl rfl))
          · exact h4 x hx hr
      · rw [if_neg ha]
        obtain ⟨h1, h2, h3, h4⟩ := ih _ h
        refine ⟨h1, ?_, h3, ?_⟩
        · intro x hx
          rcases h2 x hx with hx | hx
          · exact .inl hx
          · exact .inr ⟨List.mem_cons_of_mem _ hx.1, hx.2⟩
        · intro x hx hr
          rcases List.mem_cons.1 hx with rfl | hx
          · exact absurd hr ha
          · exact h4 x hx hr
  obtain ⟨h1, h2, -, h4⟩ := gen sigs [] List.nodup_nil
  refine ⟨h1, fun x hx => ?_, h4⟩
  rcases h2 x hx with hx | hx
  · cases hx
  · exact hx

theorem resolveChildren_spec (decodes : Nat → Bool) (vals : List Validator) : ∀ (ps : List Agg),
    ∃ qs : List Agg, qs.Sublist ps ∧
      (resolveChildren decodes vals ps).1 = qs.map (fun q => (Agg.ids q, q.proof)) ∧
      (resolveChildren decodes vals ps).2 = qs.flatMap Agg.ids ∧
      (∀ q ∈ qs, ∀ v ∈ Agg.ids q, resolves decodes vals v = true)
  | [] => ⟨[], .slnil, rfl, rfl, by simp⟩
  | p :: ps => by
    obtain ⟨qs, h1, h2, h3, h4⟩ := resolveChildren_spec decodes vals ps
    unfold resolveChildren
    simp only
    split
    · exact ⟨qs, h1.cons _, h2, h3, h4⟩
    next hl =>
      refine ⟨p :: qs, h1.cons_cons _, by simp [h2], by simp [h3], ?_⟩
      intro q hq v hv
      rcases List.mem_cons.1 hq with rfl | hq
      · have hl : ((Agg.ids q).filter (fun v => resolves decodes vals v)).length
            = (Agg.ids q).length := Classical.not_not.1 hl
        exact List.length_filter_eq_length_iff.1 hl v hv
      · exact h4 q hq v hv

/-- What a resolved job consists of. -/
structure JobSpec (decodes : Nat → Bool) (vals : List Validator) (d : AttData) (root : Root)
    (sigs : List (Nat × Nat)) (new known : List Agg) (j : Job) : Prop where
  data : j.data = d
  root_eq : j.root = root
  nodup : (j.raw.map Prod.fst).Nodup
  disjoint : ∀ v ∈ j.raw.map Prod.fst, v ∉ j.childIds
  raw : ∀ x ∈ j.raw, x ∈ sigs ∧ resolves decodes vals x.1 = true
  children : ∃ qs : List Agg, qs.length ≤ 2 ∧ (∀ q ∈ qs, q ∈ new ++ known) ∧
    j.children = qs.map (fun q => (Agg.ids q, q.proof)) ∧ j.childIds = qs.flatMap Agg.ids ∧
    ∀ q ∈ qs, ∀ v, In v q → resolves decodes vals v = true
  keys : ∀ v r, (v, r) ∈ j.keysToDelete ↔ r = root ∧ v ∈ sigs.map Prod.fst
  kept : ∀ x ∈ sigs, resolves decodes vals x.1 = true →
    x.1 ∈ j.raw.map Prod.fst ∨ x.1 ∈ j.childIds
  viable : 2 ≤ j.raw.length + j.children.length

theorem resolveJob_spec {decodes : Nat → Bool} {vals : List Validator} {d : AttData} {root : Root}
    {sigs : List (Nat × Nat)} {new known : List Agg} {j : Job}
    (h : resolveJob decodes vals d root sigs new known = some j) :
    JobSpec decodes vals d root sigs new known j := by
  unfold resolveJob at h
  simp only at h
  split at h
  · cases h
  next c1 =>
  split at h
  · cases h
  next c2 =>
  cases h
  obtain ⟨r1, r2, r3⟩ := rawById_spec decodes vals sigs
  obtain ⟨fn, fk, g1, g2, g3, g4, -⟩ :=
    C45_aggregator new known (rawById decodes vals sigs).keys
  obtain ⟨qs, s1, s2, s3, s4⟩ := resolveChildren_spec decodes vals
    (selectGreedily new known (rawById decodes vals sigs).keys).1
  constructor
  · rfl
  · rfl
  · exact AMap.nodup_filter r1 _
  · intro v hv
    obtain ⟨x, hx, rfl⟩ := List.mem_map.1 hv
    simpa using (List.mem_filter.1 hx).2
  · intro x hx
    exact r2 x (List.mem_filter.1 hx).1
  · refine ⟨qs, Nat.le_trans s1.length_le g2, ?_, s2, s3, fun q hq v hv => s4 q hq v (mem_ids.2 hv)⟩
    intro q hq
    have := s1.subset hq
    rw [g1] at this
    rcases List.mem_append.1 this with hm | hm
    · exact List.mem_append_left _ (g3 q hm)
    · exact List.mem_append_right _ (g4 q hm)
  · intro v r
    simp only [List.mem_map, Prod.mk.injEq]
    constructor
    · rintro ⟨x, hx, rfl, rfl⟩; exact ⟨rfl, x, hx, rfl⟩
    · rintro ⟨rfl, x, hx, rfl⟩; exact ⟨x, hx, rfl, rfl⟩
  · intro x hx hr
    have hk := r3 x hx hr
    by_cases hc : x.1 ∈ (resolveChildren decodes vals
        (selectGreedily new known (rawById decodes vals sigs).keys).1).2
    · exact .inr hc
    · left
      obtain ⟨y, hy, he⟩ := List.mem_map.1 hk
      exact List.mem_map.2 ⟨y, List.mem_filter.2 ⟨hy, by rw [he]; simpa using hc⟩, he⟩
  · simp only
    generalize (rawById decodes vals sigs).filter _ = A at c1 c2 ⊢
    generalize (resolveChildren decodes vals _).1 = B at c1 c2 ⊢
    simp only [List.isEmpty_iff, ← List.length_eq_zero_iff] at c1 c2
    omega

theorem mem_insertAsc {k v : Nat} : ∀ {l : List Nat}, v ∈ insertAsc k l ↔ v = k ∨ v ∈ l
  | [] => by simp [insertAsc]
  | a :: l => by
    unfold insertAsc
    split
    · simp
    split
    next h => subst h; simp
    next => simp only [List.mem_cons, mem_insertAsc (l := l)]; tauto

theorem insertAsc_sorted {k : Nat} : ∀ {l : List Nat}, l.Pairwise (· < ·) →
    (insertAsc k l).Pairwise (· < ·)
  | [], _ => by simp [insertAsc]
  | a :: l, h => by
    obtain ⟨h1, h2⟩ := List.pairwise_cons.1 h
    unfold insertAsc
    split
    next hk =>
      refine List.pairwise_cons.2 ⟨fun x hx => ?_, h⟩
      rcases List.mem_cons.1 hx with rfl | hx
      · exact hk
      · exact Nat.lt_trans hk (h1 x hx)
    next hk =>
    split
    · exact h
    next hne =>
      refine List.pairwise_cons.2 ⟨fun x hx => ?_, insertAsc_sorted h2⟩
      rcases mem_insertAsc.1 hx with rfl | hx
      · omega
      · exact h1 x hx

theorem mem_sortDedup {l : List Nat} {v : Nat} : v ∈ sortDedup l ↔ v ∈ l := by
  unfold sortDedup
  induction l with
  | nil => simp
  | cons a l ih => rw [List.foldr_cons, mem_insertAsc, ih, List.mem_cons]

theorem sortDedup_sorted (l : List Nat) : (sortDedup l).Pairwise (· < ·) := by
  unfold sortDedup
  induction l with
  | nil => exact .nil
  | cons a l ih => rw [List.foldr_cons]; exact insertAsc_sorted ih

theorem bitsFromIndices_get (ids : List Nat) (v : Nat) :
    (bitsFromIndices ids)[v]? = some true ↔ v ∈ ids := by
  unfold bitsFromIndices
  cases hm : ids.max? with
  | none =>
    rw [List.max?_eq_none_iff] at hm
    subst hm; simp
  | some m =>
    simp only [List.getElem?_map]
    constructor
    · intro h
      obtain ⟨a, ha, hd⟩ := Option.map_eq_some_iff.1 h
      rw [List.getElem?_range (by
        have := (List.getElem?_eq_some_iff.1 ha).1; simpa using this)] at ha
      cases ha
      simpa using hd
    · intro h
      have : v ≤ m := (List.max?_eq_some_iff.1 hm).2 v h
      rw [List.getElem?_range (by omega)]
      simpa using h

/-! ## Session -/

/-- A candidate job of a session: where it comes from. -/
def Origin (H : Hash) (decodes : Nat → Bool) (vals : List Validator) (p : Pools) (r : Root)
    (j : Job) : Prop :=
  (∃ e, p.gossip.data.get? r = some e ∧
    resolveJob decodes vals e.data r e.sigs (proofsFor p.new r) (proofsFor p.known r) = some j) ∨
  (∃ e, p.new.data.get? r = some e ∧
    resolveJob decodes vals e.data r [] (proofsFor p.new r) (proofsFor p.known r) = some j)

theorem candidates_spec {H : Hash} {decodes : Nat → Bool} {vals : List Validator} {p : Pools}
    (hg : GInv H p.gossip) (hp : PInv H p.new) :
    (candidates H decodes vals p).keys.Nodup ∧
    ∀ r j, (candidates H decodes vals p).get? r = some j → Origin H decodes vals p r j := by
  unfold candidates
  simp only
  have ins : ∀ (m : AMap Root Job) (r : Root) (j : Job),
      (m.keys.Nodup ∧ ∀ r j, m.get? r = some j → Origin H decodes vals p r j) →
      Origin H decodes vals p r j →
      ((m.insert r j).keys.Nodup ∧
        ∀ r' j', (m.insert r j).get? r' = some j' → Origin H decodes vals p r' j') := by
    intro m r j ⟨h1, h2⟩ ho
    refine ⟨AMap.nodup_insert h1 _ _, fun r' j' h => ?_⟩
    rw [AMap.get?_insert] at h
    split at h
    next he => subst he; cases h; exact ho
    next => exact h2 r' j' h
  have gen1 : ∀ (l : AMap Root GEntry) (m : AMap Root Job), (∀ x ∈ l, x ∈ p.gossip.data) →
      (m.keys.Nodup ∧ ∀ r j, m.get? r = some j → Origin H decodes vals p r j) →
      let m' := (l.map (fun x => (x.2.data, x.2.sigs))).foldl (fun (m : AMap Root Job) g =>
        match resolveJob decodes vals g.1 (H.attData g.1) g.2 (proofsFor p.new (H.attData g.1))
          (proofsFor p.known (H.attData g.1)) with
        | none => m
        | some j => m.insert (H.attData g.1) j) m
      (m'.keys.Nodup ∧ ∀ r j, m'.get? r = some j → Origin H decodes vals p r j) := by
    intro l
    induction l with
    | nil => intro m _ h; exact h
    | cons a l ih =>
      intro m hl h
      simp only [List.map_cons, List.foldl_cons]
      have ha := AMap.get?_of_mem hg.keys (k := a.1) (v := a.2) (hl a List.mem_cons_self)
      have hr : H.attData a.2.data = a.1 := (hg.ok _ _ ha).1
      apply ih _ (fun x hx => hl x (List.mem_cons_of_mem _ hx))
      rw [hr]
      cases hj : resolveJob decodes vals a.2.data a.1 a.2.sigs (proofsFor p.new a.1)
          (proofsFor p.known a.1) with
      | none => exact h
      | some j => exact ins m a.1 j h (.inl ⟨a.2, ha, hj⟩)
  have gen2 : ∀ (l : AMap Root PEntry) (m : AMap Root Job), (∀ x ∈ l, x ∈ p.new.data) →
      (m.keys.Nodup ∧ ∀ r j, m.get? r = some j → Origin H decodes vals p r j) →
      let m' := l.foldl (fun (m : AMap Root Job) e =>
        if m.has e.1 then m
        else if (proofsFor p.new e.1).length + (proofsFor p.known e.1).length < 2 then m
        else match resolveJob decodes vals e.2.data (H.attData e.2.data) []
            (proofsFor p.new e.1) (proofsFor p.known e.1) with
          | none => m
          | some j => m.insert e.1 j) m
      (m'.keys.Nodup ∧ ∀ r j, m'.get? r = some j → Origin H decodes vals p r j) := by
    intro l
    induction l with
    | nil => intro m _ h; exact h
    | cons a l ih =>
      intro m hl h
      simp only [List.foldl_cons]
      have ha := AMap.get?_of_mem hp.keys (k := a.1) (v := a.2) (hl a List.mem_cons_self)
      have hr : H.attData a.2.data = a.1 := (hp.ok _ _ ha).1
      apply ih _ (fun x hx => hl x (List.mem_cons_of_mem _ hx))
      rw [hr]
      split
      · exact h
      split
      · exact h
      · cases hj : resolveJob decodes vals a.2.data a.1 [] (proofsFor p.new a.1)
          (proofsFor p.known a.1) with
        | none => exact h
        | some j => exact ins m a.1 j h (.inr ⟨a.2, ha, hj⟩)
  exact gen2 p.new.data _ (fun x hx => hx)
    (gen1 p.gossip.data [] (fun x hx => hx) ⟨List.nodup_nil, by intro r j h; cases h⟩)

theorem pickJob_mem {hist known : List Root} {n slot : Nat} {p : Projected} {pool : AMap Root Job}
    {x : Root × Job × Score} (h : pickJob hist known n slot p pool = some x) :
    (x.1, x.2.1) ∈ pool ∧ jobScore hist known n p x.2.1 = some x.2.2 := by
  unfold pickJob at h
  have gen : ∀ (l : AMap Root Job) (b : Option (Root × Job × Score)),
      l.foldl (fun best e =>
        match jobScore hist known n p e.2 with
        | none => best
        | some sc =>
          match best with
          | none => some (e.1, e.2, sc)
          | some b => if jobLt slot (e.1, e.2, sc) b then some (e.1, e.2, sc) else best) b
        = some x →
      b = some x ∨ (x.1, x.2.1) ∈ l ∧ jobScore hist known n p x.2.1 = some x.2.2 := by
    intro l
    induction l with
    | nil => intro b h; exact .inl h
    | cons e l ih =>
      intro b h
      rw [List.foldl_cons] at h
      rcases ih _ h with hb | hm
      · cases hj : jobScore hist known n p e.2 with
        | none => rw [hj] at hb; exact .inl hb
        | some sc =>
          rw [hj] at hb
          have new : some (e.1, e.2, sc) = some x → b = some x ∨
              (x.1, x.2.1) ∈ e :: l ∧ jobScore hist known n p x.2.1 = some x.2.2 := by
            intro he; cases he; exact .inr ⟨List.mem_cons_self, hj⟩
          cases b with
          | none => exact new hb
          | some b =>
            simp only at hb
            split at hb
            · exact new hb
            · exact .inl hb
      · exact .inr ⟨List.mem_cons_of_mem _ hm.1, hm.2⟩
  rcases gen pool none h with h | h
  · cases h
  · exact h

/-- The jobs of a session: distinct roots, all candidates, at most the allowed number; no panic. -/
theorem jobRounds_spec {hist known : List Root} {n slot : Nat}
    (hl : hist.length ≤ historicalRootsLimit) : ∀ (k : Nat) (pool : AMap Root Job) (p : Projected),
    pool.keys.Nodup → (∀ r j, pool.get? r = some j → j.root = r) →
    ∃ js, jobRounds hist known n slot k pool p = some js ∧ js.length ≤ k ∧
      (js.map Job.root).Nodup ∧ ∀ j ∈ js, pool.get? j.root = some j
  | 0, _, _, _, _ => ⟨[], rfl, Nat.le_refl _, List.nodup_nil, by simp⟩
  | k + 1, pool, p, hn, hr => by
    unfold jobRounds
    cases hp : pickJob hist known n slot p pool with
    | none => exact ⟨[], rfl, Nat.zero_le _, List.nodup_nil, by simp⟩
    | some x =>
      obtain ⟨r, j, sc⟩ := x
      obtain ⟨hm, hs⟩ := pickJob_mem hp
      have hg := AMap.get?_of_mem hn hm
      have hjr := hr _ _ hg
      have hpass : p.passes j.data known hist = true := by
        unfold jobScore at hs
        split at hs
        · cases hs
        next h => simpa using h
      have hmc := (matchesChain_iff _ _).1 (passes_facts hpass).2.2.1
      have ht := getElem?_lt hmc.2.2.2.2.1
      obtain ⟨p', hp'⟩ := advance_isSome (p := p) (tier := sc.tier) (d := j.data)
        (new := j.coverage) (by omega)
      obtain ⟨js, h1, h2, h3, h4⟩ := jobRounds_spec hl k (pool.erase r) p' (AMap.nodup_erase hn r)
        (fun r' j' h => by
          rw [AMap.get?_erase] at h
          split at h
          · cases h
          · exact hr r' j' h)
      simp only [hp', Option.bind_some]
      refine ⟨j :: js, (congrArg (Option.map (fun js => j :: js)) h1).trans rfl, by simpa using h2, ?_, ?_⟩
      · rw [List.map_cons]
        refine List.nodup_cons.2 ⟨fun hmem => ?_, h3⟩
        obtain ⟨j', hj', he⟩ := List.mem_map.1 hmem
        have := h4 j' hj'
        rw [AMap.get?_erase, if_pos (by rw [he, hjr])] at this
        cases this
      · intro j' hj'
        rcases List.mem_cons.1 hj' with rfl | hj'
        · rw [hjr]; exact hg
        · have := h4 j' hj'
          rw [AMap.get?_erase] at this
          split at this
          · cases this
          · exact this

end Verif.Build
