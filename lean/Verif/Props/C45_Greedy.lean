import Verif.Model.Greedy
import Verif.Lemmas.Bits
/-!
# C45: greedy proof selection covers everything it can without redundant picks
-/
namespace Verif.Build
open Verif Verif.Buffers

/-- Validator `v` is a participant of proof `p`. -/
def In (v : Nat) (p : Agg) : Prop := p.participants[v]? = some true

instance (v : Nat) (p : Agg) : Decidable (In v p) := inferInstanceAs (Decidable (_ = _))

/-- How many participants of `p` are neither in `seed` nor in any proof of `sel`. -/
def gain (seed : List Nat) (sel : List Agg) (p : Agg) : Nat :=
  ((List.range p.participants.length).filter
    (fun v => In v p ∧ v ∉ seed ∧ ∀ q ∈ sel, ¬ In v q)).length

/-! ## Helper lemmas -/

theorem mem_ids {v : Nat} {p : Agg} : v ∈ Agg.ids p ↔ In v p := mem_validatorIndices

theorem maxByKey_none {α : Type} {key : α → Nat} {l : List α} (h : maxByKey key l = none) :
    l = [] := by
  cases l with
  | nil => rfl
  | cons => cases h

theorem foldl_max {α : Type} {key : α → Nat} : ∀ (l : List α) (a : α),
    let m := l.foldl (fun best x => if key x ≥ key best then x else best) a
    (m = a ∨ m ∈ l) ∧ key a ≤ key m ∧ ∀ x ∈ l, key x ≤ key m
  | [], a => ⟨.inl rfl, Nat.le_refl _, fun x hx => by cases hx⟩
  | b :: l, a => by
    have ih := foldl_max (key := key) l (if key b ≥ key a then b else a)
    simp only [List.foldl_cons] at ih ⊢
    by_cases hb : key b ≥ key a
    · rw [if_pos hb] at ih ⊢
      obtain ⟨h1, h2, h3⟩ := ih
      refine ⟨.inr ?_, Nat.le_trans hb h2, fun x hx => ?_⟩
      · rcases h1 with h1 | h1
        · rw [h1]; exact List.mem_cons_self
        · exact List.mem_cons_of_mem _ h1
      · rcases List.mem_cons.1 hx with rfl | hx
        · exact h2
        · exact h3 x hx
    · rw [if_neg hb] at ih ⊢
      obtain ⟨h1, h2, h3⟩ := ih
      refine ⟨h1.imp id (List.mem_cons_of_mem _), h2, fun x hx => ?_⟩
      rcases List.mem_cons.1 hx with rfl | hx
      · omega
      · exact h3 x hx

theorem maxByKey_some {α : Type} {key : α → Nat} {l : List α} {i : α}
    (h : maxByKey key l = some i) : i ∈ l ∧ ∀ j ∈ l, key j ≤ key i := by
  cases l with
  | nil => cases h
  | cons a l =>
    cases h
    obtain ⟨h1, h2, h3⟩ := foldl_max (key := key) l a
    refine ⟨?_, fun j hj => ?_⟩
    · rcases h1 with h1 | h1
      · exact List.mem_cons.2 (.inl h1)
      · exact List.mem_cons_of_mem _ h1
    · rcases List.mem_cons.1 hj with rfl | hj
      · exact h2
      · exact h3 j hj

theorem length_filter_congr {l : List Nat} {p q : Nat → Bool} (h : ∀ x ∈ l, p x = q x) :
    (l.filter p).length = (l.filter q).length := by rw [List.filter_congr h]

/-- The number of new participants, stated independently of the running `covered` list. -/
theorem newIds_length {seed covered : List Nat} {sel : List Agg} {p : Agg}
    (h : ∀ v, v ∈ covered ↔ v ∈ seed ∨ ∃ q ∈ sel, In v q) :
    (newIds covered p).length = gain seed sel p := by
  unfold newIds gain Agg.ids validatorIndices
  rw [List.filter_filter]
  apply length_filter_congr
  intro v _
  have := h v
  have hin : (p.participants[v]? == some true) = decide (In v p) := by
    rw [Bool.eq_iff_iff, beq_iff_eq, decide_eq_true_iff]; rfl
  rw [hin, Bool.eq_iff_iff]
  simp only [Bool.and_eq_true, decide_eq_true_eq, this]
  constructor
  · rintro ⟨a, b⟩
    exact ⟨b, fun hs => a (.inl hs), fun q hq hv => a (.inr ⟨q, hq, hv⟩)⟩
  · rintro ⟨a, b, c⟩
    exact ⟨fun hh => hh.elim b (fun ⟨q, hq, hv⟩ => c q hq hv), a⟩

theorem gain_eq_zero {seed : List Nat} {sel : List Agg} {p : Agg} :
    gain seed sel p = 0 ↔ ∀ v, In v p → v ∈ seed ∨ ∃ q ∈ sel, In v q := by
  unfold gain
  rw [List.length_eq_zero_iff, List.filter_eq_nil_iff]
  constructor
  · intro h v hv
    have hl : v < p.participants.length := by
      by_contra hc
      unfold In at hv
      rw [List.getElem?_eq_none (by omega)] at hv; cases hv
    have := h v (List.mem_range.2 hl)
    simp only [decide_eq_true_eq] at this
    by_contra hc
    exact this ⟨hv, fun hs => hc (.inl hs), fun q hq hi => hc (.inr ⟨q, hq, hi⟩)⟩
  · intro h v _ hd
    simp only [decide_eq_true_eq] at hd
    obtain ⟨h1, h2, h3⟩ := hd
    rcases h v h1 with h | ⟨q, hq, hi⟩
    · exact h2 h
    · exact h3 q hq hi

theorem mem_newIds {covered : List Nat} {p : Agg} {v : Nat} :
    v ∈ newIds covered p ↔ In v p ∧ v ∉ covered := by
  unfold newIds; rw [List.mem_filter, mem_ids, decide_eq_true_eq]

/-- What one pass of a greedy loop does: it appends `out` to `sel`, each time a proof of `pool` of
maximal positive gain. -/
structure Greedy (seed : List Nat) (pool : List Agg) (sel out : List Agg) : Prop where
  from_pool : ∀ p ∈ out, p ∈ pool
  best : ∀ i (hi : i < out.length), 0 < gain seed (sel ++ out.take i) out[i] ∧
    ∀ p ∈ pool, gain seed (sel ++ out.take i) p ≤ gain seed (sel ++ out.take i) out[i]

theorem Greedy.nil {seed : List Nat} {pool sel : List Agg} : Greedy seed pool sel [] :=
  ⟨fun p hp => (by cases hp), fun i hi => absurd hi (Nat.not_lt_zero _)⟩

theorem Greedy.cons {seed : List Nat} {pool sel out : List Agg} {p : Agg} (hp : p ∈ pool)
    (h0 : 0 < gain seed sel p) (hb : ∀ q ∈ pool, gain seed sel q ≤ gain seed sel p)
    (h : Greedy seed pool (sel ++ [p]) out) : Greedy seed pool sel (p :: out) := by
  refine ⟨fun q hq => ?_, fun i hi => ?_⟩
  · rcases List.mem_cons.1 hq with rfl | hq
    · exact hp
    · exact h.from_pool q hq
  · cases i with
    | zero => simpa using ⟨h0, hb⟩
    | succ i =>
      have := h.best i (by simpa using hi)
      simpa using this

/-! ## The block builder -/

theorem greedyLoop_spec {proofs : List Agg} {ord : List Nat → List Nat}
    (ho : ∀ l, (ord l).Perm l) : ∀ (fuel : Nat) (remaining covered : List Nat) (sel : List Agg),
    remaining.length ≤ fuel → remaining.Nodup → (∀ i ∈ remaining, i < proofs.length) →
    (∀ i (hi : i < proofs.length), i ∉ remaining → proofs[i] ∈ sel) →
    (∀ v, v ∈ covered ↔ ∃ q ∈ sel, In v q) →
    let idx := greedyLoop proofs ord fuel remaining covered
    let out := idx.map (fun i => proofs[i]?.getD ⟨[], 0⟩)
    idx.Nodup ∧ (∀ i ∈ idx, i ∈ remaining) ∧ Greedy [] proofs sel out ∧
    ∀ p ∈ proofs, ∀ v, In v p → ∃ q ∈ sel ++ out, In v q
  | 0, remaining, covered, sel, hf, hn, hr, hd, hc => by
    have : remaining = [] := List.length_eq_zero_iff.1 (by omega)
    subst this
    refine ⟨.nil, (fun i hi => by cases hi), .nil, fun p hp v hv => ?_⟩
    obtain ⟨i, hi, rfl⟩ := List.getElem_of_mem hp
    exact ⟨_, List.mem_append_left _ (hd i hi (by simp)), hv⟩
  | fuel + 1, remaining, covered, sel, hf, hn, hr, hd, hc => by
    have hg : ∀ p, (newIds covered p).length = gain [] sel p := fun p =>
      newIds_length (by simpa using hc)
    have zero_done : ∀ i (hi : i < proofs.length), i ∉ remaining →
        gain [] sel proofs[i] = 0 := fun i hi hni =>
      gain_eq_zero.2 fun v hv => .inr ⟨_, hd i hi hni, hv⟩
    unfold greedyLoop
    simp only
    cases hm : maxByKey (fun i => (newIds covered (proofs[i]?.getD ⟨[], 0⟩)).length)
        (ord remaining) with
    | none =>
      have : remaining = [] := by
        have := maxByKey_none hm
        have hp := ho remaining
        rw [this] at hp
        exact hp.nil_eq.symm
      subst this
      refine ⟨.nil, (fun i hi => by cases hi), .nil, fun p hp v hv => ?_⟩
      obtain ⟨i, hi, rfl⟩ := List.getElem_of_mem hp
      exact ⟨_, List.mem_append_left _ (hd i hi (by simp)), hv⟩
    | some i =>
      obtain ⟨hi, hmax⟩ := maxByKey_some hm
      have hir : i ∈ remaining := (ho remaining).mem_iff.1 hi
      have hil := hr i hir
      have hpi : proofs[i]?.getD ⟨[], 0⟩ = proofs[i] := by simp [hil]
      simp only [hpi]
      rw [hg]
      have hall : ∀ p ∈ proofs, gain [] sel p ≤ gain [] sel proofs[i] := by
        intro p hp
        obtain ⟨j, hj, rfl⟩ := List.getElem_of_mem hp
        by_cases hjr : j ∈ remaining
        · have := hmax j ((ho remaining).mem_iff.2 hjr)
          simp only [hpi] at this
          rw [hg, hg] at this
          simpa [hj] using this
        · rw [zero_done j hj hjr]; exact Nat.zero_le _
      by_cases h0 : gain [] sel proofs[i] = 0
      · rw [if_pos h0]
        refine ⟨.nil, (fun i hi => by cases hi), .nil, fun p hp v hv => ?_⟩
        have : gain [] sel p = 0 := by have := hall p hp; omega
        rcases gain_eq_zero.1 this v hv with h | ⟨q, hq, hv⟩
        · cases h
        · exact ⟨q, by simpa using hq, hv⟩
      · rw [if_neg h0]
        have ih := greedyLoop_spec ho fuel (remaining.filter (fun j => j ≠ i))
          (covered ++ newIds covered proofs[i]) (sel ++ [proofs[i]])
          (by
            have : (remaining.filter (fun j => j ≠ i)).length < remaining.length :=
              List.length_filter_lt_length_iff_exists.2 ⟨i, hir, by simp⟩
            omega)
          (hn.filter _) (fun j hj => hr j (List.mem_filter.1 hj).1)
          (fun j hj hnj => by
            by_cases hji : j = i
            · subst hji; simp
            · refine List.mem_append_left _ (hd j hj fun hjr => hnj (List.mem_filter.2 ⟨hjr, ?_⟩))
              simpa using hji)
          (fun v => by
            rw [List.mem_append, mem_newIds, hc]
            constructor
            · rintro (⟨q, hq, hv⟩ | ⟨hv, -⟩)
              · exact ⟨q, List.mem_append_left _ hq, hv⟩
              · exact ⟨_, List.mem_append_right _ (List.mem_singleton.2 rfl), hv⟩
            · rintro ⟨q, hq, hv⟩
              by_cases hcv : ∃ q ∈ sel, In v q
              · exact .inl hcv
              · rcases List.mem_append.1 hq with hq | hq
                · exact absurd ⟨q, hq, hv⟩ hcv
                · rw [List.mem_singleton.1 hq] at hv; exact .inr ⟨hv, hcv⟩)
        simp only at ih
        obtain ⟨i1, i2, i3, i4⟩ := ih
        refine ⟨List.nodup_cons.2 ⟨fun hmem => ?_, i1⟩, fun j hj => ?_, ?_, fun p hp v hv => ?_⟩
        · have := (List.mem_filter.1 (i2 i hmem)).2
          simp at this
        · rcases List.mem_cons.1 hj with rfl | hj
          · exact hir
          · exact (List.mem_filter.1 (i2 j hj)).1
        · rw [List.map_cons, hpi]
          exact .cons (List.getElem_mem hil) (Nat.pos_of_ne_zero h0) hall i3
        · obtain ⟨q, hq, hv⟩ := i4 p hp v hv
          refine ⟨q, ?_, hv⟩
          rw [List.map_cons, hpi]
          simpa using hq

/-- **C45 (block builder).** For any list of proofs and any enumeration order of the hash set: the
selected proofs sit at distinct positions of the list; every participant of any proof is covered by
a selected one (so it stops only when nothing can be added); and each pick has the largest number of
participants not covered before among all proofs, which is at least one. -/
theorem C45_builder (proofs : List Agg) (ord : List Nat → List Nat) (ho : ∀ l, (ord l).Perm l) :
    let sel := extendGreedily proofs ord
    (∃ idx : List Nat, idx.Nodup ∧ (∀ i ∈ idx, i < proofs.length) ∧
      sel.map some = idx.map (fun i => proofs[i]?)) ∧
    (∀ v, (∃ p ∈ proofs, In v p) ↔ ∃ q ∈ sel, In v q) ∧
    ∀ i (hi : i < sel.length), 0 < gain [] (sel.take i) sel[i] ∧
      ∀ p ∈ proofs, gain [] (sel.take i) p ≤ gain [] (sel.take i) sel[i] := by
  obtain ⟨h1, h2, h3, h4⟩ := greedyLoop_spec ho proofs.length (List.range proofs.length) [] []
    (by simp) List.nodup_range (fun i hi => List.mem_range.1 hi)
    (fun i hi hni => absurd (List.mem_range.2 hi) hni) (by simp)
  refine ⟨⟨_, h1, fun i hi => List.mem_range.1 (h2 i hi), ?_⟩, fun v => ⟨?_, ?_⟩, ?_⟩
  · unfold extendGreedily
    rw [List.map_map]
    apply List.map_congr_left
    intro i hi
    have := List.mem_range.1 (h2 i hi)
    simp [this]
  · rintro ⟨p, hp, hv⟩
    obtain ⟨q, hq, hv⟩ := h4 p hp v hv
    exact ⟨q, by rw [List.nil_append] at hq; exact hq, hv⟩
  · rintro ⟨q, hq, hv⟩
    exact ⟨q, h3.from_pool q hq, hv⟩
  · have := h3.best
    simp only [List.nil_append] at this
    exact this

/-! ## The aggregator -/

theorem swapRemove_mem {α : Type} {l : List α} {i : Nat} {x : α} (h : x ∈ swapRemove l i) :
    x ∈ l := by
  unfold swapRemove at h
  cases hl : l.getLast? with
  | none => rw [hl] at h; exact h
  | some y =>
    rw [hl] at h
    rcases List.mem_or_eq_of_mem_set ((List.dropLast_sublist _).subset h) with h | rfl
    · exact h
    · exact List.mem_of_getLast? hl

theorem swapRemove_length {α : Type} {l : List α} {i : Nat} (h : l ≠ []) :
    (swapRemove l i).length + 1 = l.length := by
  unfold swapRemove
  cases hl : l.getLast? with
  | none => exact absurd (List.getLast?_eq_none_iff.1 hl) h
  | some y =>
    simp only [List.length_dropLast, List.length_set]
    have := List.length_pos_iff.2 h
    omega

/-- Everything but the removed element stays. -/
theorem mem_swapRemove {α : Type} {l : List α} {i : Nat} (hi : i < l.length) {x : α}
    (hx : x ∈ l) : x = l[i] ∨ x ∈ swapRemove l i := by
  unfold swapRemove
  cases hl : l.getLast? with
  | none => exact .inr hx
  | some y =>
    obtain ⟨j, hj, rfl⟩ := List.getElem_of_mem hx
    by_cases hji : j = i
    · subst hji; exact .inl rfl
    right
    have hlen := List.length_pos_of_mem hx
    have hy : y = l[l.length - 1] := by
      rw [List.getLast?_eq_getElem?, List.getElem?_eq_getElem (by omega)] at hl
      exact (Option.some.inj hl).symm
    simp only
    by_cases hjl : j = l.length - 1
    · have : (l.set i y).dropLast[i]? = some l[j] := by
        rw [List.getElem?_dropLast, List.length_set, if_pos (by omega),
          List.getElem?_set_self (by omega), hy]
        simp only [hjl]
      exact List.mem_of_getElem? this
    · have : (l.set i y).dropLast[j]? = some l[j] := by
        rw [List.getElem?_dropLast, List.length_set, if_pos (by omega),
          List.getElem?_set_ne (Ne.symm hji), List.getElem?_eq_getElem hj]
      exact List.mem_of_getElem? this

theorem selectLoop_spec {seed : List Nat} {pool : List Agg} : ∀ (fuel : Nat)
    (remaining sel : List Agg) (covered : List Nat), remaining.length ≤ fuel →
    (∀ p ∈ remaining, p ∈ pool) →
    (∀ p ∈ pool, p ∈ remaining ∨ p ∈ sel) →
    (∀ v, v ∈ covered ↔ v ∈ seed ∨ ∃ q ∈ sel, In v q) →
    sel.length ≤ maxChildren →
    let r := selectLoop fuel remaining sel covered
    ∃ out, r.1 = sel ++ out ∧ r.1.length ≤ maxChildren ∧ Greedy seed pool sel out ∧
      (∀ v, v ∈ r.2 ↔ v ∈ seed ∨ ∃ q ∈ r.1, In v q) ∧
      (r.1.length < maxChildren → ∀ p ∈ pool, ∀ v, In v p → v ∈ r.2)
  | 0, remaining, sel, covered, hf, hr, hd, hc, hl => by
    have : remaining = [] := List.length_eq_zero_iff.1 (by omega)
    subst this
    refine ⟨[], by simp [selectLoop], hl, .nil, hc, fun _ p hp v hv => ?_⟩
    rcases hd p hp with h | h
    · cases h
    · exact (hc v).2 (.inr ⟨p, h, hv⟩)
  | fuel + 1, remaining, sel, covered, hf, hr, hd, hc, hl => by
    have hg : ∀ p, (newIds covered p).length = gain seed sel p := fun p => newIds_length hc
    unfold selectLoop
    by_cases hlt : sel.length < maxChildren
    · rw [if_pos hlt]
      cases hm : maxByKey (fun i => (newIds covered (remaining[i]?.getD ⟨[], 0⟩)).length)
          (List.range remaining.length) with
      | none =>
        have : remaining = [] := by
          have := maxByKey_none hm
          simpa using this
        subst this
        refine ⟨[], by simp, hl, .nil, hc, fun _ p hp v hv => ?_⟩
        rcases hd p hp with h | h
        · cases h
        · exact (hc v).2 (.inr ⟨p, h, hv⟩)
      | some i =>
        obtain ⟨hi, hmax⟩ := maxByKey_some hm
        have hil := List.mem_range.1 hi
        have hpi : remaining[i]?.getD ⟨[], 0⟩ = remaining[i] := by simp [hil]
        simp only [hpi] at hmax ⊢
        have hall : ∀ p ∈ pool, gain seed sel p ≤ gain seed sel remaining[i] := by
          intro p hp
          rcases hd p hp with h | h
          · obtain ⟨j, hj, rfl⟩ := List.getElem_of_mem h
            have := hmax j (List.mem_range.2 hj)
            rw [hg, hg] at this
            simpa [hj] using this
          · rw [gain_eq_zero.2 (fun v hv => .inr ⟨p, h, hv⟩)]; exact Nat.zero_le _
        by_cases h0 : (newIds covered remaining[i]).isEmpty = true
        · rw [if_pos h0]
          have h0 : gain seed sel remaining[i] = 0 := by
            rw [← hg, List.length_eq_zero_iff]; exact List.isEmpty_iff.1 h0
          refine ⟨[], by simp, hl, .nil, hc, fun _ p hp v hv => (hc v).2 ?_⟩
          exact gain_eq_zero.1 (by have := hall p hp; omega) v hv
        · rw [if_neg h0]
          have h0 : 0 < gain seed sel remaining[i] := by
            rw [← hg]
            exact List.length_pos_iff.2 (fun h => h0 (by rw [h]; rfl))
          have hne : remaining ≠ [] := by intro h; rw [h] at hil; cases hil
          have ih := selectLoop_spec (seed := seed) (pool := pool) fuel (swapRemove remaining i)
            (sel ++ [remaining[i]]) (covered ++ newIds covered remaining[i])
            (by have := swapRemove_length (i := i) hne; omega)
            (fun p hp => hr p (swapRemove_mem hp))
            (fun p hp => by
              rcases hd p hp with h | h
              · rcases mem_swapRemove hil h with h | h
                · exact .inr (by simp [h])
                · exact .inl h
              · exact .inr (List.mem_append_left _ h))
            (fun v => by
              rw [List.mem_append, mem_newIds, hc]
              constructor
              · rintro ((h | ⟨q, hq, hv⟩) | ⟨hv, -⟩)
                · exact .inl h
                · exact .inr ⟨q, List.mem_append_left _ hq, hv⟩
                · exact .inr ⟨_, List.mem_append_right _ (List.mem_singleton.2 rfl), hv⟩
              · intro h
                by_cases hcv : v ∈ seed ∨ ∃ q ∈ sel, In v q
                · exact .inl hcv
                · rcases h with h | ⟨q, hq, hv⟩
                  · exact absurd (.inl h) hcv
                  · rcases List.mem_append.1 hq with hq | hq
                    · exact absurd (.inr ⟨q, hq, hv⟩) hcv
                    · rw [List.mem_singleton.1 hq] at hv; exact .inr ⟨hv, hcv⟩)
            (by rw [List.length_append]; exact hlt)
          simp only at ih
          obtain ⟨out, o1, o2, o3, o4, o5⟩ := ih
          exact ⟨remaining[i] :: out, by rw [o1]; simp, o2,
            .cons (hr _ (List.getElem_mem hil)) h0 hall o3, o4, o5⟩
    · rw [if_neg hlt]
      exact ⟨[], by simp, hl, .nil, hc, fun h => absurd h hlt⟩

/-- **C45 (aggregator).** The selection consists of new proofs followed by known proofs, at most two
in all. Each pick has the largest gain (over the seed and the earlier picks) in its set, and gains
at least one participant. The returned coverage is the seed plus the participants of the picks. If
fewer than two were picked, or a known proof was picked, then the new proofs have nothing to add;
if fewer than two were picked, nothing at all is left to add. -/
theorem C45_aggregator (new known : List Agg) (seed : List Nat) :
    let r := selectGreedily new known seed
    ∃ fromNew fromKnown : List Agg, r.1 = fromNew ++ fromKnown ∧ r.1.length ≤ 2 ∧
    (∀ p ∈ fromNew, p ∈ new) ∧ (∀ p ∈ fromKnown, p ∈ known) ∧
    (∀ i (hi : i < fromNew.length), 0 < gain seed (fromNew.take i) fromNew[i] ∧
      ∀ p ∈ new, gain seed (fromNew.take i) p ≤ gain seed (fromNew.take i) fromNew[i]) ∧
    (∀ i (hi : i < fromKnown.length),
      0 < gain seed (fromNew ++ fromKnown.take i) fromKnown[i] ∧
      ∀ p ∈ known, gain seed (fromNew ++ fromKnown.take i) p
        ≤ gain seed (fromNew ++ fromKnown.take i) fromKnown[i]) ∧
    (∀ v, v ∈ r.2 ↔ v ∈ seed ∨ ∃ q ∈ r.1, In v q) ∧
    (fromNew.length < 2 → ∀ p ∈ new, ∀ v, In v p → v ∈ seed ∨ ∃ q ∈ fromNew, In v q) ∧
    (r.1.length < 2 → ∀ p ∈ new ++ known, ∀ v, In v p → v ∈ r.2) := by
  obtain ⟨o1, a1, a2, a3, a4, a5⟩ := selectLoop_spec (seed := seed) (pool := new) new.length new []
    seed (Nat.le_refl _) (fun p hp => hp) (fun p hp => .inl hp) (by simp) (by decide)
  rw [List.nil_append] at a1
  have a3b := a3.best
  simp only [List.nil_append] at a3b
  unfold selectGreedily
  simp only
  have hnew : o1.length < 2 → ∀ p ∈ new, ∀ v, In v p → v ∈ seed ∨ ∃ q ∈ o1, In v q := by
    intro h p hp v hv
    have := (a4 v).1 (a5 (by rw [a1]; exact h) p hp v hv)
    rwa [a1] at this
  by_cases hl : (selectLoop new.length new [] seed).1.length ≥ maxChildren
  · rw [if_pos hl]
    refine ⟨o1, [], by simp [a1], a2, a3.from_pool, (fun p hp => by cases hp), a3b,
      (fun i hi => absurd hi (Nat.not_lt_zero _)), a4, hnew, fun h => ?_⟩
    have h : _ < maxChildren := h
    omega
  · rw [if_neg hl]
    obtain ⟨o2, b1, b2, b3, b4, b5⟩ := selectLoop_spec (seed := seed) (pool := known) known.length
      known (selectLoop new.length new [] seed).1 (selectLoop new.length new [] seed).2
      (Nat.le_refl _) (fun p hp => hp) (fun p hp => .inl hp) a4 a2
    rw [a1] at b3
    refine ⟨o1, o2, by rw [b1, a1], b2, a3.from_pool, b3.from_pool, a3b, b3.best, b4, hnew,
      fun h p hp v hv => ?_⟩
    rcases List.mem_append.1 hp with hp | hp
    · refine (b4 v).2 ?_
      have := hnew (by rw [← a1]; exact Nat.lt_of_not_le hl) p hp v hv
      rcases this with h | ⟨q, hq, hv⟩
      · exact .inl h
      · exact .inr ⟨q, by rw [b1, a1]; exact List.mem_append_left _ hq, hv⟩
    · exact b5 h p hp v hv

/-! ## Concrete cases -/

/-- Overlapping proofs: the first pick covers three validators, the second adds one; the third adds
nothing and is left out. -/
example : (extendGreedily [⟨[true, true], 1⟩, ⟨[true, false, true, true], 2⟩, ⟨[false, false, true], 3⟩]
    (fun l => l.reverse)).map Agg.proof = [2, 1] := by decide +kernel

/-- One new proof adds to the seed, then one known proof; the cap of two is reached. -/
example : (selectGreedily [⟨[true, true], 1⟩, ⟨[true], 2⟩]
    [⟨[false, true, true], 3⟩, ⟨[false, false, true, true], 4⟩, ⟨[false, false, false, false, true], 5⟩]
    [0]).1.map Agg.proof = [1, 4] := by decide +kernel

end Verif.Build
