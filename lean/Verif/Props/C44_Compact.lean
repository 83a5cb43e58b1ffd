import Verif.Model.BlockBuilder
import Verif.Props.C45_Greedy
import Verif.Lemmas.AMap
/-!
# C44: compacting block attestations keeps exactly the selected participants
-/
namespace Verif.Build
open Verif Verif.Buffers

/-- `out` has one entry per distinct data of `es`, in the order in which the data first appear. -/
structure OnePerData (es out : List Entry) : Prop where
  same : ∀ d, d ∈ out.map (·.1.data) ↔ d ∈ es.map (·.1.data)
  order : (out.map (·.1.data)).Pairwise
    (fun a b => (es.map (·.1.data)).idxOf a < (es.map (·.1.data)).idxOf b)

/-- Bit `v` of an entry's attestation. -/
def Votes (e : Entry) (v : Nat) : Prop := e.1.bits[v]? = some true

theorem OnePerData.nodup {es out : List Entry} (h : OnePerData es out) :
    (out.map (·.1.data)).Nodup := h.order.imp (fun hlt he => by rw [he] at hlt; omega)

/-! ## Helper lemmas -/

theorem mem_dataOrder (es : List Entry) (d : AttData) :
    d ∈ dataOrder es ↔ d ∈ es.map (·.1.data) := by
  induction es with
  | nil => simp [dataOrder]
  | cons e es ih =>
    simp only [dataOrder, List.map_cons, List.mem_cons, List.mem_filter, ih, decide_eq_true_eq]
    by_cases h : d = e.1.data <;> simp [h]

theorem dataOrder_pairwise (es : List Entry) : (dataOrder es).Pairwise
    (fun a b => (es.map (·.1.data)).idxOf a < (es.map (·.1.data)).idxOf b) := by
  induction es with
  | nil => exact .nil
  | cons e es ih =>
    simp only [dataOrder, List.map_cons]
    refine List.pairwise_cons.2 ⟨fun b hb => ?_, ?_⟩
    · have hne : b ≠ e.1.data := by simpa using (List.mem_filter.1 hb).2
      rw [List.idxOf_cons_self, List.idxOf_cons_ne _ (Ne.symm hne)]
      omega
    · refine (List.Pairwise.and_mem.1 (ih.filter _)).imp ?_
      rintro a b ⟨ha, hb, h⟩
      have ha : a ≠ e.1.data := by simpa using (List.mem_filter.1 ha).2
      have hb : b ≠ e.1.data := by simpa using (List.mem_filter.1 hb).2
      rw [List.idxOf_cons_ne _ (Ne.symm ha), List.idxOf_cons_ne _ (Ne.symm hb)]
      omega

theorem dataOrder_length_le (es : List Entry) : (dataOrder es).length ≤ es.length := by
  induction es with
  | nil => exact Nat.le_refl _
  | cons e es ih =>
    simp only [dataOrder, List.length_cons]
    have := List.length_filter_le (fun d => decide (d ≠ e.1.data)) (dataOrder es)
    omega

theorem dataOrder_eq_of_length (es : List Entry) (h : (dataOrder es).length = es.length) :
    dataOrder es = es.map (·.1.data) := by
  induction es with
  | nil => rfl
  | cons e es ih =>
    simp only [dataOrder, List.length_cons] at h
    have h1 := List.length_filter_le (fun d => decide (d ≠ e.1.data)) (dataOrder es)
    have h2 := dataOrder_length_le es
    have h3 : (dataOrder es).length = es.length := by omega
    have h4 : (dataOrder es).filter (fun d => decide (d ≠ e.1.data)) = dataOrder es :=
      List.filter_sublist.eq_of_length (by omega)
    simp only [dataOrder, List.map_cons]
    rw [h4, ih h3]

theorem onePerData_of_order {es out : List Entry} (h : out.map (·.1.data) = dataOrder es) :
    OnePerData es out := by
  refine ⟨fun d => ?_, ?_⟩
  · rw [h]; exact mem_dataOrder es d
  · rw [h]; exact dataOrder_pairwise es

theorem mem_group {es : List Entry} {d : AttData} {e : Entry} :
    e ∈ group es d ↔ e ∈ es ∧ e.1.data = d := by
  unfold group; rw [List.mem_filter, decide_eq_true_eq]

theorem unionBits_get (a b : Bits) (v : Nat) :
    (unionBits a b)[v]? = some true ↔ a[v]? = some true ∨ b[v]? = some true := by
  unfold unionBits
  rw [List.getElem?_map]
  by_cases h : v < max a.length b.length
  · rw [List.getElem?_range h]
    cases ha : a[v]? <;> cases hb : b[v]? <;> simp [ha, hb]
  · rw [List.getElem?_eq_none (by simpa using h), List.getElem?_eq_none (by omega),
      List.getElem?_eq_none (by omega)]
    simp

theorem foldl_union_get (l : List Entry) (b : Bits) (v : Nat) :
    (l.foldl (fun acc x => unionBits acc x.1.bits) b)[v]? = some true ↔
      b[v]? = some true ∨ ∃ e ∈ l, Votes e v := by
  induction l generalizing b with
  | nil => simp
  | cons e l ih =>
    rw [List.foldl_cons, ih, unionBits_get]
    simp only [List.mem_cons, exists_eq_or_imp, or_assoc]
    rfl

theorem collect_spec {α β : Type} {f : α → Option β} : ∀ {l : List α} {out : List β},
    collect f l = some out → List.Forall₂ (fun a b => f a = some b) l out
  | [], out, h => by cases h; exact .nil
  | a :: l, out, h => by
    unfold collect at h
    cases hf : f a with
    | none => rw [hf] at h; cases h
    | some b =>
      rw [hf] at h
      cases hc : collect f l with
      | none => rw [hc] at h; cases h
      | some bs => rw [hc] at h; cases h; exact .cons hf (collect_spec hc)

theorem compactGroup_spec {merge : AttData → List Agg → Option Nat} {es : List Entry}
    (hes : ∀ e ∈ es, e.1.bits = e.2.participants) {d : AttData} {x : Entry}
    (h : compactGroup merge es d = some x) :
    x.1.data = d ∧ x.1.bits = x.2.participants ∧
    (∀ v, Votes x v ↔ ∃ e ∈ es, e.1.data = d ∧ Votes e v) ∧
    ((∃ e, group es d = [e] ∧ x = e) ∨
      merge d ((group es d).map Prod.snd) = some x.2.proof) := by
  have hm : ∀ v, (∃ e ∈ es, e.1.data = d ∧ Votes e v) ↔ ∃ e ∈ group es d, Votes e v := by
    intro v
    simp only [mem_group, and_assoc]
  unfold compactGroup at h
  split at h
  · cases h
  next e hg =>
    cases h
    have he := mem_group.1 (hg ▸ List.mem_singleton.2 rfl : x ∈ group es d)
    refine ⟨he.2, hes _ he.1, fun v => ?_, .inl ⟨_, hg, rfl⟩⟩
    rw [hm, hg]; simp
  next e rest _ hg =>
    simp only at h
    cases hme : merge d ((e :: rest).map Prod.snd) with
    | none => rw [hme] at h; cases h
    | some pr =>
      rw [hme] at h
      cases h
      refine ⟨rfl, rfl, fun v => ?_, .inr (by rw [hg, hme])⟩
      rw [hm, hg]
      unfold Votes
      simp only [foldl_union_get, List.mem_cons, exists_eq_or_imp]
      rfl

/-- **C44 (aggregating proposer).** When compaction succeeds, the result has one entry per distinct
data, in first-appearance order; the set bits of each entry are exactly the bits set in some input
entry of that data, and its proof claims the same participants. -/
theorem C44_compact {merge : AttData → List Agg → Option Nat} {es out : List Entry}
    (hes : ∀ e ∈ es, e.1.bits = e.2.participants) (h : compact merge es = some out) :
    OnePerData es out ∧ ∀ x ∈ out, x.1.bits = x.2.participants ∧
      ∀ v, Votes x v ↔ ∃ e ∈ es, e.1.data = x.1.data ∧ Votes e v := by
  unfold compact at h
  by_cases hl : (dataOrder es).length = es.length
  · rw [if_pos hl] at h
    cases h
    have hd := dataOrder_eq_of_length es hl
    have hop := onePerData_of_order hd.symm
    refine ⟨hop, fun x hx => ⟨hes x hx, fun v => ⟨fun hv => ⟨x, hx, rfl, hv⟩, ?_⟩⟩⟩
    rintro ⟨e, he, hd, hv⟩
    have := List.inj_on_of_nodup_map hop.nodup he hx hd
    exact this ▸ hv
  · rw [if_neg hl] at h
    have hf := collect_spec h
    have hdat : out.map (·.1.data) = dataOrder es := by
      clear h
      generalize dataOrder es = l at hf
      induction hf with
      | nil => rfl
      | cons hx _ ih => rw [List.map_cons, ih, (compactGroup_spec hes hx).1]
    refine ⟨onePerData_of_order hdat, fun x hx => ?_⟩
    obtain ⟨d, hd⟩ : ∃ d, compactGroup merge es d = some x := by
      clear h hdat
      generalize dataOrder es = l at hf
      induction hf with
      | nil => cases hx
      | cons h' _ ih =>
        rcases List.mem_cons.1 hx with rfl | hx
        · exact ⟨_, h'⟩
        · exact ih hx
    obtain ⟨h1, h2, h3, -⟩ := compactGroup_spec hes hd
    exact ⟨h2, by rw [h1]; exact h3⟩

/-- **C44.** Compaction fails only if merging the proofs of some data with several entries fails; in
particular never when all data are distinct. -/
theorem C44_compact_fails_only_if {merge : AttData → List Agg → Option Nat} {es : List Entry}
    (h : compact merge es = none) :
    ∃ d, 2 ≤ (group es d).length ∧ merge d ((group es d).map Prod.snd) = none := by
  unfold compact at h
  by_cases hl : (dataOrder es).length = es.length
  · rw [if_pos hl] at h; cases h
  rw [if_neg hl] at h
  have : ∃ d ∈ dataOrder es, compactGroup merge es d = none := by
    generalize dataOrder es = l at h
    induction l with
    | nil => cases h
    | cons d l ih =>
      unfold collect at h
      cases hd : compactGroup merge es d with
      | none => exact ⟨d, List.mem_cons_self, hd⟩
      | some b =>
        rw [hd] at h
        cases hc : collect (compactGroup merge es) l with
        | none =>
          obtain ⟨d', h1, h2⟩ := ih hc
          exact ⟨d', List.mem_cons_of_mem _ h1, h2⟩
        | some => rw [hc] at h; cases h
  obtain ⟨d, hd, hn⟩ := this
  refine ⟨d, ?_⟩
  unfold compactGroup at hn
  split at hn
  next hg =>
    obtain ⟨e, he, rfl⟩ := List.mem_map.1 ((mem_dataOrder es d).1 hd)
    have := mem_group.2 ⟨he, rfl⟩
    rw [hg] at this; cases this
  · cases hn
  next e rest hne hg =>
    simp only [Option.map_eq_none_iff] at hn
    rw [hg]
    refine ⟨?_, hn⟩
    cases rest with
    | nil => exact (hne rfl).elim
    | cons => simp

/-! ## Without proposer aggregation -/

theorem bestOf_spec (seen : List Nat) (es : List Entry) {x : Entry} (h : bestOf seen es = some x) :
    ∃ i, es[i]? = some x ∧
      (∀ (j : Nat) (y : Entry), es[j]? = some y → (newIds seen y.2).length ≤ (newIds seen x.2).length ∧
        ((newIds seen y.2).length = (newIds seen x.2).length →
          y.1.bits.count true ≤ x.1.bits.count true ∧
          (y.1.bits.count true = x.1.bits.count true → i ≤ j))) := by
  cases es with
  | nil => cases h
  | cons e es =>
    have h : es.foldl (fun best x =>
      if (newIds seen x.2).length > (newIds seen best.2).length ∨
        (newIds seen x.2).length = (newIds seen best.2).length ∧
          x.1.bits.count true > best.1.bits.count true then x else best) e = x := Option.some.inj h
    -- generalise over the processed prefix
    suffices H : ∀ (l pre : List Entry) (b : Entry) (i : Nat),
        pre[i]? = some b →
        (∀ (j : Nat) (y : Entry), pre[j]? = some y → (newIds seen y.2).length ≤ (newIds seen b.2).length ∧
          ((newIds seen y.2).length = (newIds seen b.2).length →
            y.1.bits.count true ≤ b.1.bits.count true ∧
            (y.1.bits.count true = b.1.bits.count true → i ≤ j))) →
        l.foldl (fun best x =>
          if (newIds seen x.2).length > (newIds seen best.2).length ∨
            (newIds seen x.2).length = (newIds seen best.2).length ∧
              x.1.bits.count true > best.1.bits.count true then x else best) b = x →
        ∃ i, (pre ++ l)[i]? = some x ∧
          (∀ (j : Nat) (y : Entry), (pre ++ l)[j]? = some y →
            (newIds seen y.2).length ≤ (newIds seen x.2).length ∧
            ((newIds seen y.2).length = (newIds seen x.2).length →
              y.1.bits.count true ≤ x.1.bits.count true ∧
              (y.1.bits.count true = x.1.bits.count true → i ≤ j))) by
      refine H es [e] e 0 rfl (fun j y hy => ?_) h
      cases j with
      | zero => cases hy; exact ⟨Nat.le_refl _, fun _ => ⟨Nat.le_refl _, fun _ => Nat.le_refl _⟩⟩
      | succ j => simp at hy
    intro l
    induction l with
    | nil =>
      intro pre b i hi hb hx
      have hx : b = x := hx
      subst hx
      rw [List.append_nil]
      exact ⟨i, hi, hb⟩
    | cons c l ih =>
      intro pre b i hi hb hx
      rw [List.foldl_cons] at hx
      have key : ∀ (b' : Entry) (i' : Nat), (pre ++ [c])[i']? = some b' →
          (∀ (j : Nat) (y : Entry), (pre ++ [c])[j]? = some y →
            (newIds seen y.2).length ≤ (newIds seen b'.2).length ∧
            ((newIds seen y.2).length = (newIds seen b'.2).length →
              y.1.bits.count true ≤ b'.1.bits.count true ∧
              (y.1.bits.count true = b'.1.bits.count true → i' ≤ j))) →
          l.foldl (fun best x =>
            if (newIds seen x.2).length > (newIds seen best.2).length ∨
              (newIds seen x.2).length = (newIds seen best.2).length ∧
                x.1.bits.count true > best.1.bits.count true then x else best) b' = x → _ :=
        fun b' i' h1 h2 h3 => by
          have := ih (pre ++ [c]) b' i' h1 h2 h3
          rw [List.append_assoc] at this
          exact this
      have hil : i < pre.length := by
        by_contra hc
        rw [List.getElem?_eq_none (by omega)] at hi; cases hi
      have split : ∀ (j : Nat) (y : Entry), (pre ++ [c])[j]? = some y →
          pre[j]? = some y ∨ (j = pre.length ∧ y = c) := by
        intro j y hy
        by_cases hj : j < pre.length
        · rw [List.getElem?_append_left hj] at hy; exact .inl hy
        · rw [List.getElem?_append_right (by omega)] at hy
          by_cases hj' : j = pre.length
          · subst hj'
            simp only [Nat.sub_self, List.getElem?_cons_zero, Option.some.injEq] at hy
            exact .inr ⟨rfl, hy.symm⟩
          · rw [List.getElem?_eq_none (by simp; omega)] at hy; cases hy
      by_cases hc : (newIds seen c.2).length > (newIds seen b.2).length ∨
          (newIds seen c.2).length = (newIds seen b.2).length ∧
            c.1.bits.count true > b.1.bits.count true
      · rw [if_pos hc] at hx
        refine key c pre.length (by simp) (fun j y hy => ?_) hx
        rcases split j y hy with hy | ⟨rfl, rfl⟩
        · obtain ⟨h1, h2⟩ := hb j y hy
          refine ⟨by omega, fun he => ?_⟩
          have := h2 (by omega)
          omega
        · exact ⟨Nat.le_refl _, fun _ => ⟨Nat.le_refl _, fun _ => Nat.le_refl _⟩⟩
      · rw [if_neg hc] at hx
        refine key b i (by rw [List.getElem?_append_left hil]; exact hi) (fun j y hy => ?_) hx
        rcases split j y hy with hy | ⟨rfl, rfl⟩
        · exact hb j y hy
        · omega

/-- The participants already counted for target root `r`: those in the state's votes plus those of
the entries chosen so far. -/
def Counted (votes : AMap Root (List Nat)) (chosen : List Entry) (r : Root) (v : Nat) : Prop :=
  v ∈ (votes.get? r).getD [] ∨ ∃ e ∈ chosen, e.1.data.target.root = r ∧ In v e.2

/-- The number of participants of an entry not counted yet. -/
noncomputable def fresh (votes : AMap Root (List Nat)) (chosen : List Entry) (e : Entry) : Nat :=
  open Classical in
  ((List.range e.2.participants.length).filter
    (fun v => In v e.2 ∧ ¬ Counted votes chosen e.1.data.target.root v)).length

theorem newIds_fresh {votes : AMap Root (List Nat)} {chosen : List Entry} {seen : List Nat}
    {e : Entry} (h : ∀ v, v ∈ seen ↔ Counted votes chosen e.1.data.target.root v) :
    (newIds seen e.2).length = fresh votes chosen e := by
  unfold newIds fresh Agg.ids validatorIndices
  rw [List.filter_filter]
  apply length_filter_congr
  intro v _
  have hin : (e.2.participants[v]? == some true) = decide (In v e.2) := by
    rw [Bool.eq_iff_iff, beq_iff_eq, decide_eq_true_iff]; rfl
  rw [hin, Bool.eq_iff_iff]
  simp only [Bool.and_eq_true, decide_eq_true_eq, h v]
  exact and_comm

theorem keepLoop_spec {votes : AMap Root (List Nat)} {es : List Entry} :
    ∀ (ds : List AttData) (claimed : AMap Root (List Nat)) (pre : List Entry),
    (∀ d ∈ ds, d ∈ es.map (·.1.data)) →
    (∀ r v, v ∈ (claimed.get? r).getD [] ↔
      ∃ e ∈ pre, e.1.data.target.root = r ∧ In v e.2) →
    let out := keepLoop votes es ds claimed
    out.map (·.1.data) = ds ∧
    ∀ k (hk : k < out.length), ∃ i, (group es out[k].1.data)[i]? = some out[k] ∧
      ∀ (j : Nat) (y : Entry), (group es out[k].1.data)[j]? = some y →
        fresh votes (pre ++ out.take k) y ≤ fresh votes (pre ++ out.take k) out[k] ∧
        (fresh votes (pre ++ out.take k) y = fresh votes (pre ++ out.take k) out[k] →
          y.1.bits.count true ≤ out[k].1.bits.count true ∧
          (y.1.bits.count true = out[k].1.bits.count true → i ≤ j))
  | [], _, pre, _, _ => ⟨rfl, fun k hk => absurd hk (Nat.not_lt_zero _)⟩
  | d :: ds, claimed, pre, hds, hcl => by
    obtain ⟨e0, he0, hd0⟩ := List.mem_map.1 (hds d List.mem_cons_self)
    have hmem : e0 ∈ group es d := mem_group.2 ⟨he0, hd0⟩
    cases hb : bestOf ((votes.get? d.target.root).getD [] ++
        (claimed.get? d.target.root).getD []) (group es d) with
    | none =>
      exfalso
      cases hg : group es d with
      | nil => rw [hg] at hmem; cases hmem
      | cons => rw [hg] at hb; cases hb
    | some x =>
      have hout : keepLoop votes es (d :: ds) claimed = x :: keepLoop votes es ds
          (claimed.insert d.target.root ((claimed.get? d.target.root).getD [] ++ Agg.ids x.2)) := by
        rw [keepLoop]; simp only [hb]
      rw [hout]
      obtain ⟨i, hi, hbest⟩ := bestOf_spec _ _ hb
      have hxd := (mem_group.1 (List.mem_of_getElem? hi)).2
      have hseen : ∀ y ∈ group es d, ∀ v, v ∈ (votes.get? d.target.root).getD [] ++
          (claimed.get? d.target.root).getD [] ↔ Counted votes pre y.1.data.target.root v := by
        intro y hy v
        rw [(mem_group.1 hy).2, List.mem_append, hcl]
        rfl
      have ih := keepLoop_spec (votes := votes) (es := es) ds
        (claimed.insert d.target.root ((claimed.get? d.target.root).getD [] ++ Agg.ids x.2))
        (pre ++ [x]) (fun d' hd' => hds d' (List.mem_cons_of_mem _ hd')) (by
          intro r v
          by_cases hr : r = d.target.root
          · subst hr
            rw [AMap.get?_insert_self, Option.getD_some, List.mem_append, hcl, mem_ids]
            constructor
            · rintro (⟨e, he, h⟩ | h)
              · exact ⟨e, List.mem_append_left _ he, h⟩
              · exact ⟨x, List.mem_append_right _ (List.mem_singleton.2 rfl), by rw [hxd], h⟩
            · rintro ⟨e, he, h1, h2⟩
              rcases List.mem_append.1 he with he | he
              · exact .inl ⟨e, he, h1, h2⟩
              · rw [List.mem_singleton.1 he] at h2; exact .inr h2
          · rw [AMap.get?_insert, if_neg (Ne.symm hr), hcl]
            constructor
            · rintro ⟨e, he, h⟩
              exact ⟨e, List.mem_append_left _ he, h⟩
            · rintro ⟨e, he, h1, h2⟩
              rcases List.mem_append.1 he with he | he
              · exact ⟨e, he, h1, h2⟩
              · rw [List.mem_singleton.1 he, hxd] at h1
                exact absurd h1.symm hr)
      obtain ⟨ih1, ih2⟩ := ih
      refine ⟨by rw [List.map_cons, ih1, hxd], fun k hk => ?_⟩
      cases k with
      | zero =>
        simp only [List.getElem_cons_zero, List.take_zero, List.append_nil]
        refine ⟨i, by rw [hxd]; exact hi, fun j y hy => ?_⟩
        rw [hxd] at hy
        have := hbest j y hy
        rwa [newIds_fresh (hseen y (List.mem_of_getElem? hy)),
          newIds_fresh (hseen x (List.mem_of_getElem? hi))] at this
      | succ k =>
        have := ih2 k (by simpa using hk)
        simpa using this

/-- **C44 (non-aggregating proposer).** Every surviving entry is one of the selected entries; there
is one per distinct data, in first-appearance order; and within its data it is the entry adding the
most participants not yet counted for its target (by the state or by earlier survivors), ties going
to the larger bit count and then to the earliest. -/
theorem C44_keep_best (s : State) (es : List Entry) :
    let out := keepBest (runningVotes s) es
    OnePerData es out ∧ (∀ x ∈ out, x ∈ es) ∧
    ∀ k (hk : k < out.length), ∃ i, (group es out[k].1.data)[i]? = some out[k] ∧
      ∀ (j : Nat) (y : Entry), (group es out[k].1.data)[j]? = some y →
        fresh (runningVotes s) (out.take k) y ≤ fresh (runningVotes s) (out.take k) out[k] ∧
        (fresh (runningVotes s) (out.take k) y = fresh (runningVotes s) (out.take k) out[k] →
          y.1.bits.count true ≤ out[k].1.bits.count true ∧
          (y.1.bits.count true = out[k].1.bits.count true → i ≤ j)) := by
  unfold keepBest
  by_cases hl : (dataOrder es).length = es.length
  · simp only [if_pos hl]
    have hop := onePerData_of_order (dataOrder_eq_of_length es hl).symm
    refine ⟨hop, fun x hx => hx, fun k hk => ⟨0, ?_, fun j y hy => ?_⟩⟩
    all_goals
      have hg : ∀ y ∈ group es es[k].1.data, y = es[k] := fun y hy => by
        obtain ⟨h1, h2⟩ := mem_group.1 hy
        exact List.inj_on_of_nodup_map hop.nodup h1 (List.getElem_mem hk) h2
    · have hmem : es[k] ∈ group es es[k].1.data := mem_group.2 ⟨List.getElem_mem hk, rfl⟩
      cases hgr : group es es[k].1.data with
      | nil => rw [hgr] at hmem; cases hmem
      | cons a l =>
        rw [List.getElem?_cons_zero, hg a (hgr ▸ List.mem_cons_self)]
    · rw [hg y (List.mem_of_getElem? hy)]
      exact ⟨Nat.le_refl _, fun _ => ⟨Nat.le_refl _, fun _ => Nat.zero_le _⟩⟩
  · simp only [if_neg hl]
    obtain ⟨h1, h2⟩ := keepLoop_spec (votes := runningVotes s) (es := es) (dataOrder es) [] []
      (fun d hd => (mem_dataOrder es d).1 hd) (by simp [AMap.get?])
    simp only [List.nil_append] at h1 h2
    refine ⟨onePerData_of_order h1, fun x hx => ?_, h2⟩
    obtain ⟨k, hk, rfl⟩ := List.getElem_of_mem hx
    obtain ⟨i, hi, -⟩ := h2 k hk
    exact (mem_group.1 (List.mem_of_getElem? hi)).1

/-! ## Concrete cases -/

/-- Two proofs for one data and one for another, interleaved. -/
def exEntries : List Entry :=
  let d1 : AttData := ⟨3, ⟨7, 2⟩, ⟨7, 2⟩, ⟨5, 1⟩⟩
  let d2 : AttData := ⟨4, ⟨7, 2⟩, ⟨7, 2⟩, ⟨5, 1⟩⟩
  [(⟨[true, true], d1⟩, ⟨[true, true], 10⟩), (⟨[true], d2⟩, ⟨[true], 11⟩),
   (⟨[false, true, true], d1⟩, ⟨[false, true, true], 12⟩)]

example : (compact (fun _ ps => some ps.length) exEntries).map
    (fun out => out.map (fun e => (e.1.data.slot, e.1.bits, e.2.proof)))
    = some [(3, [true, true, true], 2), (4, [true], 11)] := by decide +kernel

example : (keepBest [] exEntries).map (fun e => (e.1.data.slot, e.2.proof)) = [(3, 10), (4, 11)] ∧
    (keepBest [(7, [0])] exEntries).map (fun e => (e.1.data.slot, e.2.proof)) = [(3, 12), (4, 11)]
    := by decide +kernel

end Verif.Build
