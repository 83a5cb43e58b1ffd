import Verif.Model.Reaggregate
import Verif.Spec.Reaggregate
import Verif.Props.C80_OwnBlock
import Verif.Lemmas.Aggregation
/-!
# C81: what a node recovers from a block it imports
-/
namespace Verif.Node
open Verif Verif.Db Verif.Buffers Verif.Build

variable {X : Crypto} {H : Hash}

theorem mem_proofsFor {b : PayloadBuffer} {r : Root} {g : Agg} :
    g ∈ proofsFor b r ↔ ∃ e : PEntry, b.data.get? r = some e ∧ g ∈ e.proofs := by
  unfold proofsFor
  cases h : b.data.get? r with
  | none => simp
  | some e => simp

theorem mem_localProofs {s : Store} {r : Root} {g : Agg} :
    g ∈ localProofs s r ↔ Holds s r g := by
  unfold localProofs Holds
  rw [List.mem_append, mem_proofsFor, mem_proofsFor]
  constructor
  · rintro (⟨e, h1, h2⟩ | ⟨e, h1, h2⟩)
    · exact ⟨e, .inl h1, h2⟩
    · exact ⟨e, .inr h1, h2⟩
  · rintro ⟨e, h1 | h1, h2⟩
    · exact .inl ⟨e, h1, h2⟩
    · exact .inr ⟨e, h1, h2⟩

theorem mem_union {s : Store} {r : Root} {v : Nat} :
    v ∈ (localProofs s r).flatMap Agg.ids ↔ Covered s r v := by
  rw [List.mem_flatMap]
  constructor
  · rintro ⟨g, h1, h2⟩
    exact ⟨g, mem_localProofs.1 h1, mem_validatorIndices.1 h2⟩
  · rintro ⟨g, h1, h2⟩
    exact ⟨g, mem_localProofs.2 h1, mem_validatorIndices.2 h2⟩

theorem gains_eq {s : Store} {a : AggAtt} :
    (validatorIndices a.bits).filter
      (fun v => v ∉ (localProofs s (H.attData a.data)).flatMap Agg.ids) = gains H s a := by
  unfold validatorIndices gains
  rw [List.filter_filter]
  apply List.filter_congr
  intro v _
  rw [Bool.eq_iff_iff]
  simp only [Bool.and_eq_true, decide_eq_true_eq, beq_iff_eq, mem_union]
  tauto

theorem candOf_spec {s : Store} {x : AggAtt × Nat} {c : Cand} :
    candOf H s x = some c ↔ Worth H s x.1 ∧
      c = ⟨x.2, x.1, H.attData x.1.data, (gains H s x.1).length,
        localProofs s (H.attData x.1.data)⟩ := by
  unfold candOf Worth
  simp only [gains_eq]
  have hall : ((validatorIndices x.1.bits).all fun v =>
      decide (v ∈ (localProofs s (H.attData x.1.data)).flatMap Agg.ids)) = true ↔
      gains H s x.1 = [] := by
    rw [← gains_eq, List.filter_eq_nil_iff, List.all_eq_true]
    constructor
    · intro h v hv; have := h v hv; simpa using this
    · intro h v hv; have := h v hv; simpa using this
  constructor
  · intro h
    split at h
    · cases h
    next h1 =>
    split at h
    · cases h
    next h2 =>
      cases h
      exact ⟨⟨by omega, fun e => h2 (hall.2 e)⟩, rfl⟩
  · rintro ⟨⟨h1, h2⟩, rfl⟩
    rw [if_neg (by omega), if_neg (fun e => h2 (hall.1 e))]

/-- Candidates before the cut, as a relation to the body. -/
theorem mem_cands {s : Store} {atts : List AggAtt} {c : Cand} :
    c ∈ atts.zipIdx.filterMap (candOf H s) ↔ ∃ i a, atts[i]? = some a ∧ Worth H s a ∧
      c = ⟨i, a, H.attData a.data, (gains H s a).length, localProofs s (H.attData a.data)⟩ := by
  rw [List.mem_filterMap]
  constructor
  · rintro ⟨⟨a, i⟩, h1, h2⟩
    obtain ⟨h3, h4⟩ := candOf_spec.1 h2
    exact ⟨i, a, by simpa using (List.mem_zipIdx_iff_getElem?.1 h1), h3, h4⟩
  · rintro ⟨i, a, h1, h2, h3⟩
    exact ⟨(a, i), List.mem_zipIdx_iff_getElem?.2 (by simpa using h1), candOf_spec.2 ⟨h2, h3⟩⟩

/-- **C81.** Which attestations of a block a node selects: only ones worth recovering, at most four,
none of them twice, those that add most validators first; and if one that is worth recovering is
left out, then four are selected and each of them adds at least as many validators. -/
theorem C81_selection (H : Hash) (s : Store) (body : List AggAtt) :
    let sel := selectCands H s body
    sel.length ≤ 4 ∧ (sel.map Cand.idx).Nodup ∧
    (∀ c ∈ sel, body[c.idx]? = some c.att ∧ Worth H s c.att) ∧
    sel.Pairwise (fun c c' => (gains H s c.att).length ≥ (gains H s c'.att).length) ∧
    ∀ (i : Nat) (a : AggAtt), body[i]? = some a → Worth H s a → i ∉ sel.map Cand.idx →
      sel.length = 4 ∧ ∀ c ∈ sel, (gains H s c.att).length ≥ (gains H s a).length := by
  intro sel
  have hsel : sel = ((body.zipIdx.filterMap (candOf H s)).insertionSort
    (fun a b => a.fresh ≥ b.fresh)).take 4 := rfl
  generalize hL : body.zipIdx.filterMap (candOf H s) = L at hsel
  have hperm := List.perm_insertionSort (fun a b : Cand => a.fresh ≥ b.fresh) L
  have hsort : (L.insertionSort (fun a b : Cand => a.fresh ≥ b.fresh)).Pairwise
      (fun a b : Cand => a.fresh ≥ b.fresh) := by
    haveI : Std.Total (fun a b : Cand => a.fresh ≥ b.fresh) := ⟨fun a b => Nat.le_total _ _⟩
    haveI : IsTrans Cand (fun a b : Cand => a.fresh ≥ b.fresh) :=
      ⟨fun a b c h1 h2 => Nat.le_trans h2 h1⟩
    exact List.pairwise_insertionSort _ L
  generalize L.insertionSort (fun a b : Cand => a.fresh ≥ b.fresh) = S at hsel hperm hsort
  have hS : ∀ c, c ∈ S ↔ ∃ i a, body[i]? = some a ∧ Worth H s a ∧
      c = ⟨i, a, H.attData a.data, (gains H s a).length, localProofs s (H.attData a.data)⟩ := by
    intro c
    rw [hperm.mem_iff, ← hL]
    exact mem_cands
  have hnd : (S.map Cand.idx).Nodup := by
    refine (hperm.map Cand.idx).nodup_iff.2 ?_
    rw [← hL]
    have : ∀ (l : List AggAtt) (n : Nat), ((l.zipIdx n).filterMap (candOf H s)).map Cand.idx =
        ((l.zipIdx n).filter (fun x => (candOf H s x).isSome)).map Prod.snd := by
      intro l
      induction l with
      | nil => intro n; rfl
      | cons a l ih =>
        intro n
        rw [List.zipIdx_cons]
        cases hc : candOf H s (a, n) with
        | none =>
          rw [List.filterMap_cons_none hc, List.filter_cons_of_neg (by simp [hc]), ih]
        | some c =>
          rw [List.filterMap_cons_some hc, List.filter_cons_of_pos (by simp [hc]), List.map_cons,
            List.map_cons, ih, (candOf_spec.1 hc).2]
    rw [this]
    refine List.Nodup.sublist (List.Sublist.map _ List.filter_sublist) ?_
    rw [List.zipIdx_map_snd]
    exact List.nodup_range'
  have hmem : ∀ c ∈ sel, c ∈ S := by
    intro c hc
    rw [hsel] at hc
    exact List.mem_of_mem_take hc
  have hfr : ∀ c ∈ S, c.fresh = (gains H s c.att).length := by
    intro c hc
    obtain ⟨i, a, -, -, rfl⟩ := (hS c).1 hc
    rfl
  refine ⟨?_, ?_, ?_, ?_, ?_⟩
  · rw [hsel, List.length_take]; omega
  · rw [hsel, List.map_take]
    exact hnd.sublist (List.take_sublist _ _)
  · intro c hc
    obtain ⟨i, a, h1, h2, rfl⟩ := (hS c).1 (hmem c hc)
    exact ⟨h1, h2⟩
  · have : sel.Pairwise (fun c c' : Cand => c.fresh ≥ c'.fresh) := by
      rw [hsel]; exact hsort.sublist (List.take_sublist _ _)
    refine this.imp_of_mem ?_
    intro c c' h1 h2 h
    rw [← hfr c (hmem c h1), ← hfr c' (hmem c' h2)]
    exact h
  · intro i a h1 h2 h3
    have hin := (hS ⟨i, a, H.attData a.data, (gains H s a).length,
      localProofs s (H.attData a.data)⟩).2 ⟨i, a, h1, h2, rfl⟩
    rw [← List.take_append_drop 4 S, ← hsel] at hin
    rcases List.mem_append.1 hin with hin | hin
    · exact absurd (List.mem_map.2 ⟨_, hin, rfl⟩) h3
    · constructor
      · rw [hsel, List.length_take]
        have : 0 < (S.drop 4).length := List.length_pos_of_mem hin
        rw [List.length_drop] at this
        omega
      · intro c hc
        rw [← hfr c (hmem c hc)]
        rw [← List.take_append_drop 4 S, ← hsel] at hsort
        exact (List.pairwise_append.1 hsort).2.2 c hc _ hin

theorem componentKeys_iff {vals : List Validator} {as : List AggAtt} {kss : List (List Nat)} :
    componentKeys X vals as = some kss ↔ List.Forall₂ (VoteKeys X vals) as kss := by
  induction as generalizing kss with
  | nil =>
    unfold componentKeys
    constructor
    · intro h; cases h; exact .nil
    · intro h; cases h; rfl
  | cons a as ih =>
    unfold componentKeys
    constructor
    · intro h
      split at h
      · cases h
      next ks hk =>
        split at h
        · cases h
        next l' hl => cases h; exact .cons (attestationKeys_iff.1 hk) (ih.1 hl)
    · intro h
      cases h with
      | cons h1 h2 =>
        have h1 := attestationKeys_iff.2 h1
        unfold validatorIndices
        rw [h1]; simp only; rw [ih.2 h2]

/-- What the block's attestation recovers to. -/
theorem recover_spec {vals : List Validator} {proof : Nat} {kss : List (List Nat)} {s : Store}
    {i : Nat} {a : AggAtt} {n : Nat} {x : AttData × Agg}
    (h : recover X vals proof kss ⟨i, a, H.attData a.data, n, localProofs s (H.attData a.data)⟩ =
      some x) :
    x.1 = a.data ∧ a.data.slot < 2 ^ 32 ∧
    (∀ v : Nat, x.2.participants[v]? = some true ↔
      a.bits[v]? = some true ∨ Covered s (H.attData a.data) v) ∧
    ∃ q, splitByMessage X proof kss (H.attData a.data) = some q ∧
      ((x.2 = ⟨a.bits, q⟩ ∧ ∀ g, ¬ Holds s (H.attData a.data) g) ∨
       ∃ l, mergeInputs X vals (localProofs s (H.attData a.data)) = some l ∧
        aggregateProofs X ((kss.getD i [], q) :: l) (H.attData a.data) a.data.slot =
          some x.2.proof) := by
  unfold recover at h
  simp only at h
  split at h
  · cases h
  next hs =>
  split at h
  · cases h
  next q hq =>
  split at h
  next he =>
    cases h
    have he : ∀ g, ¬ Holds s (H.attData a.data) g := by
      intro g hg
      have := mem_localProofs.2 hg
      rw [List.isEmpty_iff.1 he] at this
      cases this
    refine ⟨rfl, by omega, fun v => ⟨.inl, ?_⟩, q, hq, .inl ⟨rfl, he⟩⟩
    rintro (h | ⟨g, hg, -⟩)
    · exact h
    · exact absurd hg (he g)
  next he =>
    split at h
    · cases h
    next l hl =>
    split at h
    · cases h
    next p hp =>
      cases h
      refine ⟨rfl, by omega, fun v => ?_, q, hq, .inr ⟨l, hl, hp⟩⟩
      rw [bitsFromIndices_get, List.mem_append, mem_validatorIndices, mem_union]

/-- Unfolding a non-empty result. -/
theorem reaggregate_mem {s : Store} {sb : SignedBlock} {x : AttData × Agg}
    (h : x ∈ reaggregate X H s sb) :
    ∃ st s1 kss val k i a, s.getState sb.block.parentRoot = .ok (some st, s1) ∧
      List.Forall₂ (VoteKeys X st.validators) sb.block.body kss ∧
      st.validators[sb.block.proposerIndex]? = some val ∧
      X.decodeKey val.proposalPubkey = some k ∧ sb.block.body[i]? = some a ∧ Worth H s a ∧
      recover X st.validators sb.proof (kss ++ [[k]]) ⟨i, a, H.attData a.data,
        (gains H s a).length, localProofs s (H.attData a.data)⟩ = some x := by
  unfold reaggregate at h
  simp only at h
  split at h
  · cases h
  split at h
  · cases h
  · cases h
  next st s1 hst =>
  split at h
  · cases h
  next kss hk =>
  split at h
  · cases h
  next val hval =>
  split at h
  · cases h
  next k hkey =>
  obtain ⟨c, hc, hr⟩ := List.mem_filterMap.1 h
  unfold selectCands at hc
  have hc := List.mem_of_mem_take hc
  rw [(List.perm_insertionSort _ _).mem_iff] at hc
  obtain ⟨i, a, h1, h2, rfl⟩ := mem_cands.1 hc
  exact ⟨st, s1, kss, val, k, i, a, hst, componentKeys_iff.1 hk, hval, hkey, h1, h2, hr⟩

theorem reaggregate_length (X : Crypto) (H : Hash) (s : Store) (sb : SignedBlock) :
    (reaggregate X H s sb).length ≤ 4 := by
  unfold reaggregate
  simp only
  repeat' split
  all_goals try exact Nat.zero_le _
  refine Nat.le_trans (List.length_filterMap_le _ _) ?_
  exact (C81_selection H s sb.block.body).1

/-- **C81.** A node recovers at most four aggregates from a block. Each is for a vote of the block
whose target is beyond the justified checkpoint; its participants are exactly those of the block's
vote and those the node already held for this vote, and at least one of them is new. -/
theorem C81_recovered (X : Crypto) (H : Hash) (s : Store) (sb : SignedBlock) :
    (reaggregate X H s sb).length ≤ 4 ∧
    ∀ x ∈ reaggregate X H s sb, ∃ a ∈ sb.block.body, a.data = x.1 ∧
      s.mem.db.justified.slot < x.1.target.slot ∧
      (∀ v : Nat, x.2.participants[v]? = some true ↔
        a.bits[v]? = some true ∨ Covered s (H.attData x.1) v) ∧
      ∃ v : Nat, a.bits[v]? = some true ∧ ¬ Covered s (H.attData x.1) v := by
  refine ⟨reaggregate_length X H s sb, fun x hx => ?_⟩
  obtain ⟨st, s1, kss, val, k, i, a, -, -, -, -, h5, ⟨h6, h6'⟩, h7⟩ := reaggregate_mem hx
  obtain ⟨e1, -, e3, -⟩ := recover_spec h7
  refine ⟨a, List.mem_of_getElem? h5, e1.symm, by rw [e1]; exact h6, by rw [e1]; exact e3, ?_⟩
  obtain ⟨v, hv⟩ := List.exists_mem_of_ne_nil _ h6'
  simp only [gains, List.mem_filter, decide_eq_true_eq] at hv
  exact ⟨v, hv.2.1, by rw [e1]; exact hv.2.2⟩

theorem filter_unique {α : Type} [DecidableEq α] {l : List α} {p : α → Bool} {i j : α}
    (h : l.filter p = [i]) (hj : j ∈ l) (hp : p j = true) : j = i := by
  have : j ∈ l.filter p := List.mem_filter.2 ⟨hj, hp⟩
  rw [h] at this
  exact List.mem_singleton.1 this

/-- **C81.** If the proof of the block was verified on the parent state, and the aggregates already
held for its votes are valid, then so is everything recovered. -/
theorem C81_valid (hX : Complete X) {s s1 : Store} {sb : SignedBlock} {st : State}
    (hpar : s.getState sb.block.parentRoot = .ok (some st, s1))
    (hv : verifyBlockSignatures X H st sb = .ok ())
    (hl : ∀ a ∈ sb.block.body, ∀ g, Holds s (H.attData a.data) g →
      ValidAgg X H st.validators a.data g) :
    ∀ x ∈ reaggregate X H s sb, ValidAgg X H st.validators x.1 x.2 := by
  intro x hx
  obtain ⟨st', s2, kss, val, k, i, a, h1, h2, h3, h4, h5, h6, h7⟩ := reaggregate_mem hx
  rw [hpar] at h1
  cases h1
  obtain ⟨e1, hs32, e3, q, hq, e4⟩ := recover_spec h7
  rw [e1]
  obtain ⟨⟨kss', val', k', g1, g2, g3, g4, g5⟩, -, -⟩ := (C78_accepts_iff X H st sb).1 hv
  rw [h3] at g2; cases g2
  rw [h4] at g3; cases g3
  have : kss' = kss := forall2_func (R := VoteKeys X st.validators) (fun _ _ _ => voteKeys_unique) g1 h2
  subst this
  have hi : i < sb.block.body.length := (List.getElem?_eq_some_iff.1 h5).1
  have hlen : kss'.length = sb.block.body.length := g1.length_eq.symm
  obtain ⟨ks, hks, hak⟩ : ∃ ks, kss'[i]? = some ks ∧ VoteKeys X st.validators a ks := by
    refine ⟨kss'[i], List.getElem?_eq_getElem _, ?_⟩
    have := List.Forall₂.get g1 hi (by omega)
    have ha : sb.block.body[i] = a := (List.getElem?_eq_some_iff.1 h5).2
    simp only [List.get_eq_getElem, ha] at this
    exact this
  have hkk : (kss' ++ [[k]])[i]? = some ks := by
    rw [List.getElem?_append_left (by omega)]; exact hks
  have hinfo : (sb.block.body.map (fun a => (H.attData a.data, a.data.slot)) ++
      [(sb.block.root H, sb.block.slot)])[i]? = some (H.attData a.data, a.data.slot) := by
    rw [List.getElem?_append_left (by simpa using hi), List.getElem?_map, h5]; rfl
  have hqv : Valid1 X q ks (H.attData a.data, a.data.slot) := by
    unfold splitByMessage at hq
    rw [g4] at hq
    simp only at hq
    split at hq
    next j hj =>
      have : i = j := by
        refine filter_unique hj ?_ ?_
        · rw [List.mem_range, List.length_append, List.length_map]; omega
        · rw [hinfo]; simp
      subst this
      exact hX.split _ _ _ _ _ _ _ g4 g5 hkk hinfo hq
    · cases hq
  have hag : ValidAgg X H st.validators a.data ⟨a.bits, q⟩ := ⟨ks, hak, hqv⟩
  rcases e4 with ⟨e4, -⟩ | ⟨l, e4, e5⟩
  · rw [e4]; exact hag
  · have hin : mergeProofs X H st.validators a.data
        (⟨a.bits, q⟩ :: localProofs s (H.attData a.data)) = some x.2.proof := by
      unfold mergeProofs mergeInputs
      have := attestationKeys_iff.2 hak
      unfold validatorIndices
      simp only at this ⊢
      rw [this]
      simp only [e4]
      rw [if_pos hs32]
      have hg : (kss' ++ [[k]]).getD i [] = ks := by
        rw [List.getD_eq_getElem?_getD, hkk]; rfl
      rw [hg] at e5
      exact e5
    have := mergeProofs_valid (H := H) hX (d := a.data) (bits := x.2.participants)
      (gs := ⟨a.bits, q⟩ :: localProofs s (H.attData a.data)) ?_ ?_ hin
    · exact this
    · intro g hg
      rcases List.mem_cons.1 hg with rfl | hg
      · exact hag
      · exact hl a (List.mem_of_getElem? h5) g (mem_localProofs.1 hg)
    · intro v
      rw [e3 v]
      constructor
      · rintro (h | ⟨g, hg, hgv⟩)
        · exact ⟨_, List.mem_cons_self, h⟩
        · exact ⟨g, List.mem_cons_of_mem _ (mem_localProofs.2 hg), hgv⟩
      · rintro ⟨g, hg, hgv⟩
        rcases List.mem_cons.1 hg with rfl | hg
        · exact .inl hgv
        · exact .inr ⟨g, mem_localProofs.1 hg, hgv⟩

/-! ## A concrete case -/

namespace Witness
open Verif.Witness

/-- Block 2 with the vote of validator 0. -/
def rBlock : SignedBlock := sgn (mkBlock 2 1 [vote [true] 0 1])

/-- The node knows block 1 and validator 1's vote for it, and imports block 2. -/
def rEvs : List Event :=
  [ .block rBlock, .aggregate (vote [] 0 1).data ⟨[false, true], 1001⟩,
    .block (sgn (mkBlock 1 0 [])), .tick 32000 false ]

/-- Non-vacuity: the node recovers validator 0's vote, merged with the one it holds; the block's proof
verifies on the parent state. -/
example : reaggregate wX wH (after rEvs) rBlock = [((vote [] 0 1).data, ⟨[true, true], 1001⟩)] ∧
    ((after rEvs).getState rBlock.block.parentRoot).toOption.bind (fun x => x.1.map (fun st =>
      accepted (verifyBlockSignatures wX wH st rBlock))) = some true ∧
    (localProofs (after rEvs) 1) = [⟨[false, true], 1001⟩] ∧
    ValidAgg wX wH wVals (vote [] 0 1).data ⟨[false, true], 1001⟩ := by
  refine ⟨by decide +kernel, by decide +kernel, by decide +kernel, [2], ?_, by decide, by decide⟩
  exact attestationKeys_iff.1 (by decide +kernel)

end Witness

end Verif.Node
