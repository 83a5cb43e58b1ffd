import Verif.Lemmas.TrackVote
/-!
# The gossip buffer with groups left over from earlier slots
-/
namespace Verif.Buffers
open Verif

/-- An insertion is one entry put, then evictions. -/
theorem ginsert_mid (H : Hash) (b : GossipBuffer) (d : AttData) (vid sig : Nat) (h : GInv H b) :
    ∃ (mid : GossipBuffer) (d0 : AttData) (sigs0 : BMap Nat),
      b.insert H d vid sig = Fifo.evict GEntry.size mid ∧ GInv H mid ∧
      mid.capacity = b.capacity ∧
      mid.data = b.data.insert (H.attData d) ⟨d0, BMap.insert vid sig sigs0⟩ ∧
      ((b.data.get? (H.attData d) = some ⟨d0, sigs0⟩ ∧ mid.order = b.order) ∨
        (b.data.get? (H.attData d) = none ∧ d0 = d ∧ sigs0 = [] ∧
          mid.order = b.order ++ [H.attData d])) := by
  unfold GossipBuffer.insert
  simp only
  cases hg : b.data.get? (H.attData d) with
  | some entry =>
    have hin : H.attData d ∈ b.order := (h.order _).2 (AMap.mem_keys_iff.2 ⟨_, hg⟩)
    obtain ⟨ok1, ok2, ok3⟩ := h.ok _ _ hg
    have hlen := bmap_length vid sig entry.sigs ok3
    have hinv : GInv H { b with
        data := b.data.insert (H.attData d)
          { entry with sigs := BMap.insert vid sig entry.sigs },
        total := if (AMap.get? entry.sigs vid).isNone then b.total + 1 else b.total } := by
      refine ⟨AMap.nodup_insert h.keys _ _, h.orderNodup, ?_, ?_, ?_⟩
      · intro r
        simp only [AMap.mem_keys_insert]
        rw [h.order]
        constructor
        · exact Or.inr
        · rintro (rfl | h2)
          · exact (h.order _).1 hin
          · exact h2
      · have h1 := sizeSum_insert_old GEntry.size
          { entry with sigs := BMap.insert vid sig entry.sigs } hg
        have htot := h.total
        have e1 : GEntry.size { entry with sigs := BMap.insert vid sig entry.sigs } =
          (BMap.insert vid sig entry.sigs).length := rfl
        have e2 : GEntry.size entry = entry.sigs.length := rfl
        rw [e1, e2] at h1
        simp only
        split at hlen
        · next hn => rw [if_pos hn]; omega
        · next hn => rw [if_neg hn]; omega
      · intro r e he
        simp only [AMap.get?_insert] at he
        split at he
        · next hr =>
          cases he
          subst hr
          refine ⟨ok1, ?_, bmap_sorted _ _ _ ok3⟩
          intro hc
          have := hlen
          simp only at hc
          rw [hc] at this
          have : entry.sigs.length = 0 := by simp at this; omega
          exact ok2 (List.length_eq_zero_iff.1 this)
        · exact h.ok r e he
    exact ⟨_, entry.data, entry.sigs, rfl, hinv, rfl, rfl, .inl ⟨rfl, rfl⟩⟩
  | none =>
    have hin : H.attData d ∉ b.order := by
      rw [h.order]; exact AMap.get?_eq_none_iff.1 hg
    have hinv : GInv H { b with
        data := b.data.insert (H.attData d) ⟨d, BMap.insert vid sig []⟩,
        order := b.order ++ [H.attData d], total := b.total + 1 } := by
      refine ⟨AMap.nodup_insert h.keys _ _, ?_, ?_, ?_, ?_⟩
      · simp only
        rw [List.nodup_append]
        refine ⟨h.orderNodup, by simp, ?_⟩
        intro a ha c hc
        simp only [List.mem_singleton] at hc
        subst hc
        intro he; subst he; exact hin ha
      · intro r
        simp only [AMap.mem_keys_insert, List.mem_append, List.mem_singleton, h.order]
        exact Or.comm
      · have := sizeSum_insert_new GEntry.size ⟨d, BMap.insert vid sig []⟩ hg
        have htot := h.total
        simp only [this]
        change b.total + 1 = sizeSum GEntry.size b.data + 1
        omega
      · intro r e he
        simp only [AMap.get?_insert] at he
        split at he
        · next hr =>
          cases he; subst hr
          exact ⟨rfl, by simp [BMap.insert], by simp [BMap.insert]⟩
        · exact h.ok r e he
    exact ⟨_, d, [], rfl, hinv, rfl, rfl, .inr ⟨rfl, rfl, rfl, rfl⟩⟩

/-- The youngest entry survives an eviction if it fits. -/
theorem evict_last {E : Type} {size : E → Nat} {ok : Root → E → Prop} {b : Fifo E}
    (h : FInv size ok b) {pre : List Root} {r : Root} {e : E} (ho : b.order = pre ++ [r])
    (hg : b.data.get? r = some e) (hc : size e ≤ b.capacity) :
    ∃ b', Fifo.evict size b = some b' ∧ FInv size ok b' ∧ b'.total ≤ b'.capacity ∧
      b'.capacity = b.capacity ∧ (∃ pre', b'.order = pre' ++ [r]) ∧ b'.data.get? r = some e ∧
      ∀ x y, b'.data.get? x = some y → b.data.get? x = some y := by
  obtain ⟨b', h1, h2, h3, h4, ⟨gone, h5, -, h5'⟩, h6⟩ := evict_spec size ok b h
  have hlast : ∃ pre', b'.order = pre' ++ [r] := by
    rcases List.eq_nil_or_concat b'.order with h0 | ⟨l, x, hx⟩
    · exfalso
      rw [h0, List.append_nil, ho] at h5
      obtain ⟨e', he', hlt⟩ := h5' pre r h5.symm
      rw [hg] at he'
      cases he'
      have hd : b'.data = [] := by
        cases hdd : b'.data with
        | nil => rfl
        | cons x m =>
          have := (h2.order x.1).2 (by rw [hdd]; simp [AMap.keys])
          rw [h0] at this
          cases this
      have := (h2.empty hd).2
      omega
    · rw [hx, ho] at h5
      simp only [List.concat_eq_append] at h5
      rw [← List.append_assoc] at h5
      have := List.append_inj_right' h5 rfl
      refine ⟨l, ?_⟩
      rw [hx, this]
      simp
  obtain ⟨pre', hp⟩ := hlast
  refine ⟨b', h1, h2, h3, h4, ⟨pre', hp⟩, ?_, ?_⟩
  · rw [h6 r (by rw [hp]; simp)]
    exact hg
  · intro x y hy
    rw [← h6 x ((h2.order x).2 (AMap.mem_keys_iff.2 ⟨_, hy⟩))]
    exact hy

/-- Deleting all signatures of a group leaves the others. -/
theorem delete_one {H : Hash} {b : GossipBuffer} (h : GInv H b) {r : Root} {e : GEntry}
    (hg : b.data.get? r = some e) :
    ∃ b', b.delete (e.sigs.map (fun x => (x.1, r))) = some b' ∧ GInv H b' ∧ b'.total ≤ b.total ∧
      b'.capacity = b.capacity ∧ b'.data.get? r = none ∧
      ∀ x y, b'.data.get? x = some y → ∃ z, b.data.get? x = some z ∧ z.data = y.data := by
  obtain ⟨b', h1, h2, h3, h4, -, h6, h7⟩ := delete_spec H b (e.sigs.map (fun x => (x.1, r))) h
  refine ⟨b', h1, h2, h3, h4, ?_, h7⟩
  cases hx : b'.data.get? r with
  | none => rfl
  | some e' =>
    exfalso
    obtain ⟨-, hne, -⟩ := h2.ok _ _ hx
    obtain ⟨y, hy⟩ := List.exists_mem_of_ne_nil _ hne
    obtain ⟨z, hz⟩ := AMap.mem_keys_iff.1 (List.mem_map_of_mem (f := Prod.fst) hy)
    have := h6 r y.1
    unfold sigOf at this
    rw [hx, Option.bind_some, hz] at this
    split at this
    · cases this
    next hnot =>
      rw [hg, Option.bind_some] at this
      apply hnot
      rw [List.mem_map]
      exact ⟨_, AMap.mem_of_get? this.symm, rfl⟩

end Verif.Buffers

namespace Verif.Node
open Verif Verif.Db Verif.Sync Verif.Buffers Verif.Build

/-- The groups in the gossip buffer are for votes in `S`. -/
def OldOnly (S : AttData → Prop) (b : GossipBuffer) : Prop :=
  ∀ r e, b.data.get? r = some e → S e.data

/-- The gossip buffer has valid signatures of exactly these validators for this vote, in its youngest
group; other groups are for votes in `S`. -/
def Gathered (X : Crypto) (H : Hash) (vals : List Validator) (S : AttData → Prop) (d : AttData)
    (vs : List Nat) (b : GossipBuffer) : Prop :=
  (∀ r e, b.data.get? r = some e → r ≠ H.attData d → S e.data) ∧
  ((vs = [] ∧ b.data.get? (H.attData d) = none) ∨
    vs ≠ [] ∧ ∃ (sigs : BMap Nat) (pre : List Root), b.data.get? (H.attData d) = some ⟨d, sigs⟩ ∧
      b.order = pre ++ [H.attData d] ∧
      (∀ v, v ∈ sigs.map Prod.fst ↔ v ∈ vs) ∧ ∀ x ∈ sigs, ValidSig X H vals x.1 d x.2)

theorem Gathered.insert {X : Crypto} {H : Hash} {vals : List Validator} {S : AttData → Prop}
    {d : AttData} {vs : List Nat} {b : GossipBuffer} (h : GInv H b)
    (hc : Gathered X H vals S d vs b) {v sig : Nat} (hsig : ValidSig X H vals v d sig)
    (hcap : vals.length ≤ b.capacity) :
    ∃ b', b.insert H d v sig = some b' ∧ GInv H b' ∧ b'.total ≤ b'.capacity ∧
      b'.capacity = b.capacity ∧ Gathered X H vals S d (vs ++ [v]) b' := by
  obtain ⟨mid, d0, sigs0, m1, m2, m3, m4, m5⟩ := ginsert_mid H b d v sig h
  obtain ⟨hold, hnew⟩ := hc
  -- the new entry
  have hent : d0 = d ∧ (∀ w, w ∈ sigs0.map Prod.fst ↔ w ∈ vs) ∧
      (∀ x ∈ sigs0, ValidSig X H vals x.1 d x.2) ∧ (sigs0.map Prod.fst).Pairwise (· < ·) ∧
      ∃ pre, mid.order = pre ++ [H.attData d] := by
    rcases m5 with ⟨g1, g2⟩ | ⟨g1, rfl, rfl, g2⟩
    · rcases hnew with ⟨-, h2⟩ | ⟨-, sigs, pre, h2, h3, h4, h5⟩
      · rw [g1] at h2; cases h2
      · rw [g1] at h2
        cases h2
        exact ⟨rfl, h4, h5, (h.ok _ _ g1).2.2, pre, by rw [g2, h3]⟩
    · rcases hnew with ⟨rfl, -⟩ | ⟨-, sigs, pre, h2, -⟩
      · exact ⟨rfl, by simp, by simp, by simp, _, g2⟩
      · rw [g1] at h2; cases h2
  obtain ⟨rfl, e1, e2, e3, pre, e4⟩ := hent
  have hlt : ∀ {w sg}, ValidSig X H vals w d0 sg → w < vals.length := by
    rintro w sg ⟨val, -, -, z, -⟩
    exact (List.getElem?_eq_some_iff.1 z).1
  have hlen : (BMap.insert v sig sigs0).length ≤ vals.length := by
    rw [← List.length_map (f := Prod.fst), ← List.length_range (n := vals.length)]
    refine (List.subperm_of_subset ?_ ?_).length_le
    · exact (bmap_sorted _ _ _ e3).imp (fun h => Nat.ne_of_lt h)
    · intro w hw
      rw [bmap_keys] at hw
      rcases hw with rfl | hw
      · exact List.mem_range.2 (hlt hsig)
      · obtain ⟨x, hx, rfl⟩ := List.mem_map.1 hw
        exact List.mem_range.2 (hlt (e2 x hx))
  have hget : mid.data.get? (H.attData d0) = some ⟨d0, BMap.insert v sig sigs0⟩ := by
    rw [m4, AMap.get?_insert_self]
  obtain ⟨b', k1, k2, k3, k4, ⟨pre', k5⟩, k6, k7⟩ := evict_last m2 e4 hget
    (by rw [m3]; exact Nat.le_trans hlen hcap)
  refine ⟨b', m1.trans k1, k2, k3, k4.trans m3, ?_, .inr ⟨by simp, _, pre', k6, k5, ?_, ?_⟩⟩
  · intro r e hr hne
    have := k7 r e hr
    rw [m4, AMap.get?_insert, if_neg (fun h => hne h.symm)] at this
    exact hold r e this hne
  · intro w
    rw [bmap_keys, e1, List.mem_append, List.mem_singleton]
    exact Or.comm
  · intro x hx
    rcases mem_bmap_insert hx with rfl | hx
    · exact hsig
    · exact e2 x hx

end Verif.Node
