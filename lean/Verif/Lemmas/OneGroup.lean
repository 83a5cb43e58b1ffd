import Verif.Props.C20_C21_Payloads
import Verif.Lemmas.Gossip
/-!
# Buffers with at most one entry
-/
namespace Verif.Buffers
open Verif

variable {E : Type} {size : E → Nat} {ok : Root → E → Prop}

theorem FInv.empty {b : Fifo E} (h : FInv size ok b) (hd : b.data = []) :
    b.order = [] ∧ b.total = 0 := by
  refine ⟨?_, by rw [h.total, hd]; rfl⟩
  rw [List.eq_nil_iff_forall_not_mem]
  intro r hr
  have := (h.order r).1 hr
  rw [hd] at this
  cases this

theorem FInv.single {b : Fifo E} (h : FInv size ok b) {r : Root} {e : E} (hd : b.data = [(r, e)]) :
    b.order = [r] ∧ b.total = size e := by
  have hm : ∀ x, x ∈ b.order ↔ x = r := by
    intro x
    rw [h.order, hd]
    simp [AMap.keys]
  refine ⟨?_, by rw [h.total, hd]; simp [sizeSum]⟩
  have hn := h.orderNodup
  cases ho : b.order with
  | nil => rw [ho] at hm; exact absurd ((hm r).2 rfl) List.not_mem_nil
  | cons a l =>
    rw [ho] at hm hn
    have ha := (hm a).1 List.mem_cons_self
    cases l with
    | nil => rw [ha]
    | cons a' l =>
      have ha' := (hm a').1 (by simp)
      rw [ha, ha'] at hn
      simp at hn

section
variable {H : Hash}

/-- A new vote pushed into a buffer is there afterwards. -/
theorem push_fresh {cap : Nat} {b : PayloadBuffer} (h : Good H cap b) (hc : 0 < cap) {d : AttData}
    (a : Agg) (hg : b.data.get? (H.attData d) = none) :
    ∃ b', b.push H d a = some b' ∧ Good H cap b' ∧
      b'.data.get? (H.attData d) = some ⟨d, [a]⟩ := by
  have hin : H.attData d ∉ b.order := by
    rw [h.inv.order]; exact AMap.get?_eq_none_iff.1 hg
  have hinv : PInv H { b with
      data := b.data.insert (H.attData d) ⟨d, [a]⟩,
      order := b.order ++ [H.attData d], total := b.total + 1 } := by
    refine ⟨AMap.nodup_insert h.inv.keys _ _, ?_, ?_, ?_, ?_⟩
    · simp only
      rw [List.nodup_append]
      refine ⟨h.inv.orderNodup, by simp, ?_⟩
      intro x hx c hc
      simp only [List.mem_singleton] at hc
      subst hc
      intro he; subst he; exact hin hx
    · intro r
      simp only [AMap.mem_keys_insert, List.mem_append, List.mem_singleton, h.inv.order]
      exact Or.comm
    · have := sizeSum_insert_new PEntry.size ⟨d, [a]⟩ hg
      have htot := h.inv.total
      simp only [this, PEntry.size, List.length_singleton]
      change _ = sizeSum PEntry.size b.data + 1
      omega
    · intro r e he
      simp only [AMap.get?_insert] at he
      split at he
      · next hr =>
        cases he; subst hr
        exact ⟨rfl, by simp, List.pairwise_singleton _ _⟩
      · exact h.inv.ok r e he
  obtain ⟨b', h1, h2, h3, h4, ⟨gone, h5, -, h5'⟩, h6⟩ := evict_spec PEntry.size (POk H) _ hinv
  refine ⟨b', ?_, ⟨h2, h3, h4.trans h.cap⟩, ?_⟩
  · unfold PayloadBuffer.push
    simp only [hg]
    exact h1
  · have hmem : H.attData d ∈ b'.order := by
      rcases List.eq_nil_or_concat b'.order with h0 | ⟨l, x, hx⟩
      · rw [h0, List.append_nil] at h5
        obtain ⟨e, he, hlt⟩ := h5' b.order (H.attData d) h5.symm
        simp only [AMap.get?_insert_self] at he
        cases he
        have hd : b'.data = [] := by
          cases hdd : b'.data with
          | nil => rfl
          | cons x m =>
            have := (h2.order x.1).2 (by rw [hdd]; simp [AMap.keys])
            rw [h0] at this
            cases this
        have := (h2.empty hd).2
        have hcap := h.cap
        simp only [PEntry.size, List.length_singleton] at hlt
        omega
      · rw [hx] at h5
        simp only [List.concat_eq_append] at h5
        rw [← List.append_assoc] at h5
        have := List.append_inj_right' h5 rfl
        rw [hx]
        simp only [List.concat_eq_append, List.mem_append]
        right
        rw [← this]
        exact List.mem_cons_self
    rw [h6 _ hmem]
    exact AMap.get?_insert_self _ _ _

/-- The same for an empty buffer. -/
theorem push_empty {cap : Nat} {b : PayloadBuffer} (h : Good H cap b) (hc : 0 < cap) (d : AttData)
    (a : Agg) (hg : b.data = []) :
    ∃ b', b.push H d a = some b' ∧ Good H cap b' ∧ b'.data = [(H.attData d, ⟨d, [a]⟩)] := by
  obtain ⟨b', h1, h2⟩ := good_push h d a
  refine ⟨b', h1, h2, ?_⟩
  unfold PayloadBuffer.push at h1
  simp only [hg, AMap.get?_nil] at h1
  have hcap := h.cap
  rw [evict_id _ _ (by simp only [(h.inv.empty hg).2]; omega)] at h1
  cases h1
  rfl

theorem drain_empty {cap : Nat} {b : PayloadBuffer} (h : Good H cap b) (hg : b.data = []) :
    b.drain.1 = [] ∧ b.drain.2.data = [] := by
  unfold PayloadBuffer.drain
  rw [(h.inv.empty hg).1, hg]
  exact ⟨rfl, rfl⟩

theorem drain_single {cap : Nat} {b : PayloadBuffer} (h : Good H cap b) {r : Root} {d : AttData}
    {a : Agg} (hg : b.data = [(r, ⟨d, [a]⟩)]) :
    b.drain.1 = [(d, a)] ∧ b.drain.2.data = [] := by
  unfold PayloadBuffer.drain
  rw [(h.inv.single hg).1, hg]
  simp [drainLoop, drainRest, AMap.get?_cons, AMap.erase]

/-- The votes of one message. -/
theorem ginsert_first {b : GossipBuffer} (h : GInv H b) (hc : 0 < b.capacity) (d : AttData)
    (v sig : Nat) (hg : b.data = []) :
    ∃ b', b.insert H d v sig = some b' ∧ GInv H b' ∧ b'.total ≤ b'.capacity ∧
      b'.capacity = b.capacity ∧ b'.data = [(H.attData d, ⟨d, [(v, sig)]⟩)] := by
  have ht := (h.empty hg).2
  obtain ⟨b', h1, h2, h3, h4, -⟩ := ginsert_spec H b d v sig h (by omega)
  refine ⟨b', h1, h2, h3, h4, ?_⟩
  unfold GossipBuffer.insert at h1
  simp only [hg, AMap.get?_nil] at h1
  rw [evict_id _ _ (by simp only [ht]; omega)] at h1
  cases h1
  rfl

theorem ginsert_next {b : GossipBuffer} (h : GInv H b) {d : AttData} {sigs : BMap Nat}
    (hg : b.data = [(H.attData d, ⟨d, sigs⟩)]) (v sig : Nat)
    (hc : sigs.length + (if (AMap.get? sigs v).isNone then 1 else 0) ≤ b.capacity) :
    ∃ b', b.insert H d v sig = some b' ∧ GInv H b' ∧ b'.total ≤ b'.capacity ∧
      b'.capacity = b.capacity ∧ b'.data = [(H.attData d, ⟨d, BMap.insert v sig sigs⟩)] := by
  have ht := (h.single hg).2
  have ht : b.total = sigs.length := ht
  obtain ⟨b', h1, h2, h3, h4, -⟩ := ginsert_spec H b d v sig h (by omega)
  refine ⟨b', h1, h2, h3, h4, ?_⟩
  unfold GossipBuffer.insert at h1
  have hg1 : b.data.get? (H.attData d) = some ⟨d, sigs⟩ := by
    rw [hg, AMap.get?_cons, if_pos rfl]
  simp only [hg1] at h1
  rw [evict_id _ _ (by simp only; split at hc <;> simp_all)] at h1
  cases h1
  simp [hg, AMap.insert]

theorem delete_group {b : GossipBuffer} (h : GInv H b) {r : Root} {e : GEntry}
    (hg : b.data = [(r, e)]) :
    ∃ b', b.delete (e.sigs.map (fun x => (x.1, r))) = some b' ∧ GInv H b' ∧ b'.total ≤ b.total ∧
      b'.capacity = b.capacity ∧ b'.data = [] := by
  obtain ⟨b', h1, h2, h3, h4, -, h6, h7⟩ := delete_spec H b (e.sigs.map (fun x => (x.1, r))) h
  refine ⟨b', h1, h2, h3, h4, ?_⟩
  cases hd : b'.data with
  | nil => rfl
  | cons x m =>
    exfalso
    have hx : b'.data.get? x.1 = some x.2 := by rw [hd, AMap.get?_cons, if_pos rfl]
    obtain ⟨-, hne, -⟩ := h2.ok _ _ hx
    obtain ⟨e0, he0, -⟩ := h7 _ _ hx
    rw [hg, AMap.get?_cons] at he0
    split at he0
    swap
    · cases he0
    next hr =>
      cases he0
      obtain ⟨y, hy⟩ := List.exists_mem_of_ne_nil _ hne
      obtain ⟨z, hz⟩ := AMap.mem_keys_iff.1 (List.mem_map_of_mem (f := Prod.fst) hy)
      have := h6 x.1 y.1
      unfold sigOf at this
      rw [hx, Option.bind_some, hz] at this
      split at this
      · cases this
      next hnot =>
        rw [hg, AMap.get?_cons, if_pos hr, Option.bind_some] at this
        apply hnot
        rw [List.mem_map]
        exact ⟨_, AMap.mem_of_get? this.symm, by rw [hr]⟩

end
end Verif.Buffers
