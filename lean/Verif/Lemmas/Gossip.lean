import Verif.Lemmas.Buffers
/-!
# Lemmas about the gossip signature buffer
-/
namespace Verif.Buffers
open Verif

theorem bmap_get? {α : Type} (k : Nat) (v : α) (m : BMap α) (j : Nat)
    (hs : (m.map Prod.fst).Pairwise (· < ·)) :
    AMap.get? (BMap.insert k v m) j = if k = j then some v else AMap.get? m j := by
  induction m with
  | nil => simp [BMap.insert, AMap.get?_cons, AMap.get?_nil]
  | cons x m ih =>
    obtain ⟨k', v'⟩ := x
    rw [List.map_cons, List.pairwise_cons] at hs
    unfold BMap.insert
    split
    · rw [AMap.get?_cons]
    · split
      · next h => subst h; rw [AMap.get?_cons, AMap.get?_cons]; split <;> rfl
      · next h1 h2 =>
        rw [AMap.get?_cons, AMap.get?_cons, ih hs.2]
        by_cases hk : k' = j
        · subst hk; simp [h2]
        · simp [hk]

theorem bmap_keys {α : Type} (k : Nat) (v : α) (m : BMap α) (j : Nat) :
    j ∈ (BMap.insert k v m).map Prod.fst ↔ j = k ∨ j ∈ m.map Prod.fst := by
  induction m with
  | nil => simp [BMap.insert]
  | cons x m ih =>
    obtain ⟨k', v'⟩ := x
    unfold BMap.insert
    split
    · simp
    · split
      · next h => subst h; simp
      · simp only [List.map_cons, List.mem_cons, ih]
        constructor
        · rintro (h | h | h) <;> simp [h]
        · rintro (h | h | h) <;> simp [h]

theorem bmap_sorted {α : Type} (k : Nat) (v : α) (m : BMap α)
    (hs : (m.map Prod.fst).Pairwise (· < ·)) :
    ((BMap.insert k v m).map Prod.fst).Pairwise (· < ·) := by
  induction m with
  | nil => simp [BMap.insert]
  | cons x m ih =>
    obtain ⟨k', v'⟩ := x
    have hs0 := hs
    rw [List.map_cons, List.pairwise_cons] at hs
    unfold BMap.insert
    split
    · next h =>
      rw [List.map_cons, List.pairwise_cons]
      refine ⟨?_, hs0⟩
      intro a ha
      rw [List.map_cons, List.mem_cons] at ha
      rcases ha with rfl | ha
      · exact h
      · exact Nat.lt_trans h (hs.1 a ha)
    · split
      · next h => subst h; exact hs0
      · next h1 h2 =>
        rw [List.map_cons, List.pairwise_cons]
        refine ⟨?_, ih hs.2⟩
        intro a ha
        rw [bmap_keys] at ha
        rcases ha with rfl | ha
        · simp only at *; omega
        · exact hs.1 a ha

theorem bmap_length {α : Type} (k : Nat) (v : α) (m : BMap α)
    (hs : (m.map Prod.fst).Pairwise (· < ·)) :
    (BMap.insert k v m).length = m.length + (if (AMap.get? m k).isNone then 1 else 0) := by
  induction m with
  | nil => simp [BMap.insert, AMap.get?_nil]
  | cons x m ih =>
    obtain ⟨k', v'⟩ := x
    rw [List.map_cons, List.pairwise_cons] at hs
    unfold BMap.insert
    rw [AMap.get?_cons]
    split
    · next h =>
      have hnone : AMap.get? m k = none := by
        rw [AMap.get?_eq_none_iff]
        intro hk
        have := hs.1 k hk
        simp only at this; omega
      rw [if_neg (show ¬ k' = k by omega), hnone]; simp
    · split
      · next h => subst h; simp
      · next h1 h2 =>
        rw [if_neg (show ¬ k' = k by omega), List.length_cons, List.length_cons, ih hs.2]
        omega

theorem nodup_of_sorted {l : List Nat} (h : l.Pairwise (· < ·)) : l.Nodup :=
  h.imp (fun h => Nat.ne_of_lt h)

/-- Per-entry condition of the gossip buffer. -/
def GOk (H : Hash) (r : Root) (e : GEntry) : Prop :=
  H.attData e.data = r ∧ e.sigs ≠ [] ∧ (e.sigs.map Prod.fst).Pairwise (· < ·)

abbrev GInv (H : Hash) (b : GossipBuffer) : Prop := FInv GEntry.size (GOk H) b

/-- The signature of validator `v` stored for message `r`. -/
def sigOf (m : AMap Root GEntry) (r : Root) (v : Nat) : Option Nat :=
  (m.get? r).bind (fun e => AMap.get? e.sigs v)

theorem ginsert_spec (H : Hash) (b : GossipBuffer) (d : AttData) (vid sig : Nat)
    (h : GInv H b) (hb : b.total ≤ b.capacity) :
    ∃ b', b.insert H d vid sig = some b' ∧ GInv H b' ∧ b'.total ≤ b'.capacity ∧
      b'.capacity = b.capacity ∧
      (∃ gone, (if H.attData d ∈ b.order then b.order else b.order ++ [H.attData d]) =
        gone ++ b'.order ∧ (b.total < b.capacity → gone = [])) ∧
      (∀ r ∈ b'.order, ∀ v, sigOf b'.data r v =
        if H.attData d = r ∧ vid = v then some sig else sigOf b.data r v) := by
  unfold GossipBuffer.insert
  simp only
  cases hg : b.data.get? (H.attData d) with
  | some entry =>
    have hin : H.attData d ∈ b.order := (h.order _).2 (AMap.mem_keys_iff.2 ⟨_, hg⟩)
    obtain ⟨ok1, ok2, ok3⟩ := h.ok _ _ hg
    simp only [if_pos hin]
    have hlen := bmap_length vid sig entry.sigs ok3
    have hinv : GInv H { b with
        data := b.data.insert (H.attData d)
          { entry with sigs := BMap.insert vid sig entry.sigs },
        total := if (AMap.get? entry.sigs vid).isNone then b.total + 1 else b.total } := by
      refine ⟨AMap.nodup_insert h.keys _ _, h.orderNodup, ?_, ?_, ?_⟩
      · intro r
        simp only [AMap.mem_keys_insert]
        rw [h.order]
        constructor
        · exact Or.inr
        · rintro (rfl | h2)
          · exact (h.order _).1 hin
          · exact h2
      · have h1 := sizeSum_insert_old GEntry.size
          { entry with sigs := BMap.insert vid sig entry.sigs } hg
        have htot := h.total
        have e1 : GEntry.size { entry with sigs := BMap.insert vid sig entry.sigs } =
          (BMap.insert vid sig entry.sigs).length := rfl
        have e2 : GEntry.size entry = entry.sigs.length := rfl
        rw [e1, e2] at h1
        simp only
        split at hlen
        · next hn => rw [if_pos hn]; omega
        · next hn => rw [if_neg hn]; omega
      · intro r e he
        simp only [AMap.get?_insert] at he
        split at he
        · next hr =>
          cases he
          subst hr
          refine ⟨ok1, ?_, bmap_sorted _ _ _ ok3⟩
          intro hc
          have := hlen
          simp only at hc
          rw [hc] at this
          have : entry.sigs.length = 0 := by simp at this; omega
          exact ok2 (List.length_eq_zero_iff.1 this)
        · exact h.ok r e he
    obtain ⟨b', h1, h2, h3, h4, ⟨gone, h5, -, -⟩, h6⟩ := evict_spec GEntry.size (GOk H) _ hinv
    refine ⟨b', h1, h2, h3, h4, ⟨gone, h5, ?_⟩, ?_⟩
    · intro hlt
      rw [evict_id _ _ (by simp only; split <;> omega)] at h1
      cases h1
      simpa using h5
    · intro r hr v
      unfold sigOf
      rw [h6 r hr]
      simp only [AMap.get?_insert]
      by_cases hrd : H.attData d = r
      · subst hrd
        simp only [if_true, Option.bind_some, bmap_get? _ _ _ _ ok3, true_and, hg]
      · simp [hrd]
  | none =>
    have hin : H.attData d ∉ b.order := by
      rw [h.order]; exact AMap.get?_eq_none_iff.1 hg
    simp only [if_neg hin]
    have hinv : GInv H { b with
        data := b.data.insert (H.attData d) ⟨d, BMap.insert vid sig []⟩,
        order := b.order ++ [H.attData d], total := b.total + 1 } := by
      refine ⟨AMap.nodup_insert h.keys _ _, ?_, ?_, ?_, ?_⟩
      · simp only
        rw [List.nodup_append]
        refine ⟨h.orderNodup, by simp, ?_⟩
        intro a ha c hc
        simp only [List.mem_singleton] at hc
        subst hc
        intro he; subst he; exact hin ha
      · intro r
        simp only [AMap.mem_keys_insert, List.mem_append, List.mem_singleton, h.order]
        exact Or.comm
      · have := sizeSum_insert_new GEntry.size ⟨d, BMap.insert vid sig []⟩ hg
        have htot := h.total
        simp only [this]
        change b.total + 1 = sizeSum GEntry.size b.data + 1
        omega
      · intro r e he
        simp only [AMap.get?_insert] at he
        split at he
        · next hr =>
          cases he; subst hr
          exact ⟨rfl, by simp [BMap.insert], by simp [BMap.insert]⟩
        · exact h.ok r e he
    obtain ⟨b', h1, h2, h3, h4, ⟨gone, h5, -, -⟩, h6⟩ := evict_spec GEntry.size (GOk H) _ hinv
    refine ⟨b', h1, h2, h3, h4, ⟨gone, h5, ?_⟩, ?_⟩
    · intro hlt
      rw [evict_id _ _ (by simp only; omega)] at h1
      cases h1
      simpa using h5
    · intro r hr v
      unfold sigOf
      rw [h6 r hr]
      simp only [AMap.get?_insert]
      by_cases hrd : H.attData d = r
      · subst hrd
        simp only [if_true, Option.bind_some, BMap.insert, AMap.get?_cons, AMap.get?_nil,
          true_and, hg]
        rfl
      · simp [hrd]

/-! ### Delete -/

theorem erase_length {m : BMap Nat} (hs : (m.map Prod.fst).Pairwise (· < ·)) (v : Nat) :
    (AMap.erase m v).length + (if (AMap.get? m v).isSome then 1 else 0) = m.length := by
  have hn := nodup_of_sorted hs
  cases hg : AMap.get? m v with
  | none =>
    have : AMap.erase m v = m := by
      unfold AMap.erase
      rw [List.filter_eq_self]
      intro y hy
      have : y.1 ≠ v := fun h => AMap.get?_eq_none_iff.1 hg (List.mem_map.2 ⟨y, hy, h⟩)
      simpa using this
    rw [this]; simp
  | some s =>
    have h1 := sizeSum_erase (E := Nat) (fun _ => 1) (m := m) (r := v) hn hg
    have h2 : ∀ m : AMap Root Nat, sizeSum (fun _ => 1) m = m.length := by
      intro m
      induction m with
      | nil => rfl
      | cons x m ih =>
        simp only [sizeSum, List.map_cons, List.sum_cons, List.length_cons] at *
        rw [ih]; omega
    rw [h2, h2] at h1
    simpa using h1

/-- Entries part of the invariant, without the order list. -/
structure DInv (H : Hash) (m : AMap Root GEntry) (t : Nat) : Prop where
  keys : m.keys.Nodup
  total : t = sizeSum GEntry.size m
  ok : ∀ r e, m.get? r = some e → GOk H r e

theorem deleteLoop_spec (H : Hash) (ks : List (Nat × Root)) (m : AMap Root GEntry) (t : Nat)
    (em : List Root) (h : DInv H m t) (hem : ∀ r ∈ em, m.get? r = none) :
    ∃ m' t' em', deleteLoop ks m t em = some (m', t', em') ∧ DInv H m' t' ∧ t' ≤ t ∧
      (∀ r v, sigOf m' r v = if (v, r) ∈ ks then none else sigOf m r v) ∧
      (∀ r ∈ em', m'.get? r = none) ∧
      (∀ r, m.get? r ≠ none → m'.get? r = none → r ∈ em') ∧ (∀ r ∈ em, r ∈ em') ∧
      (∀ r, m.get? r = none → m'.get? r = none) ∧
      (∀ r e', m'.get? r = some e' → ∃ e, m.get? r = some e ∧ e.data = e'.data) := by
  induction ks generalizing m t em with
  | nil =>
    exact ⟨m, t, em, rfl, h, Nat.le_refl _, by simp, hem, fun r h1 h2 => absurd h2 h1,
      fun _ h => h, fun _ h => h, fun r e he => ⟨e, he, rfl⟩⟩
  | cons k ks ih =>
    obtain ⟨vid, root⟩ := k
    unfold deleteLoop
    cases hg : m.get? root with
    | none =>
      simp only
      obtain ⟨m', t', em', h1, h2, h2', h3, h4, h5, h6, h7, h8⟩ := ih m t em h hem
      refine ⟨m', t', em', h1, h2, h2', ?_, h4, h5, h6, h7, h8⟩
      intro r v
      rw [h3]
      by_cases hk : (v, r) = (vid, root)
      · cases hk; simp [sigOf, hg]
      · simp [hk]
    | some e =>
      obtain ⟨ok1, ok2, ok3⟩ := h.ok _ _ hg
      have hlen := erase_length ok3 vid
      have hle := size_le_sum GEntry.size hg
      have htot := h.total
      have e2 : GEntry.size e = e.sigs.length := rfl
      have hpos : 0 < e.sigs.length := List.length_pos_iff.2 ok2
      have hsub : sub? t (if (AMap.get? e.sigs vid).isSome then 1 else 0) =
          some (t - (if (AMap.get? e.sigs vid).isSome then 1 else 0)) := by
        rw [sub?, if_pos]; split <;> omega
      simp only [hsub, Option.bind_some]
      split
      · next hemp =>
        rw [List.isEmpty_iff] at hemp
        rw [hemp, List.length_nil] at hlen
        have hsum := sizeSum_erase GEntry.size h.keys hg
        have hinv : DInv H (m.erase root)
            (t - (if (AMap.get? e.sigs vid).isSome then 1 else 0)) := by
          refine ⟨AMap.nodup_erase h.keys _, by omega, ?_⟩
          intro r e' he'
          rw [AMap.get?_erase] at he'
          split at he'
          · cases he'
          · exact h.ok r e' he'
        obtain ⟨m', t', em', h1, h2, h2', h3, h4, h5, h6, h7, h8⟩ := ih _ _ (root :: em) hinv (by
          intro r hr
          rw [AMap.get?_erase]
          rcases List.mem_cons.1 hr with rfl | hr
          · simp
          · split
            · rfl
            · exact hem r hr)
        refine ⟨m', t', em', h1, h2, by omega, ?_, h4, ?_, ?_, ?_, ?_⟩
        · intro r v
          rw [h3]
          by_cases hks : (v, r) ∈ ks
          · simp [hks]
          · by_cases hk : (v, r) = (vid, root)
            · cases hk; simp [sigOf, AMap.get?_erase]
            · simp only [hks, List.mem_cons, hk, or_self, if_false]
              unfold sigOf
              rw [AMap.get?_erase]
              split
              · next hr =>
                subst hr
                rw [hg, Option.bind_some]
                have := congrArg (fun m => AMap.get? m v) hemp
                simp only [AMap.get?_nil, AMap.get?_erase] at this
                split at this
                · next hv => subst hv; exact absurd rfl hk
                · rw [this]; rfl
              · rfl
        · intro r hr1 hr2
          by_cases hrr : root = r
          · subst hrr; exact h6 _ (by simp)
          · exact h5 r (by rw [AMap.get?_erase, if_neg hrr]; exact hr1) hr2
        · intro r hr; exact h6 r (List.mem_cons_of_mem _ hr)
        · intro r hr
          apply h7
          rw [AMap.get?_erase]
          split
          · rfl
          · exact hr
        · intro r e' he'
          obtain ⟨e0, he0, hd0⟩ := h8 r e' he'
          rw [AMap.get?_erase] at he0
          split at he0
          · cases he0
          · exact ⟨e0, he0, hd0⟩
      · next hemp =>
        rw [List.isEmpty_iff] at hemp
        have hsum := sizeSum_insert_old GEntry.size
          { e with sigs := AMap.erase e.sigs vid } hg
        have e1 : GEntry.size { e with sigs := AMap.erase e.sigs vid } =
          (AMap.erase e.sigs vid).length := rfl
        rw [e1, e2] at hsum
        have hinv : DInv H (m.insert root { e with sigs := AMap.erase e.sigs vid })
            (t - (if (AMap.get? e.sigs vid).isSome then 1 else 0)) := by
          refine ⟨AMap.nodup_insert h.keys _ _, by omega, ?_⟩
          intro r e' he'
          rw [AMap.get?_insert] at he'
          split at he'
          · next hr =>
            cases he'; subst hr
            exact ⟨ok1, hemp, List.Pairwise.sublist (List.Sublist.map _ List.filter_sublist) ok3⟩
          · exact h.ok r e' he'
        obtain ⟨m', t', em', h1, h2, h2', h3, h4, h5, h6, h7, h8⟩ := ih _ _ em hinv (by
          intro r hr
          rw [AMap.get?_insert]
          split
          · next hrr => subst hrr; rw [hem _ hr] at hg; cases hg
          · exact hem r hr)
        refine ⟨m', t', em', h1, h2, by omega, ?_, h4, ?_, h6, ?_, ?_⟩
        · intro r v
          rw [h3]
          by_cases hks : (v, r) ∈ ks
          · simp [hks]
          · by_cases hk : (v, r) = (vid, root)
            · cases hk; simp [sigOf, AMap.get?_insert_self, AMap.get?_erase]
            · simp only [hks, List.mem_cons, hk, or_self, if_false]
              unfold sigOf
              rw [AMap.get?_insert]
              split
              · next hr =>
                subst hr
                rw [hg, Option.bind_some, Option.bind_some, AMap.get?_erase]
                split
                · next hv => subst hv; exact absurd rfl hk
                · rfl
              · rfl
        · intro r hr1 hr2
          refine h5 r ?_ hr2
          rw [AMap.get?_insert]
          split
          · simp
          · exact hr1
        · intro r hr
          apply h7
          rw [AMap.get?_insert]
          split
          · next hrr => subst hrr; rw [hr] at hg; cases hg
          · exact hr
        · intro r e' he'
          obtain ⟨e0, he0, hd0⟩ := h8 r e' he'
          rw [AMap.get?_insert] at he0
          split at he0
          · next hrr => cases he0; subst hrr; exact ⟨e, hg, hd0⟩
          · exact ⟨e0, he0, hd0⟩

theorem delete_spec (H : Hash) (b : GossipBuffer) (ks : List (Nat × Root)) (h : GInv H b) :
    ∃ b', b.delete ks = some b' ∧ GInv H b' ∧ b'.total ≤ b.total ∧ b'.capacity = b.capacity ∧
      b'.order.Sublist b.order ∧
      (∀ r v, sigOf b'.data r v = if (v, r) ∈ ks then none else sigOf b.data r v) ∧
      (∀ r e', b'.data.get? r = some e' → ∃ e, b.data.get? r = some e ∧ e.data = e'.data) := by
  unfold GossipBuffer.delete
  split
  · next hk =>
    rw [List.isEmpty_iff] at hk; subst hk
    exact ⟨b, rfl, h, Nat.le_refl _, rfl, .refl _, by simp, fun r e he => ⟨e, he, rfl⟩⟩
  · obtain ⟨m', t', em', h1, h2, h2', h3, h4, h5, -, h7, h8⟩ :=
      deleteLoop_spec H ks b.data b.total [] ⟨h.keys, h.total, h.ok⟩ (by simp)
    rw [h1]
    have hsubl : (if em'.isEmpty then b.order
        else b.order.filter (fun r => !(em'.contains r))).Sublist b.order := by
      split
      · exact .refl _
      · exact List.filter_sublist
    refine ⟨_, rfl, ⟨h2.keys, hsubl.nodup h.orderNodup, ?_, h2.total, h2.ok⟩, h2', rfl, hsubl,
      h3, h8⟩
    intro r
    simp only
    have hcore : r ∈ m'.keys ↔ r ∈ b.order ∧ r ∉ em' := by
      rw [h.order, AMap.mem_keys_iff, AMap.mem_keys_iff]
      constructor
      · rintro ⟨e', he'⟩
        obtain ⟨e, he, -⟩ := h8 r e' he'
        refine ⟨⟨e, he⟩, ?_⟩
        intro hin; rw [h4 r hin] at he'; cases he'
      · rintro ⟨⟨e, he⟩, hnin⟩
        cases hm : m'.get? r with
        | some e' => exact ⟨e', rfl⟩
        | none => exact absurd (h5 r (by rw [he]; simp) hm) hnin
    rw [hcore]
    split
    · next hem => rw [List.isEmpty_iff] at hem; subst hem; simp
    · rw [List.mem_filter]; simp

theorem gnew_inv (H : Hash) (cap : Nat) : GInv H (GossipBuffer.new cap) := by
  refine ⟨?_, ?_, ?_, rfl, ?_⟩ <;> simp [GossipBuffer.new, AMap.keys, AMap.get?_nil]

end Verif.Buffers
