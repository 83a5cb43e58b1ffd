import Verif.Props.C22_GossipPool
import Verif.Lemmas.OneGroup
/-!
# C95: an aggregator keeps the signatures it collects
-/
namespace Verif.Buffers
open Verif

/-- Collecting signatures: message, validator, signature. -/
def GossipBuffer.collect (H : Hash) (b : GossipBuffer) (l : List (AttData × Nat × Nat)) :
    Option GossipBuffer :=
  b.run H (l.map (fun x => .insert x.1 x.2.1 x.2.2))

/-- How many signatures are stored. -/
def GossipBuffer.stored (b : GossipBuffer) : Nat := (b.data.map (fun e => e.2.sigs.length)).sum

theorem GossipBuffer.run_append (H : Hash) (b : GossipBuffer) (l l' : List GOp) :
    b.run H (l ++ l') = (b.run H l).bind (fun b' => b'.run H l') := by
  induction l generalizing b with
  | nil => rfl
  | cons op l ih =>
    simp only [List.cons_append, GossipBuffer.run]
    cases b.apply H op with
    | none => rfl
    | some b' => simp only [Option.bind_some, ih]

/-- As long as there is room, a signature that was stored stays until another one of the same
validator for the same message replaces it. -/
theorem collect_keeps {H : Hash} {c : Nat} : ∀ (l : List (AttData × Nat × Nat)) (b : GossipBuffer),
    GGood H c b → b.total + l.length ≤ c →
    ∃ b', b.collect H l = some b' ∧ GGood H c b' ∧ b'.total ≤ b.total + l.length ∧
      (∀ r v, sigOf b'.data r v = ((l.reverse.find? (fun x => decide (H.attData x.1 = r ∧
        x.2.1 = v))).map (fun x => x.2.2)).or (sigOf b.data r v))
  | [], b, hb, _ => ⟨b, rfl, hb, Nat.le_refl _, fun r v => rfl⟩
  | (d, v, s) :: l, b, hb, hc => by
    simp only [List.length_cons] at hc
    obtain ⟨b1, h1, h2, h3, h4, ⟨gone, h5, h5'⟩, h6⟩ := ginsert_spec H b d v s hb.inv hb.bound
    have hcap := hb.cap
    have hg := h5' (by omega)
    subst hg
    rw [List.nil_append] at h5
    have hsig : ∀ r w, sigOf b1.data r w =
        if H.attData d = r ∧ v = w then some s else sigOf b.data r w := by
      intro r w
      by_cases hr : r ∈ b1.order
      · exact h6 r hr w
      · have e1 : b1.data.get? r = none := by
          rw [AMap.get?_eq_none_iff]
          exact fun h => hr ((h2.order r).2 h)
        have hr' : r ∉ b.order ∧ H.attData d ≠ r := by
          rw [← h5] at hr
          split at hr
          next hin => exact ⟨hr, fun e => hr (e ▸ hin)⟩
          · rw [List.mem_append, List.mem_singleton] at hr
            exact ⟨fun h => hr (.inl h), fun e => hr (.inr e.symm)⟩
        have e2 : b.data.get? r = none := by
          rw [AMap.get?_eq_none_iff]
          exact fun h => hr'.1 ((hb.inv.order r).2 h)
        simp only [sigOf, e1, e2, Option.bind_none, hr'.2, false_and, if_false]
    have ht : b1.total ≤ b.total + 1 := by
      have := h1
      unfold GossipBuffer.insert at this
      simp only at this
      split at this
      · rw [evict_id] at this
        · cases this
          dsimp only
          split <;> omega
        · dsimp only
          split <;> omega
      · rw [evict_id] at this
        · cases this
          dsimp only
          omega
        · dsimp only
          omega
    obtain ⟨b', g1, g2, g3, g4⟩ := collect_keeps l b1 ⟨h2, h3, h4.trans hb.cap⟩ (by omega)
    refine ⟨b', ?_, g2, by simp only [List.length_cons]; omega, fun r w => ?_⟩
    · unfold GossipBuffer.collect at g1 ⊢
      simp only [List.map_cons, GossipBuffer.run, GossipBuffer.apply, h1, Option.bind_some]
      exact g1
    · rw [g4, hsig, List.reverse_cons, List.find?_append]
      cases hf : l.reverse.find? (fun x => decide (H.attData x.1 = r ∧ x.2.1 = w)) with
      | some x => simp
      | none =>
        simp only [Option.map_none, Option.none_or, List.find?_cons, List.find?_nil]
        by_cases hh : H.attData d = r ∧ v = w
        · simp [hh]
        · simp [hh]

/-- **C95, while there is room.** Whatever happened to the pool before, if the signatures that are
stored and those that arrive fit, every signature that arrives is in the pool afterwards (the last one
of each validator for each message), and so is every earlier one that was not replaced.
Missing: messages signed by more validators than fit, for which it is false (`C95_false`). -/
theorem C95_keeps_partial (H : Hash) (capacity : Nat) (ops : List GOp) (b : GossipBuffer)
    (hb : (GossipBuffer.new capacity).run H ops = some b) (l : List (AttData × Nat × Nat))
    (hl : b.stored + l.length ≤ capacity) :
    ∃ b', b.collect H l = some b' ∧
      (∀ d v s, (d, v, s) ∈ l →
        (∀ d' s', (d', v, s') ∈ l → H.attData d' = H.attData d → s' = s) →
        sigOf b'.data (H.attData d) v = some s) ∧
      (∀ r v, (∀ d s, (d, v, s) ∈ l → H.attData d ≠ r) → sigOf b'.data r v = sigOf b.data r v) := by
  obtain ⟨b0, h1, h2⟩ := ggood_run (ggood_new H capacity) ops
  rw [hb] at h1; cases h1
  have ht : b.total = b.stored := h2.inv.total
  obtain ⟨b', g1, -, -, g4⟩ := collect_keeps l b h2 (by omega)
  refine ⟨b', g1, fun d v s hm hu => ?_, fun r v hn => ?_⟩
  · rw [g4]
    cases hf : l.reverse.find? (fun x => decide (H.attData x.1 = H.attData d ∧ x.2.1 = v)) with
    | none =>
      have := List.find?_eq_none.1 hf _ (List.mem_reverse.2 hm)
      simp at this
    | some x =>
      have hp := List.find?_some hf
      have hx := List.mem_reverse.1 (List.mem_of_find?_eq_some hf)
      simp only [decide_eq_true_eq] at hp
      obtain ⟨d', v', s'⟩ := x
      obtain ⟨hp1, rfl⟩ := hp
      rw [hu d' s' hx hp1]
      rfl
  · rw [g4]
    cases hf : l.reverse.find? (fun x => decide (H.attData x.1 = r ∧ x.2.1 = v)) with
    | none => rfl
    | some x =>
      have hp := List.find?_some hf
      have hx := List.mem_reverse.1 (List.mem_of_find?_eq_some hf)
      simp only [decide_eq_true_eq] at hp
      obtain ⟨d', v', s'⟩ := x
      obtain ⟨hp1, rfl⟩ := hp
      exact absurd hp1 (hn d' s' hx)

/-- One message, one signature too many: the pool is emptied. -/
theorem ginsert_over {H : Hash} {b : GossipBuffer} (h : GInv H b) {d : AttData} {sigs : BMap Nat}
    (hg : b.data = [(H.attData d, ⟨d, sigs⟩)]) (v sig : Nat) (hv : v ∉ sigs.map Prod.fst)
    (hc : sigs.length = b.capacity) :
    ∃ b', b.insert H d v sig = some b' ∧ GInv H b' ∧ b'.capacity = b.capacity ∧ b'.data = [] := by
  have ht : b.total = sigs.length := (h.single hg).2
  obtain ⟨b', h1, h2, h3, h4, ⟨gone, h5, -⟩, h6⟩ := ginsert_spec H b d v sig h (by omega)
  refine ⟨b', h1, h2, h4, ?_⟩
  cases hd : b'.data with
  | nil => rfl
  | cons x m =>
    exfalso
    have ho : b.order = [H.attData d] := (h.single hg).1
    have hx : x.1 ∈ b'.order := (h2.order _).2 (by rw [hd]; simp [AMap.keys])
    rw [ho, if_pos (List.mem_singleton_self _)] at h5
    have hxr : x.1 = H.attData d := by
      have : x.1 ∈ gone ++ b'.order := List.mem_append_right _ hx
      rw [← h5] at this
      exact List.mem_singleton.1 this
    have hm : m = [] := by
      cases m with
      | nil => rfl
      | cons y m =>
        have hy : y.1 ∈ b'.order := (h2.order _).2 (by rw [hd]; simp [AMap.keys])
        have hyr : y.1 = H.attData d := by
          have : y.1 ∈ gone ++ b'.order := List.mem_append_right _ hy
          rw [← h5] at this
          exact List.mem_singleton.1 this
        have hk := h2.keys
        rw [hd] at hk
        simp only [AMap.keys, List.map_cons, List.nodup_cons, List.mem_cons] at hk
        exact absurd (.inl (hxr.trans hyr.symm)) hk.1
    subst hm
    have htot : b'.total = x.2.sigs.length := (h2.single (e := x.2) (r := x.1) (by rw [hd])).2
    have hlen : sigs.length + 1 ≤ x.2.sigs.length := by
      have hget : b'.data.get? (H.attData d) = some x.2 := by
        rw [hd, AMap.get?_cons, if_pos hxr]
      have hget0 : b.data.get? (H.attData d) = some ⟨d, sigs⟩ := by
        rw [hg, AMap.get?_cons, if_pos rfl]
      have hs := h6 _ (hxr ▸ hx)
      simp only [sigOf, hget, hget0, Option.bind_some, true_and] at hs
      have hsub : v :: sigs.map Prod.fst ⊆ x.2.sigs.map Prod.fst := by
        intro w hw
        apply AMap.mem_keys_iff.2
        rcases List.mem_cons.1 hw with rfl | hw
        · exact ⟨sig, by rw [hs, if_pos rfl]⟩
        · obtain ⟨z, hz⟩ := AMap.mem_keys_iff.1 hw
          by_cases e : v = w
          · exact ⟨sig, by rw [hs, if_pos e]⟩
          · exact ⟨z, by rw [hs, if_neg e, hz]⟩
      have hnd : (v :: sigs.map Prod.fst).Nodup :=
        List.nodup_cons.2 ⟨hv, nodup_of_sorted (h.ok _ _ hget0).2.2⟩
      have := (List.subperm_of_subset hnd hsub).length_le
      simpa using this
    omega

/-- What one message leaves in a pool. -/
theorem collect_one {H : Hash} {d : AttData} : ∀ (l : List (Nat × Nat)) (b : GossipBuffer)
    (sigs : BMap Nat), GInv H b → 0 < b.capacity → sigs.length ≤ b.capacity →
    b.data = (if sigs = [] then [] else [(H.attData d, ⟨d, sigs⟩)]) →
    (l.map Prod.fst).Nodup → (∀ x ∈ l, x.1 ∉ sigs.map Prod.fst) →
    ∃ b', b.collect H (l.map (fun x => (d, x))) = some b' ∧
      b'.stored = (sigs.length + l.length) % (b.capacity + 1)
  | [], b, sigs, hb, hc, hs, hd, _, _ => by
    refine ⟨b, rfl, ?_⟩
    rw [List.length_nil, Nat.add_zero, Nat.mod_eq_of_lt (by omega)]
    unfold GossipBuffer.stored
    rw [hd]
    split
    next h => simp [h]
    · simp
  | (v, s) :: l, b, sigs, hb, hc, hs, hd, hn, hv => by
    simp only [List.map_cons, List.nodup_cons] at hn
    have hvs := hv _ List.mem_cons_self
    simp only [GossipBuffer.collect, List.map_cons, GossipBuffer.run, GossipBuffer.apply]
    by_cases hover : sigs.length = b.capacity
    · rw [if_neg (by rintro rfl; simp at hover; omega)] at hd
      obtain ⟨b1, h1, h2, h3, h4⟩ := ginsert_over hb hd v s hvs hover
      obtain ⟨b', g1, g2⟩ := collect_one l b1 [] h2 (by omega) (Nat.zero_le _) (by simpa using h4)
        hn.2 (by simp)
      refine ⟨b', by rw [h1]; exact g1, ?_⟩
      rw [g2, h3, hover, List.length_cons, List.length_nil, Nat.zero_add,
        show b.capacity + (l.length + 1) = l.length + (b.capacity + 1) by omega,
        Nat.add_mod_right]
    · have hstep : ∃ b1, b.insert H d v s = some b1 ∧ GInv H b1 ∧ b1.capacity = b.capacity ∧
          b1.data = [(H.attData d, ⟨d, BMap.insert v s sigs⟩)] := by
        by_cases he : sigs = []
        · subst he
          obtain ⟨b1, h1, h2, -, h4, h5⟩ := ginsert_first hb hc d v s (by simpa using hd)
          exact ⟨b1, h1, h2, h4, h5⟩
        · rw [if_neg he] at hd
          obtain ⟨b1, h1, h2, -, h4, h5⟩ := ginsert_next hb hd v s (by split <;> omega)
          exact ⟨b1, h1, h2, h4, h5⟩
      obtain ⟨b1, h1, h2, h3, h4⟩ := hstep
      have hsorted : (sigs.map Prod.fst).Pairwise (· < ·) := by
        by_cases he : sigs = []
        · simp [he]
        · rw [if_neg he] at hd
          exact (hb.ok _ _ (by rw [hd, AMap.get?_cons, if_pos rfl])).2.2
      have hlen := bmap_length v s sigs hsorted
      rw [if_pos (by rw [AMap.get?_eq_none_iff.2 hvs]; rfl)] at hlen
      have hne : BMap.insert v s sigs ≠ [] := by
        intro e
        rw [e] at hlen
        simp at hlen
      obtain ⟨b', g1, g2⟩ := collect_one l b1 (BMap.insert v s sigs) h2 (by omega) (by omega)
        (by rw [if_neg hne]; exact h4) hn.2 (by
          intro x hx hm
          rcases (bmap_keys v s sigs x.1).1 hm with rfl | hm
          · exact hn.1 (List.mem_map_of_mem hx)
          · exact hv x (List.mem_cons_of_mem _ hx) hm)
      refine ⟨b', by rw [h1]; exact g1, ?_⟩
      rw [g2, h3, hlen, List.length_cons]
      congr 1
      omega

/-- If `m` validators sign one message, `m mod (capacity + 1)` of their signatures are left. -/
theorem C95_left (H : Hash) (capacity : Nat) (hc : 0 < capacity) (d : AttData)
    (l : List (Nat × Nat)) (hl : (l.map Prod.fst).Nodup) :
    ∃ b, (GossipBuffer.new capacity).collect H (l.map (fun x => (d, x))) = some b ∧
      b.stored = l.length % (capacity + 1) := by
  obtain ⟨b, h1, h2⟩ := collect_one (d := d) l (GossipBuffer.new capacity) [] (gnew_inv H capacity)
    hc (Nat.zero_le _) rfl hl (by simp)
  exact ⟨b, h1, by rw [h2, List.length_nil, Nat.zero_add]; rfl⟩

/-- **C95 is false.** Whenever more than 2048 of at most 4096 validators (the registry limit) sign one
message, fewer than two thirds of those signatures are left when all have arrived: not enough for any
justification. -/
theorem C95_false (H : Hash) (d : AttData) (l : List (Nat × Nat)) (hl : (l.map Prod.fst).Nodup)
    (h1 : 2048 < l.length) (h2 : l.length ≤ 4096) :
    ∃ b, (GossipBuffer.new 2048).collect H (l.map (fun x => (d, x))) = some b ∧
      3 * b.stored < 2 * l.length := by
  obtain ⟨b, g1, g2⟩ := C95_left H 2048 (by decide) d l hl
  exact ⟨b, g1, by omega⟩

/-- All of 3000 validators sign: the hypotheses of `C95_false` hold. -/
example (H : Hash) (d : AttData) :
    ∃ b, (GossipBuffer.new 2048).collect H (((List.range 3000).map (fun v => (v, v))).map
      (fun x => (d, x))) = some b ∧ b.stored = 951 := by
  obtain ⟨b, h1, h2⟩ := C95_left H 2048 (by decide) d ((List.range 3000).map (fun v => (v, v)))
    (by simp [Function.comp_def, List.nodup_range])
  exact ⟨b, h1, by rw [h2, List.length_map, List.length_range]⟩

/-- A pool of 8 that two validators' signatures were put in and one taken out, and three more
signatures, one of which replaces the old one: the hypotheses of `C95_keeps_partial` hold. -/
example : ∃ (H : Hash) (d d' : AttData) (b b' : GossipBuffer),
    (GossipBuffer.new 8).run H [.insert d 1 10, .insert d 2 20, .delete [(1, H.attData d)]] = some b ∧
    b.collect H [(d, 2, 21), (d', 2, 22), (d', 0, 5)] = some b' ∧
    b.stored + 3 ≤ 8 ∧ sigOf b'.data (H.attData d) 2 = some 21 ∧
    sigOf b'.data (H.attData d') 2 = some 22 ∧ sigOf b'.data (H.attData d') 0 = some 5 :=
  ⟨⟨fun _ => 0, fun _ => 0, fun _ => 0, fun d => d.slot⟩, ⟨7, ⟨0, 0⟩, ⟨0, 0⟩, ⟨0, 0⟩⟩,
    ⟨8, ⟨0, 0⟩, ⟨0, 0⟩, ⟨0, 0⟩⟩, _, _, rfl, rfl, by decide, by decide, by decide, by decide⟩

end Verif.Buffers
