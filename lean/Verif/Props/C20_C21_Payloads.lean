import Verif.Lemmas.Buffers
/-!
# C20, C21: aggregated-payload buffers
-/
namespace Verif.Buffers
open Verif

/-- Operations on a payload buffer. -/
inductive POp
  | push (d : AttData) (p : Agg)
  | pushBatch (es : List (AttData × Agg))
  | drain
  | prune (finalizedSlot : Nat)

/-- Effect of an operation; `none` is an arithmetic underflow (a panic in debug builds, a wrapped
counter in release builds). -/
def PayloadBuffer.apply (H : Hash) (b : PayloadBuffer) : POp → Option PayloadBuffer
  | .push d p => b.push H d p
  | .pushBatch es => b.pushBatch H es
  | .drain => some b.drain.2
  | .prune f => (b.prune f).map Prod.fst

/-- A sequence of operations. -/
def PayloadBuffer.run (H : Hash) (b : PayloadBuffer) : List POp → Option PayloadBuffer
  | [] => some b
  | op :: ops => (b.apply H op).bind (fun b' => b'.run H ops)

/-! ## C20 -/

/-- What "bounded and consistent" means, in terms of the stored content only. -/
structure Consistent (H : Hash) (capacity : Nat) (b : PayloadBuffer) : Prop where
  /-- the counter is the number of stored proofs -/
  counter : b.total = (b.data.map (fun e => e.2.proofs.length)).sum
  /-- at most `capacity` proofs are stored -/
  bounded : (b.data.map (fun e => e.2.proofs.length)).sum ≤ capacity
  /-- the order list names each stored message once -/
  orderNodup : b.order.Nodup
  orderExact : ∀ r, r ∈ b.order ↔ ∃ e, b.data.get? r = some e
  /-- one entry per message root, holding that message and at least one proof -/
  keys : b.data.keys.Nodup
  entry : ∀ r e, b.data.get? r = some e → H.attData e.data = r ∧ e.proofs ≠ []
  /-- no stored proof is covered by another stored proof of the same message -/
  antichain : ∀ r e, b.data.get? r = some e →
    e.proofs.Pairwise (fun p q =>
      (¬ ∀ v ∈ validatorIndices p.participants, v ∈ validatorIndices q.participants) ∧
      (¬ ∀ v ∈ validatorIndices q.participants, v ∈ validatorIndices p.participants))

structure Good (H : Hash) (capacity : Nat) (b : PayloadBuffer) : Prop where
  inv : PInv H b
  bound : b.total ≤ b.capacity
  cap : b.capacity = capacity

theorem good_push {H : Hash} {c : Nat} {b : PayloadBuffer} (h : Good H c b) (d : AttData)
    (p : Agg) : ∃ b', b.push H d p = some b' ∧ Good H c b' := by
  obtain ⟨b', h1, h2, h3, h4, -⟩ := push_spec H b d p h.inv h.bound
  exact ⟨b', h1, h2, h3, h4.trans h.cap⟩

theorem good_pushBatch {H : Hash} {c : Nat} {b : PayloadBuffer} (h : Good H c b)
    (es : List (AttData × Agg)) : ∃ b', b.pushBatch H es = some b' ∧ Good H c b' := by
  induction es generalizing b with
  | nil => exact ⟨b, rfl, h⟩
  | cons e es ih =>
    obtain ⟨b1, h1, h2⟩ := good_push h e.1 e.2
    obtain ⟨b2, h3, h4⟩ := ih h2
    refine ⟨b2, ?_, h4⟩
    unfold PayloadBuffer.pushBatch
    rw [h1]; exact h3

theorem drain_get? {H : Hash} {b : PayloadBuffer} (h : PInv H b) (r : Root) :
    b.drain.2.data.get? r = none := by
  simp only [PayloadBuffer.drain, drainRest_get?]
  split
  · rfl
  · next hr => exact AMap.get?_eq_none_iff.2 (fun hk => hr ((h.order r).2 hk))

theorem drain_data {H : Hash} {b : PayloadBuffer} (h : PInv H b) : b.drain.2.data = [] := by
  cases hd : b.drain.2.data with
  | nil => rfl
  | cons x m =>
    have := drain_get? h x.1
    rw [hd] at this
    obtain ⟨k, e⟩ := x
    rw [AMap.get?_cons, if_pos rfl] at this
    cases this

theorem good_drain {H : Hash} {c : Nat} {b : PayloadBuffer} (h : Good H c b) :
    Good H c b.drain.2 := by
  have hd := drain_data h.inv
  refine ⟨⟨?_, ?_, ?_, ?_, ?_⟩, Nat.zero_le _, h.cap⟩
  · rw [hd]; simp [AMap.keys]
  · simp [PayloadBuffer.drain]
  · rw [hd]; simp [PayloadBuffer.drain, AMap.keys]
  · rw [hd]; rfl
  · intro r e he; rw [drain_get? h.inv] at he; cases he

theorem good_apply {H : Hash} {c : Nat} {b : PayloadBuffer} (h : Good H c b) (op : POp) :
    ∃ b', b.apply H op = some b' ∧ Good H c b' := by
  cases op with
  | push d p => exact good_push h d p
  | pushBatch es => exact good_pushBatch h es
  | drain => exact ⟨_, rfl, good_drain h⟩
  | prune f =>
    obtain ⟨b', n, h1, h2, h3, h4, -⟩ := prune_spec PEntry.size (POk H)
      (fun e => decide (e.data.target.slot > f)) b h.inv
    refine ⟨b', ?_, h2, ?_, h4.trans h.cap⟩
    · simp only [PayloadBuffer.apply, PayloadBuffer.prune, h1, Option.map_some]
    · have := h.bound; omega

theorem good_run {H : Hash} {c : Nat} {b : PayloadBuffer} (h : Good H c b) (ops : List POp) :
    ∃ b', b.run H ops = some b' ∧ Good H c b' := by
  induction ops generalizing b with
  | nil => exact ⟨b, rfl, h⟩
  | cons op ops ih =>
    obtain ⟨b1, h1, h2⟩ := good_apply h op
    obtain ⟨b2, h3, h4⟩ := ih h2
    refine ⟨b2, ?_, h4⟩
    unfold PayloadBuffer.run
    rw [h1]; exact h3

theorem good_new (H : Hash) (c : Nat) : Good H c (PayloadBuffer.new c) :=
  ⟨new_inv H c, Nat.zero_le _, rfl⟩

theorem Good.consistent {H : Hash} {c : Nat} {b : PayloadBuffer} (h : Good H c b) :
    Consistent H c b := by
  have ht : b.total = (b.data.map (fun e => e.2.proofs.length)).sum := h.inv.total
  refine ⟨ht, ?_, h.inv.orderNodup, ?_, h.inv.keys, ?_, ?_⟩
  · rw [← ht, ← h.cap]; exact h.bound
  · intro r; rw [h.inv.order, AMap.mem_keys_iff]
  · intro r e he; obtain ⟨h1, h2, -⟩ := h.inv.ok r e he; exact ⟨h1, h2⟩
  · intro r e he
    obtain ⟨-, -, h3⟩ := h.inv.ok r e he
    refine h3.imp ?_
    intro p q hpq
    rw [← bitsIsSubset_iff_indices, ← bitsIsSubset_iff_indices]
    simp [hpq.1, hpq.2]

/-- Every operation sequence on a fresh buffer runs without counter underflow and ends in a
bounded, consistent buffer. -/
theorem C20_buffer_consistent (H : Hash) (capacity : Nat) (ops : List POp) :
    ∃ b, (PayloadBuffer.new capacity).run H ops = some b ∧ Consistent H capacity b := by
  obtain ⟨b, h1, h2⟩ := good_run (good_new H capacity) ops
  exact ⟨b, h1, h2.consistent⟩

/-- `drain` returns every stored (message, proof) pair, nothing else, and empties the buffer. -/
theorem C20_drain_exact (H : Hash) (capacity : Nat) (ops : List POp) (b : PayloadBuffer)
    (hb : (PayloadBuffer.new capacity).run H ops = some b) :
    b.drain.2.data = [] ∧ b.drain.2.order = [] ∧ b.drain.2.total = 0 ∧
    ∀ d p, (d, p) ∈ b.drain.1 ↔ ∃ r e, b.data.get? r = some e ∧ e.data = d ∧ p ∈ e.proofs := by
  obtain ⟨b', h1, h2⟩ := good_run (good_new H capacity) ops
  rw [hb] at h1; cases h1
  refine ⟨drain_data h2.inv, rfl, rfl, ?_⟩
  intro d p
  have := mem_drainLoop b.order b.data h2.inv.orderNodup (d, p)
  simp only [PayloadBuffer.drain, this]
  constructor
  · rintro ⟨r, -, e, he, h3, h4⟩; exact ⟨r, e, he, h3.symm, h4⟩
  · rintro ⟨r, e, he, h3, h4⟩
    exact ⟨r, (h2.inv.order r).2 (AMap.mem_keys_iff.2 ⟨e, he⟩), e, he, h3.symm, h4⟩

/-- `prune` removes exactly the messages whose target slot is at or below the finalized slot, and
returns how many. -/
theorem C20_prune_exact (H : Hash) (capacity : Nat) (ops : List POp) (b : PayloadBuffer)
    (hb : (PayloadBuffer.new capacity).run H ops = some b) (f : Nat) :
    ∃ b' n, b.prune f = some (b', n) ∧ n + b'.data.length = b.data.length ∧
      ∀ r e, b'.data.get? r = some e ↔ b.data.get? r = some e ∧ f < e.data.target.slot := by
  obtain ⟨b0, h1, h2⟩ := good_run (good_new H capacity) ops
  rw [hb] at h1; cases h1
  obtain ⟨b', n, h1, -, -, -, -, h6, h7⟩ := prune_spec PEntry.size (POk H)
    (fun e => decide (e.data.target.slot > f)) b h2.inv
  refine ⟨b', n, h1, h7, ?_⟩
  intro r e
  rw [h6, Option.filter_eq_some_iff]
  simp

/-! ## C21 -/

/-- `Hist H cap b g`: buffer `b` results from operations on a fresh buffer, and `g r` lists the
proofs pushed for message `r` since it (last) entered the buffer. A push for a message that is not
in the buffer starts a new list. (`push_batch` is a sequence of pushes.) -/
inductive Hist (H : Hash) (cap : Nat) : PayloadBuffer → (Root → List Agg) → Prop
  | new : Hist H cap (PayloadBuffer.new cap) (fun _ => [])
  | push {b : PayloadBuffer} {g : Root → List Agg} {d : AttData} {p : Agg} {b' : PayloadBuffer} :
      Hist H cap b g → b.push H d p = some b' →
      Hist H cap b' (fun r => if H.attData d = r then
        (if r ∈ b.order then g r ++ [p] else [p]) else g r)
  | drain {b : PayloadBuffer} {g : Root → List Agg} : Hist H cap b g →
      Hist H cap b.drain.2 (fun _ => [])
  | prune {b : PayloadBuffer} {g : Root → List Agg} {f : Nat} {b' : PayloadBuffer} {n : Nat} :
      Hist H cap b g → b.prune f = some (b', n) → Hist H cap b' g

/-- Coverage of a held message. -/
def CoverOk (r : Root) (ps : List Agg) (b : PayloadBuffer) : Prop :=
  ∃ e, b.data.get? r = some e ∧
    ∀ v : Nat, (∃ q ∈ e.proofs, v ∈ validatorIndices q.participants) ↔
      (∃ q ∈ ps, v ∈ validatorIndices q.participants)

theorem coverOk_of_push {H : Hash} {c : Nat} {b b' : PayloadBuffer} (h : Good H c b) {d : AttData}
    {p : Agg} (hp : b.push H d p = some b') {r : Root} (hr : r ∈ b'.order) :
    (r ∉ b.order → H.attData d = r ∧ CoverOk r [p] b') ∧
    (∀ ps, r ∈ b.order → CoverOk r ps b →
      CoverOk r (if H.attData d = r then ps ++ [p] else ps) b') := by
  obtain ⟨b1, h1, -, -, -, ⟨gone, h5, -⟩, h6, h7⟩ := push_spec H b d p h.inv h.bound
  rw [hp] at h1; cases h1
  constructor
  · intro hnin
    have hmem : r ∈ (if H.attData d ∈ b.order then b.order else b.order ++ [H.attData d]) := by
      rw [h5]; exact List.mem_append_right _ hr
    have hrd : H.attData d = r := by
      split at hmem
      · exact absurd hmem hnin
      · rcases List.mem_append.1 hmem with hm | hm
        · exact absurd hm hnin
        · exact (List.mem_singleton.1 hm).symm
    refine ⟨hrd, ?_⟩
    obtain ⟨e', he', hc⟩ := h7 (hrd ▸ hr)
    refine ⟨e', hrd ▸ he', ?_⟩
    intro v
    have hnone : b.data.get? (H.attData d) = none := by
      rw [hrd]; exact AMap.get?_eq_none_iff.2 (fun hk => hnin ((h.inv.order r).2 hk))
    have := hc v
    simp only [Covered, hnone] at this
    simp only [mem_validatorIndices, this]
    simp
  · intro ps hin ⟨e, he, hcov⟩
    by_cases hrd : H.attData d = r
    · rw [if_pos hrd]
      obtain ⟨e', he', hc⟩ := h7 (hrd ▸ hr)
      refine ⟨e', hrd ▸ he', ?_⟩
      intro v
      have h8 := hc v
      have h9 := hcov v
      rw [hrd, he] at h8
      simp only [mem_validatorIndices] at h9 ⊢
      simp only [Covered, Option.some.injEq, exists_eq_left'] at h8
      rw [h8, h9]
      constructor
      · rintro (⟨q, hq, hv⟩ | hv)
        · exact ⟨q, List.mem_append_left _ hq, hv⟩
        · exact ⟨p, by simp, hv⟩
      · rintro ⟨q, hq, hv⟩
        rcases List.mem_append.1 hq with hq | hq
        · exact Or.inl ⟨q, hq, hv⟩
        · rw [List.mem_singleton] at hq; subst hq; exact Or.inr hv
    · rw [if_neg hrd]
      exact ⟨e, by rw [h6 r hr (fun h => hrd h.symm)]; exact he, hcov⟩

theorem hist_good {H : Hash} {cap : Nat} {b : PayloadBuffer} {g : Root → List Agg}
    (h : Hist H cap b g) : Good H cap b ∧ ∀ r ∈ b.order, CoverOk r (g r) b := by
  induction h with
  | new => exact ⟨good_new H cap, fun r hr => by simp [PayloadBuffer.new] at hr⟩
  | @push b g d p b' _ hp ih =>
    obtain ⟨hg, ht⟩ := ih
    obtain ⟨b1, h1, h2⟩ := good_push hg d p
    rw [hp] at h1; cases h1
    refine ⟨h2, ?_⟩
    intro r hr
    obtain ⟨h3, h4⟩ := coverOk_of_push hg hp hr
    by_cases hin : r ∈ b.order
    · simpa only [if_pos hin] using h4 (g r) hin (ht r hin)
    · obtain ⟨h5, h6⟩ := h3 hin
      simpa only [if_pos h5, if_neg hin] using h6
  | drain _ ih => exact ⟨good_drain ih.1, fun r hr => by simp [PayloadBuffer.drain] at hr⟩
  | @prune b g f b' n _ hp ih =>
    obtain ⟨hg, ht⟩ := ih
    obtain ⟨b1, n1, h1, h2, h3, h4, h5, h6, -⟩ := prune_spec PEntry.size (POk H)
      (fun e => decide (e.data.target.slot > f)) b hg.inv
    have h1' : b.prune f = some (b1, n1) := h1
    rw [hp] at h1'; cases h1'
    refine ⟨⟨h2, by have := hg.bound; omega, h4.trans hg.cap⟩, ?_⟩
    intro r hr
    obtain ⟨e, he, hc⟩ := ht r (h5.subset hr)
    refine ⟨e, ?_, hc⟩
    obtain ⟨e', he'⟩ := AMap.mem_keys_iff.1 ((h2.order r).1 hr)
    have h7 := h6 r
    rw [he', he] at h7
    simp only [Option.filter] at h7
    split at h7
    · rw [he', h7]
    · cases h7

/-- For every message in a reachable buffer, the participants covered by the stored proofs are
exactly the participants of all proofs pushed since the message entered. -/
theorem C21_coverage (H : Hash) (capacity : Nat) (b : PayloadBuffer) (g : Root → List Agg)
    (h : Hist H capacity b g) (r : Root) (hr : r ∈ b.order) :
    ∃ e, b.data.get? r = some e ∧
      ∀ v : Nat, (∃ q ∈ e.proofs, v ∈ validatorIndices q.participants) ↔
        (∃ q ∈ g r, v ∈ validatorIndices q.participants) :=
  (hist_good h).2 r hr

/-- Histories cover every operation sequence. -/
theorem C21_hist_total (H : Hash) (capacity : Nat) (ops : List POp) (b : PayloadBuffer)
    (hb : (PayloadBuffer.new capacity).run H ops = some b) : ∃ g, Hist H capacity b g := by
  have batch : ∀ (es : List (AttData × Agg)) (b0 b : PayloadBuffer) g, Hist H capacity b0 g →
      b0.pushBatch H es = some b → ∃ g, Hist H capacity b g := by
    intro es
    induction es with
    | nil => intro b0 b g hg h; cases h; exact ⟨g, hg⟩
    | cons e es ih =>
      intro b0 b g hg h
      unfold PayloadBuffer.pushBatch at h
      obtain ⟨b1, h1, h2⟩ := good_push (hist_good hg).1 e.1 e.2
      rw [h1] at h
      exact ih b1 b _ (.push hg h1) h
  have key : ∀ (ops : List POp) (b0 b : PayloadBuffer) g, Hist H capacity b0 g →
      b0.run H ops = some b → ∃ g, Hist H capacity b g := by
    intro ops
    induction ops with
    | nil => intro b0 b g hg h; cases h; exact ⟨g, hg⟩
    | cons op ops ih =>
      intro b0 b g hg h
      unfold PayloadBuffer.run at h
      obtain ⟨b1, h1, -⟩ := good_apply (hist_good hg).1 op
      rw [h1] at h
      have : ∃ g1, Hist H capacity b1 g1 := by
        cases op with
        | push d p => exact ⟨_, .push hg h1⟩
        | pushBatch es => exact batch es b0 b1 g hg h1
        | drain =>
          simp only [PayloadBuffer.apply, Option.some.injEq] at h1
          subst h1; exact ⟨_, .drain hg⟩
        | prune f =>
          simp only [PayloadBuffer.apply] at h1
          cases hp : b0.prune f with
          | none => rw [hp] at h1; cases h1
          | some x =>
            rw [hp] at h1
            simp only [Option.map_some, Option.some.injEq] at h1
            subst h1
            exact ⟨_, .prune hg hp⟩
      obtain ⟨g1, hg1⟩ := this
      exact ih b1 b g1 hg1 h
  exact key ops _ b _ .new hb

/-- A push evicts the oldest messages only: what is removed is an initial segment of the arrival
order, the messages kept are otherwise unchanged, and nothing is removed while there is room. -/
theorem C21_eviction_oldest_first (H : Hash) (capacity : Nat) (ops : List POp) (b : PayloadBuffer)
    (hb : (PayloadBuffer.new capacity).run H ops = some b) (d : AttData) (p : Agg) :
    ∃ b' gone, b.push H d p = some b' ∧
      (if H.attData d ∈ b.order then b.order else b.order ++ [H.attData d]) = gone ++ b'.order ∧
      ((b.data.map (fun e => e.2.proofs.length)).sum < capacity → gone = []) ∧
      ∀ r ∈ b'.order, r ≠ H.attData d → b'.data.get? r = b.data.get? r := by
  obtain ⟨b0, h1, h2⟩ := good_run (good_new H capacity) ops
  rw [hb] at h1; cases h1
  obtain ⟨b', h1, -, -, -, ⟨gone, h5, h5'⟩, h6, -⟩ := push_spec H b d p h2.inv h2.bound
  refine ⟨b', gone, h1, h5, ?_, h6⟩
  intro hlt
  apply h5'
  have ht : b.total = (b.data.map (fun e => e.2.proofs.length)).sum := h2.inv.total
  rw [ht, h2.cap]; exact hlt

/-! ## Examples and a finding -/
namespace Ex
def exH : Hash := ⟨fun _ => 1, fun _ => 1, fun _ => 1, fun d => d.head.root⟩
def msg (r : Root) : AttData := ⟨5, ⟨r, 0⟩, ⟨0, 3⟩, ⟨0, 0⟩⟩
def pf (bits : Bits) : Agg := ⟨bits, 0⟩

/-- Two proofs for message 7, one for message 8, then a proof for 7 that subsumes both; and a
buffer of capacity 1 where message 8 evicts message 7. -/
example : ∃ b, (PayloadBuffer.new 3).run exH
      [.push (msg 7) (pf [true]), .push (msg 7) (pf [false, true]), .push (msg 8) (pf [true]),
       .push (msg 7) (pf [true, true])] = some b ∧ b.order = [7, 8] ∧ b.total = 2 ∧
      (b.data.get? 7).map (fun e => e.proofs) = some [pf [true, true]] :=
  ⟨_, rfl, by decide +kernel⟩
example : ∃ b, (PayloadBuffer.new 1).run exH
      [.push (msg 7) (pf [true]), .push (msg 8) (pf [true])] = some b ∧ b.order = [8] :=
  ⟨_, rfl, by decide +kernel⟩
end Ex

/-- Finding: a message whose own proofs exceed the capacity evicts itself, so the push that
overflows also discards the proof just received. Here capacity is 2 and three incomparable proofs
of one message leave the buffer empty. -/
theorem C21_self_eviction : ∃ (H : Hash) (ops : List POp) (b : PayloadBuffer),
    (PayloadBuffer.new 2).run H ops = some b ∧ b.data = [] ∧ b.order = [] ∧ ops.length = 3 :=
  ⟨Ex.exH, [.push (Ex.msg 7) (Ex.pf [true]), .push (Ex.msg 7) (Ex.pf [false, true]),
    .push (Ex.msg 7) (Ex.pf [false, false, true])], _, rfl, by decide +kernel⟩

end Verif.Buffers
