import Verif.Lemmas.Gossip
/-!
# C22: the gossip signature pool
-/
namespace Verif.Buffers
open Verif

/-- Operations on the pool. -/
inductive GOp
  | insert (d : AttData) (vid sig : Nat)
  | delete (keys : List (Nat × Root))
  | prune (finalizedSlot : Nat)

/-- Effect of an operation; `none` is an arithmetic underflow. -/
def GossipBuffer.apply (H : Hash) (b : GossipBuffer) : GOp → Option GossipBuffer
  | .insert d v s => b.insert H d v s
  | .delete ks => b.delete ks
  | .prune f => (b.prune f).map Prod.fst

def GossipBuffer.run (H : Hash) (b : GossipBuffer) : List GOp → Option GossipBuffer
  | [] => some b
  | op :: ops => (b.apply H op).bind (fun b' => b'.run H ops)

/-- What "bounded and consistent" means, in terms of the stored content only. -/
structure GConsistent (H : Hash) (capacity : Nat) (b : GossipBuffer) : Prop where
  counter : b.total = (b.data.map (fun e => e.2.sigs.length)).sum
  bounded : (b.data.map (fun e => e.2.sigs.length)).sum ≤ capacity
  orderNodup : b.order.Nodup
  orderExact : ∀ r, r ∈ b.order ↔ ∃ e, b.data.get? r = some e
  keys : b.data.keys.Nodup
  /-- every stored message is filed under its own root and has at least one signature -/
  entry : ∀ r e, b.data.get? r = some e → H.attData e.data = r ∧ e.sigs ≠ []
  /-- signatures are listed by strictly ascending validator index (what aggregation needs) -/
  ascending : ∀ r e, b.data.get? r = some e → (e.sigs.map Prod.fst).Pairwise (· < ·)

structure GGood (H : Hash) (capacity : Nat) (b : GossipBuffer) : Prop where
  inv : GInv H b
  bound : b.total ≤ b.capacity
  cap : b.capacity = capacity

theorem ggood_apply {H : Hash} {c : Nat} {b : GossipBuffer} (h : GGood H c b) (op : GOp) :
    ∃ b', b.apply H op = some b' ∧ GGood H c b' := by
  cases op with
  | insert d v s =>
    obtain ⟨b', h1, h2, h3, h4, -⟩ := ginsert_spec H b d v s h.inv h.bound
    exact ⟨b', h1, h2, h3, h4.trans h.cap⟩
  | delete ks =>
    obtain ⟨b', h1, h2, h3, h4, -⟩ := delete_spec H b ks h.inv
    exact ⟨b', h1, h2, by have := h.bound; omega, h4.trans h.cap⟩
  | prune f =>
    obtain ⟨b', n, h1, h2, h3, h4, -⟩ := prune_spec GEntry.size (GOk H)
      (fun e => decide (e.data.slot > f)) b h.inv
    refine ⟨b', ?_, h2, ?_, h4.trans h.cap⟩
    · simp only [GossipBuffer.apply, GossipBuffer.prune, h1, Option.map_some]
    · have := h.bound; omega

theorem ggood_run {H : Hash} {c : Nat} {b : GossipBuffer} (h : GGood H c b) (ops : List GOp) :
    ∃ b', b.run H ops = some b' ∧ GGood H c b' := by
  induction ops generalizing b with
  | nil => exact ⟨b, rfl, h⟩
  | cons op ops ih =>
    obtain ⟨b1, h1, h2⟩ := ggood_apply h op
    obtain ⟨b2, h3, h4⟩ := ih h2
    refine ⟨b2, ?_, h4⟩
    unfold GossipBuffer.run
    rw [h1]; exact h3

theorem ggood_new (H : Hash) (c : Nat) : GGood H c (GossipBuffer.new c) :=
  ⟨gnew_inv H c, Nat.zero_le _, rfl⟩

/-- Every operation sequence on a fresh pool runs without counter underflow and ends in a bounded,
consistent pool. -/
theorem C22_pool_consistent (H : Hash) (capacity : Nat) (ops : List GOp) :
    ∃ b, (GossipBuffer.new capacity).run H ops = some b ∧ GConsistent H capacity b := by
  obtain ⟨b, h1, h2⟩ := ggood_run (ggood_new H capacity) ops
  have ht : b.total = (b.data.map (fun e => e.2.sigs.length)).sum := h2.inv.total
  refine ⟨b, h1, ht, ?_, h2.inv.orderNodup, ?_, h2.inv.keys, ?_, ?_⟩
  · rw [← ht, ← h2.cap]; exact h2.bound
  · intro r; rw [h2.inv.order, AMap.mem_keys_iff]
  · intro r e he; exact ⟨(h2.inv.ok r e he).1, (h2.inv.ok r e he).2.1⟩
  · intro r e he; exact (h2.inv.ok r e he).2.2

/-- Deleting keys removes exactly those signatures. -/
theorem C22_delete_exact (H : Hash) (capacity : Nat) (ops : List GOp) (b : GossipBuffer)
    (hb : (GossipBuffer.new capacity).run H ops = some b) (ks : List (Nat × Root)) :
    ∃ b', b.delete ks = some b' ∧
      ∀ r v, sigOf b'.data r v = if (v, r) ∈ ks then none else sigOf b.data r v := by
  obtain ⟨b0, h1, h2⟩ := ggood_run (ggood_new H capacity) ops
  rw [hb] at h1; cases h1
  obtain ⟨b', h1, -, -, -, -, h6, -⟩ := delete_spec H b ks h2.inv
  exact ⟨b', h1, h6⟩

/-- Inserting stores the signature (replacing an older one of the same validator for the same
message), changes no other signature of a message that stays, and evicts only oldest messages,
and only when the pool is full. -/
theorem C22_insert_exact (H : Hash) (capacity : Nat) (ops : List GOp) (b : GossipBuffer)
    (hb : (GossipBuffer.new capacity).run H ops = some b) (d : AttData) (vid sig : Nat) :
    ∃ b' gone, b.insert H d vid sig = some b' ∧
      (if H.attData d ∈ b.order then b.order else b.order ++ [H.attData d]) = gone ++ b'.order ∧
      ((b.data.map (fun e => e.2.sigs.length)).sum < capacity → gone = []) ∧
      ∀ r ∈ b'.order, ∀ v, sigOf b'.data r v =
        if H.attData d = r ∧ vid = v then some sig else sigOf b.data r v := by
  obtain ⟨b0, h1, h2⟩ := ggood_run (ggood_new H capacity) ops
  rw [hb] at h1; cases h1
  obtain ⟨b', h1, -, -, -, ⟨gone, h5, h5'⟩, h6⟩ := ginsert_spec H b d vid sig h2.inv h2.bound
  refine ⟨b', gone, h1, h5, ?_, h6⟩
  intro hlt
  apply h5'
  have ht : b.total = (b.data.map (fun e => e.2.sigs.length)).sum := h2.inv.total
  rw [ht, h2.cap]; exact hlt

/-- `prune` removes exactly the messages whose slot is at or below the finalized slot. -/
theorem C22_prune_exact (H : Hash) (capacity : Nat) (ops : List GOp) (b : GossipBuffer)
    (hb : (GossipBuffer.new capacity).run H ops = some b) (f : Nat) :
    ∃ b' n, b.prune f = some (b', n) ∧ n + b'.data.length = b.data.length ∧
      ∀ r e, b'.data.get? r = some e ↔ b.data.get? r = some e ∧ f < e.data.slot := by
  obtain ⟨b0, h1, h2⟩ := ggood_run (ggood_new H capacity) ops
  rw [hb] at h1; cases h1
  obtain ⟨b', n, h1, -, -, -, -, h6, h7⟩ := prune_spec GEntry.size (GOk H)
    (fun e => decide (e.data.slot > f)) b h2.inv
  refine ⟨b', n, h1, h7, ?_⟩
  intro r e
  rw [h6, Option.filter_eq_some_iff]
  simp

/-- The early-aggregation count for a slot is the largest number of signatures stored for one
message of that slot. -/
theorem C22_max_group (b : GossipBuffer) (slot : Nat) :
    (∀ x ∈ b.data, x.2.data.slot = slot → x.2.sigs.length ≤ b.maxGroupCountForSlot slot) ∧
    (b.maxGroupCountForSlot slot = 0 ∨
      ∃ x ∈ b.data, x.2.data.slot = slot ∧ x.2.sigs.length = b.maxGroupCountForSlot slot) := by
  unfold GossipBuffer.maxGroupCountForSlot
  have key : ∀ (l : List Nat) (a : Nat),
      (∀ x ∈ l, x ≤ l.foldl max a) ∧ a ≤ l.foldl max a ∧
      (l.foldl max a = a ∨ l.foldl max a ∈ l) := by
    intro l
    induction l with
    | nil => intro a; simp
    | cons y l ih =>
      intro a
      obtain ⟨h1, h2, h3⟩ := ih (max a y)
      rw [List.foldl_cons]
      refine ⟨?_, by omega, ?_⟩
      · intro x hx
        rcases List.mem_cons.1 hx with rfl | hx
        · omega
        · exact h1 x hx
      · rcases h3 with h3 | h3
        · rw [h3]
          rcases Nat.le_total a y with h | h
          · right; rw [Nat.max_eq_right h]; simp
          · left; exact Nat.max_eq_left h
        · exact Or.inr (List.mem_cons_of_mem _ h3)
  obtain ⟨h1, -, h3⟩ := key ((b.data.filter (fun x => decide (x.2.data.slot = slot))).map
    (fun x => x.2.sigs.length)) 0
  constructor
  · intro x hx hs
    exact h1 _ (List.mem_map.2 ⟨x, List.mem_filter.2 ⟨hx, by simpa using hs⟩, rfl⟩)
  · rcases h3 with h3 | h3
    · exact Or.inl h3
    · right
      obtain ⟨x, hx, hl⟩ := List.mem_map.1 h3
      rw [List.mem_filter] at hx
      exact ⟨x, hx.1, by simpa using hx.2, hl⟩

/-- Two messages, three signatures, deletion of one message's last signature. -/
example : ∃ (H : Hash) (d7 d8 : AttData) (b : GossipBuffer),
    (GossipBuffer.new 3).run H [.insert d7 4 40, .insert d8 1 10, .insert d7 2 20,
      .delete [(1, 8), (9, 7)]] = some b ∧ b.order = [7] ∧ b.total = 2 ∧
      (b.data.get? 7).map (fun e => e.sigs) = some [(2, 20), (4, 40)] :=
  ⟨⟨fun _ => 1, fun _ => 1, fun _ => 1, fun d => d.head.root⟩,
    ⟨5, ⟨7, 0⟩, ⟨0, 3⟩, ⟨0, 0⟩⟩, ⟨5, ⟨8, 0⟩, ⟨0, 3⟩, ⟨0, 0⟩⟩, _, rfl, by decide +kernel⟩

end Verif.Buffers
