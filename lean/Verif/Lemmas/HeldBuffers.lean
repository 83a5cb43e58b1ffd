import Verif.Lemmas.StoreInv
/-!
# Conditions on the entries of the buffers are kept by every operation
-/
namespace Verif.Buffers
open Verif Verif.Node

variable {E : Type} {Q : Root → E → Prop}

/-- Every entry satisfies the condition. -/
def All (Q : Root → E → Prop) (m : AMap Root E) : Prop := ∀ x ∈ m, Q x.1 x.2

theorem All.get {m : AMap Root E} (h : All Q m) {r : Root} {e : E} (hg : m.get? r = some e) :
    Q r e := h _ (AMap.mem_of_get? hg)

theorem All.insert {m : AMap Root E} (h : All Q m) {r : Root} {e : E} (he : Q r e) :
    All Q (m.insert r e) := by
  intro x hx
  rcases mem_insert_imp hx with rfl | hx
  · exact he
  · exact h x hx

theorem All.erase {m : AMap Root E} (h : All Q m) (r : Root) : All Q (m.erase r) :=
  fun x hx => h x (List.mem_filter.1 hx).1

theorem evict_all {size : E → Nat} {cap : Nat} : ∀ {o : List Root} {m : AMap Root E} {t : Nat}
    {y : List Root × AMap Root E × Nat}, All Q m → evict size cap o m t = some y → All Q y.2.1
  | [], m, t, y, h, e => by cases e; exact h
  | r :: o, m, t, y, h, e => by
    unfold evict at e
    split at e
    · split at e
      · obtain ⟨t', -, e⟩ := Option.bind_eq_some_iff.1 e
        exact evict_all (h.erase r) e
      · exact evict_all h e
    · cases e; exact h

theorem fevict_all {size : E → Nat} {b b' : Fifo E} (h : All Q b.data)
    (e : Fifo.evict size b = some b') : All Q b'.data := by
  obtain ⟨y, hy, rfl⟩ := Option.map_eq_some_iff.1 e
  exact evict_all h hy

theorem retain_all {size : E → Nat} {keep : E → Bool} : ∀ {m : AMap Root E} {t : Nat}
    {y : AMap Root E × Nat}, All Q m → retain size keep m t = some y → All Q y.1
  | [], t, y, h, e => by cases e; exact h
  | (r, x) :: m, t, y, h, e => by
    have hm : All Q m := fun z hz => h z (List.mem_cons_of_mem _ hz)
    unfold retain at e
    split at e
    · obtain ⟨y', hy, rfl⟩ := Option.map_eq_some_iff.1 e
      intro z hz
      rcases List.mem_cons.1 hz with rfl | hz
      · exact h _ List.mem_cons_self
      · exact retain_all hm hy z hz
    · obtain ⟨t', -, e⟩ := Option.bind_eq_some_iff.1 e
      exact retain_all hm e

theorem prune_all {size : E → Nat} {keep : E → Bool} {b : Fifo E} {y : Fifo E × Nat}
    (h : All Q b.data) (e : Fifo.prune size keep b = some y) : All Q y.1.data := by
  obtain ⟨z, hz, rfl⟩ := Option.map_eq_some_iff.1 e
  exact retain_all h hz

theorem mem_swapRemove {α : Type} {l : List α} {i : Nat} {x : α} (h : x ∈ swapRemove l i) :
    x ∈ l := by
  unfold swapRemove at h
  split at h
  · exact h
  next y hy =>
    have := (List.dropLast_sublist _).subset h
    rcases List.mem_or_eq_of_mem_set this with h | rfl
    · exact h
    · exact List.mem_of_getLast? hy

theorem mem_removeAll : ∀ {is : List Nat} {ps : List Agg} {t : Nat} {y : List Agg × Nat} {x : Agg},
    removeAll is ps t = some y → x ∈ y.1 → x ∈ ps
  | [], ps, t, y, x, e, h => by cases e; exact h
  | i :: is, ps, t, y, x, e, h => by
    unfold removeAll at e
    obtain ⟨t', -, e⟩ := Option.bind_eq_some_iff.1 e
    exact mem_swapRemove (mem_removeAll e h)

/-- An entry of a payload buffer is filed under its root and holds only good aggregates. -/
def PQ (H : Hash) (D : AttData → Prop) (P : AttData → Agg → Prop) (r : Root) (e : PEntry) : Prop :=
  H.attData e.data = r ∧ D e.data ∧ ∀ g ∈ e.proofs, P e.data g

/-- An entry of the gossip buffer is filed under its root and holds only good signatures. -/
def GQ (H : Hash) (D : AttData → Prop) (G : Nat → AttData → Nat → Prop) (r : Root) (e : GEntry) :
    Prop := H.attData e.data = r ∧ D e.data ∧ ∀ x ∈ e.sigs, G x.1 e.data x.2

variable {H : Hash} {D : AttData → Prop} {P : AttData → Agg → Prop} {G : Nat → AttData → Nat → Prop}

theorem push_all (hD : ∀ d d', D d → D d' → H.attData d = H.attData d' → d = d')
    {b b' : PayloadBuffer} {d : AttData} {g : Agg} (h : All (PQ H D P) b.data) (hd : D d)
    (hp : P d g) (e : b.push H d g = some b') : All (PQ H D P) b'.data := by
  unfold PayloadBuffer.push at e
  simp only at e
  split at e
  next entry hg =>
    obtain ⟨q1, q2, q3⟩ := h.get hg
    have hdd := hD _ _ q2 hd q1
    split at e
    · cases e; exact h
    · obtain ⟨y, hy, e⟩ := Option.bind_eq_some_iff.1 e
      refine fevict_all ?_ e
      refine h.insert ⟨q1, q2, fun x hx => ?_⟩
      rcases List.mem_append.1 hx with hx | hx
      · exact q3 x (mem_removeAll hy hx)
      · rw [List.mem_singleton.1 hx]
        show P entry.data g
        rw [hdd]; exact hp
  next hg =>
    refine fevict_all ?_ e
    refine h.insert ⟨rfl, hd, fun x hx => ?_⟩
    rw [List.mem_singleton.1 hx]; exact hp

theorem pushBatch_all (hD : ∀ d d', D d → D d' → H.attData d = H.attData d' → d = d') :
    ∀ {l : List (AttData × Agg)} {b b' : PayloadBuffer}, All (PQ H D P) b.data →
      (∀ x ∈ l, D x.1 ∧ P x.1 x.2) → b.pushBatch H l = some b' → All (PQ H D P) b'.data
  | [], b, b', h, _, e => by cases e; exact h
  | (d, g) :: l, b, b', h, hl, e => by
    unfold PayloadBuffer.pushBatch at e
    obtain ⟨b1, e1, e⟩ := Option.bind_eq_some_iff.1 e
    obtain ⟨h1, h2⟩ := hl _ List.mem_cons_self
    exact pushBatch_all hD (push_all hD h h1 h2 e1) (fun x hx => hl x (List.mem_cons_of_mem _ hx)) e

theorem drainLoop_all : ∀ {o : List Root} {m : AMap Root PEntry}, All (PQ H D P) m →
    ∀ x ∈ drainLoop o m, D x.1 ∧ P x.1 x.2
  | [], m, h, x, hx => by cases hx
  | r :: o, m, h, x, hx => by
    unfold drainLoop at hx
    split at hx
    next e he =>
      rcases List.mem_append.1 hx with hx | hx
      · obtain ⟨g, hg, rfl⟩ := List.mem_map.1 hx
        obtain ⟨q1, q2, q3⟩ := h.get he
        exact ⟨q2, q3 g hg⟩
      · exact drainLoop_all (h.erase r) x hx
    · exact drainLoop_all h x hx

theorem drainRest_all : ∀ {o : List Root} {m : AMap Root PEntry} {Q : Root → PEntry → Prop},
    All Q m → All Q (drainRest o m)
  | [], _, _, h => h
  | r :: o, _, _, h => drainRest_all (o := o) (h.erase r)

theorem mem_bmap {α : Type} {k : Nat} {v : α} : ∀ {m : BMap α} {x : Nat × α},
    x ∈ BMap.insert k v m → x = (k, v) ∨ x ∈ m
  | [], x, h => by simp [BMap.insert] at h; exact .inl h
  | (k', v') :: m, x, h => by
    unfold BMap.insert at h
    split at h
    · rcases List.mem_cons.1 h with h | h
      · exact .inl h
      · exact .inr h
    split at h
    · rcases List.mem_cons.1 h with h | h
      · exact .inl h
      · exact .inr (List.mem_cons_of_mem _ h)
    · rcases List.mem_cons.1 h with h | h
      · exact .inr (by rw [h]; exact List.mem_cons_self)
      · exact (mem_bmap h).imp id (List.mem_cons_of_mem _)

theorem ginsert_all (hD : ∀ d d', D d → D d' → H.attData d = H.attData d' → d = d')
    {b b' : GossipBuffer} {d : AttData} {v sig : Nat} (h : All (GQ H D G) b.data) (hd : D d)
    (hg : G v d sig) (e : b.insert H d v sig = some b') : All (GQ H D G) b'.data := by
  unfold GossipBuffer.insert at e
  simp only at e
  split at e
  next entry he =>
    obtain ⟨q1, q2, q3⟩ := h.get he
    have hdd := hD _ _ q2 hd q1
    refine fevict_all ?_ e
    refine h.insert ⟨q1, q2, fun x hx => ?_⟩
    rcases mem_bmap hx with rfl | hx
    · show G v entry.data sig
      rw [hdd]; exact hg
    · exact q3 x hx
  next he =>
    refine fevict_all ?_ e
    refine h.insert ⟨rfl, hd, fun x hx => ?_⟩
    rcases mem_bmap hx with rfl | hx
    · exact hg
    · cases hx

theorem deleteLoop_all : ∀ {ks : List (Nat × Root)} {m : AMap Root GEntry} {t : Nat} {em : List Root}
    {y : AMap Root GEntry × Nat × List Root}, All (GQ H D G) m →
    deleteLoop ks m t em = some y → All (GQ H D G) y.1
  | [], m, t, em, y, h, e => by cases e; exact h
  | (v, r) :: ks, m, t, em, y, h, e => by
    unfold deleteLoop at e
    split at e
    · exact deleteLoop_all h e
    next x hx =>
      simp only at e
      obtain ⟨t', -, e⟩ := Option.bind_eq_some_iff.1 e
      split at e
      · exact deleteLoop_all (h.erase r) e
      · obtain ⟨q1, q2, q3⟩ := h.get hx
        have hq : GQ H D G r { x with sigs := AMap.erase x.sigs v } :=
          ⟨q1, q2, fun z hz => q3 z (List.mem_filter.1 hz).1⟩
        exact deleteLoop_all (h.insert hq) e

theorem gdelete_all {b b' : GossipBuffer} {ks : List (Nat × Root)} (h : All (GQ H D G) b.data)
    (e : b.delete ks = some b') : All (GQ H D G) b'.data := by
  unfold GossipBuffer.delete at e
  split at e
  · cases e; exact h
  · obtain ⟨y, hy, rfl⟩ := Option.map_eq_some_iff.1 e
    exact deleteLoop_all h hy

end Verif.Buffers

namespace Verif.Votes
open Verif Verif.Node

variable {H : Hash} {V : Nat → AttData → Prop}

/-- Every recorded vote satisfies the condition. -/
def AllV (V : Nat → AttData → Prop) (m : AMap Nat AttData) : Prop := ∀ x ∈ m, V x.1 x.2

theorem recordVote_all {m : AMap Nat AttData} {v : Nat} {d : AttData} (h : AllV V m) (hv : V v d) :
    AllV V (recordVote H m v d) := by
  have hi : AllV V (m.insert v d) := by
    intro x hx
    rcases mem_insert_imp hx with rfl | hx
    · exact hv
    · exact h x hx
  unfold recordVote
  split
  · exact hi
  · split
    · exact hi
    · exact h

theorem foldVotes_all : ∀ {l : List (Nat × AttData)} {m : AMap Nat AttData}, AllV V m →
    (∀ x ∈ l, V x.1 x.2) → AllV V (l.foldl (fun m e => recordVote H m e.1 e.2) m)
  | [], _, h, _ => h
  | x :: l, _, h, hl => by
    rw [List.foldl_cons]
    exact foldVotes_all (recordVote_all h (hl x List.mem_cons_self))
      (fun y hy => hl y (List.mem_cons_of_mem _ hy))

theorem recordAll_all {m : AMap Nat AttData} {bits : Bits} {d : AttData} (h : AllV V m)
    (hb : ∀ v : Nat, bits[v]? = some true → V v d) : AllV V (recordAll H m bits d) := by
  unfold recordAll
  have hl : ∀ v ∈ validatorIndices bits, V v d := by
    intro v hv
    have := (List.mem_filter.1 hv).2
    exact hb v (by simpa using this)
  generalize validatorIndices bits = l at hl
  induction l generalizing m with
  | nil => exact h
  | cons v l ih =>
    rw [List.foldl_cons]
    exact ih (recordVote_all h (hl v List.mem_cons_self))
      (fun y hy => hl y (List.mem_cons_of_mem _ hy))

theorem recordEntries_all : ∀ {l : List AggVote} {m : AMap Nat AttData}, AllV V m →
    (∀ x ∈ l, ∀ v : Nat, x.1[v]? = some true → V v x.2) →
    AllV V (l.foldl (fun m e => recordAll H m e.1 e.2) m)
  | [], _, h, _ => h
  | x :: l, _, h, hl => by
    rw [List.foldl_cons]
    exact recordEntries_all (recordAll_all h (hl x List.mem_cons_self))
      (fun y hy => hl y (List.mem_cons_of_mem _ hy))

end Verif.Votes
