import Verif.Model.Actor
import Verif.Lemmas.AMap
/-!
# What `discard_pending_subtree` removes
-/
namespace Verif.Node
open Verif Verif.Db

/-- `c` waits directly for `k`. -/
def Edge (m : Pending) (k c : Root) : Prop := ∃ l, m.get? k = some l ∧ c ∈ l

/-- `x` is `r` or waits, directly or not, for `r`. -/
inductive Waits (m : Pending) (r : Root) : Root → Prop
  | self : Waits m r r
  | step {k c : Root} : Waits m r k → Edge m k c → Waits m r c

/-- `m'` keeps some entries of `m` unchanged and has no others. -/
def SubMap (m' m : Pending) : Prop := ∀ k, m'.get? k = none ∨ m'.get? k = m.get? k

theorem SubMap.refl (m : Pending) : SubMap m m := fun _ => .inr rfl

theorem SubMap.trans {a b c : Pending} (h1 : SubMap a b) (h2 : SubMap b c) : SubMap a c := by
  intro k
  rcases h1 k with h | h
  · exact .inl h
  · rw [h]; exact h2 k

theorem SubMap.edge {a b : Pending} (h : SubMap a b) {k c : Root} (e : Edge a k c) : Edge b k c := by
  obtain ⟨l, h1, h2⟩ := e
  rcases h k with h | h
  · rw [h] at h1; cases h1
  · exact ⟨l, by rw [← h]; exact h1, h2⟩

theorem SubMap.waits {a b : Pending} (h : SubMap a b) {r x : Root} (w : Waits a r x) :
    Waits b r x := by
  induction w with
  | self => exact .self
  | step _ e ih => exact .step ih (h.edge e)

theorem SubMap.erase (m : Pending) (r : Root) : SubMap (m.erase r) m := by
  intro k
  rw [AMap.get?_erase]
  split
  · exact .inl rfl
  · exact .inr rfl

theorem Waits.trans {m : Pending} {a b c : Root} (h1 : Waits m a b) (h2 : Waits m b c) :
    Waits m a c := by
  induction h2 with
  | self => exact h1
  | step _ e ih => exact .step ih e

/-- The effect of removing the subtrees of the roots in `L`. -/
structure Removed (m : Pending) (ps : AMap Root Root) (L : List Root) (E : List Root)
    (m' : Pending) (ps' : AMap Root Root) : Prop where
  sub : SubMap m' m
  gone : ∀ c ∈ L, m'.get? c = none
  closed : ∀ k c, m'.get? k = none → Edge m k c → m'.get? c = none
  only : ∀ k, m.get? k ≠ none → m'.get? k = none → ∃ c ∈ L, Waits m c k
  par : ∀ x, (x ∈ E ∨ ∃ k, m'.get? k = none ∧ Edge m k x) → ps'.get? x = none
  parKeep : ∀ x, x ∉ E → (∀ k, m'.get? k = none → ¬ Edge m k x) → ps'.get? x = ps.get? x
  sl : List.Sublist m' m

theorem Removed.len {m : Pending} {ps : AMap Root Root} {L E : List Root} {m' : Pending}
    {ps' : AMap Root Root} (h : Removed m ps L E m' ps') : m'.length ≤ m.length :=
  h.sl.length_le

theorem Removed.cons {m : Pending} {ps : AMap Root Root} {c : Root} {L E : List Root}
    {m1 : Pending} {ps1 : AMap Root Root} {m2 : Pending} {ps2 : AMap Root Root}
    (h1 : Removed m (ps.erase c) [c] [] m1 ps1) (h2 : Removed m1 ps1 L E m2 ps2) :
    Removed m ps (c :: L) (c :: E) m2 ps2 := by
  have hkeep : ∀ k, m1.get? k ≠ none → m1.get? k = m.get? k := fun k hk =>
    (h1.sub k).resolve_left hk
  have hcl : ∀ k x, m2.get? k = none → Edge m k x → m2.get? x = none := by
    intro k x hk e
    by_cases hk1 : m1.get? k = none
    · have := h1.closed k x hk1 e
      rcases h2.sub x with h | h
      · exact h
      · rw [h]; exact this
    · obtain ⟨l, e1, e2⟩ := e
      exact h2.closed k x hk ⟨l, by rw [hkeep k hk1]; exact e1, e2⟩
  refine ⟨h2.sub.trans h1.sub, ?_, hcl, ?_, ?_, ?_, h2.sl.trans h1.sl⟩
  · intro x hx
    rcases List.mem_cons.1 hx with rfl | hx
    · rcases h2.sub x with h | h
      · exact h
      · rw [h]; exact h1.gone x List.mem_cons_self
    · exact h2.gone x hx
  · intro k hk hk2
    by_cases hk1 : m1.get? k = none
    · obtain ⟨c', hc, w⟩ := h1.only k hk hk1
      rw [List.mem_singleton.1 hc] at w
      exact ⟨c, List.mem_cons_self, w⟩
    · obtain ⟨c', hc, w⟩ := h2.only k hk1 hk2
      exact ⟨c', List.mem_cons_of_mem _ hc, h1.sub.waits w⟩
  · intro x hx
    by_cases h2x : x ∈ E ∨ ∃ k, m2.get? k = none ∧ Edge m1 k x
    · exact h2.par x h2x
    · simp only [not_or, not_exists, not_and] at h2x
      rw [h2.parKeep x h2x.1 h2x.2]
      rcases hx with hx | ⟨k, hk, e⟩
      · rcases List.mem_cons.1 hx with rfl | hx
        · by_cases hq : ∃ k, m1.get? k = none ∧ Edge m k x
          · exact h1.par x (.inr hq)
          · simp only [not_exists, not_and] at hq
            rw [h1.parKeep x List.not_mem_nil hq, AMap.get?_erase]
            simp
        · exact absurd hx h2x.1
      · by_cases hk1 : m1.get? k = none
        · exact h1.par x (.inr ⟨k, hk1, e⟩)
        · obtain ⟨l, e1, e2⟩ := e
          exact absurd ⟨l, by rw [hkeep k hk1]; exact e1, e2⟩ (h2x.2 k hk)
  · intro x hx hn
    have hxc : x ≠ c := fun h => hx (h ▸ List.mem_cons_self)
    have hxE : x ∉ E := fun h => hx (List.mem_cons_of_mem _ h)
    rw [h2.parKeep x hxE (fun k hk e => hn k hk (h1.sub.edge e)),
      h1.parKeep x List.not_mem_nil ?_, AMap.get?_erase, if_neg (fun h => hxc h.symm)]
    intro k hk e
    refine hn k ?_ e
    rcases h2.sub k with h | h
    · exact h
    · rw [h]; exact hk

theorem erase_length {m : Pending} {r : Root} {l : List Root} (h : m.get? r = some l) :
    (m.erase r).length < m.length := by
  unfold AMap.erase
  exact List.length_filter_lt_length_iff_exists.2 ⟨_, AMap.mem_of_get? h, by simp⟩

/-- `discard` succeeds with enough fuel, and removes exactly the subtree. -/
theorem discard_removed {order : List Root → List Root} (ho : ∀ l, (order l).Perm l) :
    ∀ (n : Nat) (r : Root) (m : Pending) (ps : AMap Root Root), m.length < n →
    ∃ m' ps', discard order n r (m, ps) = .ok (m', ps') ∧ Removed m ps [r] [] m' ps' := by
  intro n
  induction n with
  | zero => intro r m ps h; omega
  | succ n ih =>
    -- the loop over the children
    have loop : ∀ (L : List Root) (m : Pending) (ps : AMap Root Root), m.length < n →
        ∃ m' ps', foldP (fun st c => discard order n c (st.1, st.2.erase c)) (m, ps) L =
          .ok (m', ps') ∧ Removed m ps L L m' ps' := by
      intro L
      induction L with
      | nil =>
        intro m ps _
        refine ⟨m, ps, rfl, .refl m, fun c hc => absurd hc List.not_mem_nil, ?_,
          fun k hk hk' => absurd hk' hk, ?_, fun _ _ _ => rfl, .refl _⟩
        · rintro k c hk ⟨l, e, -⟩; rw [hk] at e; cases e
        · rintro x (hx | ⟨k, hk, l, e, -⟩)
          · exact absurd hx List.not_mem_nil
          · rw [hk] at e; cases e
      | cons c L ihL =>
        intro m ps hm
        obtain ⟨m1, ps1, e1, h1⟩ := ih c m (ps.erase c) hm
        obtain ⟨m2, ps2, e2, h2⟩ := ihL m1 ps1 (Nat.lt_of_le_of_lt h1.len hm)
        refine ⟨m2, ps2, ?_, h1.cons h2⟩
        unfold foldP
        simp only
        rw [e1]
        exact e2
    intro r m ps hm
    unfold discard
    cases hr : m.get? r with
    | none =>
      refine ⟨m, ps, rfl, .refl m, ?_, ?_, fun k hk hk' => absurd hk' hk, ?_, fun _ _ _ => rfl,
        .refl _⟩
      · intro c hc; rw [List.mem_singleton.1 hc]; exact hr
      · rintro k c hk ⟨l, e, -⟩; rw [hk] at e; cases e
      · rintro x (hx | ⟨k, hk, l, e, -⟩)
        · exact absurd hx List.not_mem_nil
        · rw [hk] at e; cases e
    | some l =>
      have hlen := erase_length hr
      obtain ⟨m', ps', e, h⟩ := loop (order l) (m.erase r) ps (by omega)
      have hmem : ∀ c, c ∈ order l ↔ c ∈ l := fun c => (ho l).mem_iff
      have hr' : m'.get? r = none := by
        rcases h.sub r with h | h
        · exact h
        · rw [h, AMap.get?_erase]; simp
      have hother : ∀ k, k ≠ r → (m.erase r).get? k = m.get? k := by
        intro k hk
        rw [AMap.get?_erase, if_neg (fun h => hk h.symm)]
      have hedge : ∀ k c, Edge m k c → (k = r ∧ c ∈ l) ∨ Edge (m.erase r) k c := by
        rintro k c ⟨l', e1, e2⟩
        by_cases hk : k = r
        · subst hk
          rw [hr] at e1
          cases e1
          exact .inl ⟨rfl, e2⟩
        · exact .inr ⟨l', by rw [hother k hk]; exact e1, e2⟩
      refine ⟨m', ps', e, h.sub.trans (.erase m r), ?_, ?_, ?_, ?_, ?_, ?_⟩
      · intro c hc; rw [List.mem_singleton.1 hc]; exact hr'
      · intro k c hk he
        rcases hedge k c he with ⟨-, h'⟩ | h'
        · exact h.gone c ((hmem c).2 h')
        · exact h.closed k c hk h'
      · intro k hk hk'
        refine ⟨r, List.mem_singleton.2 rfl, ?_⟩
        by_cases hkr : k = r
        · rw [hkr]; exact .self
        · obtain ⟨c, hc, w⟩ := h.only k (by rw [hother k hkr]; exact hk) hk'
          exact Waits.trans (.step .self ⟨l, hr, (hmem c).1 hc⟩) ((SubMap.erase m r).waits w)
      · rintro x (hx | ⟨k, hk, he⟩)
        · exact absurd hx List.not_mem_nil
        · rcases hedge k x he with ⟨-, h'⟩ | h'
          · exact h.par x (.inl ((hmem x).2 h'))
          · exact h.par x (.inr ⟨k, hk, h'⟩)
      · intro x _ hn
        refine h.parKeep x (fun hx => hn r hr' ⟨l, hr, (hmem x).1 hx⟩) (fun k hk he => ?_)
        exact hn k hk ((SubMap.erase m r).edge he)
      · exact h.sl.trans List.filter_sublist

end Verif.Node
