import Verif.Lemmas.Neighbours
import Mathlib.Algebra.Field.ZMod
import Mathlib.Data.Finset.Card
import Mathlib.Combinatorics.Pigeonhole
import Mathlib.Tactic.LinearCombination
/-!
# C101: what can be finalized while some validators are offline

Proposers take turns: the block of slot `k` is proposed by validator `k` modulo the number of
validators. While the validators outside a set `Q` propose nothing, the slots that are theirs stay
empty. A slot can be justified only if it has a block and its distance from the finalized slot is
at most five, a square or a product of two consecutive numbers; it is finalized only together with
a vote for the next such slot.
-/
namespace Verif
open JustifiedSlots Build

/-- Slot `k` may be justified while slot `f` is the finalized one. -/
def MayJustify (f k : Nat) : Prop := f ≤ k ∧ JustifiableDistance (k - f)

/-- The chain state `s` reports slot `k` as justified. -/
def IsJustified (s : State) (k : Nat) : Prop :=
  isSlotJustified s.justifiedSlots s.latestFinalized.slot k = some true

/-- Slot `k` has a block on the chain, or the slot is still ahead and belongs to a member of `Q`. -/
def CanHaveBlock (n : Nat) (bs : List Block) (s : State) (Q : List Nat) (k : Nat) : Prop :=
  (∃ x ∈ bs, x.slot = k) ∨ (s.slot < k ∧ k % n ∈ Q)

/-- Slots `a < b` after the finalized slot that have, or can get, a block; `a` is justified or may
be, `b` may be and is not; no slot between may be justified; and a member of `Q` has a slot `c`
after `b` and after the head, before the history is full. -/
structure FinalizablePair (n : Nat) (bs : List Block) (s : State) (Q : List Nat) (a b c : Nat) :
    Prop where
  after : s.latestFinalized.slot < a
  order : a < b
  justA : IsJustified s a ∨ MayJustify s.latestFinalized.slot a
  justB : MayJustify s.latestFinalized.slot b
  notB : ¬ IsJustified s b
  between : ∀ m, a < m → m < b → ¬ MayJustify s.latestFinalized.slot m
  blockA : CanHaveBlock n bs s Q a
  blockB : CanHaveBlock n bs s Q b
  later : b < c
  ahead : s.slot < c
  turn : c % n ∈ Q
  room : c ≤ historicalRootsLimit

theorem mayJustify_iff {f k : Nat} (h : k ≤ historicalRootsLimit) :
    slotIsJustifiableAfter k f = true ↔ MayJustify f k := by
  have : historicalRootsLimit = 262144 := by decide
  exact C01_justifiable_iff k f (by omega)

theorem isJustified_iff {s : State} {k : Nat} :
    IsJustified s k ↔ jst s.justifiedSlots s.latestFinalized.slot k = true :=
  ⟨fun h => by unfold IsJustified at h; unfold jst; rw [h]; rfl, jst_eq_true⟩

/-- **C101, if.** Given such a pair of slots, two thirds of the validators alone finalize the
earlier slot, with their own blocks and their own votes. -/
theorem C101_enough {H : Hash} (hz : ∀ s, H.state s ≠ 0) (hzh : ∀ h, H.header h ≠ 0) {t : Nat}
    {vals : List Validator} {bs : List Block} {s : State}
    (hc : Chain H (State.fromGenesis H t vals) bs s) (hv : 0 < vals.length)
    (hvl : vals.length ≤ validatorRegistryLimit) {Q : List Nat} (hq : Q.Nodup)
    (hqn : ∀ v ∈ Q, v < vals.length) (hq3 : 2 * vals.length ≤ 3 * Q.length) {a b c : Nat}
    (hp : FinalizablePair vals.length bs s Q a b c) :
    ∃ cs s', Chain H s cs s' ∧ s'.slot = c ∧ s'.latestFinalized.slot = a ∧
      (∀ x ∈ cs, x.proposerIndex ∈ Q) ∧
      ∀ x ∈ cs, ∀ y ∈ x.body, ∀ v : Nat, y.bits[v]? = some true → v ∈ Q := by
  obtain ⟨h1, h2, h3, h4, h5, h6, h7, h8, h9, h10, h11, h12⟩ := hp
  obtain ⟨cs1, s1, a1, a2, a3, a4, a5, a6⟩ := ensure_block hz hc (k := a) (by omega) hv hvl
    (h7.imp id And.left)
  have hc1 := hc.append a1
  obtain ⟨cs2, s2, b1, b2, b3, b4, b5, b6⟩ := ensure_block hz hc1 (k := b) (by omega) hv hvl (by
    rcases h8 with ⟨x, hx, e⟩ | ⟨h, -⟩
    · exact .inl ⟨x, List.mem_append_right _ hx, e⟩
    · right; omega)
  have hc2 := hc1.append b1
  have hj : ∀ m, jst s2.justifiedSlots s2.latestFinalized.slot m
      = jst s.justifiedSlots s.latestFinalized.slot m := by
    intro m
    rw [b5, b6, a5, a6]
  obtain ⟨z, s', g1, g2, g3, g4⟩ := finalize_pair hz hzh hc2 hv hvl hq hqn hq3 (a := a) (b := b)
    (c := c) (by rw [b5, a5]; exact h1) h2 (by omega) h12
    (by obtain ⟨x, hx, e⟩ := a2; exact ⟨x, List.mem_append_right _ hx, e⟩) b2
    (by
      rw [hj, b5, a5]
      exact h3.imp isJustified_iff.1 (mayJustify_iff (by omega)).2)
    (by rw [b5, a5]; exact (mayJustify_iff (by omega)).2 h4)
    (by
      rw [hj]
      rw [isJustified_iff] at h5
      simpa using h5)
    (by
      intro m m1 m2
      rw [b5, a5]
      have := h6 m m1 m2
      rw [← mayJustify_iff (by omega)] at this
      simpa using this)
  have hx : Chain H s (z :: (cs2 ++ cs1)) s' := .cons (a1.append b1) g2
  have hall := (extension_blocks hc hx).2
  refine ⟨_, s', hx, ?_, g3, ?_, ?_⟩
  · rw [(C03_block_appends_history hc2 g2).1, g1]
  · intro x hm
    rw [(hall x hm).2.2.1]
    rcases List.mem_cons.1 hm with rfl | hm
    · rw [g1]; exact h11
    rcases List.mem_append.1 hm with hm | hm
    · obtain ⟨e1, e2, -⟩ := b3 x hm
      rw [e1]
      rcases h8 with ⟨y, hy, e⟩ | ⟨-, h⟩
      · have := ((chain_slots hc1).1 y (List.mem_append_right _ hy)).1
        omega
      · exact h
    · obtain ⟨e1, e2, -⟩ := a3 x hm
      rw [e1]
      rcases h7 with ⟨y, hy, e⟩ | ⟨-, h⟩
      · have := ((chain_slots hc).1 y hy).1
        omega
      · exact h
  · intro x hm y hy v hvv
    rcases List.mem_cons.1 hm with rfl | hm
    · exact g4 y hy v hvv
    rcases List.mem_append.1 hm with hm | hm
    · rw [(b3 x hm).2.2] at hy; cases hy
    · rw [(a3 x hm).2.2] at hy; cases hy

/-- **C101, only if.** Take any chain and let only the validators in `Q` propose from now on. If
anything new is ever finalized, whoever votes and however they vote, there is such a pair of
slots. -/
theorem C101_needed {H : Hash} (hz : ∀ s, H.state s ≠ 0) {t : Nat} {vals : List Validator}
    {bs cs : List Block} {s s' : State} (hc : Chain H (State.fromGenesis H t vals) bs s)
    (hx : Chain H s cs s') {Q : List Nat} (hQ : ∀ x ∈ cs, x.proposerIndex ∈ Q)
    (hf : s.latestFinalized.slot < s'.latestFinalized.slot) :
    ∃ a b c, FinalizablePair vals.length bs s Q a b c := by
  have hall := (extension_blocks hc hx).2
  have hq : Quiet (IsJustified s) s.latestFinalized.slot s :=
    ⟨rfl, fun k h => isJustified_iff.1 h, fun k _ h => .inl (isJustified_iff.2 h)⟩
  rcases extension_first hz hc hx hq with h | ⟨a, b, h1, h2, h3, h4, h5, h6, hxa, hxb, z, z1, z2⟩
  · have := h.fin; omega
  · have hblk : ∀ k, (∃ x ∈ cs ++ bs, x.slot = k) → CanHaveBlock vals.length bs s Q k := by
      rintro k ⟨x, hx, e⟩
      rcases List.mem_append.1 hx with hm | hm
      · obtain ⟨g1, -, g2, -⟩ := hall x hm
        refine .inr ⟨by omega, ?_⟩
        have := hQ x hm
        rw [g2, e] at this
        exact this
      · exact .inl ⟨x, hm, e⟩
    obtain ⟨z3, -, z4, z5⟩ := hall z z1
    refine ⟨a, b, z.slot, h1, h2, h3.imp id (mayJustify_iff (by omega)).1,
      (mayJustify_iff (by omega)).1 h4, h5, ?_, hblk a hxa, hblk b hxb, z2, z3, ?_, z5⟩
    · intro m m1 m2 hm
      have := h6 m m1 m2
      rw [(mayJustify_iff (by omega)).2 hm] at this
      cases this
    · have := hQ z z1
      rwa [z4] at this

/-- **C101.** Two thirds of the validators, the others staying silent, can finalize something new
on a chain exactly when there is such a pair of slots. -/
theorem C101_iff {H : Hash} (hz : ∀ s, H.state s ≠ 0) (hzh : ∀ h, H.header h ≠ 0) {t : Nat}
    {vals : List Validator} {bs : List Block} {s : State}
    (hc : Chain H (State.fromGenesis H t vals) bs s) (hv : 0 < vals.length)
    (hvl : vals.length ≤ validatorRegistryLimit) {Q : List Nat} (hq : Q.Nodup)
    (hqn : ∀ v ∈ Q, v < vals.length) (hq3 : 2 * vals.length ≤ 3 * Q.length) :
    (∃ cs s', Chain H s cs s' ∧ (∀ x ∈ cs, x.proposerIndex ∈ Q) ∧
      s.latestFinalized.slot < s'.latestFinalized.slot) ↔
    ∃ a b c, FinalizablePair vals.length bs s Q a b c := by
  constructor
  · rintro ⟨cs, s', h1, h2, h3⟩
    exact C101_needed hz hc h1 h2 h3
  · rintro ⟨a, b, c, hp⟩
    obtain ⟨cs, s', h1, -, h3, h4, -⟩ := C101_enough hz hzh hc hv hvl hq hqn hq3 hp
    exact ⟨cs, s', h1, h4, by rw [h3]; exact hp.after⟩

/-! ## Offline validators that block finality -/

/-- Take any set of offline validators that covers the residues of the products of consecutive
numbers, and of 3, 4 and 5. While they propose nothing, no chain from genesis ever finalizes
anything, whatever the votes in its blocks. -/
theorem C101_blocked {H : Hash} (hz : ∀ s, H.state s ≠ 0) {t : Nat} {vals : List Validator}
    {off : List Nat} (hpron : ∀ k, (k * (k + 1)) % vals.length ∈ off)
    (hsmall : ∀ k, 2 ≤ k → k ≤ 5 → k % vals.length ∈ off) {bs : List Block} {s : State}
    (hc : Chain H (State.fromGenesis H t vals) bs s)
    (hoff : ∀ x ∈ bs, x.proposerIndex ∉ off) : s.latestFinalized.slot = 0 := by
  by_contra hne
  have hmem : ∀ x ∈ bs, x.proposerIndex ∈ bs.map Block.proposerIndex :=
    fun x hx => List.mem_map_of_mem hx
  obtain ⟨a, b, c, p⟩ := C101_needed hz (.nil : Chain H (State.fromGenesis H t vals) [] _) hc hmem
    (by show 0 < _; omega)
  have hf : (State.fromGenesis H t vals).latestFinalized.slot = 0 := rfl
  have hon : ∀ k, CanHaveBlock vals.length [] (State.fromGenesis H t vals)
      (bs.map Block.proposerIndex) k → k % vals.length ∉ off := by
    rintro k (⟨x, hx, -⟩ | ⟨-, h⟩)
    · cases hx
    · obtain ⟨x, hx, e⟩ := List.mem_map.1 h
      rw [← e]; exact hoff x hx
  -- a slot that can have a block and be justified is a square
  have hsq : ∀ k, 0 < k → MayJustify 0 k → k % vals.length ∉ off → ∃ j, 0 < j ∧ k = j * j := by
    rintro k hk ⟨-, hd⟩ ho
    rw [Nat.sub_zero] at hd
    rcases hd with h | ⟨j, h⟩ | ⟨j, h⟩
    · rcases Nat.lt_or_ge k 2 with h2 | h2
      · exact ⟨1, by omega, by omega⟩
      · exact absurd (hsmall k h2 h) ho
    · refine ⟨j, ?_, h⟩
      rcases Nat.eq_zero_or_pos j with rfl | h'
      · omega
      · exact h'
    · rw [h] at ho
      exact absurd (hpron j) ho
  have hja : MayJustify 0 a := by
    rcases p.justA with h | h
    · exfalso
      unfold IsJustified at h
      have := p.after
      rw [isSlotJustified_gt (by omega)] at h
      simp [State.fromGenesis] at h
    · exact h
  have haft := p.after
  rw [hf] at haft
  have hord := p.order
  obtain ⟨i, i0, hi⟩ := hsq a haft hja (hon a p.blockA)
  obtain ⟨j, j0, hj⟩ := hsq b (by omega) p.justB (hon b p.blockB)
  have hij : i < j := by
    by_contra hc
    have := Nat.mul_le_mul (Nat.le_of_not_lt hc) (Nat.le_of_not_lt hc)
    omega
  have h1 : i * (i + 1) = i * i + i := by ring
  have h2 : (i + 1) * (i + 1) ≤ j * j := Nat.mul_le_mul hij hij
  have h3 : (i + 1) * (i + 1) = i * i + 2 * i + 1 := by ring
  apply p.between (i * (i + 1)) (by omega) (by omega)
  rw [hf]
  exact ⟨Nat.zero_le _, .inr (.inr ⟨i, by omega⟩)⟩

theorem pronic_mod {n : Nat} (hn : 0 < n) {off : List Nat}
    (h : ∀ r, r < n → (r * (r + 1)) % n ∈ off) (k : Nat) : (k * (k + 1)) % n ∈ off := by
  have := h (k % n) (Nat.mod_lt _ hn)
  rw [Nat.mul_mod, Nat.add_mod]
  rw [Nat.mul_mod, Nat.add_mod, Nat.mod_mod] at this
  exact this

/-- Nine of thirty validators: the residues of `k * (k + 1)` modulo 30, and 3, 4 and 5. -/
def offline30 : List Nat := [0, 2, 3, 4, 5, 6, 12, 20, 26]

/-- The other twenty-one. -/
def online30 : List Nat := (List.range 30).filter (fun v => decide (v ∉ offline30))

/-- In a network of thirty validators in which nine never propose, nothing is ever finalized,
although every vote of seventy percent of the validators may be in the blocks. -/
theorem C101_thirty {H : Hash} (hz : ∀ s, H.state s ≠ 0) {t : Nat} {vals : List Validator}
    (hn : vals.length = 30) {bs : List Block} {s : State}
    (hc : Chain H (State.fromGenesis H t vals) bs s)
    (hoff : ∀ x ∈ bs, x.proposerIndex ∉ offline30) : s.latestFinalized.slot = 0 := by
  refine C101_blocked hz (off := offline30) ?_ ?_ hc hoff
  · rw [hn]; exact pronic_mod (by omega) (by decide)
  · intro k h1 h2
    rw [hn]
    have : k = 2 ∨ k = 3 ∨ k = 4 ∨ k = 5 := by omega
    rcases this with rfl | rfl | rfl | rfl <;> decide

/-- 27 of 210 validators, about one in eight. -/
def offline210 : List Nat :=
  [0, 2, 3, 4, 5, 6, 12, 20, 26, 30, 42, 56, 62, 72, 86, 90, 96, 110, 126, 132, 140, 146,
  152, 156, 170, 180, 182]

/-- In a network of 210 validators the silence of 27 suffices. -/
theorem C101_two_hundred_ten {H : Hash} (hz : ∀ s, H.state s ≠ 0) {t : Nat}
    {vals : List Validator} (hn : vals.length = 210) {bs : List Block} {s : State}
    (hc : Chain H (State.fromGenesis H t vals) bs s)
    (hoff : ∀ x ∈ bs, x.proposerIndex ∉ offline210) :
    offline210.length = 27 ∧ s.latestFinalized.slot = 0 := by
  refine ⟨rfl, C101_blocked hz (off := offline210) ?_ ?_ hc hoff⟩
  · rw [hn]; exact pronic_mod (by omega) (by decide +kernel)
  · intro k h1 h2
    rw [hn]
    have : k = 2 ∨ k = 3 ∨ k = 4 ∨ k = 5 := by omega
    rcases this with rfl | rfl | rfl | rfl <;> decide

/-- **C101, refutation.** It is not true that two thirds of the validators, proposing and voting as
they like, can always finalize something. -/
theorem C101_two_thirds_false :
    ¬ ∀ (H : Hash) (t : Nat) (vals : List Validator) (Q : List Nat),
      (∀ s, H.state s ≠ 0) → (∀ h, H.header h ≠ 0) →
      Q.Nodup → (∀ v ∈ Q, v < vals.length) → 2 * vals.length ≤ 3 * Q.length → 0 < vals.length →
      ∃ cs s', Chain H (State.fromGenesis H t vals) cs s' ∧ (∀ x ∈ cs, x.proposerIndex ∈ Q) ∧
        0 < s'.latestFinalized.slot := by
  intro h
  obtain ⟨cs, s', h1, h2, h3⟩ := h Witness.wH 0 (List.replicate 30 (Witness.wVals.head!)) online30
    (fun _ => Nat.one_ne_zero) (fun h => Nat.succ_ne_zero h.slot) (by decide) (by decide)
    (by decide) (by decide)
  have := C101_thirty (fun _ => Nat.one_ne_zero) (by simp) h1 (fun x hx => by
    have := h2 x hx
    simp only [online30, List.mem_filter, decide_eq_true_eq] at this
    exact this.2)
  omega

/-! ## A prime number of validators -/

/-- Members of a window of `n` consecutive numbers that agree modulo `n` are equal. -/
theorem window_inj {n K a b : Nat} (ha : K < a ∧ a ≤ K + n) (hb : K < b ∧ b ≤ K + n)
    (h : (a : ZMod n) = (b : ZMod n)) : a = b := by
  rw [ZMod.natCast_eq_natCast_iff] at h
  rcases Nat.le_total a b with hl | hl
  · have := (Nat.modEq_iff_dvd' hl).1 h
    have h0 := Nat.eq_zero_of_dvd_of_lt this (by omega)
    omega
  · have := (Nat.modEq_iff_dvd' hl).1 h.symm
    have h0 := Nat.eq_zero_of_dvd_of_lt this (by omega)
    omega

/-- Modulo a prime, at most two members of a window have `k * (k + e)` in the same class. -/
theorem fibre_le_two {n : Nat} [Fact n.Prime] (K f e o : Nat) :
    (((Finset.Ioc K (K + n)).filter (fun k => (f + k * (k + e)) % n = o)).card) ≤ 2 := by
  by_contra hc
  obtain ⟨x, hx, y, hy, z, hz, hxy, hxz, hyz⟩ := Finset.two_lt_card.1 (Nat.lt_of_not_le hc)
  simp only [Finset.mem_filter, Finset.mem_Ioc] at hx hy hz
  have key : ∀ u w : Nat, (K < u ∧ u ≤ K + n) → (K < w ∧ w ≤ K + n) → u ≠ w →
      (f + u * (u + e)) % n = (f + w * (w + e)) % n → (u : ZMod n) + w + e = 0 := by
    intro u w hu hw huw h
    have h' : ((f + u * (u + e) : Nat) : ZMod n) = ((f + w * (w + e) : Nat) : ZMod n) := by
      rw [ZMod.natCast_eq_natCast_iff]; exact h
    push_cast at h'
    have h2 : ((u : ZMod n) - w) * (u + w + e) = 0 := by linear_combination h'
    rcases mul_eq_zero.1 h2 with h3 | h3
    · exact absurd (window_inj hu hw (sub_eq_zero.1 h3)) huw
    · exact h3
  have e1 := key x y hx.1 hy.1 hxy (by omega)
  have e2 := key x z hx.1 hz.1 hxz (by omega)
  exact hyz (window_inj hy.1 hz.1 (by linear_combination e1 - e2))

/-- If fewer than a quarter of a prime number of validators are offline, some square and the
pronic number after it both belong to online ones. -/
theorem online_pair {n : Nat} (hp : n.Prime) (f K : Nat) {Q : List Nat} (hq : Q.Nodup)
    (hqn : ∀ v ∈ Q, v < n) (hq4 : 3 * n < 4 * Q.length) :
    ∃ k, K < k ∧ k ≤ K + n ∧ (f + k * k) % n ∈ Q ∧ (f + k * (k + 1)) % n ∈ Q := by
  have : Fact n.Prime := ⟨hp⟩
  by_contra hno
  push Not at hno
  let O := (Finset.range n).filter (fun v => v ∉ Q)
  have hO : O.card + Q.length = n := by
    have h1 : (Finset.range n).filter (fun v => v ∈ Q) = Q.toFinset := by
      ext v
      simp only [Finset.mem_filter, Finset.mem_range, List.mem_toFinset]
      exact ⟨fun h => h.2, fun h => ⟨hqn v h, h⟩⟩
    have h2 := Finset.card_filter_add_card_filter_not (s := Finset.range n) (fun v => v ∈ Q)
    rw [h1, List.toFinset_card_of_nodup hq, Finset.card_range] at h2
    show ((Finset.range n).filter (fun v => v ∉ Q)).card + _ = n
    omega
  have hn := hp.pos
  have bound : ∀ e, ((Finset.Ioc K (K + n)).filter (fun k => (f + k * (k + e)) % n ∉ Q)).card
      ≤ 2 * O.card := by
    intro e
    apply Finset.card_le_mul_card_image_of_maps_to (f := fun k => (f + k * (k + e)) % n)
    · intro k hk
      rw [Finset.mem_filter] at hk
      simp only [O, Finset.mem_filter, Finset.mem_range]
      exact ⟨Nat.mod_lt _ hn, hk.2⟩
    · intro o _
      refine Nat.le_trans (Finset.card_le_card ?_) (fibre_le_two (n := n) K f e o)
      intro k hk
      simp only [Finset.mem_filter] at hk ⊢
      exact ⟨hk.1.1, hk.2⟩
  have hcover : Finset.Ioc K (K + n) ⊆
      (Finset.Ioc K (K + n)).filter (fun k => (f + k * (k + 0)) % n ∉ Q) ∪
      (Finset.Ioc K (K + n)).filter (fun k => (f + k * (k + 1)) % n ∉ Q) := by
    intro k hk
    rw [Finset.mem_union, Finset.mem_filter, Finset.mem_filter]
    have hk' := Finset.mem_Ioc.1 hk
    by_cases h : (f + k * k) % n ∈ Q
    · exact .inr ⟨hk, hno k hk'.1 hk'.2 h⟩
    · exact .inl ⟨hk, h⟩
  have h1 := Finset.card_le_card hcover
  have h2 := Finset.card_union_le
    ((Finset.Ioc K (K + n)).filter (fun k => (f + k * (k + 0)) % n ∉ Q))
    ((Finset.Ioc K (K + n)).filter (fun k => (f + k * (k + 1)) % n ∉ Q))
  have h3 := bound 0
  have h4 := bound 1
  rw [Nat.card_Ioc] at h1
  omega

/-- **C101 for a prime number of validators.** If the number of validators is prime and more than
three quarters of them are online, those can finalize something new on any chain, by themselves,
before the history is full, if it is not too near that already. -/
theorem C101_prime_partial {H : Hash} (hz : ∀ s, H.state s ≠ 0) (hzh : ∀ h, H.header h ≠ 0)
    {t : Nat} {vals : List Validator} {bs : List Block} {s : State}
    (hc : Chain H (State.fromGenesis H t vals) bs s) (hp : vals.length.Prime)
    (hvl : vals.length ≤ validatorRegistryLimit) {Q : List Nat} (hq : Q.Nodup)
    (hqn : ∀ v ∈ Q, v < vals.length) (hq4 : 3 * vals.length < 4 * Q.length)
    (hroom : s.slot + (Nat.sqrt (s.slot - s.latestFinalized.slot) + 3 + vals.length) ^ 2
      + 2 * vals.length ≤ historicalRootsLimit) :
    ∃ cs s', Chain H s cs s' ∧ s.latestFinalized.slot < s'.latestFinalized.slot ∧
      (∀ x ∈ cs, x.proposerIndex ∈ Q) ∧
      ∀ x ∈ cs, ∀ y ∈ x.body, ∀ v : Nat, y.bits[v]? = some true → v ∈ Q := by
  have hn := hp.pos
  have hfs : s.latestFinalized.slot ≤ s.slot := by
    cases bs with
    | nil => cases hc; exact Nat.le_refl _
    | cons b bs =>
      have := chain_inv hc (by simp)
      have h1 := this.finLeJust
      have h2 := this.justLt
      omega
  have hQ : 0 < Q.length := by omega
  obtain ⟨q, hqm⟩ := List.exists_mem_of_length_pos hQ
  have hsq := Nat.lt_succ_sqrt' (s.slot - s.latestFinalized.slot)
  rw [Nat.succ_eq_add_one] at hsq
  generalize hr : Nat.sqrt (s.slot - s.latestFinalized.slot) = r at *
  generalize hf : s.latestFinalized.slot = f at *
  obtain ⟨k, k1, k2, k3, k4⟩ := online_pair hp f (r + 2) hq hqn hq4
  have hk2 : (r + 1) ^ 2 ≤ k * k := by
    rw [pow_two]; exact Nat.mul_le_mul (by omega) (by omega)
  have hk9 : 3 * 3 ≤ k * k := Nat.mul_le_mul (by omega) (by omega)
  have hkk : k * (k + 1) = k * k + k := by ring
  have hkU : (k + 1) * (k + 1) ≤ (r + 3 + vals.length) ^ 2 := by
    rw [pow_two]; exact Nat.mul_le_mul (by omega) (by omega)
  have hk1 : (k + 1) * (k + 1) = k * k + 2 * k + 1 := by ring
  have hdiv := Nat.div_add_mod (f + k * (k + 1)) vals.length
  have hmod := Nat.mod_lt (f + k * (k + 1)) hn
  have hqv := hqn q hqm
  have hcc : vals.length * ((f + k * (k + 1)) / vals.length + 1)
      = vals.length * ((f + k * (k + 1)) / vals.length) + vals.length := by ring
  have pair : FinalizablePair vals.length bs s Q (f + k * k) (f + k * (k + 1))
      (vals.length * ((f + k * (k + 1)) / vals.length + 1) + q) := by
    refine ⟨by omega, by omega, .inr ⟨by omega, .inr (.inl ⟨k, by omega⟩)⟩,
      ⟨by omega, .inr (.inr ⟨k, by omega⟩)⟩, ?_, ?_, .inr ⟨by omega, k3⟩, .inr ⟨by omega, k4⟩,
      by omega, by omega, ?_, by omega⟩
    · intro hj
      unfold IsJustified at hj
      rw [hf, isSlotJustified_gt (by omega)] at hj
      have hlt := getElem?_lt hj
      cases bs with
      | nil => cases hc; simp [State.fromGenesis] at hlt
      | cons b bs =>
        have hw := (chain_inv hc (by simp)).win
        omega
    · intro m m1 m2 hm
      rw [hf] at hm
      obtain ⟨hm1, hm2 | ⟨j, hj⟩ | ⟨j, hj⟩⟩ := hm
      · omega
      · rcases Nat.lt_or_ge k j with h | h
        · have := Nat.mul_le_mul (show k + 1 ≤ j by omega) (show k + 1 ≤ j by omega)
          omega
        · have := Nat.mul_le_mul h h
          omega
      · rcases Nat.lt_or_ge j k with h | h
        · have := Nat.mul_le_mul (show j ≤ k by omega) (show j + 1 ≤ k by omega)
          omega
        · have := Nat.mul_le_mul h (show k + 1 ≤ j + 1 by omega)
          omega
    · rw [Nat.mul_add_mod, Nat.mod_eq_of_lt hqv]
      exact hqm
  obtain ⟨cs, s', h1, -, h3, h4, h5⟩ := C101_enough hz hzh hc hn hvl hq hqn (by omega) pair
  exact ⟨cs, s', h1, by rw [h3, hf] at *; have := pair.after; omega, h4, h5⟩

/-! ## Concrete cases -/

/-- Twenty-one of thirty are two thirds, and their blocks and votes can justify: a chain of their
blocks only, with slot 9 justified. By `C101_thirty` it has finalized nothing and never will. -/
example : 2 * 30 ≤ 3 * online30.length ∧
    ∃ bs s, Chain Witness.wH
        (State.fromGenesis Witness.wH 0 (List.replicate 30 (Witness.wVals.head!))) bs s ∧
      (∀ x ∈ bs, x.proposerIndex ∉ offline30) ∧ s.latestJustified.slot = 9 := by
  refine ⟨by decide, ?_⟩
  have hz : ∀ s, Witness.wH.state s ≠ 0 := fun _ => Nat.one_ne_zero
  have hzh : ∀ h, Witness.wH.header h ≠ 0 := fun h => Nat.succ_ne_zero h.slot
  have hc0 : Chain Witness.wH
    (State.fromGenesis Witness.wH 0 (List.replicate 30 (Witness.wVals.head!))) [] _ := .nil
  obtain ⟨b1, s1, p1, -, p3, -, p5⟩ := extend_empty hz hc0 (k := 9) (by decide) (by decide)
    (by decide) (by decide)
  have hc1 := hc0.cons p3
  have q1 := (C03_block_appends_history hc0 p3).1
  obtain ⟨b2, s2, r1, -, r3, r4, -, -⟩ := extend_vote hz hzh hc1 (k := 10) (by omega) (by decide)
    (by decide) (by decide) (Q := online30) (by decide) (by decide) (by decide) (by
      rw [q1, p1, p5]; decide +kernel)
  have hc2 := hc1.cons r3
  refine ⟨_, s2, hc2, ?_, by rw [r4]; exact p1⟩
  intro x hx
  have := ((extension_blocks hc0 hc2).2 x (by simpa using hx)).2.2.1
  rw [this]
  simp only [List.mem_cons, List.not_mem_nil, or_false] at hx
  rcases hx with rfl | rfl
  · rw [r1]; decide
  · rw [p1]; decide

/-- A pair that works: validators 0 and 2 of the three of the witness chain. -/
example : Chain Witness.wH Witness.wG [] Witness.wG ∧
    FinalizablePair Witness.wVals.length [] Witness.wG [0, 2] 2 3 5 := by
  refine ⟨.nil, by decide, by decide, .inr ⟨by decide, .inl (by decide)⟩,
    ⟨by decide, .inl (by decide)⟩, by unfold IsJustified; decide, fun m _ _ => by omega, .inr (by decide),
    .inr (by decide), by decide, by decide, by decide, by decide⟩

/-- Five validators, one of them offline: the hypotheses of `C101_prime_partial`. -/
example : ∃ (vals : List Validator) (Q : List Nat), vals.length.Prime ∧ Q.Nodup ∧
    (∀ v ∈ Q, v < vals.length) ∧ 3 * vals.length < 4 * Q.length ∧ Q.length < vals.length ∧
    Chain Witness.wH (State.fromGenesis Witness.wH 0 vals) [] (State.fromGenesis Witness.wH 0 vals) :=
  ⟨List.replicate 5 (Witness.wVals.head!), [0, 1, 2, 4], by
    rw [List.length_replicate]; decide, by decide, by decide, by decide, by decide, .nil⟩

end Verif
