import Verif.Spec.Safety
import Verif.Props.C05_C08_Checkpoints
import Mathlib.Data.Finset.Card
/-!
# How justified checkpoints are linked

For every checkpoint justified on a chain, two thirds of the validators voted for it from sources
that are no newer than an earlier justified checkpoint of the same chain.
-/
namespace Verif
open JustifiedSlots

theorem checkpoint_ext {a b : Checkpoint} (h1 : a.root = b.root) (h2 : a.slot = b.slot) :
    a = b := by
  cases a; cases b
  simp only at h1 h2
  rw [h1, h2]

/-- Two thirds and two thirds overlap in one third. -/
theorem SuperMaj.overlap {V W : Nat → Prop} {n : Nat} (h1 : SuperMaj V n) (h2 : SuperMaj W n) :
    OneThird (fun v => V v ∧ W v) n := by
  classical
  obtain ⟨vs, a1, a2, a3⟩ := h1
  obtain ⟨ws, b1, b2, b3⟩ := h2
  refine ⟨vs.filter (· ∈ ws), a1.filter _, ?_, ?_⟩
  · intro v hv
    simp only [List.mem_filter, decide_eq_true_eq] at hv
    exact ⟨(a2 v hv.1).1, (a2 v hv.1).2, (b2 v hv.2).2⟩
  · have e : (vs.filter (· ∈ ws)).length = (vs.toFinset ∩ ws.toFinset).card := by
      rw [← List.toFinset_card_of_nodup (a1.filter _)]
      congr 1
      ext v
      simp
    have u : (vs.toFinset ∪ ws.toFinset).card ≤ n := by
      rw [← Finset.card_range n]
      apply Finset.card_le_card
      intro v hv
      simp only [Finset.mem_union, List.mem_toFinset] at hv
      rw [Finset.mem_range]
      rcases hv with h | h
      · exact (a2 v h).1
      · exact (b2 v h).1
    have := Finset.card_union_add_card_inter vs.toFinset ws.toFinset
    rw [List.toFinset_card_of_nodup a1, List.toFinset_card_of_nodup b1] at this
    omega

theorem OneThird.mono {V W : Nat → Prop} {n : Nat} (h : OneThird V n) (hv : ∀ v, V v → W v) :
    OneThird W n := by
  obtain ⟨vs, h1, h2, h3⟩ := h
  exact ⟨vs, h1, fun v hm => ⟨(h2 v hm).1, hv v (h2 v hm).2⟩, h3⟩

/-! ## Justified checkpoints -/

/-- Voter `v` backs `c` from a source no newer than some earlier checkpoint in `S`. -/
def Backs (P : Nat → AttData → Prop) (S : Checkpoint → Prop) (c : Checkpoint) (v : Nat) : Prop :=
  ∃ d, P v d ∧ d.target = c ∧ ∃ q, S q ∧ d.source.slot ≤ q.slot ∧ q.slot < c.slot

/-- A set of checkpoints each of which is the origin or has two thirds backing it from the set. -/
def JClosed (On : Checkpoint → Prop) (P : Nat → AttData → Prop) (n : Nat)
    (S : Checkpoint → Prop) : Prop :=
  ∀ c, S c → On c ∧ (c.slot = 0 ∨ SuperMaj (Backs P S c) n)

/-- The largest such set. -/
def Just (On : Checkpoint → Prop) (P : Nat → AttData → Prop) (n : Nat) (c : Checkpoint) : Prop :=
  ∃ S, S c ∧ JClosed On P n S

theorem Backs.mono {P P' : Nat → AttData → Prop} {S S' : Checkpoint → Prop} {c : Checkpoint}
    {v : Nat} (hP : ∀ v d, P v d → P' v d) (hS : ∀ c, S c → S' c) (h : Backs P S c v) :
    Backs P' S' c v := by
  obtain ⟨d, h1, h2, q, h3, h4⟩ := h
  exact ⟨d, hP _ _ h1, h2, q, hS _ h3, h4⟩

theorem just_closed (On : Checkpoint → Prop) (P : Nat → AttData → Prop) (n : Nat) :
    JClosed On P n (Just On P n) := by
  rintro c ⟨S, hc, hS⟩
  refine ⟨(hS c hc).1, (hS c hc).2.imp id (fun h => h.mono (fun v => ?_))⟩
  exact Backs.mono (fun _ _ h => h) (fun c hc => ⟨S, hc, hS⟩)

theorem Just.intro {On : Checkpoint → Prop} {P : Nat → AttData → Prop} {n : Nat} {c : Checkpoint}
    (h1 : On c) (h2 : c.slot = 0 ∨ SuperMaj (Backs P (Just On P n) c) n) : Just On P n c := by
  refine ⟨fun x => x = c ∨ Just On P n x, Or.inl rfl, ?_⟩
  rintro x (rfl | hx)
  · exact ⟨h1, h2.imp id (fun h => h.mono (fun v => Backs.mono (fun _ _ h => h)
      (fun c hc => Or.inr hc)))⟩
  · obtain ⟨a, b⟩ := just_closed On P n x hx
    exact ⟨a, b.imp id (fun h => h.mono (fun v => Backs.mono (fun _ _ h => h)
      (fun c hc => Or.inr hc)))⟩

theorem Just.mono {On On' : Checkpoint → Prop} {P P' : Nat → AttData → Prop} {n : Nat}
    {c : Checkpoint} (hO : ∀ c, On c → On' c) (hP : ∀ v d, P v d → P' v d)
    (h : Just On P n c) : Just On' P' n c := by
  obtain ⟨S, hc, hS⟩ := h
  refine ⟨S, hc, fun x hx => ⟨hO _ (hS x hx).1, (hS x hx).2.imp id (fun h => h.mono (fun v => ?_))⟩⟩
  exact Backs.mono hP (fun _ h => h)

/-! ## The invariant of a chain -/

/-- The history records the checkpoint. -/
def HistOn (hist : List Root) (c : Checkpoint) : Prop := hist[c.slot]? = some c.root

/-- Validator `v`'s vote for root `r`, with what was checked about it when it was counted. -/
def LinkVote (bs : List Block) (n : Nat) (hist : List Root) (v : Nat) (r : Root) : Prop :=
  r ≠ 0 ∧ ∃ d, Casts bs v d ∧ d.target.root = r ∧ hist[d.target.slot]? = some r ∧
    ∃ q, Just (HistOn hist) (Casts bs) n q ∧ d.source.slot ≤ q.slot ∧ q.slot < d.target.slot

/-- Non-zero roots occur once in the history. -/
def HistUnique (hist : List Root) : Prop :=
  ∀ (k k' : Nat) (r : Root), hist[k]? = some r → hist[k']? = some r → r ≠ 0 → k = k'

theorem Casts.cons {bs : List Block} {b : Block} {v : Nat} {d : AttData} (h : Casts bs v d) :
    Casts (b :: bs) v d := by
  obtain ⟨b', hb', h⟩ := h
  exact ⟨b', List.mem_cons_of_mem _ hb', h⟩

theorem LinkVote.mono {bs : List Block} {b : Block} {n : Nat} {hist hist' : List Root} {v : Nat}
    {r : Root} (hh : ∀ (k : Nat) (r : Root), hist[k]? = some r → hist'[k]? = some r)
    (h : LinkVote bs n hist v r) : LinkVote (b :: bs) n hist' v r := by
  obtain ⟨h0, d, h1, h2, h3, q, h4, h5⟩ := h
  exact ⟨h0, d, h1.cons, h2, hh _ _ h3, q, h4.mono (fun c => hh _ _) (fun _ _ => Casts.cons), h5⟩

/-- Two thirds of such votes justify the checkpoint. -/
theorem just_of_linkVotes {bs : List Block} {n : Nat} {hist : List Root} {c : Checkpoint}
    (hu : HistUnique hist) (hon : HistOn hist c)
    (h : SuperMaj (LinkVote bs n hist · c.root) n) : Just (HistOn hist) (Casts bs) n c := by
  refine Just.intro hon (Or.inr (h.mono (fun v => ?_)))
  rintro ⟨h0, d, h1, h2, h3, q, h4, h5, h6⟩
  have e := hu _ _ _ h3 hon h0
  have ec : d.target = c := checkpoint_ext h2 e
  exact ⟨d, h1, ec, q, h4, h5, by rw [← ec]; exact h6⟩

/-- A vote counted by the code is a link vote. -/
theorem linkVote_of_valid {bs : List Block} {b : Block} {a : AggAtt} {s0 s' : State}
    {rts : Root → Option Nat} {st : State × Tally} (ha : a ∈ b.body)
    (hu : HistUnique s'.historicalBlockHashes)
    (hh : s0.historicalBlockHashes = s'.historicalBlockHashes)
    (hv : s0.validators = s'.validators)
    (h : LoopInv s0 rts (LinkVote (b :: bs) s'.validators.length s'.historicalBlockHashes) st)
    (F : ValidVoteFacts st.1 a.data) (i : Nat) (hi : a.bits[i]? = some true) :
    LinkVote (b :: bs) s'.validators.length s'.historicalBlockHashes i a.data.target.root := by
  have htgt : s'.historicalBlockHashes[a.data.target.slot]? = some a.data.target.root := by
    have := F.tgtOn; rwa [h.hist, hh] at this
  have hsrc : s'.historicalBlockHashes[a.data.source.slot]? = some a.data.source.root := by
    have := F.srcOn; rwa [h.hist, hh] at this
  refine ⟨F.tgtNZ, a.data, ⟨b, by simp, a, ha, rfl, hi⟩, rfl, htgt, ?_⟩
  by_cases hs : a.data.source.slot ≤ st.1.latestFinalized.slot
  · refine ⟨st.1.latestFinalized, ?_, hs, ?_⟩
    · have hon : HistOn s'.historicalBlockHashes st.1.latestFinalized := by
        have := h.finOn; rwa [hh] at this
      rcases h.superFin with h0 | h0
      · exact Just.intro hon (Or.inl h0)
      · rw [hv] at h0
        exact just_of_linkVotes hu hon h0
    · by_contra hc
      have := F.tgtNot
      rw [isSlotJustified_le (by omega)] at this
      cases this
  · refine ⟨a.data.source, ?_, Nat.le_refl _, F.lt⟩
    obtain ⟨r, h1, h2⟩ := h.superJ _ (by omega) F.srcJust
    rw [hh, hsrc] at h1
    cases h1
    rw [hv] at h2
    exact just_of_linkVotes hu hsrc h2

theorem HistUnique.of_prefix {hist hist' : List Root}
    (hh : ∀ (k : Nat) (r : Root), hist[k]? = some r → hist'[k]? = some r)
    (h : HistUnique hist') : HistUnique hist :=
  fun k k' r h1 h2 h3 => h k k' r (hh _ _ h1) (hh _ _ h2) h3

/-- Along every chain whose non-zero roots are distinct, the tallied votes are link votes. -/
theorem chain_links {H : Hash} {t : Nat} {vals : List Validator} {bs : List Block} {s : State}
    (hc : Chain H (State.fromGenesis H t vals) bs s) (hne : bs ≠ [])
    (hu : HistUnique s.historicalBlockHashes) :
    SInv (LinkVote bs vals.length s.historicalBlockHashes) s := by
  induction hc with
  | nil => exact absurd rfl hne
  | @cons bs s s' b hc hi ih =>
    have hv' := chain_validators (.cons hc hi)
    rw [← hv']
    cases bs with
    | nil =>
      cases hc
      exact (import_genesis' (fun a ha s0 rts st h1 h2 h3 h4 => linkVote_of_valid ha hu h1 h2 h3 h4)
        hi).1
    | cons b0 bs0 =>
      obtain ⟨h1, h2, h3, h4, -⟩ := C03_block_appends_history hc hi
      have hh : ∀ (k : Nat) (r : Root), s.historicalBlockHashes[k]? = some r →
          s'.historicalBlockHashes[k]? = some r := by
        intro k r hk
        have hl := (chain_inv hc (by simp)).histLen
        have := getElem?_lt hk
        rw [h4 k (by omega)]
        exact hk
      have h0 := (ih (by simp) (hu.of_prefix hh)).weaken
        (W := LinkVote (b :: b0 :: bs0) s'.validators.length s'.historicalBlockHashes)
        (fun v r h => by rw [hv']; exact h.mono hh)
      obtain ⟨_, -, h5, -⟩ := import_inv' h0
        (fun a ha s0 rts st h1 h2 h3 h4 => linkVote_of_valid ha hu h1 h2 h3 h4) hi
      exact h5

theorem chain_finalized_just {H : Hash} {t : Nat} {vals : List Validator} {bs : List Block}
    {s : State} (hc : Chain H (State.fromGenesis H t vals) bs s) (hne : bs ≠ [])
    (hu : HistUnique s.historicalBlockHashes) :
    Just (HistOn s.historicalBlockHashes) (Casts bs) vals.length s.latestFinalized := by
  have h := chain_links hc hne hu
  rcases h.superFin with h0 | h0
  · exact Just.intro h.finOn (Or.inl h0)
  · rw [chain_validators hc] at h0
    exact just_of_linkVotes hu h.finOn h0

/-! ## The combinatorial heart -/

/-- The argument of Casper's accountable safety theorem, for one chain that finalized `B` with a
two-thirds link to `T` and another chain with a justified checkpoint at or above `B`'s slot. -/
theorem safety_core {n : Nat} {On₁ On₂ : Checkpoint → Prop} {P₁ P₂ P : Nat → AttData → Prop}
    (hP₁ : ∀ v d, P₁ v d → P v d) (hP₂ : ∀ v d, P₂ v d → P v d) {B T : Checkpoint}
    (hB : Just On₁ P₁ n B) (hB0 : B.slot ≠ 0) (hB2 : ¬ On₂ B)
    (hlink : SuperMaj (fun v => ∃ d, P₁ v d ∧ d.source = B ∧ d.target = T) n)
    (hT2 : ¬ On₂ T)
    (hgap : ∀ c, On₂ c → B.slot < c.slot → c.slot < T.slot →
      ¬ SuperMaj (fun v => ∃ d, P₂ v d ∧ d.target = c) n) :
    ∀ (m : Nat) (c : Checkpoint), c.slot = m → Just On₂ P₂ n c → B.slot ≤ c.slot →
      OneThird (fun v => ∃ d d', P v d ∧ P v d' ∧ Slashable d d') n := by
  intro m
  induction m using Nat.strongRecOn with
  | _ m ih =>
    intro c hm hc hle
    obtain ⟨hon, hsup⟩ := just_closed On₂ P₂ n c hc
    have hsup := hsup.resolve_left (by omega)
    rcases Nat.eq_or_lt_of_le hle with heq | hlt
    · -- same slot: everyone who voted for both voted twice
      have hB' := ((just_closed On₁ P₁ n B hB).2).resolve_left hB0
      refine (hB'.overlap hsup).mono (fun v => ?_)
      rintro ⟨⟨d, d1, d2, -⟩, d', d1', d2', -⟩
      refine ⟨d, d', hP₁ _ _ d1, hP₂ _ _ d1', Or.inl ⟨by rw [d2, d2']; exact heq, ?_⟩⟩
      rw [d2, d2']
      intro hr
      apply hB2
      have : B = c := checkpoint_ext hr heq
      rw [this]; exact hon
    · by_cases hq : ∃ q, Just On₂ P₂ n q ∧ B.slot ≤ q.slot ∧ q.slot < c.slot
      · obtain ⟨q, q1, q2, q3⟩ := hq
        exact ih q.slot (by omega) q rfl q1 q2
      · have hsrc : SuperMaj (fun v => ∃ d, P₂ v d ∧ d.target = c ∧ d.source.slot < B.slot) n := by
          refine hsup.mono (fun v => ?_)
          rintro ⟨d, d1, d2, q, q1, q2, q3⟩
          refine ⟨d, d1, d2, ?_⟩
          by_contra hcc
          exact hq ⟨q, q1, by omega, q3⟩
        rcases Nat.lt_trichotomy c.slot T.slot with h | h | h
        · exact absurd (hsup.mono (fun v => fun ⟨d, d1, d2, _⟩ => ⟨d, d1, d2⟩)) (hgap c hon hlt h)
        · refine (hlink.overlap hsrc).mono (fun v => ?_)
          rintro ⟨⟨d, d1, -, d2⟩, d', d1', d2', -⟩
          refine ⟨d, d', hP₁ _ _ d1, hP₂ _ _ d1', Or.inl ⟨by rw [d2, d2']; exact h.symm, ?_⟩⟩
          rw [d2, d2']
          intro hr
          apply hT2
          have : T = c := checkpoint_ext hr h.symm
          rw [this]; exact hon
        · refine (hlink.overlap hsrc).mono (fun v => ?_)
          rintro ⟨⟨d, d1, d2, d3⟩, d', d1', d2', d3'⟩
          refine ⟨d, d', hP₁ _ _ d1, hP₂ _ _ d1', Or.inr (Or.inr ⟨?_, ?_⟩)⟩
          · rw [d2]; exact d3'
          · rw [d3, d2']; exact h

/-! ## Chains without collisions -/

theorem chain_slot_tip {H : Hash} {t : Nat} {vals : List Validator} {bs : List Block} {s : State}
    (hc : Chain H (State.fromGenesis H t vals) bs s) : ∀ b ∈ bs, b.slot ≤ s.slot ∧ 0 < b.slot :=
  (chain_slots hc).1

/-- A collision-free tip determines the chain below it. -/
theorem chain_tip_unique {H : Hash} (hz : ∀ s, H.state s ≠ 0) {t : Nat} {vals : List Validator}
    {bs₁ : List Block} {s₁ : State} (hc₁ : Chain H (State.fromGenesis H t vals) bs₁ s₁) :
    ∀ {bs₂ : List Block} {s₂ : State}, Chain H (State.fromGenesis H t vals) bs₂ s₂ →
      ∀ {all : List Block}, NoCollision H (State.fromGenesis H t vals) all →
      (∀ b ∈ bs₁, b ∈ all) → (∀ b ∈ bs₂, b ∈ all) →
      tipRoot H (State.fromGenesis H t vals) bs₁ = tipRoot H (State.fromGenesis H t vals) bs₂ →
      bs₁ = bs₂ := by
  induction hc₁ with
  | nil =>
    intro bs₂ s₂ hc₂ all hn _ m2 ht
    cases hc₂ with
    | nil => rfl
    | cons _ _ => exact absurd ht.symm (hn.notGenesis _ (m2 _ (by simp)))
  | @cons bs s s' b hc hi ih =>
    intro bs₂ s₂ hc₂ all hn m1 m2 ht
    cases hc₂ with
    | nil => exact absurd ht (hn.notGenesis _ (m1 _ (by simp)))
    | @cons bs' sa _ b' hc' hi' =>
      have hb : b = b' := hn.inj _ (m1 _ (by simp)) _ (m2 _ (by simp)) ht
      subst hb
      have e1 := C03_parent_is_tip hz hc hi
      have e2 := C03_parent_is_tip hz hc' hi'
      rw [ih hc' hn (fun x hx => m1 x (List.mem_cons_of_mem _ hx))
        (fun x hx => m2 x (List.mem_cons_of_mem _ hx)) (e1.symm.trans e2)]

/-- Cutting a chain at one of its blocks. -/
theorem chain_cut {H : Hash} {t : Nat} {vals : List Validator} {bs : List Block} {s : State}
    (hc : Chain H (State.fromGenesis H t vals) bs s) {b : Block} (hb : b ∈ bs) :
    ∃ pre suf s', bs = pre ++ b :: suf ∧ Chain H (State.fromGenesis H t vals) (b :: suf) s' ∧
      ∀ x ∈ pre, b.slot < x.slot := by
  induction hc with
  | nil => cases hb
  | @cons bs s s' b0 hc hi ih =>
    rcases List.mem_cons.1 hb with rfl | hm
    · exact ⟨[], bs, s', rfl, .cons hc hi, fun x hx => by cases hx⟩
    · obtain ⟨pre, suf, s'', e, h1, h2⟩ := ih hm
      refine ⟨b0 :: pre, suf, s'', by rw [e]; rfl, h1, ?_⟩
      intro x hx
      rcases List.mem_cons.1 hx with rfl | hx
      · have := (chain_slots hc).1 b hm
        obtain ⟨-, h4, -⟩ := C03_block_appends_history hc hi
        omega
      · exact h2 x hx

theorem rootAt_cut {H : Hash} {g : State} {pre suf : List Block} {b : Block}
    (h : ∀ x ∈ pre, b.slot < x.slot) {k : Nat} (hk : k ≤ b.slot) :
    rootAt H g (pre ++ b :: suf) k = rootAt H g (b :: suf) k := by
  have hn : pre.find? (fun b => decide (b.slot = k)) = none := by
    rw [List.find?_eq_none]
    intro x hx
    have := h x hx
    simp; omega
  unfold rootAt
  rw [List.find?_append, hn, Option.none_or]

theorem rootAt_zero {H : Hash} {t : Nat} {vals : List Validator} {bs : List Block} {s : State}
    (hc : Chain H (State.fromGenesis H t vals) bs s) :
    rootAt H (State.fromGenesis H t vals) bs 0 =
      H.header (genesisHeader H (State.fromGenesis H t vals)) := by
  unfold rootAt
  rw [List.find?_eq_none.2]
  · simp
  · intro x hx
    have := (chain_slots hc).1 x hx
    simp; omega

/-- If two collision-free chains share a block, they agree below it. -/
theorem agree_below {H : Hash} (hz : ∀ s, H.state s ≠ 0) {t : Nat} {vals : List Validator}
    {bs₁ bs₂ : List Block} {s₁ s₂ : State} (hc₁ : Chain H (State.fromGenesis H t vals) bs₁ s₁)
    (hc₂ : Chain H (State.fromGenesis H t vals) bs₂ s₂)
    (hn : NoCollision H (State.fromGenesis H t vals) (bs₁ ++ bs₂)) {c : Checkpoint}
    (h0 : c.root ≠ 0) (h1 : OnChain H (State.fromGenesis H t vals) bs₁ c)
    (h2 : OnChain H (State.fromGenesis H t vals) bs₂ c) {k : Nat} (hk : k ≤ c.slot) :
    rootAt H (State.fromGenesis H t vals) bs₁ k = rootAt H (State.fromGenesis H t vals) bs₂ k := by
  have find : ∀ {bs : List Block}, (∀ b ∈ bs, b ∈ bs₁ ++ bs₂) →
      OnChain H (State.fromGenesis H t vals) bs c →
      (∃ b ∈ bs, b.slot = c.slot ∧ b.root H = c.root) ∨
      c = ⟨H.header (genesisHeader H (State.fromGenesis H t vals)), 0⟩ := by
    intro bs hm h
    unfold OnChain rootAt at h
    split at h
    · next b hb =>
      have := List.find?_some hb
      exact Or.inl ⟨b, List.mem_of_find?_eq_some hb, by simpa using this, h⟩
    · split at h
      · next h00 => right; cases c; simp only at h h00; rw [← h, h00]
      · exact absurd h.symm h0
  rcases find (fun b hb => List.mem_append_left _ hb) h1 with ⟨b, b1, b2, b3⟩ | hg
  · rcases find (fun b hb => List.mem_append_right _ hb) h2 with ⟨b', b1', b2', b3'⟩ | hg
    · have hbb : b = b' := hn.inj _ (List.mem_append_left _ b1) _ (List.mem_append_right _ b1')
        (b3.trans b3'.symm)
      subst hbb
      obtain ⟨pre, suf, s, e, hch, hp⟩ := chain_cut hc₁ b1
      obtain ⟨pre', suf', s', e', hch', hp'⟩ := chain_cut hc₂ b1'
      have := chain_tip_unique hz hch hch' hn
        (fun x hx => List.mem_append_left _ (by rw [e]; exact List.mem_append_right _ hx))
        (fun x hx => List.mem_append_right _ (by rw [e']; exact List.mem_append_right _ hx)) rfl
      rw [e, e', rootAt_cut hp (by omega), rootAt_cut hp' (by omega), this]
    · exact absurd (b3.trans (congrArg Checkpoint.root hg))
        (hn.notGenesis _ (List.mem_append_left _ b1))
  · have hk0 : k = 0 := by
      have := congrArg Checkpoint.slot hg
      simp only at this
      omega
    rw [hk0, rootAt_zero hc₁, rootAt_zero hc₂]

/-- In a collision-free chain a non-zero root occurs at one slot only. -/
theorem histUnique_of_noCollision {H : Hash} (hz : ∀ s, H.state s ≠ 0) {t : Nat}
    {vals : List Validator} {b : Block} {bs : List Block} {s : State}
    (hc : Chain H (State.fromGenesis H t vals) (b :: bs) s) {all : List Block}
    (hn : NoCollision H (State.fromGenesis H t vals) all) (hm : ∀ x ∈ b :: bs, x ∈ all) :
    HistUnique s.historicalBlockHashes := by
  obtain ⟨-, h2, h3⟩ := C03_history_is_chain hz hc
  have cases' : ∀ (k : Nat) (r : Root), s.historicalBlockHashes[k]? = some r → r ≠ 0 →
      (∃ x ∈ bs, x.slot = k ∧ x.root H = r) ∨
      (k = 0 ∧ r = H.header (genesisHeader H (State.fromGenesis H t vals))) := by
    intro k r hk hr
    have hl := getElem?_lt hk
    rw [h3 k (by omega), Option.some.injEq] at hk
    unfold rootAt at hk
    split at hk
    · next x hx =>
      have := List.find?_some hx
      exact Or.inl ⟨x, List.mem_of_find?_eq_some hx, by simpa using this, hk⟩
    · split at hk
      · next h00 => exact Or.inr ⟨h00, hk.symm⟩
      · exact absurd hk.symm hr
  intro k k' r hk hk' hr
  rcases cases' k r hk hr with ⟨x, x1, x2, x3⟩ | ⟨x1, x2⟩
  · rcases cases' k' r hk' hr with ⟨y, y1, y2, y3⟩ | ⟨y1, y2⟩
    · have := hn.inj x (hm x (List.mem_cons_of_mem _ x1)) y (hm y (List.mem_cons_of_mem _ y1))
        (x3.trans y3.symm)
      rw [← x2, ← y2, this]
    · exact absurd (x3.trans y2) (hn.notGenesis x (hm x (List.mem_cons_of_mem _ x1)))
  · rcases cases' k' r hk' hr with ⟨y, y1, y2, y3⟩ | ⟨y1, y2⟩
    · exact absurd (y3.trans x2) (hn.notGenesis y (hm y (List.mem_cons_of_mem _ y1)))
    · rw [x1, y1]

/-- What the history records is on the chain. -/
theorem onChain_of_hist {H : Hash} (hz : ∀ s, H.state s ≠ 0) {t : Nat}
    {vals : List Validator} {b : Block} {bs : List Block} {s : State}
    (hc : Chain H (State.fromGenesis H t vals) (b :: bs) s) {c : Checkpoint}
    (h : HistOn s.historicalBlockHashes c) :
    OnChain H (State.fromGenesis H t vals) (b :: bs) c ∧ c.slot < b.slot := by
  obtain ⟨-, h2, h3⟩ := C03_history_is_chain hz hc
  have hl := getElem?_lt h
  unfold HistOn at h
  rw [h3 _ (by omega), Option.some.injEq] at h
  refine ⟨?_, by omega⟩
  unfold OnChain
  rw [← h]
  unfold rootAt
  rw [List.find?_cons_of_neg]
  simp; omega

end Verif
