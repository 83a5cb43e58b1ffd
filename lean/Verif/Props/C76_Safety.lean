import Verif.Spec.Safety
import Verif.Lemmas.Links
/-!
# C76: accountable safety -- refuted twice, and what holds
-/
namespace Verif

namespace C76Witness
open Witness

/-- A hash under which a block's root spells out the slots of its whole ancestry. -/
def fH : Hash :=
  { state := fun _ => 1, header := fun h => h.slot + 1 + 32 * h.parentRoot,
    body := fun l => l.length + 5, attData := fun d => d.slot }

def fG : State := State.fromGenesis fH 0 wVals

/-- The root of the block at the end of a path of slots (oldest first). -/
def rt (path : List Nat) : Root := path.foldl (fun r k => k + 1 + 32 * r) 1

/-- The block at the end of a path. -/
def blk (path : List Nat) (slot : Nat) (body : List AggAtt) : Block :=
  { slot := slot, proposerIndex := slot % 3, parentRoot := rt path, stateRoot := 1, body := body }

/-- The checkpoint at the end of a path. -/
def at' (path : List Nat) : Checkpoint := ⟨rt path, path.getLast?.getD 0⟩

/-- A vote between two checkpoints given by their paths. -/
def lnk (bits : List Bool) (src tgt : List Nat) : AggAtt :=
  { bits := bits, data := { slot := (at' tgt).slot, head := at' tgt, target := at' tgt,
                            source := at' src } }

def stateOf (bs : List Block) : State := match importAll fH fG bs with
  | .ok s => s
  | .error _ => fG

/-! ## First pair of chains: votes pooled over sources -/

/-- Slots 1, 2, 3: two thirds for 0 → 1; then one vote 0 → 2 and one vote 1 → 2. -/
def pool₁ : List Block :=
  [ blk [] 1 [], blk [1] 2 [lnk [true, true, false] [] [1]],
    blk [1, 2] 3 [lnk [true, false, false] [] [1, 2], lnk [false, false, true] [1] [1, 2]] ]

/-- Slots 3, 4, 5: two thirds for 0 → 3 and for 3 → 4. -/
def pool₂ : List Block :=
  [ blk [] 3 [], blk [3] 4 [],
    blk [3, 4] 5 [lnk [true, true, false] [] [3], lnk [true, true, false] [3] [3, 4]] ]

/-! ## Second pair: only two-thirds links -/

def v2 : List Bool := [true, true, false]

def common : List Block :=
  [ blk [] 1 [], blk [1] 2 [lnk v2 [] [1]], blk [1, 2] 3 [lnk v2 [1] [1, 2]],
    blk [1, 2, 3] 4 [lnk v2 [1, 2] [1, 2, 3]] ]

/-- Slot 3 is finalized here, so 10 and 11 are not justifiable and 9 → 12 finalizes 9. -/
def grid₁ : List Block := common ++
  [ blk [1, 2, 3, 4] 5 [lnk v2 [1, 2, 3] [1, 2, 3, 4]],
    blk [1, 2, 3, 4, 5] 9 [],
    blk [1, 2, 3, 4, 5, 9] 12 [lnk v2 [1, 2, 3] [1, 2, 3, 4, 5, 9]],
    blk [1, 2, 3, 4, 5, 9, 12] 13 [lnk v2 [1, 2, 3, 4, 5, 9] [1, 2, 3, 4, 5, 9, 12]] ]

/-- Slot 2 is finalized here, so 11 is justifiable, 12 and 13 are not, and 11 → 14 finalizes 11. -/
def grid₂ : List Block := common ++
  [ blk [1, 2, 3, 4] 11 [],
    blk [1, 2, 3, 4, 11] 14 [lnk v2 [1, 2, 3] [1, 2, 3, 4, 11]],
    blk [1, 2, 3, 4, 11, 14] 15 [lnk v2 [1, 2, 3, 4, 11] [1, 2, 3, 4, 11, 14]] ]

/-! ## Evaluation -/

/-- The votes of one validator in some blocks. -/
def votesOf (bs : List Block) (v : Nat) : List AttData :=
  bs.flatMap (fun b => (b.body.filter (fun a => a.bits[v]? == some true)).map AggAtt.data)

theorem casts_mem {bs : List Block} {v : Nat} {d : AttData} :
    Casts bs v d ↔ d ∈ votesOf bs v := by
  unfold Casts votesOf
  simp only [List.mem_flatMap, List.mem_map, List.mem_filter, beq_iff_eq]
  constructor
  · rintro ⟨b, hb, a, ha, h1, h2⟩
    exact ⟨b, hb, a, ⟨ha, h2⟩, h1⟩
  · rintro ⟨b, hb, a, ⟨ha, h2⟩, h1⟩
    exact ⟨b, hb, a, ha, h1, h2⟩

instance (d d' : AttData) : Decidable (Suspicious d d') := by
  unfold Suspicious Slashable DoubleVote Surrounds; infer_instance

/-- Nobody among three validators cast a suspicious pair. -/
def clean (bs : List Block) : Bool :=
  (List.range 3).all (fun v => (votesOf bs v).all (fun d => (votesOf bs v).all
    (fun d' => !decide (Suspicious d d'))))

theorem not_guilty {bs : List Block} (h : clean bs = true) :
    ¬ OneThird (Guilty Suspicious bs) wVals.length := by
  rintro ⟨vs, -, h2, h3⟩
  cases vs with
  | nil => simp [wVals] at h3
  | cons v vs =>
    obtain ⟨hv, d, d', hd, hd', hs⟩ := h2 v (by simp)
    have := List.all_eq_true.1 h v (List.mem_range.2 hv)
    have := List.all_eq_true.1 this d (casts_mem.1 hd)
    have := List.all_eq_true.1 this d' (casts_mem.1 hd')
    rw [decide_eq_true hs] at this
    cases this

theorem noCollision_of {bs : List Block}
    (h : (bs.all (fun b => bs.all (fun b' => !decide (b.root fH = b'.root fH) || decide (b = b')) &&
      !decide (b.root fH = 1) && !decide (b.root fH = 0))) = true) : NoCollision fH fG bs := by
  have key : ∀ b ∈ bs, (∀ b' ∈ bs, b.root fH = b'.root fH → b = b') ∧ b.root fH ≠ 1 ∧
      b.root fH ≠ 0 := by
    intro b hb
    have := List.all_eq_true.1 h b hb
    simp only [Bool.and_eq_true, List.all_eq_true, Bool.or_eq_true, Bool.not_eq_true',
      decide_eq_false_iff_not, decide_eq_true_eq] at this
    refine ⟨fun b' hb' e => (this.1.1 b' hb').resolve_left (fun hc => hc e), this.1.2, this.2⟩
  exact ⟨fun b hb => (key b hb).1, fun b hb => (key b hb).2.1, fun b hb => (key b hb).2.2,
    by decide +kernel⟩

theorem pool_conflict : Conflict fH 0 wVals pool₁.reverse pool₂.reverse (stateOf pool₁)
    (stateOf pool₂) where
  chain₁ := chain_of_importAll (by decide +kernel)
  chain₂ := chain_of_importAll (by decide +kernel)
  ne₁ := by decide
  ne₂ := by decide
  ok := noCollision_of (by decide +kernel)
  off₁ := by unfold OnChain; decide +kernel
  off₂ := by unfold OnChain; decide +kernel

theorem grid_conflict : Conflict fH 0 wVals grid₁.reverse grid₂.reverse (stateOf grid₁)
    (stateOf grid₂) where
  chain₁ := chain_of_importAll (by decide +kernel)
  chain₂ := chain_of_importAll (by decide +kernel)
  ne₁ := by decide
  ne₂ := by decide
  ok := noCollision_of (by decide +kernel)
  off₁ := by unfold OnChain; decide +kernel
  off₂ := by unfold OnChain; decide +kernel

/-- Slots 1, 2, 3 with two thirds for 0 → 1 and for 1 → 2. -/
def solid₁ : List Block :=
  [ blk [] 1 [], blk [1] 2 [lnk v2 [] [1]], blk [1, 2] 3 [lnk v2 [1] [1, 2]] ]

theorem solid_conflict : Conflict fH 0 wVals solid₁.reverse pool₂.reverse (stateOf solid₁)
    (stateOf pool₂) where
  chain₁ := chain_of_importAll (by decide +kernel)
  chain₂ := chain_of_importAll (by decide +kernel)
  ne₁ := by decide
  ne₂ := by decide
  ok := noCollision_of (by decide +kernel)
  off₁ := by unfold OnChain; decide +kernel
  off₂ := by unfold OnChain; decide +kernel

theorem strong {bs : List Block} {a : AggAtt} {b : Block} (hb : b ∈ bs) (ha : a ∈ b.body)
    (h0 : a.bits[0]? = some true) (h1 : a.bits[1]? = some true) :
    StrongLink bs wVals.length a.data.source a.data.target := by
  refine ⟨[0, 1], by decide, ?_, by decide⟩
  intro v hv
  rcases List.mem_cons.1 hv with rfl | hv
  · exact ⟨by decide, a.data, ⟨b, hb, a, ha, rfl, h0⟩, rfl, rfl⟩
  · rw [List.mem_singleton] at hv
    subst hv
    exact ⟨by decide, a.data, ⟨b, hb, a, ha, rfl, h1⟩, rfl, rfl⟩

end C76Witness

open C76Witness in
/-- Two valid chains finalize conflicting blocks (slots 1 and 3) although no validator cast two
votes for the same slot, two votes for the same target slot, or a surrounding vote: the code adds
up votes with different sources and then finalizes the source of the last one. -/
theorem C76_refuted_pooling : ¬ AccountableSafety Suspicious := by
  intro h
  exact not_guilty (by decide +kernel)
    (h fH 0 Witness.wVals _ _ _ _ (fun _ => Nat.one_ne_zero) pool_conflict)

open C76Witness in
/-- Even when every finalized checkpoint has a genuine two-thirds link: which slots may be
justified depends on the finalized slot each chain knows of, so a chain that has finalized slot 3
can go straight from 9 to 12 while a chain that has only finalized slot 2 justifies 11 in
between. -/
theorem C76_refuted_grid : ¬ AccountableSafetyStrong Suspicious := by
  intro h
  refine not_guilty (bs := grid₁.reverse ++ grid₂.reverse) (by decide +kernel)
    (h fH 0 Witness.wVals _ _ _ _ (fun _ => Nat.one_ne_zero) grid_conflict
      ⟨at' [1, 2, 3, 4, 5, 9, 12], by decide +kernel, by unfold OnChain; decide +kernel, ?_⟩
      ⟨at' [1, 2, 3, 4, 11, 14], by decide +kernel, by unfold OnChain; decide +kernel, ?_⟩)
  · have e : (stateOf grid₁).latestFinalized = at' [1, 2, 3, 4, 5, 9] := by decide +kernel
    rw [e]
    exact strong (a := lnk v2 [1, 2, 3, 4, 5, 9] [1, 2, 3, 4, 5, 9, 12])
      (b := blk [1, 2, 3, 4, 5, 9, 12] 13 [lnk v2 [1, 2, 3, 4, 5, 9] [1, 2, 3, 4, 5, 9, 12]])
      (by decide +kernel) (by simp [blk]) rfl rfl
  · have e : (stateOf grid₂).latestFinalized = at' [1, 2, 3, 4, 11] := by decide +kernel
    rw [e]
    exact strong (a := lnk v2 [1, 2, 3, 4, 11] [1, 2, 3, 4, 11, 14])
      (b := blk [1, 2, 3, 4, 11, 14] 15 [lnk v2 [1, 2, 3, 4, 11] [1, 2, 3, 4, 11, 14]])
      (by decide +kernel) (by simp [blk]) rfl rfl

/-- What holds: if the lower of the two conflicting finalized checkpoints was finalized as the
protocol intends -- a two-thirds link to one later block, with no slot in between justified on the
other chain -- then at least a third of the validators cast a double vote or a surrounding vote,
and the pair of votes is in the blocks. Votes for one target with different sources do no harm to
justification as such. Missing for the full claim: the two conditions, both of which the code can
violate (above). -/
theorem C76_partial {H : Hash} (hz : ∀ s, H.state s ≠ 0) {t : Nat} {vals : List Validator}
    {bs₁ bs₂ : List Block} {s₁ s₂ : State} (hx : Conflict H t vals bs₁ bs₂ s₁ s₂)
    (hle : s₁.latestFinalized.slot ≤ s₂.latestFinalized.slot)
    (hsolid : SolidFinality H (State.fromGenesis H t vals) vals.length bs₁ bs₂
      s₁.latestFinalized) :
    OneThird (Guilty Slashable (bs₁ ++ bs₂)) vals.length := by
  obtain ⟨hc₁, hc₂, ne₁, ne₂, hn, off₁, off₂⟩ := hx
  obtain ⟨T, hT, hT0, hTon, hlink, hgap⟩ := hsolid
  match bs₁, bs₂, ne₁, ne₂ with
  | b₁ :: r₁, b₂ :: r₂, _, _ =>
    have u₁ := histUnique_of_noCollision hz hc₁ hn (fun x hx => List.mem_append_left _ hx)
    have u₂ := histUnique_of_noCollision hz hc₂ hn (fun x hx => List.mem_append_right _ hx)
    have j₁ := chain_finalized_just hc₁ (by simp) u₁
    have j₂ := chain_finalized_just hc₂ (by simp) u₂
    have o₁ := onChain_of_hist hz hc₁ (chain_inv hc₁ (by simp)).finOn
    have hc : ∀ x v d, Casts x v d → ∀ y, (∀ b ∈ x, b ∈ y) → Casts y v d := by
      rintro x v d ⟨b, hb, h⟩ y hy
      exact ⟨b, hy b hb, h⟩
    have hO : ∀ c, HistOn s₂.historicalBlockHashes c →
        OnChain H (State.fromGenesis H t vals) (b₂ :: r₂) c :=
      fun c h => (onChain_of_hist hz hc₂ h).1
    refine safety_core (P := Casts (b₁ :: r₁ ++ b₂ :: r₂))
      (fun v d h => hc _ v d h _ (fun b hb => List.mem_append_left _ hb))
      (fun v d h => hc _ v d h _ (fun b hb => List.mem_append_right _ hb)) j₁ ?_ off₁ hlink ?_
      hgap _ _ rfl (j₂.mono hO (fun _ _ h => h)) hle
    · intro h0
      apply off₁
      have := o₁.1
      unfold OnChain at this ⊢
      rw [h0] at this ⊢
      rw [rootAt_zero hc₂, ← rootAt_zero hc₁, this]
    · intro hT2
      apply off₁
      have := agree_below hz hc₁ hc₂ hn hT0 hTon hT2 (k := s₁.latestFinalized.slot) (by omega)
      unfold OnChain
      rw [← this]
      exact o₁.1

/-- In particular, when the finalizing link goes to the very next slot. -/
theorem C76_adjacent_partial {H : Hash} (hz : ∀ s, H.state s ≠ 0) {t : Nat}
    {vals : List Validator} {bs₁ bs₂ : List Block} {s₁ s₂ : State}
    (hx : Conflict H t vals bs₁ bs₂ s₁ s₂)
    (hle : s₁.latestFinalized.slot ≤ s₂.latestFinalized.slot) {T : Checkpoint}
    (hT : T.slot = s₁.latestFinalized.slot + 1) (h0 : T.root ≠ 0)
    (hon : OnChain H (State.fromGenesis H t vals) bs₁ T)
    (hl : StrongLink bs₁ vals.length s₁.latestFinalized T) :
    OneThird (Guilty Slashable (bs₁ ++ bs₂)) vals.length :=
  C76_partial hz hx hle ⟨T, by omega, h0, hon, hl, fun x _ h1 h2 => by omega⟩

open C76Witness in
/-- Non-vacuity: slot 1 is finalized on one chain by a link to slot 2, slot 3 on the other; the
same two validators voted 1 → 2 and 0 → 3. -/
example : Conflict fH 0 Witness.wVals solid₁.reverse pool₂.reverse (stateOf solid₁)
      (stateOf pool₂) ∧
    (stateOf solid₁).latestFinalized = at' [1] ∧ (stateOf pool₂).latestFinalized = at' [3] ∧
    SolidFinality fH (State.fromGenesis fH 0 Witness.wVals) Witness.wVals.length solid₁.reverse
      pool₂.reverse (stateOf solid₁).latestFinalized := by
  have e : (stateOf solid₁).latestFinalized = at' [1] := by decide +kernel
  refine ⟨solid_conflict, e, by decide +kernel, ?_⟩
  rw [e]
  refine ⟨at' [1, 2], by decide, by decide, by unfold OnChain; decide +kernel, ?_,
    fun x _ h1 h2 => ?_⟩
  · exact strong (a := lnk v2 [1] [1, 2]) (b := blk [1, 2] 3 [lnk v2 [1] [1, 2]])
      (by decide +kernel) (by simp [blk]) rfl rfl
  · have h1 : 1 < x.slot := h1
    have h2 : x.slot < 2 := h2
    omega

end Verif
