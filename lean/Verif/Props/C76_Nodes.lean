import Verif.Props.C76_Safety
import Verif.Props.C79_Signed
/-!
# C76 for nodes: conflicting finality is accountable, with signatures
-/
namespace Verif.Node
open Verif Verif.Db Verif.Buffers

section
variable {X : Crypto} {Signs : Nat → Root → Nat → Prop} {H : Hash} {t : Nat} {vals : List Validator}

/-- Votes in verified blocks were signed. -/
theorem casts_signed (hX : Sound X Signs) {sbs : List SignedBlock}
    (hall : ∀ sb ∈ sbs, ∃ p : State, p.validators = vals ∧
      (envOf X H).verifyBlock p sb = true ∧ ∃ st', importState H p sb.block = .ok st')
    {v : Nat} {d : AttData} (h : Casts (sbs.map (·.block)) v d) : SignedVote X H Signs vals v d := by
  obtain ⟨b, hb, x, hx, rfl, hv⟩ := h
  obtain ⟨sb, hs, rfl⟩ := List.mem_map.1 hb
  obtain ⟨p, hp, hver, -⟩ := hall sb hs
  have := (C78_signed hX (accepted_iff.1 hver)).2 x hx v hv
  rwa [hp] at this

/-- The finalized checkpoint of a node started from genesis is the genesis block, or that of a state on a
chain of blocks that the node holds, every vote of which was signed. -/
theorem finalized_chain (hX : Sound X Signs) {order : List Root → List Root}
    {reagg : Store → SignedBlock → List (AttData × Agg)} {body : Option (List AggAtt)} {evs : List Event}
    {a : Actor} (ho : ∀ l, (order l).Perm l)
    (W : World (envOf X H) t vals [] (State.fromGenesis H t vals)
      (Known H (State.fromGenesis H t vals) [] evs))
    (h : AReach ⟨envOf X H, order, reagg⟩ (State.fromGenesis H t vals) body evs a)
    (h0 : a.store.mem.db.finalized.slot ≠ 0) :
    ∃ (bs : List Block) (s : State), bs ≠ [] ∧ Chain H (State.fromGenesis H t vals) bs s ∧
      Reads a.store (tipRoot H (State.fromGenesis H t vals) bs) s ∧
      s.latestFinalized = a.store.mem.db.finalized ∧
      ∀ v d, Casts bs v d → SignedVote X H Signs vals v d := by
  obtain ⟨rank, hR⟩ := W.acyclic
  obtain ⟨root, anchor, ops, A, I, V⟩ := areach_verified
    (c := ⟨envOf X H, order, reagg⟩) ho W hR h eventK_known
  obtain ⟨m, -, -, -, h3, -⟩ := I.node.started
  have hs0 : anchor.slot = 0 := by rw [h3]; rfl
  rcases I.node.cp.finOf with e | ⟨r, st, e, e'⟩
  · rw [e] at h0; exact absurd hs0 h0
  · have hne : r ≠ root := by
      intro hr
      rw [hr, I.node.tree.anc] at e
      have e := Option.some.inj e
      apply h0
      rw [← e', ← e, h3]
      rfl
    obtain ⟨sbs, hnil, hc, ⟨sb, hsb, hroot⟩, hall⟩ :=
      verified_chain W I.node V st.slot r st (Nat.le_refl _) e hne
    rw [List.append_nil] at hc
    refine ⟨sbs.map (fun sb : SignedBlock => sb.block), st, by simpa using hnil, hc, ?_, e',
      fun v d hv => casts_signed hX hall hv⟩
    have : tipRoot H (State.fromGenesis H t vals) (sbs.map (fun sb : SignedBlock => sb.block)) = r := by
      cases sbs with
      | nil => exact absurd rfl hnil
      | cons x sbs =>
        injection hsb with hsb
        subst hsb
        exact hroot
    rw [this]
    exact (I.node.reads W r st).2 e

/-- **C76 for nodes.** Two nodes started from the same genesis, after any events whatsoever at either, whose
finalized checkpoints are not genesis: each rests on a chain of blocks that the node holds. If these chains
conflict, and the lower checkpoint was finalized as the protocol intends (`SolidFinality`), then at least a
third of the validators have signed two votes that together are a Casper offence, or block hashes collide.
Missing: finality by pooled votes or over skipped slots, where it is false (`C76_refuted_pooling`,
`C76_refuted_grid`). -/
theorem C76_nodes_partial (hX : Sound X Signs) {order₁ order₂ : List Root → List Root}
    {reagg₁ reagg₂ : Store → SignedBlock → List (AttData × Agg)} {body₁ body₂ : Option (List AggAtt)}
    {evs₁ evs₂ : List Event} {a₁ a₂ : Actor} (ho₁ : ∀ l, (order₁ l).Perm l)
    (ho₂ : ∀ l, (order₂ l).Perm l)
    (W₁ : World (envOf X H) t vals [] (State.fromGenesis H t vals)
      (Known H (State.fromGenesis H t vals) [] evs₁))
    (W₂ : World (envOf X H) t vals [] (State.fromGenesis H t vals)
      (Known H (State.fromGenesis H t vals) [] evs₂))
    (r₁ : AReach ⟨envOf X H, order₁, reagg₁⟩ (State.fromGenesis H t vals) body₁ evs₁ a₁)
    (r₂ : AReach ⟨envOf X H, order₂, reagg₂⟩ (State.fromGenesis H t vals) body₂ evs₂ a₂)
    (h₁ : a₁.store.mem.db.finalized.slot ≠ 0) (h₂ : a₂.store.mem.db.finalized.slot ≠ 0)
    (hle : a₁.store.mem.db.finalized.slot ≤ a₂.store.mem.db.finalized.slot) :
    ∃ (bs₁ bs₂ : List Block) (s₁ s₂ : State),
      (Chain H (State.fromGenesis H t vals) bs₁ s₁ ∧ s₁.latestFinalized = a₁.store.mem.db.finalized ∧
        Reads a₁.store (tipRoot H (State.fromGenesis H t vals) bs₁) s₁) ∧
      (Chain H (State.fromGenesis H t vals) bs₂ s₂ ∧ s₂.latestFinalized = a₂.store.mem.db.finalized ∧
        Reads a₂.store (tipRoot H (State.fromGenesis H t vals) bs₂) s₂) ∧
      (NoCollision H (State.fromGenesis H t vals) (bs₁ ++ bs₂) →
        ¬ OnChain H (State.fromGenesis H t vals) bs₂ a₁.store.mem.db.finalized →
        ¬ OnChain H (State.fromGenesis H t vals) bs₁ a₂.store.mem.db.finalized →
        SolidFinality H (State.fromGenesis H t vals) vals.length bs₁ bs₂ a₁.store.mem.db.finalized →
        OneThird (fun v => ∃ d d' : AttData, SignedVote X H Signs vals v d ∧
          SignedVote X H Signs vals v d' ∧ Slashable d d') vals.length) := by
  obtain ⟨bs₁, s₁, n₁, c₁, q₁, f₁, g₁⟩ := finalized_chain hX ho₁ W₁ r₁ h₁
  obtain ⟨bs₂, s₂, n₂, c₂, q₂, f₂, g₂⟩ := finalized_chain hX ho₂ W₂ r₂ h₂
  refine ⟨bs₁, bs₂, s₁, s₂, ⟨c₁, f₁, q₁⟩, ⟨c₂, f₂, q₂⟩, fun hn o₁ o₂ hs => ?_⟩
  have hx : Conflict H t vals bs₁ bs₂ s₁ s₂ :=
    ⟨c₁, c₂, n₁, n₂, hn, by rw [f₁]; exact o₁, by rw [f₂]; exact o₂⟩
  have signed : ∀ v d, Casts (bs₁ ++ bs₂) v d → SignedVote X H Signs vals v d := by
    rintro v d ⟨b, hb, hx⟩
    rcases List.mem_append.1 hb with hb | hb
    · exact g₁ v d ⟨b, hb, hx⟩
    · exact g₂ v d ⟨b, hb, hx⟩
  refine (C76_partial W₁.stateNZ hx (by rw [f₁, f₂]; exact hle) (by rw [f₁]; exact hs)).mono ?_
  rintro v ⟨d, d', h1, h2, h3⟩
  exact ⟨d, d', signed v d h1, signed v d' h2, h3⟩

end

namespace Witness
open Verif.Witness

/-- A block with the toy proof made for its votes. -/
def sgnAll (b : Block) : SignedBlock :=
  { block := b, proof := wMake (b.body.map (fun x => (wH.attData x.data, x.data.slot)) ++
      [(b.root wH, b.slot)]) }

/-- Blocks 1, 2, 3 with two thirds for 0 → 1 and for 1 → 2. -/
def lowChain : List Block :=
  [ mkBlock 3 2 [vote [true, true, false] 1 2], mkBlock 2 1 [vote [true, true, false] 0 1],
    mkBlock 1 0 [] ]

/-- Blocks 4, 5, 6 on genesis with two thirds for 0 → 4 and for 4 → 5. -/
def highChain : List Block :=
  [ mkBlock 6 5 [vote [true, true, false] 0 4, vote [true, true, false] 4 5], mkBlock 5 4 [],
    mkBlock 4 0 [] ]

def chainEvs (bs : List Block) : List Event := bs.map (fun b => .block (sgnAll b)) ++ [.tick 32000 false]

theorem chain_world {bs : List Block} (h1 : ∀ a ∈ knownList (chainEvs bs), ∀ b ∈ knownList (chainEvs bs),
      wH.header a = wH.header b → a = b)
    (h2 : ∀ a ∈ knownList (chainEvs bs), a.parentRoot ≤ a.slot) :
    World (envOf wX wH) 0 wVals [] wG (Known wH wG [] (chainEvs bs)) := by
  have W := world_of_list (evs := chainEvs bs) h1 h2
  exact ⟨W.chain, W.headerNZ, W.stateNZ, W.genesis, W.old, W.collisionFree, W.acyclic⟩

theorem chain_run {bs : List Block} {c : Checkpoint}
    (h : (srun (chainEvs bs)).toOption.map (fun a => a.store.mem.db.finalized) = some c) :
    ∃ a, AReach sCtx wG (some []) (chainEvs bs) a ∧ a.store.mem.db.finalized = c := by
  cases e : srun (chainEvs bs) with
  | error x => rw [e] at h; cases h
  | ok a =>
    rw [e] at h
    exact ⟨a, areach_srun e, Option.some.inj h⟩

/-- Non-vacuity: one node imports blocks 1, 2, 3 and finalizes slot 1, the other blocks 4, 5, 6 and
finalizes slot 4, with real signature checks at both. The two chains conflict and the lower finality is
solid: validators 0 and 1 signed 1 → 2 and 0 → 4. -/
example : Sound wX wSigns ∧
    World (envOf wX wH) 0 wVals [] wG (Known wH wG [] (chainEvs lowChain)) ∧
    World (envOf wX wH) 0 wVals [] wG (Known wH wG [] (chainEvs highChain)) ∧
    (∃ a, AReach sCtx wG (some []) (chainEvs lowChain) a ∧ a.store.mem.db.finalized = ⟨2, 1⟩) ∧
    (∃ a, AReach sCtx wG (some []) (chainEvs highChain) a ∧ a.store.mem.db.finalized = ⟨5, 4⟩) ∧
    (∃ s₁ s₂, Chain wH wG lowChain s₁ ∧ s₁.latestFinalized = ⟨2, 1⟩ ∧
      Chain wH wG highChain s₂ ∧ s₂.latestFinalized = ⟨5, 4⟩) ∧
    NoCollision wH wG (lowChain ++ highChain) ∧ ¬ OnChain wH wG highChain ⟨2, 1⟩ ∧
    ¬ OnChain wH wG lowChain ⟨5, 4⟩ ∧
    SolidFinality wH wG wVals.length lowChain highChain ⟨2, 1⟩ := by
  refine ⟨wX_sound, chain_world (by decide +kernel) (by decide +kernel),
    chain_world (by decide +kernel) (by decide +kernel), chain_run (by decide +kernel),
    chain_run (by decide +kernel), ?_, ⟨by decide +kernel, by decide +kernel, by decide +kernel,
    by decide +kernel⟩, by unfold OnChain; decide +kernel, by unfold OnChain; decide +kernel, ?_⟩
  · have h1 : ∃ s, importAll wH wG lowChain.reverse = .ok s ∧ s.latestFinalized = ⟨2, 1⟩ := by
      have h : (importAll wH wG lowChain.reverse).toOption.map (·.latestFinalized) = some ⟨2, 1⟩ := by
        decide +kernel
      cases e : importAll wH wG lowChain.reverse with
      | error x => rw [e] at h; cases h
      | ok s => rw [e] at h; exact ⟨s, rfl, Option.some.inj h⟩
    have h2 : ∃ s, importAll wH wG highChain.reverse = .ok s ∧ s.latestFinalized = ⟨5, 4⟩ := by
      have h : (importAll wH wG highChain.reverse).toOption.map (·.latestFinalized) = some ⟨5, 4⟩ := by
        decide +kernel
      cases e : importAll wH wG highChain.reverse with
      | error x => rw [e] at h; cases h
      | ok s => rw [e] at h; exact ⟨s, rfl, Option.some.inj h⟩
    obtain ⟨s₁, e₁, f₁⟩ := h1
    obtain ⟨s₂, e₂, f₂⟩ := h2
    have c₁ := chain_of_importAll e₁
    have c₂ := chain_of_importAll e₂
    rw [List.reverse_reverse] at c₁ c₂
    exact ⟨s₁, s₂, c₁, f₁, c₂, f₂⟩
  · refine ⟨⟨3, 2⟩, by decide, by decide, by unfold OnChain; decide +kernel, ?_, fun x _ h1 h2 => ?_⟩
    · exact C76Witness.strong (a := vote [true, true, false] 1 2)
        (b := mkBlock 3 2 [vote [true, true, false] 1 2]) (by decide +kernel) (by simp [mkBlock]) rfl rfl
    · have h1 : 1 < x.slot := h1
      have h2 : x.slot < 2 := h2
      omega

end Witness

end Verif.Node
