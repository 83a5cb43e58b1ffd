import Verif.Props.C83_PoolValid
import Verif.Model.Propose
import Verif.Props.C32_Ticks
/-!
# C84: the block a node proposes is never refused by its own checks
-/
namespace Verif.Node
open Verif Verif.Db Verif.Votes Verif.Buffers Verif.Build

section
variable {X : Crypto} {H : Hash} {t : Nat}
  {vals : List Validator} {bs : List Block} {a0 : State} {body : Option (List AggAtt)}
  {order : List Root → List Root} {reagg : Store → SignedBlock → List (AttData × Agg)}
  {evs : List Event} {a : Actor}

/-- **C84, for nodes that see only one copy of each block.** Whenever a node, in any state it can get
into, proposes a block, its own import accepts the block, so it is published; the block is for the
slot, by the validator, on the node's head, and its proof verifies.
Missing: `OneCopy`, as for C83. -/
theorem C84_own_proposal_partial (hX : Complete X) (hK : KeysDistinct X vals)
    (ho : ∀ l, (order l).Perm l)
    (W : World (envOf X H) t vals bs a0 (Known H (State.fromGenesis H t vals) bs evs))
    (hN : NoCollision H evs) (h1 : OneCopy evs)
    (hre : ∀ s sb, reagg s sb = reaggregate X H s sb ∨ reagg s sb = [])
    (hown : OwnMade X ⟨envOf X H, order, reagg⟩ (proveJob X) a0 body evs)
    (h : AReach ⟨envOf X H, order, reagg⟩ a0 body evs a)
    {ord : Root → List Nat → List Nat} (hord : ∀ r l, (ord r l).Perm l)
    {sign : Nat → Nat → Root → Option Nat} {slot vid : Nat} {c : Config}
    (hsign : SignsWith X vals vid sign) (hslot : slot ≤ historicalRootsLimit)
    {s' : Store} {sb : SignedBlock} {r : Except Err Unit}
    (hp : proposeBlock X H ord sign a.store slot vid c = .ok (s', some (sb, r))) :
    r = .ok () ∧ sb.block.slot = slot ∧ sb.block.proposerIndex = vid ∧
    ∃ s0 st, proposalStore H a.store slot = .ok s0 ∧ sb.block.parentRoot = s0.mem.db.head ∧
      Reads s0 s0.mem.db.head st ∧ verifyBlockSignatures X H st sb = .ok () := by
  obtain ⟨hh, root, anchor, ops, A, I⟩ := areach_held (c := ⟨envOf X H, order, reagg⟩) ho W
    (valid_laws (vals := vals) hX hN h1 hre) (prove := proveJob X)
    (fun j out J hout => proveJob_valid hX hK J hout) hown h
  unfold proposeBlock at hp
  cases hps : proposalStore H a.store slot with
  | error e => rw [hps] at hp; cases hp
  | ok s0 =>
  rw [hps] at hp
  simp only at hp
  -- the store after the catch-up
  have hps' := hps
  unfold proposalStore at hps'
  obtain ⟨s1, ops1, e1, I1, -⟩ := I.succeeds_onTick W A
    (a.store.genesisTime * 1000 + slot * msPerSlot) true
  have e1 : onTick H a.store (a.store.genesisTime * 1000 + slot * msPerSlot) true = .ok s1 := e1
  rw [e1] at hps'
  simp only at hps'
  obtain ⟨s0', ops0, e0, I0, -⟩ := I1.succeeds_acceptNew W A
  have e0 : acceptNew H s1 = .ok s0' := e0
  rw [hps'] at e0
  cases e0
  have hh0 := (hh.onTick hN.votes e1).acceptNew hN.votes hps'
  have htime : slot ≤ s0.currentSlot := by
    unfold Store.currentSlot
    rw [(acceptNew_time hps').1, (C32_clock e1).1]
    simp only [msPerSlot, intervalsPerSlot]
    omega
  cases hpr : produceBlock X H ord s0 slot vid c with
  | error e => rw [hpr] at hp; cases hp
  | ok x =>
  obtain ⟨s2, o⟩ := x
  rw [hpr] at hp
  cases o with
  | none => cases hp
  | some bp =>
  obtain ⟨b, proofs⟩ := bp
  simp only at hp
  unfold produceBlock at hpr
  obtain ⟨s2', g1, g2, -, I2⟩ := I0.getState W s0.mem.db.head
  rw [g1] at hpr
  cases hst : stateOf root anchor ops0 s0.mem.db.head with
  | none => rw [hst] at hpr; cases hpr
  | some st =>
  rw [hst] at hpr g1
  simp only at hpr
  split at hpr
  · cases hpr
  have hv : st.validators = vals := state_vals W I0 hst
  have fr := getState_frame g1
  cases hb : buildBlock H (mergeProofs X H st.validators) ord st slot vid s2'.mem.db.head
      (s2'.mem.db.liveChain.map (fun e => e.1.2)) (knownPool s2') c with
  | error e => rw [hb] at hpr; cases e <;> cases hpr
  | ok y =>
  obtain ⟨b', proofs', post⟩ := y
  rw [hb] at hpr
  cases hpr
  obtain ⟨s3, g3, g4, -, -⟩ := I2.getState W s2.mem.db.head
  have hst2 : stateOf root anchor (Op.readState s0.mem.db.head :: ops0) s2.mem.db.head = some st := by
    rw [stateOf_quiet (op := .readState _) trivial, g2, hst]
  rw [hst2] at g3
  unfold headState at hp
  rw [g3] at hp
  simp only at hp
  cases ha : assembleProof X H st sign slot vid b proofs with
  | none => rw [ha] at hp; cases hp
  | some sb' =>
  rw [ha] at hp
  simp only at hp
  split at hp
  · cases hp
  next s4 r' hr =>
  cases hp
  have hn : (knownPool s2).keys.Nodup := by
    have hd := I2.buf.known.inv
    have : (knownPool s2).keys = s2.knownP.data.keys := by
      simp [knownPool, AMap.keys, List.map_map, Function.comp_def]
    rw [this]
    exact hd.keys
  have hpool : ∀ e ∈ knownPool s2, ∀ g ∈ e.2.2,
      ValidAgg X H st.validators e.2.1 g ∧ e.2.1.slot < 2 ^ 32 := by
    intro e he g hg
    obtain ⟨x, hx, rfl⟩ := List.mem_map.1 he
    rw [fr.2.2.2.1] at hx
    rw [hv]
    exact (hh0.knownP x hx).2.2 g hg
  have hk : SignsWith X st.validators vid sign := by rw [hv]; exact hsign
  have hl : historicalRootsLimit = 262144 := rfl
  have hs32 : slot < 2 ^ 32 := by omega
  obtain ⟨k1, k2, -⟩ := C80_own_block hX hord hn hpool hk hs32 hb ha
  obtain ⟨b1, b2, b3, -⟩ := C43_accepted hn hb
  have hget : ∃ s6, s3.getState s2.mem.db.head = .ok (some st, s6) := by
    obtain ⟨s3', q1, q2, -, I3⟩ := I2.getState W s2.mem.db.head
    rw [hst2, g3] at q1
    cases q1
    obtain ⟨s6, q4, -⟩ := I3.getState W s2.mem.db.head
    rw [stateOf_quiet (op := .readState _) trivial, hst2] at q4
    exact ⟨s6, q4⟩
  obtain ⟨s6, hget⟩ := hget
  refine ⟨C80_not_refused hX hord hn hpool hk hs32 hb ha hget (by omega) ?_ hr,
    by rw [k1]; exact b1, by rw [k1]; exact b2, s0, st, rfl, by rw [k1, b3, g2], ?_, k2⟩
  · have : s3.currentSlot = s0.currentSlot := by
      unfold Store.currentSlot
      rw [g4, g2]
    omega
  · exact (I0.reads W _ _).2 hst

end

namespace Witness
open Verif.Witness

/-- The node imports block 1 and hears two aggregates for it. -/
def propEvs : List Event :=
  [ .aggregate (vote [] 0 1).data ⟨[true, true], 1001⟩,
    .aggregate (vote [] 0 1).data ⟨[false, false, true], 1001⟩, .block (sgn (mkBlock 1 0 [])),
    .tick 7000 false ]

/-- Non-vacuity: all hypotheses hold of `propEvs`, and validator 2 then proposes block 2 with the two
aggregates merged into one. -/
example : Complete wX ∧ KeysDistinct wX wVals ∧
    World (envOf wX wH) 0 wVals [] wG (Known wH wG [] propEvs) ∧
    NoCollision wH propEvs ∧ OneCopy propEvs ∧
    OwnMade wX rCtx (proveJob wX) wG (some []) propEvs ∧
    SignsWith wX wVals 2 (fun _ s _ => some s) ∧
    ∃ a s' r, AReach rCtx wG (some []) propEvs a ∧
      proposeBlock wX wH (fun _ l => l) (fun _ s _ => some s) a.store 2 2 ⟨true, 8⟩ =
        .ok (s', some (sgn oBlock, r)) := by
  refine ⟨wX_complete, wVals_distinct, rWorld (by decide +kernel) (by decide +kernel),
    noCollision_of_list (by decide +kernel) (by decide +kernel),
    oneCopy_of_list (by decide +kernel), ?_, ?_, ?_⟩
  · intro d g keys evs1 h
    have := h.subset List.mem_cons_self
    simp [propEvs] at this
  · intro s m raw sig val k h1 h2 h3 h4
    cases h1; cases h2; cases h3
    have : some 3 = some k := h4
    cases this
    simp [wX]
  · have h : (rrun propEvs).toOption.bind (fun a => (proposeBlock wX wH (fun _ l => l)
        (fun _ s _ => some s) a.store 2 2 ⟨true, 8⟩).toOption.bind (fun x => x.2.map Prod.fst)) =
        some (sgn oBlock) := by decide +kernel
    cases e : rrun propEvs with
    | error x => rw [e] at h; cases h
    | ok a =>
      rw [e] at h
      simp only [Except.toOption, Option.bind_some] at h
      cases e2 : proposeBlock wX wH (fun _ l => l) (fun _ s _ => some s) a.store 2 2 ⟨true, 8⟩ with
      | error x => rw [e2] at h; cases h
      | ok y =>
        rw [e2] at h
        obtain ⟨s', o⟩ := y
        obtain ⟨⟨sb, r⟩, h1, h2⟩ := Option.map_eq_some_iff.1 h
        have h1 : o = some (sb, r) := h1
        have h2 : sb = sgn oBlock := h2
        subst h1 h2
        exact ⟨a, s', r, areach_rrun e, e2⟩

end Witness
end Verif.Node
