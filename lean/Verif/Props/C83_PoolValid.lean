import Verif.Props.C82_Counted
import Verif.Model.Prove
/-!
# C83: the proofs in a node's pools are valid
-/
namespace Verif.Node
open Verif Verif.Db Verif.Votes Verif.Buffers Verif.Build

section
variable {X : Crypto} {H : Hash} {t : Nat}
  {vals : List Validator} {bs : List Block} {a0 : State} {body : Option (List AggAtt)}
  {order : List Root → List Root} {reagg : Store → SignedBlock → List (AttData × Agg)}
  {evs : List Event} {a : Actor}

theorem childInputs_iff {cs l : List (List Nat × Nat)} :
    childInputs X vals cs = some l ↔ List.Forall₂ (fun (c x : List Nat × Nat) =>
      attestationKeys X vals c.1 = .ok x.1 ∧ x.2 = c.2) cs l := by
  induction cs generalizing l with
  | nil =>
    unfold childInputs
    constructor
    · intro h; cases h; exact .nil
    · intro h; cases h; rfl
  | cons c cs ih =>
    unfold childInputs
    constructor
    · intro h
      split at h
      · cases h
      next ks hks =>
        split at h
        · cases h
        next l' hl => cases h; exact .cons ⟨hks, rfl⟩ (ih.1 hl)
    · intro h
      cases h with
      | cons h1 h2 =>
        rw [h1.1]
        simp only
        rw [ih.2 h2]
        simp only
        rw [← h1.2]

theorem rawInputs_iff {xs l : List (Nat × Nat)} :
    rawInputs X vals xs = some l ↔ List.Forall₂ (fun (x y : Nat × Nat) =>
      ∃ val, vals[x.1]? = some val ∧ X.decodeKey val.attestationPubkey = some y.1 ∧
        X.decodeSig x.2 = some y.2) xs l := by
  induction xs generalizing l with
  | nil =>
    unfold rawInputs
    constructor
    · intro h; cases h; exact .nil
    · intro h; cases h; rfl
  | cons x xs ih =>
    unfold rawInputs
    constructor
    · intro h
      split at h
      · cases h
      next val hv =>
        split at h
        next k sg hk hsg =>
          split at h
          · cases h
          next l' hl => cases h; exact .cons ⟨val, hv, hk, hsg⟩ (ih.1 hl)
        · cases h
    · intro h
      cases h with
      | cons h1 h2 =>
        obtain ⟨val, e1, e2, e3⟩ := h1
        rw [e1]
        simp only
        rw [e2, e3]
        simp only
        rw [ih.2 h2]

/-- The output of a job with valid inputs is valid. -/
theorem proveJob_valid (hX : Complete X) (hK : KeysDistinct X vals) {D : AttData → Prop} {j : Job}
    {out : GroupOut}
    (J : JobOk H D (fun d g => ValidAgg X H vals d g ∧ d.slot < 2 ^ 32) (ValidSig X H vals) j)
    (h : aggregateJob (proveJob X vals) j = .ok (some out)) :
    ValidAgg X H vals j.data out.proof ∧ j.data.slot < 2 ^ 32 := by
  refine ⟨?_, ?_⟩
  swap
  · unfold aggregateJob at h
    split at h
    · cases h
    split at h
    · cases h
    omega
  obtain ⟨-, h2, -, h4, -, -⟩ := C46_published _ _ _ h
  obtain ⟨qs, q1, q2, q3⟩ := J.children
  have h2 : proveJob X vals j = some out.proof.proof := h2.symm
  unfold proveJob at h2
  split at h2
  next l raw hl hraw =>
    have hl := childInputs_iff.1 hl
    have hraw := rawInputs_iff.1 hraw
    rw [q2, List.forall₂_map_left_iff] at hl
    unfold aggregateMixed at h2
    split at h2
    · cases h2
    have hin : ∀ x ∈ l, ∃ q ∈ qs, VoteKeys X vals ⟨q.participants, j.data⟩ x.1 ∧
        Valid1 X x.2 x.1 (j.root, j.data.slot) := by
      intro x hx
      obtain ⟨q, hq, e1, e2⟩ := forall2_mem_right hl hx
      obtain ⟨⟨ks, k1, k2⟩, -⟩ := q1 q hq
      have e1 : VoteKeys X vals ⟨q.participants, j.data⟩ x.1 := attestationKeys_iff.1 e1
      have := voteKeys_unique k1 e1
      subst this
      exact ⟨q, hq, e1, by rw [e2, J.root]; exact k2⟩
    have hrin : ∀ y ∈ raw, ∃ x ∈ j.raw, (∃ val, vals[x.1]? = some val ∧
        X.decodeKey val.attestationPubkey = some y.1) ∧
        X.xmss y.1 j.data.slot j.root y.2 = true := by
      intro y hy
      obtain ⟨x, hx, val, e1, e2, e3⟩ := forall2_mem_right hraw hy
      obtain ⟨val', k, sg, f1, f2, f3, f4⟩ := J.raw x hx
      rw [e1] at f1; cases f1
      rw [e2] at f2; cases f2
      rw [e3] at f3; cases f3
      exact ⟨x, hx, ⟨val, e1, e2⟩, by rw [J.root]; exact f4⟩
    have hks : ∃ ks, VoteKeys X vals ⟨out.proof.participants, j.data⟩ ks := by
      apply forall2_exists
      intro v hm
      rcases (h4 v).1 (mem_setBits.1 hm) with hv | hv
      · obtain ⟨x, hx, rfl⟩ := List.mem_map.1 hv
        obtain ⟨val', k, sg, f1, f2, -, -⟩ := J.raw x hx
        exact ⟨k, val', f1, f2⟩
      · rw [q3] at hv
        obtain ⟨q, hq, hvq⟩ := List.mem_flatMap.1 hv
        obtain ⟨⟨ks, k1, -⟩, -⟩ := q1 q hq
        obtain ⟨k, -, hk⟩ := forall2_mem_left k1 (mem_setBits.2 (mem_validatorIndices.1 hvq))
        exact ⟨k, hk⟩
    obtain ⟨ks, hks⟩ := hks
    have hnd : (raw.map Prod.fst).Nodup := by
      have gen : ∀ {xs raw : List (Nat × Nat)}, (xs.map Prod.fst).Nodup →
          List.Forall₂ (fun (x y : Nat × Nat) =>
            ∃ val, vals[x.1]? = some val ∧ X.decodeKey val.attestationPubkey = some y.1 ∧
            X.decodeSig x.2 = some y.2) xs raw → (raw.map Prod.fst).Nodup := by
        intro xs raw hn h
        induction h with
        | nil => exact List.nodup_nil
        | @cons x y xs raw h1 h2 ih =>
          rw [List.map_cons, List.nodup_cons] at hn ⊢
          refine ⟨fun hm => ?_, ih hn.2⟩
          obtain ⟨y', hy', e⟩ := List.mem_map.1 hm
          obtain ⟨x', hx', val', f1, f2, -⟩ := forall2_mem_right h2 hy'
          obtain ⟨val, e1, e2, -⟩ := h1
          rw [e] at f2
          have := hK _ _ _ _ _ e1 f1 e2 f2
          rw [this] at hn
          exact hn.1 (List.mem_map_of_mem hx')
      exact gen J.nodup hraw
    have key := hX.single l raw j.root j.data.slot out.proof.proof
      (fun x hx => (hin x hx).choose_spec.2.2)
      (fun y hy => (hrin y hy).choose_spec.2.2) hnd
      (fun y hy x hx hm => by
        obtain ⟨w, hw, ⟨val, e1, e2⟩, -⟩ := hrin y hy
        obtain ⟨q, hq, f1, -⟩ := hin x hx
        obtain ⟨v, hv, val', g1, g2⟩ := forall2_mem_right f1 hm
        have := hK _ _ _ _ _ e1 g1 e2 g2
        refine J.disjoint w.1 (List.mem_map_of_mem hw) ?_
        rw [q3, this]
        exact List.mem_flatMap.2 ⟨q, hq, mem_validatorIndices.2 (mem_setBits.1 hv)⟩)
      h2 ks (fun k => by
        constructor
        · intro hk
          obtain ⟨v, hm, val, e1, e2⟩ := forall2_mem_right hks hk
          rcases (h4 v).1 (mem_setBits.1 hm) with hv | hv
          · obtain ⟨x, hx, rfl⟩ := List.mem_map.1 hv
            obtain ⟨y, hy, val', f1, f2, -⟩ := forall2_mem_left hraw hx
            rw [e1] at f1; cases f1
            rw [e2] at f2; cases f2
            exact .inr ⟨y, hy, rfl⟩
          · rw [q3] at hv
            obtain ⟨q, hq, hvq⟩ := List.mem_flatMap.1 hv
            obtain ⟨x, hx, f1, -⟩ := forall2_mem_left hl hq
            have f1 : VoteKeys X vals ⟨q.participants, j.data⟩ x.1 := attestationKeys_iff.1 f1
            obtain ⟨k', hk', val', g1, g2⟩ :=
              forall2_mem_left f1 (mem_setBits.2 (mem_validatorIndices.1 hvq))
            rw [e1] at g1; cases g1
            rw [e2] at g2; cases g2
            exact .inl ⟨x, hx, hk'⟩
        · rintro (⟨x, hx, hk⟩ | ⟨y, hy, rfl⟩)
          · obtain ⟨q, hq, f1, -⟩ := hin x hx
            obtain ⟨v, hv, val', g1, g2⟩ := forall2_mem_right f1 hk
            have hvo := (h4 v).2 (.inr (by
              rw [q3]
              exact List.mem_flatMap.2 ⟨q, hq, mem_validatorIndices.2 (mem_setBits.1 hv)⟩))
            obtain ⟨k', hk', val'', e1, e2⟩ := forall2_mem_left hks (mem_setBits.2 hvo)
            rw [g1] at e1; cases e1
            rw [g2] at e2; cases e2
            exact hk'
          · obtain ⟨w, hw, ⟨val, e1, e2⟩, -⟩ := hrin y hy
            have hvo := (h4 w.1).2 (.inl (List.mem_map_of_mem hw))
            obtain ⟨k', hk', val'', g1, g2⟩ := forall2_mem_left hks (mem_setBits.2 hvo)
            rw [e1] at g1; cases g1
            rw [e2] at g2; cases g2
            exact hk')
    refine ⟨ks, hks, ?_⟩
    rw [J.root] at key
    exact key
  · cases h2

theorem block_eq_of_header (hN : NoCollision H evs) {sb sb' : SignedBlock}
    (h : Arrived evs sb) (h' : Arrived evs sb')
    (he : sb.block.header H = sb'.block.header H) : sb.block = sb'.block := by
  have hb := hN.bodies _ _ (.inr ⟨sb, h, rfl⟩) (.inr ⟨sb', h', rfl⟩) (header_body he)
  obtain ⟨⟨a1, a2, a3, a4, a5⟩, p⟩ := sb
  obtain ⟨⟨b1, b2, b3, b4, b5⟩, p'⟩ := sb'
  simp only [Block.header, Header.mk.injEq] at he
  simp only [Block.mk.injEq]
  simp only at hb
  exact ⟨he.1, he.2.1, he.2.2.1, he.2.2.2.1, hb⟩

theorem valid_laws (hX : Complete X) (hN : NoCollision H evs) (h1 : OneCopy evs)
    (hre : ∀ s sb, reagg s sb = reaggregate X H s sb ∨ reagg s sb = []) :
    Laws ⟨envOf X H, order, reagg⟩ vals (Arrived evs) (Occurs evs)
      (fun d g => ValidAgg X H vals d g ∧ d.slot < 2 ^ 32) (ValidSig X H vals)
      (fun _ _ => True) where
  inj := hN.votes
  att v d sig val _ hv h := verifySig_valid hv h
  agg d g _ _ hr h := verifyAgg_valid hr h
  votes d g h v hv := trivial
  block p sb hp hv x hx v hb := trivial
  empty sb hs he := hN.bodies _ _ (.inr ⟨sb, hs, rfl⟩) (.inl rfl) he
  reagg s s1 p sb sb' hh hp hpar hs hs' he hv x hx := by
    rcases hre s sb with e | e
    swap
    · have hx : x ∈ reagg s sb := hx
      rw [e] at hx; cases hx
    have hx : x ∈ reagg s sb := hx
    rw [e] at hx
    have := h1 _ _ hs hs' (block_eq_of_header hN hs hs' he)
    subst this
    obtain ⟨y, hy, e1, -⟩ := (C81_recovered X H s sb).2 x hx
    refine ⟨.inl ⟨sb, hs, y, hy, e1⟩, ?_⟩
    have := C81_valid hX hpar (accepted_iff.1 hv) (fun z hz g hg => by
      obtain ⟨d, k1, k2, k3⟩ := hh.pool (mem_localProofs.2 hg)
      rw [hp, hN.votes _ _ (.inl ⟨sb, hs, z, hz, rfl⟩) k2 k1.symm]
      exact k3.1) x hx
    rw [hp] at this
    refine ⟨this, ?_⟩
    rw [← e1]
    exact ((C78_accepts_iff X H p sb).1 (accepted_iff.1 hv)).2.2 y hy

/-- **C83, for nodes that see only one copy of each block.** Every aggregate in the pools is a valid
proof that exactly its participants cast the vote it is filed under, and every gossiped signature
held is valid: no aggregate the node makes, recovers or includes in a block is spoilt by its inputs.
Missing: without `OneCopy` the claim is false, see `C83_pools_valid_false`. -/
theorem C83_pools_valid_partial (hX : Complete X) (hK : KeysDistinct X vals)
    (ho : ∀ l, (order l).Perm l)
    (W : World (envOf X H) t vals bs a0 (Known H (State.fromGenesis H t vals) bs evs))
    (hN : NoCollision H evs) (h1 : OneCopy evs)
    (hre : ∀ s sb, reagg s sb = reaggregate X H s sb ∨ reagg s sb = [])
    (hown : OwnMade X ⟨envOf X H, order, reagg⟩ (proveJob X) a0 body evs)
    (h : AReach ⟨envOf X H, order, reagg⟩ a0 body evs a) :
    (∀ r e, a.store.newP.data.get? r = some e ∨ a.store.knownP.data.get? r = some e →
      H.attData e.data = r ∧ ∀ g ∈ e.proofs, ValidAgg X H vals e.data g) ∧
    ∀ r e, a.store.gossip.data.get? r = some e → H.attData e.data = r ∧ ∀ x ∈ e.sigs,
      ValidSig X H vals x.1 e.data x.2 := by
  obtain ⟨hh, -⟩ := areach_held (c := ⟨envOf X H, order, reagg⟩) ho W
    (valid_laws (vals := vals) hX hN h1 hre) (prove := proveJob X)
    (fun j out J hout => proveJob_valid hX hK J hout) hown h
  refine ⟨fun r e he => ?_, fun r e he => ?_⟩
  · rcases he with he | he
    · obtain ⟨k1, -, k3⟩ := hh.newP _ (AMap.mem_of_get? he)
      exact ⟨k1, fun g hg => (k3 g hg).1⟩
    · obtain ⟨k1, -, k3⟩ := hh.knownP _ (AMap.mem_of_get? he)
      exact ⟨k1, fun g hg => (k3 g hg).1⟩
  · obtain ⟨k1, -, k3⟩ := hh.gossip _ (AMap.mem_of_get? he)
    exact ⟨k1, k3⟩

end

namespace Witness
open Verif.Witness

theorem wVals_distinct : KeysDistinct wX wVals := by
  have h : ∀ v < 3, ∀ w < 3, ((wVals[v]?).bind (fun x => wX.decodeKey x.attestationPubkey)) =
      ((wVals[w]?).bind (fun x => wX.decodeKey x.attestationPubkey)) → v = w := by decide
  intro v w x y k h1 h2 h3 h4
  have hv : v < 3 := (List.getElem?_eq_some_iff.1 h1).1
  have hw : w < 3 := (List.getElem?_eq_some_iff.1 h2).1
  refine h v hv w hw ?_
  rw [h1, h2]
  exact h3.trans h4.symm

def signedList (evs : List Event) : List SignedBlock :=
  evs.filterMap (fun ev => match ev with
    | .block sb => some sb
    | .own sb => some sb
    | _ => none)

theorem signed_mem {evs : List Event} {sb : SignedBlock} (h : Arrived evs sb) :
    sb ∈ signedList evs := by
  rcases h with h | h <;> exact List.mem_filterMap.2 ⟨_, h, rfl⟩

theorem oneCopy_of_list {evs : List Event}
    (h : ∀ x ∈ signedList evs, ∀ y ∈ signedList evs, x.block = y.block → x = y) : OneCopy evs :=
  fun sb sb' h1 h2 => h sb (signed_mem h1) sb' (signed_mem h2)

/-- Non-vacuity: all hypotheses hold of `ownEvs`, and the pool then holds a proof for three votes. -/
example : Complete wX ∧ KeysDistinct wX wVals ∧
    World (envOf wX wH) 0 wVals [] wG (Known wH wG [] ownEvs) ∧
    NoCollision wH ownEvs ∧ OneCopy ownEvs ∧
    OwnMade wX rCtx (proveJob wX) wG (some []) ownEvs ∧
    ∃ a, AReach rCtx wG (some []) ownEvs a ∧
      a.store.knownP.data.map (fun x => x.2.proofs) = [[⟨[true, true, true], 1001⟩]] := by
  refine ⟨wX_complete, wVals_distinct, rWorld (by decide +kernel) (by decide +kernel),
    noCollision_of_list (by decide +kernel) (by decide +kernel),
    oneCopy_of_list (by decide +kernel), ownEvs_made, ?_⟩
  have h : (rrun ownEvs).toOption.map (fun a => a.store.knownP.data.map (fun x => x.2.proofs)) =
      some [[⟨[true, true, true], 1001⟩]] := by decide +kernel
  cases e : rrun ownEvs with
  | error x => rw [e] at h; cases h
  | ok a =>
    rw [e] at h
    exact ⟨a, areach_rrun e, Option.some.inj h⟩

/-- The node imports block 2, restarts, and gets block 2 again with other proof bytes. -/
def copyEvs : List Event :=
  [ .block { rBlock with proof := 102 }, .restart, .block rBlock, .block (sgn (mkBlock 1 0 [])),
    .tick 32000 false ]

end Witness

open Verif.Witness Witness in
/-- **C83, refuted without `OneCopy`.** The copy's proof is never verified, and what is split out of
it goes into the pool: an invalid aggregate. -/
theorem C83_pools_valid_false :
    ∃ (X : Crypto) (Signs : Nat → Root → Nat → Prop) (H : Hash) (vals : List Validator)
      (evs : List Event) (a : Actor),
      Sound X Signs ∧ Complete X ∧ KeysDistinct X vals ∧
      World (envOf X H) 0 vals [] (State.fromGenesis H 0 vals)
        (Known H (State.fromGenesis H 0 vals) [] evs) ∧
      NoCollision H evs ∧ (∀ d g keys, Event.ownAggregate d g keys ∉ evs) ∧
      AReach ⟨envOf X H, fun l => l, reaggregate X H⟩ (State.fromGenesis H 0 vals) (some []) evs a ∧
      ∃ r e, a.store.newP.data.get? r = some e ∧ ∃ g ∈ e.proofs, ¬ ValidAgg X H vals e.data g := by
  have h : (rrun copyEvs).toOption.bind (fun a => (a.store.newP.data.get? 1).map
      (fun e => e.proofs)) = some [⟨[true], 1001001⟩] := by decide +kernel
  cases e : rrun copyEvs with
  | error x => rw [e] at h; cases h
  | ok a =>
    rw [e] at h
    obtain ⟨en, h, hp⟩ := Option.map_eq_some_iff.1 h
    refine ⟨wX, wSigns, wH, wVals, copyEvs, a, wX_sound, wX_complete, wVals_distinct,
      rWorld (by decide +kernel) (by decide +kernel),
      noCollision_of_list (by decide +kernel) (by decide +kernel),
      fun d g keys hm => by simp [copyEvs] at hm, areach_rrun e, 1, en, h,
      ⟨[true], 1001001⟩, by rw [hp]; exact List.mem_cons_self, ?_⟩
    rintro ⟨ks, -, -, h2⟩
    have h2 : (decide (1001001 < 1000000 ∨ 2000000 ≤ 1001001) && ks.all (fun k => decide (k ≤ 3))) = true := h2
    exact absurd (of_decide_eq_true (Bool.and_eq_true_iff.1 h2).1) (by decide)

end Verif.Node
