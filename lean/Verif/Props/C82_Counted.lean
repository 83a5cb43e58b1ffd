import Verif.Lemmas.Jobs
import Verif.Props.C79_Signed
import Verif.Model.Prove
/-!
# C82: every vote a node counts was signed by the validator it names
-/
namespace Verif.Node
open Verif Verif.Db Verif.Votes Verif.Buffers Verif.Build

section
variable {X : Crypto} {Signs : Nat → Root → Nat → Prop} {H : Hash} {t : Nat}
  {vals : List Validator} {bs : List Block} {a0 : State} {body : Option (List AggAtt)}
  {order : List Root → List Root} {reagg : Store → SignedBlock → List (AttData × Agg)}
  {evs : List Event} {a : Actor}

theorem verifySig_valid {v : Nat} {d : AttData} {sig : Nat} {val : Validator}
    (hv : vals[v]? = some val)
    (h : (envOf X H).verifySig val.attestationPubkey d.slot (H.attData d) sig = true) :
    ValidSig X H vals v d sig := by
  simp only [envOf] at h
  split at h
  next k sg hk hsg =>
    rw [Bool.and_eq_true] at h
    exact ⟨val, k, sg, hv, hk, hsg, h.2⟩
  · cases h

theorem verifyAgg_valid {d : AttData} {g : Agg}
    (hr : ∀ v ∈ validatorIndices g.participants, v < vals.length)
    (h : (envOf X H).verifyAgg g ((validatorIndices g.participants).map
      (fun v => (vals.getD v default).attestationPubkey)) (H.attData d) d.slot = true) :
    ValidAgg X H vals d g ∧ d.slot < 2 ^ 32 := by
  simp only [envOf] at h
  split at h
  next ks hks =>
    rw [Bool.and_eq_true] at h
    refine ⟨?_, of_decide_eq_true h.1⟩
    have h := h.2
    have hks := decodeAll_iff.1 hks
    refine ⟨ks, ?_, ?_⟩
    · have := (List.forall₂_map_left_iff (R := fun b k => X.decodeKey b = some k)).1 hks
      show List.Forall₂ _ (validatorIndices g.participants) ks
      have h2 : ∀ {l : List Nat} {ks : List Nat}, (∀ v ∈ l, v < vals.length) →
          List.Forall₂ (fun v k =>
            X.decodeKey (vals.getD v default).attestationPubkey = some k) l ks →
          List.Forall₂ (fun v k => ∃ val, vals[v]? = some val ∧
            X.decodeKey val.attestationPubkey = some k) l ks := by
        intro l ks hl h
        induction h with
        | nil => exact .nil
        | @cons v k l ks h1 _ ih =>
          have hlt := hl v List.mem_cons_self
          refine .cons ⟨vals[v], List.getElem?_eq_getElem hlt, ?_⟩
            (ih (fun w hw => hl w (List.mem_cons_of_mem _ hw)))
          simpa [List.getD, List.getElem?_eq_getElem hlt] using h1
      exact h2 hr this
    · unfold verifyType1 at h
      split at h
      · cases h
      next m' s' hi =>
        split at h
        · cases h
        next hb =>
          simp only [ne_eq, not_or, not_not] at hb
          split at h
          next hc =>
            rw [hb.1, hb.2] at hi
            exact ⟨hi, hc⟩
          · cases h
  · cases h

theorem validAgg_signed (hX : Sound X Signs) {d : AttData} {g : Agg} (h : ValidAgg X H vals d g) :
    ∀ v : Nat, g.participants[v]? = some true → SignedVote X H Signs vals v d := by
  intro v hv
  obtain ⟨ks, h1, h2, h3⟩ := h
  obtain ⟨k, hk, val, e1, e2⟩ := forall2_mem_left h1 (mem_setBits.2 hv)
  exact ⟨val, e1, k, e2, hX.single _ _ _ _ h2 h3 k hk⟩

theorem validSig_signed (hX : Sound X Signs) {v : Nat} {d : AttData} {sig : Nat}
    (h : ValidSig X H vals v d sig) : SignedVote X H Signs vals v d := by
  obtain ⟨val, k, sg, h1, h2, -, h4⟩ := h
  exact ⟨val, h1, k, h2, hX.one _ _ _ _ h4⟩

theorem header_body {b b' : Block} (h : b.header H = b'.header H) : H.body b.body = H.body b'.body :=
  congrArg Header.bodyRoot h

/-- The checks imply that everything held was signed. -/
theorem signed_laws (hX : Sound X Signs) (hN : NoCollision H evs)
    (hre : ∀ s sb, reagg s sb = reaggregate X H s sb ∨ reagg s sb = []) :
    Laws ⟨envOf X H, order, reagg⟩ vals (Arrived evs) (Occurs evs)
      (fun d g => ∀ v : Nat, g.participants[v]? = some true → SignedVote X H Signs vals v d)
      (fun v d _ => SignedVote X H Signs vals v d) (SignedVote X H Signs vals) where
  inj := hN.votes
  att v d sig val _ hv h := validSig_signed hX (verifySig_valid hv h)
  agg d g _ _ hr h := validAgg_signed hX (verifyAgg_valid hr h).1
  votes d g h := h
  block p sb hp hv x hx v hb := by
    have := (C78_signed hX (accepted_iff.1 hv)).2 x hx v hb
    rwa [hp] at this
  empty sb hs he := hN.bodies _ _ (.inr ⟨sb, hs, rfl⟩) (.inl rfl) he
  reagg s s1 p sb sb' hh hp _ hs hs' he hv x hx := by
    rcases hre s sb with e | e
    swap
    · have hx : x ∈ reagg s sb := hx
      rw [e] at hx; cases hx
    have hx : x ∈ reagg s sb := hx
    rw [e] at hx
    obtain ⟨y, hy, h1, -, h3, -⟩ := (C81_recovered X H s sb).2 x hx
    have hD : Occurs evs x.1 := .inl ⟨sb, hs, y, hy, h1⟩
    refine ⟨hD, fun v hpv => ?_⟩
    rcases (h3 v).1 hpv with hbit | ⟨g, hg, hgv⟩
    · have hb : sb.block.body = sb'.block.body :=
        hN.bodies _ _ (.inr ⟨sb, hs, rfl⟩) (.inr ⟨sb', hs', rfl⟩) (header_body he)
      have := (C78_signed hX (accepted_iff.1 hv)).2 y (hb ▸ hy) v hbit
      rw [hp, h1] at this
      exact this
    · have hg := mem_localProofs.2 hg
      obtain ⟨d, k1, k2, k3⟩ := hh.pool hg
      rw [hN.votes _ _ hD k2 k1.symm]
      exact k3 v hgv

/-- **C82.** A node started from a state on a chain `bs` from genesis, after any events whatsoever,
with its own aggregates made by its aggregation worker: every vote that fork choice counts or is
about to count, every participant of every aggregate in its pools, and every gossiped signature it
holds stands for a vote that the named validator signed. -/
theorem C82_counted_signed (hX : Sound X Signs) (ho : ∀ l, (order l).Perm l)
    (W : World (envOf X H) t vals bs a0 (Known H (State.fromGenesis H t vals) bs evs))
    (hN : NoCollision H evs)
    (hre : ∀ s sb, reagg s sb = reaggregate X H s sb ∨ reagg s sb = [])
    {prove : List Validator → Job → Option Nat}
    (hown : OwnMade X ⟨envOf X H, order, reagg⟩ prove a0 body evs)
    (h : AReach ⟨envOf X H, order, reagg⟩ a0 body evs a) :
    (∀ v d, a.store.fc.known.get? v = some d ∨ a.store.fc.new.get? v = some d →
      SignedVote X H Signs vals v d) ∧
    (∀ r e, a.store.newP.data.get? r = some e ∨ a.store.knownP.data.get? r = some e →
      ∀ g ∈ e.proofs, ∀ v : Nat, g.participants[v]? = some true →
        SignedVote X H Signs vals v e.data) ∧
    ∀ r e, a.store.gossip.data.get? r = some e → ∀ x ∈ e.sigs,
      SignedVote X H Signs vals x.1 e.data := by
  obtain ⟨hh, -⟩ := areach_held (c := ⟨envOf X H, order, reagg⟩) ho W
    (signed_laws (vals := vals) hX hN hre) (prove := prove) (fun j out J hout v hv => by
      rcases ((C46_published _ _ _ hout).2.2.2.1 v).1 hv with hr | hc
      · obtain ⟨x, hx, rfl⟩ := List.mem_map.1 hr
        exact J.raw x hx
      · obtain ⟨qs, k1, -, k3⟩ := J.children
        rw [k3] at hc
        obtain ⟨q, hq, hvq⟩ := List.mem_flatMap.1 hc
        exact k1 q hq v (mem_validatorIndices.1 hvq)) hown h
  refine ⟨fun v d hd => ?_, fun r e he g hg v hv => ?_, fun r e he x hx => ?_⟩
  · rcases hd with hd | hd
    · exact hh.fcKnown _ (AMap.mem_of_get? hd)
    · exact hh.fcNew _ (AMap.mem_of_get? hd)
  · rcases he with he | he
    · exact (hh.newP _ (AMap.mem_of_get? he)).2.2 g hg v hv
    · exact (hh.knownP _ (AMap.mem_of_get? he)).2.2 g hg v hv
  · exact (hh.gossip _ (AMap.mem_of_get? he)).2.2 x hx

end

namespace Witness
open Verif.Witness

def rCtx : Ctx := ⟨envOf wX wH, fun l => l, reaggregate wX wH⟩

/-- Run the actor with the toy signatures and recovery of votes, newest event first, from genesis. -/
def rrun : List Event → P Actor
  | [] => Actor.init rCtx wG (some [])
  | ev :: evs => match rrun evs with
    | .error e => .error e
    | .ok a => match a.step rCtx ev with
      | .error e => .error e
      | .ok (a, _) => .ok a

theorem areach_rrun : ∀ {evs : List Event} {a : Actor}, rrun evs = .ok a →
    AReach rCtx wG (some []) evs a
  | [], a, h => .init h
  | ev :: evs, a, h => by
    unfold rrun at h
    split at h
    · cases h
    next a1 e =>
      split at h
      · cases h
      next a2 f e2 => cases h; exact (areach_rrun e).step e2

def occList : List Event → List AttData
  | [] => []
  | .block sb :: evs => sb.block.body.map AggAtt.data ++ occList evs
  | .own sb :: evs => sb.block.body.map AggAtt.data ++ occList evs
  | .attestation _ d _ _ :: evs => d :: occList evs
  | .aggregate d _ :: evs => d :: occList evs
  | _ :: evs => occList evs

def bodyList : List Event → List (List AggAtt)
  | [] => [[]]
  | .block sb :: evs => sb.block.body :: bodyList evs
  | .own sb :: evs => sb.block.body :: bodyList evs
  | _ :: evs => bodyList evs

theorem _root_.Verif.Node.Arrived.cons {ev : Event} {evs : List Event} {sb : SignedBlock}
    (h : Arrived (ev :: evs) sb) : (ev = .block sb ∨ ev = .own sb) ∨ Arrived evs sb := by
  rcases h with h | h <;> rcases List.mem_cons.1 h with h | h
  · exact .inl (.inl h.symm)
  · exact .inr (.inl h)
  · exact .inl (.inr h.symm)
  · exact .inr (.inr h)

theorem occ_mem : ∀ {evs : List Event} {d : AttData}, Occurs evs d → d ∈ occList evs
  | [], d, h => by
    rcases h with ⟨sb, h | h, -⟩ | ⟨v, s, g, h⟩ | ⟨g, h⟩ <;> cases h
  | ev :: evs, d, h => by
    have tail : Occurs evs d → d ∈ occList (ev :: evs) := by
      intro h
      have := occ_mem h
      cases ev <;> simp [occList, this]
    rcases h with ⟨sb, h, x, hx, rfl⟩ | ⟨v, s, g, h⟩ | ⟨g, h⟩
    · rcases h.cons with (rfl | rfl) | h
      · exact List.mem_append_left _ (List.mem_map_of_mem hx)
      · exact List.mem_append_left _ (List.mem_map_of_mem hx)
      · exact tail (.inl ⟨sb, h, x, hx, rfl⟩)
    · rcases List.mem_cons.1 h with rfl | h
      · exact List.mem_cons_self
      · exact tail (.inr (.inl ⟨v, s, g, h⟩))
    · rcases List.mem_cons.1 h with rfl | h
      · exact List.mem_cons_self
      · exact tail (.inr (.inr ⟨g, h⟩))

theorem body_mem : ∀ {evs : List Event} {l : List AggAtt}, BodyIn evs l → l ∈ bodyList evs
  | [], l, h => by
    rcases h with rfl | ⟨sb, h | h, -⟩
    · exact List.mem_cons_self
    · cases h
    · cases h
  | ev :: evs, l, h => by
    have tail : BodyIn evs l → l ∈ bodyList (ev :: evs) := by
      intro h
      have := body_mem h
      cases ev <;> simp [bodyList, this]
    rcases h with rfl | ⟨sb, h, rfl⟩
    · exact tail (.inl rfl)
    · rcases h.cons with (rfl | rfl) | h
      · exact List.mem_cons_self
      · exact List.mem_cons_self
      · exact tail (.inr ⟨sb, h, rfl⟩)

theorem noCollision_of_list {H : Hash} {evs : List Event}
    (h1 : ∀ d ∈ occList evs, ∀ d' ∈ occList evs, H.attData d = H.attData d' → d = d')
    (h2 : ∀ l ∈ bodyList evs, ∀ l' ∈ bodyList evs, H.body l = H.body l' → l = l') :
    NoCollision H evs :=
  ⟨fun d d' h h' => h1 d (occ_mem h) d' (occ_mem h'),
   fun l l' h h' => h2 l (body_mem h) l' (body_mem h')⟩

theorem rWorld {evs : List Event}
    (h1 : ∀ a ∈ knownList evs, ∀ b ∈ knownList evs, wH.header a = wH.header b → a = b)
    (h2 : ∀ a ∈ knownList evs, a.parentRoot ≤ a.slot) :
    World (envOf wX wH) 0 wVals [] wG (Known wH wG [] evs) := by
  have W := world_of_list h1 h2
  exact ⟨W.chain, W.headerNZ, W.stateNZ, W.genesis, W.old, W.collisionFree, W.acyclic⟩

/-- The node hears validator 1's vote for block 1 in an aggregate, imports block 2 which carries
validator 0's, and hears validator 2's as a single signature. -/
def voteEvs : List Event :=
  [ .attestation 2 (vote [] 0 1).data 1 true, .block rBlock,
    .aggregate (vote [] 0 1).data ⟨[false, true], 1001⟩, .block (sgn (mkBlock 1 0 [])),
    .tick 32000 false ]

/-- Then its worker aggregates all three, and the votes are promoted. -/
def ownEvs : List Event :=
  .accept :: .ownAggregate (vote [] 0 1).data ⟨[true, true, true], 1001⟩ [(2, 1)] :: voteEvs

/-- The job the worker gets after `voteEvs`, with its output. -/
def ownOut (a : Actor) : Option (AttData × Agg) :=
  match Db.getState a.store.mem a.store.mem.db.head with
  | .ok (some st, _) =>
    match snapshotJobs wH (fun b => (wX.decodeKey b).isSome) st a.store.mem.db.head [1, 2, 3]
        ⟨a.store.gossip, a.store.newP, a.store.knownP⟩ 1 4 with
    | some [j] =>
      match aggregateJob (proveJob wX st.validators) j with
      | .ok (some out) => some (out.data, out.proof)
      | _ => none
    | _ => none
  | _ => none

theorem ownOut_made {a : Actor} {d : AttData} {g : Agg} (h : ownOut a = some (d, g)) :
    ∃ st known slot n jobs j out,
      (∃ m, Db.getState a.store.mem a.store.mem.db.head = .ok (some st, m)) ∧
      snapshotJobs wH (fun b => (wX.decodeKey b).isSome) st a.store.mem.db.head known
        ⟨a.store.gossip, a.store.newP, a.store.knownP⟩ slot n = some jobs ∧
      j ∈ jobs ∧ aggregateJob (proveJob wX st.validators) j = .ok (some out) ∧
      out.data = d ∧ out.proof = g := by
  unfold ownOut at h
  split at h
  next st m hg =>
    split at h
    next j hj =>
      split at h
      next out ho =>
        cases h
        exact ⟨st, _, _, _, [j], j, out, ⟨m, hg⟩, hj, List.mem_cons_self, ho, rfl, rfl⟩
      · cases h
    · cases h
  · cases h

theorem ownEvs_made : OwnMade wX rCtx (proveJob wX) wG (some []) ownEvs := by
  intro d g keys evs1 h
  unfold ownEvs at h
  rcases List.suffix_cons_iff.1 h with h | h
  · cases h
  rcases List.suffix_cons_iff.1 h with h | h
  · obtain ⟨h1, rfl⟩ := List.cons.inj h
    cases h1
    have hr : (rrun voteEvs).toOption.bind ownOut =
        some ((vote [] 0 1).data, ⟨[true, true, true], 1001⟩) := by decide +kernel
    cases e : rrun voteEvs with
    | error x => rw [e] at hr; cases hr
    | ok a =>
      rw [e] at hr
      obtain ⟨st, known, slot, n, jobs, j, out, k⟩ := ownOut_made hr
      exact ⟨voteEvs, a, st, known, slot, n, jobs, j, out, List.suffix_refl _, areach_rrun e, k⟩
  · have : Event.ownAggregate d g keys ∈ voteEvs := h.subset List.mem_cons_self
    simp [voteEvs] at this

/-- Non-vacuity: all hypotheses hold of `ownEvs`, and afterwards fork choice counts the votes of all
three validators. -/
example : Sound wX wSigns ∧ World (envOf wX wH) 0 wVals [] wG (Known wH wG [] ownEvs) ∧
    NoCollision wH ownEvs ∧ OwnMade wX rCtx (proveJob wX) wG (some []) ownEvs ∧
    ∃ a, AReach rCtx wG (some []) ownEvs a ∧
      a.store.fc.known.map (fun x => (x.1, x.2.slot)) = [(0, 1), (1, 1), (2, 1)] ∧
      a.store.knownP.data.map (fun x => x.2.proofs) = [[⟨[true, true, true], 1001⟩]] := by
  refine ⟨wX_sound, rWorld (by decide +kernel) (by decide +kernel),
    noCollision_of_list (by decide +kernel) (by decide +kernel), ownEvs_made, ?_⟩
  have h : (rrun ownEvs).toOption.map (fun a => (a.store.fc.known.map (fun x => (x.1, x.2.slot)),
      a.store.knownP.data.map (fun x => x.2.proofs))) =
      some ([(0, 1), (1, 1), (2, 1)], [[⟨[true, true, true], 1001⟩]]) := by decide +kernel
  cases e : rrun ownEvs with
  | error x => rw [e] at h; cases h
  | ok a =>
    rw [e] at h
    have h := Option.some.inj h
    simp only [Prod.mk.injEq] at h
    exact ⟨a, areach_rrun e, h.1, h.2⟩

end Witness
end Verif.Node
