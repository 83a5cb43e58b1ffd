import Verif.Props.C84_OwnProposal
/-!
# C84, continued: a proposal is always made
-/
namespace Verif.Node
open Verif Verif.Db Verif.Votes Verif.Buffers Verif.Build

section
variable {X : Crypto} {H : Hash}

theorem mergeInputs_some {vals : List Validator} {gs : List Agg}
    (h : ∀ g ∈ gs, ∃ d, ValidAgg X H vals d g) : ∃ l, mergeInputs X vals gs = some l := by
  induction gs with
  | nil => exact ⟨[], rfl⟩
  | cons g gs ih =>
    obtain ⟨l, hl⟩ := ih (fun x hx => h x (List.mem_cons_of_mem _ hx))
    obtain ⟨d, ks, h1, -⟩ := h g List.mem_cons_self
    have h1 : attestationKeys X vals (validatorIndices g.participants) = .ok ks :=
      attestationKeys_iff.2 h1
    unfold mergeInputs
    rw [h1]
    simp only
    rw [hl]
    exact ⟨_, rfl⟩

theorem mergeInputs_length {vals : List Validator} {gs : List Agg} {l : List (List Nat × Nat)}
    (h : mergeInputs X vals gs = some l) : l.length = gs.length :=
  (mergeInputs_iff.1 h).length_eq.symm

/-- Merging two or more valid proofs of one vote succeeds. -/
theorem mergeProofs_some (hL : Live X) {vals : List Validator} {d : AttData} {gs : List Agg}
    (hlen : 2 ≤ gs.length) (hv : ∀ g ∈ gs, ValidAgg X H vals d g) (hd : d.slot < 2 ^ 32) :
    mergeProofs X H vals d gs ≠ none := by
  obtain ⟨l, hl⟩ := mergeInputs_some (fun g hg => ⟨d, hv g hg⟩)
  unfold mergeProofs
  rw [hl]
  simp only
  rw [if_pos hd]
  unfold aggregateProofs
  rw [if_neg (by rw [mergeInputs_length hl]; omega)]
  refine hL.single l [] _ _ ?_ (by simp) (by simp) (by simp)
  intro x hx
  obtain ⟨g, hg, h1, h2⟩ := forall2_mem_right (mergeInputs_iff.1 hl) hx
  obtain ⟨ks, k1, k2⟩ := hv g hg
  have h1 : VoteKeys X vals ⟨g.participants, d⟩ x.1 := attestationKeys_iff.1 h1
  have := voteKeys_unique k1 h1
  subst this
  rw [h2]; exact k2

/-- The proof of a built block is assembled without failure. -/
theorem assembleProof_some (hX : Complete X) (hL : Live X) {ord : Root → List Nat → List Nat}
    (ho : ∀ r l, (ord r l).Perm l) {s : State} {slot vid : Nat} {parentRoot : Root}
    {known : List Root} {pool : Pool} {c : Config} {b : Block} {proofs : List Agg} {post : State}
    {sign : Nat → Nat → Root → Option Nat} (hn : pool.keys.Nodup)
    (hp : ∀ e ∈ pool, ∀ g ∈ e.2.2, ValidAgg X H s.validators e.2.1 g ∧ e.2.1.slot < 2 ^ 32)
    (hk : SignsWith X s.validators vid sign) (hc : CanSign X s.validators vid sign)
    (hvid : vid < s.validators.length) (hslot : slot < 2 ^ 32)
    (h : buildBlock H (mergeProofs X H s.validators) ord s slot vid parentRoot known pool c =
      .ok (b, proofs, post)) : ∃ sb, assembleProof X H s sign slot vid b proofs = some sb := by
  have hv := build_valid hX ho hn hp h
  have hmod : slot % 2 ^ 32 = slot := Nat.mod_eq_of_lt hslot
  obtain ⟨raw, sig, h1, h2⟩ := hc.sign slot (b.root H)
  obtain ⟨val, h3⟩ : ∃ val, s.validators[vid]? = some val :=
    ⟨_, List.getElem?_eq_getElem hvid⟩
  obtain ⟨k, h4⟩ := hc.key val h3
  have hxm := hk _ _ _ _ _ _ h1 h2 h3 h4
  have h5 : ∃ p, aggregateSignatures X [k] [sig] (b.root H) slot = some p := by
    unfold aggregateSignatures
    simp only [List.length_cons, List.length_nil, ne_eq, not_true_eq_false, if_false,
      List.isEmpty_cons, Bool.false_eq_true, List.zip_cons_cons, List.zip_nil_right]
    exact Option.ne_none_iff_exists'.1 (hL.single [] [(k, sig)] _ _ (by simp) (by simpa using hxm)
      (by simp) (by simp))
  obtain ⟨p, h5⟩ := h5
  have hp1 : Valid1 X p [k] (b.root H, slot) := by
    have hpr := h5
    unfold aggregateSignatures at hpr
    simp only [List.length_cons, List.length_nil, ne_eq, not_true_eq_false, if_false,
      List.isEmpty_cons, Bool.false_eq_true, List.zip_cons_cons, List.zip_nil_right] at hpr
    exact hX.single [] [(k, sig)] _ _ p (by simp) (by simpa using hxm) (by simp) (by simp) hpr [k]
      (by simp)
  obtain ⟨l, h6⟩ := mergeInputs_some (X := X) (H := H) (vals := s.validators) (gs := proofs)
    (fun g hg => by
      obtain ⟨a, -, ha⟩ := forall2_mem_right hv hg
      exact ⟨_, ha.2.1⟩)
  obtain ⟨-, i2⟩ := forall2_inputs hv (mergeInputs_iff.1 h6)
  have h8 : X.prove2 (l ++ [([k], p)]) ≠ none :=
    hL.multi _ _ (List.rel_append i2 (.cons hp1 .nil))
  obtain ⟨q, h7⟩ := Option.ne_none_iff_exists'.1 h8
  refine ⟨⟨b, q⟩, ?_⟩
  unfold assembleProof
  simp only [hmod, h1, h3, h4, h2, h5, h6]
  unfold mergeType1s
  rw [if_neg (by simp), h7]

/-- Filling in the state root of the header makes no difference to the builder. -/
theorem buildBlock_filled {merge : AttData → List Agg → Option Nat}
    {ord : Root → List Nat → List Nat} {s : State} {slot vid : Nat} {parentRoot : Root}
    {known : List Root} {pool : Pool} {c : Config} (hz : H.state s ≠ 0)
    (h0 : s.latestBlockHeader.stateRoot = 0) :
    buildBlock H merge ord
      { s with latestBlockHeader := { s.latestBlockHeader with stateRoot := H.state s } }
      slot vid parentRoot known pool c = buildBlock H merge ord s slot vid parentRoot known pool c := by
  unfold buildBlock
  have : processSlots H
      { s with latestBlockHeader := { s.latestBlockHeader with stateRoot := H.state s } } slot
      = processSlots H s slot := by
    unfold processSlots
    simp only [if_neg hz, if_pos h0]
  rw [this]
  rfl

end

section
variable {E : Env} {t : Nat} {vals : List Validator} {bs : List Block} {a0 : State}
  {body : Option (List AggAtt)} {K : Header → Prop} {root : Root} {anchor : State}
  {ops : List Db.Op} {s : Store}

/-- Every state a node holds is that of a chain ending in the block it is filed under; only for the
anchor the header's state root may have been filled in. -/
theorem state_chain (W : World E t vals bs a0 K)
    (A : AnchorOk E.H (State.fromGenesis E.H t vals) K root anchor)
    (I : NInv E t vals a0 body K root anchor NoX ops s) {r : Root} {st : State}
    (h : stateOf root anchor ops r = some st) :
    ∃ cs st', Chain E.H (State.fromGenesis E.H t vals) cs st' ∧
      tipRoot E.H (State.fromGenesis E.H t vals) cs = r ∧
      (st = st' ∨ (st'.latestBlockHeader.stateRoot = 0 ∧ st = { st' with
        latestBlockHeader := { st'.latestBlockHeader with stateRoot := E.H.state st' } })) := by
  have own := (I.tree.own r st h).1
  have tip : ∀ cs st', cs ≠ [] → Chain E.H (State.fromGenesis E.H t vals) cs st' →
      tipRoot E.H (State.fromGenesis E.H t vals) cs = E.H.header st'.latestBlockHeader := by
    intro cs st' hne hc
    cases cs with
    | nil => exact absurd rfl hne
    | cons b cs =>
      rw [((chain_slots hc).2 b cs rfl).2]
      rfl
  by_cases hr : r = root
  · subst hr
    rw [I.tree.anc] at h
    cases h
    obtain ⟨m, -, -, hz, h3, -⟩ := I.started
    refine ⟨bs, a0, W.chain, ?_, ?_⟩
    · have hch := W.chain
      cases bs with
      | nil =>
        cases hch
        rw [← own, h3]
        rfl
      | cons b bs =>
        have hnz : a0.latestBlockHeader.stateRoot ≠ 0 := by
          cases hch with
          | cons hc0 hi0 =>
            have f := import_frame hi0
            obtain ⟨_, _, s3, _, _, _, hr, _⟩ := importState_ok hi0
            rw [f.hdr]
            show b.stateRoot ≠ 0
            rw [hr]
            exact W.stateNZ _
        have : anchor = a0 := by
          rw [h3, ← hz.resolve_left hnz]
        rw [tip _ _ (by simp) hch, ← own, this]
    · rcases hz with hz | hz
      · right
        refine ⟨hz, ?_⟩
        have hzz : zeroed a0 = a0 := by unfold zeroed; rw [← hz]
        rw [hzz] at h3
        exact h3
      · left
        rw [h3, ← hz]
  · obtain ⟨cs, hne, hc⟩ := I.tree.good r st h hr
    exact ⟨cs, st, hc, by rw [tip _ _ hne hc, own], Or.inl rfl⟩

theorem NInv.mono {K' : Header → Prop} (hk : ∀ h, K h → K' h)
    (I : NInv E t vals a0 body K root anchor NoX ops s) :
    NInv E t vals a0 body K' root anchor NoX ops s :=
  { I with opsK := fun h hh => hk h (I.opsK h hh) }

theorem AnchorOk.mono {H : Hash} {g : State} {K' : Header → Prop} (hk : ∀ h, K h → K' h)
    (A : AnchorOk H g K root anchor) : AnchorOk H g K' root anchor :=
  { A with
    known := hk _ A.known
    old := fun j x h1 h2 => by
      obtain ⟨hx, a, b⟩ := A.old j x h1 h2
      exact ⟨hx, hk _ a, b⟩ }

end

section
variable {X : Crypto} {H : Hash} {t : Nat}
  {vals : List Validator} {bs : List Block} {a0 : State} {body : Option (List AggAtt)}
  {order : List Root → List Root} {reagg : Store → SignedBlock → List (AttData × Agg)}
  {evs : List Event} {a : Actor}

/-- **C84, for nodes that see only one copy of each block: a block is always published.** In any
state a node can get into, at any slot whose proposer is one of its validators: catching up to the
slot succeeds, and if the head it then has is before the slot, then the node builds a block on that
head and signs it, and its import succeeds, unless the hash of the new block clashes with that of an
earlier one. Whatever is in the pools, nothing fails and nothing panics.
Missing: `OneCopy`, as for C83. -/
theorem C84_always_partial (hX : Complete X) (hL : Live X) (hK : KeysDistinct X vals)
    (ho : ∀ l, (order l).Perm l)
    (W : World (envOf X H) t vals bs a0 (Known H (State.fromGenesis H t vals) bs evs))
    (hN : NoCollision H evs) (h1 : OneCopy evs)
    (hre : ∀ s sb, reagg s sb = reaggregate X H s sb ∨ reagg s sb = [])
    (hown : OwnMade X ⟨envOf X H, order, reagg⟩ (proveJob X) a0 body evs)
    (h : AReach ⟨envOf X H, order, reagg⟩ a0 body evs a)
    {ord : Root → List Nat → List Nat} (hord : ∀ r l, (ord r l).Perm l)
    {sign : Nat → Nat → Root → Option Nat} {slot vid : Nat} (c : Config)
    (hvl : vals.length ≤ validatorRegistryLimit) (hv : 0 < vals.length)
    (hvid : vid = slot % vals.length)
    (hsign : SignsWith X vals vid sign) (hcan : CanSign X vals vid sign)
    (hslot : slot ≤ historicalRootsLimit) :
    ∃ s0 st, proposalStore H a.store slot = .ok s0 ∧ Reads s0 s0.mem.db.head st ∧
      (st.slot < slot → ∃ s1 b proofs sb, produceBlock X H ord s0 slot vid c =
          .ok (s1, some (b, proofs)) ∧
        assembleProof X H st sign slot vid b proofs = some sb ∧
        sb.block.slot = slot ∧ sb.block.proposerIndex = vid ∧
        sb.block.parentRoot = s0.mem.db.head ∧
        (World (envOf X H) t vals bs a0
            (Known H (State.fromGenesis H t vals) bs (.own sb :: evs)) →
          ∃ s', proposeBlock X H ord sign a.store slot vid c = .ok (s', some (sb, .ok ())))) := by
  obtain ⟨hh, root, anchor, ops, A, I⟩ := areach_held (c := ⟨envOf X H, order, reagg⟩) ho W
    (valid_laws (vals := vals) hX hN h1 hre) (prove := proveJob X)
    (fun j out J hout => proveJob_valid hX hK J hout) hown h
  obtain ⟨s1, ops1, e1, I1, -⟩ := I.succeeds_onTick W A
    (a.store.genesisTime * 1000 + slot * msPerSlot) true
  have e1 : onTick H a.store (a.store.genesisTime * 1000 + slot * msPerSlot) true = .ok s1 := e1
  obtain ⟨s0, ops0, e0, I0, -⟩ := I1.succeeds_acceptNew W A
  have e0 : acceptNew H s1 = .ok s0 := e0
  have hps : proposalStore H a.store slot = .ok s0 := by
    unfold proposalStore
    rw [e1]
    exact e0
  have hh0 := (hh.onTick hN.votes e1).acceptNew hN.votes e0
  obtain ⟨st, hst⟩ := I0.cp.head
  refine ⟨s0, st, hps, (I0.reads W _ _).2 hst, fun hlt => ?_⟩
  obtain ⟨s2, g1, g2, -, I2⟩ := I0.getState W s0.mem.db.head
  rw [hst] at g1
  have hsv : st.validators = vals := state_vals W I0 hst
  have fr := getState_frame g1
  have hn : (knownPool s2).keys.Nodup := by
    have hd := I2.buf.known.inv
    have : (knownPool s2).keys = s2.knownP.data.keys := by
      simp [knownPool, AMap.keys, List.map_map, Function.comp_def]
    rw [this]
    exact hd.keys
  have hpool : ∀ e ∈ knownPool s2, ∀ g ∈ e.2.2,
      ValidAgg X H st.validators e.2.1 g ∧ e.2.1.slot < 2 ^ 32 := by
    intro e he g hg
    obtain ⟨x, hx, rfl⟩ := List.mem_map.1 he
    rw [fr.2.2.2.1] at hx
    rw [hsv]
    exact (hh0.knownP x hx).2.2 g hg
  have hl : historicalRootsLimit = 262144 := rfl
  have hs32 : slot < 2 ^ 32 := by omega
  -- the block is built
  obtain ⟨cs, st', hc, htip, hst'⟩ := state_chain W A I0 hst
  have hbb : buildBlock H (mergeProofs X H st.validators) ord st slot vid s2.mem.db.head
      (s2.mem.db.liveChain.map (fun e => e.1.2)) (knownPool s2) c =
      buildBlock H (mergeProofs X H st.validators) ord st' slot vid s2.mem.db.head
      (s2.mem.db.liveChain.map (fun e => e.1.2)) (knownPool s2) c ∧ st'.slot = st.slot := by
    rcases hst' with rfl | ⟨h0, rfl⟩
    · exact ⟨rfl, rfl⟩
    · exact ⟨buildBlock_filled (W.stateNZ _) h0, rfl⟩
  obtain ⟨b, proofs, post, hb⟩ := C43_succeeds (H := H) W.stateNZ hc
    (merge := mergeProofs X H st.validators) (ord := ord) hord (slot := slot)
    (by rw [hbb.2]; exact hlt) hslot hv hvl
    (known := s2.mem.db.liveChain.map (fun e => e.1.2)) (pool := knownPool s2) hn
    (by
      intro e he g hg v hvg
      obtain ⟨⟨ks, k1, -⟩, -⟩ := hpool e he g hg
      have hvg : g.participants[v]? = some true := hvg
      obtain ⟨k, -, val, hval, -⟩ := forall2_mem_left k1 (List.mem_filter.2
        ⟨List.mem_range.2 (List.getElem?_eq_some_iff.1 hvg).1, by simp [hvg]⟩)
      rw [← hsv]
      exact (List.getElem?_eq_some_iff.1 hval).1) (c := c)
    (by
      intro _ d ps hlen hps
      have hd : d.slot < 2 ^ 32 := by
        obtain ⟨p, hp⟩ : ∃ p, p ∈ ps := by
          cases ps with
          | nil => simp at hlen
          | cons p ps => exact ⟨p, List.mem_cons_self⟩
        obtain ⟨e, he, rfl, hp⟩ := hps p hp
        exact (hpool e he p hp).2
      refine mergeProofs_some hL hlen (fun g hg => ?_) hd
      obtain ⟨e, he, rfl, hp⟩ := hps g hg
      exact (hpool e he g hp).1)
  have htip : tipRoot H (State.fromGenesis H t vals) cs = s0.mem.db.head := htip
  rw [htip, ← hvid, ← g2, ← hbb.1] at hb
  have hprod : produceBlock X H ord s0 slot vid c = .ok (s2, some (b, proofs)) := by
    unfold produceBlock
    rw [g1]
    simp only
    rw [if_neg (by
      rw [hsv, hvid]
      simp [isProposer, currentProposer, Nat.ne_of_gt hv]), hb]
  have hk : SignsWith X st.validators vid sign := by rw [hsv]; exact hsign
  have hcs : CanSign X st.validators vid sign := by rw [hsv]; exact hcan
  obtain ⟨sb, ha⟩ := assembleProof_some hX hL hord hn hpool hk hcs
    (by rw [hsv, hvid]; exact Nat.mod_lt _ hv) hs32 hb
  obtain ⟨k1, k2, -⟩ := C80_own_block hX hord hn hpool hk hs32 hb ha
  obtain ⟨b1, b2, b3, -⟩ := C43_accepted hn hb
  refine ⟨s2, b, proofs, sb, hprod, ha, by rw [k1]; exact b1, by rw [k1]; exact b2,
    by rw [k1, b3, g2], fun W' => ?_⟩
  obtain ⟨s3, g3, g4, -, I3⟩ := I2.getState W s2.mem.db.head
  have hst2 : stateOf root anchor (Op.readState s0.mem.db.head :: ops0) s2.mem.db.head = some st := by
    rw [stateOf_quiet (op := .readState _) trivial, g2, hst]
  rw [hst2] at g3
  have hm : ∀ x, Known H (State.fromGenesis H t vals) bs evs x →
      Known H (State.fromGenesis H t vals) bs (.own sb :: evs) x := by
    rintro x (hx | hx | ⟨y, hy, hx⟩)
    · exact .inl hx
    · exact .inr (.inl hx)
    · exact .inr (.inr ⟨y, hy.imp (List.mem_cons_of_mem _) (List.mem_cons_of_mem _), hx⟩)
  obtain ⟨s4, -, r, hr, -⟩ := (I3.mono hm).onBlock W' (A.mono hm) sb
    (.inr (.inr ⟨sb, .inr List.mem_cons_self, rfl⟩))
  have hprop : proposeBlock X H ord sign a.store slot vid c = .ok (s4, some (sb, r)) := by
    unfold proposeBlock headState
    rw [hps]
    simp only
    rw [hprod]
    simp only
    rw [g3]
    simp only
    rw [ha]
    simp only
    rw [hr]
  obtain ⟨rfl, -⟩ := C84_own_proposal_partial hX hK ho W hN h1 hre hown h hord hsign hslot hprop
  exact ⟨s4, hprop⟩

end

namespace Witness
open Verif.Witness

theorem wX_live : Live wX where
  single l raw m s hl _ _ _ := by
    have : l.all (fun x => decide (x.2 < 1000000 ∨ 2000000 ≤ x.2)) = true :=
      List.all_eq_true.2 fun x hx => (Bool.and_eq_true_iff.1 (hl x hx).2).1
    simp only [wX]
    rw [if_pos this]
    simp
  multi l bs h := by
    have : l.all (fun x => decide (x.2 < 1000000 ∨ 2000000 ≤ x.2)) = true :=
      List.all_eq_true.2 fun x hx => by
        obtain ⟨b, -, -, hc⟩ := forall2_mem_left h hx
        exact (Bool.and_eq_true_iff.1 hc).1
    simp only [wX]
    rw [if_pos this]
    simp

theorem wX_sign {v : Nat} (hv : v < 3) : SignsWith wX wVals v (fun _ s _ => some s) ∧
    CanSign wX wVals v (fun _ s _ => some s) := by
  refine ⟨?_, fun s m => ⟨s, s, rfl, rfl⟩, ?_⟩
  · intro s m raw sig val k h1 h2 h3 h4
    cases h1; cases h2
    have hk : k ≤ 3 := by
      rcases v with _ | _ | _ | v
      all_goals first | omega | skip
      all_goals
        cases h3
        have : some _ = some k := h4
        cases this
        decide
    simp [wX, hk]
  · intro val h
    rcases v with _ | _ | _ | v
    · cases h; exact ⟨_, rfl⟩
    · cases h; exact ⟨_, rfl⟩
    · cases h; exact ⟨_, rfl⟩
    · omega

/-- Non-vacuity: all hypotheses hold of `propEvs`, slot 2 and validator 2, the head is then before the
slot, and the hash of the new block does not clash. -/
example : Complete wX ∧ Live wX ∧ KeysDistinct wX wVals ∧
    World (envOf wX wH) 0 wVals [] wG (Known wH wG [] propEvs) ∧
    NoCollision wH propEvs ∧ OneCopy propEvs ∧
    OwnMade wX rCtx (proveJob wX) wG (some []) propEvs ∧
    SignsWith wX wVals 2 (fun _ s _ => some s) ∧ CanSign wX wVals 2 (fun _ s _ => some s) ∧
    World (envOf wX wH) 0 wVals [] wG (Known wH wG [] (.block (sgn oBlock) :: propEvs)) ∧
    ∃ a s0, AReach rCtx wG (some []) propEvs a ∧ proposalStore wH a.store 2 = .ok s0 ∧
      ((s0.getState s0.mem.db.head).toOption.bind (fun x => x.1.map State.slot)) = some 1 := by
  refine ⟨wX_complete, wX_live, wVals_distinct, rWorld (by decide +kernel) (by decide +kernel),
    noCollision_of_list (by decide +kernel) (by decide +kernel),
    oneCopy_of_list (by decide +kernel), ?_, (wX_sign (by decide)).1, (wX_sign (by decide)).2,
    rWorld (by decide +kernel) (by decide +kernel), ?_⟩
  · intro d g keys evs1 h
    have := h.subset List.mem_cons_self
    simp [propEvs] at this
  · have h : (rrun propEvs).toOption.bind (fun a => (proposalStore wH a.store 2).toOption.bind
        (fun s0 => (s0.getState s0.mem.db.head).toOption.bind (fun x => x.1.map State.slot))) =
        some 1 := by decide +kernel
    cases e : rrun propEvs with
    | error x => rw [e] at h; cases h
    | ok a =>
      rw [e] at h
      simp only [Except.toOption, Option.bind_some] at h
      cases e2 : proposalStore wH a.store 2 with
      | error x => rw [e2] at h; cases h
      | ok s0 =>
        rw [e2] at h
        exact ⟨a, s0, areach_rrun e, e2, h⟩

/-- As `copyEvs`; then block 3 arrives, a sibling of block 2. -/
def spoilEvs : List Event := .block (sgn (mkBlock 3 1 [])) :: copyEvs

end Witness

open Verif.Witness Witness in
/-- **C84, refuted without `OneCopy`.** A copy of block 2 with an invalid proof reaches the node after a
restart; the aggregate split out of it enters the pool unverified. When it is the turn of one of the
node's validators, with the head before the slot, the builder selects that aggregate, the prover
refuses it and no block is made at all. -/
theorem C84_always_false :
    ∃ (X : Crypto) (Signs : Nat → Root → Nat → Prop) (H : Hash) (vals : List Validator)
      (evs : List Event) (a : Actor) (sign : Nat → Nat → Root → Option Nat) (slot vid : Nat)
      (s0 s' : Store) (st : State),
      Sound X Signs ∧ Complete X ∧ Live X ∧ KeysDistinct X vals ∧
      World (envOf X H) 0 vals [] (State.fromGenesis H 0 vals)
        (Known H (State.fromGenesis H 0 vals) [] evs) ∧
      NoCollision H evs ∧ (∀ d g keys, Event.ownAggregate d g keys ∉ evs) ∧
      AReach ⟨envOf X H, fun l => l, reaggregate X H⟩ (State.fromGenesis H 0 vals) (some []) evs a ∧
      vid = slot % vals.length ∧ SignsWith X vals vid sign ∧ CanSign X vals vid sign ∧
      slot ≤ historicalRootsLimit ∧
      proposalStore H a.store slot = .ok s0 ∧ Reads s0 s0.mem.db.head st ∧ st.slot < slot ∧
      proposeBlock X H (fun _ l => l) sign a.store slot vid ⟨true, 8⟩ = .ok (s', none) := by
  have h : (rrun spoilEvs).toOption.bind (fun a => (proposalStore wH a.store 10).toOption.bind
      (fun s0 => (Db.getState s0.mem s0.mem.db.head).toOption.bind (fun x => x.1.bind (fun st =>
        (proposeBlock wX wH (fun _ l => l) (fun _ s _ => some s) a.store 10 1
          ⟨true, 8⟩).toOption.map (fun y => (st.slot, y.2.isNone)))))) = some (3, true) := by
    decide +kernel
  cases e : rrun spoilEvs with
  | error x => rw [e] at h; cases h
  | ok a =>
  rw [e] at h
  simp only [Except.toOption, Option.bind_some] at h
  cases e2 : proposalStore wH a.store 10 with
  | error x => rw [e2] at h; cases h
  | ok s0 =>
  rw [e2] at h
  simp only [Option.bind_some] at h
  cases e3 : Db.getState s0.mem s0.mem.db.head with
  | error x => rw [e3] at h; cases h
  | ok y =>
  rw [e3] at h
  obtain ⟨o, m⟩ := y
  cases o with
  | none => cases h
  | some st =>
  simp only [Option.bind_some] at h
  cases e4 : proposeBlock wX wH (fun _ l => l) (fun _ s _ => some s) a.store 10 1 ⟨true, 8⟩ with
  | error x => rw [e4] at h; cases h
  | ok z =>
  rw [e4] at h
  obtain ⟨s', o⟩ := z
  have h := Option.some.inj h
  cases o with
  | some _ => simp at h
  | none =>
  have h3 : st.slot = 3 := congrArg Prod.fst h
  exact ⟨wX, wSigns, wH, wVals, spoilEvs, a, fun _ s _ => some s, 10, 1, s0, s', st, wX_sound,
    wX_complete, wX_live, wVals_distinct, rWorld (by decide +kernel) (by decide +kernel),
    noCollision_of_list (by decide +kernel) (by decide +kernel),
    fun d g keys hm => by simp [spoilEvs, copyEvs] at hm, areach_rrun e, rfl,
    (wX_sign (by decide)).1, (wX_sign (by decide)).2, by decide, e2, ⟨m, e3⟩, by omega, e4⟩

end Verif.Node
