import Verif.Model.CheckpointSync
import Verif.Props.C05_C08_Checkpoints
import Verif.Spec.Witness

/-
C54 — a checkpoint state is accepted only if it belongs to this network and is internally ordered.
C68 — the anchor an honest node serves is accepted, and the new node starts from the very same state.
-/

namespace Verif.Ckpt
open Verif Verif.Db Verif.Witness

/-- The state was produced by the genesis with this time and these validators: same time, and the
registry is the expected one with indices counting from zero. -/
def BelongsTo (s : State) (genesisTime : Nat) (expected : List Validator) : Prop :=
  s.genesisTime = genesisTime ∧ s.validators.length = expected.length ∧
  ∀ (i : Nat) (a e : Validator), s.validators[i]? = some a → expected[i]? = some e →
    a.index = i ∧ a.attestationPubkey = e.attestationPubkey ∧ a.proposalPubkey = e.proposalPubkey

/-- The checkpoints and the header of a state are in order and do not contradict each other. -/
structure Ordered (H : Hash) (s : State) : Prop where
  finalized : s.latestFinalized.slot ≤ s.slot
  justified : s.latestFinalized.slot ≤ s.latestJustified.slot
  same : s.latestJustified.slot = s.latestFinalized.slot →
    s.latestJustified.root = s.latestFinalized.root
  header : s.latestBlockHeader.slot ≤ s.slot
  headerFin : s.latestBlockHeader.slot = s.latestFinalized.slot →
    H.header s.latestBlockHeader = s.latestFinalized.root
  headerJust : s.latestBlockHeader.slot = s.latestJustified.slot →
    H.header s.latestBlockHeader = s.latestJustified.root

theorem verifyPairs_iff : ∀ (xs ys : List Validator) (pos : Nat), xs.length = ys.length →
    (verifyPairs pos (xs.zip ys) = .ok () ↔
      ∀ (i : Nat) (a e : Validator), xs[i]? = some a → ys[i]? = some e →
        a.index = pos + i ∧ a.attestationPubkey = e.attestationPubkey ∧
        a.proposalPubkey = e.proposalPubkey) := by
  intro xs
  induction xs with
  | nil => intro ys pos _; simp [verifyPairs]
  | cons x xs ih =>
    intro ys pos hlen
    match ys with
    | [] => simp at hlen
    | y :: ys =>
      simp only [List.length_cons, Nat.add_right_cancel_iff] at hlen
      simp only [List.zip_cons_cons, verifyPairs]
      constructor
      · intro h
        by_cases h1 : x.index ≠ pos
        · rw [if_pos h1] at h; cases h
        · rw [if_neg h1] at h
          by_cases h2 : x.attestationPubkey ≠ y.attestationPubkey ∨ x.proposalPubkey ≠ y.proposalPubkey
          · rw [if_pos h2] at h; cases h
          · rw [if_neg h2] at h
            have ih' := (ih ys (pos + 1) hlen).mp h
            intro i a e ha he
            match i with
            | 0 =>
              simp only [List.getElem?_cons_zero, Option.some.injEq] at ha he
              subst ha he
              simp only [ne_eq, not_or, Decidable.not_not] at h1 h2
              exact ⟨by omega, h2⟩
            | i + 1 =>
              simp only [List.getElem?_cons_succ] at ha he
              have := ih' i a e ha he
              exact ⟨by omega, this.2⟩
      · intro h
        have h0 := h 0 x y rfl rfl
        rw [if_neg (by simp; omega), if_neg (by simp [h0.2])]
        refine (ih ys (pos + 1) hlen).mpr ?_
        intro i a e ha he
        have := h (i + 1) a e (by simpa using ha) (by simpa using he)
        exact ⟨by omega, this.2⟩

theorem verifyStateGenesis_iff (s : State) (t : Nat) (ex : List Validator) :
    verifyStateGenesis s t ex = .ok () ↔ BelongsTo s t ex := by
  unfold verifyStateGenesis BelongsTo
  by_cases h1 : s.genesisTime ≠ t
  · rw [if_pos h1]
    constructor
    · intro h; cases h
    · intro h; exact absurd h.1 h1
  · rw [if_neg h1]
    by_cases h2 : s.validators.length ≠ ex.length
    · rw [if_pos h2]
      constructor
      · intro h; cases h
      · intro h; exact absurd h.2.1 h2
    · rw [if_neg h2]
      simp only [ne_eq, Decidable.not_not] at h1 h2
      rw [verifyPairs_iff _ _ 0 h2]
      simp only [h1, h2, true_and, Nat.zero_add]

/-- Checkpoint verification succeeds exactly for states past genesis, with validators, that belong to
the expected network and are internally ordered. -/
theorem C54_accepts_iff (H : Hash) (s : State) (t : Nat) (ex : List Validator) :
    verifyCheckpointState H s t ex = .ok () ↔
      0 < s.slot ∧ s.validators ≠ [] ∧ BelongsTo s t ex ∧ Ordered H s := by
  rw [← verifyStateGenesis_iff]
  unfold verifyCheckpointState
  constructor
  · intro h
    split at h
    · cases h
    next h0 =>
    split at h
    · cases h
    next h1 =>
    split at h
    · cases h
    next h2 =>
    split at h
    · cases h
    next h3 =>
    split at h
    · cases h
    next h4 =>
    split at h
    · cases h
    next h5 =>
    split at h
    · cases h
    next h6 =>
    simp only at h
    split at h
    · cases h
    next h7 =>
    split at h
    · cases h
    next h8 =>
    refine ⟨by omega, by simpa using h1, h2, ⟨by omega, by omega, ?_, by omega, ?_, ?_⟩⟩
    · intro e; exact Decidable.of_not_not (fun hn => h5 ⟨e, hn⟩)
    · intro e; exact Decidable.of_not_not (fun hn => h7 ⟨e, hn⟩)
    · intro e; exact Decidable.of_not_not (fun hn => h8 ⟨e, hn⟩)
  · rintro ⟨h0, h1, h2, ho⟩
    have hf := ho.finalized
    have hj := ho.justified
    have hh := ho.header
    rw [if_neg (by omega), if_neg (by simpa using h1), h2]
    simp only
    rw [if_neg (by omega), if_neg (by omega), if_neg (fun e => e.2 (ho.same e.1)),
      if_neg (by omega), if_neg (fun e => e.2 (ho.headerFin e.1)),
      if_neg (fun e => e.2 (ho.headerJust e.1))]

/-- When the expected registry is the one of a genesis configuration, an accepted state carries exactly
that registry. -/
theorem C54_registry (H : Hash) (s : State) (t : Nat) (entries : List (Nat × Nat))
    (h : verifyCheckpointState H s t (genesisValidators entries) = .ok ()) :
    s.genesisTime = t ∧ s.validators = genesisValidators entries := by
  obtain ⟨-, -, ⟨ht, hl, hv⟩, -⟩ := (C54_accepts_iff H s t _).mp h
  refine ⟨ht, List.ext_getElem? fun i => ?_⟩
  match ha : s.validators[i]?, he : (genesisValidators entries)[i]? with
  | none, none => rfl
  | some a, some e =>
    obtain ⟨h1, h2, h3⟩ := hv i a e ha he
    have hei : e.index = i := by
      simp only [genesisValidators, List.getElem?_mapIdx] at he
      match hx : entries[i]? with
      | none => rw [hx] at he; cases he
      | some x => rw [hx] at he; cases he; rfl
    congr 1
    cases a; cases e
    simp only at h1 h2 h3 hei ⊢
    subst h1 h2 h3 hei
    rfl
  | none, some e =>
    have h1 := List.getElem?_eq_none_iff.mp ha
    have h2 := (List.getElem?_eq_some_iff.mp he).1
    omega
  | some a, none =>
    have h1 := List.getElem?_eq_none_iff.mp he
    have h2 := (List.getElem?_eq_some_iff.mp ha).1
    omega

/-- The block and the state of an accepted anchor pair belong together: the block's header is the
state's latest header with the state root filled in, and that state root is the hash of the state. -/
theorem C54_pair (H : Hash) (s : State) (b : Block) (h : anchorPairIsConsistent H s b = true) :
    b.header H = { s.latestBlockHeader with stateRoot := b.stateRoot } ∧
    b.stateRoot = H.state (withStateRoot s 0) := by
  unfold anchorPairIsConsistent at h
  simp only at h
  split at h
  · cases h
  next h1 =>
  split at h
  · cases h
  next h2 =>
  have h1' := Decidable.of_not_not h1
  refine ⟨?_, of_decide_eq_true h⟩
  have e : b.header H = { ({ b.header H with stateRoot := 0 } : Header) with
    stateRoot := b.stateRoot } := rfl
  rw [e, ← h1']

/-! ### C68 -/

theorem import_served {H : Hash} {V : Nat → Root → Prop} {s s' : State} {b : Block}
    (h : SInv V s) (hb : ∀ a ∈ b.body, ∀ i, a.bits[i]? = some true → V i a.data.target.root)
    (hs : importState H s b = .ok s') :
    b.stateRoot = H.state (withStateRoot s' 0) := by
  obtain ⟨s1, s2, s3, e1, e2, e3, e4, e5⟩ := importState_ok hs
  obtain ⟨i1, -, -, -, -, -, -, -, i9, -⟩ := header_inv h e1 e2
  obtain ⟨-, -, j3⟩ := processAttestations_inv i1 hb e3
  have hh : s3.latestBlockHeader = s2.latestBlockHeader := by rw [j3]
  have : withStateRoot s' 0 = s3 := by
    rw [e5]
    unfold withStateRoot
    simp only [hh, i9]
    rw [← i9, ← hh]
  rw [this]; exact e4

theorem import_served_genesis {H : Hash} {V : Nat → Root → Prop} {t : Nat} {vals : List Validator}
    {s' : State} {b : Block}
    (hb : ∀ a ∈ b.body, ∀ i, a.bits[i]? = some true → V i a.data.target.root)
    (hs : importState H (State.fromGenesis H t vals) b = .ok s') :
    b.stateRoot = H.state (withStateRoot s' 0) := by
  obtain ⟨s1, s2, s3, e1, e2, e3, e4, e5⟩ := importState_ok hs
  obtain ⟨i1, -, -, -, -, -, -, -, -, -, i11, -⟩ := genesis_header_inv (V := V) e1 e2
  obtain ⟨-, -, j3⟩ := processAttestations_inv i1 hb e3
  have hh : s3.latestBlockHeader = s2.latestBlockHeader := by rw [j3]
  have : withStateRoot s' 0 = s3 := by
    rw [e5]
    unfold withStateRoot
    simp only [hh, i11]
    rw [← i11, ← hh]
  rw [this]; exact e4

theorem chain_genesisTime {H : Hash} {t : Nat} {vals : List Validator} {bs : List Block} {s : State}
    (hc : Chain H (State.fromGenesis H t vals) bs s) : s.genesisTime = t := by
  induction hc with
  | nil => rfl
  | @cons bs s s' b hc hi ih =>
    cases bs with
    | nil => cases hc; exact (import_genesis (V := fun _ _ => True) (fun _ _ _ _ => trivial) hi).2.2.2.2.2.2.1
    | cons b0 bs0 =>
      have h0 := chain_inv hc (by simp)
      obtain ⟨_, _, _, _, _, _, _, _, _, h9, _⟩ :=
        import_inv (h0.weaken (W := VotedIn (b :: b0 :: bs0)) (fun v r => VotedIn.cons)) votedIn_head hi
      rw [h9, ih]

theorem chain_served {H : Hash} {t : Nat} {vals : List Validator} {b : Block} {bs : List Block}
    {s : State} (hc : Chain H (State.fromGenesis H t vals) (b :: bs) s) :
    b.stateRoot = H.state (withStateRoot s 0) ∧ s.latestBlockHeader = b.header H := by
  refine ⟨?_, ((chain_slots hc).2 b bs rfl).2⟩
  cases hc with
  | @cons _ s0 _ _ hc hi =>
    cases bs with
    | nil => cases hc; exact import_served_genesis (V := fun _ _ => True) (fun _ _ _ _ => trivial) hi
    | cons b0 bs0 =>
      have h0 := chain_inv hc (by simp)
      exact import_served (h0.weaken (W := VotedIn (b :: b0 :: bs0)) (fun v r => VotedIn.cons))
        votedIn_head hi

/-- Whatever chain of blocks an honest node has imported, the state and block it serves for the last of
them are accepted by a node with the same genesis configuration. -/
theorem C68_honest_accepted {H : Hash} {t : Nat} {entries : List (Nat × Nat)} {b : Block}
    {bs : List Block} {s : State}
    (hc : Chain H (State.fromGenesis H t (genesisValidators entries)) (b :: bs) s) :
    verifyCheckpointState H (serveState s) t (genesisValidators entries) = .ok () ∧
    anchorPairIsConsistent H (serveState s) b = true := by
  have I := chain_inv hc (by simp)
  have hv := chain_validators hc
  obtain ⟨hroot, hhdr⟩ := chain_served hc
  constructor
  · rw [C54_accepts_iff]
    refine ⟨I.slotPos, ?_, ⟨(show s.genesisTime = t from chain_genesisTime hc), ?_, ?_⟩, ?_⟩
    · show s.validators ≠ []
      have : 0 < s.validators.length := by
        rw [hv]
        cases hc with
        | @cons _ s0 _ _ hc hi =>
          cases bs with
          | nil =>
            cases hc
            exact (import_genesis (V := fun _ _ => True) (fun _ _ _ _ => trivial) hi).2.2.2.2.2.2.2.2.2.1
          | cons b0 bs0 =>
            have h0 := chain_inv hc (by simp)
            obtain ⟨_, _, _, _, _, _, _, _, _, _, _, _, h12, _⟩ := import_inv
              (h0.weaken (W := VotedIn (b :: b0 :: bs0)) (fun v r => VotedIn.cons)) votedIn_head hi
            rw [chain_validators hc] at h12; exact h12
      intro e; rw [e] at this; simp at this
    · show s.validators.length = _; rw [hv]
    · intro i a e ha he
      have ha : s.validators[i]? = some a := ha
      rw [hv, he] at ha
      cases ha
      refine ⟨?_, rfl, rfl⟩
      simp only [genesisValidators, List.getElem?_mapIdx] at he
      match hx : entries[i]? with
      | none => rw [hx] at he; cases he
      | some x => rw [hx] at he; cases he; rfl
    · have h1 := I.finLeJust
      have h2 := I.justLt
      have h3 := I.hdr
      have h4 : (serveState s).latestBlockHeader.slot = s.latestBlockHeader.slot := rfl
      have h5 : (serveState s).slot = s.slot := rfl
      have h6 : (serveState s).latestJustified = s.latestJustified := rfl
      have h7 : (serveState s).latestFinalized = s.latestFinalized := rfl
      refine ⟨by rw [h5, h7]; omega, by rw [h6, h7]; exact h1, ?_, by rw [h4, h5]; omega, ?_, ?_⟩
      · rw [h6, h7]
        intro e
        have hj := I.justOn
        have hf := I.finOn
        rw [e, hf] at hj
        exact (Option.some.inj hj).symm
      · rw [h4, h7]; intro e; omega
      · rw [h4, h6]; intro e; omega
  · unfold anchorPairIsConsistent
    have e1 : ({ (serveState s).latestBlockHeader with stateRoot := 0 } : Header)
        = { b.header H with stateRoot := 0 } := by
      show ({ s.latestBlockHeader with stateRoot := 0 } : Header) = _
      rw [hhdr]
    have e2 : (serveState s).latestBlockHeader.stateRoot = 0 := rfl
    have e3 : withStateRoot (serveState s) 0 = withStateRoot s 0 := rfl
    simp only [e1, e2, e3, ne_eq, not_true_eq_false, false_and, if_false]
    exact decide_eq_true hroot

/-- The node that starts from the served pair does not panic, its anchor is the block the honest node
served, and the state it holds for that block is exactly the state the honest node has. -/
theorem C68_same_state {H : Hash} {t : Nat} {entries : List (Nat × Nat)} {b : Block}
    {bs : List Block} {s : State}
    (hc : Chain H (State.fromGenesis H t (genesisValidators entries)) (b :: bs) s) :
    ∃ m, initStore H (serveState s) (some b.body) = .ok m ∧
      m.db.head = b.root H ∧ m.db.finalized = ⟨b.root H, b.slot⟩ ∧
      m.db.justified = ⟨b.root H, b.slot⟩ ∧
      m.db.headers.get? (b.root H) = some (b.header H) ∧
      m.db.states.get? (b.root H) = some s := by
  obtain ⟨hroot, hhdr⟩ := chain_served hc
  have e3 : withStateRoot (serveState s) 0 = withStateRoot s 0 := rfl
  have eh : ({ (serveState s).latestBlockHeader with
      stateRoot := H.state (withStateRoot s 0) } : Header) = b.header H := by
    show ({ s.latestBlockHeader with stateRoot := _ } : Header) = _
    rw [hhdr, ← hroot]; rfl
  have es : ({ serveState s with latestBlockHeader := b.header H } : State) = s := by
    rw [← hhdr]; rfl
  refine ⟨⟨⟨0, b.root H, b.root H, ⟨b.root H, b.slot⟩, ⟨b.root H, b.slot⟩,
    [(b.root H, b.header H)], [(b.root H, b.body)], [], [(b.slot, b.root H)], [(b.root H, s)], [],
    [((b.slot, b.root H), b.parentRoot)]⟩, []⟩, ?_, rfl, rfl, rfl, ?_, ?_⟩
  · unfold initStore
    have e0 : (serveState s).latestBlockHeader.stateRoot = 0 := rfl
    have e5 : (serveState s).latestBlockHeader.slot = b.slot := by
      show s.latestBlockHeader.slot = _; rw [hhdr]; rfl
    have e6 : (serveState s).latestBlockHeader.parentRoot = b.parentRoot := by
      show s.latestBlockHeader.parentRoot = _; rw [hhdr]; rfl
    have ez : ({ serveState s with latestBlockHeader :=
        { (serveState s).latestBlockHeader with stateRoot := 0 } } : State) = withStateRoot s 0 := rfl
    simp only [e0, ez, true_or, not_true_eq_false, if_false, eh, es]
    rw [e5, e6]
    rfl
  · simp [AMap.get?]
  · simp [AMap.get?]

/-- The three-validator chain of `Spec/Witness`, which finalizes slot 2 and justifies slot 3: what its
node serves is accepted; the same state under another genesis time is not. -/
example : genesisValidators [(1, 1), (2, 2), (3, 3)] = wVals := by decide +kernel

example : (verifyCheckpointState wH (serveState wState) 0 wVals).toOption = some () ∧
    (wBlocks.getLast?.map (anchorPairIsConsistent wH (serveState wState))) = some true := by
  decide +kernel

example : (verifyCheckpointState wH (serveState wState) 7 wVals).toOption = none ∧
    (verifyCheckpointState wH (serveState wState) 0 (wVals.take 2)).toOption = none := by
  decide +kernel

example : ∃ (b : Block) (bs : List Block), wBlocks.reverse = b :: bs ∧
    Chain wH (State.fromGenesis wH 0 (genesisValidators [(1, 1), (2, 2), (3, 3)])) (b :: bs) wState :=
  ⟨_, _, rfl, wChain⟩

end Verif.Ckpt
