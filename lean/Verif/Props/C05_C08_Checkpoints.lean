import Verif.Lemmas.StfChain
import Verif.Spec.Witness
import Verif.Props.C01_Justifiable
import Verif.Props.C03_History
/-!
# C05-C08: safety of the state's justified and finalized checkpoints
-/
namespace Verif

theorem Chain.append {H : Hash} {g s s' : State} {bs cs : List Block} (h : Chain H g bs s)
    (h2 : Chain H s cs s') : Chain H g (cs ++ bs) s' := by
  induction h2 with
  | nil => exact h
  | cons _ hi ih => exact .cons ih hi

/-! ## C05 -/

/-- Ordering: once a block is applied, finalized ≤ justified < slot. -/
theorem C05_checkpoints_ordered {H : Hash} {t : Nat} {vals : List Validator} {bs : List Block}
    {s : State} (hc : Chain H (State.fromGenesis H t vals) bs s) (hne : bs ≠ []) :
    s.latestFinalized.slot ≤ s.latestJustified.slot ∧ s.latestJustified.slot < s.slot :=
  ⟨(chain_inv hc hne).finLeJust, (chain_inv hc hne).justLt⟩

/-- Monotonicity: extending a chain by any number of blocks never lowers a checkpoint's slot,
and never replaces a checkpoint by another one at the same slot (except that the first block
replaces the genesis placeholder). -/
theorem C05_checkpoints_monotone {H : Hash} {t : Nat} {vals : List Validator}
    {bs cs : List Block} {s s' : State}
    (hc : Chain H (State.fromGenesis H t vals) bs s) (hx : Chain H s cs s') :
    s.latestFinalized.slot ≤ s'.latestFinalized.slot ∧
    s.latestJustified.slot ≤ s'.latestJustified.slot ∧
    (bs ≠ [] → s'.latestFinalized.slot = s.latestFinalized.slot →
      s'.latestFinalized = s.latestFinalized) ∧
    (bs ≠ [] → s'.latestJustified.slot = s.latestJustified.slot →
      s'.latestJustified = s.latestJustified) := by
  induction hx with
  | nil => exact ⟨Nat.le_refl _, Nat.le_refl _, fun _ _ => rfl, fun _ _ => rfl⟩
  | @cons cs s1 s2 b hc1 hi ih =>
    obtain ⟨i1, i2, i3, i4⟩ := ih
    have hfull := hc.append hc1
    by_cases hne : cs ++ bs = []
    · obtain ⟨rfl, rfl⟩ := List.append_eq_nil_iff.1 hne
      cases hc
      exact ⟨Nat.zero_le _, Nat.zero_le _, fun h => absurd rfl h, fun h => absurd rfl h⟩
    · have hinv := (chain_inv hfull hne).weaken (W := fun _ _ => True) (fun _ _ _ => trivial)
      obtain ⟨_, -, -, h3, -⟩ := import_inv hinv (fun _ _ _ _ => trivial) hi
      have a := h3.finGe
      have b := h3.justGe
      refine ⟨by omega, by omega, ?_, ?_⟩
      · intro hb he
        rw [h3.finSame (by omega), i3 hb (by omega)]
      · intro hb he
        rw [h3.justSame (by omega), i4 hb (by omega)]

/-- Non-vacuity: on the witness chain both checkpoints moved (0 → 2 and 0 → 3). -/
example : Chain Witness.wH Witness.wG [] Witness.wG ∧
    Chain Witness.wH Witness.wG Witness.wBlocks.reverse Witness.wState ∧
    Witness.wState.latestJustified = Witness.cp 3 ∧
    Witness.wState.latestFinalized = Witness.cp 2 :=
  ⟨.nil, Witness.wChain, Witness.wFacts.1, Witness.wFacts.2.1⟩

/-! ## C06 -/

theorem chain_checkpoint_nonzero {H : Hash} (hz : ∀ h, H.header h ≠ 0) {t : Nat}
    {vals : List Validator} {bs : List Block} {s : State}
    (hc : Chain H (State.fromGenesis H t vals) bs s) (hne : bs ≠ []) :
    s.latestFinalized.root ≠ 0 ∧ s.latestJustified.root ≠ 0 := by
  induction hc with
  | nil => exact absurd rfl hne
  | @cons bs s s' b hc hi ih =>
    cases bs with
    | nil =>
      cases hc
      obtain ⟨_, _, _, _, _, _, _, _, _, _, _, s2, h1, -, h2, h3, -⟩ :=
        import_genesis (V := fun _ _ => True) (fun _ _ _ _ => trivial) hi
      refine ⟨?_, ?_⟩
      · rcases h1.finNZ with h | h
        · rw [h, h2]; exact hz _
        · exact h
      · rcases h1.justNZ with h | h
        · rw [h, h3]; exact hz _
        · exact h
    | cons b0 bs0 =>
      have hinv := (chain_inv hc (by simp)).weaken (W := fun _ _ => True) (fun _ _ _ => trivial)
      obtain ⟨_, -, -, h3, -⟩ := import_inv hinv (fun _ _ _ _ => trivial) hi
      obtain ⟨a, b⟩ := ih (by simp)
      refine ⟨?_, ?_⟩
      · rcases h3.finNZ with h | h
        · rw [h]; exact a
        · exact h
      · rcases h3.justNZ with h | h
        · rw [h]; exact b
        · exact h

/-- Both checkpoints are recorded in the state's own history and are not the zero root (no
header hashes to zero). -/
theorem C06_checkpoints_in_history {H : Hash} (hz : ∀ h, H.header h ≠ 0) {t : Nat}
    {vals : List Validator} {bs : List Block} {s : State}
    (hc : Chain H (State.fromGenesis H t vals) bs s) (hne : bs ≠ []) :
    s.historicalBlockHashes[s.latestJustified.slot]? = some s.latestJustified.root ∧
    s.historicalBlockHashes[s.latestFinalized.slot]? = some s.latestFinalized.root ∧
    s.latestJustified.root ≠ 0 ∧ s.latestFinalized.root ≠ 0 :=
  ⟨(chain_inv hc hne).justOn, (chain_inv hc hne).finOn,
    (chain_checkpoint_nonzero hz hc hne).2, (chain_checkpoint_nonzero hz hc hne).1⟩

/-- A checkpoint names a block of a chain: genesis at slot 0 or a block with that slot and
root. -/
def NamesBlock (H : Hash) (g : State) (bs : List Block) (c : Checkpoint) : Prop :=
  (c.slot = 0 ∧ c.root = H.header (genesisHeader H g)) ∨
  ∃ b ∈ bs, b.slot = c.slot ∧ b.root H = c.root

theorem namesBlock_of_hist {H : Hash} (hzs : ∀ s, H.state s ≠ 0) {t : Nat}
    {vals : List Validator} {b : Block} {bs : List Block} {s : State}
    (hc : Chain H (State.fromGenesis H t vals) (b :: bs) s) {c : Checkpoint}
    (hr : c.root ≠ 0) (hon : s.historicalBlockHashes[c.slot]? = some c.root) :
    NamesBlock H (State.fromGenesis H t vals) bs c := by
  obtain ⟨h1, h2, h3⟩ := C03_history_is_chain hzs hc
  have hlt := getElem?_lt hon
  rw [h3 c.slot (by omega)] at hon
  unfold rootAt at hon
  split at hon
  · next b' hb' =>
    right
    refine ⟨b', List.mem_of_find?_eq_some hb', ?_, ?_⟩
    · have := List.find?_some hb'
      simpa using this
    · simpa using hon
  · split at hon
    · next h0 => left; exact ⟨h0, by simpa using hon.symm⟩
    · simp at hon; exact absurd hon.symm hr

/-- Both checkpoints name real blocks of the chain strictly before its tip. -/
theorem C06_checkpoints_on_chain {H : Hash} (hz : ∀ h, H.header h ≠ 0)
    (hzs : ∀ s, H.state s ≠ 0) {t : Nat} {vals : List Validator} {b : Block} {bs : List Block}
    {s : State} (hc : Chain H (State.fromGenesis H t vals) (b :: bs) s) :
    NamesBlock H (State.fromGenesis H t vals) bs s.latestJustified ∧
    NamesBlock H (State.fromGenesis H t vals) bs s.latestFinalized := by
  obtain ⟨a1, a2, a3, a4⟩ := C06_checkpoints_in_history hz hc (by simp)
  exact ⟨namesBlock_of_hist hzs hc a3 a1, namesBlock_of_hist hzs hc a4 a2⟩

example : (∀ h, Witness.wH.header h ≠ 0) ∧ (∀ s, Witness.wH.state s ≠ 0) ∧
    Chain Witness.wH Witness.wG Witness.wBlocks.reverse Witness.wState :=
  ⟨fun h => Nat.succ_ne_zero h.slot, fun _ => Nat.one_ne_zero, Witness.wChain⟩

/-! ## C07 -/

theorem chain_validators {H : Hash} {t : Nat} {vals : List Validator} {bs : List Block}
    {s : State} (hc : Chain H (State.fromGenesis H t vals) bs s) : s.validators = vals := by
  induction hc with
  | nil => rfl
  | cons hc hi ih => rw [(C03_block_appends_history hc hi).2.2.2.2.2.2.1, ih]

/-- A justified or finalized checkpoint other than genesis has the votes of at least two thirds
of the validators: distinct registered validators, each named by an attestation for exactly that
root in some block of the chain. -/
theorem C07_supermajority {H : Hash} {t : Nat} {vals : List Validator} {bs : List Block}
    {s : State} (hc : Chain H (State.fromGenesis H t vals) bs s) :
    (s.latestJustified.slot ≠ 0 →
      SuperMaj (fun v => VotedIn bs v s.latestJustified.root) vals.length) ∧
    (s.latestFinalized.slot ≠ 0 →
      SuperMaj (fun v => VotedIn bs v s.latestFinalized.root) vals.length) := by
  cases bs with
  | nil => cases hc; exact ⟨fun h => absurd rfl h, fun h => absurd rfl h⟩
  | cons b bs =>
    have hv := chain_validators hc
    have h := chain_inv hc (by simp)
    have h1 := h.superJust
    have h2 := h.superFin
    rw [hv] at h1 h2
    exact ⟨fun h => h1.resolve_left h, fun h => h2.resolve_left h⟩

/-- Every slot the state reports as justified above the finalized one also has the votes of two
thirds of the validators for the block recorded at that slot. -/
theorem C07_every_justified_slot {H : Hash} {t : Nat} {vals : List Validator} {bs : List Block}
    {s : State} (hc : Chain H (State.fromGenesis H t vals) bs s) (k : Nat)
    (hk : s.latestFinalized.slot < k)
    (hj : JustifiedSlots.isSlotJustified s.justifiedSlots s.latestFinalized.slot k = some true) :
    ∃ r, s.historicalBlockHashes[k]? = some r ∧
      SuperMaj (fun v => VotedIn bs v r) vals.length := by
  cases bs with
  | nil =>
    cases hc
    rw [isSlotJustified_gt hk] at hj
    simp [State.fromGenesis] at hj
  | cons b bs =>
    have := (chain_inv hc (by simp)).superJ k hk hj
    rwa [chain_validators hc] at this

/-- Non-vacuity: the witness state is justified at slot 3 by two of three validators. -/
example : Chain Witness.wH Witness.wG Witness.wBlocks.reverse Witness.wState ∧
    Witness.wState.latestJustified.slot ≠ 0 ∧ Witness.wState.latestFinalized.slot ≠ 0 ∧
    JustifiedSlots.isSlotJustified Witness.wState.justifiedSlots
      Witness.wState.latestFinalized.slot 3 = some true :=
  ⟨Witness.wChain, by decide +kernel, by decide +kernel, by decide +kernel⟩

/-! ## C08 -/

/-- Whenever a block moves the finalized checkpoint: it moves up, the new one has a two-thirds
vote, and above it on the same chain is a checkpoint `T` with a two-thirds vote, marked justified
in the new state, such that no slot strictly between is at a justifiable distance from the
finalized slot `f` in force when that happened. -/
theorem C08_finalization_consecutive {H : Hash} {t : Nat} {vals : List Validator}
    {bs : List Block} {s s' : State} {b : Block}
    (hc : Chain H (State.fromGenesis H t vals) bs s) (hi : importState H s b = .ok s')
    (hmove : s'.latestFinalized.slot ≠ s.latestFinalized.slot) :
    s.latestFinalized.slot < s'.latestFinalized.slot ∧
    SuperMaj (fun v => VotedIn (b :: bs) v s'.latestFinalized.root) vals.length ∧
    ∃ (f : Nat) (T : Checkpoint),
      s.latestFinalized.slot ≤ f ∧ f < s'.latestFinalized.slot ∧
      s'.latestFinalized.slot < T.slot ∧
      s'.historicalBlockHashes[T.slot]? = some T.root ∧
      JustifiedSlots.isSlotJustified s'.justifiedSlots s'.latestFinalized.slot T.slot
        = some true ∧
      SuperMaj (fun v => VotedIn (b :: bs) v T.root) vals.length ∧
      ∀ k, s'.latestFinalized.slot < k → k < T.slot → ¬ JustifiableDistance (k - f) := by
  have hc' : Chain H (State.fromGenesis H t vals) (b :: bs) s' := .cons hc hi
  have hmono := (C05_checkpoints_monotone hc (.cons .nil hi)).1
  have hsup := (C07_supermajority hc').2 (by omega)
  have hlen : s'.historicalBlockHashes.length ≤ historicalRootsLimit := by
    rw [(C03_block_appends_history hc hi).2.2.1]
    cases bs with
    | nil =>
      cases hc
      exact (import_genesis (V := fun _ _ => True) (fun _ _ _ _ => trivial) hi).2.2.2.2.2.2.2.2.2.2.1
    | cons b0 bs0 =>
      have hinv := (chain_inv hc (by simp)).weaken (W := fun _ _ => True) (fun _ _ _ => trivial)
      obtain ⟨_, -, -, -, -, -, -, -, -, -, -, -, -, h⟩ :=
        import_inv hinv (fun _ _ _ _ => trivial) hi
      exact h
  have conv : ∀ (f : Nat) (T : Checkpoint), s'.historicalBlockHashes[T.slot]? = some T.root →
      f < s'.latestFinalized.slot →
      (∀ k, s'.latestFinalized.slot < k → k < T.slot → slotIsJustifiableAfter k f = false) →
      ∀ k, s'.latestFinalized.slot < k → k < T.slot → ¬ JustifiableDistance (k - f) := by
    intro f T hT hf h k hk1 hk2 hJ
    have hTl := getElem?_lt hT
    have : slotIsJustifiableAfter k f = true := by
      rw [C01_justifiable_iff k f (by unfold historicalRootsLimit at hlen; omega)]
      exact ⟨by omega, hJ⟩
    rw [h k hk1 hk2] at this
    cases this
  refine ⟨by omega, hsup, ?_⟩
  cases bs with
  | nil =>
    cases hc
    obtain ⟨_, _, _, _, _, hv, _, _, _, _, _, s2, h1, -, h2, h3, -⟩ :=
      import_genesis (V := VotedIn [b]) votedIn_head hi
    rcases h1.finEv with h | ⟨f, T, e1, e2, e3, e4, e5, e6, e7⟩
    · rw [h, h2] at hmove; exact absurd rfl hmove
    · rw [hv] at e6
      exact ⟨f, T, Nat.zero_le _, e2, e3, e4, e5, e6, conv f T e4 e2 e7⟩
  | cons b0 bs0 =>
    have hinv := (chain_inv hc (by simp)).weaken (W := VotedIn (b :: b0 :: bs0))
      (fun v r => VotedIn.cons)
    obtain ⟨_, -, -, h3, -⟩ := import_inv hinv votedIn_head hi
    rcases h3.finEv with h | ⟨f, T, e1, e2, e3, e4, e5, e6, e7⟩
    · rw [h] at hmove; exact absurd rfl hmove
    · rw [chain_validators hc'] at e6
      exact ⟨f, T, e1, e2, e3, e4, e5, e6, conv f T e4 e2 e7⟩

/-- Non-vacuity: importing the third witness block finalizes slot 1. -/
example : Chain Witness.wH Witness.wG (Witness.wBlocks.take 2).reverse Witness.wState2 ∧
    importState Witness.wH Witness.wState2
      (Witness.mkBlock 3 2 [Witness.vote [true, false, true] 1 2]) = .ok Witness.wState3 ∧
    Witness.wState2.latestFinalized.slot = 0 ∧ Witness.wState3.latestFinalized.slot = 1 :=
  ⟨Witness.wChain2, Witness.wStep3, by decide +kernel, by decide +kernel⟩

/-! ## C05 addendum: justification is never revoked -/

/-- A slot once reported as justified stays justified in every extension of the chain. -/
theorem C05_justification_never_revoked {H : Hash} {t : Nat} {vals : List Validator}
    {bs cs : List Block} {s s' : State}
    (hc : Chain H (State.fromGenesis H t vals) bs s) (hne : bs ≠ []) (hx : Chain H s cs s')
    (k : Nat)
    (hk : JustifiedSlots.isSlotJustified s.justifiedSlots s.latestFinalized.slot k = some true) :
    JustifiedSlots.isSlotJustified s'.justifiedSlots s'.latestFinalized.slot k = some true := by
  induction hx with
  | nil => exact hk
  | @cons cs s1 s2 b hc1 hi ih =>
    have hfull := hc.append hc1
    have hinv := (chain_inv hfull (by simp [hne])).weaken (W := fun _ _ => True)
      (fun _ _ _ => trivial)
    obtain ⟨_, -, -, h3, -⟩ := import_inv hinv (fun _ _ _ _ => trivial) hi
    exact h3.keepJ k ih

end Verif
