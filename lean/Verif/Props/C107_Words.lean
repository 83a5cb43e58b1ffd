import Verif.Model.Machine
import Verif.Props.C86_Extend
import Verif.Lemmas.Verified
/-!
# C107: 64-bit words suffice
-/
namespace Verif.Mach
open Verif

theorem add_eq {a b : Nat} (h : a + b < 2 ^ 64) : add a b = a + b := Nat.mod_eq_of_lt h

theorem mul_eq {a b : Nat} (h : a * b < 2 ^ 64) : mul a b = a * b := Nat.mod_eq_of_lt h

theorem sub_eq {a b : Nat} (h : b ≤ a) (ha : a < 2 ^ 64) : sub a b = a - b := by
  unfold sub
  rw [Nat.mod_eq_of_lt (Nat.lt_of_le_of_lt h ha)]
  omega

theorem extend_eq {l : List Bool} {f t : Nat} (h : t < 2 ^ 64) :
    extendToSlot l f t = JustifiedSlots.extendToSlot l f t := by
  unfold extendToSlot JustifiedSlots.extendToSlot
  cases e : JustifiedSlots.relativeIndex t f with
  | none => rfl
  | some i =>
    have : i + 1 < 2 ^ 64 := by
      unfold JustifiedSlots.relativeIndex at e
      split at e
      · cases e
      · split at e
        · cases e
        · cases e; omega
    simp only [add_eq this]

theorem header_eq {H : Hash} {s : State} {b : Block}
    (hl : s.historicalBlockHashes.length = s.latestBlockHeader.slot) (hb : b.slot < 2 ^ 64) :
    processBlockHeader H s b = Verif.processBlockHeader H s b := by
  unfold processBlockHeader Verif.processBlockHeader
  by_cases h1 : b.slot ≠ s.slot
  · simp only [if_pos h1]
  · simp only [if_neg h1]
    by_cases h2 : b.slot ≤ s.latestBlockHeader.slot
    · simp only [if_pos h2]
    · have e1 : sub b.slot 1 = b.slot - 1 := sub_eq (by omega) hb
      have e2 : sub (sub b.slot s.latestBlockHeader.slot) 1 = b.slot - s.latestBlockHeader.slot - 1 := by
        rw [sub_eq (a := b.slot) (by omega) hb, sub_eq (by omega) (by omega)]
      have e3 : add (add s.historicalBlockHashes.length 1) (b.slot - s.latestBlockHeader.slot - 1) =
          s.historicalBlockHashes.length + 1 + (b.slot - s.latestBlockHeader.slot - 1) := by
        rw [add_eq (a := s.historicalBlockHashes.length) (by omega), add_eq (by omega)]
      have e4 : ∀ (p : Prop) [Decidable p] (x y : State), (if p then x else y).historicalBlockHashes =
          if p then x.historicalBlockHashes else y.historicalBlockHashes := by
        intro p _ x y; split <;> rfl
      simp only [if_neg h2, e1, e2, extend_eq (show b.slot - 1 < 2 ^ 64 by omega), e4, ite_self, e3]
      rfl

theorem unpack_eq {n : Nat} {roots : List Root} {flat : List Bool} (h : roots.length * n < 2 ^ 64)
    (hl : roots.length < 2 ^ 63) :
    unpackTally n roots flat = Verif.unpackTally n roots flat := by
  unfold unpackTally Verif.unpackTally
  apply List.foldl_ext
  intro t i hi
  have hi := List.mem_range.1 hi
  cases roots[i]? with
  | none => rfl
  | some r =>
    have h1 : (i + 1) * n ≤ roots.length * n := Nat.mul_le_mul_right n hi
    have h2 : i * n ≤ (i + 1) * n := Nat.mul_le_mul_right n (Nat.le_succ i)
    have e : (i + 1) * n - i * n = n := by rw [Nat.add_mul]; omega
    simp only [add_eq (show i + 1 < 2 ^ 64 by omega), mul_eq (show i * n < 2 ^ 64 by omega),
      mul_eq (show (i + 1) * n < 2 ^ 64 by omega), e]
    congr 1
    rw [List.range'_eq_map_range, List.map_map]
    rfl

theorem rootToSlot_eq {hist : List Root} {f : Nat} (h : f + 1 < 2 ^ 64) :
    rootToSlot hist f = Verif.rootToSlot hist f := by
  funext r
  unfold rootToSlot Verif.rootToSlot
  simp only [add_eq h, Nat.add_one_le_iff]

theorem tryFinalize_eq {s : State} {x y : Checkpoint} {t : Tally} {rts : Root → Option Nat}
    (h : x.slot + 1 < 2 ^ 64) : tryFinalize s x y t rts = Verif.tryFinalize s x y t rts := by
  unfold tryFinalize Verif.tryFinalize
  by_cases h1 : x.slot ≤ s.latestFinalized.slot
  · simp only [if_pos h1]
  · simp only [if_neg h1, add_eq h, sub_eq (show s.latestFinalized.slot ≤ x.slot by omega)
      (show x.slot < 2 ^ 64 by omega)]
    rfl

/-- What bounds the numbers during the attestation loop. -/
structure Small (n k : Nat) (st : State × Tally) : Prop where
  hist : st.1.historicalBlockHashes.length ≤ historicalRootsLimit
  keys : st.2.length ≤ k
  vecs : ∀ e ∈ st.2, e.2.length = n

theorem Tally.insert_length (t : Tally) (r : Root) (v : List Bool) : (t.insert r v).length ≤ t.length + 1 := by
  unfold Verif.Tally.insert
  split
  · rw [List.length_map]; omega
  · simp

theorem Tally.insert_vecs {n : Nat} {t : Tally} {r : Root} {v : List Bool} (h : ∀ e ∈ t, e.2.length = n)
    (hv : v.length = n) : ∀ e ∈ t.insert r v, e.2.length = n := by
  unfold Verif.Tally.insert
  intro e he
  split at he
  · obtain ⟨x, hx, rfl⟩ := List.mem_map.1 he
    split
    · exact hv
    · exact h x hx
  · rcases List.mem_cons.1 he with rfl | he
    · exact hv
    · exact h e he

theorem Tally.get_vec {n : Nat} {t : Tally} {r : Root} (h : ∀ e ∈ t, e.2.length = n) :
    ((t.get? r).getD (List.replicate n false)).length = n := by
  unfold Verif.Tally.get?
  cases e : t.lookup r with
  | none => simp
  | some v =>
    obtain ⟨l, l', rfl, -⟩ := List.lookup_eq_some_iff.1 e
    exact h (r, v) (by simp)

theorem tryFinalize_small {n k : Nat} {s : State} {x y : Checkpoint} {t : Tally}
    {rts : Root → Option Nat} (h : Small n k (s, t)) : Small n k (Verif.tryFinalize s x y t rts) := by
  unfold Verif.tryFinalize
  split
  · exact h
  · split
    · exact h
    · exact ⟨h.hist, Nat.le_trans (List.length_filter_le _ _) h.keys,
        fun e he => h.vecs e (List.mem_filter.1 he).1⟩

theorem attStep_eq {n k : Nat} {rts : Root → Option Nat} {st : State × Tally} {a : AggAtt}
    (hn : n ≤ validatorRegistryLimit) (h : Small n k st) :
    attStep n rts st a = Verif.attStep n rts st a ∧
    ∀ st', Verif.attStep n rts st a = .ok st' → Small n (k + 1) st' := by
  unfold attStep Verif.attStep
  cases hv : isValidVote st.1 a.data with
  | error e => exact ⟨rfl, fun _ h => by cases h⟩
  | ok v =>
    cases v with
    | false => exact ⟨rfl, fun _ h' => by cases h'; exact ⟨h.hist, Nat.le_succ_of_le h.keys, h.vecs⟩⟩
    | true =>
      have F := (isValidVote_true_iff _ _).1 hv
      have hs : a.data.source.slot + 1 < 2 ^ 64 := by
        have h1 := getElem?_lt F.srcOn
        have h2 := h.hist
        unfold historicalRootsLimit at h2
        omega
      have hlen := recordVotes_length ((st.2.get? a.data.target.root).getD (List.replicate n false))
        a.bits
      rw [Tally.get_vec h.vecs] at hlen
      have hc := List.count_le_length (a := true)
        (l := recordVotes ((st.2.get? a.data.target.root).getD (List.replicate n false)) a.bits)
      rw [hlen] at hc
      unfold validatorRegistryLimit at hn
      have e1 := mul_eq (a := 3) (b := (recordVotes ((st.2.get? a.data.target.root).getD
        (List.replicate n false)) a.bits).count true) (by omega)
      have e2 := mul_eq (a := 2) (b := n) (by omega)
      have hi := Tally.insert_vecs (r := a.data.target.root) h.vecs hlen
      have hk : (st.2.insert a.data.target.root (recordVotes ((st.2.get? a.data.target.root).getD
          (List.replicate n false)) a.bits)).length ≤ k + 1 :=
        Nat.le_trans (Tally.insert_length _ _ _) (Nat.succ_le_succ h.keys)
      simp only [e1, e2, tryFinalize_eq hs]
      refine ⟨rfl, fun st' h' => ?_⟩
      split at h'
      · cases h'
      · split at h'
        · cases h'
        · split at h'
          · split at h'
            · cases h'
            · cases h'
              refine tryFinalize_small ⟨h.hist, ?_, ?_⟩
              · exact Nat.le_trans (List.length_filter_le _ _) hk
              · exact fun e he => hi e (List.mem_filter.1 he).1
          · cases h'
            exact ⟨h.hist, hk, hi⟩

theorem attLoop_eq {n : Nat} {rts : Root → Option Nat} (hn : n ≤ validatorRegistryLimit)
    (as : List AggAtt) : ∀ {k : Nat} {st : State × Tally}, Small n k st →
    attLoop n rts as st = Verif.attLoop n rts as st ∧
    ∀ st', Verif.attLoop n rts as st = .ok st' → Small n (k + as.length) st' := by
  induction as with
  | nil => exact fun h => ⟨rfl, fun st' h' => by cases h'; exact h⟩
  | cons a as ih =>
    intro k st h
    obtain ⟨e, h1⟩ := attStep_eq (rts := rts) (a := a) hn h
    unfold attLoop Verif.attLoop
    rw [e]
    cases e' : Verif.attStep n rts st a with
    | error x => exact ⟨rfl, fun _ h => by cases h⟩
    | ok st1 =>
      obtain ⟨e2, h2⟩ := ih (h1 st1 e')
      refine ⟨e2, fun st' h' => ?_⟩
      have := h2 st' h'
      rwa [show k + 1 + as.length = k + (a :: as).length by simp; omega] at this

theorem serialize_eq {s : State} {t : Tally} {n : Nat} (h : t.length * n < 2 ^ 64) :
    serializeJustifications s t n = Verif.serializeJustifications s t n := by
  have e : (sortRoots (t.map Prod.fst)).length = t.length := by
    rw [(sortRoots_perm _).length_eq, List.length_map]
  unfold serializeJustifications Verif.serializeJustifications
  simp only [e, mul_eq h]

theorem attestations_eq {s : State} {as : List AggAtt} (hn : s.validators.length ≤ validatorRegistryLimit)
    (hh : s.historicalBlockHashes.length ≤ historicalRootsLimit)
    (hf : s.latestFinalized.slot ≤ historicalRootsLimit)
    (hr : s.justificationsRoots.length ≤ historicalRootsLimit)
    (ha : as.length ≤ validatorRegistryLimit) :
    processAttestations s as = Verif.processAttestations s as := by
  obtain ⟨u1, u2, u3⟩ := unpackTally_spec s.validators.length s.justificationsRoots
    s.justificationsValidators
  have hul : (Verif.unpackTally s.validators.length s.justificationsRoots
      s.justificationsValidators).length ≤ s.justificationsRoots.length := by
    have : ((Verif.unpackTally s.validators.length s.justificationsRoots
        s.justificationsValidators).map Prod.fst) ⊆ s.justificationsRoots := by
      intro r hr
      obtain ⟨e, he, rfl⟩ := List.mem_map.1 hr
      obtain ⟨i, hi, -⟩ := u2 e he
      exact List.mem_of_getElem? hi
    have := (u1.subperm this).length_le
    rwa [List.length_map] at this
  have hS : Small s.validators.length s.justificationsRoots.length
      (s, Verif.unpackTally s.validators.length s.justificationsRoots s.justificationsValidators) := by
    refine ⟨hh, hul, fun e he => ?_⟩
    obtain ⟨i, -, hi⟩ := u2 e he
    rw [hi]; simp [segment]
  obtain ⟨e1, h1⟩ := attLoop_eq (rts := Verif.rootToSlot s.historicalBlockHashes
    s.latestFinalized.slot) hn as hS
  have hm : s.justificationsRoots.length * s.validators.length ≤ 262144 * 4096 := Nat.mul_le_mul hr hn
  unfold historicalRootsLimit at hf hr
  unfold validatorRegistryLimit at ha
  have e2 := unpack_eq (n := s.validators.length) (flat := s.justificationsValidators)
    (show s.justificationsRoots.length * s.validators.length < 2 ^ 64 by omega) (by omega)
  have e3 := rootToSlot_eq (hist := s.historicalBlockHashes)
    (show s.latestFinalized.slot + 1 < 2 ^ 64 by omega)
  unfold processAttestations Verif.processAttestations
  simp only [e2, e3, e1, mul_eq (show s.justificationsRoots.length * s.validators.length < 2 ^ 64 by omega)]
  cases e : Verif.attLoop s.validators.length (Verif.rootToSlot s.historicalBlockHashes
    s.latestFinalized.slot) as (s, Verif.unpackTally s.validators.length s.justificationsRoots
    s.justificationsValidators) with
  | error x => rfl
  | ok st' =>
    have hk := (h1 st' e).keys
    have : st'.2.length * s.validators.length ≤ (262144 + 4096) * 4096 :=
      Nat.mul_le_mul (by omega) hn
    simp only [serialize_eq (s := st'.1) (show st'.2.length * s.validators.length < 2 ^ 64 by omega)]

/-- The numbers in a state are within the limits of the types, and the history reaches to the header. -/
structure Fits (s : State) : Prop where
  hist : s.historicalBlockHashes.length = s.latestBlockHeader.slot
  fin : s.latestFinalized.slot ≤ historicalRootsLimit
  roots : s.justificationsRoots.length ≤ historicalRootsLimit
  vals : s.validators.length ≤ validatorRegistryLimit

theorem chain_fits {H : Hash} {t : Nat} {vals : List Validator} {bs : List Block} {s : State}
    (hc : Chain H (State.fromGenesis H t vals) bs s) (hv : vals.length ≤ validatorRegistryLimit) :
    Fits s := by
  have hv' : s.validators.length ≤ validatorRegistryLimit := by rw [chain_validators hc]; exact hv
  cases hb : bs with
  | nil =>
    subst hb
    cases hc
    exact ⟨rfl, Nat.zero_le _, Nat.zero_le _, hv⟩
  | cons b bs' =>
    have I := chain_inv hc (by simp [hb])
    have hs : s.slot ≤ historicalRootsLimit := by
      have h1 := C86_ends hc b (by simp [hb])
      rw [← ((chain_slots hc).2 b bs' hb).1]
      exact Nat.le_trans h1 (by decide)
    refine ⟨I.histLen.trans I.hdr.symm, ?_, ?_, hv'⟩
    · have := I.finLeJust
      have := I.justLt
      omega
    · have hn : s.justificationsRoots.Nodup := I.rootsSorted.imp (fun h => Nat.ne_of_lt h)
      have hsub : s.justificationsRoots ⊆ s.historicalBlockHashes := by
        intro r hr
        obtain ⟨k, -, hk⟩ := I.rootOn r hr
        exact List.mem_of_getElem? hk
      have := (hn.subperm hsub).length_le
      rw [I.histLen] at this
      omega

theorem transition_eq {H : Hash} {s : State} (F : Fits s) {b : Block} (hb : b.slot < 2 ^ 64)
    (ha : b.body.length ≤ 4096) : stateTransition H s b = Verif.stateTransition H s b := by
  unfold stateTransition Verif.stateTransition Verif.processBlock
  cases e : processSlots H s b.slot with
  | error x => rfl
  | ok s1 =>
    have f : Fits s1 := by
      unfold processSlots at e
      split at e
      · cases e
      · cases e
        split
        · exact ⟨F.hist, F.fin, F.roots, F.vals⟩
        · exact ⟨F.hist, F.fin, F.roots, F.vals⟩
    simp only [header_eq f.hist hb]
    cases e2 : Verif.processBlockHeader H s1 b with
    | error x => rfl
    | ok s2 =>
      have g : s2.historicalBlockHashes.length ≤ historicalRootsLimit ∧
          s2.latestFinalized.slot = s1.latestFinalized.slot ∧
          s2.justificationsRoots = s1.justificationsRoots ∧ s2.validators = s1.validators := by
        unfold Verif.processBlockHeader at e2
        simp only at e2
        repeat' split at e2
        all_goals cases e2
        all_goals
          refine ⟨?_, rfl, rfl, rfl⟩
          simp only [List.length_append, List.length_cons, List.length_replicate] at *
          omega
      simp only [attestations_eq (s := s2) (as := b.body) (by rw [g.2.2.2]; exact f.vals) g.1
        (by rw [g.2.1]; exact f.fin) (by rw [g.2.2.1]; exact f.roots) ha]
      rfl


/-- **C107.** The state transition on 64-bit words, where additions, subtractions and products wrap, gives
on the state of any chain and for any block exactly the result of the one on unbounded numbers, whether
it accepts the block or not. (`VALIDATOR_REGISTRY_LIMIT` and the limit of 4096 attestations are those of
the SSZ types.) -/
theorem C107_transition {H : Hash} {t : Nat} {vals : List Validator} {bs : List Block} {s : State}
    (hc : Chain H (State.fromGenesis H t vals) bs s) (hv : vals.length ≤ validatorRegistryLimit)
    {b : Block} (hb : b.slot < 2 ^ 64) (ha : b.body.length ≤ 4096) :
    stateTransition H s b = Verif.stateTransition H s b :=
  transition_eq (chain_fits hc hv) hb ha

/-- **C107 for nodes.** So it is for every state that a node reads, after any events: whatever block it is
given, the import on 64-bit words is the one that all other theorems are about. -/
theorem C107_node {c : Node.Ctx} {t : Nat} {vals : List Validator} {bs : List Block} {a0 : State}
    {body : Option (List AggAtt)} {evs : List Node.Event} {a : Node.Actor} (ho : ∀ l, (c.order l).Perm l)
    (W : Node.World c.E t vals bs a0 (Node.Known c.E.H (State.fromGenesis c.E.H t vals) bs evs))
    (h : Node.AReach c a0 body evs a) (hv : vals.length ≤ validatorRegistryLimit) {r : Root} {st : State}
    (hr : Node.Reads a.store r st) {b : Block} (hb : b.slot < 2 ^ 64) (ha : b.body.length ≤ 4096) :
    stateTransition c.E.H st b = Verif.stateTransition c.E.H st b := by
  obtain ⟨rank, hR⟩ := W.acyclic
  obtain ⟨root, anchor, ops, A, I⟩ := Node.areach_ainv ho W hR h Node.eventK_known
  have e := (I.node.reads W r st).1 hr
  by_cases hne : r = root
  · rw [hne, I.node.tree.anc] at e
    have e := Option.some.inj e
    obtain ⟨m, -, -, -, h3, -⟩ := I.node.started
    rw [← e, h3]
    have F := chain_fits W.chain hv
    refine transition_eq ?_ hb ha
    exact ⟨F.hist, F.fin, F.roots, F.vals⟩
  · obtain ⟨cs, -, hc⟩ := I.node.tree.good r st e hne
    exact transition_eq (chain_fits hc hv) hb ha

/-- The clock: with a genesis time that fits in milliseconds, the number of intervals since genesis is
exact, and so small that nothing computed from it wraps. -/
theorem C107_clock {g ts : Nat} (hg : g * 1000 < 2 ^ 64) (ht : ts < 2 ^ 64) :
    tickTarget g ts = Node.tickTarget g ts ∧ Node.tickTarget g ts < 2 ^ 55 := by
  unfold tickTarget Node.tickTarget
  rw [mul_eq hg]
  refine ⟨rfl, ?_⟩
  unfold Node.msPerInterval
  omega

/-- Blocks and votes of any slot, however large, are found to be in the future exactly when they are. -/
theorem C107_future {slot time : Nat} (ht : time < 2 ^ 55) :
    tooFarInFuture slot time = true ↔ 5 * slot > time + 1 := by
  unfold tooFarInFuture satMul Node.intervalsPerSlot Node.gossipDisparity
  rw [add_eq (by omega), decide_eq_true_eq]
  omega

/-- The first hypothesis of `C107_clock` is needed: with a genesis time of 18446744073709552 seconds the
node believes at 1.2 seconds after the Unix epoch that the network is in its second interval. -/
theorem C107_clock_false : ∃ g ts, g < 2 ^ 64 ∧ ts < 2 ^ 64 ∧ Node.tickTarget g ts = 0 ∧
    tickTarget g ts = 1 :=
  ⟨18446744073709552, 1200, by decide, by decide, by decide, by decide⟩

/-- The history must reach to the header, as it does in chains. On a state with a longer one, such as may
be decoded from bytes, the sum in the guard wraps and a block 2^64 slots ahead passes it. -/
theorem C107_guard_false : ∃ (s : State) (b : Block), b.slot < 2 ^ 64 ∧ b.body = [] ∧
    s.historicalBlockHashes.length = 1 ∧ s.validators.length = 3 ∧
    Verif.stateTransition Witness.wH s b = .error .slotGapTooLarge ∧
    stateTransition Witness.wH s b = .error (.panicked 211) := by
  refine ⟨{ Witness.wG with historicalBlockHashes := [7] },
    { slot := 2 ^ 64 - 1, proposerIndex := (2 ^ 64 - 1) % 3, parentRoot := 1, stateRoot := 1, body := [] },
    by decide, rfl, rfl, rfl, by decide +kernel, by decide +kernel⟩

open Witness in
/-- Non-vacuity: the state of a chain of three blocks and two blocks, one that is accepted and one in
the last slot that a 64-bit word can hold. -/
example : Chain wH wG wBlocks.reverse wState ∧ wVals.length ≤ validatorRegistryLimit ∧
    stateTransition wH wState (mkBlock (2 ^ 64 - 1) wState.slot []) =
      Verif.stateTransition wH wState (mkBlock (2 ^ 64 - 1) wState.slot []) ∧
    (∃ s, stateTransition wH wState (mkBlock (wState.slot + 1) wState.slot []) = .ok s) := by
  have h : (stateTransition wH wState (mkBlock (wState.slot + 1) wState.slot [])).toOption.isSome = true := by
    decide +kernel
  refine ⟨wChain, by decide, C107_transition wChain (by decide) (by decide) (by decide), ?_⟩
  cases e : stateTransition wH wState (mkBlock (wState.slot + 1) wState.slot []) with
  | error x => rw [e] at h; cases h
  | ok s => exact ⟨s, rfl⟩

end Verif.Mach
