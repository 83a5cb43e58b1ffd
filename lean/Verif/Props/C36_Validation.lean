import Verif.Lemmas.Headers
import Verif.Props.C59_NoPanic
/-!
# C36: validation of votes from the network
-/
namespace Verif.Node
open Verif Verif.Db Verif.Node.Witness Verif.Witness

/-- A vote that makes sense for a node with headers `hs`, finalized block `fin` and clock `time`
(in intervals, five per slot). -/
structure SoundVote (hs : AMap Root Header) (fin : Root) (time : Nat) (d : AttData) : Prop where
  source : KnownAt hs d.source
  target : KnownAt hs d.target
  head : KnownAt hs d.head
  sourceTarget : Ancestor hs d.source.root d.target.root
  targetHead : Ancestor hs d.target.root d.head.root
  finalHead : Ancestor hs fin d.head.root
  notBeforeHead : d.head.slot ≤ d.slot
  notFuture : d.slot * 5 ≤ time + 1

/-- The same with ancestors reached through decreasing slots only. -/
structure SlotwiseVote (hs : AMap Root Header) (fin : Root) (time : Nat) (d : AttData) : Prop where
  source : KnownAt hs d.source
  target : KnownAt hs d.target
  head : KnownAt hs d.head
  sourceTarget : HAnc hs d.source.root d.target.root
  targetHead : HAnc hs d.target.root d.head.root
  finalHead : HAnc hs fin d.head.root
  notBeforeHead : d.head.slot ≤ d.slot
  notFuture : d.slot * 5 ≤ time + 1

/-- **C36**, soundness: whatever is in the store, an accepted vote is sound. -/
theorem C36_accepted_is_sound (s : Store) (d : AttData)
    (h : validateData s d = .ok (.ok ())) :
    SoundVote s.mem.db.headers s.mem.db.finalized.root s.mem.db.time d := by
  unfold validateData at h
  split at h
  · cases h
  next sh e1 =>
  split at h
  · cases h
  next th e2 =>
  split at h
  · cases h
  next hh e3 =>
  split at h
  · cases h
  split at h
  · cases h
  split at h
  · cases h
  next s1 =>
  split at h
  · cases h
  next s2 =>
  split at h
  · cases h
  next s3 =>
  split at h
  · cases h
  · cases h
  next c1 =>
  split at h
  · cases h
  · cases h
  next c2 =>
  split at h
  · cases h
  · cases h
  next c3 =>
  split at h
  · cases h
  next t1 =>
  split at h
  · cases h
  next t2 =>
  have s1 := Decidable.not_not.1 s1
  have s2 := Decidable.not_not.1 s2
  have s3 := Decidable.not_not.1 s3
  have k1 := checkpointIsAncestor_sound e2 s2 c1
  have k2 := checkpointIsAncestor_sound e3 s3 c2
  have k3 := checkpointIsAncestor_sound e3 s3 c3
  simp only [intervalsPerSlot, gossipDisparity] at t2
  exact ⟨⟨sh, e1, s1⟩, ⟨th, e2, s2⟩, ⟨hh, e3, s3⟩, k1.1, k2.1, k3.1, by omega, by omega⟩

/-- A vote whose chain has decreasing slots is accepted, whatever else is in the store. -/
theorem slotwise_accepted {s : Store} {d : AttData} {rank : Root → Nat}
    (hr : ∀ r h, s.mem.db.headers.get? r = some h → rank h.parentRoot < rank r)
    (hf : KnownAt s.mem.db.headers s.mem.db.finalized)
    (h : SlotwiseVote s.mem.db.headers s.mem.db.finalized.root s.mem.db.time d) :
    validateData s d = .ok (.ok ()) := by
  obtain ⟨sh, e1, s1⟩ := h.source
  obtain ⟨th, e2, s2⟩ := h.target
  obtain ⟨hh, e3, s3⟩ := h.head
  have l1 := h.sourceTarget.slot_le
  have l2 := h.targetHead.slot_le
  rw [slotOf_eq e1, slotOf_eq e2] at l1
  rw [slotOf_eq e2, slotOf_eq e3] at l2
  have c1 := checkpointIsAncestor_complete hr h.source e2 s2 h.sourceTarget
  have c2 := checkpointIsAncestor_complete hr h.target e3 s3 h.targetHead
  have c3 := checkpointIsAncestor_complete hr hf e3 s3 h.finalHead
  unfold validateData Store.header
  rw [e1, e2, e3]
  simp only
  rw [if_neg (by omega), if_neg (by omega), if_neg (by omega), if_neg (by omega),
    if_neg (by omega), c1, c2, c3]
  have b1 := h.notBeforeHead
  have b2 := h.notFuture
  simp only
  rw [if_neg (by omega), if_neg (by simp only [intervalsPerSlot, gossipDisparity]; omega)]

/-- **C36**: in a store whose parent links go back in slots, a vote passes validation exactly when
it is sound. -/
theorem C36_accepted_iff_sound (s : Store) (d : AttData) (hi : Increasing s.mem.db.headers)
    (hf : KnownAt s.mem.db.headers s.mem.db.finalized) :
    validateData s d = .ok (.ok ()) ↔
      SoundVote s.mem.db.headers s.mem.db.finalized.root s.mem.db.time d := by
  constructor
  · exact C36_accepted_is_sound s d
  · intro h
    obtain ⟨rank, hr⟩ := slot_rank hi
    exact slotwise_accepted hr hf ⟨h.source, h.target, h.head, (ancestor_hanc hi).1 h.sourceTarget,
      (ancestor_hanc hi).1 h.targetHead, (ancestor_hanc hi).1 h.finalHead, h.notBeforeHead,
      h.notFuture⟩

/-- **C36** on a running node, whatever blocks it was sent (pending blocks may carry absurd slots):
accepted votes are sound, and sound votes on chains with increasing slots are accepted. -/
theorem C36_running_node {E : Env} {t : Nat} {vals : List Validator} {bs : List Block} {a0 : State}
    {body : Option (List AggAtt)} {evs : List Event} {s : Store}
    (W : World E t vals bs a0 (Known E.H (State.fromGenesis E.H t vals) bs evs))
    (h : Reach E a0 body evs s) (d : AttData) :
    (validateData s d = .ok (.ok ()) →
      SoundVote s.mem.db.headers s.mem.db.finalized.root s.mem.db.time d) ∧
    (SlotwiseVote s.mem.db.headers s.mem.db.finalized.root s.mem.db.time d →
      validateData s d = .ok (.ok ())) := by
  refine ⟨C36_accepted_is_sound s d, fun hv => ?_⟩
  obtain ⟨root, anchor, ops, -, I, -⟩ := reach_ninv W h eventK_known
  obtain ⟨rank, hr⟩ := I.rank W
  obtain ⟨st, h1, h2⟩ := I.cp.fin
  exact slotwise_accepted hr ⟨_, (I.tree.own _ _ h1).2, by rw [I.tree.slotEq _ _ h1, h2]⟩ hv

/-- A vote of slot 8 for the block at slot 5 of the forked witness run (blocks 4 and 5 both on 3). -/
def wVote (source target head : Nat) : AttData :=
  { slot := 8, head := cp head, target := cp target, source := cp source }

/-- The witness store meets the hypotheses; a vote 2 → 3 with head 5 is accepted, one with target
on the other branch is not, and one from the next slot is not either. -/
example : Increasing (after (forkEv :: forkEvs)).mem.db.headers ∧
    KnownAt (after (forkEv :: forkEvs)).mem.db.headers
      (after (forkEv :: forkEvs)).mem.db.finalized ∧
    validateData (after (forkEv :: forkEvs)) (wVote 2 3 5) = .ok (.ok ()) ∧
    validateData (after (forkEv :: forkEvs)) (wVote 2 4 5) = .ok (.error .targetNotAncestor) ∧
    validateData (after (forkEv :: forkEvs)) { wVote 2 3 5 with slot := 9 } =
      .ok (.error .attTooFarInFuture) :=
  ⟨increasing_of_all (by decide +kernel), ⟨_, rfl, by decide +kernel⟩, by decide +kernel,
    by decide +kernel, by decide +kernel⟩

/-- Such a vote is also sound slot by slot, on a run that `C36_running_node` covers. -/
example : World wE 0 wVals [] wG (Known wH wG [] (forkEv :: forkEvs)) ∧
    Reach wE wG (some []) (forkEv :: forkEvs) (after (forkEv :: forkEvs)) ∧
    SoundVote (after (forkEv :: forkEvs)).mem.db.headers
      (after (forkEv :: forkEvs)).mem.db.finalized.root
      (after (forkEv :: forkEvs)).mem.db.time (wVote 2 3 5) :=
  ⟨world_of_list (by decide +kernel) (by decide +kernel), reach_after (by decide +kernel),
    C36_accepted_is_sound _ _ (by decide +kernel)⟩

end Verif.Node
