import Verif.Lemmas.DbBlocks
import Verif.Spec.DbWitness
/-!
# C29: the block store
-/
namespace Verif.Db
open Verif

/-- Rebuilding a block from its header and body. -/
theorem fromHeader_roundtrip (H : Hash) (b : Block) :
    fromHeaderAndBody (b.header H) b.body = b := rfl

/-- **C29.** After any run, the block stored under a root is the last one inserted under it:
`get_block` returns it, and `get_signed_block` returns it with the very same proof, unless a
pruning call came later and removed the proof; then the block is reported missing, or, for a
slot-0 block only, served with the empty proof. The hypothesis says that only the empty body
hashes like the empty body. -/
theorem C29_read_back {H : Hash} {a0 : State} {body : Option (List AggAtt)} {root : Root}
    {anchor : State} {ops : List Op} {m : Mem} (h : Run H a0 body root anchor ops m)
    {r : Root} {sb : SignedBlock} (hsb : lastBlock H ops r = some sb)
    (hempty : H.body sb.block.body = H.body [] → sb.block.body = []) :
    getBlock H m.db r = some sb.block ∧
      (getSignedBlock H m.db r = some sb ∨
        (prunedSince H ops r ∧ m.db.proofs.get? (sb.block.slot, r) = none ∧
          getSignedBlock H m.db r =
            if sb.block.slot = 0 then some { sb with proof := 0 } else none)) := by
  have B := run_blocks h
  have hh := B.hdr r sb hsb
  have hs : (sb.block.header H).slot = sb.block.slot := rfl
  have hbr : (sb.block.header H).bodyRoot = H.body sb.block.body := rfl
  have hb : (if (sb.block.header H).bodyRoot = H.body [] then some []
      else m.db.bodies.get? r) = some sb.block.body := by
    rw [hbr]
    split
    next e => rw [hempty e]
    next e => exact B.bodyTab r sb hsb e
  constructor
  · unfold getBlock
    simp only [hh]
    rw [hbr]
    split
    next e => rw [← hempty e, fromHeader_roundtrip]
    next e => simp only [B.bodyTab r sb hsb e, fromHeader_roundtrip]
  · unfold getSignedBlock
    simp only [hh, hb, hs, fromHeader_roundtrip]
    rcases B.proof r sb hsb with hp | ⟨hp, hn⟩
    · left; simp only [hp]
    · right; exact ⟨hp, hn, by simp only [hn]⟩

/-- **C29.** A pruning call only affects blocks below its cut-off; every other block is served as
before. -/
theorem C29_prune_keeps {H : Hash} {a0 : State} {body : Option (List AggAtt)} {root : Root}
    {anchor : State} {ops : List Op} {m : Mem} (h : Run H a0 body root anchor ops m)
    {db' : Db} (he : pruneOldData m.db = .ok db') (r : Root) (hd : Header)
    (hh : m.db.headers.get? r = some hd)
    (hkeep : ∀ tip, m.db.headers.get? m.db.head = some tip →
      tip.slot - 21600 ≤ hd.slot ∨ m.db.finalized.slot < tip.slot - 21600) :
    getSignedBlock H db' r = getSignedBlock H m.db r := by
  obtain ⟨h1, -, -, h2, -⟩ := pruneOldData_frame he
  obtain ⟨-, hp⟩ := pruneOldData_proofs he (run_blocks h).nodup
  suffices hno : ¬ ∃ c, proofCutoff m.db = some c ∧ hd.slot < c by
    unfold getSignedBlock
    simp only [h1, h2, hh, hp, if_neg hno]
  rintro ⟨c, hc, hlt⟩
  unfold proofCutoff at hc
  split at hc
  · cases hc
  next tip htip =>
    have hk := hkeep tip htip
    rw [show (21600 : Nat) = proofPruningRange from rfl] at hk
    unfold effective at hc
    generalize tip.slot - proofPruningRange = q at hk hc
    split at hc
    · cases hc
    · cases hc
      next hno =>
      rcases hk with hk | hk
      · exact absurd hlt (Nat.not_lt.2 hk)
      · exact hno (.inl hk)

/-- **C29.** A root never inserted (and not the anchor) reads as absent. -/
theorem C29_absent {H : Hash} {a0 : State} {body : Option (List AggAtt)} {root : Root}
    {anchor : State} {ops : List Op} {m : Mem} (h : Run H a0 body root anchor ops m)
    {r : Root} (hsb : lastBlock H ops r = none) (hr : r ≠ root) :
    getBlock H m.db r = none ∧ getSignedBlock H m.db r = none := by
  have hn := (run_blocks h).absent r hsb hr
  unfold getBlock getSignedBlock
  simp only [hn, and_self]

/-- **C29.** A synthesized empty proof is only ever served for a slot-0 block: whenever a block
above slot 0 is served, its proof is the one stored. -/
theorem C29_no_synthesized_proof {H : Hash} {a0 : State} {body : Option (List AggAtt)} {root : Root}
    {anchor : State} {ops : List Op} {m : Mem} (h : Run H a0 body root anchor ops m)
    {r : Root} {x : SignedBlock} (hx : getSignedBlock H m.db r = some x) (hs : x.block.slot ≠ 0) :
    ∃ sb, lastBlock H ops r = some sb ∧ x.proof = sb.proof := by
  have B := run_blocks h
  unfold getSignedBlock at hx
  split at hx
  · cases hx
  next hd hh =>
    simp only at hx
    split at hx
    · cases hx
    next b hb =>
      split at hx
      next p hp =>
        cases hx
        cases hl : lastBlock H ops r with
        | none => rw [B.noProof r _ hl] at hp; cases hp
        | some sb =>
          refine ⟨sb, rfl, ?_⟩
          have := B.hdr r sb hl
          rw [hh] at this
          cases this
          rcases B.proof r sb hl with h | ⟨-, h⟩
          · have e : m.db.proofs.get? (sb.block.slot, r) = some p := hp
            rw [h] at e; cases e; rfl
          · have e : m.db.proofs.get? (sb.block.slot, r) = some p := hp
            rw [h] at e; cases e
      · split at hx
        next h0 => cases hx; exact absurd h0 hs
        · cases hx

/-- Non-vacuity: in the witness run block 2 (with a vote in its body) and block 1 (empty body) are
read back; a hash that separates the two bodies is used for this. -/
example : lastBlock Verif.Witness.wH Witness.ops 3 = some Witness.sb2 ∧
    lastBlock Verif.Witness.wH Witness.ops 99 = none ∧
    ¬ prunedSince Verif.Witness.wH Witness.ops 3 := by
  refine ⟨by decide +kernel, by decide +kernel, ?_⟩
  simp only [Witness.ops, prunedSince]
  intro h
  exact h.1 (by decide +kernel)

/-- A hash with distinguishable bodies. -/
def bodyHash : Hash := { Verif.Witness.wH with body := fun b => b.length }

/-- Non-vacuity: a store initialised from genesis, then a block with votes, then a block without. -/
example : ∃ m, Run bodyHash Verif.Witness.wG none 1 Witness.anchorS
      [.insertSigned Witness.sb1, .insertPending Witness.sb2] m ∧
    (∀ sb ∈ [Witness.sb1, Witness.sb2], bodyHash.body sb.block.body = bodyHash.body [] →
      sb.block.body = []) ∧
    getSignedBlock bodyHash m.db 3 = some Witness.sb2 ∧
    getSignedBlock bodyHash m.db 2 = some Witness.sb1 ∧
    getSignedBlock bodyHash m.db 1 = none := by
  have r0 : Run bodyHash Verif.Witness.wG none 1 Witness.anchorS []
      (Witness.get! (initStore bodyHash Verif.Witness.wG none)) :=
    .init (by decide +kernel) (by decide +kernel)
  refine ⟨_, (r0.step (op := .insertPending Witness.sb2) trivial rfl).step
    (op := .insertSigned Witness.sb1) trivial rfl, ?_, ?_, ?_, ?_⟩
  · decide +kernel
  · decide +kernel
  · decide +kernel
  · decide +kernel

end Verif.Db
