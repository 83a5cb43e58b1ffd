import Verif.Lemmas.ActorSteps
import Verif.Lemmas.NoPrune
import Verif.Props.C40_Discard
import Verif.Props.C59_NoPanic
/-!
# C60: can a block message crash the blockchain actor?

It can: `process_or_pend_block` unwraps the signed block of a stored ancestor (1091), and the
signature of an old block that never became part of the chain is pruned while its header stays. The
theorems below show that this is the only way, that it cannot happen in the first 21 600 slots, and
that it does happen.
-/
namespace Verif.Node
open Verif Verif.Db Verif.Witness Verif.Node.Witness

/-- **C60, partial.** In any history, the only event that can panic is a block, and only at 1091;
the block's parent then has no state, and the store (with the block added) holds the header of a
block whose parent has a state but whose signature is gone. All loops terminate. -/
theorem C60_only_at_1091_partial {c : Ctx} (ho : ∀ l, (c.order l).Perm l) {t : Nat}
    {vals : List Validator} {bs : List Block} {a0 : State} {body : Option (List AggAtt)}
    {evs : List Event} {ev : Event}
    (W : World c.E t vals bs a0 (Known c.E.H (State.fromGenesis c.E.H t vals) bs (ev :: evs)))
    {a : Actor} (h : AReach c a0 body evs a) {k : Nat} (he : a.step c ev = .error k) :
    k = 1091 ∧ ∃ sb root, ev = .block sb ∧
      hasState a.store.mem.db sb.block.parentRoot = false ∧
      ProofGone c.E.H root
        (insertPendingBlock c.E.H a.store.mem.db (sb.block.root c.E.H) sb) := by
  obtain ⟨rank, hR⟩ := W.acyclic
  obtain ⟨root, anchor, ops, A, I⟩ := areach_ainv ho W hR h
    (fun e he => eventK_known e (List.mem_cons_of_mem _ he))
  rcases I.step ho W A hR ev (eventK_known ev List.mem_cons_self) with
    ⟨e, sb, h1, h2, h3⟩ | ⟨a', f, ops', e, -⟩
  · rw [e] at he
    cases he
    exact ⟨rfl, sb, root, h1, h2, h3⟩
  · rw [e] at he; cases he

/-- **C60, partial.** As long as no known block has a slot above 21 600 (a day at 4 s per slot), no
event of any kind can crash the actor. -/
theorem C60_first_day_partial {c : Ctx} (ho : ∀ l, (c.order l).Perm l) {t : Nat}
    {vals : List Validator} {bs : List Block} {a0 : State} (body : Option (List AggAtt))
    (evs : List Event)
    (W : World c.E t vals bs a0 (Known c.E.H (State.fromGenesis c.E.H t vals) bs evs))
    (hsl : ∀ h, Known c.E.H (State.fromGenesis c.E.H t vals) bs evs h → h.slot ≤ 21600) :
    ∃ a, AReach c a0 body evs a := by
  induction evs with
  | nil =>
    obtain ⟨s, hs⟩ := C59_init_succeeds W.chain body
    exact ⟨{ store := s, pending := [], parents := [] }, .init (by unfold Actor.init; rw [hs])⟩
  | cons ev evs ih =>
    obtain ⟨a, ha⟩ := ih W.tail (fun h hk => hsl h hk.tail)
    obtain ⟨rank, hR⟩ := W.acyclic
    obtain ⟨root, anchor, ops, A, I⟩ := areach_ainv ho W hR ha
      (fun e he => eventK_known e (List.mem_cons_of_mem _ he))
    rcases I.step ho W A hR ev (eventK_known ev List.mem_cons_self) with
      ⟨-, sb, rfl, h2, h3⟩ | ⟨a', f, ops', e, -⟩
    · exfalso
      obtain ⟨r, hd, g1, g2, -, g4⟩ := h3
      have hk : Known c.E.H (State.fromGenesis c.E.H t vals) bs (.block sb :: evs)
          (sb.block.header c.E.H) := .inr (.inr ⟨sb, .inl List.mem_cons_self, rfl⟩)
      have hrun : Db.Run c.E.H a0 body root anchor (.insertPending sb :: ops)
          { a.store.mem with
            db := insertPendingBlock c.E.H a.store.mem.db (sb.block.root c.E.H) sb } :=
        I.node.run.step trivial rfl
      have hseen : ∀ h, seen c.E.H anchor (.insertPending sb :: ops) h →
          Known c.E.H (State.fromGenesis c.E.H t vals) bs (.block sb :: evs) h := by
        intro h hh
        rcases seen_insert (.inl rfl) hh with rfl | hh
        · exact hk
        · exact I.node.opsK h hh
      have hcf : CollisionFree c.E.H anchor (.insertPending sb :: ops) :=
        fun x y hx hy => W.collisionFree x y (hseen x hx) (hseen y hy)
      have B := run_blocks hrun
      have hP := run_proofs hrun hcf (fun h hh => hsl h (hseen h hh))
      cases hl : lastBlock c.E.H (.insertPending sb :: ops) r with
      | none =>
        have := B.absent r hl g1
        rw [this] at g2; cases g2
      | some s0 =>
        have e1 := B.hdr r s0 hl
        have e2 := hP r s0 hl
        rw [g2] at e1
        cases e1
        unfold getSignedBlock at g4
        rw [g2] at g4
        have hbr : (s0.block.header c.E.H).bodyRoot = c.E.H.body s0.block.body := rfl
        have hs : (s0.block.header c.E.H).slot = s0.block.slot := rfl
        simp only at e2 g4
        rw [hs] at g4
        by_cases hb : (s0.block.header c.E.H).bodyRoot = c.E.H.body []
        · rw [if_pos hb] at g4
          simp only [e2] at g4
          cases g4
        · have hb' := B.bodyTab r s0 hl (by rw [← hbr]; exact hb)
          simp only at hb'
          rw [if_neg hb, hb'] at g4
          simp only [e2] at g4
          cases g4
    · exact ⟨a', ha.step e⟩

/-! ## The crash -/

/-- Cryptography that rejects the block at slot 2. -/
def badE : Env := { wE with verifyBlock := fun _ sb => decide (sb.block.slot ≠ 2) }

def badCtx : Ctx := { E := badE, order := fun l => l, reagg := fun _ _ => [] }

/-- Run the actor, newest event first, from genesis. -/
def arun : List Event → P Actor
  | [] => Actor.init badCtx wG (some [])
  | ev :: evs => match arun evs with
    | .error e => .error e
    | .ok a => match a.step badCtx ev with
      | .error e => .error e
      | .ok (a, _) => .ok a

theorem areach_arun : ∀ {evs : List Event} {a : Actor}, arun evs = .ok a →
    AReach badCtx wG (some []) evs a
  | [], a, h => .init h
  | ev :: evs, a, h => by
    unfold arun at h
    split at h
    · cases h
    next a1 e =>
      split at h
      · cases h
      next a2 f e2 => cases h; exact (areach_arun e).step e2

/-- Block 2 has a bad signature and arrives before its parent, block 1. The chain 1, 3, 4, 5
finalizes slot 3; a day later the chain continues at slot 21 603. Newest first. -/
def dayEvs : List Event :=
  [ .block (sgn (mkBlock 21603 5 [])),
    .block (sgn (mkBlock 5 4 [vote [true, true, true] 3 4])),
    .block (sgn (mkBlock 4 3 [vote [true, true, true] 1 3])),
    .block (sgn (mkBlock 3 1 [vote [true, true, true] 0 1])),
    .block (sgn (mkBlock 1 0 [])),
    .block (sgn (mkBlock 2 1 [])),
    .tick 86416000 false ]

/-- A child of block 2. -/
def killEv : Event := .block (sgn (mkBlock 7 2 []))

def errOf {α : Type} : P α → Option Nat
  | .ok _ => none
  | .error e => some e

theorem arun_kill : errOf (arun (killEv :: dayEvs)) = some 1091 ∧
    errOf (arun dayEvs) = none := by
  decide +kernel

/-- **C60 is false.** A reachable actor panics on a block message: anyone who can get one block with
a bad signature stored before its parent arrives can stop the node a day later with a second
block. -/
theorem C60_false : ∃ (c : Ctx) (evs : List Event) (ev : Event) (a : Actor),
    World c.E 0 wVals [] wG (Known c.E.H wG [] (ev :: evs)) ∧
    AReach c wG (some []) evs a ∧ a.step c ev = .error 1091 := by
  obtain ⟨h1, h2⟩ := arun_kill
  cases ha : arun dayEvs with
  | error e => rw [ha] at h2; cases h2
  | ok a =>
    have W := world_of_list (evs := killEv :: dayEvs) (by decide +kernel) (by decide +kernel)
    refine ⟨badCtx, dayEvs, killEv, a, ?_, areach_arun ha, ?_⟩
    · exact ⟨.nil, W.headerNZ, W.stateNZ, W.genesis, W.old, W.collisionFree, W.acyclic⟩
    · unfold arun at h1
      rw [ha] at h1
      simp only at h1
      split at h1
      next e he => cases h1; exact he
      · cases h1

/-- Non-vacuity of the first theorem: the crash itself is an instance; of the second: the history
without the last block and the last tick is below slot 21 600 and stores the bad block. -/
example : errOf (arun (dayEvs.drop 1)) = none ∧
    (∀ h ∈ knownList (dayEvs.drop 1), h.slot ≤ 21600) ∧
    (match arun (dayEvs.drop 1) with
      | .ok a => (a.store.mem.db.headers.get? 3).isSome && !hasState a.store.mem.db 3
      | .error _ => false) = true := by
  decide +kernel

end Verif.Node
