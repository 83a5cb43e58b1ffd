import Verif.Lemmas.Verified
import Verif.Props.C78_Signatures
import Verif.Props.C39_Delivery
/-!
# C79: from signatures to finality
-/
namespace Verif.Node
open Verif Verif.Db Verif.Buffers

theorem accepted_iff {r : Except SigErr Unit} : accepted r = true ↔ r = .ok () := by
  unfold accepted
  split <;> simp

section
variable {X : Crypto} {Signs : Nat → Root → Nat → Prop} {H : Hash} {t : Nat}
  {vals : List Validator} {bs : List Block} {a0 : State} {body : Option (List AggAtt)}
  {order : List Root → List Root} {reagg : Store → SignedBlock → List (AttData × Agg)}
  {evs : List Event} {a : Actor}

/-- Votes in verified blocks were signed. -/
theorem voted_signed (hX : Sound X Signs) {sbs : List SignedBlock}
    (hall : ∀ sb ∈ sbs, ∃ p : State, p.validators = vals ∧
      (envOf X H).verifyBlock p sb = true ∧ ∃ st', importState H p sb.block = .ok st')
    {v : Nat} {r : Root} (h : VotedIn (sbs.map (·.block) ++ bs) v r) :
    VotedIn bs v r ∨ ∃ d : AttData, d.target.root = r ∧ SignedVote X H Signs vals v d := by
  obtain ⟨b, hb, x, hx, hr, hv⟩ := h
  rcases List.mem_append.1 hb with hb | hb
  · obtain ⟨sb, hs, rfl⟩ := List.mem_map.1 hb
    obtain ⟨p, hp, hver, -⟩ := hall sb hs
    have := (C78_signed hX (accepted_iff.1 hver)).2 x hx v hv
    rw [hp] at this
    exact .inr ⟨x.data, hr, this⟩
  · exact .inl ⟨b, hb, x, hx, hr, hv⟩

/-- **C79.** A node started from a state on a chain `bs` from genesis, after any events whatsoever:
every block it has imported was signed by the validator whose turn it was. -/
theorem C79_blocks_signed (hX : Sound X Signs) (ho : ∀ l, (order l).Perm l)
    (W : World (envOf X H) t vals bs a0 (Known H (State.fromGenesis H t vals) bs evs))
    (h : AReach ⟨envOf X H, order, reagg⟩ a0 body evs a) {r : Root} {st : State}
    (hr : Reads a.store r st) :
    (∃ i, Actor.init ⟨envOf X H, order, reagg⟩ a0 body = .ok i ∧ i.store.mem.db.head = r) ∨
    ∃ b : Block, b.root H = r ∧ b.slot = st.slot ∧ b.proposerIndex = b.slot % vals.length ∧
      SignedProposal X H Signs vals b := by
  obtain ⟨rank, hR⟩ := W.acyclic
  obtain ⟨root, anchor, ops, A, I, V⟩ := areach_verified
    (c := ⟨envOf X H, order, reagg⟩) ho W hR h eventK_known
  have hst := (I.node.reads W r st).1 hr
  by_cases hne : r = root
  · subst hne
    left
    obtain ⟨m, h1, h2, -⟩ := I.node.started
    unfold Actor.init init
    simp only at h1 ⊢
    rw [h1]
    exact ⟨_, rfl, h2⟩
  · right
    obtain ⟨p, sb, h1, h2, h3, h4⟩ := V r st hst hne
    have f := import_frame h2
    obtain ⟨sbs, -, hc, -⟩ := verified_chain W I.node V st.slot r st (Nat.le_refl _) hst hne
    have hv : p.validators = vals := by rw [← f.vals]; exact chain_validators hc
    have := (C78_signed hX (accepted_iff.1 h3)).1
    rw [hv] at this
    exact ⟨sb.block, h4, f.slot.symm, by rw [← hv]; exact f.proposer, this⟩

/-- **C79.** A node started from a state on a chain `bs` from genesis, after any events whatsoever:
for every justified or finalized checkpoint in any state it holds, other than genesis, at least two
thirds of the validators voted for that root, in `bs` or by signing a vote with that target with
their attestation key. -/
theorem C79_checkpoints_signed (hX : Sound X Signs) (ho : ∀ l, (order l).Perm l)
    (W : World (envOf X H) t vals bs a0 (Known H (State.fromGenesis H t vals) bs evs))
    (h : AReach ⟨envOf X H, order, reagg⟩ a0 body evs a) {r : Root} {st : State}
    (hr : Reads a.store r st) {c : Checkpoint}
    (hc : c = st.latestJustified ∨ c = st.latestFinalized) (h0 : c.slot ≠ 0) :
    SuperMaj (fun v => VotedIn bs v c.root ∨
      ∃ d : AttData, d.target.root = c.root ∧ SignedVote X H Signs vals v d) vals.length := by
  obtain ⟨rank, hR⟩ := W.acyclic
  obtain ⟨root, anchor, ops, A, I, V⟩ := areach_verified
    (c := ⟨envOf X H, order, reagg⟩) ho W hR h eventK_known
  have hst := (I.node.reads W r st).1 hr
  by_cases hne : r = root
  · rw [hne, I.node.tree.anc] at hst
    have hst := Option.some.inj hst
    subst hst
    obtain ⟨m, -, -, -, h3, -⟩ := I.node.started
    have c7 := C07_supermajority W.chain
    have e1 : anchor.latestJustified = a0.latestJustified := by rw [h3]
    have e2 : anchor.latestFinalized = a0.latestFinalized := by rw [h3]
    rw [e1, e2] at hc
    rcases hc with rfl | rfl
    · exact (c7.1 h0).mono (fun v => .inl)
    · exact (c7.2 h0).mono (fun v => .inl)
  · obtain ⟨sbs, -, hch, -, hall⟩ := verified_chain W I.node V st.slot r st (Nat.le_refl _) hst hne
    have c7 := C07_supermajority hch
    rcases hc with rfl | rfl
    · exact (c7.1 h0).mono (fun v hv => voted_signed hX hall hv)
    · exact (c7.2 h0).mono (fun v hv => voted_signed hX hall hv)

/-- **C79.** A node started from genesis: its own justified and finalized checkpoints are the genesis
block or have the signed votes of at least two thirds of the validators. -/
theorem C79_node_checkpoints_signed (hX : Sound X Signs) (ho : ∀ l, (order l).Perm l)
    (W : World (envOf X H) t vals [] (State.fromGenesis H t vals)
      (Known H (State.fromGenesis H t vals) [] evs))
    (h : AReach ⟨envOf X H, order, reagg⟩ (State.fromGenesis H t vals) body evs a)
    {c : Checkpoint} (hc : c = a.store.mem.db.justified ∨ c = a.store.mem.db.finalized) :
    c = ⟨H.header (genesisHeader H (State.fromGenesis H t vals)), 0⟩ ∨
    SuperMaj (fun v => ∃ d : AttData, d.target.root = c.root ∧ SignedVote X H Signs vals v d)
      vals.length := by
  obtain ⟨rank, hR⟩ := W.acyclic
  obtain ⟨root, anchor, ops, A, I⟩ := areach_ainv
    (c := ⟨envOf X H, order, reagg⟩) ho W hR h eventK_known
  obtain ⟨m, -, -, -, h3, h4⟩ := I.node.started
  have hs0 : anchor.slot = 0 := by rw [h3]; rfl
  have hroot : H.header (genesisHeader H (State.fromGenesis H t vals)) = root := by
    rw [h4, h3]; rfl
  have hst : ∃ st, stateOf root anchor ops c.root = some st ∧ st.slot = c.slot := by
    rcases hc with rfl | rfl
    · exact I.node.cp.just
    · exact I.node.cp.fin
  by_cases h0 : c.slot = 0
  · left
    obtain ⟨st, h1, h2⟩ := hst
    by_cases hne : c.root = root
    · obtain ⟨cr, cs⟩ := c
      simp only at h0 hne
      rw [h0, hne, hroot]
    · obtain ⟨p, -, h5, -⟩ := I.node.tree.parentOf _ _ h1 hne
      omega
  · right
    have key : ∃ r st, Reads a.store r st ∧ (c = st.latestJustified ∨ c = st.latestFinalized) := by
      rcases hc with rfl | rfl
      · rcases I.node.cp.justOf with e | ⟨st, e | ⟨r, e⟩, e'⟩
        · rw [e] at h0; exact absurd hs0 h0
        · cases e
        · exact ⟨r, st, (I.node.reads W r st).2 e, .inl e'.symm⟩
      · rcases I.node.cp.finOf with e | ⟨r, st, e, e'⟩
        · rw [e] at h0; exact absurd hs0 h0
        · exact ⟨r, st, (I.node.reads W r st).2 e, .inr e'.symm⟩
    obtain ⟨r, st, hr, hcc⟩ := key
    refine (C79_checkpoints_signed hX ho W h hr hcc h0).mono (fun v hv => hv.resolve_left ?_)
    rintro ⟨b, hb, -⟩
    cases hb

end

namespace Witness
open Verif.Witness

def sCtx : Ctx := ⟨envOf wX wH, fun l => l, fun _ _ => []⟩

/-- Run the actor with real signature checks, newest event first, from genesis. -/
def srun : List Event → P Actor
  | [] => Actor.init sCtx wG (some [])
  | ev :: evs => match srun evs with
    | .error e => .error e
    | .ok a => match a.step sCtx ev with
      | .error e => .error e
      | .ok (a, _) => .ok a

theorem areach_srun : ∀ {evs : List Event} {a : Actor}, srun evs = .ok a →
    AReach sCtx wG (some []) evs a
  | [], a, h => .init h
  | ev :: evs, a, h => by
    unfold srun at h
    split at h
    · cases h
    next a1 e =>
      split at h
      · cases h
      next a2 f e2 => cases h; exact (areach_srun e).step e2

theorem sWorld : World (envOf wX wH) 0 wVals [] wG (Known wH wG [] forkEvs) := by
  have W := world_of_list (evs := forkEvs) (by decide +kernel) (by decide +kernel)
  exact ⟨W.chain, W.headerNZ, W.stateNZ, W.genesis, W.old, W.collisionFree, W.acyclic⟩

/-- Non-vacuity: with the toy signatures the node imports the four blocks, justifies slot 2 and
finalizes slot 1. With the signature of block 2 corrupted it stops at block 1. -/
example : Sound wX wSigns ∧
    World (envOf wX wH) 0 wVals [] wG (Known wH wG [] forkEvs) ∧
    (∃ a, AReach sCtx wG (some []) forkEvs a ∧ a.store.mem.db.head = 5 ∧
      a.store.mem.db.justified = ⟨3, 2⟩ ∧ a.store.mem.db.finalized = ⟨2, 1⟩ ∧
      (Db.getState a.store.mem 5).toOption.bind (·.1.map (·.slot)) = some 4) ∧
    (srun [.block { sgn (mkBlock 2 1 [vote [true, true, true] 0 1]) with proof := 3 },
      .block (sgn (mkBlock 1 0 [])), .tick 32000 false]).toOption.map (·.store.mem.db.head) =
      some 2 := by
  refine ⟨wX_sound, sWorld, ?_, by decide +kernel⟩
  have h : (srun forkEvs).toOption.map (fun a => (a.store.mem.db.head, a.store.mem.db.justified,
      a.store.mem.db.finalized, (Db.getState a.store.mem 5).toOption.bind (·.1.map (·.slot)))) =
      some (5, ⟨3, 2⟩, ⟨2, 1⟩, some 4) := by decide +kernel
  cases e : srun forkEvs with
  | error x => rw [e] at h; cases h
  | ok a =>
    rw [e] at h
    have h := Option.some.inj h
    simp only [Prod.mk.injEq] at h
    exact ⟨a, areach_srun e, h.1, h.2.1, h.2.2.1, h.2.2.2⟩

end Witness
end Verif.Node
