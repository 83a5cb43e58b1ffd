import Verif.Lemmas.TrackPost
import Verif.Lemmas.SoloImport
/-!
# Importing the next block of a track
-/
namespace Verif.Node
open Verif Verif.Db Verif.Sync Verif.Votes Verif.Buffers Verif.Build

/-- Buffers between slots: no aggregate or vote is pending, groups of signatures are as in `S`, known
aggregates as in `Q`. -/
structure Rested (S : AttData → Prop) (Q : Root → PEntry → Prop) (σ : Store) : Prop where
  gossip : All (fun _ e => S e.data) σ.gossip.data
  cap : σ.gossip.capacity = 2048
  newP : σ.newP.data = []
  fcNew : σ.fc.new = []
  pool : All Q σ.knownP.data

theorem SameMem.rested {S : AttData → Prop} {Q : Root → PEntry → Prop} {a b : Store}
    (m : SameMem a b) (h : Rested S Q a) : Rested S Q b :=
  ⟨by rw [m.gossip]; exact h.gossip, by rw [m.gossip]; exact h.cap, by rw [m.newP]; exact h.newP,
    by rw [m.fc]; exact h.fcNew, by rw [m.knownP]; exact h.pool⟩

theorem Rested.mono {S S' : AttData → Prop} {Q Q' : Root → PEntry → Prop} {σ : Store}
    (h : Rested S Q σ) (hs : ∀ d, S d → S' d) (hq : ∀ r e, Q r e → Q' r e) : Rested S' Q' σ :=
  ⟨fun x hx => hs _ (h.gossip x hx), h.cap, h.newP, h.fcNew, fun x hx => hq _ _ (h.pool x hx)⟩

theorem setCheckpoints_rested {S : AttData → Prop} {Q : Root → PEntry → Prop} {a b : Store} {h : Root}
    {j fc : Option Checkpoint} (I : Rested S Q a) (e : setCheckpoints a h j fc = .ok b) :
    Rested S Q b := by
  unfold setCheckpoints at e
  split at e
  · cases e
  next db hdb =>
    simp only at e
    have same : Rested S Q { a with mem := { a.mem with db := db } } :=
      ⟨I.gossip, I.cap, I.newP, I.fcNew, I.pool⟩
    split at e
    · split at e
      · unfold pruneBuffers at e
        split at e
        next g n k h1 h2 h3 =>
          cases e
          obtain ⟨n1, -⟩ := prune_nil I.newP h2
          refine ⟨prune_all I.gossip h1, ?_, n1, I.fcNew, prune_all I.pool h3⟩
          obtain ⟨z, hz, hy⟩ := Option.map_eq_some_iff.1 h1
          have := congrArg (fun x => x.1.capacity) hy
          exact this.symm.trans I.cap
        · cases e
      · cases e; exact same
    · cases e; exact same

theorem updateHead_rested {S : AttData → Prop} {Q : Root → PEntry → Prop} {a b : Store}
    (I : Rested S Q a) (e : updateHead a = .ok b) : Rested S Q b := by
  obtain ⟨x, m1, fo, -, -, e3⟩ := updateHead_split e
  exact setCheckpoints_rested (a := { a with mem := m1 })
    ⟨I.gossip, I.cap, I.newP, I.fcNew, I.pool⟩ e3

theorem raise_rested {S : AttData → Prop} {Q : Root → PEntry → Prop} {a b : Store} {st : State}
    (I : Rested S Q a) (e : raiseJustified a st = .ok b) : Rested S Q b := by
  unfold raiseJustified at e
  split at e
  · exact setCheckpoints_rested I e
  · cases e; exact I

section
variable {E : Env} {t : Nat} {vals : List Validator} {K : Header → Prop} {root : Root}
  {anchor : State} {f : Nat → Root} {s : Nat} {top : State} {ops : List Db.Op} {σ : Store}

theorem Track.fresh (W : World E t vals [] (State.fromGenesis E.H t vals) K)
    (R : Track E t vals K root anchor f s top ops σ) {h : Header} (hk : K h) (hs : h.slot = s + 1) :
    σ.mem.db.headers.get? (E.H.header h) = none := by
  cases hg : σ.mem.db.headers.get? (E.H.header h) with
  | none => rfl
  | some x =>
    obtain ⟨k1, k2⟩ := R.inv.hdrK W _ _ hg
    have := W.collisionFree _ _ k1 hk k2
    subst this
    have := (R.line.only _ _ hg).1
    omega

/-- A block that continues the line, with its state. -/
structure NextStep (E : Env) (f : Nat → Root) (s : Nat) (top st : State) (sb : SignedBlock) : Prop
    where
  parent : sb.block.parentRoot = f s
  slot : sb.block.slot = s + 1
  check : ∀ σ : Store, s + 1 ≤ σ.currentSlot + 1 → checkBlock E σ top sb = .ok st
  just : top.latestJustified.slot ≤ st.latestJustified.slot
  fin : top.latestFinalized.slot ≤ st.latestFinalized.slot
  cap : ∀ k, jst st.justifiedSlots st.latestFinalized.slot k = true → k ≤ st.latestJustified.slot

/-- The import of a block on the head, whose state is as expected. -/
theorem Track.import (W : World E t vals [] (State.fromGenesis E.H t vals) K)
    (A : AnchorOk E.H (State.fromGenesis E.H t vals) K root anchor)
    (R : Track E t vals K root anchor f s top ops σ) {sb : SignedBlock} {st : State}
    (hk : K (sb.block.header E.H)) (N : NextStep E f s top st sb)
    (hnow : s + 1 ≤ σ.currentSlot + 1) :
    ∃ σ' ops', onBlock E σ sb = .ok (σ', .ok ()) ∧
      Track E t vals K root anchor (extend f s (sb.block.root E.H)) (s + 1) st ops' σ' ∧
      σ'.mem.db.time = σ.mem.db.time ∧ σ'.mem.db.safeTarget = σ.mem.db.safeTarget ∧
      σ'.genesisTime = σ.genesisTime ∧ ∀ S Q, Rested S Q σ → Rested S Q σ' := by
  have hp := R.topIs
  have hpar := N.parent
  have hslot := N.slot
  have hc := N.check σ hnow
  have hjn := N.just
  have hfn := N.fin
  have hfresh : σ.mem.db.headers.get? (sb.block.root E.H) = none := R.fresh W hk hslot
  have hi := checkBlock_import hc
  have hnone : stateOf root anchor ops (sb.block.root E.H) = none := by
    cases h : stateOf root anchor ops (sb.block.root E.H) with
    | none => rfl
    | some x =>
      rw [(R.inv.tree.own _ _ h).2] at hfresh
      cases hfresh
  obtain ⟨σ1, g1, g2, g3, R1⟩ := R.getState W (f s)
  rw [hp] at g1
  have q := stateOf_quiet (root := root) (anchor := anchor) (ops := ops)
      (op := .readState (f s)) trivial
  have hp1 : stateOf root anchor (.readState (f s) :: ops) sb.block.parentRoot = some top := by
    rw [q, hpar]; exact hp
  have hnone1 : stateOf root anchor (.readState (f s) :: ops) (sb.block.root E.H) = none := by
    rw [q]; exact hnone
  have C := R1.inv.tree.child A W.stateNZ hp1 hi
  obtain ⟨σ2, ops2, e2, I2, x2, h2, j2, -⟩ := R1.inv.raise W C
  rw [← x2] at hp1 hnone1
  rw [← x2, ← h2] at C
  obtain ⟨σ3, ops3, e3, I3, x3, n3⟩ := I2.store W A hp1 C hnone1 hk j2
  obtain ⟨σ4, ops4, e4, I4, q4, h4, j4, -, sf, f4, f5⟩ := I3.updateHead W A
  obtain ⟨a1, a2, a3, a4⟩ := raise_frame e2
  obtain ⟨b1, b2, b3, b4, b5, b6, b7, b8, b9⟩ := stored_frame e3
  have fr := updateHead_frame e4
  have hcommit : commitBlock E.H σ1 sb st = .ok σ4 := by
    unfold commitBlock
    rw [e2]
    simp only
    rw [e3]
    exact e4
  have hon : onBlock E σ sb = .ok (σ4, .ok ()) := by
    unfold Node.onBlock
    rw [if_neg (by
      rw [hasState_iff (R.inv.inv W).repr, hnone]
      simp), hpar, g1]
    simp only
    have : checkBlock E σ1 top sb = checkBlock E σ top sb := by
      unfold checkBlock Store.currentSlot; rw [g2]
    rw [this, hc]
    simp only
    rw [hcommit]
  -- the longer line
  have hhead : σ3.mem.db.headers =
      σ.mem.db.headers.insert (sb.block.root E.H) (sb.block.header E.H) := by
    rw [b1, h2, g2]
  have hne : ∀ i, i ≤ s → f i ≠ sb.block.root E.H := by
    intro i hi h
    obtain ⟨x, hx, -⟩ := R.line.mem i hi
    rw [h, hfresh] at hx
    cases hx
  have hext : ∀ i, i ≤ s → extend f s (sb.block.root E.H) i = f i := by
    intro i hi
    unfold extend
    rw [if_neg (by omega)]
  have hlast : extend f s (sb.block.root E.H) (s + 1) = sb.block.root E.H := by
    unfold extend; rw [if_pos rfl]
  have hline : Line σ3.mem.db.headers (extend f s (sb.block.root E.H)) (s + 1) := by
    rw [hhead]
    refine ⟨?_, ?_, ?_⟩
    · intro i hi
      rcases Nat.lt_or_ge s i with h | h
      · obtain rfl : i = s + 1 := by omega
        rw [hlast]
        exact ⟨_, AMap.get?_insert_self _ _ _, hslot⟩
      · rw [hext i h, AMap.get?_insert, if_neg (fun e => hne i h e.symm)]
        exact R.line.mem i h
    · intro i h hi hg
      rw [hext i (by omega)]
      rcases Nat.lt_or_ge i s with hlt | hge
      · rw [hext (i + 1) (by omega), AMap.get?_insert,
          if_neg (fun e => hne (i + 1) (by omega) e.symm)] at hg
        exact R.line.up i h hlt hg
      · obtain rfl : i = s := by omega
        rw [hlast, AMap.get?_insert_self] at hg
        cases hg
        exact hpar
    · intro r h hg
      rw [AMap.get?_insert] at hg
      split at hg
      next e =>
        cases hg
        have hs' : (sb.block.header E.H).slot = s + 1 := hslot
        rw [hs', hlast]
        exact ⟨Nat.le_refl _, e.symm⟩
      next e =>
        obtain ⟨k1, k2⟩ := R.line.only r h hg
        exact ⟨by omega, by rw [hext _ k1]; exact k2⟩
  have hstates : ∀ i, i ≤ s + 1 → ∃ x, stateOf root anchor ops3 (extend f s (sb.block.root E.H) i) =
      some x := by
    intro i hi
    rcases Nat.lt_or_ge s i with h | h
    · obtain rfl : i = s + 1 := by omega
      rw [hlast]
      exact ⟨st, n3⟩
    · rw [hext i h]
      obtain ⟨x, hx⟩ := R.states i h
      exact ⟨x, x3.states _ _ (by rw [x2, q]; exact hx)⟩
  have R3 : Rails E t vals K root anchor (extend f s (sb.block.root E.H)) (s + 1) ops3 σ3 :=
    ⟨I3, hline, hstates⟩
  have hgh : ghostHead σ3 = extend f s (sb.block.root E.H) (s + 1) := R3.ghost W _ 0 (.inl rfl)
  have hhd : σ4.mem.db.head = extend f s (sb.block.root E.H) (s + 1) := by
    rw [fr.2.2.2.2.2.2.1, hgh]
  have hsf : sf = st := by
    rw [hhd, hlast, n3] at f4
    exact (Option.some.inj f4).symm
  subst hsf
  -- its history
  have F := import_frame hi
  have hplen : top.historicalBlockHashes.length = s := by
    rw [R.inv.tree.histLen _ _ hp, R.slot (Nat.le_refl _) hp]
  have hhist : ∀ i, i < s + 1 → sf.historicalBlockHashes[i]? = some (f i) := by
    intro i hi
    rw [F.hist]
    rcases Nat.lt_or_ge i s with h | h
    · rw [List.getElem?_append_left (by omega)]
      exact R.hist i h
    · obtain rfl : i = s := by omega
      rw [List.getElem?_append_right (by omega), hplen, Nat.sub_self, hpar]
      rfl
  obtain ⟨cs, hcne, hch⟩ := C.chain
  obtain ⟨-, c2, -, -⟩ := C06_checkpoints_in_history W.headerNZ hch hcne
  have hst : sf.slot = s + 1 := by
    rw [C.slot]
    exact hslot
  have hord := C05_checkpoints_ordered hch hcne
  rw [hst] at hord
  have hfin : σ4.mem.db.finalized.slot = sf.latestFinalized.slot := by
    rw [hhist _ (by omega)] at c2
    have c2 := Option.some.inj c2
    rw [f5, if_pos]
    · unfold Store.header
      rw [← c2, ← hext _ (by omega)]
      obtain ⟨x, hx, -⟩ := hline.mem sf.latestFinalized.slot (by omega)
      rw [hx]
      rfl
  have hjust : σ4.mem.db.justified.slot = sf.latestJustified.slot := by
    rw [j4, b2, a4]
    have := R.just
    rw [g2]
    split
    · rfl
    · omega
  refine ⟨σ4, ops4, hon, ⟨⟨I4, by rw [h4]; exact hline, by rw [q4]; exact hstates⟩, hhd, hjust,
    hfin, by rw [hlast, q4]; exact n3, ?_, N.cap, Nat.le_trans R.pos hjn⟩, ?_, ?_, ?_, ?_⟩
  · intro i hi
    rw [hext i (by omega)]
    exact hhist i hi
  · rw [fr.1, b3, a1, g2]
  · rw [fr.2.2.2.2.2.2.2.2, b4, a2, g2]
  · rw [fr.2.2.1, b5, a3, g3.genesis]
  · intro S Q hQ
    refine updateHead_rested ?_ e4
    have := raise_rested (g3.rested hQ) e2
    exact ⟨by rw [b8]; exact this.gossip, by rw [b8]; exact this.cap, by rw [b6]; exact this.newP,
      by rw [b9]; exact this.fcNew, by rw [b7]; exact this.pool⟩

end
end Verif.Node
