import Verif.Lemmas.SoloSession
import Verif.Props.C33_Import
/-!
# Importing the next block of the line
-/
namespace Verif.Node
open Verif Verif.Db Verif.Sync Verif.Votes Verif.Buffers Verif.Build

theorem prune_nil {E : Type} {size : E → Nat} {keep : E → Bool} {b : Fifo E} {y : Fifo E × Nat}
    (h : b.data = []) (e : Fifo.prune size keep b = some y) :
    y.1.data = [] ∧ y.1.capacity = b.capacity := by
  obtain ⟨z, hz, rfl⟩ := Option.map_eq_some_iff.1 e
  rw [h] at hz
  cases hz
  exact ⟨rfl, rfl⟩

theorem setCheckpoints_idle {Q : Root → PEntry → Prop} {a b : Store} {h : Root}
    {j fc : Option Checkpoint} (I : Idle Q a) (e : setCheckpoints a h j fc = .ok b) : Idle Q b := by
  unfold setCheckpoints at e
  split at e
  · cases e
  next db hdb =>
    simp only at e
    have same : Idle Q { a with mem := { a.mem with db := db } } :=
      ⟨I.gossip, I.cap, I.newP, I.fcNew, I.pool⟩
    split at e
    · split at e
      · unfold pruneBuffers at e
        split at e
        next g n k h1 h2 h3 =>
          cases e
          obtain ⟨g1, g2⟩ := prune_nil I.gossip h1
          obtain ⟨n1, -⟩ := prune_nil I.newP h2
          exact ⟨g1, g2.trans I.cap, n1, I.fcNew, prune_all I.pool h3⟩
        · cases e
      · cases e; exact same
    · cases e; exact same

theorem updateHead_idle {Q : Root → PEntry → Prop} {a b : Store} (I : Idle Q a)
    (e : updateHead a = .ok b) : Idle Q b := by
  obtain ⟨x, m1, fo, -, -, e3⟩ := updateHead_split e
  exact setCheckpoints_idle (a := { a with mem := m1 })
    ⟨I.gossip, I.cap, I.newP, I.fcNew, I.pool⟩ e3

theorem raise_idle {Q : Root → PEntry → Prop} {a b : Store} {st : State} (I : Idle Q a)
    (e : raiseJustified a st = .ok b) : Idle Q b := by
  unfold raiseJustified at e
  split at e
  · exact setCheckpoints_idle I e
  · cases e; exact I

theorem raise_frame {a b : Store} {st : State} (e : raiseJustified a st = .ok b) :
    b.mem.db.time = a.mem.db.time ∧ b.mem.db.safeTarget = a.mem.db.safeTarget ∧
      b.genesisTime = a.genesisTime ∧
      b.mem.db.justified = (if st.latestJustified.slot > a.mem.db.justified.slot then
        st.latestJustified else a.mem.db.justified) := by
  unfold raiseJustified at e
  split at e
  next h =>
    obtain ⟨h1, -, -, h4⟩ := setCheckpoints_split e
    have ht := updateCheckpoints_time h1
    have hf := updateCheckpoints_frame h1
    exact ⟨ht.1, ht.2, h4, by rw [if_pos h]; exact hf.2.2.2.2.2.2.1⟩
  next h =>
    cases e
    exact ⟨rfl, rfl, rfl, by rw [if_neg h]⟩

theorem stored_frame {H : Hash} {a b : Store} {r : Root} {sb : SignedBlock} {st : State}
    (e : putState H (insertSigned H a r sb) r st = .ok b) :
    b.mem.db.headers = a.mem.db.headers.insert r (sb.block.header H) ∧
      b.mem.db.justified = a.mem.db.justified ∧ b.mem.db.time = a.mem.db.time ∧
      b.mem.db.safeTarget = a.mem.db.safeTarget ∧ b.genesisTime = a.genesisTime ∧
      b.newP = a.newP ∧ b.knownP = a.knownP ∧ b.gossip = a.gossip ∧ b.fc.new = a.fc.new := by
  unfold putState at e
  split at e
  · cases e
  next m hm =>
    cases e
    obtain ⟨d1, -, -, -, -, -, d7, -⟩ := insertState_db hm
    obtain ⟨d8, d9⟩ := insertState_safe hm
    exact ⟨d1, d7, d9, d8, rfl, rfl, rfl, rfl, rfl⟩

section
variable {E : Env} {t : Nat} {vals : List Validator} {K : Header → Prop} {root : Root}
  {anchor : State} {f : Nat → Root} {s : Nat} {top : State} {ops : List Db.Op} {σ : Store}

/-- A line with one more block. -/
def extend (f : Nat → Root) (s : Nat) (r : Root) : Nat → Root := fun i => if i = s + 1 then r else f i

theorem Row.fresh (W : World E t vals [] (State.fromGenesis E.H t vals) K)
    (R : Row E t vals K root anchor f s top ops σ) {h : Header} (hk : K h) (hs : h.slot = s + 1) :
    σ.mem.db.headers.get? (E.H.header h) = none := by
  cases hg : σ.mem.db.headers.get? (E.H.header h) with
  | none => rfl
  | some x =>
    obtain ⟨k1, k2⟩ := R.inv.hdrK W _ _ hg
    have := W.collisionFree _ _ k1 hk k2
    subst this
    have := (R.line.only _ _ hg).1
    omega

/-- A block that continues the line, with its state. -/
structure NextBlock (E : Env) (f : Nat → Root) (s : Nat) (top st : State) (sb : SignedBlock) : Prop
    where
  parent : sb.block.parentRoot = f s
  slot : sb.block.slot = s + 1
  check : ∀ σ : Store, s + 1 ≤ σ.currentSlot + 1 → checkBlock E σ top sb = .ok st
  just : st.latestJustified.slot = s - 1
  fin : st.latestFinalized.slot = s - 2
  slots : ∀ k, jst st.justifiedSlots st.latestFinalized.slot k = true ↔ k ≤ s - 1
  targets : ∀ x ∈ sb.block.body, x.data.target.slot ≤ s - 1

/-- The import of a block on the head, whose state is as expected. -/
theorem Row.import (W : World E t vals [] (State.fromGenesis E.H t vals) K)
    (A : AnchorOk E.H (State.fromGenesis E.H t vals) K root anchor)
    (R : Row E t vals K root anchor f s top ops σ) {sb : SignedBlock} {st : State}
    (hk : K (sb.block.header E.H)) (N : NextBlock E f s top st sb)
    (hnow : s + 1 ≤ σ.currentSlot + 1) :
    ∃ σ' ops', onBlock E σ sb = .ok (σ', .ok ()) ∧
      Row E t vals K root anchor (extend f s (sb.block.root E.H)) (s + 1) st ops' σ' ∧
      σ'.mem.db.time = σ.mem.db.time ∧ σ'.mem.db.safeTarget = σ.mem.db.safeTarget ∧
      σ'.genesisTime = σ.genesisTime ∧ ∀ Q, Idle Q σ → Idle Q σ' := by
  have hp := R.topIs
  have hpar := N.parent
  have hslot := N.slot
  have hc := N.check σ hnow
  have hj := N.just
  have hf := N.fin
  have hjs := N.slots
  have hfresh : σ.mem.db.headers.get? (sb.block.root E.H) = none := R.fresh W hk hslot
  have hi := checkBlock_import hc
  have hnone : stateOf root anchor ops (sb.block.root E.H) = none := by
    cases h : stateOf root anchor ops (sb.block.root E.H) with
    | none => rfl
    | some x =>
      rw [(R.inv.tree.own _ _ h).2] at hfresh
      cases hfresh
  obtain ⟨σ1, g1, g2, g3, R1⟩ := R.getState W (f s)
  rw [hp] at g1
  have q := stateOf_quiet (root := root) (anchor := anchor) (ops := ops)
      (op := .readState (f s)) trivial
  have hp1 : stateOf root anchor (.readState (f s) :: ops) sb.block.parentRoot = some top := by
    rw [q, hpar]; exact hp
  have hnone1 : stateOf root anchor (.readState (f s) :: ops) (sb.block.root E.H) = none := by
    rw [q]; exact hnone
  have C := R1.inv.tree.child A W.stateNZ hp1 hi
  obtain ⟨σ2, ops2, e2, I2, x2, h2, j2, -⟩ := R1.inv.raise W C
  rw [← x2] at hp1 hnone1
  rw [← x2, ← h2] at C
  obtain ⟨σ3, ops3, e3, I3, x3, n3⟩ := I2.store W A hp1 C hnone1 hk j2
  obtain ⟨σ4, ops4, e4, I4, q4, h4, j4, -, sf, f4, f5⟩ := I3.updateHead W A
  obtain ⟨a1, a2, a3, a4⟩ := raise_frame e2
  obtain ⟨b1, b2, b3, b4, b5, b6, b7, b8, b9⟩ := stored_frame e3
  have fr := updateHead_frame e4
  have hcommit : commitBlock E.H σ1 sb st = .ok σ4 := by
    unfold commitBlock
    rw [e2]
    simp only
    rw [e3]
    exact e4
  have hon : onBlock E σ sb = .ok (σ4, .ok ()) := by
    unfold Node.onBlock
    rw [if_neg (by
      rw [hasState_iff (R.inv.inv W).repr, hnone]
      simp), hpar, g1]
    simp only
    have : checkBlock E σ1 top sb = checkBlock E σ top sb := by
      unfold checkBlock Store.currentSlot; rw [g2]
    rw [this, hc]
    simp only
    rw [hcommit]
  -- the longer line
  have hhead : σ3.mem.db.headers =
      σ.mem.db.headers.insert (sb.block.root E.H) (sb.block.header E.H) := by
    rw [b1, h2, g2]
  have hne : ∀ i, i ≤ s → f i ≠ sb.block.root E.H := by
    intro i hi h
    obtain ⟨x, hx, -⟩ := R.line.mem i hi
    rw [h, hfresh] at hx
    cases hx
  have hext : ∀ i, i ≤ s → extend f s (sb.block.root E.H) i = f i := by
    intro i hi
    unfold extend
    rw [if_neg (by omega)]
  have hlast : extend f s (sb.block.root E.H) (s + 1) = sb.block.root E.H := by
    unfold extend; rw [if_pos rfl]
  have hline : Line σ3.mem.db.headers (extend f s (sb.block.root E.H)) (s + 1) := by
    rw [hhead]
    refine ⟨?_, ?_, ?_⟩
    · intro i hi
      rcases Nat.lt_or_ge s i with h | h
      · obtain rfl : i = s + 1 := by omega
        rw [hlast]
        exact ⟨_, AMap.get?_insert_self _ _ _, hslot⟩
      · rw [hext i h, AMap.get?_insert, if_neg (fun e => hne i h e.symm)]
        exact R.line.mem i h
    · intro i h hi hg
      rw [hext i (by omega)]
      rcases Nat.lt_or_ge i s with hlt | hge
      · rw [hext (i + 1) (by omega), AMap.get?_insert,
          if_neg (fun e => hne (i + 1) (by omega) e.symm)] at hg
        exact R.line.up i h hlt hg
      · obtain rfl : i = s := by omega
        rw [hlast, AMap.get?_insert_self] at hg
        cases hg
        exact hpar
    · intro r h hg
      rw [AMap.get?_insert] at hg
      split at hg
      next e =>
        cases hg
        have hs' : (sb.block.header E.H).slot = s + 1 := hslot
        rw [hs', hlast]
        exact ⟨Nat.le_refl _, e.symm⟩
      next e =>
        obtain ⟨k1, k2⟩ := R.line.only r h hg
        exact ⟨by omega, by rw [hext _ k1]; exact k2⟩
  have hstates : ∀ i, i ≤ s + 1 → ∃ x, stateOf root anchor ops3 (extend f s (sb.block.root E.H) i) =
      some x := by
    intro i hi
    rcases Nat.lt_or_ge s i with h | h
    · obtain rfl : i = s + 1 := by omega
      rw [hlast]
      exact ⟨st, n3⟩
    · rw [hext i h]
      obtain ⟨x, hx⟩ := R.states i h
      exact ⟨x, x3.states _ _ (by rw [x2, q]; exact hx)⟩
  have R3 : Rails E t vals K root anchor (extend f s (sb.block.root E.H)) (s + 1) ops3 σ3 :=
    ⟨I3, hline, hstates⟩
  have hgh : ghostHead σ3 = extend f s (sb.block.root E.H) (s + 1) := R3.ghost W _ 0 (.inl rfl)
  have hhd : σ4.mem.db.head = extend f s (sb.block.root E.H) (s + 1) := by
    rw [fr.2.2.2.2.2.2.1, hgh]
  have hsf : sf = st := by
    rw [hhd, hlast, n3] at f4
    exact (Option.some.inj f4).symm
  subst hsf
  -- its history
  have F := import_frame hi
  have hplen : top.historicalBlockHashes.length = s := by
    rw [R.inv.tree.histLen _ _ hp, R.slot (Nat.le_refl _) hp]
  have hhist : ∀ i, i < s + 1 → sf.historicalBlockHashes[i]? = some (f i) := by
    intro i hi
    rw [F.hist]
    rcases Nat.lt_or_ge i s with h | h
    · rw [List.getElem?_append_left (by omega)]
      exact (R.tip top hp).2.2.1 i h
    · obtain rfl : i = s := by omega
      rw [List.getElem?_append_right (by omega), hplen, Nat.sub_self, hpar]
      rfl
  obtain ⟨cs, hcne, hch⟩ := C.chain
  obtain ⟨-, c2, -, -⟩ := C06_checkpoints_in_history W.headerNZ hch hcne
  have hfin : σ4.mem.db.finalized.slot = s - 2 := by
    rw [hf, hhist _ (by omega)] at c2
    have c2 := Option.some.inj c2
    rw [f5, if_pos]
    · exact hf
    · unfold Store.header
      rw [← c2, ← hext _ (by omega)]
      obtain ⟨x, hx, -⟩ := hline.mem (s - 2) (by omega)
      rw [hx]
      rfl
  have hjust : σ4.mem.db.justified.slot = s - 1 := by
    rw [j4, b2, a4]
    have := R.just
    rw [g2]
    split
    · exact hj
    · omega
  refine ⟨σ4, ops4, hon, ⟨⟨I4, by rw [h4]; exact hline, by rw [q4]; exact hstates⟩, hhd, hjust,
    hfin, by rw [hlast, q4]; exact n3, ?_⟩, ?_, ?_, ?_, ?_⟩
  · intro x hx
    rw [hlast, q4, n3] at hx
    cases hx
    refine ⟨hj, hf, ?_, hjs⟩
    intro i hi
    rw [hext i (by omega)]
    exact hhist i hi
  · rw [fr.1, b3, a1, g2]
  · rw [fr.2.2.2.2.2.2.2.2, b4, a2, g2]
  · rw [fr.2.2.1, b5, a3, g3.genesis]
  · intro Q hQ
    refine updateHead_idle ?_ e4
    have := raise_idle (g3.idle hQ) e2
    exact ⟨by rw [b8]; exact this.gossip, by rw [b8]; exact this.cap, by rw [b6]; exact this.newP,
      by rw [b9]; exact this.fcNew, by rw [b7]; exact this.pool⟩

end
end Verif.Node
