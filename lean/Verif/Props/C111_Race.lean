import Verif.Lemmas.Race
import Verif.Spec.DbWitness
import Verif.Props.C53_Serve
/-!
# C111: reading while the node writes

Other tasks of the node answer requests while the blockchain actor writes. Their reads are separate, and any
number of writes can fall between two of them.
-/
namespace Verif.Race
open Verif Verif.Db Verif.Node

variable {H : Hash} {a0 : State} {body : Option (List AggAtt)} {root : Root} {anchor : State}
  {see : Nat → Db} {ops : Nat → List Op} {m : Nat → Mem}

theorem Moments.index (M : Moments H a0 body root anchor see ops m) (i n : Nat) (r : Root) :
    (see i).blockRoots.get? n = some r ↔
      HAnc (see i).headers root r ∧ HAnc (see i).headers r (see i).head ∧
        ∃ hd, (see i).headers.get? r = some hd ∧ hd.slot = n := by
  rw [M.blockRoots, M.headers, M.head]
  exact C28_index_exact (M.run i) (M.apart i) n r

theorem Moments.headAnc (M : Moments H a0 body root anchor see ops m) (i : Nat) :
    HAnc (see i).headers root (see i).head := by
  rw [M.headers, M.head]
  exact (run_index (M.run i) (M.apart i)).head

theorem Moments.shift (M : Moments H a0 body root anchor see ops m) (k : Nat) :
    Moments H a0 body root anchor (fun i => see (i + k)) (fun i => ops (i + k)) (fun i => m (i + k)) :=
  ⟨fun i => M.run _, fun i => by
    obtain ⟨l, hl⟩ := M.grow (i + k)
    exact ⟨l, by rw [← hl]; congr 1; omega⟩, fun i => M.apart _, fun i => M.see _⟩

theorem NoReorg.anc (M : Moments H a0 body root anchor see ops m) (N : NoReorg see) {i j : Nat} (hij : i ≤ j) :
    HAnc (see j).headers (see i).head (see j).head := by
  induction j with
  | zero =>
    obtain rfl : i = 0 := by omega
    obtain ⟨hd, e⟩ := (M.headAnc 0).right
    exact .self e
  | succ j ih =>
    by_cases e : i = j + 1
    · subst e
      obtain ⟨hd, e⟩ := (M.headAnc (j + 1)).right
      exact .self e
    · exact (M.anc (Nat.le_succ j) (ih (by omega))).trans (N j)

/-- What is at slot `n` below the first head is the same at every moment. -/
theorem index_stable (M : Moments H a0 body root anchor see ops m) (N : NoReorg see) {i j n : Nat} {r : Root}
    (hij : i ≤ j) (hn : n ≤ slotOf (see i).headers (see i).head)
    (h : (see j).blockRoots.get? n = some r) : (see i).blockRoots.get? n = some r := by
  obtain ⟨h1, h2, hd, e, hs⟩ := (M.index j n r).1 h
  have hmono : ∀ r h, (see i).headers.get? r = some h → (see j).headers.get? r = some h :=
    fun _ _ h => M.hdr hij h
  obtain ⟨hd0, e0⟩ := (M.headAnc i).right
  have hle : HAnc (see j).headers r (see i).head := by
    refine h2.le_of_slot (N.anc M hij) ?_
    rw [slotOf_eq e, slotOf_mono hmono e0, hs]
    exact hn
  obtain ⟨k1, k2⟩ := onChain_back hmono (M.headAnc i) hle h1
  obtain ⟨hd', e'⟩ := k2.right
  refine (M.index i n r).2 ⟨k2, k1, hd', e', ?_⟩
  rw [hmono _ _ e'] at e
  cases e
  exact hs

/-! ## Ranges -/

/-- **C111.** Whatever is written meanwhile: each block of the answer lies in the requested slots, is the block
its root says (header, body), and was on the chain of the node's head at the moment its row of the index was
read. There is at most one block for each slot, in increasing order. -/
theorem C111_range (M : Moments H a0 body root anchor see ops m)
    (hb : ∀ b, body = some b → H.body b = anchor.latestBlockHeader.bodyRoot) {start count : Nat}
    {l : List SignedBlock} (hl : answerSeen H see start count = some l) :
    (∀ x ∈ l, start ≤ x.block.slot ∧ x.block.slot < start + count ∧
      ∃ i, HAnc (see i).headers (x.block.root H) (see i).head ∧
        (see i).headers.get? (x.block.root H) = some (x.block.header H)) ∧
    l.Pairwise (fun x y => x.block.slot < y.block.slot) := by
  have slotEq : ∀ {n : Nat} {r : Root} {x : SignedBlock} {i : Nat},
      (see i).blockRoots.get? n = some r →
      blockSeen H (see (i + 1)) (see (i + 2)) (see (i + 3)) r = some x →
      x.block.slot = n ∧ HAnc (see i).headers (x.block.root H) (see i).head ∧
        (see i).headers.get? (x.block.root H) = some (x.block.header H) := by
    intro n r x i hi hx
    obtain ⟨e1, e2⟩ := blockSeen_root M hb (by omega : i + 1 ≤ i + 2) hx
    obtain ⟨-, h2, hd, e, hs⟩ := (M.index i n r).1 hi
    have := M.hdr (Nat.le_succ i) e
    rw [e2] at this
    cases this
    exact ⟨hs, by rw [e1]; exact h2, by rw [e1]; exact e⟩
  unfold answerSeen at hl
  split at hl
  · cases hl
  next hcnt =>
  split at hl
  · cases hl; exact ⟨fun x hx => (by cases hx), .nil⟩
  cases hl
  constructor
  · intro x hx
    obtain ⟨n, hn, hx⟩ := List.mem_filterMap.1 hx
    rw [mem_slotsFrom] at hn
    simp only at hx
    split at hx
    · cases hx
    next r hr =>
      obtain ⟨e1, e2, e3⟩ := slotEq hr hx
      exact ⟨by omega, by omega, _, e2, e3⟩
  · refine Serve.pairwise_of_consecutive (R := fun x y : SignedBlock => x.block.slot < y.block.slot)
      (fun _ _ _ => Nat.lt_trans) _ ?_
    intro i x y hx hy
    obtain ⟨s, t, -, hst, -, fs, ft, -⟩ := filterMap_consec _ _ _ _ _ _ hx hy
    simp only at fs ft
    split at fs
    · cases fs
    next rx hrx =>
    split at ft
    · cases ft
    next ry hry =>
    rw [(slotEq hrx fs).1, (slotEq hry ft).1]
    exact hst

/-- **C111, partial.** If meanwhile the head only moves to descendants, the range ends at the slot of the first
head and no block of the range has lost its proof, then each block of the answer is the child of the one before,
and all were on the chain of the first head. Missing: what happens otherwise, see `C111_mixed` and
`C111_hole`. -/
theorem C111_linked_partial (M : Moments H a0 body root anchor see ops m)
    (hb : ∀ b, body = some b → H.body b = anchor.latestBlockHeader.bodyRoot) (N : NoReorg see)
    {start stop : Nat} {h0 : Header} (he : (see 0).headers.get? (see 0).head = some h0) (hstop : stop ≤ h0.slot)
    (hav : ∀ n r i, start ≤ n → n ≤ stop → (see i).blockRoots.get? n = some r →
      blockSeen H (see (i + 1)) (see (i + 2)) (see (i + 3)) r ≠ none) :
    (∀ x ∈ rangeSeen H see start stop, HAnc (see 0).headers (x.block.root H) (see 0).head) ∧
    ∀ i (x y : SignedBlock), (rangeSeen H see start stop)[i]? = some x →
      (rangeSeen H see start stop)[i + 1]? = some y → y.block.parentRoot = x.block.root H := by
  have hs0 : slotOf (see 0).headers (see 0).head = h0.slot := slotOf_eq he
  have key : ∀ {n : Nat} {x : SignedBlock} {i : Nat} {r : Root}, n ≤ stop →
      (see i).blockRoots.get? n = some r →
      blockSeen H (see (i + 1)) (see (i + 2)) (see (i + 3)) r = some x →
      x.block.root H = r ∧ (see 0).blockRoots.get? n = some r ∧
        (see 0).headers.get? r = some (x.block.header H) := by
    intro n x i r hn hi hx
    obtain ⟨e1, e2⟩ := blockSeen_root M hb (by omega : i + 1 ≤ i + 2) hx
    have h0r := index_stable M N (Nat.zero_le i) (by omega) hi
    obtain ⟨-, -, hd, e, -⟩ := (M.index 0 n r).1 h0r
    have := M.hdr (Nat.zero_le (i + 1)) e
    rw [e2] at this
    cases this
    exact ⟨e1, h0r, e⟩
  refine ⟨fun x hx => ?_, fun i x y hx hy => ?_⟩
  · obtain ⟨n, hn, hx⟩ := List.mem_filterMap.1 hx
    rw [mem_slotsFrom] at hn
    simp only at hx
    split at hx
    · cases hx
    next r hr =>
      obtain ⟨e1, e2, -⟩ := key (by omega) hr hx
      rw [e1]
      exact ((M.index 0 n r).1 e2).2.1
  · obtain ⟨s, t, hs, hst, ht, fs, ft, fn⟩ := filterMap_consec _ _ _ _ _ _ hx hy
    simp only at fs ft fn
    split at fs
    · cases fs
    next rx hrx =>
    split at ft
    · cases ft
    next ry hry =>
    obtain ⟨ex, ix, hdx⟩ := key (by omega) hrx fs
    obtain ⟨ey, iy, hdy⟩ := key (by omega) hry ft
    obtain ⟨ax, xh, hd1, e1, s1⟩ := (M.index 0 s rx).1 ix
    obtain ⟨ay, yh, hd2, e2, s2⟩ := (M.index 0 t ry).1 iy
    rw [hdx] at e1
    rw [hdy] at e2
    have e1 := Option.some.inj e1
    have e2 := Option.some.inj e2
    rw [← e1] at s1
    rw [← e2] at s2
    have hsx : slotOf (see 0).headers rx = s := by rw [slotOf_eq hdx]; exact s1
    have hsy : slotOf (see 0).headers ry = t := by rw [slotOf_eq hdy]; exact s2
    have hxy : HAnc (see 0).headers rx ry := xh.le_of_slot yh (by omega)
    have hne : rx ≠ ry := by
      intro e
      rw [e] at hsx
      exact absurd (hsx.symm.trans hsy) (by omega)
    obtain ⟨hxp, pd, ep, hlt⟩ := hxy.parent hdy hne
    rw [ex]
    by_cases heq : rx = (y.block.header H).parentRoot
    · exact heq.symm
    · exfalso
      have hsp := slotOf_eq ep
      have h1 : s < pd.slot := by
        rcases hxp.slot with h | h
        · exact absurd h heq
        · rw [hsx, hsp] at h; exact h
      have h2 : pd.slot < t := by
        have : (y.block.header H).slot = t := s2
        omega
      -- the parent's row is there at the moment its slot is looked up
      have hrow : (see (4 * (pd.slot - start))).blockRoots.get? pd.slot =
          some (y.block.header H).parentRoot := by
        have h0i := Nat.zero_le (4 * (pd.slot - start))
        exact (M.index _ _ _).2 ⟨M.anc h0i (ax.trans hxp),
          (M.anc h0i (.trans (.up hdy ep hlt (.self ep)) yh)).trans (N.anc M h0i), pd, M.hdr h0i ep, rfl⟩
      have hnone := fn pd.slot h1 h2
      rw [hrow] at hnone
      exact hav pd.slot _ _ (by omega) (by omega) hrow hnone

/-! ## Status -/

/-- **C111.** A status message built while the node writes never panics; it names a head the node had while the
message was built, with that block's own slot, and the checkpoint that was finalized at the beginning. -/
theorem C111_status (M : Moments H a0 body root anchor see ops m) :
    ∃ st, statusSeen see = .ok st ∧ st.head.root = (see 1).head ∧
      (∃ hd, (see 1).headers.get? (see 1).head = some hd ∧ st.head.slot = hd.slot) ∧
      st.finalized = (see 0).finalized := by
  obtain ⟨hd, e⟩ := (M.headAnc 1).right
  refine ⟨⟨(see 0).finalized, ⟨(see 1).head, hd.slot⟩⟩, ?_, rfl, ⟨hd, e, rfl⟩, rfl⟩
  unfold statusSeen
  simp only [M.hdr (by omega : 1 ≤ 2) e]

/-! ## States -/

theorem stateSeen_eq (M : Moments H a0 body root anchor see ops m) {r : Root} {st : State}
    (h : stateOf root anchor (ops 0) r = some st) {fuel : Nat} (hf : st.slot + 1 ≤ fuel) :
    stateSeen fuel (m 0).cache see r = .ok (some st) := by
  have R := (M.inv 0).repr
  unfold stateSeen
  cases hc : cacheGet (m 0).cache r with
  | some x =>
    obtain ⟨s, c⟩ := x
    have := R.cache r s (cacheGet_some hc).1
    rw [h] at this
    cases this
    rfl
  | none =>
    cases hs : (see 0).states.get? r with
    | some s =>
      have := R.snap r s (by rw [← M.states]; exact hs)
      rw [h] at this
      cases this
      rfl
    | none =>
      have hn1 := noSnap_later M (Nat.zero_le 1) h hs
      obtain ⟨snap, ds, j, hw, -, hl, hne⟩ := walkSeen_leads M fuel 1 r st [] (M.state (by omega) h) hf
      have hown := M.hdr (Nat.zero_le j) (by rw [M.headers]; exact (R.own r st h).2)
      simp only [hw, hown, List.append_nil, hl.reconstruct (hne hn1)]

/-- **C111.** A state that is there when a reader begins is read exactly, without panic, whatever is written
meanwhile. The walk over the diffs makes at most `st.slot + 1` rounds. -/
theorem C111_state (M : Moments H a0 body root anchor see ops m) {r : Root} {st : State} {mm : Mem}
    (h : getState (m 0) r = .ok (some st, mm)) {fuel : Nat} (hf : st.slot + 1 ≤ fuel) :
    stateSeen fuel (m 0).cache see r = .ok (some st) := by
  obtain ⟨c, e, -⟩ := getState_repr (M.inv 0).repr r
  rw [h] at e
  exact stateSeen_eq M (Prod.mk.inj (Except.ok.inj e)).1.symm hf

/-- **C111.** From every state a node can reach: whatever it writes meanwhile, the finalized state and the head
state are read without panic. What is returned is the state of the block that was finalized, or the head, at the
first moment. -/
theorem C111_node {c : Ctx} {t : Nat} {vals : List Validator} {bs : List Block} {evs : List Event} {a : Actor}
    (ho : ∀ l, (c.order l).Perm l)
    (W : World c.E t vals bs a0 (Known c.E.H (State.fromGenesis c.E.H t vals) bs evs))
    (h : AReach c a0 body evs a) (M : Moments c.E.H a0 body root anchor see ops m) (hm : m 0 = a.store.mem) :
    (∃ st, c.E.H.header st.latestBlockHeader = a.store.mem.db.finalized.root ∧
      st.slot = a.store.mem.db.finalized.slot ∧
      ∀ fuel, st.slot + 1 ≤ fuel → finalizedStateSeen fuel (m 1).cache see = .ok st) ∧
    (∃ st, c.E.H.header st.latestBlockHeader = a.store.mem.db.head ∧
      ∀ fuel, st.slot + 1 ≤ fuel → headStateSeen fuel (m 1).cache see = .ok st) := by
  obtain ⟨rank, hR⟩ := W.acyclic
  obtain ⟨root', anchor', ops', A, I⟩ := areach_ainv ho W hR h (fun e he => eventK_known e he)
  have R := (run_inv I.node.run (I.node.collisionFree W)).repr
  have carry : ∀ {r : Root} {st : State}, stateOf root' anchor' ops' r = some st →
      stateOf root anchor (ops 0) r = some st := by
    intro r st hs
    obtain ⟨c1, e1, -⟩ := getState_repr (M.inv 0).repr r
    obtain ⟨c2, e2, -⟩ := getState_repr R r
    rw [hm] at e1
    rw [e1] at e2
    rw [(Prod.mk.inj (Except.ok.inj e2)).1]
    exact hs
  have hfin : (see 0).finalized = a.store.mem.db.finalized := by rw [M.see 0, hm]
  have hhead : (see 0).head = a.store.mem.db.head := by rw [M.see 0, hm]
  have hread : ∀ {r : Root} {st : State}, stateOf root' anchor' ops' r = some st → ∀ fuel, st.slot + 1 ≤ fuel →
      stateSeen fuel (m 1).cache (fun i => see (i + 1)) r = .ok (some st) :=
    fun hs fuel hf => stateSeen_eq (M.shift 1) (M.state (Nat.zero_le 1) (carry hs)) hf
  obtain ⟨fs, hf1, hf2⟩ := I.node.cp.fin
  obtain ⟨hst, hhd⟩ := I.node.cp.head
  refine ⟨⟨fs, (R.own _ _ hf1).1, hf2, fun fuel hfu => ?_⟩, ⟨hst, (R.own _ _ hhd).1, fun fuel hfu => ?_⟩⟩
  · unfold finalizedStateSeen
    rw [hfin, hread hf1 fuel hfu]
  · unfold headStateSeen
    rw [hhead, hread hhd fuel hfu]

/-! ## Concrete cases -/

namespace Witness
open Verif.Db.Witness Verif.Witness

/-- A block at slot 2 on top of the anchor, a sibling of `sb1`. -/
def sbF : SignedBlock := { block := mkBlock 2 0 [], proof := 33 }
def stF : State := match importState wH anchorS (mkBlock 2 0 []) with
  | .ok s => s
  | .error _ => wG

def m3' : Mem := get! (step wH m2 (.updateCheckpoints 2 none none))
def m4' : Mem := get! (step wH m3' (.insertSigned sbF))
def m5' : Mem := get! (step wH m4' (.insertState 3 stF))
def m6' : Mem := get! (step wH m5' (.updateCheckpoints 3 none none))

/-- The head is the block at slot 1. -/
def opsA : List Op := [.updateCheckpoints 2 none none, .insertState 2 st1, .insertSigned sb1]
/-- The head has moved to the other branch. -/
def opsB : List Op := [.updateCheckpoints 3 none none, .insertState 3 stF, .insertSigned sbF] ++ opsA

theorem run0 : Run wH wG (some []) 1 anchorS [] m0 := .init (by decide +kernel) (by decide +kernel)

theorem run2 : Run wH wG (some []) 1 anchorS [.insertState 2 st1, .insertSigned sb1] m2 := by
  have r1 := run0.step (op := .insertSigned sb1) (m' := m1) trivial (by decide +kernel)
  exact r1.step (op := .insertState 2 st1) (m' := m2)
    ⟨by decide +kernel, ⟨sb1, .inl (by simp), by decide +kernel⟩,
      ⟨anchorS, by decide +kernel, vc1⟩, .inl (by decide +kernel)⟩ (by decide +kernel)

theorem runA : Run wH wG (some []) 1 anchorS opsA m3' := by
  refine run2.step (op := .updateCheckpoints 2 none none) (m' := m3') ?_ (by decide +kernel)
  refine .up (hd := sb1.block.header wH) (pd := anchorS.latestBlockHeader) (by decide +kernel)
    (by decide +kernel) (by decide +kernel) ?_
  exact .self (hd := anchorS.latestBlockHeader) (by decide +kernel)

theorem runB : Run wH wG (some []) 1 anchorS opsB m6' := by
  have r4 := runA.step (op := .insertSigned sbF) (m' := m4') trivial (by decide +kernel)
  have vcF : ValidChild wH anchorS stF := by
    refine ⟨?_, ?_, ?_, ?_, ?_, ?_⟩ <;> decide +kernel
  have r5 := r4.step (op := .insertState 3 stF) (m' := m5')
    ⟨by decide +kernel, ⟨sbF, .inl (by simp), by decide +kernel⟩,
      ⟨anchorS, by decide +kernel, vcF⟩, .inl (by decide +kernel)⟩ (by decide +kernel)
  refine r5.step (op := .updateCheckpoints 3 none none) (m' := m6') ?_ (by decide +kernel)
  refine .up (hd := sbF.block.header wH) (pd := anchorS.latestBlockHeader) (by decide +kernel)
    (by decide +kernel) (by decide +kernel) ?_
  exact .self (hd := anchorS.latestBlockHeader) (by decide +kernel)

def ops6 : List Op := [.updateCheckpoints 3 none none, .insertState 3 st2, .insertSigned sb2, .readState 1,
  .insertState 2 st1, .insertSigned sb1]

theorem run6 : Run wH wG (some []) 1 anchorS ops6 m6 := by
  have r3 := run2.step (op := .readState 1) (m' := m3) trivial (by decide +kernel)
  have r4 := r3.step (op := .insertSigned sb2) (m' := m4) trivial (by decide +kernel)
  have r5 := r4.step (op := .insertState 3 st2) (m' := m5)
    ⟨by decide +kernel, ⟨sb2, .inl (by simp), by decide +kernel⟩,
      ⟨st1, by decide +kernel, vc2⟩, .inl (by decide +kernel)⟩ (by decide +kernel)
  exact r5.step (op := .updateCheckpoints 3 none none) (m' := m6) hanc6 (by decide +kernel)

/-- A block at slot 3 on top of `sb2`. -/
def sb3 : SignedBlock := { block := mkBlock 3 2 [], proof := 44 }
def st3 : State := match importState wH st2 (mkBlock 3 2 []) with
  | .ok s => s
  | .error _ => wG

def m8 : Mem := get! (step wH m7 (.insertSigned sb3))
def m9 : Mem := get! (step wH m8 (.insertState 4 st3))
def m10 : Mem := get! (step wH m9 (.updateCheckpoints 4 none none))

theorem hanc10 : HAnc m9.db.headers 3 4 := by
  refine .up (hd := sb3.block.header wH) (pd := sb2.block.header wH) (by decide +kernel)
    (by decide +kernel) (by decide +kernel) ?_
  exact .self (hd := sb2.block.header wH) (by decide +kernel)

/-- The witness run, whose last call is a restart, and a third block. -/
theorem run10 : Run wH wG (some []) 1 anchorS
    ([.updateCheckpoints 4 none none, .insertState 4 st3, .insertSigned sb3] ++ Verif.Db.Witness.ops) m10 := by
  have r8 := run7.step (op := .insertSigned sb3) (m' := m8) trivial (by decide +kernel)
  have vc3 : ValidChild wH st2 st3 := by
    refine ⟨?_, ?_, ?_, ?_, ?_, ?_⟩ <;> decide +kernel
  have r9 := r8.step (op := .insertState 4 st3) (m' := m9)
    ⟨by decide +kernel, ⟨sb3, .inl (by simp), by decide +kernel⟩,
      ⟨st2, by decide +kernel, vc3⟩, .inl (by decide +kernel)⟩ (by decide +kernel)
  refine r9.step (op := .updateCheckpoints 4 none none) (m' := m10) ?_ (by decide +kernel)
  refine .trans (hanc6.mono (fun r h e => ?_)) hanc10
  have k : ∀ x ∈ m5.db.headers, m9.db.headers.get? x.1 = some x.2 := by decide +kernel
  exact k (r, h) (AMap.mem_of_get? e)

/-- All writes between `k - 1` and `k`. -/
theorem moments_two {oA later : List Op} {mA mB : Mem} (k : Nat) (hA : Run wH wG (some []) 1 anchorS oA mA)
    (hB : Run wH wG (some []) 1 anchorS (later ++ oA) mB) (hc : CollisionFree wH anchorS (later ++ oA)) :
    Moments wH wG (some []) 1 anchorS (fun i => if i < k then mA.db else mB.db)
      (fun i => if i < k then oA else later ++ oA) (fun i => if i < k then mA else mB) := by
  have hcA : CollisionFree wH anchorS oA := fun a b ha hb => hc a b (seen_later later ha) (seen_later later hb)
  refine ⟨fun i => ?_, fun i => ?_, fun i => ?_, fun i => ?_⟩
  · by_cases h : i < k <;> simp only [h, if_true, if_false] <;> assumption
  · by_cases h : i < k
    · by_cases h' : i + 1 < k
      · exact ⟨[], by simp only [h, h', if_true]; rfl⟩
      · exact ⟨later, by simp only [h, h', if_true, if_false]⟩
    · have h' : ¬ i + 1 < k := by omega
      exact ⟨[], by simp only [h, h', if_false]; rfl⟩
  · by_cases h : i < k <;> simp only [h, if_true, if_false] <;> assumption
  · by_cases h : i < k <;> simp only [h, if_true, if_false]

end Witness

open Witness Verif.Witness Verif.Db.Witness in
/-- **C111, not so in general (F41).** If the head moves to another branch between two reads, the answer can mix
the branches: here two blocks that are not linked, an answer that no single moment would give. -/
theorem C111_mixed : ∃ (see : Nat → Db) (ops : Nat → List Op) (m : Nat → Mem) (x y : SignedBlock),
    Moments wH wG (some []) 1 anchorS see ops m ∧ answerSeen wH see 1 2 = some [x, y] ∧
    y.block.parentRoot ≠ x.block.root wH ∧ ∀ i, Serve.answerRange wH (see i) 1 2 ≠ some [x, y] := by
  refine ⟨_, _, _, sb1, sbF, moments_two 4 runA runB (collisionFree_of_list (by decide +kernel)),
    by decide +kernel, by decide +kernel, fun i => ?_⟩
  by_cases h : i < 4 <;> simp only [h, if_true, if_false] <;> decide +kernel

open Witness Verif.Witness Verif.Db.Witness in
/-- **C111, not so in general (F41).** Without any change of branch: blocks that arrive while a range past the head
is read leave a hole. Here the answer for slots 1 and 2 has block 2 and not its parent, block 1, although the node
has it and would serve it at the last moment. -/
theorem C111_hole : ∃ (see : Nat → Db) (ops : Nat → List Op) (m : Nat → Mem) (x y : SignedBlock),
    Moments wH wG (some []) 1 anchorS see ops m ∧ NoReorg see ∧ answerSeen wH see 1 2 = some [y] ∧
    y.block.parentRoot = x.block.root wH ∧ Serve.answerRange wH (see 4) 1 2 = some [x, y] := by
  refine ⟨_, _, _, sb1, sb2, moments_two 4 run0 (later := ops6) run6 (collisionFree_of_list (by decide +kernel)), ?_,
    by decide +kernel, by decide +kernel, by decide +kernel⟩
  intro i
  by_cases h : i < 4
  · by_cases h' : i + 1 < 4
    · simp only [h, h', if_true]
      exact .self (hd := anchorS.latestBlockHeader) (by decide +kernel)
    · simp only [h, h', if_true, if_false]
      exact (show HAnc m5.db.headers 1 3 from hanc6)
  · have h' : ¬ i + 1 < 4 := by omega
    simp only [h, h', if_false]
    exact .self (hd := sb2.block.header wH) (by decide +kernel)

open Witness Verif.Witness Verif.Db.Witness in
/-- Non-vacuity: a third block is imported after the first read. The range up to the first head is linked, the
status names the new head, and the state of block 2 is rebuilt from its diffs with an empty cache. -/
theorem C111_instance : ∃ (see : Nat → Db) (ops : Nat → List Op) (m : Nat → Mem),
    Moments wH wG (some []) 1 anchorS see ops m ∧ NoReorg see ∧
    (∃ h0, (see 0).headers.get? (see 0).head = some h0 ∧ 2 ≤ h0.slot) ∧
    rangeSeen wH see 1 2 = [sb1, sb2] ∧
    (∀ n r i, 1 ≤ n → n ≤ 2 → (see i).blockRoots.get? n = some r →
      blockSeen wH (see (i + 1)) (see (i + 2)) (see (i + 3)) r ≠ none) ∧
    statusSeen see = .ok ⟨⟨1, 0⟩, ⟨4, 3⟩⟩ ∧
    (m 0).cache = [] ∧ (see 0).states.get? 3 = none ∧ (∃ mm, getState (m 0) 3 = .ok (some st2, mm)) ∧
    stateSeen 3 (m 0).cache see 3 = .ok (some st2) := by
  have M := moments_two 1 run7 run10 (collisionFree_of_list (by decide +kernel))
  refine ⟨_, _, _, M, ?_, ⟨sb2.block.header wH, by decide +kernel, by decide +kernel⟩, by decide +kernel, ?_,
    by decide +kernel, by decide +kernel, by decide +kernel, ⟨get! ((getState m7 3).map (·.2)), by decide +kernel⟩,
    by decide +kernel⟩
  · intro i
    by_cases h : i < 1
    · have h' : ¬ i + 1 < 1 := by omega
      simp only [h, h', if_true, if_false]
      exact (show HAnc m9.db.headers 3 4 from hanc10)
    · have h' : ¬ i + 1 < 1 := by omega
      simp only [h, h', if_false]
      exact .self (hd := sb3.block.header wH) (by decide +kernel)
  · intro n r i h1 h2 he
    have k1 : ¬ i + 1 < 1 := by omega
    have k2 : ¬ i + 2 < 1 := by omega
    have k3 : ¬ i + 3 < 1 := by omega
    simp only [k1, k2, k3, if_false]
    have hn : n = 1 ∨ n = 2 := by omega
    have e1 : ∀ i, (if i < 1 then m7.db else m10.db).blockRoots.get? n = some (n + 1) := by
      intro i
      by_cases h : i < 1 <;> simp only [h, if_true, if_false] <;> rcases hn with rfl | rfl <;> decide +kernel
    rw [e1 i] at he
    cases he
    rcases hn with rfl | rfl <;> decide +kernel

/-- A reader of a store that is left alone; so `C111_node` applies to every node that can be reached. -/
theorem moments_const {o : List Op} {mm : Mem} (h : Run H a0 body root anchor o mm)
    (hc : CollisionFree H anchor o) :
    Moments H a0 body root anchor (fun _ => mm.db) (fun _ => o) (fun _ => mm) :=
  ⟨fun _ => h, fun _ => ⟨[], rfl⟩, fun _ => hc, fun _ => rfl⟩

namespace Witness
open Verif.Db.Witness Verif.Witness

/-- A block at the first slot with a snapshot. -/
def sbS : SignedBlock := { block := mkBlock 1024 0 [], proof := 55 }
def stS : State := match importState wH anchorS (mkBlock 1024 0 []) with
  | .ok s => s
  | .error _ => wG
def mS1 : Mem := get! (step wH m0 (.insertSigned sbS))
def mS2 : Mem := get! (step wH mS1 (.insertState 1025 stS))

theorem runS1 : Run wH wG (some []) 1 anchorS [.insertSigned sbS] mS1 :=
  run0.step (op := .insertSigned sbS) (m' := mS1) trivial (by decide +kernel)

theorem runS2 : Run wH wG (some []) 1 anchorS ([.insertState 1025 stS] ++ [.insertSigned sbS]) mS2 := by
  have vc : ValidChild wH anchorS stS := by
    refine ⟨?_, ?_, ?_, ?_, ?_, ?_⟩ <;> decide +kernel
  exact runS1.step (op := .insertState 1025 stS) (m' := mS2)
    ⟨by decide +kernel, ⟨sbS, .inl (by simp), by decide +kernel⟩,
      ⟨anchorS, by decide +kernel, vc⟩, .inl (by decide +kernel)⟩ (by decide +kernel)

end Witness

open Witness Verif.Witness Verif.Db.Witness in
/-- The hypothesis of `C111_state` that the state is there at the beginning is needed: a reader that asks for a
state just when it is being stored, and it is stored as a snapshot, panics (`reconstruct` without diffs). The
tasks of the node only ask for states of the head and of finalized blocks, which are there. -/
theorem C111_unborn : ∃ (see : Nat → Db) (ops : Nat → List Op) (m : Nat → Mem),
    Moments wH wG (some []) 1 anchorS see ops m ∧ stateSeen 2000 (m 0).cache see 1025 = .error 1375 := by
  exact ⟨_, _, _, moments_two 1 runS1 runS2 (collisionFree_of_list (by decide +kernel)), by decide +kernel⟩

end Verif.Race
