import Verif.Spec.Race
import Verif.Props.C28_Index
/-!
# Lemmas about reads that race with writes
-/
namespace Verif.Race
open Verif Verif.Db

variable {H : Hash} {a0 : State} {body : Option (List AggAtt)} {root : Root} {anchor : State}
  {see : Nat → Db} {ops : Nat → List Op} {m : Nat → Mem}

theorem stored_later {h : Header} {o : List Op} : ∀ later : List Op, stored H o h → stored H (later ++ o) h
  | [], hs => hs
  | _ :: l, hs => stored_cons (stored_later l hs)

theorem seen_later {h : Header} {o : List Op} (later : List Op) (hs : seen H anchor o h) :
    seen H anchor (later ++ o) h := hs.imp_right (stored_later later)

/-- Along a run the state of a block is never replaced by a different one. -/
theorem stateOf_later {o : List Op} {r : Root} {st : State} : ∀ (later : List Op) {mm : Mem},
    Run H a0 body root anchor (later ++ o) mm → stateOf root anchor o r = some st →
    stateOf root anchor (later ++ o) r = some st
  | [], _, _, hs => hs
  | op :: l, _, h, hs => by
    cases h with
    | step h' ha _ =>
      have ih := stateOf_later l h' hs
      cases op with
      | insertState rt s =>
        show (if r = rt then some s else stateOf root anchor (l ++ o) r) = some st
        split
        next e =>
          subst e
          have hn : stateOf root anchor (l ++ o) r = none ∨ stateOf root anchor (l ++ o) r = some s :=
            ha.2.2.2
          rcases hn with hn | hn
          · rw [ih] at hn; cases hn
          · rw [← hn, ih]
        next => exact ih
      | _ => exact ih

namespace Moments

theorem grow' (M : Moments H a0 body root anchor see ops m) {i j : Nat} (hij : i ≤ j) :
    ∃ later, ops j = later ++ ops i := by
  induction j with
  | zero => obtain rfl : i = 0 := by omega
            exact ⟨[], rfl⟩
  | succ j ih =>
    by_cases e : i = j + 1
    · exact ⟨[], by rw [e]; rfl⟩
    · obtain ⟨l, hl⟩ := ih (by omega)
      obtain ⟨l', hl'⟩ := M.grow j
      exact ⟨l' ++ l, by rw [hl', hl, List.append_assoc]⟩

theorem inv (M : Moments H a0 body root anchor see ops m) (i : Nat) :
    RunInv H root anchor (ops i) (m i) := run_inv (M.run i) (M.apart i)

theorem headers (M : Moments H a0 body root anchor see ops m) (i : Nat) :
    (see i).headers = (m i).db.headers := by rw [M.see i]
theorem states (M : Moments H a0 body root anchor see ops m) (i : Nat) :
    (see i).states = (m i).db.states := by rw [M.see i]
theorem diffs (M : Moments H a0 body root anchor see ops m) (i : Nat) :
    (see i).diffs = (m i).db.diffs := by rw [M.see i]
theorem bodies (M : Moments H a0 body root anchor see ops m) (i : Nat) :
    (see i).bodies = (m i).db.bodies := by rw [M.see i]
theorem proofs (M : Moments H a0 body root anchor see ops m) (i : Nat) :
    (see i).proofs = (m i).db.proofs := by rw [M.see i]
theorem blockRoots (M : Moments H a0 body root anchor see ops m) (i : Nat) :
    (see i).blockRoots = (m i).db.blockRoots := by rw [M.see i]
theorem head (M : Moments H a0 body root anchor see ops m) (i : Nat) :
    (see i).head = (m i).db.head := by rw [M.see i]

/-- Headers stay. -/
theorem hdr (M : Moments H a0 body root anchor see ops m) {i j : Nat} (hij : i ≤ j) {r : Root} {h : Header}
    (e : (see i).headers.get? r = some h) : (see j).headers.get? r = some h := by
  rw [M.headers] at e ⊢
  obtain ⟨l, hl⟩ := M.grow' hij
  have J := M.inv i
  have J' := M.inv j
  have hr := J.repr.hdr r h e
  rcases J.seen r h e with rfl | hst
  · rw [← hr, J'.anchorRoot]; exact J'.anchorHdr
  · rw [← hr]; exact J'.stored _ (by rw [hl]; exact stored_later l hst)

theorem anc (M : Moments H a0 body root anchor see ops m) {i j : Nat} (hij : i ≤ j) {r x : Root}
    (e : HAnc (see i).headers r x) : HAnc (see j).headers r x :=
  e.mono (fun _ _ h => M.hdr hij h)

/-- States stay what they are. -/
theorem state (M : Moments H a0 body root anchor see ops m) {i j : Nat} (hij : i ≤ j) {r : Root} {st : State}
    (e : stateOf root anchor (ops i) r = some st) : stateOf root anchor (ops j) r = some st := by
  obtain ⟨l, hl⟩ := M.grow' hij
  have := M.run j
  rw [hl] at this ⊢
  exact stateOf_later l this e

end Moments

theorem getState_tables {mm mm' : Mem} {r : Root} {x : Option State} (h : getState mm r = .ok (x, mm')) :
    mm'.db = mm.db := by
  unfold getState at h
  split at h
  · cases h; rfl
  · split at h
    · cases h; rfl
    · split at h
      · cases h
      · cases h; rfl
      · cases h; rfl

/-- Every state but the anchor's has a diff row; the anchor's row stays. -/
theorem run_rows {o : List Op} {mm : Mem} (h : Run H a0 body root anchor o mm)
    (hc : CollisionFree H anchor o) :
    (mm.db.states.get? root).isSome = true ∧
      ∀ r st, stateOf root anchor o r = some st → r ≠ root → (mm.db.diffs.get? r).isSome = true := by
  induction h with
  | init hi hs =>
    refine ⟨by rw [hs]; simp [AMap.get?_cons], fun r st e hne => ?_⟩
    simp only [stateOf] at e
    rw [if_neg hne] at e
    cases e
  | step h' ha he ih =>
    next root anchor o mm op m' =>
    obtain ⟨i1, i2⟩ := ih hc.tail
    have key : ∀ {db' : Db}, m'.db = db' → db'.states = mm.db.states → db'.diffs = mm.db.diffs →
        (∀ r, stateOf root anchor (op :: o) r = stateOf root anchor o r) →
        (m'.db.states.get? root).isSome = true ∧ ∀ r st, stateOf root anchor (op :: o) r = some st →
          r ≠ root → (m'.db.diffs.get? r).isSome = true := by
      intro db' e1 e2 e3 e4
      rw [e1, e2, e3]
      exact ⟨i1, fun r st e hne => i2 r st (by rw [← e4]; exact e) hne⟩
    cases op with
    | insertPending sb => cases he; exact key rfl rfl rfl (fun _ => rfl)
    | insertSigned sb => cases he; exact key rfl rfl rfl (fun _ => rfl)
    | insertState r st =>
      have he : insertState H mm r st = .ok m' := he
      unfold insertState at he
      split at he
      · cases he
      · cases he
      next p m2 hg =>
        have hdb := getState_tables hg
        simp only at he
        split at he
        · cases he
        next d hd =>
          cases he
          refine ⟨?_, fun x s e hne => ?_⟩
          · show (AMap.get? (if _ then _ else _) root).isSome = true
            rw [hdb]
            split
            · rw [AMap.get?_insert]
              split
              · rfl
              · exact i1
            · exact i1
          · show (AMap.get? (m2.db.diffs.insert r d) x).isSome = true
            rw [AMap.get?_insert, hdb]
            split
            · rfl
            next hne' =>
              refine i2 x s ?_ hne
              have e : (if x = r then some st else stateOf root anchor o x) = some s := e
              rw [if_neg (fun e => hne' e.symm)] at e
              exact e
    | readState r =>
      have he : (match getState mm r with | .error e => .error e | .ok (_, m) => .ok m : P Mem)
        = .ok m' := he
      split at he
      · cases he
      next hg => cases he; exact key (getState_tables hg) rfl rfl (fun _ => rfl)
    | checkpointBatch h j f =>
      have hs : (match checkpointBatch mm.db h j f with
        | .error e => .error e | .ok db => .ok { mm with db := db } : P Mem) = .ok m' := he
      split at hs
      · cases hs
      next db2 e =>
        cases hs
        obtain ⟨db', e', rfl⟩ := checkpointBatch_of e
        obtain ⟨h1, h2, h3, -⟩ := updateCheckpoints_frame e'
        exact key rfl h2 h3 (fun _ => rfl)
    | updateCheckpoints h j f =>
      have hs : (match updateCheckpoints mm.db h j f with
        | .error e => .error e | .ok db => .ok { mm with db := db } : P Mem) = .ok m' := he
      split at hs
      · cases hs
      next db' e =>
        cases hs
        obtain ⟨h1, h2, h3, -⟩ := updateCheckpoints_frame e
        exact key rfl h2 h3 (fun _ => rfl)
    | setSafeTarget r => cases he; exact key rfl rfl rfl (fun _ => rfl)
    | setTime t => cases he; exact key rfl rfl rfl (fun _ => rfl)
    | pruneOldData =>
      have hs : (match pruneOldData mm.db with
        | .error e => .error e | .ok db => .ok { mm with db := db } : P Mem) = .ok m' := he
      split at hs
      · cases hs
      next db' e =>
        cases hs
        obtain ⟨h1, h2, h3, -⟩ := pruneOldData_frame e
        exact key rfl h2 h3 (fun _ => rfl)
    | restart => cases he; exact key rfl rfl rfl (fun _ => rfl)

/-- A snapshot row other than the anchor's belongs to a state that crosses a snapshot boundary. -/
theorem run_snaps {o : List Op} {mm : Mem} (h : Run H a0 body root anchor o mm)
    (hc : CollisionFree H anchor o) :
    ∀ r st, mm.db.states.get? r = some st → r ≠ root → ∃ p,
      stateOf root anchor o st.latestBlockHeader.parentRoot = some p ∧
        st.slot / snapshotAnchorInterval > p.slot / snapshotAnchorInterval := by
  induction h with
  | init hi hs =>
    intro r st e hne
    rw [hs] at e
    simp only [AMap.get?_cons, AMap.get?_nil] at e
    rw [if_neg (fun e => hne e.symm)] at e
    cases e
  | step h' ha he ih =>
    next root anchor o mm op m' =>
    have i1 := ih hc.tail
    have key : ∀ {db' : Db}, m'.db = db' → db'.states = mm.db.states → db'.diffs = mm.db.diffs →
        (∀ r, stateOf root anchor (op :: o) r = stateOf root anchor o r) →
        ∀ r st, m'.db.states.get? r = some st → r ≠ root → ∃ p,
          stateOf root anchor (op :: o) st.latestBlockHeader.parentRoot = some p ∧
            st.slot / snapshotAnchorInterval > p.slot / snapshotAnchorInterval := by
      intro db' e1 e2 _ e4 r st e hne
      rw [e1, e2] at e
      obtain ⟨p, h1, h2⟩ := i1 r st e hne
      exact ⟨p, by rw [e4]; exact h1, h2⟩
    cases op with
    | insertPending sb => cases he; exact key rfl rfl rfl (fun _ => rfl)
    | insertSigned sb => cases he; exact key rfl rfl rfl (fun _ => rfl)
    | insertState r st =>
      have hlater : ∀ x s, stateOf root anchor o x = some s →
          stateOf root anchor (.insertState r st :: o) x = some s := by
        intro x s e
        exact stateOf_later [.insertState r st] (h'.step ha he) e
      have he : insertState H mm r st = .ok m' := he
      unfold insertState at he
      split at he
      · cases he
      · cases he
      next p m2 hg =>
        have hdb := getState_tables hg
        obtain ⟨c, hg', -⟩ := getState_repr (run_inv h' hc.tail).repr st.latestBlockHeader.parentRoot
        rw [hg] at hg'
        have hp := (Prod.mk.inj (Except.ok.inj hg')).1
        simp only at he
        split at he
        · cases he
        next d hd =>
          cases he
          intro x s e hne
          have e : (if decide (st.slot / snapshotAnchorInterval > p.slot / snapshotAnchorInterval) = true then
            m2.db.states.insert r st else m2.db.states).get? x = some s := e
          rw [hdb] at e
          have old : mm.db.states.get? x = some s → ∃ p,
              stateOf root anchor (.insertState r st :: o) s.latestBlockHeader.parentRoot = some p ∧
                s.slot / snapshotAnchorInterval > p.slot / snapshotAnchorInterval := by
            intro e
            obtain ⟨p, h1, h2⟩ := i1 x s e hne
            exact ⟨p, hlater _ _ h1, h2⟩
          split at e
          next hgt =>
            rw [AMap.get?_insert] at e
            split at e
            · cases e
              exact ⟨p, hlater _ _ hp.symm, of_decide_eq_true hgt⟩
            · exact old e
          · exact old e
    | readState r =>
      have he : (match getState mm r with | .error e => .error e | .ok (_, m) => .ok m : P Mem)
        = .ok m' := he
      split at he
      · cases he
      next hg => cases he; exact key (getState_tables hg) rfl rfl (fun _ => rfl)
    | checkpointBatch h j f =>
      have hs : (match checkpointBatch mm.db h j f with
        | .error e => .error e | .ok db => .ok { mm with db := db } : P Mem) = .ok m' := he
      split at hs
      · cases hs
      next db2 e =>
        cases hs
        obtain ⟨db', e', rfl⟩ := checkpointBatch_of e
        obtain ⟨h1, h2, h3, -⟩ := updateCheckpoints_frame e'
        exact key rfl h2 h3 (fun _ => rfl)
    | updateCheckpoints h j f =>
      have hs : (match updateCheckpoints mm.db h j f with
        | .error e => .error e | .ok db => .ok { mm with db := db } : P Mem) = .ok m' := he
      split at hs
      · cases hs
      next db' e =>
        cases hs
        obtain ⟨h1, h2, h3, -⟩ := updateCheckpoints_frame e
        exact key rfl h2 h3 (fun _ => rfl)
    | setSafeTarget r => cases he; exact key rfl rfl rfl (fun _ => rfl)
    | setTime t => cases he; exact key rfl rfl rfl (fun _ => rfl)
    | pruneOldData =>
      have hs : (match pruneOldData mm.db with
        | .error e => .error e | .ok db => .ok { mm with db := db } : P Mem) = .ok m' := he
      split at hs
      · cases hs
      next db' e =>
        cases hs
        obtain ⟨h1, h2, h3, -⟩ := pruneOldData_frame e
        exact key rfl h2 h3 (fun _ => rfl)
    | restart => cases he; exact key rfl rfl rfl (fun _ => rfl)

/-- A state without a snapshot row does not get one later. -/
theorem noSnap_later (M : Moments H a0 body root anchor see ops m) {i j : Nat} (hij : i ≤ j) {r : Root}
    {st : State} (h : stateOf root anchor (ops i) r = some st) (hn : (see i).states.get? r = none) :
    (see j).states.get? r = none := by
  have hne : r ≠ root := by
    rintro rfl
    have := (run_rows (M.run i) (M.apart i)).1
    rw [← M.states, hn] at this
    cases this
  cases hs : (see j).states.get? r with
  | none => rfl
  | some s =>
    exfalso
    rw [M.states] at hs hn
    have := (M.inv j).repr.snap r s hs
    rw [M.state hij h] at this
    cases this
    obtain ⟨p, h1, h2⟩ := run_snaps (M.run j) (M.apart j) r st hs hne
    obtain ⟨d, hd⟩ := Option.isSome_iff_exists.1 ((run_rows (M.run i) (M.apart i)).2 r st h hne)
    obtain ⟨st', p', k1, k2, -, -, k3⟩ := (M.inv i).repr.diff r d hd
    rw [h] at k1
    cases k1
    have := M.state hij k2
    rw [h1] at this
    cases this
    have := k3 hn
    omega

/-- A racing walk ends at a snapshot from which the collected diffs lead to the state. -/
theorem walkSeen_leads (M : Moments H a0 body root anchor see ops m) :
    ∀ (fuel i : Nat) (r : Root) (st : State) (acc : List StateDiff), stateOf root anchor (ops i) r = some st →
      st.slot + 1 ≤ fuel → ∃ snap ds j, walkSeen see fuel i r acc = .ok (some (snap, ds ++ acc, j)) ∧
        i ≤ j ∧ Leads snap ds st ∧ ((see i).states.get? r = none → ds ≠ []) := by
  intro fuel
  induction fuel with
  | zero => intro i r st acc _ hf; omega
  | succ fuel ih =>
    intro i r st acc hG hf
    unfold walkSeen
    cases hs : (see i).states.get? r with
    | some snap =>
      have := (M.inv i).repr.snap r snap (by rw [← M.states]; exact hs)
      rw [hG] at this
      cases this
      exact ⟨st, [], i + 1, rfl, by omega, .refl _, fun e => by cases e⟩
    | none =>
      have hG' := M.state (Nat.le_succ i) hG
      have hne : r ≠ root := by
        rintro rfl
        have := (run_rows (M.run i) (M.apart i)).1
        rw [← M.states, hs] at this
        cases this
      obtain ⟨d, hd⟩ := Option.isSome_iff_exists.1 ((run_rows (M.run (i + 1)) (M.apart _)).2 r st hG' hne)
      obtain ⟨st', p, h1, h2, h3, rfl, -⟩ := (M.inv (i + 1)).repr.diff r d hd
      rw [hG'] at h1
      cases h1
      rw [← M.diffs] at hd
      simp only [hd]
      have hlt := h3.slot
      obtain ⟨snap, ds, j, hw, hj, hl, -⟩ := ih (i + 2) st.latestBlockHeader.parentRoot p
        (diffOf H p st :: acc) (M.state (Nat.le_succ _) h2) (by omega)
      refine ⟨snap, ds ++ [diffOf H p st], j, ?_, by omega, hl.snoc h3, by simp⟩
      have hb : (diffOf H p st).baseRoot = st.latestBlockHeader.parentRoot := h3.parent.symm
      rw [hb, hw]
      simp

/-- A block read at three moments has the root it was read for, and its header is the stored one. -/
theorem blockSeen_root (M : Moments H a0 body root anchor see ops m)
    (hb : ∀ b, body = some b → H.body b = anchor.latestBlockHeader.bodyRoot) {i j k : Nat} (hij : i ≤ j)
    {r : Root} {x : SignedBlock} (hx : blockSeen H (see i) (see j) (see k) r = some x) :
    x.block.root H = r ∧ (see i).headers.get? r = some (x.block.header H) := by
  have B := run_blocks (M.run j)
  unfold blockSeen at hx
  split at hx
  · cases hx
  next hd hh =>
    have hh' := M.hdr hij hh
    rw [M.headers] at hh'
    simp only at hx
    split at hx
    · cases hx
    next b hbb =>
      have hbody : H.body b = hd.bodyRoot := by
        split at hbb
        next e => cases hbb; exact e.symm
        next e =>
          rw [M.bodies] at hbb
          cases hl : lastBlock H (ops j) r with
          | some sb =>
            have e1 := B.hdr r sb hl
            rw [hh'] at e1
            cases e1
            have e2 := B.bodyTab r sb hl e
            rw [hbb] at e2
            cases e2
            rfl
          | none =>
            by_cases hr : r = root
            · subst hr
              obtain ⟨e1, e2⟩ := B.anchorHdr hl
              rw [hh'] at e1
              cases e1
              rw [hbb] at e2
              exact hb b e2.symm
            · rw [B.absent r hl hr] at hh'; cases hh'
      have hblk : x.block = fromHeaderAndBody hd b := by
        split at hx
        · cases hx; rfl
        · split at hx
          · cases hx; rfl
          · cases hx
      have hhd : x.block.header H = hd := by
        rw [hblk]
        show Header.mk hd.slot hd.proposerIndex hd.parentRoot hd.stateRoot (H.body b) = hd
        rw [hbody]
      refine ⟨?_, by rw [hhd]; exact hh⟩
      rw [root_eq, hhd]
      exact (M.inv j).repr.hdr r hd hh'

end Verif.Race
