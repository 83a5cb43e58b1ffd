import Verif.Lemmas.StoreFrame
import Verif.Spec.StoreWitness
/-!
# C33: importing a block twice, or a bad block
-/
namespace Verif.Node
open Verif Verif.Db

/-- Everything about a store that can be observed: the whole database, the votes and the buffers.
Only the cache of states is left out. -/
def SameStore (a b : Store) : Prop :=
  a.mem.db = b.mem.db ∧ a.fc = b.fc ∧ a.newP = b.newP ∧ a.knownP = b.knownP ∧
    a.gossip = b.gossip ∧ a.genesisTime = b.genesisTime

theorem hasState_congr {db db' : Db} (h1 : db'.states = db.states) (h2 : db'.diffs = db.diffs)
    (r : Root) : hasState db' r = hasState db r := by
  unfold hasState; rw [h1, h2]

theorem putState_hasState {H : Hash} {s s' : Store} {r : Root} {st : State}
    (h : putState H s r st = .ok s') : hasState s'.mem.db r = true := by
  unfold putState at h
  split at h
  · cases h
  next m hm =>
    cases h
    unfold Db.insertState at hm
    split at hm
    · cases hm
    · cases hm
    · simp only at hm
      split at hm
      · cases hm
      · cases hm
        unfold hasState
        simp [AMap.get?_insert]

theorem commitBlock_split {H : Hash} {s s' : Store} {sb : SignedBlock} {st : State}
    (h : commitBlock H s sb st = .ok s') :
    ∃ s1 s2, raiseJustified s st = .ok s1 ∧
      putState H (insertSigned H s1 (sb.block.root H) sb) (sb.block.root H) st = .ok s2 ∧
      updateHead s2 = .ok s' := by
  unfold commitBlock at h
  split at h
  · cases h
  next s1 h1 =>
    simp only at h
    split at h
    · cases h
    next s2 h2 => exact ⟨s1, s2, h1, h2, h⟩

/-- **C33.** A block already imported is accepted without any effect. -/
theorem C33_reimport_noop (E : Env) (s : Store) (sb : SignedBlock)
    (h : hasState s.mem.db (sb.block.root E.H) = true) : onBlock E s sb = .ok (s, .ok ()) := by
  unfold onBlock
  rw [if_pos h]

/-- **C33.** Importing the same block (or one with the same root) again right after a successful
import changes nothing. -/
theorem C33_idempotent {E : Env} {s s' : Store} {sb sb' : SignedBlock}
    (h : onBlock E s sb = .ok (s', .ok ())) (hr : sb'.block.root E.H = sb.block.root E.H) :
    hasState s'.mem.db (sb.block.root E.H) = true ∧ onBlock E s' sb' = .ok (s', .ok ()) := by
  have key : hasState s'.mem.db (sb.block.root E.H) = true := by
    unfold onBlock at h
    split at h
    next hs => cases h; exact hs
    · split at h
      · cases h
      · cases h
      · split at h
        · cases h
        · split at h
          · cases h
          next s2 hc =>
            cases h
            obtain ⟨t1, t2, -, h2, h3⟩ := commitBlock_split hc
            have hf := updateHead_frame h3
            rw [hasState_congr hf.2.2.2.2.1 hf.2.2.2.2.2.1]
            exact putState_hasState h2
  exact ⟨key, C33_reimport_noop E s' sb' (by rw [hr]; exact key)⟩

/-- **C33.** A rejected block leaves the database, the votes and the buffers exactly as they were. -/
theorem C33_failed_import_noop {E : Env} {s s' : Store} {sb : SignedBlock} {e : Err}
    (h : onBlock E s sb = .ok (s', .error e)) : SameStore s' s := by
  unfold onBlock at h
  split at h
  · cases h
  · split at h
    · cases h
    next s1 hg =>
      cases h
      exact getState_frame hg
    next p s1 hg =>
      split at h
      · cases h; exact getState_frame hg
      · split at h
        · cases h
        · cases h

/-- **C33.** A block is imported only if its parent's state is there, its slot is at most one ahead
of the clock, it names each vote once and at most eight votes, its signatures verify and the state
transition accepts it. -/
theorem C33_accepted_only_if {E : Env} {s s' : Store} {sb : SignedBlock}
    (h : onBlock E s sb = .ok (s', .ok ()))
    (hnew : hasState s.mem.db (sb.block.root E.H) = false) :
    ∃ parent post m', Db.getState s.mem sb.block.parentRoot = .ok (some parent, m') ∧
      importState E.H parent sb.block = .ok post ∧ E.verifyBlock parent sb = true ∧
      sb.block.slot ≤ s.mem.db.time / 5 + 1 ∧ (sb.block.body.map AggAtt.data).Nodup ∧
      sb.block.body.length ≤ 8 := by
  have dup : ∀ l : List AttData, ¬ hasDuplicate l = true → l.Nodup := by
    intro l
    induction l with
    | nil => intro _; exact List.nodup_nil
    | cons d l ih =>
      intro hd
      simp only [hasDuplicate, Bool.or_eq_true, not_or] at hd
      refine List.nodup_cons.2 ⟨?_, ih hd.2⟩
      intro hm
      exact hd.1 (by simpa using hm)
  unfold onBlock at h
  rw [if_neg (by rw [hnew]; decide)] at h
  cases hg : s.getState sb.block.parentRoot with
  | error e => rw [hg] at h; cases h
  | ok q =>
    obtain ⟨x, s1⟩ := q
    rw [hg] at h
    cases x with
    | none => cases h
    | some parent =>
      simp only at h
      have hdb := (getState_frame hg).1
      unfold Store.getState at hg
      split at hg
      · cases hg
      next x' m1 hm =>
        cases hg
        split at h
        · cases h
        next post hc =>
          unfold checkBlock at hc
          split at hc
          · cases hc
          split at hc
          · cases hc
          next h2 =>
          split at hc
          · cases hc
          next h3 =>
          split at hc
          · cases hc
          next h4 =>
          split at hc
          · cases hc
          next h5 =>
          split at hc
          · cases hc
          next st hst =>
            cases hc
            refine ⟨parent, post, m1, hm, hst, by simpa using h5, ?_, dup _ h3, Nat.le_of_not_gt h4⟩
            have h2 : ¬ sb.block.slot > m1.db.time / 5 + 1 := h2
            have hdb : m1.db = s.mem.db := hdb
            rw [hdb] at h2
            omega

/-- Non-vacuity: block 5 is new to the store of the fork run and is imported; the same block again
changes nothing; a block by the wrong proposer is rejected. -/
example : hasState (Witness.after Witness.forkEvs).mem.db 6 = false ∧
    ((onBlock Witness.wE (Witness.after Witness.forkEvs)
      (Witness.sgn (Verif.Witness.mkBlock 5 3 []))).toOption.map
        (fun x => (x.2.isOk, hasState x.1.mem.db 6))) = some (true, true) ∧
    ((onBlock Witness.wE (Witness.after Witness.forkEvs)
      (Witness.sgn { Verif.Witness.mkBlock 5 3 [] with proposerIndex := 0 })).toOption.map
        (fun x => match x.2 with
          | .error (.stf .invalidProposer) => true
          | _ => false)) = some true := by
  decide +kernel

end Verif.Node
