import Verif.Lemmas.StfState
import Verif.Spec.Witness
/-!
# C11: the post-state does not depend on hash-map iteration order
-/
namespace Verif

/-- An execution of the attestation loop in which the hash map may enumerate its entries in a
different order before every step (`State × Tally` up to permutation of the tally). -/
inductive ShuffledLoop (n : Nat) (rts : Root → Option Nat) :
    List AggAtt → State × Tally → Except StfError (State × Tally) → Prop
  | done {s t t'} : t'.Perm t → ShuffledLoop n rts [] (s, t) (.ok (s, t'))
  | fail {a as s t t' e} : t'.Perm t → attStep n rts (s, t') a = .error e →
      ShuffledLoop n rts (a :: as) (s, t) (.error e)
  | step {a as s t t' st res} : t'.Perm t → attStep n rts (s, t') a = .ok st →
      ShuffledLoop n rts as st res → ShuffledLoop n rts (a :: as) (s, t) res

/-- Attestation processing with an arbitrary map order at every point. -/
def ShuffledProcess (s : State) (atts : List AggAtt) (out : Except StfError State) : Prop :=
  ∃ res, ShuffledLoop s.validators.length
      (rootToSlot s.historicalBlockHashes s.latestFinalized.slot) atts
      (s, unpackTally s.validators.length s.justificationsRoots s.justificationsValidators) res ∧
    out = match res with
      | .error e => .error e
      | .ok (s', t') => serializeJustifications s' t' s.validators.length

theorem Tally.nodup_of_keys {t : Tally} (h : (t.map Prod.fst).Nodup) : t.Nodup :=
  List.Nodup.of_map _ h

theorem Tally.get?_perm {t1 t2 : Tally} (hp : t1.Perm t2) (h : (t1.map Prod.fst).Nodup)
    (r : Root) : t1.get? r = t2.get? r := by
  have h2 : (t2.map Prod.fst).Nodup := (hp.map Prod.fst).nodup_iff.1 h
  cases h1 : t1.get? r with
  | some v => exact (Tally.get?_of_mem h2 (hp.mem_iff.1 (Tally.mem_of_get? h1))).symm
  | none =>
    symm
    rw [Tally.get?_none_iff] at h1 ⊢
    intro hm
    exact h1 ((hp.map Prod.fst).mem_iff.2 hm)

theorem Tally.insert_perm {t1 t2 : Tally} (hp : t1.Perm t2) (h : (t1.map Prod.fst).Nodup)
    (r : Root) (v : List Bool) : (t1.insert r v).Perm (t2.insert r v) := by
  have h2 : (t2.map Prod.fst).Nodup := (hp.map Prod.fst).nodup_iff.1 h
  rw [List.perm_ext_iff_of_nodup (Tally.nodup_of_keys (Tally.nodup_insert h r v))
    (Tally.nodup_of_keys (Tally.nodup_insert h2 r v))]
  intro e
  rw [Tally.mem_insert, Tally.mem_insert, hp.mem_iff]

theorem Tally.erase_perm {t1 t2 : Tally} (hp : t1.Perm t2) (r : Root) :
    (t1.erase r).Perm (t2.erase r) := hp.filter _

/-- Two outcomes that agree up to the order of the tally. -/
def OutEq : Except StfError (State × Tally) → Except StfError (State × Tally) → Prop
  | .error e, .error e' => e = e'
  | .ok st, .ok st' => st.1 = st'.1 ∧ st.2.Perm st'.2 ∧ (st.2.map Prod.fst).Nodup
  | _, _ => False

theorem tryFinalize_perm {s : State} {src tgt : Checkpoint} {t1 t2 : Tally}
    {rts : Root → Option Nat} (hp : t1.Perm t2) (h : (t1.map Prod.fst).Nodup) :
    OutEq (.ok (tryFinalize s src tgt t1 rts)) (.ok (tryFinalize s src tgt t2 rts)) := by
  unfold tryFinalize
  split
  · exact ⟨rfl, hp, h⟩
  · split
    · exact ⟨rfl, hp, h⟩
    · exact ⟨rfl, hp.filter _, Tally.nodup_filter h _⟩

theorem attStep_perm {n : Nat} {rts : Root → Option Nat} {s : State} {t1 t2 : Tally}
    (hp : t1.Perm t2) (h : (t1.map Prod.fst).Nodup) (a : AggAtt) :
    OutEq (attStep n rts (s, t1) a) (attStep n rts (s, t2) a) := by
  unfold attStep
  simp only
  cases isValidVote s a.data with
  | error e => exact rfl
  | ok b =>
    cases b with
    | false => exact ⟨rfl, hp, h⟩
    | true =>
      simp only
      split
      · exact rfl
      split
      · exact rfl
      rw [Tally.get?_perm hp h]
      split
      · split
        · exact rfl
        · exact tryFinalize_perm (Tally.erase_perm (Tally.insert_perm hp h _ _) _)
            (Tally.nodup_erase (Tally.nodup_insert h _ _) _)
      · exact ⟨rfl, Tally.insert_perm hp h _ _, Tally.nodup_insert h _ _⟩

theorem shuffled_loop {n : Nat} {rts : Root → Option Nat} {as : List AggAtt}
    {st : State × Tally} {res : Except StfError (State × Tally)}
    (hr : ShuffledLoop n rts as st res) (t2 : Tally) (hp : st.2.Perm t2)
    (h : (st.2.map Prod.fst).Nodup) :
    OutEq res (attLoop n rts as (st.1, t2)) := by
  induction hr generalizing t2 with
  | done hp' =>
    have hpp := hp'.trans hp
    exact ⟨rfl, hpp, (hp'.map Prod.fst).nodup_iff.2 h⟩
  | @fail a as s t t' e hp' he =>
    have h' : (t'.map Prod.fst).Nodup := (hp'.map Prod.fst).nodup_iff.2 h
    have := attStep_perm (n := n) (rts := rts) (s := s) (hp'.trans hp) h' a
    simp only [attLoop]
    rw [he] at this
    cases h2 : attStep n rts (s, t2) a with
    | ok _ => rw [h2] at this; exact this.elim
    | error e2 => rw [h2] at this; exact this
  | @step a as s t t' st1 res hp' he hrest ih =>
    have h' : (t'.map Prod.fst).Nodup := (hp'.map Prod.fst).nodup_iff.2 h
    have := attStep_perm (n := n) (rts := rts) (s := s) (hp'.trans hp) h' a
    simp only [attLoop]
    rw [he] at this
    cases h2 : attStep n rts (s, t2) a with
    | error e2 => rw [h2] at this; exact this.elim
    | ok st2 =>
      rw [h2] at this
      obtain ⟨e1, e2, e3⟩ := this
      obtain ⟨s2, t2'⟩ := st2
      simp only at e1 e2
      subst e1
      exact ih t2' e2 e3

theorem sortRoots_perm_eq {l1 l2 : List Root} (hp : l1.Perm l2) :
    sortRoots l1 = sortRoots l2 := by
  apply List.Perm.eq_of_pairwise (le := (· ≤ ·))
  · intro a b _ _ h1 h2
    exact Nat.le_antisymm h1 h2
  · exact sortRoots_pairwise _
  · exact sortRoots_pairwise _
  · exact (sortRoots_perm _).trans (hp.trans (sortRoots_perm _).symm)

theorem serialize_perm {s : State} {n : Nat} {t1 t2 : Tally} (hp : t1.Perm t2)
    (h : (t1.map Prod.fst).Nodup) :
    serializeJustifications s t1 n = serializeJustifications s t2 n := by
  unfold serializeJustifications
  have e1 := sortRoots_perm_eq (hp.map Prod.fst)
  have e2 : (fun r => (t1.get? r).getD []) = (fun r => (t2.get? r).getD []) := by
    funext r; rw [Tally.get?_perm hp h]
  rw [e1, e2]

/-- Whatever orders the map enumerates its entries in, attestation processing has the one result
the model computes. -/
theorem C11_order_independent {s : State} {atts : List AggAtt} {out : Except StfError State}
    (hcount : distinctDataCount atts ≤ maxAttestationsData) (hn : s.validators.length ≠ 0)
    (hlen : s.justificationsValidators.length
      = s.justificationsRoots.length * s.validators.length)
    (hnz : ∀ r ∈ s.justificationsRoots, r ≠ 0)
    (h : ShuffledProcess s atts out) : out = processAttestations s atts := by
  obtain ⟨res, hr, rfl⟩ := h
  have hk := (unpackTally_spec s.validators.length s.justificationsRoots
    s.justificationsValidators).1
  have := shuffled_loop hr _ (List.Perm.refl _) hk
  unfold processAttestations
  simp only
  rw [if_neg (by omega), if_neg hn, if_neg (by omega), if_neg (by
    simp only [List.any_eq_true, decide_eq_true_eq, not_exists, not_and]
    exact hnz)]
  cases h2 : attLoop s.validators.length
      (rootToSlot s.historicalBlockHashes s.latestFinalized.slot) atts
      (s, unpackTally s.validators.length s.justificationsRoots s.justificationsValidators) with
  | error e =>
    rw [h2] at this
    cases res with
    | error e' => simp only; rw [show e' = e from this]
    | ok st => exact this.elim
  | ok st2 =>
    rw [h2] at this
    cases res with
    | error e' => exact this.elim
    | ok st =>
      obtain ⟨e1, e2, e3⟩ := this
      obtain ⟨sa, ta⟩ := st
      obtain ⟨sb, tb⟩ := st2
      simp only at e1 e2 e3 ⊢
      subst e1
      exact serialize_perm e2 e3

/-- Such executions exist for every input: the relation is not empty. -/
theorem C11_shuffled_exists (s : State) (atts : List AggAtt) :
    ∃ out, ShuffledProcess s atts out := by
  have : ∀ (n : Nat) (rts : Root → Option Nat) (as : List AggAtt) (st : State × Tally),
      ∃ res, ShuffledLoop n rts as st res := by
    intro n rts as
    induction as with
    | nil => intro st; exact ⟨_, .done (List.Perm.refl _)⟩
    | cons a as ih =>
      intro st
      obtain ⟨s, t⟩ := st
      cases h : attStep n rts (s, t) a with
      | error e => exact ⟨_, .fail (List.Perm.refl _) h⟩
      | ok st1 =>
        obtain ⟨res, hres⟩ := ih st1
        exact ⟨res, .step (List.Perm.refl _) h hres⟩
  obtain ⟨res, hres⟩ := this _ _ atts _
  exact ⟨_, res, hres, rfl⟩

/-- What is written into the state is written in strictly increasing root order, and reading it
back for the next block yields the same tally. -/
theorem C11_tally_round_trip {s s' : State} {t : Tally} {n : Nat}
    (hk : (t.map Prod.fst).Nodup) (hv : ∀ e ∈ t, e.2.length = n)
    (h : serializeJustifications s t n = .ok s') :
    s'.justificationsRoots.Pairwise (· < ·) ∧
    ∀ r, (unpackTally n s'.justificationsRoots s'.justificationsValidators).get? r = t.get? r := by
  unfold serializeJustifications at h
  simp only at h
  split at h
  · cases h
  split at h
  · cases h
  split at h
  · cases h
  cases h
  simp only
  have hsorted := sortRoots_pairwise_lt hk
  refine ⟨hsorted, ?_⟩
  intro r
  have hmem : ∀ r, r ∈ sortRoots (t.map Prod.fst) ↔
      r ∈ t.map Prod.fst := fun r => mem_sortRoots
  have hflat : ∀ r ∈ sortRoots (t.map Prod.fst),
      ((t.get? r).getD []).length = n := by
    intro r hr
    obtain ⟨v, hv'⟩ := Tally.get?_of_mem_keys ((hmem r).1 hr)
    rw [hv']
    exact hv _ (Tally.mem_of_get? hv')
  have hnd : (sortRoots (t.map Prod.fst)).Nodup :=
    (sortRoots_perm _).nodup_iff.2 hk
  by_cases hr : r ∈ t.map Prod.fst
  · obtain ⟨v, hv'⟩ := Tally.get?_of_mem_keys hr
    obtain ⟨i, hi⟩ := List.mem_iff_getElem?.1 ((hmem r).2 hr)
    rw [unpackTally_get? hnd hi, hv']
    congr 1
    have hvl := hv _ (Tally.mem_of_get? hv')
    simp only at hvl
    rw [← map_range_getElem?_eq v, hvl]
    unfold segment
    apply List.map_congr_left
    intro j hj
    rw [List.mem_range] at hj
    have hil := getElem?_lt hi
    have hb : i * n + j < (sortRoots (t.map Prod.fst)).length * n := by
      have : (i + 1) * n ≤
          (sortRoots (t.map Prod.fst)).length * n :=
        Nat.mul_le_mul_right n hil
      rw [Nat.add_mul] at this
      omega
    rw [List.getElem?_map, List.getElem?_range hb, Option.map_some,
      flatMap_getElem?_uniform n _ _ hflat i j r hi hj, hv']
    simp
  · rw [Tally.get?_none_iff.2 hr, Tally.get?_none_iff]
    intro hm
    obtain ⟨e, he, rfl⟩ := List.mem_map.1 hm
    obtain ⟨i, hi, -⟩ := (unpackTally_spec _ _ _).2.1 e he
    exact hr ((hmem _).1 (List.mem_of_getElem? hi))

/-- Non-vacuity: a two-root tally, enumerated in either order, serializes to the same lists. -/
example : (serializeJustifications Witness.wG [(7, [true, false, true]), (3, [false, true, false])]
      3).toOption.map (fun s => (s.justificationsRoots, s.justificationsValidators))
    = some ([3, 7], [false, true, false, true, false, true]) := by decide +kernel

/-- Non-vacuity: the side conditions of `C11_order_independent` hold on the witness state. -/
example : distinctDataCount [Witness.vote [true, false, true] 1 2] ≤ maxAttestationsData ∧
    Witness.wState2.validators.length ≠ 0 ∧
    Witness.wState2.justificationsValidators.length
      = Witness.wState2.justificationsRoots.length * Witness.wState2.validators.length ∧
    (∀ r ∈ Witness.wState2.justificationsRoots, r ≠ 0) := by
  refine ⟨by decide +kernel, by decide +kernel, by decide +kernel, by decide +kernel⟩

end Verif
