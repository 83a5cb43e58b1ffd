import Verif.Model.Votes
import Verif.Lemmas.AMap
import Verif.Lemmas.Bits
/-!
# C18, C19: latest votes and their promotion

The specification says, for a history of events (newest first), which votes of a validator have
been made known and which are still pending.
-/
namespace Verif.Votes
open Verif

/-! ## Specification -/

/-- The votes of `v` carried by a list of aggregates. -/
def votesOf (entries : List AggVote) (v : Nat) : List AttData :=
  (entries.filter (fun e => decide (e.1[v]? = some true))).map Prod.snd

/-- Votes of `v` received since the last promotion. -/
def pending (v : Nat) : List Op → List AttData
  | [] => []
  | .gossip e :: ops => votesOf e v ++ pending v ops
  | .block _ :: ops => pending v ops
  | .promote :: _ => []

/-- Votes of `v` that were made known: carried by a block, or received before a promotion. -/
def madeKnown (v : Nat) : List Op → List AttData
  | [] => []
  | .gossip _ :: ops => madeKnown v ops
  | .block e :: ops => votesOf e v ++ madeKnown v ops
  | .promote :: ops => pending v ops ++ madeKnown v ops

/-- `a` is no later than `b`: by slot, then by data root. -/
def NoLater (H : Hash) (a b : AttData) : Prop :=
  a.slot < b.slot ∨ (a.slot = b.slot ∧ Nat.le (H.attData a) (H.attData b))

/-- `o` is the latest of the votes `l`. -/
def IsLatest (H : Hash) (o : Option AttData) (l : List AttData) : Prop :=
  match o with
  | none => l = []
  | some d => d ∈ l ∧ ∀ d' ∈ l, NoLater H d' d

/-! ## Lemmas -/

theorem noLater_refl (H : Hash) (a : AttData) : NoLater H a a := Or.inr ⟨rfl, Nat.le_refl _⟩

theorem noLater_trans {H : Hash} {a b c : AttData} (h1 : NoLater H a b) (h2 : NoLater H b c) :
    NoLater H a c := by
  rcases h1 with h1 | ⟨h1, h1'⟩ <;> rcases h2 with h2 | ⟨h2, h2'⟩
  · left; omega
  · left; omega
  · left; omega
  · right; exact ⟨h1.trans h2, Nat.le_trans h1' h2'⟩

theorem shouldReplace_iff (H : Hash) (e d : AttData) :
    shouldReplace H e d = false ↔ NoLater H d e := by
  unfold shouldReplace NoLater
  rw [Bool.or_eq_false_iff, Bool.and_eq_false_iff, decide_eq_false_iff_not,
    decide_eq_false_iff_not, decide_eq_false_iff_not]
  constructor
  · rintro ⟨h1, h2⟩
    rcases Nat.lt_or_ge d.slot e.slot with h | h
    · exact Or.inl h
    · right
      have heq : d.slot = e.slot := by omega
      exact ⟨heq, Nat.le_of_not_lt (h2.resolve_left (fun hc => hc heq))⟩
  · rintro (h | ⟨h, h'⟩)
    · exact ⟨by omega, Or.inl (by omega)⟩
    · exact ⟨by omega, Or.inr (Nat.not_lt.2 h')⟩

theorem noLater_of_replace {H : Hash} {e d : AttData} (h : shouldReplace H e d = true) :
    NoLater H e d := by
  unfold shouldReplace at h
  rw [Bool.or_eq_true, Bool.and_eq_true, decide_eq_true_eq, decide_eq_true_eq,
    decide_eq_true_eq] at h
  rcases h with h | ⟨h, h'⟩
  · exact Or.inl h
  · exact Or.inr ⟨h.symm, Nat.le_of_lt h'⟩

theorem recordVote_other (H : Hash) (m : AMap Nat AttData) (v w : Nat) (d : AttData)
    (h : v ≠ w) : (recordVote H m v d).get? w = m.get? w := by
  unfold recordVote
  split
  · rw [AMap.get?_insert, if_neg h]
  · split
    · rw [AMap.get?_insert, if_neg h]
    · rfl

/-- Recording a vote keeps the stored vote the latest one. -/
theorem recordVote_latest {H : Hash} {m : AMap Nat AttData} {v : Nat} {l : List AttData}
    (h : IsLatest H (m.get? v) l) (d : AttData) :
    IsLatest H ((recordVote H m v d).get? v) (d :: l) := by
  unfold recordVote
  cases hg : m.get? v with
  | none =>
    rw [hg] at h
    simp only [IsLatest] at h
    subst h
    simp only [AMap.get?_insert_self, IsLatest, List.mem_singleton, true_and]
    rintro d' rfl; exact noLater_refl _ _
  | some e =>
    rw [hg] at h
    obtain ⟨h1, h2⟩ := h
    simp only
    cases hr : shouldReplace H e d
    · simp only [Bool.false_eq_true, if_false, hg]
      refine ⟨List.mem_cons_of_mem _ h1, ?_⟩
      intro d' hd'
      rcases List.mem_cons.1 hd' with rfl | hd'
      · exact (shouldReplace_iff H e d').1 hr
      · exact h2 d' hd'
    · simp only [if_true, AMap.get?_insert_self]
      refine ⟨List.mem_cons_self, ?_⟩
      intro d' hd'
      rcases List.mem_cons.1 hd' with rfl | hd'
      · exact noLater_refl _ _
      · exact noLater_trans (h2 d' hd') (noLater_of_replace hr)

theorem IsLatest.congr {H : Hash} {o : Option AttData} {l l' : List AttData}
    (hm : ∀ d, d ∈ l ↔ d ∈ l') (h : IsLatest H o l) : IsLatest H o l' := by
  cases o with
  | none =>
    simp only [IsLatest] at *
    subst h
    exact List.eq_nil_iff_forall_not_mem.2 (fun d hd => by cases (hm d).2 hd)
  | some d =>
    exact ⟨(hm d).1 h.1, fun d' hd' => h.2 d' ((hm d').2 hd')⟩

theorem recordAll_latest {H : Hash} {m : AMap Nat AttData} {v : Nat} {l : List AttData}
    (h : IsLatest H (m.get? v) l) (bits : Bits) (d : AttData) :
    IsLatest H ((recordAll H m bits d).get? v) (votesOf [(bits, d)] v ++ l) := by
  have key : ∀ (ids : List Nat) (m : AMap Nat AttData) (l : List AttData),
      IsLatest H (m.get? v) l →
      IsLatest H ((ids.foldl (fun m v => recordVote H m v d) m).get? v)
        ((if v ∈ ids then [d] else []) ++ l) := by
    intro ids
    induction ids with
    | nil => intro m l h; simpa using h
    | cons i ids ih =>
      intro m l h
      rw [List.foldl_cons]
      by_cases hi : i = v
      · subst hi
        refine (ih _ _ (recordVote_latest h d)).congr ?_
        intro x; by_cases hx : i ∈ ids <;> simp [hx]
      · have := ih (recordVote H m i d) l (by rw [recordVote_other _ _ _ _ _ hi]; exact h)
        refine this.congr ?_
        intro x
        have : v ∈ i :: ids ↔ v ∈ ids := by
          rw [List.mem_cons]; exact ⟨fun h => h.resolve_left (fun hc => hi hc.symm), Or.inr⟩
        simp only [this]
  refine (key (validatorIndices bits) m l h).congr ?_
  intro x
  simp only [mem_validatorIndices, votesOf]
  by_cases hv : bits[v]? = some true <;> simp [hv]

theorem foldl_latest {H : Hash} {v : Nat} (entries : List AggVote) {m : AMap Nat AttData}
    {l : List AttData} (h : IsLatest H (m.get? v) l) :
    IsLatest H ((entries.foldl (fun m e => recordAll H m e.1 e.2) m).get? v)
      (votesOf entries v ++ l) := by
  induction entries generalizing m l with
  | nil => simpa [votesOf] using h
  | cons e entries ih =>
    rw [List.foldl_cons]
    refine (ih (recordAll_latest h e.1 e.2)).congr ?_
    intro d
    simp only [votesOf, List.mem_append, List.mem_map, List.mem_filter, List.mem_cons,
      List.not_mem_nil, or_false]
    constructor
    · rintro (⟨x, ⟨hx, hb⟩, rfl⟩ | ⟨x, ⟨hx, hb⟩, rfl⟩ | h)
      · exact Or.inl ⟨x, ⟨Or.inr hx, hb⟩, rfl⟩
      · exact Or.inl ⟨x, ⟨Or.inl hx, hb⟩, rfl⟩
      · exact Or.inr h
    · rintro (⟨x, ⟨hx | hx, hb⟩, rfl⟩ | h)
      · exact Or.inr (Or.inl ⟨x, ⟨hx, hb⟩, rfl⟩)
      · exact Or.inl ⟨x, ⟨hx, hb⟩, rfl⟩
      · exact Or.inr (Or.inr h)

theorem drain_latest {H : Hash} {v : Nat} (drained : AMap Nat AttData)
    (hn : drained.keys.Nodup) {m : AMap Nat AttData} {l : List AttData}
    (h : IsLatest H (m.get? v) l) :
    IsLatest H ((drained.foldl (fun m e => recordVote H m e.1 e.2) m).get? v)
      ((drained.get? v).toList ++ l) := by
  induction drained generalizing m l with
  | nil => simpa [AMap.get?_nil] using h
  | cons e drained ih =>
    obtain ⟨k, d⟩ := e
    simp only [AMap.keys, List.map_cons, List.nodup_cons] at hn
    rw [List.foldl_cons, AMap.get?_cons]
    by_cases hk : k = v
    · subst hk
      have hnone : AMap.get? drained k = none := AMap.get?_eq_none_iff.2 hn.1
      have := ih hn.2 (recordVote_latest h d)
      rw [hnone] at this
      simpa using this
    · rw [if_neg hk]
      exact ih hn.2 (by rw [recordVote_other _ _ _ _ _ hk]; exact h)

theorem nodup_recordVote {H : Hash} {m : AMap Nat AttData} (h : m.keys.Nodup) (v : Nat)
    (d : AttData) : (recordVote H m v d).keys.Nodup := by
  unfold recordVote
  split
  · exact AMap.nodup_insert h _ _
  · split
    · exact AMap.nodup_insert h _ _
    · exact h

theorem nodup_foldl {H : Hash} (entries : List AggVote) {m : AMap Nat AttData}
    (h : m.keys.Nodup) :
    (entries.foldl (fun m e => recordAll H m e.1 e.2) m).keys.Nodup := by
  have hall : ∀ (ids : List Nat) (d : AttData) (m : AMap Nat AttData), m.keys.Nodup →
      (ids.foldl (fun m v => recordVote H m v d) m).keys.Nodup := by
    intro ids d
    induction ids with
    | nil => intro m h; exact h
    | cons i ids ih => intro m h; exact ih _ (nodup_recordVote h _ _)
  induction entries generalizing m with
  | nil => exact h
  | cons e entries ih => exact ih (hall _ _ _ h)

theorem nodup_drain {H : Hash} (dr : AMap Nat AttData) {m : AMap Nat AttData}
    (h : m.keys.Nodup) : (dr.foldl (fun m e => recordVote H m e.1 e.2) m).keys.Nodup := by
  induction dr generalizing m with
  | nil => exact h
  | cons e dr ih => exact ih (nodup_recordVote h _ _)

/-- Merging the latest of the pending votes is as good as merging all of them. -/
theorem IsLatest.absorb {H : Hash} {o : Option AttData} {p : Option AttData}
    {lp l : List AttData} (hp : IsLatest H p lp) (h : IsLatest H o (p.toList ++ l)) :
    IsLatest H o (lp ++ l) := by
  cases p with
  | none =>
    simp only [IsLatest] at hp
    subst hp; simpa using h
  | some d =>
    obtain ⟨hd, hmax⟩ := hp
    cases o with
    | none => simp [IsLatest] at h
    | some e =>
      obtain ⟨he, hle⟩ := h
      refine ⟨?_, ?_⟩
      · rcases List.mem_append.1 he with he | he
        · simp at he; subst he; exact List.mem_append_left _ hd
        · exact List.mem_append_right _ he
      · intro x hx
        rcases List.mem_append.1 hx with hx | hx
        · exact noLater_trans (hmax x hx) (hle d (by simp))
        · exact hle x (List.mem_append_right _ hx)

structure Inv (H : Hash) (ops : List Op) (s : FC) : Prop where
  known : ∀ v, IsLatest H (s.known.get? v) (madeKnown v ops)
  new : ∀ v, IsLatest H (s.new.get? v) (pending v ops)
  nodupKnown : s.known.keys.Nodup
  nodupNew : s.new.keys.Nodup

theorem run_inv {H : Hash} {ops : List Op} {s : FC} (h : Run H ops s) : Inv H ops s := by
  induction h with
  | init =>
    refine ⟨?_, ?_, ?_, ?_⟩ <;> simp [IsLatest, AMap.get?_nil, madeKnown, pending, AMap.keys]
  | step _ hs ih =>
    cases hs with
    | gossip e => exact ⟨ih.known, fun v => foldl_latest e (ih.new v), ih.nodupKnown,
        nodup_foldl e ih.nodupNew⟩
    | block e => exact ⟨fun v => foldl_latest e (ih.known v), ih.new,
        nodup_foldl e ih.nodupKnown, ih.nodupNew⟩
    | promote dr hp =>
      have hnd : dr.keys.Nodup := (hp.map Prod.fst).nodup_iff.2 ih.nodupNew
      refine ⟨?_, ?_, nodup_drain dr ih.nodupKnown, by simp [promote, AMap.keys]⟩
      · intro v
        have h1 := drain_latest (H := H) (v := v) dr hnd (ih.known v)
        rw [AMap.get?_perm hp hnd] at h1
        exact (ih.new v).absorb h1
      · intro v; simp [promote, IsLatest, AMap.get?_nil, pending]

/-! ## C18 -/

/-- After any history, the vote that fork choice counts for a validator is the latest, by
`(slot, data root)`, of all its votes made known so far, and there is none exactly when no vote of
it was made known. -/
theorem C18_latest_vote {H : Hash} {ops : List Op} {s : FC} (h : Run H ops s) (v : Nat) :
    IsLatest H ((headVotes s).get? v) (madeKnown v ops) := (run_inv h).known v

/-- Arrival order, repetition, batching and promotion times do not matter: two histories that made
the same votes of `v` known agree on its counted vote. Distinct votes of `v` are assumed to have
distinct data roots (no hash collision). -/
theorem C18_order_independent {H : Hash} {ops ops' : List Op} {s s' : FC} (h : Run H ops s)
    (h' : Run H ops' s') (v : Nat) (hsame : ∀ d, d ∈ madeKnown v ops ↔ d ∈ madeKnown v ops')
    (hinj : ∀ d ∈ madeKnown v ops, ∀ d' ∈ madeKnown v ops,
      H.attData d = H.attData d' → d = d') :
    (headVotes s).get? v = (headVotes s').get? v := by
  have h1 := C18_latest_vote h v
  have h2 := (C18_latest_vote h' v).congr (fun d => (hsame d).symm)
  cases ho : (headVotes s).get? v with
  | none =>
    rw [ho] at h1
    simp only [IsLatest] at h1
    rw [h1] at h2
    cases ho' : (headVotes s').get? v with
    | none => rfl
    | some d => rw [ho'] at h2; exact absurd h2.1 List.not_mem_nil
  | some d =>
    rw [ho] at h1
    cases ho' : (headVotes s').get? v with
    | none =>
      rw [ho'] at h2
      simp only [IsLatest] at h2
      rw [h2] at h1; exact absurd h1.1 List.not_mem_nil
    | some d' =>
      rw [ho'] at h2
      congr 1
      have a := h1.2 d' h2.1
      have b := h2.2 d h1.1
      rcases a with a | ⟨a, a'⟩ <;> rcases b with b | ⟨b, b'⟩
      · omega
      · omega
      · omega
      · exact hinj d h1.1 d' h2.1 (Nat.le_antisymm b' a')

/-- A vote that is no later than the counted one never replaces it. -/
theorem C18_older_never_replaces {H : Hash} {s : FC} {v : Nat} {d e : AttData}
    (hk : (headVotes s).get? v = some e) (hle : NoLater H d e) (bits : Bits) :
    (headVotes (insertKnown H s [(bits, d)])).get? v = some e := by
  unfold insertKnown headVotes recordAll
  simp only [List.foldl_cons, List.foldl_nil]
  have key : ∀ (ids : List Nat) (m : AMap Nat AttData), m.get? v = some e →
      (ids.foldl (fun m v => recordVote H m v d) m).get? v = some e := by
    intro ids
    induction ids with
    | nil => intro m h; exact h
    | cons i ids ih =>
      intro m h
      apply ih
      by_cases hi : i = v
      · subst hi
        unfold recordVote
        simp only [h, (shouldReplace_iff H e d).2 hle]
        exact h
      · rw [recordVote_other _ _ _ _ _ hi]; exact h
  exact key _ _ hk

/-! ## C19 -/

/-- Gossip votes never touch the votes that head selection reads ... -/
theorem C19_gossip_does_not_count {H : Hash} {s s' : FC} {e : List AggVote}
    (h : Step H s (.gossip e) s') : headVotes s' = headVotes s := by
  cases h; rfl

/-- ... so any number of gossip deliveries leaves them unchanged until a promotion. -/
theorem C19_gossip_run {H : Hash} {ops : List Op} {s : FC} (es : List (List AggVote))
    (s' : FC) (_h : Run H ops s)
    (h' : es.foldl (fun t e => insertNew H t e) s = s') : headVotes s' = headVotes s := by
  subst h'
  clear _h
  induction es generalizing s with
  | nil => rfl
  | cons e es ih => exact ih (s := insertNew H s e)

/-- Votes carried by a block count at once: afterwards the counted vote of a participant is at
least as late as the block's vote. -/
theorem C19_block_counts_immediately {H : Hash} {ops : List Op} {s s' : FC} {e : List AggVote}
    (hr : Run H ops s) (h : Step H s (.block e) s') (v : Nat) (d : AttData)
    (hd : d ∈ votesOf e v) : ∃ d', (headVotes s').get? v = some d' ∧ NoLater H d d' := by
  have h1 := C18_latest_vote (.step hr h) v
  cases ho : (headVotes s').get? v with
  | none =>
    rw [ho] at h1
    simp only [IsLatest, madeKnown, List.append_eq_nil_iff] at h1
    rw [h1.1] at hd; cases hd
  | some d' => rw [ho] at h1; exact ⟨d', rfl, h1.2 d (List.mem_append_left _ hd)⟩

/-- A promotion loses no vote: every pending vote and every vote counted before is now counted or
superseded by a later vote of the same validator; nothing stays pending. -/
theorem C19_promotion_loses_nothing {H : Hash} {ops : List Op} {s s' : FC}
    (hr : Run H ops s) (h : Step H s .promote s') (v : Nat) (d : AttData)
    (hd : d ∈ pending v ops ∨ (headVotes s).get? v = some d) :
    (∃ d', (headVotes s').get? v = some d' ∧ NoLater H d d') ∧ (safeVotes s').get? v = none := by
  refine ⟨?_, by cases h; rfl⟩
  have h0 := C18_latest_vote hr v
  have h1 := C18_latest_vote (.step hr h) v
  have hm : d ∈ madeKnown v (.promote :: ops) := by
    rcases hd with hd | hd
    · exact List.mem_append_left _ hd
    · rw [hd] at h0; exact List.mem_append_right _ h0.1
  cases ho : (headVotes s').get? v with
  | none =>
    rw [ho] at h1
    simp only [IsLatest] at h1
    rw [h1] at hm; cases hm
  | some d' => rw [ho] at h1; exact ⟨d', rfl, h1.2 d hm⟩

/-- The safe target reads exactly the latest votes received since the last promotion. -/
theorem C19_safe_votes_are_pending {H : Hash} {ops : List Op} {s : FC} (h : Run H ops s)
    (v : Nat) : IsLatest H ((safeVotes s).get? v) (pending v ops) := (run_inv h).new v

/-- Both vote maps have one entry per validator (needed by `C17_no_conflicting_support`). -/
theorem C19_one_vote_per_validator {H : Hash} {ops : List Op} {s : FC} (h : Run H ops s) :
    (headVotes s).keys.Nodup ∧ (safeVotes s).keys.Nodup :=
  ⟨(run_inv h).nodupKnown, (run_inv h).nodupNew⟩

/-! ## A concrete history: validator 1 equivocates at slot 5, then an older vote arrives. -/
namespace Ex
def exH : Hash := ⟨fun _ => 1, fun _ => 1, fun _ => 1, fun d => d.head.root⟩
def at_ (slot head : Nat) : AttData := ⟨slot, ⟨head, 0⟩, ⟨0, 0⟩, ⟨0, 0⟩⟩
def one : Bits := [false, true]
def ops : List Op := [.promote, .gossip [(one, at_ 4 9)], .block [(one, at_ 5 7)],
  .promote, .gossip [(one, at_ 5 8)]]

example : ∃ s, Run exH ops s ∧ (headVotes s).get? 1 = some (at_ 5 8) ∧
    madeKnown 1 ops = [at_ 4 9, at_ 5 7, at_ 5 8] := by
  refine ⟨_, .step (.step (.step (.step (.step .init (.gossip _ _)) (.promote _ _ (.refl _)))
    (.block _ _)) (.gossip _ _)) (.promote _ _ (.refl _)), ?_, ?_⟩ <;> decide +kernel
end Ex

end Verif.Votes
