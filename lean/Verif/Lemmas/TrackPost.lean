import Verif.Lemmas.TrackSession
import Verif.Lemmas.SoloPost
/-!
# The state after the next block of a track
-/
namespace Verif.Build
open Verif JustifiedSlots

/-- How the checkpoints of `s'` follow from those of `s`, when all counted votes are `d`, which goes
from the justified slot to a later target: either nothing moved, or the target is justified, and the
source is finalized if nothing between them may be justified. -/
inductive Moved (s : State) (d : AttData) (P : Prop) (s' : State) : Prop
  | still (hj : s'.latestJustified.slot = s.latestJustified.slot)
      (hf : s'.latestFinalized.slot = s.latestFinalized.slot)
      (hs : ∀ k, jst s'.justifiedSlots s'.latestFinalized.slot k =
        jst s.justifiedSlots s.latestFinalized.slot k)
  | up (hP : P) (hj : s'.latestJustified.slot = d.target.slot)
      (hf : s'.latestFinalized.slot =
        if (List.range' (d.source.slot + 1) (d.target.slot - (d.source.slot + 1))).any
          (fun k => slotIsJustifiableAfter k s.latestFinalized.slot) = true
        then s.latestFinalized.slot else d.source.slot)
      (hs : ∀ k, jst s.justifiedSlots s.latestFinalized.slot k = true →
        jst s'.justifiedSlots s'.latestFinalized.slot k = true)
      (ht : jst s'.justifiedSlots s'.latestFinalized.slot d.target.slot = true)
      (hc : ∀ k, jst s'.justifiedSlots s'.latestFinalized.slot k = true → k ≤ d.target.slot)

/-- The hypotheses about the state before. -/
structure Below (s : State) (d : AttData) : Prop where
  src : d.source.slot = s.latestJustified.slot
  tgt : s.latestJustified.slot < d.target.slot
  fin : s.latestFinalized.slot ≤ s.latestJustified.slot
  just : jst s.justifiedSlots s.latestFinalized.slot s.latestJustified.slot = true
  cap : ∀ k, jst s.justifiedSlots s.latestFinalized.slot k = true → k ≤ s.latestJustified.slot

theorem attStep_moved {n : Nat} {rts : Root → Option Nat} {s : State} {d : AttData} {P : Prop}
    {st st' : State × Tally} {a : AggAtt} (B : P → Below s d) (h : Moved s d P st.1)
    (ha : jst s.justifiedSlots s.latestFinalized.slot a.data.target.slot = true ∨ P ∧ a.data = d)
    (hs : attStep n rts st a = .ok st') : Moved s d P st'.1 := by
  unfold attStep at hs
  split at hs
  · cases hs
  · cases hs; exact h
  next hvalid =>
  have F := (isValidVote_true_iff _ _).1 hvalid
  have hnot : ¬ jst st.1.justifiedSlots st.1.latestFinalized.slot a.data.target.slot = true := by
    intro hj
    unfold jst at hj
    rw [F.tgtNot] at hj
    cases hj
  cases h with
  | up hP hj hf hsl ht hc =>
    exfalso
    rcases ha with ha | ⟨-, ha⟩
    · exact hnot (hsl _ ha)
    · rw [ha] at hnot; exact hnot ht
  | still hj hf hsl =>
  rcases ha with ha | ⟨hP, ha⟩
  · exact absurd ((hsl _).trans ha) hnot
  have B := B hP
  have hsrc := B.src
  have htgt := B.tgt
  have hfin := B.fin
  split at hs
  · cases hs
  split at hs
  · cases hs
  simp only at hs
  split at hs
  swap
  · cases hs; exact .still hj hf hsl
  split at hs
  · cases hs
  next js hset =>
  rw [ha] at hs hset F
  have hjs := jst_set (by omega) hset
  have hmax : maxBySlot st.1.latestJustified d.target = d.target := by
    unfold maxBySlot
    rw [if_neg (by omega)]
  rw [hmax] at hs
  have hkeep : ∀ k, jst s.justifiedSlots s.latestFinalized.slot k = true →
      jst js st.1.latestFinalized.slot k = true := by
    intro k hk
    rw [hjs]
    split
    · rfl
    · rw [hsl]; exact hk
  have hself : jst js st.1.latestFinalized.slot d.target.slot = true := by
    rw [hjs, if_pos rfl]
  have hcap : ∀ k, jst js st.1.latestFinalized.slot k = true → k ≤ d.target.slot := by
    intro k hk
    rw [hjs] at hk
    split at hk
    next e => rw [e]
    · rw [hsl] at hk
      have := B.cap k hk
      omega
  have hs := (Except.ok.inj hs).symm
  subst hs
  unfold tryFinalize
  split
  next hle =>
    simp only at hle
    refine .up hP rfl ?_ hkeep hself hcap
    show st.1.latestFinalized.slot = _
    split <;> omega
  next hgt =>
  simp only at hgt
  split
  next hany =>
    refine .up hP rfl ?_ hkeep hself hcap
    simp only [hf] at hany
    rw [if_pos hany]
    exact hf
  next hany =>
    have hsh := jst_shift (js := js) (f := st.1.latestFinalized.slot) (g := d.source.slot) (by omega)
    refine .up hP rfl ?_ ?_ ?_ ?_
    · simp only [hf] at hany
      rw [if_neg hany]
    · intro k hk
      simp only [hsh]
      split
      · rfl
      · exact hkeep k hk
    · simp only [hsh]
      split
      · rfl
      · exact hself
    · intro k hk
      simp only [hsh] at hk
      split at hk
      · omega
      · exact hcap k hk

theorem attLoop_moved {n : Nat} {rts : Root → Option Nat} {s : State} {d : AttData} {P : Prop}
    (B : P → Below s d) (as : List AggAtt) {st st' : State × Tally} (h : Moved s d P st.1)
    (ha : ∀ a ∈ as, jst s.justifiedSlots s.latestFinalized.slot a.data.target.slot = true ∨
      P ∧ a.data = d)
    (hs : attLoop n rts as st = .ok st') : Moved s d P st'.1 := by
  induction as generalizing st with
  | nil => cases hs; exact h
  | cons a as ih =>
    unfold attLoop at hs
    split at hs
    · cases hs
    next st1 h1 =>
    exact ih (attStep_moved B h (ha a List.mem_cons_self) h1)
      (fun x hx => ha x (List.mem_cons_of_mem _ hx)) hs

theorem header_just {H : Hash} {s s1 s2 : State} {b : Block} (h1 : processSlots H s b.slot = .ok s1)
    (h2 : processBlockHeader H s1 b = .ok s2) :
    s2.latestJustified.slot = s.latestJustified.slot := by
  unfold processSlots at h1
  split at h1
  · cases h1
  simp only [Except.ok.injEq] at h1
  have e1 : s1.latestJustified = s.latestJustified := by
    rw [← h1]; split <;> rfl
  rw [← e1]
  unfold processBlockHeader at h2
  simp only at h2
  split at h2
  · cases h2
  split at h2
  · cases h2
  split at h2
  · cases h2
  split at h2
  · cases h2
  split at h2
  · cases h2
  by_cases h0 : s1.latestBlockHeader.slot = 0
  · simp only [if_pos h0] at h2
    split at h2
    · cases h2
    split at h2
    · cases h2
    cases h2
    rfl
  · simp only [if_neg h0] at h2
    split at h2
    · cases h2
    split at h2
    · cases h2
    cases h2
    rfl

/-- The same for a block. -/
theorem transition_moved {H : Hash} {s s' : State} {b : Block} {d : AttData} {P : Prop}
    (B : P → Below s d)
    (ha : ∀ a ∈ b.body, jst s.justifiedSlots s.latestFinalized.slot a.data.target.slot = true ∨
      P ∧ a.data = d)
    (hs : importState H s b = .ok s') : Moved s d P s' := by
  obtain ⟨s1, s2, s3, h1, h2, h3, -, rfl⟩ := importState_ok hs
  obtain ⟨f1, f2, -⟩ := header_frame h1 h2
  have f6 := header_just h1 h2
  have hc2 : Moved s d P s2 := .still f6 (by rw [f1]) (fun k => by rw [f1, jst_extend f2])
  unfold processAttestations at h3
  split at h3
  · cases h3
  simp only at h3
  split at h3
  · cases h3
  split at h3
  · cases h3
  split at h3
  · cases h3
  split at h3
  · cases h3
  next s4 t4 h4 =>
  have := attLoop_moved B b.body hc2 ha h4
  unfold serializeJustifications at h3
  simp only at h3
  split at h3
  · cases h3
  split at h3
  · cases h3
  split at h3
  · cases h3
  cases h3
  cases this with
  | still a b c => exact .still a b c
  | up p a b c d e => exact .up p a b c d e

end Verif.Build

namespace Verif.Node
open Verif Verif.Buffers Verif.Build Verif.JustifiedSlots

/-- A block on a track whose pool has the votes `d` of all validators, and otherwise only votes for
justified targets. -/
theorem track_post {H : Hash} (hz : ∀ s, H.state s ≠ 0) {t : Nat} {vals : List Validator}
    {bs : List Block} {st : State} (hc : Chain H (State.fromGenesis H t vals) bs st)
    {merge : AttData → List Agg → Option Nat} {ord : Root → List Nat → List Nat}
    (ho : ∀ r l, (ord r l).Perm l) (hv : 0 < vals.length) {known : List Root} {pool : Pool}
    (hn : pool.keys.Nodup) (hkey : ∀ e ∈ pool, e.1 = H.attData e.2.1)
    (hpool : ∀ e ∈ pool, ∀ p ∈ e.2.2, ∀ v, In v p → v < vals.length)
    {c : Config} (hagg : c.aggregate = true) (hmax : 0 < c.maxAtts)
    {b : Block} {proofs : List Agg} {post : State} {f : Nat → Root} {s : Nat}
    (h : buildBlock H merge ord st (s + 1) ((s + 1) % vals.length) (f s) known pool c =
      .ok (b, proofs, post))
    (htip : tipRoot H (State.fromGenesis H t vals) bs = f s) (hslot : st.slot = s)
    (hlim : s + 1 ≤ historicalRootsLimit)
    (hhist : ∀ i, i < s → st.historicalBlockHashes[i]? = some (f i))
    (hlen : st.historicalBlockHashes.length = s)
    (hinj : ∀ i j, i ≤ s → j ≤ s → f i = f j → i = j) (hnz : ∀ i, i ≤ s → f i ≠ 0)
    {P : Prop} {u : Nat} (hjs : st.latestJustified.slot < s)
    (B : P → Below st (voteOn f s st.latestJustified.slot u))
    (hu : P → u ≤ s ∧ slotIsJustifiableAfter u st.latestFinalized.slot = true)
    (htgt : ∀ e ∈ pool, jst st.justifiedSlots st.latestFinalized.slot e.2.1.target.slot = true ∨
      P ∧ e.2.1 = voteOn f s st.latestJustified.slot u) {r : Root} {a : Agg}
    (he : P → (r, voteOn f s st.latestJustified.slot u, [a]) ∈ pool ∧ f s ∈ known ∧
      ∀ v, v < vals.length → In v a)
    {imp : State} (hi : importState H st b = .ok imp) :
    Moved st (voteOn f s st.latestJustified.slot u) P imp ∧
      (P → imp.latestJustified.slot = u) := by
  rw [← htip] at h
  obtain ⟨b1, b2, b3, -, -, -, -, b8⟩ := C43_accepted hn h
  obtain ⟨-, hh, -⟩ := chain_header hz hc (b := b) (by omega) (by omega) hv
    (by rw [b2, b1]) b3
  have hext : extendedHist st (s + 1) (f s) = st.historicalBlockHashes ++ [f s] := by
    unfold extendedHist
    rw [hh, hslot, show s + 1 - s - 1 = 0 by omega]
    simp
  have hget : ∀ i, i ≤ s → (st.historicalBlockHashes ++ [f s])[i]? = some (f i) := by
    intro i hi
    rcases Nat.lt_or_ge i s with hlt | hge
    · rw [List.getElem?_append_left (by omega)]
      exact hhist i hlt
    · obtain rfl : i = s := by omega
      rw [List.getElem?_append_right (by omega), hlen, Nat.sub_self]
      rfl
  have hu' : UniqueRoots (extendedHist st (s + 1) (tipRoot H (State.fromGenesis H t vals) bs)) := by
    rw [htip, hext]
    intro i j x hi hj hx
    have li := (List.getElem?_eq_some_iff.1 hi).1
    have lj := (List.getElem?_eq_some_iff.1 hj).1
    simp only [List.length_append, List.length_singleton, hlen] at li lj
    rw [hget i (by omega)] at hi
    rw [hget j (by omega)] at hj
    exact hinj i j (by omega) (by omega) ((Option.some.inj hi).trans (Option.some.inj hj).symm)
  obtain ⟨s1, s2, ks, q, hs1, hs2, -, hrun, hF, hinv2, -, -, -, hvs, hist2, -⟩ :=
    build_picks hz hc ho (by omega) hlim hv hn hkey hpool hu' hagg h
  rw [htip, hext] at hist2
  obtain ⟨f1, f2, -⟩ := header_frame hs1 hs2
  have hbody : ∀ x ∈ b.body, jst st.justifiedSlots st.latestFinalized.slot x.data.target.slot = true ∨
      P ∧ x.data = voteOn f s st.latestJustified.slot u := by
    intro x hx
    obtain ⟨k, hk, hd, -⟩ := forall2_mem_right hF hx
    have := htgt _ ((hrun.rounds.mem k hk).1)
    rw [hd]
    exact this
  have M := transition_moved B hbody hi
  refine ⟨M, fun hP => ?_⟩
  have B := B hP
  obtain ⟨hu1, hu2⟩ := hu hP
  obtain ⟨he, hk, ha⟩ := he hP
  have hlt : st.latestJustified.slot < u := B.tgt
  have hfj := B.fin
  have hj2 : ∀ k, jst s2.justifiedSlots s2.latestFinalized.slot k =
      jst st.justifiedSlots st.latestFinalized.slot k := by
    intro k
    rw [f1, jst_extend f2]
  have himp : imp.justifiedSlots = post.justifiedSlots ∧
      imp.latestFinalized = post.latestFinalized := by
    unfold importState at hi
    rw [b8] at hi
    cases hi
    exact ⟨rfl, rfl⟩
  have hcd : Countable s2 (voteOn f s st.latestJustified.slot u) := by
    refine ⟨jst_eq_true ((hj2 _).trans B.just), ?_, hlt, ?_, ?_⟩
    · have hnj : ¬ jst s2.justifiedSlots s2.latestFinalized.slot u = true := by
        intro h
        rw [hj2] at h
        have := B.cap u h
        omega
      have hex : isSlotJustified s2.justifiedSlots s2.latestFinalized.slot u ≠ none := by
        rw [isSlotJustified_gt (by rw [f1]; omega)]
        have hw := hinv2.win
        have hl := hinv2.histLen
        rw [hist2, List.length_append, hlen, List.length_singleton] at hl
        intro hnone
        rw [List.getElem?_eq_none_iff] at hnone
        omega
      show isSlotJustified _ _ u = _
      cases hx : isSlotJustified s2.justifiedSlots s2.latestFinalized.slot u with
      | none => exact absurd hx hex
      | some x =>
        cases x with
        | false => rfl
        | true => exact absurd (jst_of_some hx) hnj
    · intro x hx
      rw [hist2]
      simp only [voteOn, List.mem_cons, List.not_mem_nil, or_false] at hx
      rcases hx with rfl | rfl | rfl
      · exact ⟨hnz _ (Nat.le_of_lt hjs), hget _ (Nat.le_of_lt hjs)⟩
      · exact ⟨hnz u (by omega), hget u (by omega)⟩
      · exact ⟨hnz s (by omega), hget s (by omega)⟩
    · rw [f1]
      exact (C01_justifiable_sound _ _ hu2).2
  have hsm : SuperMaj (fun v => Recorded s2 (voteOn f s st.latestJustified.slot u).target.root v ∨
      ∃ p ∈ [a], In v p) vals.length := by
    refine ⟨List.range vals.length, List.nodup_range, fun v hv => ?_, by
      rw [List.length_range]; omega⟩
    have := List.mem_range.1 hv
    exact ⟨this, .inr ⟨a, List.mem_singleton_self _, ha v this⟩⟩
  obtain ⟨k, k1, k2⟩ := C87_justifies hz hc ho (by omega) hlim hv hn hkey hpool hu' hagg hmax h
    hs1 hs2 he hk hcd hsm
  rw [← himp.1, ← himp.2] at k2
  have k2 := jst_of_some k2
  cases M with
  | still m1 m2 m3 =>
    rw [m3, ← hj2] at k2
    exact absurd (jst_eq_true k2) k1
  | up _ m1 => exact m1

end Verif.Node
