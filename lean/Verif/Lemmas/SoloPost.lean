import Verif.Lemmas.SoloVote
import Verif.Lemmas.Bounds
import Verif.Props.C87_NothingWasted
/-!
# The state after the next block of the line
-/
namespace Verif.Node
open Verif Verif.Buffers Verif.Build Verif.JustifiedSlots

theorem jst_of_some {js : List Bool} {f k : Nat} (h : isSlotJustified js f k = some true) :
    jst js f k = true := by
  unfold jst; rw [h]; rfl

/-- A block on a line whose pool has the votes of all validators for the slot before. -/
theorem line_post {H : Hash} (hz : ∀ s, H.state s ≠ 0) {t : Nat} {vals : List Validator}
    {bs : List Block} {st : State} (hc : Chain H (State.fromGenesis H t vals) bs st)
    {merge : AttData → List Agg → Option Nat} {ord : Root → List Nat → List Nat}
    (ho : ∀ r l, (ord r l).Perm l) (hv : 0 < vals.length) {known : List Root} {pool : Pool}
    (hn : pool.keys.Nodup) (hkey : ∀ e ∈ pool, e.1 = H.attData e.2.1)
    (hpool : ∀ e ∈ pool, ∀ p ∈ e.2.2, ∀ v, In v p → v < vals.length)
    {c : Config} (hagg : c.aggregate = true) (hmax : 0 < c.maxAtts)
    {b : Block} {proofs : List Agg} {post : State} {f : Nat → Root} {s : Nat}
    (h : buildBlock H merge ord st (s + 1) ((s + 1) % vals.length) (f s) known pool c =
      .ok (b, proofs, post))
    (htip : tipRoot H (State.fromGenesis H t vals) bs = f s) (hslot : st.slot = s)
    (hlim : s + 1 ≤ historicalRootsLimit)
    (hhist : ∀ i, i < s → st.historicalBlockHashes[i]? = some (f i))
    (hlen : st.historicalBlockHashes.length = s)
    (hinj : ∀ i j, i ≤ s → j ≤ s → f i = f j → i = j) (hnz : ∀ i, i ≤ s → f i ≠ 0)
    (hj : st.latestJustified.slot = s - 2) (hf : st.latestFinalized.slot = s - 3)
    (hjs : ∀ k, jst st.justifiedSlots st.latestFinalized.slot k = true ↔ k ≤ s - 2)
    (htgt : ∀ e ∈ pool, e.2.1.target.slot ≤ s - 1) {r : Root} {a : Agg}
    (he : (r, lineVote f s, [a]) ∈ pool) (hk : f s ∈ known) (ha : ∀ v, v < vals.length → In v a)
    {imp : State} (hi : importState H st b = .ok imp) :
    imp.latestJustified.slot = s - 1 ∧ imp.latestFinalized.slot = s - 2 ∧
      (∀ k, jst imp.justifiedSlots imp.latestFinalized.slot k = true ↔ k ≤ s - 1) ∧
      ∀ x ∈ b.body, x.data.target.slot ≤ s - 1 := by
  rw [← htip] at h
  obtain ⟨b1, b2, b3, -, -, -, -, b8⟩ := C43_accepted hn h
  obtain ⟨-, hh, -⟩ := chain_header hz hc (b := b) (by omega) (by omega) hv
    (by rw [b2, b1]) b3
  have hext : extendedHist st (s + 1) (f s) = st.historicalBlockHashes ++ [f s] := by
    unfold extendedHist
    rw [hh, hslot, show s + 1 - s - 1 = 0 by omega]
    simp
  have hget : ∀ i, i ≤ s → (st.historicalBlockHashes ++ [f s])[i]? = some (f i) := by
    intro i hi
    rcases Nat.lt_or_ge i s with hlt | hge
    · rw [List.getElem?_append_left (by omega)]
      exact hhist i hlt
    · obtain rfl : i = s := by omega
      rw [List.getElem?_append_right (by omega), hlen, Nat.sub_self]
      rfl
  have hu : UniqueRoots (extendedHist st (s + 1) (tipRoot H (State.fromGenesis H t vals) bs)) := by
    rw [htip, hext]
    intro i j x hi hj hx
    have li := (List.getElem?_eq_some_iff.1 hi).1
    have lj := (List.getElem?_eq_some_iff.1 hj).1
    simp only [List.length_append, List.length_singleton, hlen] at li lj
    rw [hget i (by omega)] at hi
    rw [hget j (by omega)] at hj
    exact hinj i j (by omega) (by omega) ((Option.some.inj hi).trans (Option.some.inj hj).symm)
  obtain ⟨s1, s2, ks, q, hs1, hs2, -, hrun, hF, hinv2, -, -, -, hvs, hist2, -⟩ :=
    build_picks hz hc ho (by omega) hlim hv hn hkey hpool hu hagg h
  rw [htip, hext] at hist2
  obtain ⟨f1, f2, -⟩ := header_frame hs1 hs2
  have hj2 : ∀ k, jst s2.justifiedSlots s2.latestFinalized.slot k = true ↔ k ≤ s - 2 := by
    intro k
    rw [f1, jst_extend f2]
    exact hjs k
  have hbody : ∀ x ∈ b.body, x.data.target.slot ≤ s - 1 := by
    intro x hx
    obtain ⟨k, hk, hd, -⟩ := forall2_mem_right hF hx
    have := htgt _ ((hrun.rounds.mem k hk).1)
    rw [hd]
    exact this
  have C : Cap (s - 1) imp := transition_cap
    ⟨fun k hk => by have := (hjs k).1 hk; omega, fun k hk => by rw [hj]; exact (hjs k).1 hk⟩ hbody hi
  have hc' : Chain H (State.fromGenesis H t vals) (b :: bs) imp := .cons hc hi
  have inv := chain_inv hc' (by simp)
  have hjle : imp.latestJustified.slot ≤ s - 1 := C.bound _ (jst_of_some inv.justJ)
  have himp : imp.justifiedSlots = post.justifiedSlots ∧
      imp.latestFinalized = post.latestFinalized := by
    unfold importState at hi
    rw [b8] at hi
    cases hi
    exact ⟨rfl, rfl⟩
  have hcd : 2 ≤ s → Countable s2 (lineVote f s) := by
    intro h2
    refine ⟨jst_eq_true ((hj2 _).2 (Nat.le_refl _)), ?_, by simp only [lineVote]; omega, ?_, ?_⟩
    · have hnj : ¬ jst s2.justifiedSlots s2.latestFinalized.slot (s - 1) = true := by
        rw [hj2]; omega
      have hex : isSlotJustified s2.justifiedSlots s2.latestFinalized.slot (s - 1) ≠ none := by
        rw [isSlotJustified_gt (by rw [f1, hf]; omega)]
        have hw := hinv2.win
        have hl := hinv2.histLen
        rw [hist2, List.length_append, hlen, List.length_singleton] at hl
        intro hnone
        rw [List.getElem?_eq_none_iff] at hnone
        omega
      show isSlotJustified _ _ (s - 1) = _
      cases hx : isSlotJustified s2.justifiedSlots s2.latestFinalized.slot (s - 1) with
      | none => exact absurd hx hex
      | some x =>
        cases x with
        | false => rfl
        | true => exact absurd (jst_of_some hx) hnj
    · intro x hx
      rw [hist2]
      simp only [lineVote, List.mem_cons, List.not_mem_nil, or_false] at hx
      rcases hx with rfl | rfl | rfl
      · exact ⟨hnz (s - 2) (by omega), hget (s - 2) (by omega)⟩
      · exact ⟨hnz (s - 1) (by omega), hget (s - 1) (by omega)⟩
      · exact ⟨hnz s (by omega), hget s (by omega)⟩
    · left
      show s - 1 - s2.latestFinalized.slot ≤ 5
      rw [f1, hf]
      omega
  have hsm : SuperMaj (fun v => Recorded s2 (lineVote f s).target.root v ∨ ∃ p ∈ [a], In v p)
      vals.length := by
    refine ⟨List.range vals.length, List.nodup_range, fun v hv => ?_, by
      rw [List.length_range]; omega⟩
    have := List.mem_range.1 hv
    exact ⟨this, .inr ⟨a, List.mem_singleton_self _, ha v this⟩⟩
  have hnew : 2 ≤ s → jst imp.justifiedSlots imp.latestFinalized.slot (s - 1) = true := by
    intro h2
    obtain ⟨k, k1, k2⟩ := C87_justifies hz hc ho (by omega) hlim hv hn hkey hpool hu hagg hmax h
      hs1 hs2 he hk (hcd h2) hsm
    rw [← himp.1, ← himp.2] at k2
    have k2 := jst_of_some k2
    have : k ≤ s - 1 := C.bound k k2
    have : ¬ k ≤ s - 2 := fun hle => k1 (jst_eq_true ((hj2 k).2 hle))
    obtain rfl : k = s - 1 := by omega
    exact k2
  have hjge : s - 1 ≤ imp.latestJustified.slot := by
    rcases Nat.lt_or_ge s 2 with h2 | h2
    · omega
    · exact C.max _ (hnew h2)
  have hfin : imp.latestFinalized.slot = s - 2 := by
    have hup : imp.latestFinalized.slot ≤ s - 2 := by
      by_cases hm : imp.latestFinalized.slot = st.latestFinalized.slot
      · omega
      · obtain ⟨-, -, -, T, -, -, g3, -, g5, -⟩ := C08_finalization_consecutive hc hi hm
        have := C.bound _ (jst_of_some g5)
        omega
    rcases Nat.lt_or_ge s 3 with h3 | h3
    · omega
    · have := C87_finalizes hz hc ho (by omega) hlim hv hn hkey hpool hu hagg hmax h
        hs1 hs2 he hk (hcd (by omega)) hsm (by simp only [lineVote]; omega)
        (fun k k1 k2 => by simp only [lineVote] at k1 k2; omega)
      rw [← himp.2] at this
      omega
  refine ⟨by omega, hfin, fun k => ⟨fun hk => C.bound k hk, fun hk => ?_⟩, hbody⟩
  rcases Nat.lt_or_ge s 2 with h2 | h2
  · exact jst_le (by omega)
  · rcases Nat.lt_or_ge k (s - 1) with hlt | hge
    · have hne : bs ≠ [] := by
        rintro rfl
        cases hc
        simp [State.fromGenesis] at hslot
        omega
      exact jst_of_some (C05_justification_never_revoked hc hne (.cons .nil hi) k
        (jst_eq_true ((hjs k).2 (by omega))))
    · obtain rfl : k = s - 1 := by omega
      exact hnew h2

end Verif.Node
