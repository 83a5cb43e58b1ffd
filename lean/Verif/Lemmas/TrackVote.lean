import Verif.Lemmas.TrackTick
import Verif.Spec.Pace
/-!
# The votes of a node on a track
-/
namespace Verif.Node
open Verif Verif.Db Verif.Sync Verif.Buffers Verif.Build

/-- The vote of slot `s` on the line with source slot `j` and target slot `t`. -/
def voteOn (f : Nat → Root) (s j t : Nat) : AttData :=
  { slot := s, head := ⟨f s, s⟩, target := ⟨f t, t⟩, source := ⟨f j, j⟩ }

theorem lastJustifiable_le (fin k : Nat) : lastJustifiable fin k ≤ k := by
  induction k with
  | zero => exact Nat.le_refl _
  | succ k ih =>
    unfold lastJustifiable
    split
    · exact Nat.le_refl _
    · omega

theorem lastJustifiable_ok (fin k : Nat) : lastJustifiable fin k ≤ fin ∨
    slotIsJustifiableAfter (lastJustifiable fin k) fin = true := by
  induction k with
  | zero => exact .inl (Nat.zero_le _)
  | succ k ih =>
    unfold lastJustifiable
    split
    · assumption
    · exact ih

/-- What the slot starts with. -/
def paceOf (s z : Nat) (top : State) : Pace := ⟨s, top.latestJustified.slot, top.latestFinalized.slot, z⟩

section
variable {E : Env} {t : Nat} {vals : List Validator} {K : Header → Prop} {root : Root}
  {anchor : State} {f : Nat → Root} {s : Nat} {top : State} {ops : List Db.Op} {σ : Store}

theorem Line.walkSafe {hs : AMap Root Header} (L : Line hs f s) {z : Nat} : ∀ (n i : Nat)
    (h : Header), i ≤ s → z ≤ i → hs.get? (f i) = some h →
    ∃ h', walkToSafe hs z n (f i) h = .ok (f (max z (i - n)), h') ∧
      hs.get? (f (max z (i - n))) = some h' := by
  intro n
  induction n with
  | zero =>
    intro i h hi hz hg
    refine ⟨h, ?_, ?_⟩
    · rw [show max z (i - 0) = i by omega]; rfl
    · rw [show max z (i - 0) = i by omega]; exact hg
  | succ n ih =>
    intro i h hi hz hg
    have hsl : h.slot = i := by
      obtain ⟨x, x1, x2⟩ := L.mem i hi
      rw [hg] at x1
      cases x1
      exact x2
    unfold walkToSafe
    rw [hsl]
    rcases Nat.lt_or_ge z i with hlt | hge
    · obtain ⟨i, rfl⟩ := Nat.exists_eq_succ_of_ne_zero (show i ≠ 0 by omega)
      rw [if_pos hlt, L.up i h (by omega) hg]
      obtain ⟨x, x1, x2⟩ := L.mem i (by omega)
      rw [x1]
      simp only
      obtain ⟨h', h1, h2⟩ := ih i x (by omega) (by omega) x1
      rw [show max z (i.succ - (n + 1)) = max z (i - n) by omega]
      exact ⟨h', h1, h2⟩
    · obtain rfl : i = z := by omega
      rw [if_neg (Nat.lt_irrefl _), show max i (i - (n + 1)) = i by omega]
      exact ⟨h, rfl, hg⟩

theorem Line.walkJust {hs : AMap Root Header} (L : Line hs f s) {fin : Nat} : ∀ (n i : Nat)
    (h : Header), i ≤ s → i < n → hs.get? (f i) = some h →
    ∃ h', walkToJustifiable hs fin n (f i) h = .ok (f (lastJustifiable fin i), h') ∧
      hs.get? (f (lastJustifiable fin i)) = some h' := by
  intro n
  induction n with
  | zero => intro i h hi hz; omega
  | succ n ih =>
    intro i h hi hz hg
    have hsl : h.slot = i := by
      obtain ⟨x, x1, x2⟩ := L.mem i hi
      rw [hg] at x1
      cases x1
      exact x2
    unfold walkToJustifiable
    rw [hsl]
    cases i with
    | zero =>
      rw [if_neg (by omega)]
      exact ⟨h, rfl, hg⟩
    | succ i =>
      unfold lastJustifiable
      by_cases hc : i + 1 ≤ fin ∨ slotIsJustifiableAfter (i + 1) fin = true
      · rw [if_neg (by
          rintro ⟨h1, h2⟩
          rcases hc with hc | hc
          · omega
          · exact h2 hc), if_pos hc]
        exact ⟨h, rfl, hg⟩
      · rw [not_or] at hc
        rw [if_pos ⟨by omega, hc.2⟩, if_neg (not_or.2 hc), L.up i h (by omega) hg]
        obtain ⟨x, x1, x2⟩ := L.mem i (by omega)
        rw [x1]
        exact ih i x (by omega) (by omega) x1

theorem Line.length {hs : AMap Root Header} (L : Line hs f s) : s + 1 ≤ hs.length := by
  have hn : ((List.range (s + 1)).map f).Nodup := by
    rw [List.nodup_map_iff_inj_on List.nodup_range]
    intro i hi j hj h
    obtain ⟨x, x1, x2⟩ := L.mem i (by rw [List.mem_range] at hi; omega)
    obtain ⟨y, y1, y2⟩ := L.mem j (by rw [List.mem_range] at hj; omega)
    rw [h, y1] at x1
    cases x1
    omega
  have hsub : (List.range (s + 1)).map f ⊆ hs.keys := by
    intro r hr
    obtain ⟨i, hi, rfl⟩ := List.mem_map.1 hr
    obtain ⟨x, x1, -⟩ := L.mem i (by rw [List.mem_range] at hi; omega)
    exact AMap.mem_keys_iff.2 ⟨_, x1⟩
  have := (List.subperm_of_subset hn hsub).length_le
  unfold AMap.keys at this
  rwa [List.length_map, List.length_range, List.length_map] at this

theorem Pace.aim_le {p : Pace} (h1 : p.just ≤ p.slot) (h2 : p.safe ≤ p.slot) : p.aim ≤ p.slot := by
  unfold Pace.aim
  have := lastJustifiable_le p.fin (max p.safe (p.slot - 3))
  omega

theorem Pace.just_le (p : Pace) : p.just ≤ p.aim := Nat.le_max_left _ _

theorem Track.target (R : Track E t vals K root anchor f s top ops σ) {z : Nat} (hz : z ≤ s)
    (hs : σ.mem.db.safeTarget = f z) :
    attestationTarget σ σ.mem.db.justified σ.mem.db.finalized =
      .ok ⟨f (paceOf s z top).aim, (paceOf s z top).aim⟩ := by
  obtain ⟨hh, a1, a2⟩ := R.line.mem s (Nat.le_refl _)
  obtain ⟨sh, b1, b2⟩ := R.line.mem z hz
  obtain ⟨h1, w1, w2⟩ := R.line.walkSafe (z := z) lookback s hh (Nat.le_refl _) hz a1
  have hlen := R.line.length
  obtain ⟨h2, w3, w4⟩ := R.line.walkJust (fin := σ.mem.db.finalized.slot)
    (σ.mem.db.headers.length + 1) _ h1 (by omega) (by omega) w2
  unfold attestationTarget Store.header
  rw [hs, R.head, a1, b1]
  simp only
  rw [b2, w1]
  simp only
  rw [w3]
  simp only
  have hl : h2.slot = lastJustifiable σ.mem.db.finalized.slot (max z (s - lookback)) := by
    have hle := lastJustifiable_le σ.mem.db.finalized.slot (max z (s - lookback))
    obtain ⟨x, x1, x2⟩ := R.line.mem (lastJustifiable σ.mem.db.finalized.slot (max z (s - lookback)))
      (by omega)
    rw [w4] at x1
    cases x1
    exact x2
  have hj := R.justRoot
  have hjs := R.just
  rw [hl, R.fin]
  show _ = Except.ok _
  unfold paceOf Pace.aim
  simp only
  rw [show s - 3 = s - lookback from rfl]
  split
  next hlt =>
    rw [hjs] at hlt
    rw [Nat.max_eq_left (Nat.le_of_lt hlt)]
    cases hx : σ.mem.db.justified with
    | mk r k =>
      rw [hx] at hj hjs
      simp only at hj hjs
      rw [hj, hjs]
  next hlt =>
    rw [hjs] at hlt
    rw [Nat.max_eq_right (Nat.le_of_not_lt hlt)]

/-- The source of the votes. -/
theorem Track.source (W : World E t vals [] (State.fromGenesis E.H t vals) K)
    (R : Track E t vals K root anchor f s top ops σ) :
    (if top.latestJustified.root = 0 then { top.latestJustified with root := f s }
      else top.latestJustified) = ⟨f top.latestJustified.slot, top.latestJustified.slot⟩ := by
  obtain ⟨cs, hne, hc⟩ := R.chain
  obtain ⟨c1, -, c3, -⟩ := C06_checkpoints_in_history W.headerNZ hc hne
  rw [if_neg c3]
  rw [R.hist _ R.order.2] at c1
  cases hj : top.latestJustified with
  | mk r sl =>
    rw [hj] at c1
    rw [Option.some.inj c1]

/-- The vote a node on a track produces. -/
theorem Track.produce (W : World E t vals [] (State.fromGenesis E.H t vals) K)
    (R : Track E t vals K root anchor f s top ops σ) {z : Nat} (hz : z ≤ s)
    (hs : σ.mem.db.safeTarget = f z) :
    ∃ σ' ops', produceAttestationData σ s =
        .ok (voteOn f s top.latestJustified.slot (paceOf s z top).aim, σ') ∧ σ'.mem.db = σ.mem.db ∧
      SameMem σ σ' ∧ Track E t vals K root anchor f s top ops' σ' := by
  obtain ⟨σ', g1, g2, g3, R'⟩ := R.getState W (f s)
  rw [R.topIs] at g1
  obtain ⟨hh, a1, a2⟩ := R.line.mem s (Nat.le_refl _)
  refine ⟨σ', _, ?_, g2, g3, R'⟩
  unfold produceAttestationData
  simp only
  rw [R.head, g1]
  simp only
  unfold Store.header
  rw [g2, a1]
  simp only
  have ht := R'.target hz (by rw [g2]; exact hs)
  rw [g2] at ht
  rw [ht, a2, R.source W]
  rfl

/-- The vote is valid for the node itself. -/
theorem Track.voteOk (W : World E t vals [] (State.fromGenesis E.H t vals) K)
    (R : Track E t vals K root anchor f s top ops σ) (ht : 5 * s ≤ σ.mem.db.time + 1) {j u : Nat}
    (hj : j ≤ u) (hu : u ≤ s) : validateData σ (voteOn f s j u) = .ok (.ok ()) := by
  obtain ⟨rank, hr⟩ := R.inv.rank W
  obtain ⟨sf, f1, f2⟩ := R.inv.cp.fin
  have hk : ∀ i, i ≤ s → KnownAt σ.mem.db.headers ⟨f i, i⟩ := fun i hi => by
    obtain ⟨h, h1, h2⟩ := R.line.mem i hi
    exact ⟨h, h1, h2⟩
  refine slotwise_accepted (rank := rank) hr ?_ ?_
  · exact ⟨_, (R.inv.tree.own _ _ f1).2, by rw [R.inv.tree.slotEq _ _ f1, f2]⟩
  · refine ⟨hk _ (by omega), hk _ (by omega), hk _ (Nat.le_refl _), ?_, ?_, ?_, Nat.le_refl _, ?_⟩
    · exact R.line.anc' (by omega) (by omega)
    · exact R.line.anc' (by omega) (by omega)
    · rw [(R.root_eq f1).2]
      exact R.line.anc' (R.root_eq f1).1 (Nat.le_refl _)
    · show s * 5 ≤ _
      omega
end

end Verif.Node
