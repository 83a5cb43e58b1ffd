import Verif.Model.Clock
/-!
# C41: time units convert consistently
-/
namespace Verif.Node
open Verif

/-- **C41.** The millisecond offset of an interval of a slot converts back to that interval, and so
does every millisecond until the next one; the slot is recovered too. For slots below `2^52` (over
500 million years). -/
theorem C41_ms_to_interval (i : Interval) (slot x : Nat) (hs : slot < 2 ^ 52) (hx : x < 800) :
    Interval.ofMs (i.toMs slot + x) = some i ∧ (i.toMs slot + x) / 4000 = slot := by
  have hv : i.toMs slot = slot * 4000 + i.index * 800 := by
    have hi : i.index ≤ 4 := by cases i <;> simp [Interval.index]
    have e1 : slot * 4000 % u64 = slot * 4000 := Nat.mod_eq_of_lt (by unfold u64; omega)
    unfold Interval.toMs msPerSlot msPerInterval
    rw [e1]
    exact Nat.mod_eq_of_lt (by unfold u64; omega)
  rw [hv]
  have hi : i.index < 5 := by cases i <;> simp [Interval.index]
  refine ⟨?_, by omega⟩
  have h : (slot * 4000 + i.index * 800 + x) / msPerInterval % intervalsPerSlot = i.index := by
    unfold msPerInterval intervalsPerSlot; omega
  unfold Interval.ofMs Interval.ofCount
  rw [h]
  cases i <;> rfl

/-- **C41.** Every `u64` millisecond since genesis has an interval (the `unreachable!` is
unreachable), and converting that interval of its slot back gives the last boundary at or before
it. -/
theorem C41_interval_to_ms (ms : Nat) (h : ms < 2 ^ 64) :
    ∃ i, Interval.ofMs ms = some i ∧ i.toMs (ms / 4000) ≤ ms ∧ ms < i.toMs (ms / 4000) + 800 ∧
      800 ∣ i.toMs (ms / 4000) := by
  have h5 : ms / msPerInterval % intervalsPerSlot < 5 := Nat.mod_lt _ (by decide)
  have key : ∀ i : Interval, ms / msPerInterval % intervalsPerSlot = i.index →
      Interval.ofMs ms = some i ∧ i.toMs (ms / 4000) ≤ ms ∧ ms < i.toMs (ms / 4000) + 800 ∧
        800 ∣ i.toMs (ms / 4000) := by
    intro i e
    refine ⟨?_, ?_⟩
    · unfold Interval.ofMs Interval.ofCount
      rw [e]
      cases i <;> rfl
    · have e' : ms / 800 % 5 = i.index := e
      have hv : i.toMs (ms / 4000) = ms / 4000 * 4000 + i.index * 800 := by
        unfold Interval.toMs msPerSlot msPerInterval u64
        omega
      rw [hv]
      omega
  generalize hk : ms / msPerInterval % intervalsPerSlot = k at h5 key
  match k, h5 with
  | 0, _ => exact ⟨.publication, key .publication rfl⟩
  | 1, _ => exact ⟨.attestation, key .attestation rfl⟩
  | 2, _ => exact ⟨.aggregation, key .aggregation rfl⟩
  | 3, _ => exact ⟨.safeTarget, key .safeTarget rfl⟩
  | 4, _ => exact ⟨.endOfSlot, key .endOfSlot rfl⟩

/-- **C41.** At or after genesis the delay is 1 to 800 ms and ends on the first interval boundary
strictly later than now. -/
theorem C41_delay (now genesis : Nat) (h : genesis ≤ now) :
    1 ≤ msUntilNext now genesis ∧ msUntilNext now genesis ≤ 800 ∧
    800 ∣ (now + msUntilNext now genesis - genesis) ∧
    ∀ t, now < t → 800 ∣ (t - genesis) → now + msUntilNext now genesis ≤ t := by
  have e : msUntilNext now genesis = 800 - (now - genesis) % 800 := by
    unfold msUntilNext; rw [if_pos h]; rfl
  rw [e]
  refine ⟨by omega, by omega, by omega, fun t h1 h2 => by omega⟩

/-- **C41.** Before genesis the delay ends exactly at genesis. -/
theorem C41_before_genesis (now genesis : Nat) (h : now < genesis) :
    1 ≤ msUntilNext now genesis ∧ now + msUntilNext now genesis = genesis := by
  have e : msUntilNext now genesis = genesis - now := by
    unfold msUntilNext; rw [if_neg (by omega)]
  rw [e]; omega

/-- **C41.** No interval is slept through: after a tick read at `now` and finished at `after`, the
next tick is due at the first boundary after `now`, or at once if the handler ran past it. -/
theorem C41_next_tick (genesis now after : Nat) (hg : genesis ≤ now) (ha : now ≤ after) :
    after + nextDelay genesis now after = max after (now + msUntilNext now genesis) := by
  obtain ⟨h1, h2, h3, h4⟩ := C41_delay now genesis hg
  obtain ⟨g1, g2, g3, g4⟩ := C41_delay after genesis (by omega)
  unfold nextDelay
  split
  · omega
  next hlt =>
    have a1 := g4 (now + msUntilNext now genesis) (by omega) h3
    have a2 := h4 (after + msUntilNext after genesis) (by omega) g3
    omega

/-- The bound on the slot is needed: the multiplication wraps for slots around `2^64 / 4000`. -/
theorem C41_wraps : Interval.publication.toMs 4611686018427388 = 384 := by decide

/-! Instances. -/

example : Interval.ofMs (Interval.aggregation.toMs 7 + 799) = some .aggregation := by decide
example : msUntilNext 1_000_801 1_000_000 = 799 ∧ msUntilNext 1_000_800 1_000_000 = 800 := by decide
example : nextDelay 0 100 750 = 50 ∧ nextDelay 0 100 900 = 0 := by decide

end Verif.Node
