import Verif.Model.StateTransition
/-!
# C04: jumping over empty slots equals processing them one by one
-/
namespace Verif

/-- The specification's `process_slot`: cache the state root in the latest header if it is not
there yet, then advance the slot counter by one. -/
def specSlot (H : Hash) (s : State) : State :=
  let s := if s.latestBlockHeader.stateRoot = 0 then
      { s with latestBlockHeader := { s.latestBlockHeader with stateRoot := H.state s } }
    else s
  { s with slot := s.slot + 1 }

/-- The specification's loop `while state.slot < target`: `k` more single steps. -/
def specSlots (H : Hash) : Nat → State → State
  | 0, s => s
  | k + 1, s => specSlots H k (specSlot H s)

theorem specSlots_cached (H : Hash) (k : Nat) (s : State) (h : s.latestBlockHeader.stateRoot ≠ 0) :
    specSlots H k s = { s with slot := s.slot + k } := by
  induction k generalizing s with
  | zero => rfl
  | succ k ih =>
    have e : specSlot H s = { s with slot := s.slot + 1 } := by
      unfold specSlot; rw [if_neg h]
    rw [specSlots, e, ih { s with slot := s.slot + 1 } h]
    simp only [State.mk.injEq, and_true, true_and]
    omega

/-- The direct jump is the slot-by-slot loop, for every state and target (provided state roots
are never the zero hash). -/
theorem C04_jump_eq_loop (H : Hash) (hz : ∀ s, H.state s ≠ 0) (s : State) (target : Nat) :
    processSlots H s target =
      if s.slot < target then .ok (specSlots H (target - s.slot) s)
      else .error .stateSlotIsNewer := by
  unfold processSlots
  by_cases h : s.slot < target
  · rw [if_neg (by omega), if_pos h]
    obtain ⟨k, hk⟩ : ∃ k, target - s.slot = k + 1 := ⟨target - s.slot - 1, by omega⟩
    rw [hk, specSlots, specSlots_cached]
    · simp only [Except.ok.injEq]
      unfold specSlot
      by_cases hr : s.latestBlockHeader.stateRoot = 0
      · simp only [if_pos hr, State.mk.injEq, and_true, true_and]; omega
      · simp only [if_neg hr, State.mk.injEq, and_true, true_and]; omega
    · unfold specSlot
      by_cases hr : s.latestBlockHeader.stateRoot = 0
      · simp only [if_pos hr]; exact hz s
      · simp only [if_neg hr]; exact hr
  · rw [if_pos (by omega), if_neg h]

/-- Non-vacuity: a three-slot jump from a genesis-like state. -/
example : ∃ H : Hash, (∀ s, H.state s ≠ 0) ∧
    (processSlots H (State.fromGenesis H 0 []) 3).toOption.map
      (fun s => (s.slot, s.latestBlockHeader.stateRoot)) = some (3, 7) :=
  ⟨{ state := fun _ => 7, header := fun _ => 1, body := fun _ => 1, attData := fun _ => 1 },
    fun _ => Nat.succ_ne_zero 6, by decide⟩

end Verif
