import Mathlib.Data.Nat.Sqrt
/-!
# `slot_is_justifiable_after`
-/
namespace Verif

/-- `u64::checked_mul` / `u64::checked_add` results: `none` on overflow. -/
def checkedU64 (v : Nat) : Option Nat := if v < 2 ^ 64 then some v else none

/-- `crates/blockchain/state_transition/src/lib.rs` 620-644. `u64::isqrt` is `Nat.sqrt` (the
floor square root). `isqrt().pow(2)` cannot overflow because `isqrt(v)² ≤ v`. -/
def slotIsJustifiableAfter (slot finalizedSlot : Nat) : Bool :=
  if slot < finalizedSlot then false
  else
    let delta := slot - finalizedSlot
    decide (delta ≤ 5)
      || decide (Nat.sqrt delta ^ 2 = delta)
      || match (checkedU64 (delta * 4)).bind (fun v => checkedU64 (v + 1)) with
         | some val => decide (Nat.sqrt val ^ 2 = val ∧ val % 2 = 1)
         | none => false

end Verif
