import Verif.Model.Types
/-!
# The relative-indexed justified-slot window

`crates/blockchain/state_transition/src/justified_slots_ops.rs`.
-/
namespace Verif.JustifiedSlots

/-- `relative_index` (13-18): two `checked_sub`s. -/
def relativeIndex (target finalized : Nat) : Option Nat :=
  if target < finalized then none
  else if target - finalized < 1 then none
  else some (target - finalized - 1)

/-- `is_slot_justified` (28-42). `none` is `Err(JustifiedSlotOutOfRange)`. -/
def isSlotJustified (slots : List Bool) (finalized target : Nat) : Option Bool :=
  match relativeIndex target finalized with
  | none => some true
  | some idx => slots[idx]?

/-- `set_justified` (45-49). `none` is the panic of `expect("index out of bounds")`. -/
def setJustified (slots : List Bool) (finalized target : Nat) : Option (List Bool) :=
  match relativeIndex target finalized with
  | none => some slots
  | some idx => if idx < slots.length then some (slots.set idx true) else none

/-- `extend_to_slot` (53-69). `none` is the panic of `with_length(..).expect(..)`, which fails
above the SSZ limit `HISTORICAL_ROOTS_LIMIT`. The copy loop 63-67 keeps the old bits and
leaves the rest false. -/
def extendToSlot (slots : List Bool) (finalized target : Nat) : Option (List Bool) :=
  match relativeIndex target finalized with
  | none => some slots
  | some idx =>
    if slots.length ≥ idx + 1 then some slots
    else if idx + 1 ≤ historicalRootsLimit then
      some (slots ++ List.replicate (idx + 1 - slots.length) false)
    else none

/-- `shift_window` (72-89). The rebuild loop 83-87 copies bit `i + delta` to `i`, i.e. drops
the first `delta` bits. -/
def shiftWindow (slots : List Bool) (delta : Nat) : List Bool :=
  if delta = 0 then slots
  else if delta ≥ slots.length then []
  else slots.drop delta

end Verif.JustifiedSlots
