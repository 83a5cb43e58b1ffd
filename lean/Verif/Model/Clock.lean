import Verif.Model.Store
/-!
# The tick schedule

`crates/blockchain/src/lib.rs` 89-135 and 1296-1338. Times are milliseconds as `u64`; the release
profile has no overflow checks, so `*` and `+` wrap.
-/
namespace Verif.Node
open Verif

/-- `2^64`. -/
def u64 : Nat := 18446744073709551616

/-- `MILLISECONDS_PER_SLOT` (`crates/common/types/src/constants.rs`). -/
def msPerSlot : Nat := 4000

/-- `SlotInterval::from_ms_since_genesis` (98-100); `none` is the `unreachable!`. -/
def Interval.ofMs (ms : Nat) : Option Interval := Interval.ofCount (ms / msPerInterval)

/-- The index in `to_ms_since_genesis` (117-123). -/
def Interval.index : Interval → Nat
  | .publication => 0
  | .attestation => 1
  | .aggregation => 2
  | .safeTarget => 3
  | .endOfSlot => 4

/-- `to_ms_since_genesis` (116-125). -/
def Interval.toMs (i : Interval) (slot : Nat) : Nat :=
  (slot * msPerSlot % u64 + i.index * msPerInterval) % u64

/-- `ms_until_next_interval` (129-135). -/
def msUntilNext (now genesis : Nat) : Nat :=
  if genesis ≤ now then msPerInterval - (now - genesis) % msPerInterval
  else genesis - now

/-- The delay `handle_tick` (1314-1337) schedules the next tick with: `now` is read before the tick
ran, `after` once it finished. -/
def nextDelay (genesis now after : Nat) : Nat :=
  if after - now ≥ msUntilNext now genesis then 0 else msUntilNext after genesis

end Verif.Node
