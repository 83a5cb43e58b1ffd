/-!
# Sync status

`crates/blockchain/src/sync_status.rs` 46-126. Slots are `Nat`; `saturating_sub` is `Nat`
subtraction. Not modelled: the debug log and the shared atomic mirror.
-/
namespace Verif.Sync

/-- `SYNC_LAG_THRESHOLD` (49). -/
def lagThreshold : Nat := 4
/-- `NETWORK_STALL_THRESHOLD` (54). -/
def stallThreshold : Nat := 8
/-- `SYNC_HYSTERESIS_BAND` (56). -/
def hysteresis : Nat := 2

/-- `SyncStatusTracker` (58-67). -/
structure Tracker where
  syncing : Bool
  gateDuties : Bool

/-- `new` (80-85). -/
def Tracker.new (gate : Bool) : Tracker := ⟨false, gate⟩

/-- `update` (87-121); the returned status is `syncing`. -/
def Tracker.update (t : Tracker) (current head maxSeen : Nat) : Tracker :=
  let headLag := current - head
  let networkLag := current - maxSeen
  if networkLag > stallThreshold then { t with syncing := false }
  else if t.syncing then { t with syncing := decide (headLag > lagThreshold - hysteresis) }
  else { t with syncing := decide (headLag > lagThreshold) }

/-- `duties_allowed` (123-126). -/
def Tracker.dutiesAllowed (t : Tracker) : Bool := !t.gateDuties || !t.syncing

end Verif.Sync
