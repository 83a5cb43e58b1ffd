import Verif.Model.Types
/-!
# State diffs

`crates/storage/src/state_diff.rs`.
-/
namespace Verif.Db
open Verif

/-- `StateDiff` (29-44). -/
structure StateDiff where
  baseRoot : Root
  slot : Nat
  latestJustified : Checkpoint
  latestFinalized : Checkpoint
  justifiedSlots : List Bool
  justificationsRoots : List Root
  justificationsValidators : List Bool
  deriving DecidableEq, Repr, Inhabited

/-- `StateDiffError` (55-71); `slotUnderflow` is the unsigned subtraction of line 138 (a panic in
debug builds; in release builds the wrapped gap never matches and gives `appendLengthMismatch`). -/
inductive DiffError
  | slotUnderflow | historyShrank | appendLengthMismatch | firstAppendedNotBase
  | skippedSlotsNotZero
  deriving DecidableEq, Repr

/-- `validate_history_append` (158-184). -/
def validateHistoryAppend (hbh : List Root) (baseLen : Nat) (baseRoot : Root) (slotGap : Nat) :
    Except DiffError Unit :=
  if hbh.length < baseLen then .error .historyShrank
  else
    let appended := hbh.drop baseLen
    if appended.length ≠ slotGap then .error .appendLengthMismatch
    else if appended.head? ≠ some baseRoot then .error .firstAppendedNotBase
    else if ¬ ((appended.drop 1).all (fun h => decide (h = 0)) = true) then
      .error .skippedSlotsNotZero
    else .ok ()

/-- `StateDiff::from_states` (119-151). -/
def fromStates (H : Hash) (pre post : State) : Except DiffError StateDiff :=
  if post.slot < pre.slot then .error .slotUnderflow
  else
    match validateHistoryAppend post.historicalBlockHashes pre.historicalBlockHashes.length
        (H.header pre.latestBlockHeader) (post.slot - pre.slot) with
    | .error e => .error e
    | .ok () => .ok
      { baseRoot := H.header pre.latestBlockHeader
        slot := post.slot
        latestJustified := post.latestJustified
        latestFinalized := post.latestFinalized
        justifiedSlots := post.justifiedSlots
        justificationsRoots := post.justificationsRoots
        justificationsValidators := post.justificationsValidators }

/-- The replay loop (213-218): history and previous slot. `none` is the underflow of
`diff.slot - prev_slot - 1`. -/
def replay : List Root → Nat → List StateDiff → Option (List Root)
  | hbh, _, [] => some hbh
  | hbh, prev, d :: ds =>
    if d.slot < prev + 1 then none
    else replay (hbh ++ d.baseRoot :: List.replicate (d.slot - prev - 1) 0) d.slot ds

/-- `reconstruct` (198-234); `none` is a panic (no diffs, slot underflow, history limit). -/
def reconstruct (snapshot : State) (diffs : List StateDiff) (header : Header) : Option State :=
  match diffs.getLast? with
  | none => none
  | some target =>
    match replay snapshot.historicalBlockHashes snapshot.slot diffs with
    | none => none
    | some hbh =>
      if hbh.length > historicalRootsLimit then none
      else some
        { genesisTime := snapshot.genesisTime
          slot := target.slot
          latestBlockHeader := header
          latestJustified := target.latestJustified
          latestFinalized := target.latestFinalized
          historicalBlockHashes := hbh
          justifiedSlots := target.justifiedSlots
          validators := snapshot.validators
          justificationsRoots := target.justificationsRoots
          justificationsValidators := target.justificationsValidators }

end Verif.Db
