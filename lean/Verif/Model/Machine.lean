import Verif.Model.StateTransition
import Verif.Model.Store
/-!
# 64-bit words

The other models compute slots and lengths with unbounded numbers. This one repeats the state
transition, the clock and the time checks with the operations of a release build: `+`, `-` and `*` on
`u64` and `usize` wrap (`Cargo.toml` 38-41 leaves `overflow-checks` off), `saturating_*` and `checked_*` are
as named. `usize` has 64 bits.
-/
namespace Verif.Mach
open Verif

/-- `+` on `u64`. -/
def add (a b : Nat) : Nat := (a + b) % 2 ^ 64

/-- `-` on `u64`. -/
def sub (a b : Nat) : Nat := (a + (2 ^ 64 - b % 2 ^ 64)) % 2 ^ 64

/-- `*` on `u64`. -/
def mul (a b : Nat) : Nat := a * b % 2 ^ 64

/-- `u64::saturating_mul`. -/
def satMul (a b : Nat) : Nat := min (a * b) (2 ^ 64 - 1)

/-- `extend_to_slot` (`justified_slots_ops.rs` 53-69). `relative_index` only uses `checked_sub`. -/
def extendToSlot (slots : List Bool) (finalized target : Nat) : Option (List Bool) :=
  match JustifiedSlots.relativeIndex target finalized with
  | none => some slots
  | some idx =>
    if slots.length ≥ add idx 1 then some slots
    else if add idx 1 ≤ historicalRootsLimit then
      some (slots ++ List.replicate (add idx 1 - slots.length) false)
    else none

/-- `process_block_header` (`state_transition/src/lib.rs` 135-228). -/
def processBlockHeader (H : Hash) (s : State) (b : Block) : Except StfError State :=
  let parent := s.latestBlockHeader
  if b.slot ≠ s.slot then .error .slotMismatch
  else if b.slot ≤ parent.slot then .error .parentSlotIsNewer
  else match currentProposer b.slot s.validators.length with
  | none => .error .noValidators
  | some expected =>
  if b.proposerIndex ≠ expected then .error .invalidProposer
  else
  let parentRoot := H.header parent
  if b.parentRoot ≠ parentRoot then .error .invalidParent
  else
  let s := if parent.slot = 0 then
      { s with
        latestJustified := { s.latestJustified with root := parentRoot }
        latestFinalized := { s.latestFinalized with root := parentRoot } }
    else s
  -- 185-187
  let numEmpty := sub (sub b.slot parent.slot) 1
  if add (add s.historicalBlockHashes.length 1) numEmpty > historicalRootsLimit then
    .error .slotGapTooLarge
  else
  let hist := s.historicalBlockHashes ++ parentRoot :: List.replicate numEmpty 0
  -- 210
  match extendToSlot s.justifiedSlots s.latestFinalized.slot (sub b.slot 1) with
  | none => .error (.panicked 211)
  | some js =>
  .ok { s with
    historicalBlockHashes := hist
    justifiedSlots := js
    latestBlockHeader :=
      { slot := b.slot, proposerIndex := b.proposerIndex, parentRoot := b.parentRoot,
        bodyRoot := H.body b.body, stateRoot := 0 } }

/-- The unpacking of the flat vote list (309-319): segment `i` is `i * n .. (i + 1) * n`. -/
def unpackTally (n : Nat) (roots : List Root) (flat : List Bool) : Tally :=
  (List.range roots.length).foldl (fun t i =>
    match roots[i]? with
    | none => t
    | some r => t.insert r
        ((List.range' (mul i n) (mul (add i 1) n - mul i n)).map
          (fun j => decide (flat[j]? = some true)))) []

/-- `root_to_slot` (325-333). -/
def rootToSlot (hist : List Root) (finalized : Nat) (r : Root) : Option Nat :=
  ((List.range hist.length).filter
    (fun k => decide (add finalized 1 ≤ k) && decide (hist[k]? = some r))).getLast?

/-- `try_finalize` (480-534). -/
def tryFinalize (s : State) (source target : Checkpoint) (t : Tally)
    (rts : Root → Option Nat) : State × Tally :=
  if source.slot ≤ s.latestFinalized.slot then (s, t)
  else if (List.range' (add source.slot 1) (target.slot - add source.slot 1)).any
      (fun k => slotIsJustifiableAfter k s.latestFinalized.slot) then (s, t)
  else
    let delta := sub source.slot s.latestFinalized.slot
    ({ s with
       latestFinalized := source
       justifiedSlots := JustifiedSlots.shiftWindow s.justifiedSlots delta },
     t.filter (fun e => match rts e.1 with
       | some k => decide (k > source.slot)
       | none => false))

/-- One iteration of the attestation loop (335-407). -/
def attStep (n : Nat) (rts : Root → Option Nat) (st : State × Tally) (a : AggAtt) :
    Except StfError (State × Tally) :=
  match isValidVote st.1 a.data with
  | .error e => .error e
  | .ok false => .ok st
  | .ok true =>
  if a.bits.count true = 0 then .error .emptyAggregationBits
  else if (List.range' n (a.bits.length - n)).any (fun i => decide (a.bits[i]? = some true)) then
    .error .aggregationBitsOutOfBounds
  else
  let votes0 := (st.2.get? a.data.target.root).getD (List.replicate n false)
  let votes := recordVotes votes0 a.bits
  let tally := st.2.insert a.data.target.root votes
  if mul 3 (votes.count true) ≥ mul 2 n then
    match JustifiedSlots.setJustified st.1.justifiedSlots st.1.latestFinalized.slot
        a.data.target.slot with
    | none => .error (.panicked 387)
    | some js =>
      let s := { st.1 with
        latestJustified := maxBySlot st.1.latestJustified a.data.target
        justifiedSlots := js }
      .ok (tryFinalize s a.data.source a.data.target (tally.erase a.data.target.root) rts)
  else .ok (st.1, tally)

/-- The attestation loop (335-407). -/
def attLoop (n : Nat) (rts : Root → Option Nat) :
    List AggAtt → State × Tally → Except StfError (State × Tally)
  | [], st => .ok st
  | a :: as, st =>
    match attStep n rts st a with
    | .error e => .error e
    | .ok st' => attLoop n rts as st'

/-- `serialize_justifications` (540-568). -/
def serializeJustifications (s : State) (t : Tally) (n : Nat) : Except StfError State :=
  let roots := sortRoots (t.map Prod.fst)
  let total := mul roots.length n
  if total > historicalRootsLimit * validatorRegistryLimit then .error (.panicked 553)
  else
  let flat := roots.flatMap (fun r => (t.get? r).getD [])
  if (flat.drop total).any id then .error (.panicked 562)
  else if roots.length > historicalRootsLimit then .error (.panicked 566)
  else .ok { s with
    justificationsRoots := roots
    justificationsValidators := (List.range total).map (fun i => decide (flat[i]? = some true)) }

/-- `process_attestations` (250-412). -/
def processAttestations (s : State) (atts : List AggAtt) : Except StfError State :=
  if distinctDataCount atts > maxAttestationsData then .error .tooManyAttestationData
  else
  let n := s.validators.length
  if n = 0 then .error .noValidators
  else if s.justificationsValidators.length ≠ mul s.justificationsRoots.length n then
    .error .justificationVotesLengthMismatch
  else if s.justificationsRoots.any (fun r => decide (r = 0)) then
    .error .zeroHashInJustificationRoots
  else
  let t := unpackTally n s.justificationsRoots s.justificationsValidators
  let rts := rootToSlot s.historicalBlockHashes s.latestFinalized.slot
  match attLoop n rts atts (s, t) with
  | .error e => .error e
  | .ok (s', t') => serializeJustifications s' t' n

/-- `state_transition` (66-92). `process_slots` has no arithmetic but a metric. -/
def stateTransition (H : Hash) (s : State) (b : Block) : Except StfError State :=
  match processSlots H s b.slot with
  | .error e => .error e
  | .ok s =>
  match processBlockHeader H s b with
  | .error e => .error e
  | .ok s =>
  match processAttestations s b.body with
  | .error e => .error e
  | .ok s => if b.stateRoot ≠ H.state s then .error .stateRootMismatch else .ok s

/-- The interval number of a timestamp (`blockchain/src/store.rs` 331-333). -/
def tickTarget (genesisTime timestampMs : Nat) : Nat :=
  (timestampMs - mul genesisTime 1000) / Node.msPerInterval

/-- The time check on votes (`blockchain/src/store.rs` 312-318) and on blocks (`blockchain/src/lib.rs`
1027-1029). -/
def tooFarInFuture (slot time : Nat) : Bool :=
  decide (satMul slot Node.intervalsPerSlot > add time Node.gossipDisparity)

end Verif.Mach
