import Verif.Model.Types
import Verif.Model.Justifiable
import Verif.Model.JustifiedSlots
/-!
# The state transition function

`crates/blockchain/state_transition/src/lib.rs`.
-/
namespace Verif

/-- `Error` (`state_transition/src/lib.rs` 14-61), without payloads, plus `panicked` for the
`expect`s reachable in the code (each carries the line of the `expect`). -/
inductive StfError where
  | stateSlotIsNewer
  | slotMismatch
  | parentSlotIsNewer
  | invalidProposer
  | invalidParent
  | noValidators
  | stateRootMismatch
  | slotGapTooLarge
  | zeroHashInJustificationRoots
  | justificationVotesLengthMismatch
  | emptyAggregationBits
  | aggregationBitsOutOfBounds
  | justifiedSlotOutOfRange
  | tooManyAttestationData
  | panicked (line : Nat)
  deriving DecidableEq, Repr

/-- `process_slots` (106-122). -/
def processSlots (H : Hash) (s : State) (target : Nat) : Except StfError State :=
  if s.slot ≥ target then .error .stateSlotIsNewer
  else
    let s := if s.latestBlockHeader.stateRoot = 0 then
        { s with latestBlockHeader := { s.latestBlockHeader with stateRoot := H.state s } }
      else s
    .ok { s with slot := target }

/-- `current_proposer` (237-239). -/
def currentProposer (slot numValidators : Nat) : Option Nat :=
  if numValidators > 0 then some (slot % numValidators) else none

/-- `is_proposer` (244-246). -/
def isProposer (validatorIndex slot numValidators : Nat) : Bool :=
  decide (currentProposer slot numValidators = some validatorIndex)

/-- `process_block_header` (135-228). -/
def processBlockHeader (H : Hash) (s : State) (b : Block) : Except StfError State :=
  let parent := s.latestBlockHeader
  if b.slot ≠ s.slot then .error .slotMismatch
  else if b.slot ≤ parent.slot then .error .parentSlotIsNewer
  else match currentProposer b.slot s.validators.length with
  | none => .error .noValidators
  | some expected =>
  if b.proposerIndex ≠ expected then .error .invalidProposer
  else
  let parentRoot := H.header parent
  if b.parentRoot ≠ parentRoot then .error .invalidParent
  else
  -- 175-179: first block after genesis rebases the placeholder checkpoint roots
  let s := if parent.slot = 0 then
      { s with
        latestJustified := { s.latestJustified with root := parentRoot }
        latestFinalized := { s.latestFinalized with root := parentRoot } }
    else s
  let numEmpty := b.slot - parent.slot - 1
  if s.historicalBlockHashes.length + 1 + numEmpty > historicalRootsLimit then
    .error .slotGapTooLarge
  else
  let hist := s.historicalBlockHashes ++ parentRoot :: List.replicate numEmpty 0
  match JustifiedSlots.extendToSlot s.justifiedSlots s.latestFinalized.slot (b.slot - 1) with
  | none => .error (.panicked 211)
  | some js =>
  .ok { s with
    historicalBlockHashes := hist
    justifiedSlots := js
    latestBlockHeader :=
      { slot := b.slot, proposerIndex := b.proposerIndex, parentRoot := b.parentRoot,
        bodyRoot := H.body b.body, stateRoot := 0 } }

/-- `attestation_data_matches_chain` (581-603). -/
def attestationDataMatchesChain (hist : List Root) (d : AttData) : Bool :=
  if d.source.root = 0 ∨ d.target.root = 0 ∨ d.head.root = 0 then false
  else if d.source.slot ≥ hist.length ∨ d.target.slot ≥ hist.length
      ∨ d.head.slot ≥ hist.length then false
  else decide (hist[d.source.slot]? = some d.source.root
    ∧ hist[d.target.slot]? = some d.target.root
    ∧ hist[d.head.slot]? = some d.head.root)

/-- `is_valid_vote` (431-470). -/
def isValidVote (s : State) (d : AttData) : Except StfError Bool :=
  match JustifiedSlots.isSlotJustified s.justifiedSlots s.latestFinalized.slot d.source.slot with
  | none => .error .justifiedSlotOutOfRange
  | some false => .ok false
  | some true =>
  match JustifiedSlots.isSlotJustified s.justifiedSlots s.latestFinalized.slot d.target.slot with
  | none => .error .justifiedSlotOutOfRange
  | some true => .ok false
  | some false =>
  if ¬ attestationDataMatchesChain s.historicalBlockHashes d then .ok false
  else if d.target.slot ≤ d.source.slot then .ok false
  else if ¬ slotIsJustifiableAfter d.target.slot s.latestFinalized.slot then .ok false
  else .ok true

/-- The in-memory `HashMap<H256, Vec<bool>>` of 309: an association list in arbitrary order. -/
abbrev Tally := List (Root × List Bool)

/-- `HashMap::get`. -/
def Tally.get? (t : Tally) (r : Root) : Option (List Bool) := t.lookup r

/-- `HashMap::insert`: replace in place, otherwise add. -/
def Tally.insert (t : Tally) (r : Root) (v : List Bool) : Tally :=
  if (t.lookup r).isSome then t.map (fun e => if e.1 = r then (r, v) else e)
  else (r, v) :: t

/-- `HashMap::remove`. -/
def Tally.erase (t : Tally) (r : Root) : Tally := t.filter (fun e => e.1 ≠ r)

/-- The unpacking of the flat vote list into the map (309-319). Segment `i` is
`i*n .. (i+1)*n`; a later duplicate root overwrites an earlier one (`collect` into a map). -/
def unpackTally (n : Nat) (roots : List Root) (flat : List Bool) : Tally :=
  (List.range roots.length).foldl (fun t i =>
    match roots[i]? with
    | none => t
    | some r => t.insert r
        ((List.range n).map (fun j => decide (flat[i * n + j]? = some true)))) []

/-- `root_to_slot` (325-333), as the lookup function of that map: the largest slot in
`finalized+1 .. hist.len()` whose history entry is `r`. Simplified: a function instead of a
materialised map; the enumeration is ascending so the last match is the maximum. -/
def rootToSlot (hist : List Root) (finalized : Nat) (r : Root) : Option Nat :=
  ((List.range hist.length).filter
    (fun k => decide (finalized < k) && decide (hist[k]? = some r))).getLast?

/-- Recording a vote (366-379): OR the attestation's bits into the tally vector. -/
def recordVotes (votes bits : List Bool) : List Bool :=
  votes.mapIdx (fun i v => v || decide (bits[i]? = some true))

/-- `try_finalize` (480-534). `root_to_slot` is passed as its lookup function. -/
def tryFinalize (s : State) (source target : Checkpoint) (t : Tally)
    (rts : Root → Option Nat) : State × Tally :=
  if source.slot ≤ s.latestFinalized.slot then (s, t)
  else if (List.range' (source.slot + 1) (target.slot - (source.slot + 1))).any
      (fun k => slotIsJustifiableAfter k s.latestFinalized.slot) then (s, t)
  else
    let delta := source.slot - s.latestFinalized.slot
    ({ s with
       latestFinalized := source
       justifiedSlots := JustifiedSlots.shiftWindow s.justifiedSlots delta },
     t.filter (fun e => match rts e.1 with
       | some k => decide (k > source.slot)
       | none => false))

/-- `std::cmp::max_by_key(a, b, |c| c.slot)`: the second argument wins ties. -/
def maxBySlot (a b : Checkpoint) : Checkpoint := if a.slot > b.slot then a else b

/-- One iteration of the attestation loop (335-407). -/
def attStep (n : Nat) (rts : Root → Option Nat) (st : State × Tally) (a : AggAtt) :
    Except StfError (State × Tally) :=
  match isValidVote st.1 a.data with
  | .error e => .error e
  | .ok false => .ok st
  | .ok true =>
  if a.bits.count true = 0 then .error .emptyAggregationBits
  else if (List.range' n (a.bits.length - n)).any (fun i => decide (a.bits[i]? = some true)) then
    .error .aggregationBitsOutOfBounds
  else
  let votes0 := (st.2.get? a.data.target.root).getD (List.replicate n false)
  let votes := recordVotes votes0 a.bits
  let tally := st.2.insert a.data.target.root votes
  if 3 * votes.count true ≥ 2 * n then
    match JustifiedSlots.setJustified st.1.justifiedSlots st.1.latestFinalized.slot
        a.data.target.slot with
    | none => .error (.panicked 387)
    | some js =>
      let s := { st.1 with
        latestJustified := maxBySlot st.1.latestJustified a.data.target
        justifiedSlots := js }
      .ok (tryFinalize s a.data.source a.data.target (tally.erase a.data.target.root) rts)
  else .ok (st.1, tally)

/-- The attestation loop (335-407), stopping at the first error (`?`). -/
def attLoop (n : Nat) (rts : Root → Option Nat) :
    List AggAtt → State × Tally → Except StfError (State × Tally)
  | [], st => .ok st
  | a :: as, st =>
    match attStep n rts st a with
    | .error e => .error e
    | .ok st' => attLoop n rts as st'

/-- Insertion into a sorted list. -/
def insertRoot (r : Root) : List Root → List Root
  | [] => [r]
  | x :: xs => if r ≤ x then r :: x :: xs else x :: insertRoot r xs

/-- `justification_roots.sort()` (548). Simplified: insertion sort; any sort gives the same list. -/
def sortRoots : List Root → List Root
  | [] => []
  | x :: xs => insertRoot x (sortRoots xs)

/-- `serialize_justifications` (540-568). The two limits are those of the SSZ types
(`types/src/state.rs` 52-61); exceeding them panics. `justifications[root]` (556) indexes a key
just enumerated from the same map, so the lookup always succeeds (`getD []` is never used,
lemma `Tally.get?_of_mem_keys`). The bit list of length `total` starts all-false (552-553) and
bit `i` is set for each voted position `i` of the flattened vectors (554-563); a voted position
at or beyond `total` panics. -/
def serializeJustifications (s : State) (t : Tally) (n : Nat) : Except StfError State :=
  let roots := sortRoots (t.map Prod.fst)
  let total := roots.length * n
  if total > historicalRootsLimit * validatorRegistryLimit then .error (.panicked 553)
  else
  let flat := roots.flatMap (fun r => (t.get? r).getD [])
  if (flat.drop total).any id then .error (.panicked 562)
  else if roots.length > historicalRootsLimit then .error (.panicked 566)
  else .ok { s with
    justificationsRoots := roots
    justificationsValidators := (List.range total).map (fun i => decide (flat[i]? = some true)) }

/-- Number of distinct attestation data (265-267). -/
def distinctDataCount (atts : List AggAtt) : Nat := (atts.map AggAtt.data).eraseDups.length

/-- `process_attestations` (250-412). -/
def processAttestations (s : State) (atts : List AggAtt) : Except StfError State :=
  if distinctDataCount atts > maxAttestationsData then .error .tooManyAttestationData
  else
  let n := s.validators.length
  if n = 0 then .error .noValidators
  else if s.justificationsValidators.length ≠ s.justificationsRoots.length * n then
    .error .justificationVotesLengthMismatch
  else if s.justificationsRoots.any (fun r => decide (r = 0)) then
    .error .zeroHashInJustificationRoots
  else
  let t := unpackTally n s.justificationsRoots s.justificationsValidators
  let rts := rootToSlot s.historicalBlockHashes s.latestFinalized.slot
  match attLoop n rts atts (s, t) with
  | .error e => .error e
  | .ok (s', t') => serializeJustifications s' t' n

/-- `process_block` (125-132). -/
def processBlock (H : Hash) (s : State) (b : Block) : Except StfError State :=
  match processBlockHeader H s b with
  | .error e => .error e
  | .ok s => processAttestations s b.body

/-- `state_transition` (66-92). -/
def stateTransition (H : Hash) (s : State) (b : Block) : Except StfError State :=
  match processSlots H s b.slot with
  | .error e => .error e
  | .ok s =>
  match processBlock H s b with
  | .error e => .error e
  | .ok s => if b.stateRoot ≠ H.state s then .error .stateRootMismatch else .ok s

/-- The state kept for an imported block: the transition followed by caching the state root in
the header (`crates/blockchain/src/store.rs` 675-681). -/
def importState (H : Hash) (s : State) (b : Block) : Except StfError State :=
  match stateTransition H s b with
  | .error e => .error e
  | .ok s => .ok { s with latestBlockHeader := { s.latestBlockHeader with stateRoot := b.stateRoot } }

end Verif
