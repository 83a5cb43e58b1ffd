import Verif.Model.StateTransition
import Verif.Model.Db

/-
Checkpoint sync: fetching and checking an anchor state and block from another node.

Source (read as text, /repo):
* `bin/ethlambda/src/checkpoint_sync.rs`  `verify_checkpoint_state` 189-248, `fetch_finalized_anchor`
  154-181, `try_checkpoint_url` 253-276, `fetch_anchor_block_and_state` 282-313,
  `fetch_anchor_with_retry` 319-337
* `crates/common/types/src/genesis.rs`    `GenesisConfig::validators` 42-53, `verify_state_genesis` 77-114
* `crates/common/types/src/state.rs`      `anchor_pair_is_consistent` 141-160
* `crates/net/rpc/src/base.rs`            `get_latest_finalized_state` 22-38 (the serving side)

HTTP and SSZ are not modelled: the outcome of every single fetch is an input.
-/

namespace Verif.Ckpt
open Verif

inductive VerifyErr where
  | slotIsZero
  | noValidators
  | genesisTime
  | validatorCount
  | nonSequentialIndex
  | validatorPubkey
  | finalizedExceedsStateSlot
  | justifiedPrecedesFinalized
  | justifiedFinalizedRootMismatch
  | blockHeaderSlotExceedsState
  | blockHeaderFinalizedRootMismatch
  | blockHeaderJustifiedRootMismatch
  deriving DecidableEq, Repr

/-- `GenesisConfig::validators` (genesis.rs 42-53); an entry is (attestation key, proposal key). -/
def genesisValidators (entries : List (Nat × Nat)) : List Validator :=
  entries.mapIdx (fun i e => { attestationPubkey := e.1, proposalPubkey := e.2, index := i })

/-- The loop of `verify_state_genesis` (genesis.rs 96-111). -/
def verifyPairs : Nat → List (Validator × Validator) → Except VerifyErr Unit
  | _, [] => .ok ()
  | pos, (actual, expected) :: rest =>
    if actual.index ≠ pos then .error .nonSequentialIndex
    else if actual.attestationPubkey ≠ expected.attestationPubkey
        ∨ actual.proposalPubkey ≠ expected.proposalPubkey then .error .validatorPubkey
    else verifyPairs (pos + 1) rest

/-- `verify_state_genesis` (genesis.rs 77-114). -/
def verifyStateGenesis (s : State) (genesisTime : Nat) (expected : List Validator) :
    Except VerifyErr Unit :=
  if s.genesisTime ≠ genesisTime then .error .genesisTime
  else if s.validators.length ≠ expected.length then .error .validatorCount
  else verifyPairs 0 (s.validators.zip expected)

/-- `verify_checkpoint_state` (checkpoint_sync.rs 189-248). -/
def verifyCheckpointState (H : Hash) (s : State) (genesisTime : Nat) (expected : List Validator) :
    Except VerifyErr Unit :=
  if s.slot = 0 then .error .slotIsZero
  else if s.validators.isEmpty then .error .noValidators
  else match verifyStateGenesis s genesisTime expected with
    | .error e => .error e
    | .ok () =>
      if s.latestFinalized.slot > s.slot then .error .finalizedExceedsStateSlot
      else if s.latestJustified.slot < s.latestFinalized.slot then .error .justifiedPrecedesFinalized
      else if s.latestJustified.slot = s.latestFinalized.slot
          ∧ s.latestJustified.root ≠ s.latestFinalized.root then .error .justifiedFinalizedRootMismatch
      else if s.latestBlockHeader.slot > s.slot then .error .blockHeaderSlotExceedsState
      else
        let blockRoot := H.header s.latestBlockHeader
        if s.latestBlockHeader.slot = s.latestFinalized.slot
            ∧ blockRoot ≠ s.latestFinalized.root then .error .blockHeaderFinalizedRootMismatch
        else if s.latestBlockHeader.slot = s.latestJustified.slot
            ∧ blockRoot ≠ s.latestJustified.root then .error .blockHeaderJustifiedRootMismatch
        else .ok ()

/-- A state with the state root in its latest header set to `r`. -/
def withStateRoot (s : State) (r : Root) : State :=
  { s with latestBlockHeader := { s.latestBlockHeader with stateRoot := r } }

/-- `anchor_pair_is_consistent` (state.rs 141-160). -/
def anchorPairIsConsistent (H : Hash) (s : State) (b : Block) : Bool :=
  let stateHeader : Header := { s.latestBlockHeader with stateRoot := 0 }
  let blockHeader : Header := { b.header H with stateRoot := 0 }
  if stateHeader ≠ blockHeader then false
  else
    let saved := s.latestBlockHeader.stateRoot
    let computed := H.state (withStateRoot s 0)
    if saved ≠ 0 ∧ saved ≠ computed then false
    else decide (b.stateRoot = computed)

/-- The state `get_latest_finalized_state` serves (base.rs 30-36). -/
def serveState (s : State) : State := withStateRoot s 0

/-! ### Fetching -/

/-- Outcome of one `fetch_finalized_anchor`: the anchor pair, a torn pair
(`AnchorPairingMismatch`), or any other error. -/
inductive Outcome (A : Type) where
  | ok (a : A)
  | torn
  | fail (code : Nat)
  deriving DecidableEq, Repr

inductive SyncErr where
  | torn
  | fail (code : Nat)
  | noUrls
  deriving DecidableEq, Repr

/-- `fetch_finalized_anchor` (checkpoint_sync.rs 154-181), given what the two requests returned and
whether verification succeeded: `none` stands for a failed request. -/
def pairOutcome (H : Hash) (genesisTime : Nat) (expected : List Validator) (st : Option State)
    (blk : Option Block) : Outcome (State × Block) :=
  match st, blk with
  | some s, some b =>
    match verifyCheckpointState H s genesisTime expected with
    | .error _ => .fail 1
    | .ok () => if anchorPairIsConsistent H s b then .ok (s, b) else .torn
  | _, _ => .fail 0

/-- `MAX_ANCHOR_FETCH_ATTEMPTS` (26) and `MAX_CHECKPOINT_ATTEMPTS` (37). -/
def maxAnchorFetchAttempts : Nat := 3
def maxCheckpointAttempts : Nat := 5

/-- Every fetch made so far: URL and outcome, oldest first. -/
abbrev Log (A : Type) := List (Nat × Outcome A)

/-- `try_checkpoint_url` (253-276). `net n u` is the outcome of the `n`-th fetch of the run, should it
go to URL `u`; `left` is the number of attempts still allowed after this one. -/
def tryUrl {A : Type} (net : Nat → Nat → Outcome A) (u : Nat) :
    Nat → Log A → Except SyncErr A × Log A
  | left, log =>
    let o := net log.length u
    let log := log ++ [(u, o)]
    match o with
    | .ok a => (.ok a, log)
    | .fail c => (.error (.fail c), log)
    | .torn =>
      match left with
      | 0 => (.error .torn, log)
      | left + 1 => tryUrl net u left log

/-- `fetch_anchor_block_and_state` (282-313). -/
def tryAll {A : Type} (net : Nat → Nat → Outcome A) :
    List Nat → Option SyncErr → Log A → Except SyncErr A × Log A
  | [], lastErr, log =>
    match lastErr with
    | some e => (.error e, log)
    | none => (.error .noUrls, log)
  | u :: us, _, log =>
    match tryUrl net u (maxAnchorFetchAttempts - 1) log with
    | (.ok a, log) => (.ok a, log)
    | (.error e, log) => tryAll net us (some e) log

/-- `fetch_anchor_with_retry` (319-337); `left` is the number of rounds still allowed after this one. -/
def withRetry {A : Type} (net : Nat → Nat → Outcome A) (urls : List Nat) :
    Nat → Log A → Except SyncErr A × Log A
  | 0, log => tryAll net urls none log
  | left + 1, log =>
    match tryAll net urls none log with
    | (.ok a, log) => (.ok a, log)
    | (.error _, log) => withRetry net urls left log

end Verif.Ckpt
