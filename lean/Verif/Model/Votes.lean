import Verif.Model.AMap
import Verif.Model.Bits
/-!
# Fork-choice votes

`ForkChoiceState` and its updates, `crates/storage/src/store.rs`.
-/
namespace Verif.Votes
open Verif

/-- `Store::should_replace_vote` (1449-1453). -/
def shouldReplace (H : Hash) (existing candidate : AttData) : Bool :=
  decide (candidate.slot > existing.slot) ||
  (decide (candidate.slot = existing.slot) &&
    decide (H.attData candidate > H.attData existing))

/-- `Store::record_vote` (1455-1466). -/
def recordVote (H : Hash) (votes : AMap Nat AttData) (vid : Nat) (d : AttData) :
    AMap Nat AttData :=
  match votes.get? vid with
  | none => votes.insert vid d
  | some e => if shouldReplace H e d then votes.insert vid d else votes

/-- The loops `for validator_id in ... { record_vote(..) }` (1471-1477, 1573-1575, ...). -/
def recordAll (H : Hash) (votes : AMap Nat AttData) (bits : Bits) (d : AttData) :
    AMap Nat AttData :=
  (validatorIndices bits).foldl (fun m v => recordVote H m v d) votes

/-- `ForkChoiceState` (317-320). -/
structure FC where
  known : AMap Nat AttData
  new : AMap Nat AttData

/-- One aggregated vote: participants and data. Simplified: the proof bytes play no role here. -/
abbrev AggVote := Bits × AttData

/-- Vote half of `insert_new_aggregated_payload(s_batch)` (1585-1611). -/
def insertNew (H : Hash) (s : FC) (entries : List AggVote) : FC :=
  { s with new := entries.foldl (fun m e => recordAll H m e.1 e.2) s.new }

/-- Vote half of `insert_known_aggregated_payloads_batch` (1566-1577) and of
`record_known_attestation_votes` (1468-1479): both fold over (participants, data). -/
def insertKnown (H : Hash) (s : FC) (entries : List AggVote) : FC :=
  { s with known := entries.foldl (fun m e => recordAll H m e.1 e.2) s.known }

/-- Vote half of `promote_new_aggregated_payloads` (1621-1629). `drained` is the enumeration of
`new_votes` produced by the hash map's `drain`, i.e. some permutation of it. -/
def promote (H : Hash) (s : FC) (drained : AMap Nat AttData) : FC :=
  { known := drained.foldl (fun m e => recordVote H m e.1 e.2) s.known, new := [] }

/-- `extract_latest_known_attestations` (1482): what fork choice for the head reads. -/
def headVotes (s : FC) : AMap Nat AttData := s.known

/-- `extract_latest_new_attestations` (1487): what the safe target reads. -/
def safeVotes (s : FC) : AMap Nat AttData := s.new

/-- Events that touch the votes: a gossip aggregate (or own aggregate) enters the pending pool,
votes of an imported block (or a locally built one) become known, the pending pool is promoted. -/
inductive Op
  | gossip (entries : List AggVote)
  | block (entries : List AggVote)
  | promote

/-- One event. The relation leaves the drain order of the hash map open. -/
inductive Step (H : Hash) : FC → Op → FC → Prop
  | gossip (s e) : Step H s (.gossip e) (insertNew H s e)
  | block (s e) : Step H s (.block e) (insertKnown H s e)
  | promote (s drained) : drained.Perm s.new → Step H s .promote (promote H s drained)

/-- Histories from the empty vote state; the newest event is first. -/
inductive Run (H : Hash) : List Op → FC → Prop
  | init : Run H [] ⟨[], []⟩
  | step {ops s op s'} : Run H ops s → Step H s op s' → Run H (op :: ops) s'

end Verif.Votes
