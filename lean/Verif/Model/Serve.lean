import Verif.Model.Db

/-
Answering requests of other nodes.

Source (read as text, /repo/crates/net/p2p/src/req_resp/handlers.rs): `handle_status_request` 155-165,
`handle_blocks_by_root_request` 200-222, `handle_blocks_by_range_request` 224-259,
`canonical_blocks_by_range` 261-284, `build_status` 382-398; `MAX_REQUEST_BLOCKS` req_resp/messages.rs 8.

Each answer is computed from one state of the database.  In the code the reads of `build_status` are
separate and may straddle a write of the blockchain actor; database errors, which the code turns into an
empty answer, do not exist in the model.
-/

namespace Verif.Serve
open Verif Verif.Db

/-- `canonical_blocks_by_range` (261-284): `u64::checked_add` fails from `2^64` on. -/
def canonicalBlocksByRange (H : Hash) (db : Db) (start count : Nat) : List SignedBlock :=
  if count = 0 then []
  else if start + (count - 1) ≥ 2 ^ 64 then []
  else getSignedBlocksBySlotRange H db start (start + (count - 1))

/-- The answer to a range request; `none` is an `INVALID_REQUEST` error
(`handle_blocks_by_range_request` 224-259). -/
def answerRange (H : Hash) (db : Db) (start count : Nat) : Option (List SignedBlock) :=
  if count = 0 ∨ count > 1024 then none
  else some (canonicalBlocksByRange H db start count)

/-- The answer to a request by roots (`handle_blocks_by_root_request` 200-222). -/
def answerRoots (H : Hash) (db : Db) (roots : List Root) : List SignedBlock :=
  roots.filterMap (getSignedBlock H db)

/-- A status message. -/
structure Status where
  finalized : Checkpoint
  head : Checkpoint
  deriving DecidableEq, Repr

/-- `build_status` (382-398); the `unwrap` at 388 panics when the head's header is missing. -/
def buildStatus (db : Db) : P Status :=
  match db.headers.get? db.head with
  | none => .error 388
  | some h => .ok ⟨db.finalized, ⟨db.head, h.slot⟩⟩

end Verif.Serve
