import Verif.Model.Signatures
import Verif.Model.BlockBuilder
import Verif.Model.Clock
/-!
# Proposing a block

Source: `crates/blockchain/src/store.rs` 887-972 and `crates/blockchain/src/lib.rs` 718-912.
-/
namespace Verif.Node
open Verif Verif.Db Verif.Buffers Verif.Build

/-- `get_proposal_head` (`store.rs` 887-898): tick to the start of the slot, promote the new votes. -/
def proposalStore (H : Hash) (s : Store) (slot : Nat) : P Store :=
  match onTick H s (s.genesisTime * 1000 + slot * msPerSlot) true with
  | .error e => .error e
  | .ok s => acceptNew H s

/-- `known_aggregated_payloads` (`storage/src/store.rs` 1510-1518). -/
def knownPool (s : Store) : Pool := s.knownP.data.map (fun x => (x.1, x.2.data, x.2.proofs))

/-- `produce_block_with_signatures` (`store.rs` 904-972) after `get_proposal_head`; `none` where it
returns an error. -/
def produceBlock (X : Crypto) (H : Hash) (ord : Root → List Nat → List Nat) (s : Store)
    (slot vid : Nat) (c : Config) : P (Store × Option (Block × List Agg)) :=
  match s.getState s.mem.db.head with
  | .error e => .error e
  | .ok (none, s) => .ok (s, none)
  | .ok (some st, s) =>
    if ¬ isProposer vid slot st.validators.length then .ok (s, none)
    else
      match buildBlock H (mergeProofs X H st.validators) ord st slot vid s.mem.db.head
          (s.mem.db.liveChain.map (fun e => e.1.2)) (knownPool s) c with
      | .error .panic => .error 0
      | .error _ => .ok (s, none)
      | .ok (b, proofs, _) => .ok (s, some (b, proofs))

/-- `propose_block` (`lib.rs` 718-898) and `process_and_publish_block` (902-923): the signed block and
the result of importing it, `none` if no block is made. The block is published iff the import
succeeds. -/
def proposeBlock (X : Crypto) (H : Hash) (ord : Root → List Nat → List Nat)
    (sign : Nat → Nat → Root → Option Nat) (s : Store) (slot vid : Nat) (c : Config) :
    P (Store × Option (SignedBlock × Except Err Unit)) :=
  match proposalStore H s slot with
  | .error e => .error e
  | .ok s =>
  match produceBlock X H ord s slot vid c with
  | .error e => .error e
  | .ok (s, none) => .ok (s, none)
  | .ok (s, some (b, proofs)) =>
  match headState s with
  | .error e => .error e
  | .ok (st, s) =>
  match assembleProof X H st sign slot vid b proofs with
  | none => .ok (s, none)
  | some sb =>
  match onBlock (envOf X H) s sb with
  | .error e => .error e
  | .ok (s, r) => .ok (s, some (sb, r))

end Verif.Node
