import Verif.Model.Actor
import Verif.Model.Clock
import Verif.Model.SyncStatus
import Verif.Model.Propose
/-!
# Validator duties of the blockchain actor

`on_tick`, `produce_attestations`, `propose_block` and the helpers they call
(`crates/blockchain/src/lib.rs` 287-470, 648-703, 718-923, 1271-1283). The signing functions
are parameters that may fail. Every signature the node asks its keys for is an output, with what is
published. Not modelled: aggregation sessions (they sign nothing), events, metrics, the sleep
before publication.
-/
namespace Verif.Node
open Verif Verif.Db Verif.Sync

/-- What does not change while a node runs: the parameters of the models of the store, the builder and
the signatures, and the node's keys. -/
structure VCtx where
  X : Crypto
  H : Hash
  /-- Enumeration order of a hash set of roots. -/
  order : List Root → List Root
  /-- What is recovered from an imported block. -/
  reagg : Store → SignedBlock → List (AttData × Buffers.Agg)
  /-- Enumeration order of a hash set of proofs in the block builder. -/
  ord : Root → List Nat → List Nat
  config : Build.Config
  /-- `key_manager.validator_ids()`: the keys of a hash map, in some order. -/
  ids : List Nat
  /-- `sign_attestation` (`key_manager.rs` 65-73); `none` if signing fails. -/
  sign : Nat → AttData → Option Nat
  /-- `sign_block_root` (75-83) for a validator, slot and root. -/
  signBlock : Nat → Nat → Root → Option Nat

/-- The parameters of the actor. -/
abbrev VCtx.ctx (c : VCtx) : Ctx := ⟨envOf c.X c.H, c.order, c.reagg⟩

/-- A message the node asks one of its keys to sign. -/
inductive Signed
  /-- A vote and the signature; it is published iff there is one. -/
  | vote (vid : Nat) (d : AttData) (sig : Option Nat)
  /-- A block root. `made` is the signed block with the result of its import, if it could be
  assembled; it is published iff that succeeded. -/
  | block (vid : Nat) (slot : Nat) (root : Root) (made : Option (SignedBlock × Except Err Unit))

/-- The actor with its sync tracker. -/
structure VNode where
  actor : Actor
  sync : Tracker

/-- `head_slot`. -/
def headSlot (s : Store) : P Nat :=
  match s.header s.mem.db.head with
  | none => .error 0
  | some h => .ok h.slot

/-- `update_sync_status` (1271-1283). -/
def updateSync (t : Tracker) (s : Store) (slot : Nat) : P Tracker :=
  match headSlot s with
  | .error e => .error e
  | .ok hs => .ok (t.update slot hs
      (((s.mem.db.liveChain.map (fun e => e.1.1)).max?).getD hs))

/-- `get_our_proposer` (648-656). -/
def ourProposer (ids : List Nat) (s : Store) (slot : Nat) : P (Option Nat × Store) :=
  match headState s with
  | .error e => .error e
  | .ok (st, s) => .ok (ids.find? (fun v => isProposer v slot st.validators.length), s)

/-- The loop of `produce_attestations` (665-702). -/
def signVotes (c : VCtx) (d : AttData) (agg : Bool) : List Nat → Store → P (Store × List Signed)
  | [], s => .ok (s, [])
  | v :: vs, s =>
    match c.sign v d with
    | none =>
      match signVotes c d agg vs s with
      | .error e => .error e
      | .ok (s, l) => .ok (s, .vote v d none :: l)
    | some sig =>
      match (if agg then R.store (onGossipAttestation c.ctx.E s v d sig true) else .ok s :
          P Store) with
      | .error e => .error e
      | .ok s =>
        match signVotes c d agg vs s with
        | .error e => .error e
        | .ok (s, l) => .ok (s, .vote v d (some sig) :: l)

/-- `produce_attestations` (658-703). -/
def produceVotes (c : VCtx) (s : Store) (slot : Nat) (agg : Bool) : P (Store × List Signed) :=
  match produceAttestationData s slot with
  | .error e => .error e
  | .ok (d, s) => signVotes c d agg c.ids s

/-- `propose_block` (718-898) and `process_and_publish_block` (902-923). -/
def propose (c : VCtx) (s : Store) (slot vid : Nat) : P (Store × List Signed) :=
  match proposalStore c.H s slot with
  | .error e => .error e
  | .ok s =>
  match produceBlock c.X c.H c.ord s slot vid c.config with
  | .error e => .error e
  | .ok (s, none) => .ok (s, [])
  | .ok (s, some (b, proofs)) =>
  match headState s with
  | .error e => .error e
  | .ok (st, s) =>
  match assembleProof c.X c.H st c.signBlock slot vid b proofs with
  | none => .ok (s, [.block vid slot (b.root c.H) none])
  | some sb =>
  match onBlock c.ctx.E s sb with
  | .error e => .error e
  | .ok (s, r) => .ok (s, [.block vid slot (b.root c.H) (some (sb, r))])

/-- The duties of an interval after the store's own tick (366-459). -/
def actorDuty (c : VCtx) (sync : Tracker) (slot : Nat) (agg : Bool) (i : Interval) (s : Store) :
    P (Store × List Signed) :=
  match i with
  | .attestation => if sync.dutiesAllowed then produceVotes c s slot agg else .ok (s, [])
  | .endOfSlot =>
    match ourProposer c.ids s (slot + 1) with
    | .error e => .error e
    | .ok (none, s) => .ok (s, [])
    | .ok (some v, s) =>
      if sync.dutiesAllowed then propose c s (slot + 1) v else .ok (s, [])
  | _ => .ok (s, [])

/-- `on_tick` (287-470). -/
def VNode.tick (c : VCtx) (n : VNode) (now : Nat) (agg : Bool) :
    P (VNode × List Signed) :=
  let s := n.actor.store
  let ms := now - s.genesisTime * 1000
  let slot := ms / msPerSlot
  if s.mem.db.time > 0 ∧ ms / msPerInterval ≤ s.mem.db.time then .ok (n, [])
  else
    match Interval.ofMs ms with
    | none => .error 109
    | some i =>
    match headState s with
    | .error e => .error e
    | .ok (st, s) =>
    if st.validators.isEmpty then .ok ({ n with actor := { n.actor with store := s } }, [])
    else
    match updateSync n.sync s slot with
    | .error e => .error e
    | .ok sync =>
    match (if i = .publication ∧ slot > 0 then ourProposer c.ids s slot else .ok (none, s) :
        P (Option Nat × Store)) with
    | .error e => .error e
    | .ok (p, s) =>
    match onTick c.H s now p.isSome with
    | .error e => .error e
    | .ok s =>
    match actorDuty c sync slot agg i s with
    | .error e => .error e
    | .ok (s, l) => .ok ({ actor := { n.actor with store := s }, sync := sync }, l)

/-- What can happen to a validating node: its timer fires (at any wall-clock reading), or any other
event of the actor. -/
inductive VEvent
  | timer (now : Nat) (isAggregator : Bool)
  | other (ev : Event)

/-- One event. A restart also resets the sync tracker. -/
def VNode.step (c : VCtx) (n : VNode) : VEvent → P (VNode × List Signed)
  | .timer now agg => n.tick c now agg
  | .other ev =>
    match n.actor.step c.ctx ev with
    | .error e => .error e
    | .ok (a, _) =>
      .ok ({ actor := a, sync := match ev with
        | .restart => Tracker.new n.sync.gateDuties
        | _ => n.sync }, [])

end Verif.Node
