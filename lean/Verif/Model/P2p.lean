import Verif.Model.AMap
import Verif.Model.Types
import Verif.Model.Greedy

/-
Block fetching by the peer-to-peer actor: fetching single blocks by root with retries, and range sync.

Source (read as text, /repo/crates/net/p2p/src):
* `lib.rs`                  constants 58-63, `PendingRequest` 65-68, `PendingRequestKind` 70-73,
  `RangeSyncState` 75-136, `handle_retry_block_fetch` 457-477, `Handler<FetchBlock>` 525-535,
  connection events 558-650
* `req_resp/handlers.rs`    `handle_req_resp_message` 26-153, `handle_status_response` 167-199,
  `handle_blocks_by_root_response` 286-329, `handle_blocks_by_range_response` 331-380,
  `fetch_block_from_peer` 401-483, `request_next_range_batch` 485-544, `fail_range_request` 546-557,
  `handle_fetch_failure` 559-590

A received block is its root and slot.  Messages to the swarm, timers and blocks handed to the
blockchain actor are outputs.  Sending fails only when the swarm adapter is closed; whether it does is
part of the event, and so are the random choice of a peer and the enumeration order of hash maps.
Not modelled here: serving requests (C53), gossip (C52, C67), redialling bootnodes.
-/

namespace Verif.Net
open Verif

abbrev Peer := Nat
abbrev ReqId := Nat

/-- `MAX_FETCH_RETRIES` (lib.rs 59). -/
def maxFetchRetries : Nat := 10
/-- `INITIAL_BACKOFF_MS` (lib.rs 60). -/
def initialBackoffMs : Nat := 5
/-- `BACKOFF_MULTIPLIER` (lib.rs 61). -/
def backoffMultiplier : Nat := 2
/-- `MAX_REQUEST_BLOCKS` (req_resp/messages.rs 8). -/
def maxRequestBlocks : Nat := 1024
/-- `MAX_SYNC_RANGE` (lib.rs 63). -/
def maxSyncRange : Nat := maxRequestBlocks * 64

/-- `u64::saturating_add`. -/
def satAdd (a b : Nat) : Nat := min (a + b) (2 ^ 64 - 1)

/-- `PendingRequest` (lib.rs 65-68). -/
structure Pend where
  attempts : Nat
  failed : List Peer
  deriving DecidableEq, Repr

/-- `PendingRequestKind` (lib.rs 70-73). -/
inductive Kind where
  | root (r : Root)
  | range (first last : Nat)
  deriving DecidableEq, Repr

/-- `RangeSyncState` (lib.rs 75-81): the remaining slots `start..stop`. -/
structure RangeSync where
  start : Nat
  stop : Nat
  peers : AMap Peer Nat
  inFlight : Bool
  deriving DecidableEq, Repr

/-- The fields of `P2PServer` (lib.rs 415-432) that block fetching uses.  `chain` says whether the
blockchain actor is known. -/
structure Server where
  connected : List Peer
  pending : AMap Root Pend
  outbound : AMap ReqId Kind
  range : Option RangeSync
  chain : Bool
  deriving DecidableEq, Repr

/-- A received block, as far as this actor looks at it. -/
structure RBlock where
  root : Root
  slot : Nat
  deriving DecidableEq, Repr

/-- What the actor does to the outside.  `closed r` records that `r` stopped being marked as being
fetched. -/
inductive POut where
  | sendRoot (id : ReqId) (peer : Peer) (r : Root)
  | sendRange (id : ReqId) (peer : Peer) (start count : Nat)
  | retryAfter (r : Root) (ms : Nat)
  | forward (b : RBlock)
  | closed (r : Root)
  deriving DecidableEq, Repr

/-! ### Range sync state -/

/-- `drop_stale_peers` (lib.rs 132-135). -/
def RangeSync.dropStale (s : RangeSync) : RangeSync :=
  { s with peers := s.peers.filter (fun e => decide (s.start ≤ e.2)) }

/-- `merge_peer` (lib.rs 92-96). -/
def RangeSync.mergePeer (s : RangeSync) (p : Peer) (head stop : Nat) : RangeSync :=
  RangeSync.dropStale { s with peers := s.peers.insert p head, stop := max s.stop stop }

/-- `next_batch` (lib.rs 98-118); `ord` enumerates the hash map. -/
def RangeSync.nextBatch (ord : AMap Peer Nat → AMap Peer Nat) (s : RangeSync) :
    Option (Peer × Nat × Nat) :=
  if s.inFlight ∨ s.stop ≤ s.start then none
  else match Build.maxByKey (fun e => e.2) ((ord s.peers).filter (fun e => decide (s.start ≤ e.2))) with
    | none => none
    | some (p, head) =>
      let batchEnd := min (min (satAdd s.start maxRequestBlocks) s.stop) (satAdd head 1)
      if s.start < batchEnd then some (p, s.start, batchEnd) else none

/-- `complete_batch` (lib.rs 120-124). -/
def RangeSync.complete (s : RangeSync) (last : Nat) : RangeSync :=
  RangeSync.dropStale { s with inFlight := false, start := max s.start (satAdd last 1) }

/-- `fail_peer` (lib.rs 126-130). -/
def RangeSync.failPeer (s : RangeSync) (p : Peer) : RangeSync :=
  RangeSync.dropStale { s with inFlight := false, peers := s.peers.erase p }

/-! ### Requests -/

/-- `fetch_block_from_peer` (handlers.rs 401-483).  `pick` is the random choice, `sent` whether the
swarm adapter took the request, `id` the id it returned.  The `Bool` is the returned value. -/
def fetchFromPeer (s : Server) (id : ReqId) (r : Root) (pick : Nat) (sent : Bool) :
    Bool × Server × List POut :=
  if s.connected.isEmpty then (false, s, [])
  else
    let failed := ((s.pending.get? r).map Pend.failed).getD []
    let pool := s.connected.filter (fun p => p ∉ failed)
    let s := if pool.isEmpty then
        match s.pending.get? r with
        | some q => { s with pending := s.pending.insert r { q with failed := [] } }
        | none => s
      else s
    let pool := if pool.isEmpty then s.connected else pool
    match pool[pick % pool.length]? with
    | none => (false, s, [])
    | some peer =>
      if ¬ sent then (false, s, [])
      else
        let pending := if s.pending.has r then s.pending else s.pending.insert r ⟨1, []⟩
        (true, { s with pending := pending, outbound := s.outbound.insert id (.root r) },
          [.sendRoot id peer r])

/-- `fail_range_request` (handlers.rs 546-557). -/
def failRange (s : Server) (p : Peer) : Server :=
  match s.range with
  | none => s
  | some st =>
    let st := st.failPeer p
    { s with range := if st.peers.isEmpty then none else some st }

/-- `request_next_range_batch` (handlers.rs 485-544). -/
def requestNext (ord : AMap Peer Nat → AMap Peer Nat) (s : Server) (id : ReqId) (sent : Bool) :
    Server × List POut :=
  match s.range with
  | none => (s, [])
  | some st =>
    match st.nextBatch ord with
    | none => (s, [])
    | some (p, a, b) =>
      if ¬ sent then (failRange s p, [])
      else
        ({ s with range := some { st with inFlight := true },
                  outbound := s.outbound.insert id (.range a (b - 1)) },
          [.sendRange id p a (b - a)])

/-- `handle_fetch_failure` (handlers.rs 559-590). -/
def fetchFailure (s : Server) (r : Root) (p : Peer) : Server × List POut :=
  match s.pending.get? r with
  | none => (s, [])
  | some q =>
    if q.attempts ≥ maxFetchRetries then ({ s with pending := s.pending.erase r }, [.closed r])
    else
      ({ s with pending := s.pending.insert r ⟨q.attempts + 1, if p ∈ q.failed then q.failed else q.failed ++ [p]⟩ },
        [.retryAfter r (initialBackoffMs * backoffMultiplier ^ (q.attempts - 1))])

/-- The loop of `handle_blocks_by_root_response` (handlers.rs 306-328). -/
def rootBlocks (r : Root) : List RBlock → Server → Server × List POut
  | [], s => (s, [])
  | b :: bs, s =>
    if b.root ≠ r then rootBlocks r bs s
    else
      let closed : List POut := if s.pending.has r then [.closed r] else []
      let fwd : List POut := if s.chain then [.forward b] else []
      let res := rootBlocks r bs { s with pending := s.pending.erase r }
      (res.1, closed ++ fwd ++ res.2)

/-- `handle_blocks_by_root_response` (handlers.rs 286-329). -/
def byRootResponse (s : Server) (id : ReqId) (p : Peer) (r : Root) (bs : List RBlock) :
    Server × List POut :=
  if bs.isEmpty then fetchFailure { s with outbound := s.outbound.insert id (.root r) } r p
  else rootBlocks r bs s

/-- `handle_blocks_by_range_response` (handlers.rs 331-380); `id` is for the next request. -/
def byRangeResponse (ord : AMap Peer Nat → AMap Peer Nat) (s : Server) (id : ReqId) (sent : Bool)
    (p : Peer) (first last : Nat) (bs : List RBlock) : Server × List POut :=
  if bs.isEmpty then (failRange s p, [])
  else if ¬ s.chain then ({ s with range := none }, [])
  else
    let fwd : List POut := (bs.filter (fun b => decide (first ≤ b.slot ∧ b.slot ≤ last))).map .forward
    match s.range with
    | none => (s, fwd)
    | some st =>
      let st := st.complete last
      if st.stop ≤ st.start ∨ st.peers.isEmpty then ({ s with range := none }, fwd)
      else
        let res := requestNext ord { s with range := some st } id sent
        (res.1, fwd ++ res.2)

/-- `handle_status_response` (handlers.rs 167-199). -/
def statusResponse (ord : AMap Peer Nat → AMap Peer Nat) (s : Server) (id : ReqId) (sent : Bool)
    (p : Peer) (head ourHead : Nat) : Server × List POut :=
  if head ≤ ourHead then (s, [])
  else
    let start := satAdd ourHead 1
    let stop := satAdd start (min (head - ourHead) maxSyncRange)
    let st := match s.range with
      | some st => st.mergePeer p head stop
      | none => ⟨start, stop, [(p, head)], false⟩
    requestNext ord { s with range := some st } id sent

/-! ### Events -/

/-- What the actor reacts to. -/
inductive PEvent where
  | connected (p : Peer)
  | disconnected (p : Peer)
  | initChain
  | fetch (r : Root) (pick : Nat) (sent : Bool)
  | retry (r : Root) (pick : Nat) (sent : Bool)
  | status (p : Peer) (head ourHead : Nat) (sent : Bool)
  | blocks (id : ReqId) (p : Peer) (bs : List RBlock) (sent : Bool)
  | errorResponse (id : ReqId) (p : Peer)
  | failure (id : ReqId) (p : Peer)

/-- One event; `id` is the id of the request the event may send. -/
def Server.step (ord : AMap Peer Nat → AMap Peer Nat) (s : Server) (id : ReqId) :
    PEvent → Server × List POut
  | .connected p => ({ s with connected := if p ∈ s.connected then s.connected
                                           else s.connected ++ [p] }, [])
  | .disconnected p => ({ s with connected := s.connected.filter (fun q => decide (q ≠ p)) }, [])
  | .initChain => ({ s with chain := true }, [])
  | .fetch r pick sent =>
    if s.pending.has r then (s, []) else (fetchFromPeer s id r pick sent).2
  | .retry r pick sent =>
    if ¬ s.pending.has r then (s, [])
    else
      let res := fetchFromPeer s id r pick sent
      if res.1 then res.2
      else ({ res.2.1 with pending := res.2.1.pending.erase r }, res.2.2 ++ [.closed r])
  | .status p head ourHead sent => statusResponse ord s id sent p head ourHead
  | .blocks rid p bs sent =>
    match s.outbound.get? rid with
    | none => (s, [])
    | some (.range a b) =>
      byRangeResponse ord { s with outbound := s.outbound.erase rid } id sent p a b bs
    | some (.root r) => byRootResponse { s with outbound := s.outbound.erase rid } rid p r bs
  | .errorResponse rid p =>
    match s.outbound.get? rid with
    | none => (s, [])
    | some (.range _ _) => (failRange { s with outbound := s.outbound.erase rid } p, [])
    | some (.root r) =>
      ({ s with outbound := (s.outbound.erase rid).insert rid (.root r) }, [])
  | .failure rid p =>
    match s.outbound.get? rid with
    | none => (s, [])
    | some (.range _ _) => (failRange { s with outbound := s.outbound.erase rid } p, [])
    | some (.root r) => fetchFailure { s with outbound := s.outbound.erase rid } r p

/-! ### The surroundings -/

/-- The actor with what the network and the runtime owe it: the block requests that have not been
answered yet, and the retry timers that have not fired yet. -/
structure PWorld where
  srv : Server
  next : ReqId
  inflight : List (ReqId × Peer)
  timers : List Root
  deriving DecidableEq, Repr

/-- A fresh actor (lib.rs 375-396). -/
def PWorld.init : PWorld := ⟨⟨[], [], [], none, false⟩, 0, [], []⟩

/-- What `libp2p` and the runtime guarantee: a response or a failure belongs to a request that has not
been answered before and comes from the peer it was sent to; a timer fires once.  Slots are `u64`. -/
def PWorld.allows (w : PWorld) : PEvent → Prop
  | .blocks id p _ _ => (id, p) ∈ w.inflight
  | .errorResponse id p => (id, p) ∈ w.inflight
  | .failure id p => (id, p) ∈ w.inflight
  | .retry r _ _ => r ∈ w.timers
  | .status _ head ourHead _ => head < 2 ^ 64 ∧ ourHead < 2 ^ 64
  | _ => True

/-- The requests among outputs. -/
def sends (outs : List POut) : List (ReqId × Peer) :=
  outs.filterMap (fun o => match o with
    | .sendRoot id p _ => some (id, p)
    | .sendRange id p _ _ => some (id, p)
    | _ => none)

/-- The timers among outputs. -/
def timersOf (outs : List POut) : List Root :=
  outs.filterMap (fun o => match o with
    | .retryAfter r _ => some r
    | _ => none)

/-- The requests still unanswered after an event has been delivered. -/
def PWorld.rest (w : PWorld) : PEvent → List (ReqId × Peer)
  | .blocks id _ _ _ => w.inflight.filter (fun x => decide (x.1 ≠ id))
  | .errorResponse id _ => w.inflight.filter (fun x => decide (x.1 ≠ id))
  | .failure id _ => w.inflight.filter (fun x => decide (x.1 ≠ id))
  | _ => w.inflight

/-- The timers still running after an event has been delivered. -/
def PWorld.restTimers (w : PWorld) : PEvent → List Root
  | .retry r _ _ => w.timers.erase r
  | _ => w.timers

/-- One event in its surroundings, and its outputs. -/
def PWorld.step (ord : AMap Peer Nat → AMap Peer Nat) (w : PWorld) (e : PEvent) :
    PWorld × List POut :=
  let res := w.srv.step ord w.next e
  (⟨res.1, w.next + (sends res.2).length, w.rest e ++ sends res.2,
    w.restTimers e ++ timersOf res.2⟩, res.2)

/-- `PRun ord w tr w'`: starting from `w` the events and outputs `tr` (oldest first) lead to `w'`. -/
inductive PRun (ord : AMap Peer Nat → AMap Peer Nat) :
    PWorld → List (PEvent × List POut) → PWorld → Prop
  | nil {w : PWorld} : PRun ord w [] w
  | snoc {w w' : PWorld} {tr : List (PEvent × List POut)} {e : PEvent} :
      PRun ord w tr w' → w'.allows e →
      PRun ord w (tr ++ [(e, (w'.step ord e).2)]) (w'.step ord e).1

/-- All outputs of a run, in order. -/
def outputs (tr : List (PEvent × List POut)) : List POut := tr.flatMap Prod.snd

end Verif.Net
