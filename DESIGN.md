# Formal model of ethlambda — design

This directory holds a Lean 4 model of the parts of `lambdaclass/ethlambda`
(source read as text from `/repo`, never built or run) and machine-checked proofs of the
properties in `properties.jsonl`. `MANIFEST.json` maps every property to theorem names.

## 1. Trusted base

* The Lean 4.33.0 kernel and elaborator.
* Axioms: every property theorem depends on at most `propext`, `Classical.choice`,
  `Quot.sound`. No axioms of our own, no `sorry`, no `native_decide`, no `bv_decide`.
* The reading of the Rust source: each model definition cites the file and lines it follows
  and says where it simplifies. The code itself is not executed; the tie is by inspection.
* Modelling conventions used everywhere:
  * `u64`/`usize` are unbounded `Nat` unless the property is about overflow (then the exact
    64-bit checked/saturating operations are modelled and cited); C107 proves that this makes no
    difference to the state transition and the clock;
  * `H256` is `Nat` (`0` is the zero hash). Rust compares `H256` bytewise from the first
    byte, i.e. as big-endian numbers, so the order is the order of `Nat`;
  * hash functions (`hash_tree_root`) are parameters; collision freedom is an explicit
    hypothesis of a theorem whenever it is needed, never an axiom;
  * signature / SNARK verification is a Boolean parameter (an oracle) in most theorems; C78 to
    C82 go one level deeper: they model the checks the repository makes around the primitives of
    `leansig` and `lean-multisig` (`Crypto`) and take unforgeability of the primitives (`Sound`) or
    completeness of the provers (`Complete`) as explicit hypotheses;
  * a `HashMap` is an association list whose enumeration order is arbitrary (theorems that
    claim order independence quantify over permutations);
  * a panic (`unwrap`, `expect`, out-of-range write) is an explicit error value;
  * `while` loops over parent links take a fuel argument; a theorem shows the fuel used is
    always enough (so fuel exhaustion is unreachable), never assumed;
  * metrics, logging and timing are dropped.

### Code that is modelled

Line numbers are in the definitions' comments.

| Source | Model module | Left out or simplified |
|--------|--------------|------------------------|
| `common/types/src/*.rs` | `Types`, `Bits` | SSZ layout and list limits (except where a limit is checked), serde |
| `blockchain/state_transition/src/lib.rs`, `justified_slots_ops.rs` | `Justifiable`, `JustifiedSlots`, `StateTransition` | metrics; `u64` overflow except in `slot_is_justifiable_after` |
| `blockchain/fork_choice/src/lib.rs` | `ForkChoice` | nothing |
| `storage/src/store.rs` 135-498 | `Buffers` | proof bytes are opaque |
| `storage/src/store.rs` 503-518, `backend/*.rs` | `Backend` | RocksDB internals; column families are maps |
| `storage/src/store.rs` (blocks, states, checkpoints, index, pruning, votes), `state_diff.rs` | `Db`, `StateDiff`, `Votes` | SSZ of values; one batch is one record update (justified by C31) |
| `blockchain/src/store.rs` | `Store` | signature checks are an oracle of `(state, block)` or `(validator, data, signature)` |
| `blockchain/src/store.rs` 1126-1225, `common/crypto/src/lib.rs`, proof assembly in `blockchain/src/lib.rs` 760-866 | `Signatures` | the primitives are the fields of `Crypto`; `shadow-integration` (skips all checks) |
| `blockchain/src/reaggregate.rs` | `Reaggregate` | publication of what was recovered |
| crash inside `on_block_core` | `Crash` | the commit points of one import; crashes elsewhere are the event `restart` |
| `blockchain/src/lib.rs` (block handling, pending maps) | `Actor` | network handle is an output; hash-set order is a parameter; the node's own proposals (`process_and_publish_block`) and state reads that fill the cache are events of every history |
| `propose_block` (`lib.rs`), `produce_block_with_signatures` (`store.rs`) | `Propose` | sleeping, metrics |
| `blockchain/src/lib.rs` (ticks, duties) | `Clock`, `Duties`, `SyncStatus`, `Events` | sleeping before publication, the u32 conversion of slots when signing; votes and blocks are signed, imported and recorded by the concrete functions of `Store` and `Propose` |
| `blockchain/src/block_builder.rs` | `Greedy`, `BlockBuilder` | recursive proof aggregation is a parameter that may fail |
| `blockchain/src/aggregation.rs`, early trigger in `lib.rs` | `Aggregation`, `Greedy`, `Prove` | worker thread, deadlines of a session |
| `net/p2p/src/req_resp/{encoding,codec}.rs`, `gossipsub/*.rs` | `Wire`, `Gossip` | snappy is a parameter with its round-trip laws as hypotheses; so is SSZ in C66, made concrete in `Ssz` |
| SSZ bytes of `SignedBlock`, `SignedAttestation`, `SignedAggregatedAttestation`, `State`, requests, `Status`; `compress_message` and its use in `gossipsub/handler.rs` | `Ssz` | the crate `libssz` is not in the source: the rules are those of the SSZ specification, applied to the declared fields and limits; roots and keys are numbers |
| `hash_tree_root` of `AttestationData`, `BlockBody`, `BlockHeader`, `Block`, `State` | `Merkle` | the crate `libssz_merkle` is not in the source: SSZ rules; SHA-256 of two chunks is any function; the other models keep `hash_tree_root` abstract, C119 supplies what they assume |
| `GenesisConfig`, `deser_pubkey_hex`, `validators` (genesis.rs) | `GenesisFile` | YAML is not modelled: a file is a time and the texts of the keys; `hex::decode` follows the documentation of the crate |
| `net/p2p/src/lib.rs`, `req_resp/handlers.rs` (requests sent) | `P2p` | libp2p; ids handed out by the swarm are fresh |
| connection events and the redial timer in `net/p2p/src/lib.rs`, `swarm_adapter.rs` | `Redial` | libp2p by its documentation (counts of connections, every dial ends in a connection or an error); closing of the queues |
| `send_request`, `start_swarm_adapter`, `swarm_loop`, `execute_command` (swarm_adapter.rs), waiting for the id in `fetch_block_from_peer` and `request_next_range_batch` (handlers.rs) | `SwarmTask` | block requests only; status requests, publishing, dialling and answers are commands without an effect on the records of the actor; the inside of a waiting handler is not visible to anyone and is kept as the message |
| `Hub` with its broadcast channel (hub.rs 146-217), `history_handler`, `stream_handler` (server.rs 113-134), `boot` of the page (web/app.js 113-219) | `Dashboard` | one page, whose stream does not break and whose history request succeeds; the rate in a status, geometry messages and drawing are left out; frames are well-formed JSON |
| `addEvent`, `prune`, `draw`, `setWindowSlots` of the propagation panel (web/propagation.js) | `Propagation` | a dot is the delay it stands for; positions, colours and fading are left out; numbers are whole and slots not negative |
| `addEvent`, `prune`, the dots of `draw`, `setWindowSlots` of the panel of arrival times (web/beeswarm.js) | `Beeswarm` | a dot is its offset within two slots, its mark and its slot; pixels, colours, jitter and fading are left out |
| `blockchain/src/fork_choice_tree.rs` | `ForkTree` | the text as a list of tokens; header lines, shortened roots and drawing characters left out; panics of indexing kept |
| `net/p2p/src/req_resp/handlers.rs` (requests answered) | `Serve`, `Race` | `Serve`: the database is read at one moment. `Race`: every read is its own moment, as with RocksDB views, which are no snapshots |
| `bin/ethlambda/src/checkpoint_sync.rs`, `net/rpc/src/base.rs` | `CheckpointSync` | HTTP is an arbitrary function of attempt and URL |
| `net/rpc/src/blocks.rs`, `fork_choice.rs` | `Rpc` | routing and JSON; a reply is the value rendered or the kind of error |
| `fetch_initial_state` in `bin/ethlambda/src/main.rs`, `from_db_state` and `init_store` over old content in `storage/src/store.rs` | `Startup` | command line, logging; what is left on disk is the database of the store when it stopped (crashes in the middle of an import: `Crash`). The runs `AReach` begin with `init_store` and leave out that a checkpoint start also stores the anchor block's proof; `Startup` has it |
| `start_aggregation_session` in `blockchain/src/lib.rs`, `run_aggregation_worker` in `aggregation.rs`, and a whole slot of a node | `Worker` | the worker's results are applied at once; cancellation and deadlines of a session |
| a slot of a node whose aggregator role may be off (`on_tick` in `blockchain/src/lib.rs`) | `Roles` | the role is the same in all five ticks of a slot |
| aggregation sessions in `blockchain/src/lib.rs` (421-434, 482-645, 1398-1422, 1436-1528) with the threads and delayed messages, `aggregation.rs` 674-760 | `Session` | the wait for an earlier worker takes no effect but time; failures of the channels at shutdown |
| `blockchain/src/coverage.rs` and its calls in `on_tick` | `Coverage` | gauges as natural numbers; the report is computed after the whole tick; the reports for a session and a proposal are not tied to their callers |
| `net/rpc/src/admin.rs`, `net/rpc/src/node.rs` (`get_syncing`), `types/src/aggregator.rs`, `sync_status.rs` | `Control` | requests interleave with reading the role and handling the message; bodies by their kind, not as JSON text; the role is read once per message; a server without the flag (503) is left out |
| `blockchain/src/events.rs` (topics, bus), `net/rpc/src/events.rs` | `EventBus` | the broadcast channel by its documentation: positions in the sequence of everything sent; JSON, HTTP framing, shutdown |
| `tooling/event-monitor/src/{timing,model,hub,collector}.rs` | `Monitor` | JSON parsers and the content hash are parameters; HTTP, event rates, the channel to the browsers, the dashboard |
| the wrapping arithmetic of `state_transition/src/lib.rs`, `justified_slots_ops.rs`, of the clock and of the time checks in `blockchain/src/store.rs` | `Machine` | release builds, `usize` of 64 bits |
| `blockchain/src/key_manager.rs`, secret keys in `common/crypto/src/signature.rs`, `read_validator_keys` in `main.rs` | `Keys`, `KeyFiles` | the XMSS library: of a secret key only its preparation window, as documented in `signature.rs`; YAML, the file system |

Not modelled: libp2p, tokio, the actor runtime beyond one message at a time, RocksDB internals,
XMSS and lean-multisig cryptography, HTTP routing, CLI parsing, the
metrics except the coverage gauges, the pruning schedule of the store beyond the calls named above, the
test crates, the drawing of the dashboard of the event monitor.

## 2. Per property: what is modelled and how it is proved

| Id | Model module | Proof method |
|----|--------------|--------------|
| C01 | `Justifiable` (u64 checked arithmetic) | integer square-root lemmas |
| C02 | `JustifiedSlots` | refinement of a `List Bool` window to a set of slots, induction on ops |
| C03, C04 | `StateTransition` | chain invariant by induction; separately written slot loop |
| C05–C08, C10 | `StateTransition` | one inductive invariant (`SInv`) over attestations, blocks, chains; ghost vote history for C07 |
| C09 | `StateTransition` | false for the code: negation with a witness + partial (F2) |
| C11, C12 | `StateTransition` | `mergeSort` canonical form; step lemmas |
| C13 | `StateTransition` | modular arithmetic |
| C14–C17 | `ForkChoice` | walk lemmas, descent invariant, permutation invariance, counting |
| C18, C19 | `Votes` | refinement to the maximum over delivered votes |
| C20–C22 | `Buffers` | invariant by induction over ops; ghost history of coverage |
| C23–C25, C31 | `Backend` | lexicographic order on byte lists; sorted scans; fold of batch ops |
| C26, C27, C58 | `StateDiff`, `Db` | round trip; refinement of cache + snapshots + diffs to a map |
| C28, C29 | `Db` | refinement to "ancestor of the head at that slot"; round trip over op histories |
| C30 | `Crash` | node invariant `NInv` with computed-but-lost post-states; witness of the stuck restart (F19) |
| C32–C38, C59, C61, C62 | `Store` | node invariant `NInv` (database run + block tree + checkpoints + buffers), induction on events |
| C39, C40, C60, C71, C77 | `Actor` | forest invariant of the pending maps on top of `NInv`; simulation of deliveries |
| C41 | `Clock` | arithmetic with wrap-around |
| C42 | `SyncStatus` | case analysis, induction on histories |
| C43–C45, C64, C65 | `Greedy`, `BlockBuilder` | composition with the state transition; invariants of the selection loop |
| C46, C47 | `Aggregation` | set lemmas; counting residues |
| C48–C50, C69, C72–C75 | `P2p` | transition system with pending responses and timers; decreasing measure; rounds of requests |
| C51, C52, C66, C67 | `Wire`, `Gossip` | round trips, prefix-freeness, injectivity |
| C53, C70 | `Serve` on `Store` | composition of C28/C29 with the node invariant |
| C54, C55, C68 | `CheckpointSync` | decision logic; induction on URL list; composition with `SInv` |
| C56 | `Events` | diff of snapshots; composition over a run |
| C57 | `Bits` | list induction |
| C63 | `Duties` | ghost list of signatures, clock monotonicity |
| C76 | `StateTransition`, `Actor` | links of every justified checkpoint as a greatest fixpoint; counting; two refutations (F21, F22); for two running nodes through the verified chains behind their finalized checkpoints |
| C78 | `Signatures` | exact characterization of acceptance; soundness of the primitives |
| C79 | `Signatures`, `Actor` | every imported block was verified (invariant over the queue); C03, C07 |
| C80 | `Signatures`, `BlockBuilder` | keys of merged votes; completeness of the provers; C43 |
| C81 | `Reaggregate` | sorting; keys of components; completeness of the provers |
| C82 | all of the above, `Prove` | an invariant over all buffers for any condition that follows from the node's checks (`Lemmas/Held`), instantiated with "was signed" |
| C83 | same | the same invariant with "is a valid proof"; witness for the refutation |
| C84 | `Propose` | C83 through catch-up and promotion, then C43 (building succeeds) and C80 |
| C85 | `StateTransition` | explicit extension: an empty block at a justifiable slot, then two blocks with votes; the chain invariant of C05-C08 |
| C86 | `StateTransition` | C85's empty block; the bound from header processing |
| C87 | `BlockBuilder`, `StateTransition` | the simulation of C64 to the end of the block; first pick is best (C65); monotonicity of the projection |
| C88 | `Duties`, `Propose` | every tick is a sequence of store events (`Lemmas/DutyRun`); the node invariant through each; C37, C62, C84 |
| C89 | `Store` | two node invariants over one set of headers; transfer of chains between the two stores |
| C90 | `Rpc` | the history of the head state against header ancestry (node invariant); C14 for the weights |
| C91 | `Startup`, `CheckpointSync` | the node invariant: the finalized state is readable and belongs to the network; C54, C55 |
| C92 | `Startup`, `Db` | the loop invariant of C28 for the rows from the anchor on; witness for the refutation |
| C93 | `Startup`, `Duties` | a resuming start is a restart and a read, then C63; witness for the refutation |
| C94 | `Worker` and all of the node | one invariant (`Calm`) over the slots of a run: the shape of the chain, the states, the pools and the votes; witnesses for one validator and for a run of full length |
| C95 | `Buffers` | induction on the signatures that arrive; exact count for the refutation |
| C96 | `Keys` | invariant: the window stays one bottom tree behind the latest request; general refutation |
| C97 | `KeyFiles` | the grouping loop refines the lists of entries per validator and use |
| C98 | `Worker` and all of the node | the phases of a slot as invariants of one node (`Steady`, `Mid`, `Voted`, `Tallied`, `Poised`) that no message of the phase disturbs; induction over slots for all nodes at once; witness of three nodes |
| C99 | `Session` and all of the node | every run of the node with its workers is a run of the actor whose own aggregates are worker outputs (`AKept`); session ids and amounts as invariants (`SessionsOk`) |
| C100 | `EventBus`, `Events` | each client refines a queue of its own (`solo`); induction over operations; composition with C56 |
| C101 | `StateTransition` | loop invariant up to the first finalization; explicit extension with two votes in one block; counting residues modulo a prime |
| C102 | the whole node, several of them | an executable network of three nodes, run in the kernel (`Lemmas/LateRun`); C98 |
| C103 | the whole node, several of them | the same; the line of votes of a punctual run; the node invariant along a branch |
| C104 | `Roles` and all of the node | refinement: an invariant (`Paced`) that follows a recurrence on slot numbers (`Spec/Pace`); the recurrence does not depend on the position, so small lags are a finite check and large ones shrink by the gaps between squares and pronic numbers; the slow cycle repeats every six slots |
| C105 | `Monitor` | invariant on what was dropped; steps of collectors and refresher interleaved; refutations by induction over the events after the change |
| C106 | `Monitor` | interval arithmetic; induction over connection attempts |
| C107 | `Machine` | refinement: the functions on words equal those of `StateTransition` on states whose history reaches to the header; chain and node invariants |
| C108 | `Actor`, `Serve` | every stored block that is not imported arrived while its parent was missing (`Lemmas/Stored`); induction from the tip down for what gets delivered (C77), then from the root up for what gets imported (C39) |
| C109 | `Serve`, `Actor` | invariant over the store operations: the stored copy of every imported block is valid on its parent's state (`Lemmas/Served`), kept by pending copies of other blocks, prunings and restarts; transfer of states between two nodes |
| C110 | `P2p`, `Serve`, `Actor` | C75 with the answers of a running peer (sorted lists with equal members), then induction over the run of the joining node |
| C111 | `Race` on `Db` | every read has its own moment, with any storage calls in between; rows of headers, diffs and snapshots only grow (invariants over the run), states are never replaced; refutations by a change of branch, and by imports, between two reads |
| C112 | `ForkTree` on `ForkChoice` | a picture of a subtree (shown blocks, order, slots and gaps, star) is built from those of the children, induction on the depth left; sibling subtrees are disjoint because the parent map is acyclic |
| C113 | `Actor`, `Store`, `Serve` | invariant of runs: every imported block above the anchor has its header, body and proof in the tables unless an imported block is more than the serving window (21600 slots) later; pruning is the only step that removes rows; C110_recent then needs nothing about the peer's storage |
| C114 | `Aggregation`, `Session` | the choice as an inductive relation (`Chosen`) on what the pools hold, shown functional; the fold picks a minimum of a strict total order; the session's start from the step function, with the node invariant for the pools |
| C115 | `Coverage` | bit vectors as finite sets (`Covers`), counts as cardinalities; the snapshot by induction on the run with determinism; `C82` for the signatures; simulation for non-interference |
| C116 | `Control` on `Session` and `Race` | induction on runs with requests; the published status follows the tracker (invariant); the node's part is a run of `Session`, so C70 and C114 apply; the reads of one request at different moments as in C111 |
| C117 | `Redial` | invariant: along the queued events the number of connections goes from what the actor believes to what is; every bootnode that is not connected has an attempt under way; the number of attempts changes only in four cases |
| C118 | `Ssz` | a container written with offsets is split back into its fields; packing of bits with the final one; sizes bounded field by field; layout written out independently |
| C119 | `Merkle` | trees of equal shape with equal roots have equal leaves, by induction on depth; lengths are compared first, as they are mixed in at the top |
| C120 | `GenesisFile`, all of the node | digit by digit; every imported block goes back to genesis through known headers (`Descends`), and a block goes back to one genesis only; C36, C54, C68, C119 |
| C121 | `SwarmTask`, `P2p` | simulation: every interleaving of the two tasks is followed by a run of the atomic model (`Sim`), with the open requests and timers equal up to order; a handler sends nothing or exactly one request, and depends on the id only in the second case (`Shape`) |
| C122 | `Dashboard`, `Monitor` | inductive invariants over every interleaving of collectors, server and page: where an event can be (`Where`), that it is in one place only (`Apart`), and the status the page will show once everything has arrived (`Desk.last`) |
| C123 | `Propagation`, `Monitor` | inductive invariant (`Fine`): an id whose slot is in the window has an entry with the earliest arrivals of all its events; pruning and a smaller window keep it because ages only grow; the counterexample is a general run of 401 ids |
| C124 | `Beeswarm` | inductive invariant (`Keeps`): the events of a node are a forgotten beginning, points that have left the window, and the points held; a beginning is only forgotten if 2000 points follow |

The store-level theorems (C34-C37, C61, C62) also hold for the store inside the actor: every actor
event is a sequence of store events (`Lemmas/SRun`, `areach_reach`; `Props/C34_C62_Actor`).

C98 is about a network in lockstep (`Spec/Fleet`): all timers of an interval fire, then the messages of
the interval arrive, in any order and any number of times, before the next timers fire. Every aggregator
hears all votes (one subnet, or aggregators subscribed to all). A published block is delivered when its
slot has begun. Sessions start at the third interval, with all votes of the slot; a session that starts
early may leave some out (F32), which C98 does not cover. The votes that a node recovers from blocks (`Reaggregate`) are not delivered to others;
in these runs there are none.
C102 and C103 are about networks whose messages may be late (`Spec/Late`): as in `Spec/Fleet`, timers and sessions are on
time, but in each interval each node gets any of the messages published so far. Every `Fleet` is a `Late`
(`Fleet.late`).

Every theorem about a running node has hypotheses of one kind only: `World` says that the anchor is
the post-state of some chain from genesis and that the block hash is non-zero, collision-free and
acyclic on the headers that occur in the history. Witnesses (`Spec/*Witness.lean`) meet them.

## 3. Findings

Each finding is backed by the named theorem, or marked as an observation.

- **F1** (C01, harmless in practice) `slot_is_justifiable_after` misses pronic distances from
  2^62 on, because `4*delta+1` overflows and the guard then only tests squares.
  `C01_pronic_missed_at_overflow`.
- **F2** (C09) Justification tallies are keyed by target root only, so votes with different
  sources add up, and `try_finalize` uses the source of the attestation that crosses the
  threshold. A checkpoint can be finalized with one validator out of three having voted for a
  link from it. `C09_supermajority_link_refuted`.
- **F3** (C21) A payload-buffer message whose own incomparable proofs exceed the capacity (64 in
  the pending buffer) is evicted together with the proof just received, leaving nothing for it.
  `C21_self_eviction`.
- **F4** (C16) With the zero root as start, several blocks in the lowest slot are chosen from in
  hash-map order. Does not happen in a running node. `C16_zero_start_tie`.
- **F5** (C35) The finalized checkpoint follows the head: a head switch to a branch whose state has
  finalized less lowers it, although the justified checkpoint stays. `C35_finalized_regresses`.
- **F6** (C38) A head that moves forward by 128 blocks or more along one branch is reported as a
  reorg of depth 128. `C38_catch_up_reported_as_reorg`.
- **F7** (C62) A checkpoint-synced node rejects votes (also its own) whose source is older than its
  anchor block. `C62_fails_after_checkpoint_sync`.
- **F8** (C60) A block message can make the node panic at `blockchain/src/lib.rs` 1091: the walk up from it
  can meet a stored block off the chain whose header is kept but whose proof was pruned. `C60_false`.
- **F9** (observation) Checkpoint re-sync of a stale database resets the stored clock to 0.
- **F10** (C64) Without merging, a proposer keeps one proof per message and packs votes that the
  state transition ignores. `C64_fails_without_merging`.
- **F11** (observation) The doc comment of `maybe_start_early_aggregation` disagrees with the code on
  what starts a session.
- **F12** (C51) Length prefixes with superfluous bytes are accepted, and a prefix of 2^32 is read
  as 0. `C51_not_canonical`, `C51_wraps`.
- **F13** (C49, observation) The comment on retries promises delays up to 2560 ms; the last delay used
  is 1280 ms, one retry fewer.
- **F14** (C48) A response to a block request that holds only other blocks leaves the root marked as
  pending for ever; it is never asked for again. `C48_refuted`, `C48_stuck`.
- **F15** (C69) After a failed range request, sync stalls although other peers remain, until a status
  message arrives; status requests go out only on the first connection. `C69_refuted`, `C69_stalls`.
- **F16** (C74) An empty answer to a block-by-root request, and an error answer, leave the finished
  request id in `outbound_requests`, which can grow without bound. `C74_false`.
- **F17** (C75) An honest peer whose chain has 1024 consecutive empty slots answers a batch with an
  empty list, which counts as a failure: range sync cannot pass the gap. `C75_gap`, `C75_false`.
- **F18** (C71) Pending blocks are stored before their proof is checked and a later copy overwrites an
  earlier one; the bad copy is never replaced. `C71_false`.
- **F19** (C30) A crash between `insert_signed_block` and `insert_state` leaves a block without state
  that can become the head; every later read of the head state panics, after every restart.
  `C30_false`.
- **F20** (observation) `build_status` reads head, finalized checkpoint and headers in separate
  transactions while another task writes.
- **F21** (C76) Because of F2, two chains can finalize conflicting checkpoints without any validator
  having cast two votes that contradict each other, not even two votes for one slot.
  `C76_refuted_pooling`.
- **F22** (C76) Which slots may be justified depends on the finalized slot the chain knows of. One that
  has finalized 3 may go from 9 to 12 and finalize 9, one that has finalized 2 may go from 11 to 14 and
  finalize 11, all with two-thirds links and without a slashable vote. `C76_refuted_grid`.
- **F23** (C81, C83, C84) A block that was already imported is accepted without looking at its proof, and votes
  are then recovered from the proof that came with this copy. The result goes into the pool unverified, so
  a peer that resends a known block with other proof bytes decides what is split. Votes cannot be
  invented this way (C82: the body is fixed by the root), but an invalid proof in the pool spoils later
  aggregates and the node's own blocks: a run in which the node, when its turn comes, makes no block at
  all. `C83_pools_valid_false`, `C84_always_false`.
- **F24** (C86) The state keeps the root of every slot since genesis in a list of at most 2^18 entries and
  nothing ever removes one, so header processing rejects every block beyond slot 2^18 (about twelve
  days of four-second slots); from then on no proposal succeeds and the chain has ended. The limit is
  the specification's; it is checked, not overrun. `C86_ends`, `C86_extensible_false`.
- **F25** (C39) A node imports its own proposal by calling `process_block` and not `on_block`, so blocks that
  already wait for it are not released: they stay pending until the proposal comes back from the network
  or a further descendant arrives. Needs a block built on the proposal before the proposal exists, so it
  is rare. `C39_own_block_releases_nothing`.
- **F26** (C90) `GET /lean/v0/blocks/{slot}` looks the slot up in the history of the head state, which ends with
  the head's parent: the head block itself is "not found" under its own slot until a child is imported
  (it is found by root). `C90_head_not_found`.
- **F27** (C92) A checkpoint sync over a stale directory writes the new anchor next to the old rows. The slot
  index keeps the rows of the old chain below the anchor; if that chain was abandoned, range requests are
  answered with its blocks. (`from_db_state` explains that foreign rows "would be served to peers by slot", and
  refuses foreign networks for that reason; a stale fork of the same network gets through.) `C92_false`.
- **F28** (C93) The same start resets the persisted clock to 0, and the clock is the only protection against
  doing a duty twice. A validator that voted in a slot, is stopped, and is restarted within the slot with a
  checkpoint URL while its head is more than 450 slots old, votes again in that slot, with another head and
  target: a second signature with the same one-time key. `C93_false`.
- **F29** (C94) `resolve_job` drops a job that consists of one signature and no proof to merge it with. In a network
  with a single validator every job is of that kind, so no block ever carries a vote and nothing is ever
  justified, although every duty is done. (The same holds for an aggregator that hears a single validator of
  its subnet: that vote reaches no block through it.) `C94_single_false`.
- **F30** (C95) The signature pool evicts whole messages when it holds more than 2048 signatures. If more than
  2048 validators sign the same vote, the signature that exceeds the capacity evicts the message it belongs
  to, with all 2048 others; `m mod 2049` of `m` signatures are left, which is never a supermajority. The
  registry admits 4096 validators. `C95_false`, exact in `C95_left`.
- **F31** (C96) `advance_key` slides the preparation window forward until it contains the requested slot or
  cannot move. For a slot *before* the window it never contains it, so the window ends up at the end of the
  key's life. The actor prepares all keys for the current slot when it starts: with keys that become active
  later, it makes them unusable (until the next restart) for all but the last two bottom trees. The same
  happens after a clock that was days ahead is set back. `C96_false`.
- **F32** (C99) `maybe_start_early_aggregation` starts the session of a slot up to 600 ms before the third interval
  once two thirds of the expected votes are there. There is one session per slot, so a vote that arrives after
  that start, though before the third interval, is not in the slot's aggregate; its signature waits for the next
  slot's session, where it competes with newer votes for the two jobs of a session. `C99_every_vote_false`.
- **F33** (C101) Finality can stop for good although far more than two thirds of the validators are online.
  A checkpoint is finalized by a vote for the next justifiable slot (`try_finalize`), and both slots need a block.
  Proposers take turns, so the slots of offline validators are empty. If the offline validators cover the residues
  of all pronic numbers modulo the number of validators (and of 3, 4 and 5), then no two neighbouring justifiable
  slots have blocks. From genesis, 9 of 30 or 27 of 210 suffice, whatever the others vote. `C101_blocked`,
  `C101_thirty`, `C101_two_hundred_ten`. Exact condition: `C101_iff`.
- **F34** (C102) Honest nodes finalize conflicting blocks if messages are late. Three validators, clocks in step, nobody
  misbehaves: after 18 slots one node has finalized slot 9 of one branch and another slot 3 of another branch. Casper's
  argument does not apply, because honest validators contradict themselves (F35). `C102_late_false`.
- **F35** (C103) An honest validator casts surround votes. The target is the head walked back by up to three blocks
  towards the safe target, and the safe target is computed afresh in each slot from the votes of that slot
  alone (`update_safe_target` looks at the new votes only): when votes are missing it falls back to the justified
  block, and the next target is *lower* than the last one while the source is higher. This needs no fork and no late
  block: with some votes lost, validator 0 votes 2 → 5 in slot 6 and 3 → 4 in slot 7. After a change of branch the
  source falls as well. The node keeps no record of its own votes. `C103_one_chain_false`, `C103_late_false`; exact on one
  branch: `C103_same_branch_partial`.
- **F36** (C104) After a short disturbance finality stays slow for good. When the votes of three consecutive slots are
  lost, the finalized slot is never again three behind the head; it moves by six every six slots, 7 to 12 behind, with
  all validators online and everything on time. A vote whose target walks back to the justified slot is skipped by the
  session (`snapshot_aggregation_inputs` drops groups whose target is justified), so no aggregate is made, so the safe
  target falls back to the justified block, so the next targets are three blocks behind the head; from there the
  justifiable distances 6, 9 and 12 are the only ones left, and the cycle repeats. Other patterns of loss end in the same
  cycle or recover. Safety is not affected. `C104_slow_forever`, `C104_pace_regained_false`; bound for any pause:
  `C104_resumes_partial`.
- **F37** (C105) The event monitor caps its backfill per node and topic "so an attestation flood can't crowd out"
  blocks and aggregates, but the ring behind it holds 50000 events of all topics together: with 16 nodes and 50
  validators the votes of 63 slots push every earlier block out. `C105_crowded`, `C105_flood_false`.
- **F38** (C105) `run_refresher` drops the history before it publishes the new geometry. A collector that has read the
  old geometry in between (or just before) publishes an event of the old chain, whose high slot becomes the watermark of
  the new history. The event itself keeps the ring from being pruned until 50000 more events have come; then everything is
  older than the watermark, and the history stays empty until the new chain reaches the old slot. `C105_blank`,
  `C105_current_false`.
- **F39** (C107, harmless in nodes) The guard against large slot gaps in `process_block_header` adds up to a sum
  that wraps on a state whose history is longer than its slot, so that a block in slot 2^64 - 1 passes it and the
  allocation panics. States of chains are not like that, and `on_block` bounds the gap before. `C107_guard_false`.
- **F40** (C109) A block that arrives before its parent is stored before it is verified. When the parent arrives and
  verification fails, the block is neither deleted nor marked (`process_or_pend_block`, the `Err` arm only logs), and
  requests by root are answered from all stored blocks. A node thus serves a block it has itself rejected, under the
  requested root, for as long as it is not pruned. `C109_rejected_served`.
- **F41** (C111) Read views of the RocksDB backend are handles, not snapshots (the in-memory backend of the tests holds a
  lock instead). `get_signed_blocks_by_slot_range` reads the index slot by slot, so a change of branch while it runs gives
  an answer that mixes two branches, and blocks imported while it runs leave holes at the tip; no state of the node would
  give such an answer. `C111_mixed`, `C111_hole`. Also, `get_state` for a root whose state is just being stored as a
  snapshot panics (`C111_unborn`); no task asks for such a root.
- **F42** (C112) The drawing of the block tree starts at a block without parent in the live chain of the lowest slot, found
  with `min_by_key` on a hash map. After finalization the live chain begins at the finalized slot. If a second block
  of that slot was imported (an equivocating proposer), both have no parent in the map, and which of them is the root depends
  on the order of the hash map, so the log may show a single dead block instead of the chain, and change from slot to
  slot. `C112_hidden`. Also, the depth limit of 20 cuts off the newest blocks: the head of a chain that has not finalized for 20
  slots is not shown (`C112_long`).
- **F43** (C116) `get_syncing` reads the head before the finalized checkpoint (`build_status` does it the other way
  round). If blocks are imported in between, the answer can have a finalized slot above the head slot. `C116_torn`.
- **F44** (C117) Every loss of the last connection to a bootnode starts a redial timer, and every failed dial starts
  the next one, without a check for attempts already under way. A bootnode that connects and goes away k times within
  twelve seconds and then stays offline is dialled k + 1 times at once, again and again until it is back. `C117_one_false`,
  `C117_forever`.
- **F45** (C122) The page opens the stream with `new EventSource` and asks for the history without waiting until the
  stream is open (app.js 122-124, 198-200), although the comment at 153-156 promises that no event is dropped in between.
  If the server handles the history request first, an event or status published before it handles the stream request
  is never shown (`C122_complete_false`, `C122_status_false`).
- **F46** (C122) The page stops looking for doubles as soon as it has read the history (app.js 214-217). An event that
  is in the history and whose stream frame arrives later is shown twice (`C122_once_false`).
- **F47** (C123) Beyond 400 ids per topic the panel forgets the oldest id, also if its slot is still shown (propagation.js
  117-126). A node that reports a forgotten id later is drawn as the first to see it, with delay 0. With 30 slots shown
  this takes 14 aggregates per slot. `C123_delays_false`.
