{"id": "C01", "title": "Justifiable slots are exactly the 3SF-mini set", "statement": "For any two 64-bit slots, the node treats a slot as justifiable after a finalized slot exactly when it is not before the finalized slot and the distance is at most 5, a perfect square, or a product of two consecutive integers, as long as four times the distance plus one fits in 64 bits; for larger distances the overflow guard only recognises perfect squares, so the answer can be a missed product but never a false yes.", "quantifier": "every pair of u64 slots for which 4*distance+1 fits in u64, plus the exact answer for the remaining distances", "why_tests_cant": "The input space is 2^128 pairs and the interesting failures are at the overflow boundary and at rare squares/pronics.", "anchors": ["crates/blockchain/state_transition/src/lib.rs::slot_is_justifiable_after"]}
{"id": "C02", "title": "The justified-slot window is a faithful set of justified slots", "statement": "Asking whether a slot is justified always answers according to the set of slots marked justified so far (every slot at or below finalized counts as justified), no matter how the stored window was extended, marked and shifted; a slot beyond what has been tracked is reported as out of range rather than as a yes or no.", "quantifier": "every sequence of extend / mark / advance-finalized operations and every queried slot", "why_tests_cant": "The window is re-based on each finalization; off-by-one index bugs appear only for particular interleavings of extend and shift.", "anchors": ["crates/blockchain/state_transition/src/justified_slots_ops.rs::is_slot_justified", "crates/blockchain/state_transition/src/justified_slots_ops.rs::set_justified", "crates/blockchain/state_transition/src/justified_slots_ops.rs::extend_to_slot", "crates/blockchain/state_transition/src/justified_slots_ops.rs::shift_window"]}
{"id": "C03", "title": "Applying a block advances the slot and appends exactly the right history", "statement": "If a block is accepted, the post-state slot is the block's slot, strictly above the pre-state slot; the historical roots are the old ones with the parent root appended at the parent's slot and one zero entry per skipped slot, so that the history has exactly one entry per slot below the block's slot; validators and configuration are unchanged.", "quantifier": "every state reachable from a genesis state and every block (valid or not)", "why_tests_cant": "Skipped-slot patterns are unbounded; only an invariant over all chains shows history[slot] keeps naming the ancestor at that slot.", "anchors": ["crates/blockchain/state_transition/src/lib.rs::state_transition", "crates/blockchain/state_transition/src/lib.rs::process_slots", "crates/blockchain/state_transition/src/lib.rs::process_block_header"]}
{"id": "C04", "title": "Jumping over empty slots equals processing them one by one", "statement": "Advancing a state directly to a target slot gives the same result (same state, or rejection) as the specification's slot-by-slot loop that caches the state root once and then increments the slot counter.", "quantifier": "every state and every target slot", "why_tests_cant": "The gap is unbounded and the equality depends on when the state root is hashed.", "anchors": ["crates/blockchain/state_transition/src/lib.rs::process_slots"]}
{"id": "C05", "title": "Checkpoints of a state never move backwards and stay ordered", "statement": "Along any chain of accepted blocks from genesis, the finalized slot and the justified slot never decrease, finalized is never above justified, justified is strictly below the state's slot (once a block was applied), and neither checkpoint changes root while keeping the same slot (apart from the one-time replacement of the genesis placeholder root).", "quantifier": "every chain of accepted blocks of any length from any genesis state", "why_tests_cant": "Requires an invariant relating the justified window, the latest justified checkpoint and the tally map over all histories.", "anchors": ["crates/blockchain/state_transition/src/lib.rs::process_attestations", "crates/blockchain/state_transition/src/lib.rs::try_finalize"]}
{"id": "C06", "title": "Justified and finalized checkpoints lie on the state's own chain", "statement": "After at least one block, the state's justified and finalized checkpoints name the block that the state's history records at that slot: the root equals the history entry at the checkpoint's slot and is not the zero root.", "quantifier": "every chain of accepted blocks from any genesis state", "why_tests_cant": "Needs an inductive argument over every history; a unit test only sees a few chains.", "anchors": ["crates/blockchain/state_transition/src/lib.rs::is_valid_vote", "crates/blockchain/state_transition/src/lib.rs::attestation_data_matches_chain", "crates/blockchain/state_transition/src/lib.rs::process_attestations", "crates/blockchain/state_transition/src/lib.rs::try_finalize"]}
{"id": "C07", "title": "No justification without a two-thirds supermajority of distinct validators", "statement": "If along a chain from genesis the justified checkpoint of the state is not the genesis one, then there are at least two thirds of the registered validators, each of whom is named as participant by some attestation for exactly that target checkpoint's root contained in a block of this chain. A validator is never counted twice however often its vote is repeated.", "quantifier": "every chain of accepted blocks from any genesis state, any attestations (duplicates, overlapping aggregates, votes spread over many blocks)", "why_tests_cant": "Votes accumulate across blocks in a flattened bit list that is re-serialised at each block and pruned on finalization; only a history invariant shows no vote is invented.", "anchors": ["crates/blockchain/state_transition/src/lib.rs::process_attestations", "crates/blockchain/state_transition/src/lib.rs::serialize_justifications"]}
{"id": "C08", "title": "Finalization requires consecutive justified checkpoints", "statement": "Whenever accepting a block moves the finalized checkpoint, the newly finalized checkpoint was already justified, lies strictly above the previous finalized one, and there is a newly justified later checkpoint on the same chain such that no slot strictly between the two was justifiable (relative to the finalized slot then in force).", "quantifier": "every reachable state, every accepted block", "why_tests_cant": "Several attestations in one block can justify and finalize in sequence with the boundary moving in between.", "anchors": ["crates/blockchain/state_transition/src/lib.rs::try_finalize", "crates/blockchain/state_transition/src/lib.rs::process_attestations"]}
{"id": "C09", "title": "A finalized checkpoint has a two-thirds supermajority link", "statement": "Whenever a checkpoint becomes finalized, at least two thirds of validators voted for a link whose source is that checkpoint.", "quantifier": "every reachable state and every accepted block", "why_tests_cant": "Tallies are keyed by target only, so the property depends on how votes with different sources are pooled over histories.", "anchors": ["crates/blockchain/state_transition/src/lib.rs::process_attestations", "crates/blockchain/state_transition/src/lib.rs::try_finalize"]}
{"id": "C10", "title": "Block processing never panics on reachable states", "statement": "Starting from genesis, processing any block (however malformed its attestations) either succeeds or returns an error; none of the internal out-of-range writes or missing-entry lookups can happen, and the justification bookkeeping length and zero-root errors never occur.", "quantifier": "every state reachable from genesis by accepted blocks and every block", "why_tests_cant": "The panicking operations are guarded only by invariants spread over several functions.", "anchors": ["crates/blockchain/state_transition/src/lib.rs::process_block", "crates/blockchain/state_transition/src/lib.rs::serialize_justifications", "crates/blockchain/state_transition/src/justified_slots_ops.rs::set_justified"]}
{"id": "C11", "title": "The post-state does not depend on hash-map iteration order", "statement": "Processing the same block on the same state gives the same post-state on every node: the tally is written back in a canonical sorted order independent of how the in-memory map enumerates its entries, and reading it back yields the same tally.", "quantifier": "every enumeration order of the in-memory maps", "why_tests_cant": "Hash-map order is randomised per process; a test observes one order per run.", "anchors": ["crates/blockchain/state_transition/src/lib.rs::serialize_justifications", "crates/blockchain/state_transition/src/lib.rs::process_attestations", "crates/blockchain/state_transition/src/lib.rs::try_finalize"]}
{"id": "C12", "title": "Votes that are not valid leave the checkpoint and tally unchanged, and repeating a vote changes nothing", "statement": "An attestation whose source is not justified, whose target is already justified or not justifiable, or which does not match the chain has no effect on the state; including the same attestation twice in a row has the same effect as once.", "quantifier": "every reachable state and every attestation", "why_tests_cant": "Ranges over all attestations and all tally contents.", "anchors": ["crates/blockchain/state_transition/src/lib.rs::is_valid_vote", "crates/blockchain/state_transition/src/lib.rs::process_attestations"]}
{"id": "C13", "title": "Exactly one proposer per slot, round-robin", "statement": "With at least one validator every slot has exactly one proposer, a block by anyone else is rejected, and over any window of as many consecutive slots as validators every validator proposes exactly once; with no validators nobody proposes.", "quantifier": "every slot, every validator count, every window start", "why_tests_cant": "Unbounded slots and validator counts.", "anchors": ["crates/blockchain/state_transition/src/lib.rs::current_proposer", "crates/blockchain/state_transition/src/lib.rs::is_proposer", "crates/blockchain/src/lib.rs::get_our_proposer"]}
{"id": "C14", "title": "Fork-choice weight equals the number of supporting latest votes", "statement": "The weight of each block above the start slot is exactly the number of validators whose latest vote names that block or one of its descendants as head; all other blocks have weight zero.", "quantifier": "every block tree, every set of votes (including votes for unknown heads), every start slot", "why_tests_cant": "Trees and vote sets are unbounded.", "anchors": ["crates/blockchain/fork_choice/src/lib.rs::compute_block_weights"]}
{"id": "C15", "title": "The fork-choice head is the greedy heaviest leaf below the justified root", "statement": "The computed head descends from the start block, has no eligible child, and at every step the chosen child has the largest (weight, root) pair among its eligible siblings; when the start block is unknown the head is the start root itself. The search always terminates on block sets whose parents have smaller slots.", "quantifier": "every block tree with slot-increasing parent links, every vote set, every minimum score", "why_tests_cant": "All trees, all vote distributions, all tie cases.", "anchors": ["crates/blockchain/fork_choice/src/lib.rs::compute_lmd_ghost_head"]}
{"id": "C16", "title": "Fork choice is deterministic across nodes", "statement": "Two nodes that hold the same set of blocks and the same latest votes compute the same head and the same weights from the same start root, regardless of hash-map iteration order (for the zero start root, meaning the lowest block, the lowest block must be unique).", "quantifier": "every permutation of the block and vote collections", "why_tests_cant": "Hash-map iteration order is randomised.", "anchors": ["crates/blockchain/fork_choice/src/lib.rs::compute_lmd_ghost_head", "crates/blockchain/fork_choice/src/lib.rs::compute_block_weights"]}
{"id": "C17", "title": "The safe target is supported by two thirds of validators", "statement": "The safe target computed by the node is either the justified block itself or a block such that it and every block on the path down to the justified block is supported by the fresh votes of at least two thirds of the validators; and no two conflicting blocks can both have such support.", "quantifier": "every block tree and every vote set", "why_tests_cant": "Quantifies over trees, votes and validator counts.", "anchors": ["crates/blockchain/src/store.rs::update_safe_target", "crates/blockchain/fork_choice/src/lib.rs::compute_lmd_ghost_head"]}
{"id": "C18", "title": "Each validator's fork-choice vote is its latest one, independent of arrival order", "statement": "After any sequence of gossip aggregates, block imports and promotions, the vote counted for a validator is the maximum by (slot, data root) of all its votes made known so far; it does not depend on the order or repetition of deliveries and an older or equivocating smaller vote never replaces it.", "quantifier": "every interleaving of vote insertions and promotions, every permutation and duplication", "why_tests_cant": "Interleavings are unbounded; equivocation tie-breaks depend on order only in buggy versions.", "anchors": ["crates/storage/src/store.rs::record_vote", "crates/storage/src/store.rs::should_replace_vote", "crates/storage/src/store.rs::promote_new_aggregated_payloads", "crates/storage/src/store.rs::insert_new_aggregated_payload", "crates/storage/src/store.rs::insert_known_aggregated_payloads_batch"]}
{"id": "C19", "title": "Pending votes only count after promotion", "statement": "A vote received through gossip has no influence on the fork-choice head until the next promotion point, while votes carried by imported blocks count immediately; a promotion loses no vote.", "quantifier": "every interleaving of deliveries, imports and promotions", "why_tests_cant": "The claim is about all schedules.", "anchors": ["crates/storage/src/store.rs::promote_new_aggregated_payloads", "crates/storage/src/store.rs::insert_signed_block", "crates/blockchain/src/store.rs::accept_new_attestations"]}
{"id": "C20", "title": "Aggregated-payload buffers stay bounded and consistent", "statement": "After any sequence of insertions, drains and prunes a payload buffer holds at most its capacity of proofs, its counter equals the number of proofs stored, its eviction order lists each stored message once, no counter subtraction underflows, and no stored proof's participants are contained in another stored proof for the same message.", "quantifier": "every operation sequence", "why_tests_cant": "Eviction and subsumption interact over arbitrary histories.", "anchors": ["crates/storage/src/store.rs::PayloadBuffer"]}
{"id": "C21", "title": "Inserting a proof never loses participant coverage except by eviction or pruning", "statement": "For each message still in the buffer, the set of participants covered by the stored proofs equals the union of the participants of all proofs inserted for it since the message entered the buffer; evicted messages are always the oldest ones.", "quantifier": "every operation sequence", "why_tests_cant": "Depends on all subset relations among inserted proofs.", "anchors": ["crates/storage/src/store.rs::PayloadBuffer::push", "crates/storage/src/store.rs::PayloadBuffer::drain"]}
{"id": "C22", "title": "The gossip signature pool stays bounded and consistent", "statement": "After any sequence of inserts, deletes and prunes the pool holds at most its capacity of signatures, its counter is exact, every stored message has at least one signature, its order list matches, and no subtraction underflows; deleting the keys consumed by an aggregation removes exactly those signatures.", "quantifier": "every operation sequence", "why_tests_cant": "Same as above.", "anchors": ["crates/storage/src/store.rs::GossipSignatureBuffer"]}
{"id": "C23", "title": "Slot-prefixed keys sort by slot and decode back", "statement": "Database keys built from (slot, root) decode to the same pair and compare bytewise exactly as (slot, root) pairs compare numerically, so slot-order scans that stop early see exactly the entries below the bound.", "quantifier": "every u64 slot and 32-byte root", "why_tests_cant": "2^320 keys; the failure mode is a byte-order mistake at a carry.", "anchors": ["crates/storage/src/store.rs::encode_slot_root_key", "crates/storage/src/store.rs::decode_slot_root_key", "crates/storage/src/store.rs::encode_block_root_key"]}
{"id": "C24", "title": "Finalization pruning removes exactly the live-chain entries below the finalized slot", "statement": "Pruning the live chain deletes every entry whose slot is below the finalized slot and no other entry, although it stops at the first key not below the bound.", "quantifier": "every live-chain table content and finalized slot", "why_tests_cant": "Early-stopping scans are correct only if key order is right for all contents.", "anchors": ["crates/storage/src/store.rs::prune_live_chain"]}
{"id": "C25", "title": "Proof pruning never touches unfinalized or recent blocks", "statement": "Block proof pruning deletes exactly the proofs below the cutoff (tip minus the retention window) when that cutoff is within finalized history and nothing otherwise: no proof of a non-finalized block or of a block within the window of the tip is ever removed.", "quantifier": "every proof table, finalized slot and tip slot", "why_tests_cant": "Range deletes on encoded keys for all slots.", "anchors": ["crates/storage/src/store.rs::prune_old_block_proofs", "crates/storage/src/store.rs::prune_old_data"]}
{"id": "C26", "title": "State diffs reconstruct the exact state", "statement": "The diff between a parent state and a child state, applied to the parent, reproduces the child state exactly, and replaying a chain of diffs from a snapshot reproduces the last state, for all states whose history extends the parent's.", "quantifier": "every parent/child pair and every diff chain length", "why_tests_cant": "Unbounded chains and states.", "anchors": ["crates/storage/src/state_diff.rs::StateDiff::from_states", "crates/storage/src/state_diff.rs::reconstruct", "crates/storage/src/state_diff.rs::validate_history_append"]}
{"id": "C27", "title": "A stored state is read back unchanged, whatever the cache and however long the diff chain", "statement": "After any sequence of state insertions and reads (each insertion naming a stored parent), reading the state of a block root returns exactly the state that was inserted for it, regardless of cache evictions, snapshots and process restarts; a root never inserted reads as absent.", "quantifier": "every sequence of insertions, reads, cache evictions and restarts", "why_tests_cant": "Cache contents, snapshot boundaries and restart points are unbounded histories.", "anchors": ["crates/storage/src/store.rs::get_state", "crates/storage/src/store.rs::reconstruct_state", "crates/storage/src/store.rs::insert_state", "crates/storage/src/store.rs::has_state"]}
{"id": "C28", "title": "The slot index lists exactly the canonical chain", "statement": "After any sequence of head changes (extensions and reorgs to any stored block), looking up a slot at or above the anchor yields exactly the block of the current head's chain at that slot, or nothing if the chain skips it; range requests therefore return canonical blocks in slot order, each a child of the previous one returned when all are available.", "quantifier": "every block tree and every sequence of head updates", "why_tests_cant": "Reorg depth and shapes are unbounded.", "anchors": ["crates/storage/src/store.rs::block_root_index_changes", "crates/storage/src/store.rs::update_checkpoints", "crates/storage/src/store.rs::get_signed_blocks_by_slot_range"]}
{"id": "C29", "title": "A stored block is returned exactly as received", "statement": "Inserting a signed block and later reading it by root returns the same block, body and proof, until its proof is pruned, after which it is reported missing rather than altered; only a slot-0 block is ever served with an empty synthesized proof.", "quantifier": "every signed block, including empty bodies, and every later sequence of insertions", "why_tests_cant": "Header/body/proof are split over tables and empty bodies are elided.", "anchors": ["crates/storage/src/store.rs::write_signed_block", "crates/storage/src/store.rs::signed_block_from_view", "crates/storage/src/store.rs::get_block", "crates/storage/src/store.rs::insert_pending_block"]}
{"id": "C30", "title": "A crash between the writes of a block import is recoverable", "statement": "If the process dies at any point between the separate database commits made while importing a block, then after restart the node can recompute its head without failing.", "quantifier": "every crash point inside a block import", "why_tests_cant": "Crash points between commits are not exercised by unit tests.", "anchors": ["crates/blockchain/src/store.rs::on_block_core", "crates/storage/src/store.rs::insert_signed_block", "crates/storage/src/store.rs::insert_state", "crates/blockchain/src/store.rs::update_head"]}
{"id": "C31", "title": "Write batches are all-or-nothing and apply in order", "statement": "Operations queued in a write batch are invisible until commit; after commit, reads see the effect of all of them in the order they were queued; tables do not interfere.", "quantifier": "every batch, every prior content", "why_tests_cant": "All op sequences.", "anchors": ["crates/storage/src/backend/in_memory.rs", "crates/storage/src/api/traits.rs"]}
{"id": "C32", "title": "The store clock is monotone and runs each interval duty once", "statement": "Ticks never move the store time backwards; after a tick the time equals the wall-clock interval (or stays if the wall clock is behind); a tick within one slot of the current time processes each intermediate interval exactly once in order, a later one skips ahead but always processes the last slot's intervals; repeating a tick does nothing.", "quantifier": "every sequence of timestamps (including backward jumps) and proposal flags", "why_tests_cant": "All clock schedules.", "anchors": ["crates/blockchain/src/store.rs::on_tick", "crates/blockchain/src/lib.rs::SlotInterval"]}
{"id": "C33", "title": "Block import is idempotent and failed imports change nothing", "statement": "Importing a block already imported leaves the store unchanged, and a block rejected with an error leaves blocks, states, votes, head and checkpoints unchanged.", "quantifier": "every store and block", "why_tests_cant": "All stores and blocks.", "anchors": ["crates/blockchain/src/store.rs::on_block_core"]}
{"id": "C34", "title": "The node's justified checkpoint never regresses", "statement": "Along any sequence of block imports, ticks and gossip, the store's justified slot never decreases and always equals the highest justified slot among the anchor and all imported post-states.", "quantifier": "every operation sequence", "why_tests_cant": "Unbounded histories.", "anchors": ["crates/blockchain/src/store.rs::on_block_core", "crates/storage/src/store.rs::update_checkpoints"]}
{"id": "C35", "title": "The node's finalized checkpoint never regresses", "statement": "Along any sequence of block imports, ticks and gossip, the finalized slot reported by the node never decreases.", "quantifier": "every operation sequence, including head switches between forks", "why_tests_cant": "Only particular fork/vote schedules trigger a regression.", "anchors": ["crates/blockchain/src/store.rs::update_head", "crates/storage/src/store.rs::update_checkpoints"]}
{"id": "C36", "title": "Accepted gossip votes are topologically sound, and all sound ones are accepted", "statement": "A vote passes gossip validation exactly when its source, target and head blocks are known at the claimed slots, the source is an ancestor of the target, the target an ancestor of the head, the head descends from the finalized block, the vote's slot is not before the head's slot, and the vote's slot starts no later than one interval after the local time.", "quantifier": "every block store with slot-increasing parent links and every vote", "why_tests_cant": "Ancestor walks over arbitrary trees with skipped slots.", "anchors": ["crates/blockchain/src/store.rs::validate_attestation_data", "crates/blockchain/src/store.rs::checkpoint_is_ancestor"]}
{"id": "C37", "title": "Attestation targets are justifiable ancestors of the head", "statement": "A running node can always produce a vote; its target is the head or an ancestor of it and never below the store's justified slot. The target is found by going back from the head towards the safe target by at most three blocks, then to the first block that is justifiable after (or not above) the finalized slot, except that the justified checkpoint is used instead if the result would be below it.", "quantifier": "every state a node can reach, whatever it was sent", "why_tests_cant": "Walk-back over arbitrary trees and skipped slots.", "anchors": ["crates/blockchain/src/store.rs::get_attestation_target_with_checkpoints", "crates/blockchain/src/store.rs::produce_attestation_data"]}
{"id": "C38", "title": "Reorg reporting is exact for head changes within the depth limit", "statement": "A head change is reported as a reorg exactly when neither head is an ancestor of the other (for walks shorter than the cap with all headers present), and the reported depth is the number of blocks walked back from the higher head.", "quantifier": "every block tree and pair of heads", "why_tests_cant": "All trees.", "anchors": ["crates/blockchain/src/store.rs::reorg_depth"]}
{"id": "C39", "title": "Blocks delivered in any order are all imported once their ancestors are there", "statement": "If a set of valid blocks forming a tree on top of imported blocks is delivered in any order, mixed with any other messages, then after the last delivery every one of them has been imported and none is left pending, provided that no block of another branch gets finalized at or above their slots that no corrupted copy of one of them arrives before its parent is imported, and that no received block is built on a block the node itself proposes only later.", "quantifier": "every delivery order and every tree of blocks", "why_tests_cant": "Delivery permutations are factorial; the pending index walks several maps.", "anchors": ["crates/blockchain/src/lib.rs::on_block", "crates/blockchain/src/lib.rs::process_or_pend_block", "crates/blockchain/src/lib.rs::collect_pending_children"]}
{"id": "C40", "title": "Discarding a stale or too-early block discards its whole pending subtree", "statement": "When a block is rejected for being at or below the finalized slot or too far in the future, no descendant known only as pending remains in the pending bookkeeping.", "quantifier": "every pending forest", "why_tests_cant": "All tree shapes.", "anchors": ["crates/blockchain/src/lib.rs::discard_pending_subtree", "crates/blockchain/src/lib.rs::process_or_pend_block"]}
{"id": "C41", "title": "Time units convert consistently", "statement": "The interval within a slot and its millisecond offset are inverse to each other, and the delay to the next interval is between 1 and 800 ms and lands exactly on an interval boundary relative to genesis (for times at or after genesis).", "quantifier": "every u64 timestamp and genesis time", "why_tests_cant": "All timestamps.", "anchors": ["crates/blockchain/src/lib.rs::SlotInterval", "crates/blockchain/src/lib.rs::ms_until_next_interval"]}
{"id": "C42", "title": "Sync status does not flap and network stalls do not silence validators", "statement": "The syncing flag flips on only if the head lags by more than the threshold while the network is live, flips off only once the lag is within the hysteresis band or the whole network stalls, and for lags between the two bounds it keeps its value.", "quantifier": "every sequence of observed slots", "why_tests_cant": "All histories.", "anchors": ["crates/blockchain/src/sync_status.rs"]}
{"id": "C43", "title": "A built block is accepted by the state transition", "statement": "A block returned by the block builder for the right proposer has distinct attestation data within the cap and importing it onto its parent state succeeds with the post-state the builder computed.", "quantifier": "every head state, pool content and configuration", "why_tests_cant": "Pool contents and states are unbounded.", "anchors": ["crates/blockchain/src/block_builder.rs::build_block", "crates/blockchain/src/block_builder.rs::select_attestations"]}
{"id": "C44", "title": "Compacted block attestations keep exactly the selected participants", "statement": "Merging several proofs of the same data into one entry yields one entry per distinct data, in first-appearance order, whose participant bits are the union of the merged entries' bits.", "quantifier": "every list of selected attestations", "why_tests_cant": "All lists and bit patterns.", "anchors": ["crates/blockchain/src/block_builder.rs::compact_attestations", "crates/blockchain/src/block_builder.rs::union_aggregation_bits", "crates/blockchain/src/block_builder.rs::extend_proofs_greedily"]}
{"id": "C45", "title": "Greedy proof selection covers everything it can without redundant picks", "statement": "Proof selection for a message stops only when no remaining proof adds a new participant (or the child limit is hit), each picked proof adds at least one new participant, and the participants covered are those of the picked proofs.", "quantifier": "every list of candidate proofs", "why_tests_cant": "All overlap patterns.", "anchors": ["crates/blockchain/src/block_builder.rs::extend_proofs_greedily", "crates/blockchain/src/aggregation.rs::select_proofs_greedily"]}
{"id": "C46", "title": "Aggregation jobs never double-count a signer", "statement": "In an aggregation job the raw signers and the participants of chosen child proofs are disjoint, the published participant set is their union, and the signatures deleted from the pool afterwards are only ones that were in the snapshot for that message; every deleted signer whose key is usable is in the published set.", "quantifier": "every signature pool, proof pool and validator registry", "why_tests_cant": "All overlap patterns.", "anchors": ["crates/blockchain/src/aggregation.rs::resolve_job", "crates/blockchain/src/aggregation.rs::aggregate_job", "crates/blockchain/src/aggregation.rs::apply_aggregated_group", "crates/blockchain/src/aggregation.rs::select_proofs_greedily"]}
{"id": "C47", "title": "Early aggregation threshold counts exactly the validators on the subscribed subnets", "statement": "The number of expected votes used by the early-aggregation trigger equals the number of validators whose index modulo the committee count is a subscribed subnet, and the trigger fires exactly when the node aggregates, the time is in the last 600 ms before the slot's second interval, no session for the slot is installed and some message of the slot has signatures of two thirds of them; at most one session per slot is installed.", "quantifier": "every validator count, committee count and subnet set", "why_tests_cant": "Arithmetic over all counts.", "anchors": ["crates/blockchain/src/lib.rs::maybe_start_early_aggregation"]}
{"id": "C48", "title": "A requested block is eventually asked for again or given up, never silently stuck", "statement": "For each block root the node is fetching, at every moment a request is in flight, a retry is scheduled, or the root is no longer marked as being fetched, so a later request for the same root is never ignored for ever.", "quantifier": "every schedule of responses (including wrong or empty ones), failures and retries", "why_tests_cant": "Adversarial response schedules.", "anchors": ["crates/net/p2p/src/req_resp/handlers.rs::handle_blocks_by_root_response", "crates/net/p2p/src/req_resp/handlers.rs::handle_fetch_failure", "crates/net/p2p/src/req_resp/handlers.rs::fetch_block_from_peer", "crates/net/p2p/src/lib.rs::P2PServer"]}
{"id": "C49", "title": "Fetch retries are bounded", "statement": "A root fetch is retried at most a fixed number of times with exponentially growing delay before being abandoned.", "quantifier": "every failure schedule", "why_tests_cant": "All failure schedules.", "anchors": ["crates/net/p2p/src/req_resp/handlers.rs::handle_fetch_failure"]}
{"id": "C50", "title": "Range sync requests are well-formed, disjoint, and progress", "statement": "Every range batch requested is non-empty, at most the protocol maximum of slots, inside the range to sync and not beyond the chosen peer's head; at most one is in flight; successive completed batches are adjacent and never overlap; each completed batch strictly shrinks the remaining range so sync ends.", "quantifier": "every sequence of peer statuses, responses and failures", "why_tests_cant": "All schedules.", "anchors": ["crates/net/p2p/src/lib.rs::RangeSyncState", "crates/net/p2p/src/req_resp/handlers.rs::request_next_range_batch", "crates/net/p2p/src/req_resp/handlers.rs::handle_blocks_by_range_response", "crates/net/p2p/src/req_resp/handlers.rs::handle_status_response"]}
{"id": "C51", "title": "Length prefixes round-trip on the wire", "statement": "Encoding a 32-bit length as varint and decoding it returns the same length and leaves the following bytes untouched; and any accepted prefix is the canonical encoding of the returned length.", "quantifier": "every u32 and every trailing byte sequence; every accepted byte prefix", "why_tests_cant": "All byte sequences including adversarial ones.", "anchors": ["crates/net/p2p/src/req_resp/encoding.rs::encode_varint", "crates/net/p2p/src/req_resp/encoding.rs::decode_varint", "crates/net/p2p/src/req_resp/encoding.rs::read_varint"]}
{"id": "C52", "title": "Gossip message ids collide only for equal messages", "statement": "Up to hash collisions, two gossip messages get the same id exactly when domain, topic and payload are equal.", "quantifier": "every topic and payload", "why_tests_cant": "Concatenation ambiguities appear only for crafted inputs.", "anchors": ["crates/net/p2p/src/lib.rs::compute_message_id"]}
{"id": "C53", "title": "Block range service answers only canonical blocks in the requested range", "statement": "A blocks-by-range answer contains only blocks on the canonical chain whose slot is within the requested range, in increasing slot order, at most one per slot and never more than the requested count; zero or oversized requests are refused.", "quantifier": "every store and request", "why_tests_cant": "All stores and requests incl. overflow of start+count.", "anchors": ["crates/net/p2p/src/req_resp/handlers.rs::canonical_blocks_by_range", "crates/storage/src/store.rs::get_signed_blocks_by_slot_range"]}
{"id": "C54", "title": "A checkpoint state is accepted only if it belongs to this network and is internally ordered", "statement": "Checkpoint verification succeeds exactly when the state is past genesis, has the expected genesis time and validators, finalized is not above the state slot, justified is not below finalized, equal slots carry equal roots, and the header is not beyond the state slot and agrees with a checkpoint at its own slot.", "quantifier": "every state and genesis configuration", "why_tests_cant": "All states.", "anchors": ["bin/ethlambda/src/checkpoint_sync.rs::verify_checkpoint_state", "crates/common/types/src/genesis.rs::verify_state_genesis"]}
{"id": "C55", "title": "Checkpoint URLs are tried in order and the first success wins", "statement": "The anchor used is from the first URL that succeeds; a URL is retried at most a fixed number of times and only for a torn block/state pair; if all fail the error of the last one is reported.", "quantifier": "every sequence of per-attempt outcomes", "why_tests_cant": "All outcome sequences.", "anchors": ["bin/ethlambda/src/checkpoint_sync.rs::fetch_anchor_block_and_state", "bin/ethlambda/src/checkpoint_sync.rs::try_checkpoint_url"]}
{"id": "C56", "title": "Chain events report every change exactly once", "statement": "Comparing snapshots before and after an operation emits a justified (finalized) event exactly when that checkpoint changed, in the order head, justified, finalized, and nothing when nothing changed.", "quantifier": "every pair of snapshots", "why_tests_cant": "All pairs.", "anchors": ["crates/blockchain/src/events.rs::diff_and_emit"]}
{"id": "C57", "title": "Participation subset test is exact", "statement": "The byte-wise subset test on participation bitfields holds exactly when every participant of the first is a participant of the second, whatever the two lengths, and the listed participant indices are exactly the set bits in ascending order.", "quantifier": "every pair of bitfields of any length", "why_tests_cant": "All lengths and bit patterns, including non-multiple-of-eight lengths.", "anchors": ["crates/common/types/src/attestation.rs::bits_is_subset", "crates/common/types/src/attestation.rs::validator_indices"]}
{"id": "C58", "title": "Reading any state replays fewer than 1024 diffs", "statement": "After any history of insertions, reconstructing the state of any stored block meets a full snapshot after fewer than 1024 diffs.", "quantifier": "every chain shape and length, including skipped snapshot slots", "why_tests_cant": "Unbounded chains; the snapshot slot itself may be skipped.", "anchors": ["crates/storage/src/store.rs::insert_state", "crates/storage/src/store.rs::reconstruct_state"]}
{"id": "C59", "title": "No sequence of events makes the consensus store panic", "statement": "A node started from genesis or from the post-state of a valid chain can process any sequence of blocks, votes, aggregates, ticks, promotions, prunings and restarts without any panic in the store, the storage layer, fork choice or the buffers, and can always produce an attestation.", "quantifier": "every anchor, every event sequence, valid or not", "why_tests_cant": "There are dozens of expects and unwraps whose reachability depends on the whole history.", "anchors": ["crates/blockchain/src/store.rs::on_block", "crates/blockchain/src/store.rs::on_tick", "crates/blockchain/src/store.rs::on_gossip_attestation", "crates/blockchain/src/store.rs::update_head", "crates/blockchain/src/store.rs::update_safe_target", "crates/storage/src/store.rs::update_checkpoints", "crates/storage/src/store.rs::insert_state"]}
{"id": "C60", "title": "No block message can crash the node", "statement": "Receiving any block, in any state the node can reach, never panics the blockchain actor.", "quantifier": "every history of received blocks, prunings and restarts, and every block", "why_tests_cant": "The panic needs a block that failed import, was pruned much later, and then gets a child.", "anchors": ["crates/blockchain/src/lib.rs::process_or_pend_block", "crates/blockchain/src/lib.rs::on_block"]}
{"id": "C61", "title": "The head always descends from the node's own checkpoints", "statement": "After every event the head is an imported block that is or descends from the block of the store's justified checkpoint; in a node started from genesis it also is or descends from the finalized block.", "quantifier": "every event sequence, including forks and restarts", "why_tests_cant": "Depends on votes, ties, pruning of the live chain and checkpoint updates over the whole history.", "anchors": ["crates/blockchain/src/store.rs::update_head", "crates/blockchain/src/store.rs::on_block", "crates/storage/src/store.rs::update_checkpoints"]}
{"id": "C62", "title": "A node accepts its own votes", "statement": "On a node started from genesis, the vote produced for a slot passes the node's own vote validation, provided the slot has begun (up to one interval early) and is not before the head's slot.", "quantifier": "every event sequence and every slot", "why_tests_cant": "Relates two independent walks over the tree, in every reachable state; the node ignores the error if its own vote is rejected.", "anchors": ["crates/blockchain/src/store.rs::produce_attestation_data", "crates/blockchain/src/store.rs::validate_attestation_data", "crates/blockchain/src/lib.rs::produce_attestations"]}
{"id": "C63", "title": "A validator never signs two votes or two blocks for one slot", "statement": "Over any run of a node, no validator key signs two attestations for the same slot or two blocks for the same slot, and each signature is made only in the interval of the slot it is due.", "quantifier": "every wall-clock reading at every timer firing (including jumps backwards), every other event in between, every restart on the same database", "why_tests_cant": "Needs every interleaving of timer firings, clock jumps, imports and restarts; a repeated one-time signature cannot be undone.", "anchors": ["crates/blockchain/src/lib.rs::on_tick", "crates/blockchain/src/lib.rs::produce_attestations", "crates/blockchain/src/lib.rs::propose_block"]}
{"id": "C64", "title": "Every vote a merging proposer packs is counted", "statement": "In a block built on a valid head by a proposer that merges proofs, every attestation other than a genesis-to-genesis vote is counted when the block is applied: at its position in the block its source is justified, its target is open and on the chain, and its distance is justifiable. No block space is spent on votes the state transition ignores.", "quantifier": "every chain, head state, vote pool and cap", "why_tests_cant": "The builder only projects the effect of votes; the projection has to track justification, finalization and vote sets exactly over every sequence of picks.", "anchors": ["crates/blockchain/src/block_builder.rs::select_attestations", "crates/blockchain/src/block_builder.rs::ProjectedState", "crates/blockchain/state_transition/src/lib.rs::process_attestations"]}
{"id": "C65", "title": "The proposer packs votes in priority order, independent of hash-map order", "statement": "Each round packs a best qualifying vote: finalizing before justifying before the rest, then by target slot, vote slot and new voters (new voters first for the rest), ties to the smaller data root; selection stops only when nothing qualifies or the cap is reached, and does not depend on the enumeration order of the pool.", "quantifier": "every pool, projection and enumeration order", "why_tests_cant": "Hash-map order is random per process, so a test sees one order; ties need exhaustive comparison.", "anchors": ["crates/blockchain/src/block_builder.rs::pick_best_candidate", "crates/blockchain/src/block_builder.rs::EntryScore", "crates/blockchain/src/block_builder.rs::select_attestations"]}
{"id": "C66", "title": "Payloads and block responses survive the wire; a cut connection only loses blocks from the end", "statement": "A payload the node writes is read back exactly, with any bytes that follow left untouched, and so is any payload up to 10 MiB that another implementation sends in the snappy framing format; a written list of blocks is read back as the same list; if the connection is cut anywhere, what is read is a prefix of the list sent (or an error), never a different block. No payload above the size limits is returned.", "quantifier": "every payload up to the limit, every list of blocks, every cut position, every compressor whose frames are well-formed", "why_tests_cant": "Every cut position of every response; framing is hand written around a length prefix and a streaming decompressor.", "anchors": ["crates/net/p2p/src/req_resp/encoding.rs::decode_payload", "crates/net/p2p/src/req_resp/encoding.rs::write_payload", "crates/net/p2p/src/req_resp/codec.rs::decode_blocks_response", "crates/net/p2p/src/req_resp/codec.rs::write_response"]}
{"id": "C67", "title": "Gossip topics reach the right handler and the node listens on its validators' subnets", "statement": "A topic the node publishes on is routed by every node of the same network to the handler for that kind of message; distinct kinds and distinct subnets have distinct topics; every subnet on which one of the node's own validators votes is subscribed.", "quantifier": "every network name, subnet, committee count and validator set", "why_tests_cant": "Routing takes string topics apart again; all names and numbers are possible.", "anchors": ["crates/net/p2p/src/gossipsub/messages.rs", "crates/net/p2p/src/gossipsub/handler.rs::handle_gossipsub_message", "crates/net/p2p/src/lib.rs::build_swarm"]}
{"id": "C68", "title": "An honest checkpoint server is never refused and the new node starts from the same state", "statement": "For the newest block of any chain of valid blocks from genesis, the state and block a node serves pass the verification of every node with the same genesis configuration, and starting from them gives a store whose head, justified and finalized block is that block with exactly the server's state.", "quantifier": "every valid chain of any length", "why_tests_cant": "The served state has its header's state root blanked; the receiving side re-derives it. All chains.", "anchors": ["bin/ethlambda/src/checkpoint_sync.rs::verify_checkpoint_state", "crates/common/types/src/state.rs::anchor_pair_is_consistent", "crates/net/rpc/src/base.rs::get_latest_finalized_state", "crates/storage/src/store.rs::init_store"]}
{"id": "C69", "title": "Range sync continues with the remaining peers when one fails", "statement": "While a range is being synced and a connected peer is known to have the next blocks, a batch is in flight or will be requested without outside help; in particular when the peer of a batch fails, the next known peer is asked.", "quantifier": "every schedule of responses and failures", "why_tests_cant": "Liveness over all failure schedules.", "anchors": ["crates/net/p2p/src/req_resp/handlers.rs::handle_blocks_by_range_response", "crates/net/p2p/src/req_resp/handlers.rs::request_next_range_batch", "crates/net/p2p/src/lib.rs::RangeSyncState"]}
{"id": "C70", "title": "Status messages are truthful and building one never panics", "statement": "In every reachable state the status message can be built, names the current head with its slot and an imported finalized block with its slot, and the finalized slot is not after the head slot.", "quantifier": "every reachable node state", "why_tests_cant": "Depends on header pruning, checkpoint updates and head changes over all histories; the code unwraps.", "anchors": ["crates/net/p2p/src/req_resp/handlers.rs::build_status"]}
{"id": "C71", "title": "A corrupted copy of a block does not keep the block from being imported", "statement": "If a block is delivered with its valid proof and so are its ancestors, then it gets imported even if somebody else delivers a copy of it with a wrong proof.", "quantifier": "every order of delivery and every position of the copy", "why_tests_cant": "Needs an attacker and a particular delivery order; the tests deliver honest blocks only.", "anchors": ["crates/blockchain/src/lib.rs::process_or_pend_block", "crates/storage/src/store.rs::insert_pending_block"]}
{"id": "C72", "title": "Only blocks that were asked for reach the chain, and all of them do", "statement": "When a peer answers a block request, exactly the blocks of the answer that the request asked for (the root, or the slots of the range) are handed to the chain, in the order received; nothing else makes the networking actor hand on fetched blocks.", "quantifier": "every run of requests, responses, failures and timers", "why_tests_cant": "Needs responses to be matched with requests over all interleavings and all malicious answers.", "anchors": ["crates/net/p2p/src/req_resp/handlers.rs::handle_blocks_by_root_response", "crates/net/p2p/src/req_resp/handlers.rs::handle_blocks_by_range_response", "crates/net/p2p/src/req_resp/handlers.rs::handle_req_resp_message"]}
{"id": "C73", "title": "A peer is asked again for a block only after every connected peer was asked", "statement": "While one block is being fetched, the requests form rounds: nobody is asked twice in a round, and a new round starts only in a state all of whose connected peers have been asked in the round just ended.", "quantifier": "every run, including peers that connect and disconnect meanwhile, and every random choice", "why_tests_cant": "Depends on the whole history of failures, timers and connections.", "anchors": ["crates/net/p2p/src/req_resp/handlers.rs::fetch_block_from_peer", "crates/net/p2p/src/req_resp/handlers.rs::handle_fetch_failure"]}
{"id": "C74", "title": "The node keeps no records of finished requests", "statement": "Every request that is still open is on record, and only open requests are on record, so the table of requests does not grow without bound.", "quantifier": "every run", "why_tests_cant": "A leak shows only over unboundedly long runs.", "anchors": ["crates/net/p2p/src/req_resp/handlers.rs::handle_req_resp_message", "crates/net/p2p/src/req_resp/handlers.rs::handle_blocks_by_root_response"]}
{"id": "C75", "title": "Range sync from an honest peer delivers the peer's chain", "statement": "When a peer announces a head ahead of ours and answers all range requests from its chain, the node hands on exactly the peer's blocks after our head, up to the peer's head but at most 65536 slots, in order, and the sync ends.", "quantifier": "every chain of the peer, every pair of heads, every position of empty slots", "why_tests_cant": "All placements of empty slots in chains of tens of thousands of slots.", "anchors": ["crates/net/p2p/src/req_resp/handlers.rs::handle_status_response", "crates/net/p2p/src/req_resp/handlers.rs::handle_blocks_by_range_response", "crates/net/p2p/src/req_resp/handlers.rs::request_next_range_batch", "crates/net/p2p/src/lib.rs::RangeSyncState"]}
{"id": "C76", "title": "Conflicting finality is accountable", "statement": "If two valid chains from the same genesis finalize checkpoints neither of which is on the other chain, then at least one third of the validators cast, in the blocks of the two chains, a double vote or a surround vote.", "quantifier": "every pair of valid chains, every validator set, every assignment of votes", "why_tests_cant": "A claim about all pairs of chains and all ways validators can vote; a test exercises a few hand-written chains.", "anchors": ["crates/blockchain/state_transition/src/lib.rs::process_attestations", "crates/blockchain/state_transition/src/lib.rs::try_finalize", "crates/blockchain/state_transition/src/lib.rs::slot_is_justifiable_after"]}
{"id": "C77", "title": "The node asks the network for exactly the first missing ancestor", "statement": "When a block arrives whose ancestry runs over stored but not imported blocks into a block the node does not have, the node requests that block and nothing else; blocks at or below the finalized slot, too far in the future, or whose ancestry is complete cause no request.", "quantifier": "every reachable state and every received block", "why_tests_cant": "Depends on everything that is pending or was discarded before, and on shortcuts kept in memory over the whole history.", "anchors": ["crates/blockchain/src/lib.rs::process_or_pend_block", "crates/blockchain/src/lib.rs::request_missing_block"]}
{"id": "C78", "title": "Accepted blocks and votes are signed by those they name", "statement": "Block signature verification accepts exactly the blocks whose proof covers, attestation by attestation, precisely the attestation keys of the participants for that data and slot, and the proposal key of the proposer for the block root and slot. Hence, when the signature primitives are unforgeable, every accepted block was signed by its proposer, and every vote in an accepted block, gossiped vote or gossiped aggregate was signed by the validator it names.", "quantifier": "every state, block, vote, aggregate, and every unforgeable signature scheme", "why_tests_cant": "Concerns every forged or re-bound proof; tests try a few.", "anchors": ["crates/blockchain/src/store.rs::verify_block_signatures", "crates/common/crypto/src/lib.rs::verify_type_2_signature", "crates/common/crypto/src/lib.rs::verify_aggregated_signature"]}
{"id": "C79", "title": "Every imported block and every checkpoint rests on signatures", "statement": "Whatever peers send, every block a node has imported was signed by the validator whose turn the slot was, and every justified or finalized checkpoint, of any state it holds or of its store, is genesis or has votes signed by at least two thirds of the validators for its root.", "quantifier": "every run of a node started from genesis or from a trusted checkpoint state", "why_tests_cant": "No test can try all adversarial message sequences; the claim joins signature checks, queueing, state transition and fork choice.", "anchors": ["crates/blockchain/src/store.rs::on_block", "crates/blockchain/src/lib.rs::on_block", "crates/blockchain/state_transition/src/lib.rs::process_attestations"]}
{"id": "C80", "title": "A node's own block passes every check", "statement": "A block that a node builds on its head from a pool of valid aggregates, with its proposer's key, carries a proof that verifies, and the node's own import of it is never refused, whether aggregates with equal data are merged or the best one is kept.", "quantifier": "every head state, pool, slot, proposer and configuration", "why_tests_cant": "Construction and verification are written separately and must agree on every selection of votes, key order, message and slot.", "anchors": ["crates/blockchain/src/lib.rs::propose_block", "crates/blockchain/src/block_builder.rs::compact_attestations", "crates/blockchain/src/store.rs::verify_block_signatures"]}
{"id": "C81", "title": "Votes carried by an imported block are recovered for aggregation", "statement": "From an imported block the node recovers at most four of its votes, those whose target is beyond the justified checkpoint and that bring the most validators no aggregate at hand covers, and none that bring no new validator. What it recovers is a vote of the block with exactly the participants named there or in the aggregates at hand, and its proof is valid if the block's proof and those at hand are.", "quantifier": "every store, block and proof system", "why_tests_cant": "Selection depends on everything held in two pools; the proof has to match keys, order and component index for every combination.", "anchors": ["crates/blockchain/src/reaggregate.rs::reaggregate_from_block", "crates/blockchain/src/reaggregate.rs::select_candidates"]}
{"id": "C82", "title": "Every vote a node counts was signed by the validator it names", "statement": "Whatever peers send, in any order and with restarts in between, every vote that fork choice counts or is about to count, every participant of every aggregate in the node's pools, and every gossiped signature it keeps stands for a vote that the named validator signed. This includes votes recovered from blocks, and aggregates the node makes itself.", "quantifier": "every run of a node started from genesis or a trusted checkpoint state, every unforgeable signature scheme", "why_tests_cant": "Votes move between five buffers and are merged, promoted, evicted and recovered; no test follows all paths under adversarial input.", "anchors": ["crates/blockchain/src/store.rs::on_gossip_aggregated_attestation", "crates/blockchain/src/reaggregate.rs::reaggregate_from_block", "crates/blockchain/src/aggregation.rs::aggregate_job", "crates/storage/src/store.rs::promote_new_aggregated_payloads"]}
{"id": "C83", "title": "Every proof in a node's pools is valid", "statement": "Whatever peers send, every aggregate a node holds for aggregation or block building is a valid proof that exactly its participants cast the vote it is filed under, and every gossiped signature it keeps is valid.", "quantifier": "every run of a node started from genesis or a trusted checkpoint state, every complete proof system", "why_tests_cant": "An invalid proof in a pool spoils later aggregates and the node's own blocks; it can only enter through particular interleavings of deliveries.", "anchors": ["crates/blockchain/src/reaggregate.rs::reaggregate_from_block", "crates/blockchain/src/aggregation.rs::aggregate_job", "crates/blockchain/src/store.rs::on_gossip_aggregated_attestation"]}
{"id": "C84", "title": "The block a node proposes is published", "statement": "Whenever a node, in any state it can get into, has to propose at a slot after its head, it builds and signs a block: no step fails, whatever is in its pools. The block is for that slot, by that validator, on the node's head, its proof verifies, and the node's own import of it succeeds, so it is published.", "quantifier": "every run of a node, every slot, proposer, configuration and complete proof system", "why_tests_cant": "Joins catch-up, promotion of votes, selection, merging of proofs, signing and verification, over every content of the pool that can arise.", "anchors": ["crates/blockchain/src/lib.rs::propose_block", "crates/blockchain/src/lib.rs::process_and_publish_block", "crates/blockchain/src/store.rs::produce_block_with_signatures"]}
{"id": "C85", "title": "Two thirds of the validators can always finalize something new", "statement": "Whatever a valid chain contains, however long nothing was finalized on it, and whatever the other validators do, any two thirds of the validators can finalize a block beyond its head with three more blocks that carry only their votes, each cast from the latest justified checkpoint. The last of the three lies at most 4*sqrt(d)+5 slots after the head, d being the distance from the last finalized slot to the head (as long as this is within the 2^18 slots the state can record).", "quantifier": "every chain, every two thirds of the validators", "why_tests_cant": "A deadlock would need a particular combination of past votes, gaps and finalized slot after which no vote counts any more; there are infinitely many.", "anchors": ["crates/blockchain/state_transition/src/lib.rs::process_attestations", "crates/blockchain/state_transition/src/lib.rs::slot_is_justifiable_after", "crates/blockchain/state_transition/src/lib.rs::try_finalize"]}
{"id": "C86", "title": "A chain can always be extended", "statement": "On every valid chain, a valid block can be made for every later slot, even if no other validator votes.", "quantifier": "every chain and every later slot", "why_tests_cant": "A state from which no block is valid any more would only show up after a particular, possibly very long, history.", "anchors": ["crates/blockchain/state_transition/src/lib.rs::process_block_header", "crates/blockchain/state_transition/src/lib.rs::process_attestations", "crates/common/types/src/state.rs::HISTORICAL_ROOTS_LIMIT"]}
{"id": "C87", "title": "A merging proposer leaves no justification, finalization or countable vote behind", "statement": "If the votes in a merging proposer's pool, together with those the chain already keeps, can justify a slot, its block justifies one; if they can finalize, its block advances finality. If its block is not full, every vote in its pool that could still count is recorded by the block.", "quantifier": "every chain, head state, vote pool and limit on the number of attestations", "why_tests_cant": "The builder chooses greedily on a projection of the state; whether it can paint itself into a corner depends on every combination of votes, earlier picks and caps.", "anchors": ["crates/blockchain/src/block_builder.rs::select_attestations", "crates/blockchain/src/block_builder.rs::pick_best_candidate", "crates/blockchain/src/block_builder.rs::score_entry", "crates/blockchain/state_transition/src/lib.rs::process_attestations"]}
{"id": "C88", "title": "A validating node does its duties", "statement": "In whatever state a node is: when the timer fires in the voting interval of a new slot, all of its validators sign one and the same vote, for that slot, the node's head and the target of the rule, and the node itself accepts the vote. When it fires in the last interval before a slot whose proposer is one of its validators, the node builds, signs, imports and publishes one block for that slot on its head. At other times it signs nothing. The only exception is a node configured to withhold duties that is more than two slots behind.", "quantifier": "every state a node can get into, every timer reading, set of validators and configuration", "why_tests_cant": "A duty that is silently skipped in some state shows up only as a missed vote or slot; the paths depend on the clock, the tree, the pools and the sync status at once.", "anchors": ["crates/blockchain/src/lib.rs::on_tick", "crates/blockchain/src/lib.rs::produce_attestations", "crates/blockchain/src/lib.rs::propose_block", "crates/blockchain/src/sync_status.rs::SyncStatusTracker"]}
{"id": "C89", "title": "Peers accept a node's votes", "statement": "When two nodes started from the same genesis have been through any histories and one of them makes a vote, the other accepts its data if and only if, once it has imported the head block of the vote, that block descends from what it has finalized, the vote's slot is not before that block's, and the slot has begun by its clock (up to one interval early). Nothing else the nodes disagree on matters.", "quantifier": "every pair of histories of two nodes, every slot", "why_tests_cant": "Relates the trees of two nodes; tests have one store.", "anchors": ["crates/blockchain/src/store.rs::produce_attestation_data", "crates/blockchain/src/store.rs::validate_attestation_data"]}
{"id": "C90", "title": "Blocks can be looked up over HTTP", "statement": "A request for a block or header by slot is answered with the block of the node's canonical chain in that slot, and with not found if there is none; a request by root with the block of that root if the node has it. Anything that is no slot and no root is refused. The fork-choice endpoint reports every block of the node's tree with its header fields and the number of validators whose latest vote is for it or a descendant.", "quantifier": "every state a node can get into and every request string", "why_tests_cant": "Slots are resolved through the history kept in the head state, not through an index; which slots it covers, and whether what it names is in the database, depends on the whole history of the node.", "anchors": ["crates/net/rpc/src/blocks.rs::resolve_block_id", "crates/net/rpc/src/blocks.rs::resolve_slot", "crates/net/rpc/src/blocks.rs::get_block", "crates/net/rpc/src/blocks.rs::get_block_header", "crates/net/rpc/src/fork_choice.rs::get_fork_choice"]}
{"id": "C91", "title": "A node starts where it should", "statement": "A data directory of another network is refused and nothing is written to it. A node that is started on its own directory always recognizes it, and resumes with exactly the database it left, provided its head is at most 450 slots behind the wall clock or no checkpoint URL is given. An empty directory is initialized from genesis if no URL is given. In all other cases the node starts from a finalized state and block that one of the URLs delivered and that belong to the network and to each other, and it can serve that block; or every URL failed and nothing is written.", "quantifier": "every history of the node before it was stopped, every directory, wall clock, list of URLs and replies", "why_tests_cant": "The directory is whatever an arbitrary earlier run left when it was stopped, and the replies are arbitrary.", "anchors": ["bin/ethlambda/src/main.rs::fetch_initial_state", "crates/storage/src/store.rs::from_db_state", "crates/storage/src/store.rs::init_store", "bin/ethlambda/src/checkpoint_sync.rs::fetch_finalized_anchor"]}
{"id": "C92", "title": "Only canonical blocks are served by slot after a restart", "statement": "However often a node is stopped and started, resuming or syncing from a checkpoint, the blocks it serves for a range of slots are blocks of its canonical chain: the head or blocks that the head state lists as its ancestors.", "quantifier": "every life of a node with any number of starts and checkpoint syncs", "why_tests_cant": "The index is left over from arbitrary earlier runs, possibly on a chain that was abandoned.", "anchors": ["bin/ethlambda/src/main.rs::fetch_initial_state", "crates/storage/src/store.rs::init_store", "crates/storage/src/store.rs::get_signed_blocks_by_slot_range", "crates/storage/src/store.rs::block_root_index_changes"]}
{"id": "C93", "title": "No key signs twice for a slot, across restarts", "statement": "However often a node is stopped and started, at any moment, resuming or syncing from a checkpoint, it never signs two votes for the same slot, or two blocks for the same slot, with the same key.", "quantifier": "every life of a node with any number of starts and checkpoint syncs", "why_tests_cant": "The only protection against signing twice is a clock value in the database; whether it survives depends on which start path is taken in which state of the directory and wall clock.", "anchors": ["bin/ethlambda/src/main.rs::fetch_initial_state", "crates/storage/src/store.rs::init_store", "crates/blockchain/src/lib.rs::on_tick", "crates/blockchain/src/key_manager.rs::sign_attestation"]}
{"id": "C94", "title": "A network that is one node finalizes", "statement": "A node that runs all validators of its network and aggregates, whose timers fire on time and whose keys and provers work, misses no duty: every validator votes in every slot, every slot has a block, and the node imports it. After any number s of slots its head is the block of slot s, the block of slot s - 2 is justified and the block of slot s - 3 is finalized, and it never stops.", "quantifier": "every number of validators and of slots, every order of the validators, every timing within the intervals", "why_tests_cant": "Unbounded runs of the whole node: votes, aggregation, block building, import and pruning feed each other; a test runs a few slots with a few validators.", "anchors": ["crates/blockchain/src/lib.rs::on_tick", "crates/blockchain/src/aggregation.rs::run_aggregation_worker", "crates/blockchain/src/block_builder.rs::build_block", "crates/blockchain/src/store.rs::on_block"]}
{"id": "C95", "title": "An aggregator keeps the signatures it collects", "statement": "However many validators sign a vote, and in whatever order their signatures arrive, an aggregator has the signature of each of them until it has aggregated it or the vote's slot is finalized.", "quantifier": "every number of validators up to the registry limit, every sequence of signatures and earlier contents of the pool", "why_tests_cant": "Eviction works on whole messages and depends on how many signatures have arrived; tests stay far below the capacity.", "anchors": ["crates/storage/src/store.rs::GossipSignatureBuffer::insert", "crates/storage/src/store.rs::insert_gossip_signature"]}
{"id": "C96", "title": "A validator's keys can sign all their life", "statement": "Once a node has loaded a validator's keys, each of them signs every slot of its activation interval that the node asks for in the course of time, whichever slots were asked for before, and the signing library is never asked for a slot it is not prepared for (which would panic).", "quantifier": "every sequence of ticks, votes and proposals of any number of validators, every activation interval", "why_tests_cant": "Preparation windows slide every 65536 slots (three days); key generation alone takes minutes, so tests cover one step.", "anchors": ["crates/blockchain/src/key_manager.rs::advance_key", "crates/blockchain/src/key_manager.rs::advance_keys_to", "crates/blockchain/src/key_manager.rs::sign_attestation", "crates/blockchain/src/key_manager.rs::sign_block_root", "crates/blockchain/src/lib.rs::on_tick"]}
{"id": "C97", "title": "A node has exactly the keys assigned to it", "statement": "The keys are loaded exactly if the node is listed in the validator file, every key file listed under it is named for one of the two uses, and every validator under it has exactly one readable file for each use. Then the node has exactly the validators listed under it, and each votes and proposes with the key from the file listed for that validator and that use.", "quantifier": "every validator file, node name and content of the key directory", "why_tests_cant": "A swapped or duplicated key is a lost or a slashable signature; tests use a handful of files.", "anchors": ["bin/ethlambda/src/main.rs::read_validator_keys", "bin/ethlambda/src/main.rs::classify_role"]}
{"id": "C98", "title": "A network whose messages arrive in time finalizes", "statement": "Spread the validators of a network over any number of nodes, some of which aggregate, let the timers fire on time, the keys and provers work, and all messages arrive before the next interval begins, in any order and possibly repeated. Then no node ever stops and no duty is missed: every validator votes in every slot, every slot has one block and all nodes import it. After any number s of slots all nodes have the same head, the block of slot s; they all have justified the same block, of slot s - 2, and finalized the same block, of slot s - 3.", "quantifier": "every number of validators, of nodes and of slots, every assignment of validators to nodes, every choice of aggregators, every order and repetition of messages", "why_tests_cant": "Unbounded runs of many nodes under every interleaving of the messages within an interval.", "anchors": ["crates/blockchain/src/lib.rs::on_tick", "crates/blockchain/src/lib.rs::propose_block", "crates/blockchain/src/aggregation.rs::run_aggregation_worker", "crates/blockchain/src/block_builder.rs::build_block", "crates/blockchain/src/store.rs::on_block", "crates/blockchain/src/store.rs::on_gossip_attestation", "crates/blockchain/src/store.rs::on_gossip_aggregated_attestation"]}
{"id": "C99", "title": "What an aggregator publishes", "statement": "Whatever its worker threads, timers and the messages of others do, the aggregates an aggregator publishes name only validators that signed the vote, and if it sees one copy of each block they are valid proofs of exactly that. None is published before the third interval of its slot. As long as the clock does not go back and the node is not restarted, they are published in the order of the slots, at most two for a slot and never two for the same vote.", "quantifier": "every run of a node with any number of overlapping sessions, workers and delayed messages", "why_tests_cant": "Workers run beside the actor and their messages are delayed; cancelled sessions, late results and early starts can interleave in unboundedly many ways.", "anchors": ["crates/blockchain/src/lib.rs::start_aggregation_session", "crates/blockchain/src/lib.rs::maybe_start_early_aggregation", "crates/blockchain/src/aggregation.rs::run_aggregation_worker"]}
{"id": "C100", "title": "A subscriber of the event stream misses nothing silently", "statement": "A request for the event stream is accepted exactly if it lists names of topics. A client is then sent, in order, every event of its topics emitted since it came; events it lost because it was more than 8192 behind are announced with their exact number, and a client that keeps up loses none. What it is sent does not depend on other clients. A client that has followed the checkpoint topics from the start and has read everything knows the node's justified and finalized checkpoint.", "quantifier": "every sequence of events, arrivals, departures and reads of any number of clients", "why_tests_cant": "Interleavings of a bounded channel with any number of slow and fast readers; tests use one client and a few events.", "anchors": ["crates/net/rpc/src/events.rs::get_events", "crates/net/rpc/src/events.rs::event_stream", "crates/blockchain/src/events.rs::EventBus"]}
{"id": "C101", "title": "Finality does not need the offline validators", "statement": "If at least two thirds of the validators are online, they can finalize something new on any chain, with blocks that they propose in their own slots and with their own votes, while the others stay silent.", "quantifier": "every chain, every number of validators and every set of online validators", "why_tests_cant": "Whether it works depends on the residues of squares and products of consecutive numbers modulo the number of validators, over slots without bound; tests have a handful of validators and slots.", "anchors": ["crates/blockchain/state_transition/src/lib.rs::try_finalize", "crates/blockchain/state_transition/src/lib.rs::slot_is_justifiable_after", "crates/blockchain/state_transition/src/lib.rs::is_proposer", "crates/blockchain/state_transition/src/lib.rs::process_attestations"]}
{"id": "C102", "title": "Honest nodes do not finalize different branches", "statement": "Nodes that follow the protocol never finalize blocks of different branches, even if messages are late, reordered or lost, as long as their clocks agree.", "quantifier": "every network of such nodes, every delivery order, every number of slots", "why_tests_cant": "The branches part in one slot and are finalized many slots later, after a delivery order that no test would think of; tests of the network use prompt delivery.", "anchors": ["crates/blockchain/src/store.rs::produce_attestation_data", "crates/blockchain/src/store.rs::get_attestation_target_with_checkpoints", "crates/blockchain/src/store.rs::update_safe_target", "crates/blockchain/state_transition/src/lib.rs::try_finalize", "crates/blockchain/src/lib.rs::BlockChainServer"]}
{"id": "C103", "title": "A validator never contradicts itself", "statement": "A validator run by this node never signs two votes that together are a Casper offence (two targets at one slot, or one vote surrounding another), whatever messages arrive or are lost.", "quantifier": "every network, every delivery order, every pair of votes of a validator", "why_tests_cant": "An offence is a relation between two votes cast many slots apart on different views of the chain; tests look at one vote at a time.", "anchors": ["crates/blockchain/src/store.rs::produce_attestation_data", "crates/blockchain/src/store.rs::get_attestation_target_with_checkpoints", "crates/blockchain/src/store.rs::update_safe_target", "crates/blockchain/src/lib.rs::BlockChainServer::produce_attestations"]}
{"id": "C104", "title": "Finality recovers from a pause of the aggregator", "statement": "A network of one node that runs all validators keeps its finalized block three slots behind the head. If its aggregator role is switched off for a while, so that the votes of some slots are lost, and then on again for good, finality catches up and is again three slots behind the head.", "quantifier": "every number of validators from 2 to 2048, every set of slots in which the role is off, every number of slots up to the protocol limit", "why_tests_cant": "The lag after a pause is the limit of a recurrence over unboundedly many slots, which depends on the squares and products of consecutive numbers around the lag; tests look at a few slots.", "anchors": ["crates/blockchain/src/lib.rs::on_tick", "crates/blockchain/src/aggregation.rs::snapshot_aggregation_inputs", "crates/blockchain/src/store.rs::update_safe_target", "crates/blockchain/src/store.rs::get_attestation_target_with_checkpoints", "crates/blockchain/state_transition/src/lib.rs::try_finalize"]}
{"id": "C105", "title": "The history of the event monitor is complete", "statement": "A dashboard that opens is given every event of the last configured number of slots, oldest first, limited only to the newest 2000 of each node and topic, so that a flood of one topic does not crowd out another. An event just received is among them, also after the slot geometry has changed because genesis was regenerated.", "quantifier": "every sequence of frames of any number of nodes, and every interleaving of the collectors with the geometry refresher", "why_tests_cant": "The limits bite after tens of thousands of events, and the geometry changes between two steps of another task; tests publish a few events from one task.", "anchors": ["tooling/event-monitor/src/hub.rs::History", "tooling/event-monitor/src/hub.rs::Hub", "tooling/event-monitor/src/timing.rs::run_refresher", "tooling/event-monitor/src/collector.rs::connect_and_stream"]}
{"id": "C106", "title": "The event monitor dates events exactly and calls a node down only after repeated failures", "statement": "An event is shown with the time that passed between the start of its slot and its arrival (negative if it is early), unless it is more than eight slots early, in which case it is dropped; no frame makes the computation overflow. The same aggregate has one id however its participants are listed. A node is called down exactly after seven failed attempts to connect in a row, or six since a session that lasted a heartbeat, and a node that is never reached is announced at most twice.", "quantifier": "every accepted geometry, every frame, every time from 1970 on; every sequence of connection attempts", "why_tests_cant": "Saturating and wrapping 64-bit arithmetic over all geometries and slots; sequences of attempts of any length.", "anchors": ["tooling/event-monitor/src/model.rs::normalize", "tooling/event-monitor/src/timing.rs::Timing", "tooling/event-monitor/src/collector.rs::run_collector", "tooling/event-monitor/src/collector.rs::Backoff"]}
{"id": "C107", "title": "64-bit arithmetic never goes wrong", "statement": "Slots, lengths and vote counts are 64-bit words whose sums, differences and products wrap silently in release builds. On every state that a node holds, and for every block that can be decoded, however large its slot, the state transition gives exactly the result of computing with unbounded numbers. The same holds for the clock (for genesis times below 2^64 milliseconds) and for the check that a block or vote is not in the future.", "quantifier": "every chain from genesis with up to 4096 validators, every history of a node, every block and slot", "why_tests_cant": "Wrapping happens at values near 2^64 that a test would have to guess for each expression, and whether it can be reached depends on an invariant of all chains.", "anchors": ["crates/blockchain/state_transition/src/lib.rs::process_block_header", "crates/blockchain/state_transition/src/lib.rs::process_attestations", "crates/blockchain/state_transition/src/lib.rs::try_finalize", "crates/blockchain/state_transition/src/justified_slots_ops.rs", "crates/blockchain/src/store.rs::on_tick", "crates/blockchain/src/store.rs::validate_attestation_data"]}
{"id": "C108", "title": "A node that hears of a block gets its whole branch", "statement": "A node that receives a block of a branch it does not know asks for the first missing ancestor, and again for the next one when that arrives. If a peer has the branch and the node's requests are answered, then in the end every block of the branch is imported, however many were missing and whatever else happens in between. (The blocks must be valid and in time, must not conflict with what gets finalized, and no corrupted copy may arrive before the parent is imported.)", "quantifier": "every reachable node, every branch of any length that starts at an imported block, every sequence of other events except a restart", "why_tests_cant": "The number of rounds of request and answer is the length of the branch, and blocks of the branch, votes, ticks and own proposals may come in between; a test plays one short exchange.", "anchors": ["crates/blockchain/src/lib.rs::BlockChainServer::process_or_pend_block", "crates/blockchain/src/lib.rs::BlockChainServer::collect_pending_children", "crates/net/p2p/src/req_resp/handlers.rs::handle_blocks_by_root_request"]}
{"id": "C109", "title": "What a node serves by range, other nodes can import", "statement": "A node that has the parent of a block, whose clock has reached the block's slot and that has not finalized another branch, imports every block after the starting state of the serving node that a range request is answered with. The copy served is complete and valid: its proof and body are the ones that passed the checks of the serving node. (Requests by root are answered with all stored blocks, also with a block that the serving node itself has rejected.)", "quantifier": "every pair of reachable nodes with the same genesis, however they got their blocks, every requested range", "why_tests_cant": "Whether the stored copy is the verified one depends on the whole history of arrivals, pending copies, prunings and restarts of the serving node, and on the state of another node; tests serve blocks that were just inserted.", "anchors": ["crates/net/p2p/src/req_resp/handlers.rs::handle_blocks_by_range_request", "crates/net/p2p/src/req_resp/handlers.rs::handle_blocks_by_root_request", "crates/storage/src/store.rs::get_signed_blocks_by_slot_range", "crates/blockchain/src/lib.rs::BlockChainServer::process_or_pend_block"]}
{"id": "C110", "title": "A node that comes late gets the chain of its peer", "statement": "A node whose head is on the chain of a peer, and which learns that the peer's head is later, asks the peer for ranges until it has handed over every block after its head, up to 65536 slots, and imports them all; up to that distance it ends with the peer's head imported. (The peer answers and still has the blocks, as it has for a day (C113), no 1024 slots in a row are empty, and the blocks arrive in the order handed over, with anything in between.)", "quantifier": "every pair of reachable nodes with the same genesis, every chain, every sequence of other messages, ticks and restarts in between", "why_tests_cant": "The exchange has dozens of requests, and the result depends on the batching, the server's index and the import of tens of thousands of blocks together; tests play the parts separately.", "anchors": ["crates/net/p2p/src/lib.rs::P2PServer", "crates/net/p2p/src/req_resp/handlers.rs::handle_blocks_by_range_request", "crates/net/p2p/src/req_resp/handlers.rs::handle_blocks_by_range_response", "crates/storage/src/store.rs::get_signed_blocks_by_slot_range", "crates/blockchain/src/lib.rs::BlockChainServer::process_or_pend_block"]}
{"id": "C111", "title": "Reading while the node writes", "statement": "Requests are answered while the node imports blocks, and each read sees the database as it is at that moment. Whatever is written meanwhile, every block of a range answer is the one its root says, in the requested slots, in increasing order, and was on the node's chain while the answer was made; a status message never panics and names a head the node had, with its slot; the finalized state and the head state are read exactly and without panic. A range answer is linked, as if read at one moment.", "quantifier": "every reachable store, every sequence of storage calls between any two reads, every requested range", "why_tests_cant": "Interleavings of reads and writes cannot be forced by a test, and the tests use an in-memory backend whose views are locks, unlike the database.", "anchors": ["crates/storage/src/backend/rocksdb.rs::RocksDBReadView", "crates/storage/src/store.rs::get_signed_blocks_by_slot_range", "crates/storage/src/store.rs::signed_block_from_view", "crates/storage/src/store.rs::get_state", "crates/storage/src/store.rs::reconstruct_state", "crates/net/p2p/src/req_resp/handlers.rs::build_status", "crates/net/rpc/src/base.rs::get_latest_finalized_state"]}
{"id": "C112", "title": "The fork choice tree in the log", "statement": "At the end of every slot a node logs a drawing of its block tree. Whatever its block tree is, drawing it comes to an end without a panic. The drawing starts at a block of the lowest slot and shows only descendants of it, each at most once and next to its parent, with its slot and the number of empty slots before it, heavier branches first; a star stands only at the head. If nothing had to be cut off, all descendants of the start are shown and the head has its star, provided it descends from the block it starts at.", "quantifier": "every block map in which parents are earlier than their children, all weights and heads; every reachable node, every order of its hash map, all votes", "why_tests_cant": "The drawing is made by mutually recursive functions with indexing that panics on a missing block; tests render half a dozen small trees.", "anchors": ["crates/blockchain/src/fork_choice_tree.rs::format_fork_choice_tree", "crates/blockchain/src/fork_choice_tree.rs::render_trunk", "crates/blockchain/src/fork_choice_tree.rs::render_branch_line", "crates/blockchain/src/fork_choice_tree.rs::find_tree_root", "crates/blockchain/src/store.rs::log_fork_choice_tree"]}
{"id": "C113", "title": "A node keeps what others need to follow it", "statement": "Proofs of old blocks are dropped to save space. Whatever happened, a node has the complete copy, body and proof included, of every block it has imported since its start that lies at most 21600 slots (a day) below the highest block it has imported, and answers requests with it. So a node that comes late by at most that distance gets the whole chain of its peer.", "quantifier": "every reachable node, every imported block, every history of imports, reorganizations, prunings and restarts", "why_tests_cant": "Copies are written by two paths, overwritten by later arrivals and dropped at a cut-off that depends on the head and the finalized slot of the moment, which can both go back; the retention window is a day long.", "anchors": ["crates/storage/src/store.rs::prune_old_data", "crates/storage/src/store.rs::prune_old_block_proofs", "crates/storage/src/store.rs::insert_signed_block", "crates/net/p2p/src/req_resp/handlers.rs::handle_blocks_by_root_request"]}
{"id": "C114", "title": "Which votes an aggregator works on first", "statement": "A node in the aggregator role starts, on a tick in the third interval of a slot for which it has no session yet, a session that works off the votes it holds: those of the current slot first, then those that finalize before those that justify, in the block builder's order, each judged after the ones before it; votes that are not worth it (C65) are left out. There is room for two votes, or one if the node proposes the next block, and fewer are taken only if no more are worth it. Nothing else starts a session in the other intervals except the early trigger (C47), and nothing does while the role is off. The choice does not depend on hash map order, and a vote with two stored signatures that no single proof covers is never overlooked.", "quantifier": "every reachable node, all contents of the pools, all ticks and clocks, every switching of the role", "why_tests_cant": "The choice is made over hash maps with a score that depends on the head state and on the votes chosen before; tests have one or two candidates.", "anchors": ["crates/blockchain/src/aggregation.rs::snapshot_aggregation_inputs", "crates/blockchain/src/aggregation.rs::pick_best_candidate", "crates/blockchain/src/aggregation.rs::resolve_job", "crates/blockchain/src/lib.rs::BlockChainServer::start_aggregation_session", "crates/blockchain/src/lib.rs::BlockChainServer::on_tick"]}
{"id": "C115", "title": "The coverage gauges count exactly the validators seen", "statement": "In the second interval of slot i+1 the node sets its attestation coverage gauges for the votes of slot i, if its head block carries such votes, and at no other time. The gauges of the sections `timely`, `late`, `block` and `combined` then show the number of distinct validators (in all, on each subnet, and the number of subnets they touch) whose votes for slot i were in the aggregates waiting just before the last tick of a fifth interval at which any were waiting, are in the aggregates waiting now, are in the head block, and are in any of these; `block_only` and `timely_only` are the sizes of the two differences. Every validator shown as timely or late signed a vote for slot i if signatures cannot be forged. Computing the report never panics and never changes what the node does.", "quantifier": "All executions of a node with its aggregation sessions: any blocks, votes, aggregates, ticks, restarts and role switches in any order, any number of subnets.", "why_tests_cant": "A test checks a few bit vectors; that the snapshot in use is the right one, that no validator is counted twice or outside the registry, and that reading it has no effect is a statement about all histories.", "anchors": ["crates/blockchain/src/coverage.rs:36-211", "crates/blockchain/src/lib.rs:334-351", "crates/blockchain/src/lib.rs:388-399", "crates/storage/src/store.rs:1650-1662"]}
{"id": "C116", "title": "The operator's endpoints tell and set what the node does", "statement": "GET /lean/v0/admin/aggregator answers with the role last set by POST since the process started, or else with the one of the command line; POST with a body whose field `enabled` is a boolean sets it and answers with the role before, and every other body is refused and changes nothing. Whatever the node does with a message it does in the role that was set when it took the message up; so after the role is switched off, from the next message on, no aggregation session is started until it is switched on again or the process is restarted. GET /lean/v0/node/syncing never panics. It says is_syncing exactly when the node takes itself to be behind, the condition that suspends its duties, and gives the head's slot, its distance to the clock (0 if the clock is behind), and the finalized slot, which is not above the head's if nothing is written while the answer is made. (Otherwise it can be above, as the head is read first.)", "quantifier": "All executions of a node with its aggregation sessions and any requests in between, also while a message is being handled: any blocks, votes, ticks, restarts, bodies and clocks; for the last endpoint also every sequence of storage calls between its reads.", "why_tests_cant": "The role is a flag shared between the HTTP server and the actor, and the status is written by the actor and read by the server; tests call the handlers on a flag that nobody else uses and on a fresh store.", "anchors": ["crates/net/rpc/src/admin.rs:57-108", "crates/net/rpc/src/node.rs:38-62", "crates/common/types/src/aggregator.rs", "crates/blockchain/src/sync_status.rs:17-40", "crates/blockchain/src/lib.rs:324-331", "crates/blockchain/src/lib.rs:1271-1283", "bin/ethlambda/src/main.rs:218-246"]}
{"id": "C117", "title": "A node does not give up its bootnodes", "statement": "Whatever connections come and go, a bootnode (other than the node itself) that the node has no connection to is being dialled, or will be within 12 seconds, as soon as all that waits to be handled is handled. Only bootnodes are dialled, never the node itself. The peers the node takes to be connected are then exactly those it has a connection to, and it sends each a status request when it becomes connected and at no other time. At most one attempt to reach a bootnode is under way at any time.", "quantifier": "every list of bootnodes, every sequence of dials that succeed or fail, incoming and lost connections, with several connections to a peer, and every order in which the actor handles the events and timers", "why_tests_cant": "Whether a lost bootnode is ever dialled again depends on the interleaving of connection events, timers and queues of two tasks; no test connects two nodes.", "anchors": ["crates/net/p2p/src/lib.rs::build_swarm", "crates/net/p2p/src/lib.rs::handle_swarm_event", "crates/net/p2p/src/lib.rs::P2PServer::handle_retry_peer_redial", "crates/net/p2p/src/swarm_adapter.rs::swarm_loop"]}
{"id": "C118", "title": "Every block, vote and aggregate fits the wire and is read back exactly", "statement": "A signed block, vote or aggregated vote that a node can hold is decoded from its SSZ bytes to the same value, and the bytes of a block are those the specification prescribes. Bytes that arrive decode only to values within the limits of the types. Every block has at most 3182692 bytes (529580 if it has at most eight attestations), so no block is ever left out of an answer because of its size: the peer that asked reads all the blocks served, in order. What a node publishes over gossip is below the transmission limit and is decoded by the receiver to the same value. Requests by root and by range and status messages are read as they were sent, and states are read back from their bytes exactly.", "quantifier": "every value of the Rust types (up to 4096 attestations of 4096 bits, proofs up to 512 KiB, states with up to 262144 roots), every list of blocks, every byte string received", "why_tests_cant": "The tests build one block with fifty attestations and compare its size with the limit; that no combination of counts, bit lengths and proof size exceeds it, or decodes to something else, is a statement about all values.", "anchors": ["crates/common/types/src/block.rs", "crates/common/types/src/attestation.rs", "crates/common/types/src/state.rs:16-87", "crates/net/p2p/src/req_resp/messages.rs:97-140", "crates/net/p2p/src/req_resp/codec.rs:120-187", "crates/net/p2p/src/gossipsub/handler.rs", "crates/net/p2p/src/gossipsub/encoding.rs:29-51", "crates/net/p2p/src/lib.rs:241"]}
{"id": "C119", "title": "A root identifies a vote, a block and a state", "statement": "Two votes, two blocks or two states with the same hash tree root are equal, unless two different 64 byte inputs that are hashed to compute these two roots have the same SHA-256 hash. In particular bit lists that differ only by trailing zeros, lists of different lengths, and votes with target and source exchanged have different roots. The root of a block is the root of its header. So if no two inputs hashed by a node collide, then no two of the votes, block bodies and headers it has seen share a root.", "quantifier": "all votes, blocks and states within the limits of the types, every execution of a node, every hash function", "why_tests_cant": "Whether some pair of different values is merkleized to the same tree (missing length, padding, field order) is a statement about all pairs; tests compare a few roots with fixed vectors.", "anchors": ["crates/common/types/src/primitives.rs:1-45", "crates/common/types/src/block.rs:181-254", "crates/common/types/src/attestation.rs:23-117", "crates/common/types/src/state.rs:16-119", "crates/common/types/src/checkpoint.rs:8-27"]}
{"id": "C120", "title": "The genesis file identifies the network", "statement": "A validator key in the genesis file is accepted exactly if it is 52 bytes in hexadecimal, in either case, with or without 0x; the i-th entry becomes validator i with exactly these two keys, and one bad key refuses the whole file. Two networks whose files give different genesis times or registries never mix, although their gossip topics are the same: the genesis blocks have different roots, a checkpoint state of one is refused by nodes of the other, and whatever messages two nodes of the two networks receive, they never import a common block, nor does any vote pass the checks of both.", "quantifier": "all file contents, all pairs of networks, every execution of a node in each, including messages from the other network, for starts from genesis or from a checkpoint", "why_tests_cant": "That no sequence of blocks from elsewhere ever connects to the node's own chain is a statement about all executions of two nodes; tests parse one file and compare one root.", "anchors": ["crates/common/types/src/genesis.rs:24-127", "crates/common/types/src/state.rs:88-115", "crates/net/p2p/src/gossipsub/messages.rs:13-33", "crates/blockchain/src/store.rs", "crates/blockchain/src/lib.rs"]}
{"id": "C121", "title": "The network actor and the swarm task keep requests and answers together", "statement": "The actor that fetches blocks and the task that owns the swarm talk over queues, and the actor waits for the id of a request while answers, timers and other messages arrive. However the two are interleaved, the effect is as if each message were handled in one go: an answer is handled only after its request is on record, even if the swarm had it before the actor had the id. No message is lost or overtakes another. Every request the actor takes to be sent was carried out exactly once, under its own id. A waiting handler always comes to its end, also if the swarm task ends; after that nothing is sent and no handler waits.", "quantifier": "every interleaving of the two tasks, the timers and the arriving messages, every order and content of answers, the swarm task ending at any moment", "why_tests_cant": "Whether an answer can be handled before its request is recorded depends on the scheduling of two tasks; a test sees one schedule, and no test runs the adapter.", "anchors": ["crates/net/p2p/src/swarm_adapter.rs:59-80", "crates/net/p2p/src/swarm_adapter.rs:94-177", "crates/net/p2p/src/req_resp/handlers.rs:401-544", "crates/net/p2p/src/lib.rs:375-398", "crates/net/p2p/src/lib.rs:415-432"]}
{"id": "C122", "title": "A dashboard that opens shows every event, once", "statement": "A page of the event monitor that is opened while events keep coming shows, once everything has arrived, every event that was published, except those that the history did not hold any more, and for every node the last status that its collector published. It shows nothing that was not published, and no event twice.", "quantifier": "every interleaving of the collectors publishing, the server handling the two requests, resets of the history and the arrival of both answers at the page, for any number of nodes and events", "why_tests_cant": "The two answers travel on different connections and race with the collectors; no test covers the page, and a test of the server sees one order.", "anchors": ["tooling/event-monitor/src/hub.rs:146-217", "tooling/event-monitor/src/server.rs:113-134", "tooling/event-monitor/web/app.js:113-219"]}
{"id": "C123", "title": "The propagation panel shows true delays", "statement": "For every block or aggregate of the last slots the panel has a dot for exactly the nodes that have reported it, and the dot stands for the exact delay of that node behind the first one: whatever the order in which the events arrive, how often they arrive, and when the panel is tidied up. Two pages that received the same events show the same.", "quantifier": "every sequence of events, of tidying up and of changes of the number of slots shown, any number of nodes", "why_tests_cant": "The panel keeps minima incrementally and forgets ids; that this never shows in a delay concerns all orders of arrival. The page has no tests.", "anchors": ["tooling/event-monitor/web/propagation.js:110-137", "tooling/event-monitor/web/propagation.js:192-256", "tooling/event-monitor/web/propagation.js:326-329"]}
{"id": "C124", "title": "The panel of arrival times shows the last events of every node", "statement": "For every node the panel of arrival times shows, in the order of arrival, all its blocks, attestations and aggregates of the last slots, at least as far as they are among its last 2000 events; nothing older, nothing left out and nothing twice, whenever the panel is tidied up. A point stands for the exact time within two slots, later ones are at the end, and events before their slot are marked. The panel holds at most 2000 points per node.", "quantifier": "every sequence of events, of tidying up and of reductions of the number of slots shown, any number of nodes", "why_tests_cant": "Tidying up stops at the first recent point and dropping counts points that are not shown; that neither hides a recent event concerns all orders of arrival. The page has no tests.", "anchors": ["tooling/event-monitor/web/beeswarm.js:115-143", "tooling/event-monitor/web/beeswarm.js:243-279", "tooling/event-monitor/web/beeswarm.js:329-332"]}
