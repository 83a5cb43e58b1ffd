{
 "claims": [
  {
   "property": "C01",
   "status": "proved",
   "theorems": [
    "Verif.C01_justifiable_iff",
    "Verif.C01_justifiable_huge_distance",
    "Verif.C01_justifiable_sound",
    "Verif.C01_pronic_missed_at_overflow"
   ],
   "note": "Exact for 4*distance+1 < 2^64; beyond that the exact answer (squares only) is proved, so pronic distances >= 2^62 are missed (finding F1)."
  },
  {
   "property": "C02",
   "status": "proved",
   "theorems": [
    "Verif.JustifiedSlots.C02_window_refines_set",
    "Verif.JustifiedSlots.C02_finalize_preserves_status"
   ],
   "note": "Refinement to a set of justified slots over every operation sequence."
  },
  {
   "property": "C03",
   "status": "proved",
   "theorems": [
    "Verif.C03_block_appends_history",
    "Verif.C03_parent_is_tip",
    "Verif.C03_history_is_chain"
   ],
   "note": "Over all chains from genesis; the tip/chain forms assume state roots are never the zero hash."
  },
  {
   "property": "C04",
   "status": "proved",
   "theorems": [
    "Verif.C04_jump_eq_loop"
   ],
   "note": "Assumes state roots are never the zero hash."
  },
  {
   "property": "C05",
   "status": "proved",
   "theorems": [
    "Verif.C05_checkpoints_ordered",
    "Verif.C05_checkpoints_monotone",
    "Verif.C05_justification_never_revoked"
   ],
   "note": "Induction over chains of any length."
  },
  {
   "property": "C06",
   "status": "proved",
   "theorems": [
    "Verif.C06_checkpoints_in_history",
    "Verif.C06_checkpoints_on_chain"
   ],
   "note": "Assumes no header (and, for the block form, no state) hashes to the zero hash."
  },
  {
   "property": "C07",
   "status": "proved",
   "theorems": [
    "Verif.C07_supermajority",
    "Verif.C07_every_justified_slot"
   ],
   "note": "For the justified and finalized checkpoints and every justified slot."
  },
  {
   "property": "C08",
   "status": "proved",
   "theorems": [
    "Verif.C08_finalization_consecutive"
   ],
   "note": "Stated with the independent JustifiableDistance of C01."
  },
  {
   "property": "C09",
   "status": "partial",
   "theorems": [
    "Verif.C09_supermajority_link_refuted",
    "Verif.C09_supermajority_target_partial"
   ],
   "note": "The full statement is false for the code (finding F2); the refutation and the part that does hold are proved."
  },
  {
   "property": "C10",
   "status": "proved",
   "theorems": [
    "Verif.C10_no_panic"
   ],
   "note": "For registries within VALIDATOR_REGISTRY_LIMIT (enforced by the SSZ type)."
  },
  {
   "property": "C11",
   "status": "proved",
   "theorems": [
    "Verif.C11_order_independent",
    "Verif.C11_shuffled_exists",
    "Verif.C11_tally_round_trip"
   ],
   "note": "Map order may change before every step."
  },
  {
   "property": "C12",
   "status": "proved",
   "theorems": [
    "Verif.C12_uncountable_vote_ignored",
    "Verif.C12_countable_vote_recorded",
    "Verif.C12_repeat_vote_idempotent"
   ],
   "note": "Both directions: what does not count is ignored, what counts is recorded for exactly its participants."
  },
  {
   "property": "C13",
   "status": "proved",
   "theorems": [
    "Verif.C13_unique_proposer",
    "Verif.C13_no_validators",
    "Verif.C13_round_robin",
    "Verif.C13_wrong_proposer_rejected"
   ],
   "note": ""
  },
  {
   "property": "C14",
   "status": "proved",
   "theorems": [
    "Verif.ForkChoice.C14_weight_is_support",
    "Verif.ForkChoice.C14_no_weight_below_start",
    "Verif.ForkChoice.C14_weight_monotone",
    "Verif.ForkChoice.C14_walk_fuel_irrelevant"
   ],
   "note": "For block maps with slot-increasing parents."
  },
  {
   "property": "C15",
   "status": "proved",
   "theorems": [
    "Verif.ForkChoice.C15_head_is_greedy_leaf",
    "Verif.ForkChoice.C15_head_descends",
    "Verif.ForkChoice.C15_head_unique",
    "Verif.ForkChoice.C15_unknown_start",
    "Verif.ForkChoice.C15_zero_start"
   ],
   "note": "The greedy leaf is unique, so the head is fully characterised."
  },
  {
   "property": "C16",
   "status": "proved",
   "theorems": [
    "Verif.ForkChoice.C16_deterministic",
    "Verif.ForkChoice.C16_zero_start_tie"
   ],
   "note": "Head and weights agree for all permutations; the zero start root needs a unique lowest block, shown necessary."
  },
  {
   "property": "C17",
   "status": "proved",
   "theorems": [
    "Verif.ForkChoice.C17_safe_target_supported",
    "Verif.ForkChoice.C17_safe_target_maximal",
    "Verif.ForkChoice.C17_no_conflicting_support"
   ],
   "note": "Votes by registered validators (ids < n)."
  },
  {
   "property": "C18",
   "status": "proved",
   "theorems": [
    "Verif.Votes.C18_latest_vote",
    "Verif.Votes.C18_order_independent",
    "Verif.Votes.C18_older_never_replaces"
   ],
   "note": "Over every interleaving, with the hash map's drain order left open; order independence assumes no data-root collision among the votes of one validator."
  },
  {
   "property": "C19",
   "status": "proved",
   "theorems": [
    "Verif.Votes.C19_gossip_does_not_count",
    "Verif.Votes.C19_gossip_run",
    "Verif.Votes.C19_block_counts_immediately",
    "Verif.Votes.C19_promotion_loses_nothing",
    "Verif.Votes.C19_safe_votes_are_pending",
    "Verif.Votes.C19_one_vote_per_validator"
   ],
   "note": "Head selection reads only the known votes."
  },
  {
   "property": "C20",
   "status": "proved",
   "theorems": [
    "Verif.Buffers.C20_buffer_consistent",
    "Verif.Buffers.C20_drain_exact",
    "Verif.Buffers.C20_prune_exact"
   ],
   "note": "Any capacity, any operation sequence from an empty buffer; the two-index swap_remove loop is modelled literally."
  },
  {
   "property": "C21",
   "status": "proved",
   "theorems": [
    "Verif.Buffers.C21_coverage",
    "Verif.Buffers.C21_hist_total",
    "Verif.Buffers.C21_eviction_oldest_first",
    "Verif.Buffers.C21_self_eviction"
   ],
   "note": "Finding F3: a message whose own proofs exceed the capacity evicts itself."
  },
  {
   "property": "C22",
   "status": "proved",
   "theorems": [
    "Verif.Buffers.C22_pool_consistent",
    "Verif.Buffers.C22_delete_exact",
    "Verif.Buffers.C22_insert_exact",
    "Verif.Buffers.C22_prune_exact",
    "Verif.Buffers.C22_max_group"
   ],
   "note": ""
  },
  {
   "property": "C23",
   "status": "proved",
   "theorems": [
    "Verif.Backend.C23_roundtrip",
    "Verif.Backend.C23_decode_total",
    "Verif.Backend.C23_order",
    "Verif.Backend.C23_slot_bound",
    "Verif.Backend.C23_slot_keys"
   ],
   "note": "Exact bytes, u64 slots and 32-byte roots."
  },
  {
   "property": "C24",
   "status": "proved",
   "theorems": [
    "Verif.Backend.C24_prune_exact"
   ],
   "note": "Byte-level table; covers the early-stopping scan and the returned count."
  },
  {
   "property": "C25",
   "status": "proved",
   "theorems": [
    "Verif.Backend.C25_prune_exact",
    "Verif.Backend.C25_keeps_unfinalized_and_recent"
   ],
   "note": "Byte-level range delete; prune_old_data feeds it the finalized slot and head slot."
  },
  {
   "property": "C26",
   "status": "proved",
   "theorems": [
    "Verif.Db.C26_single",
    "Verif.Db.C26_chain",
    "Verif.Db.C26_refuses_other_histories",
    "Verif.Db.C26_import_is_valid_child"
   ],
   "note": "Every state computed by the state transition is a valid child, for arbitrary parent states."
  },
  {
   "property": "C27",
   "status": "proved",
   "theorems": [
    "Verif.Db.C27_read_back",
    "Verif.Db.C27_has_state",
    "Verif.Db.C27_insert_succeeds"
   ],
   "note": "Refinement to the map of inserted states over every run of storage calls; assumes no header-hash collision among the blocks stored."
  },
  {
   "property": "C28",
   "status": "proved",
   "theorems": [
    "Verif.Db.C28_index_exact",
    "Verif.Db.C28_update_succeeds",
    "Verif.Db.C28_range",
    "Verif.Db.C28_range_linked"
   ],
   "note": "Heads descend from the anchor through stored headers with increasing slots; assumes no header-hash collision among the blocks stored."
  },
  {
   "property": "C29",
   "status": "proved",
   "theorems": [
    "Verif.Db.C29_read_back",
    "Verif.Db.C29_prune_keeps",
    "Verif.Db.C29_absent",
    "Verif.Db.C29_no_synthesized_proof"
   ],
   "note": "Assumes only the empty body has the empty body's root."
  },
  {
   "property": "C30",
   "status": "partial",
   "theorems": [
    "Verif.Node.C30_partial",
    "Verif.Node.C30_false"
   ],
   "note": "False for the code (finding F19): dying between insert_signed_block and insert_state leaves a block without state that can become the head; then every read of the head state panics, also after further restarts. C30_partial: any number of crashes at all the other points."
  },
  {
   "property": "C31",
   "status": "proved",
   "theorems": [
    "Verif.Backend.C31_commit_reads",
    "Verif.Backend.C31_atomic",
    "Verif.Backend.C31_uncommitted_invisible",
    "Verif.Backend.C31_prefix_iter"
   ],
   "note": "In-memory backend exactly; RocksDB only its prefix iterator, over an ordered key space."
  },
  {
   "property": "C32",
   "status": "proved",
   "theorems": [
    "Verif.Node.C32_intervals_once",
    "Verif.Node.C32_clock",
    "Verif.Node.C32_late_tick_noop",
    "Verif.Node.C32_repeat_noop",
    "Verif.Node.C32_any_sequence"
   ],
   "note": ""
  },
  {
   "property": "C33",
   "status": "proved",
   "theorems": [
    "Verif.Node.C33_reimport_noop",
    "Verif.Node.C33_idempotent",
    "Verif.Node.C33_failed_import_noop",
    "Verif.Node.C33_accepted_only_if"
   ],
   "note": "Everything but the in-memory state cache is compared."
  },
  {
   "property": "C34",
   "status": "proved",
   "theorems": [
    "Verif.Node.C34_justified_is_max",
    "Verif.Node.C34_justified_attained",
    "Verif.Node.C34_justified_monotone",
    "Verif.Node.C34_actor",
    "Verif.Node.C34_actor_monotone"
   ],
   "note": "For anchors that are genesis or the post-state of a valid chain; assumes non-zero, collision-free, acyclic header hashes on the headers of the history."
  },
  {
   "property": "C35",
   "status": "partial",
   "theorems": [
    "Verif.Node.C35_finalized_regresses",
    "Verif.Node.C35_finalized_is_the_heads",
    "Verif.Node.C35_finalized_monotone_partial",
    "Verif.Node.C35_genesis_monotone_partial",
    "Verif.Node.C35_actor",
    "Verif.Node.C35_actor_regresses"
   ],
   "note": "The full statement is false for the code (finding F5): a head switch lowers the finalized slot. Proved: the refutation, what the checkpoint is, and that events that do not leave the branch never lower it."
  },
  {
   "property": "C36",
   "status": "proved",
   "theorems": [
    "Verif.Node.C36_accepted_iff_sound",
    "Verif.Node.C36_accepted_is_sound",
    "Verif.Node.C36_running_node",
    "Verif.Node.C36_actor"
   ],
   "note": "Soundness for every store; completeness for stores (or chains) with increasing slots, and for the reachable stores."
  },
  {
   "property": "C37",
   "status": "proved",
   "theorems": [
    "Verif.Node.C37_attestation_target",
    "Verif.Node.C37_rule_unique",
    "Verif.Node.C37_actor"
   ],
   "note": "The rule is stated with plain parent links and shown to have one outcome."
  },
  {
   "property": "C38",
   "status": "proved",
   "theorems": [
    "Verif.Node.C38_reorg_iff_fork",
    "Verif.Node.C38_cap",
    "Verif.Node.C38_none",
    "Verif.Node.C38_catch_up_reported_as_reorg"
   ],
   "note": "Finding F6: catching up 128 or more blocks in one head update is reported as a reorg of depth 128."
  },
  {
   "property": "C39",
   "status": "proved",
   "theorems": [
    "Verif.Node.C39_delivery",
    "Verif.Node.C39_instance",
    "Verif.Node.C39_order_matters_across_finality",
    "Verif.Node.C39_own_block_releases_nothing"
   ],
   "note": "For every reachable state, every window of events without a restart, every tree. The condition on finalization is needed: C39_order_matters_across_finality. The condition on corrupted copies is C71. The condition on the node's own blocks is needed: C39_own_block_releases_nothing (finding F25)."
  },
  {
   "property": "C40",
   "status": "proved",
   "theorems": [
    "Verif.Node.C40_discard_exact"
   ],
   "note": "Exact, for all contents of the two pending maps and any enumeration order of the sets."
  },
  {
   "property": "C41",
   "status": "proved",
   "theorems": [
    "Verif.Node.C41_ms_to_interval",
    "Verif.Node.C41_interval_to_ms",
    "Verif.Node.C41_delay",
    "Verif.Node.C41_before_genesis",
    "Verif.Node.C41_next_tick",
    "Verif.Node.C41_wraps"
   ],
   "note": "Slots below 2^52; beyond 2^64/4000 the multiplication wraps, shown by example."
  },
  {
   "property": "C42",
   "status": "proved",
   "theorems": [
    "Verif.Sync.C42_on_only_if",
    "Verif.Sync.C42_off_only_if",
    "Verif.Sync.C42_keeps",
    "Verif.Sync.C42_history",
    "Verif.Sync.C42_duties"
   ],
   "note": "With a closed form for every sequence of observations."
  },
  {
   "property": "C43",
   "status": "proved",
   "theorems": [
    "Verif.Build.C43_accepted",
    "Verif.Build.C43_succeeds"
   ],
   "note": "Acceptance for every state and pool; success on the head of every valid chain, including that neither selection nor the state transition can panic. Proof merging is a parameter."
  },
  {
   "property": "C44",
   "status": "proved",
   "theorems": [
    "Verif.Build.C44_compact",
    "Verif.Build.C44_compact_fails_only_if",
    "Verif.Build.C44_keep_best"
   ],
   "note": "Both proposer modes: merging, and keeping the best proof per message. The recursive proof aggregation is a parameter that may fail."
  },
  {
   "property": "C45",
   "status": "proved",
   "theorems": [
    "Verif.Build.C45_builder",
    "Verif.Build.C45_aggregator"
   ],
   "note": "For the builder and the aggregator; holds for every enumeration order of the index set."
  },
  {
   "property": "C46",
   "status": "proved",
   "theorems": [
    "Verif.Build.C46_job",
    "Verif.Build.C46_published",
    "Verif.Build.C46_no_panic",
    "Verif.Build.C46_session",
    "Verif.Build.C46_applied"
   ],
   "note": "The proof system and key decoding are parameters. C46_session composes the gossip and payload pool invariants with job selection; C46_applied is about whatever the pools are when the worker's result arrives."
  },
  {
   "property": "C47",
   "status": "proved",
   "theorems": [
    "Verif.Build.C47_threshold",
    "Verif.Build.C47_trigger",
    "Verif.Build.C47_once_per_slot"
   ],
   "note": "C47_trigger is an exact characterization of the early start. C47_once_per_slot assumes that the slots of the events do not decrease (a wall clock that does not run backwards)."
  },
  {
   "property": "C48",
   "status": "partial",
   "theorems": [
    "Verif.Net.C48_partial",
    "Verif.Net.C48_one_at_a_time",
    "Verif.Net.C48_stuck",
    "Verif.Net.C48_fetch_again",
    "Verif.Net.C48_refuted"
   ],
   "note": "The full statement is false for the code (finding F14): a response that contains only other blocks leaves the root marked for ever. C48_partial covers every run without such a response; C48_stuck shows that every run with one is stuck."
  },
  {
   "property": "C49",
   "status": "proved",
   "theorems": [
    "Verif.Net.C49",
    "Verif.Net.C49_abandoned"
   ],
   "note": "At most nine retries, delays 5*2^i ms. The code comment promises one retry more (finding F13)."
  },
  {
   "property": "C50",
   "status": "proved",
   "theorems": [
    "Verif.Net.C50_wellformed",
    "Verif.Net.C50_one_in_flight",
    "Verif.Net.C50_successive",
    "Verif.Net.C50_first",
    "Verif.Net.C50_shrinks",
    "Verif.Net.C50_ends"
   ],
   "note": "The peer map is enumerated in any order. Request timeouts are the failure event of the network layer."
  },
  {
   "property": "C51",
   "status": "partial",
   "theorems": [
    "Verif.Net.C51_round_trip",
    "Verif.Net.C51_prefix_free",
    "Verif.Net.C51_encoding_minimal",
    "Verif.Net.C51_no_panic",
    "Verif.Net.C51_not_canonical",
    "Verif.Net.C51_wraps",
    "Verif.Net.C51_canonical_partial"
   ],
   "note": "The first half (round trip, untouched rest) is proved. The second half is false for the code (finding F12): non-canonical and overflowing prefixes are accepted, proved by C51_not_canonical and C51_wraps; C51_canonical_partial says when an accepted prefix is canonical."
  },
  {
   "property": "C52",
   "status": "proved",
   "theorems": [
    "Verif.Net.C52_ids"
   ],
   "note": "SHA-256 truncated to 20 bytes is a parameter; injectivity is assumed on the hashed inputs."
  },
  {
   "property": "C53",
   "status": "proved",
   "theorems": [
    "Verif.Serve.C53_refused",
    "Verif.Serve.C53_range",
    "Verif.Serve.C53_complete",
    "Verif.Serve.C53_roots"
   ],
   "note": "For every reachable node and every request. Each answer is computed from one state of the database. Includes answers by root."
  },
  {
   "property": "C54",
   "status": "proved",
   "theorems": [
    "Verif.Ckpt.C54_accepts_iff",
    "Verif.Ckpt.C54_registry",
    "Verif.Ckpt.C54_pair"
   ],
   "note": "Exact characterization, for every state and configuration."
  },
  {
   "property": "C55",
   "status": "proved",
   "theorems": [
    "Verif.Ckpt.C55_pass",
    "Verif.Ckpt.C55_first",
    "Verif.Ckpt.C55_all_tried",
    "Verif.Ckpt.C55_attempts",
    "Verif.Ckpt.C55_retry"
   ],
   "note": "The network is an arbitrary function of the fetch number and the URL."
  },
  {
   "property": "C56",
   "status": "proved",
   "theorems": [
    "Verif.Node.C56_diff_exact",
    "Verif.Node.C56_running_node",
    "Verif.Node.C56_replay"
   ],
   "note": "Head events are published only within the 32-slot recency window; the theorem states this gate."
  },
  {
   "property": "C57",
   "status": "proved",
   "theorems": [
    "Verif.C57_subset_iff",
    "Verif.C57_indices"
   ],
   "note": "Byte-level model of the packed bitfield."
  },
  {
   "property": "C58",
   "status": "proved",
   "theorems": [
    "Verif.Db.C58_walk_bounded"
   ],
   "note": ""
  },
  {
   "property": "C59",
   "status": "proved",
   "theorems": [
    "Verif.Node.C59_init_succeeds",
    "Verif.Node.C59_no_panic",
    "Verif.Node.C37_attestation_target"
   ],
   "note": "Cryptography abstract; the pending maps of the actor are C39/C40/C60."
  },
  {
   "property": "C60",
   "status": "partial",
   "theorems": [
    "Verif.Node.C60_false",
    "Verif.Node.C60_only_at_1091_partial",
    "Verif.Node.C60_first_day_partial"
   ],
   "note": "The full statement is false for the code (finding F8): proved refuted by a reachable actor that panics on a block. Proved: the unwrap at 1091 is the only possible panic, under an exact condition, and nothing can panic while all known blocks have slots up to 21600."
  },
  {
   "property": "C61",
   "status": "proved",
   "theorems": [
    "Verif.Node.C61_head_descends_from_justified",
    "Verif.Node.C61_head_descends_from_finalized",
    "Verif.Node.C61_actor",
    "Verif.Node.C61_actor_finalized"
   ],
   "note": "For the store and for the store inside the actor."
  },
  {
   "property": "C62",
   "status": "proved",
   "theorems": [
    "Verif.Node.C62_own_vote_accepted",
    "Verif.Node.C62_fails_after_checkpoint_sync",
    "Verif.Node.C62_actor"
   ],
   "note": "The restriction to genesis is necessary: shown by a checkpoint-synced node that rejects its own vote (finding F7)."
  },
  {
   "property": "C63",
   "status": "proved",
   "theorems": [
    "Verif.Node.C63_no_double_signing",
    "Verif.Node.C63_on_time"
   ],
   "note": "From any state. A restart keeps the database; re-initialising from a checkpoint resets the clock and is outside the claim (DESIGN.md)."
  },
  {
   "property": "C64",
   "status": "proved",
   "theorems": [
    "Verif.Build.C64_every_vote_counts",
    "Verif.Build.C64_fails_without_merging"
   ],
   "note": "Assumes no two chain blocks share a root. The restriction to merging proposers is necessary (finding F10): the mode that keeps one proof per message can pack votes that are ignored."
  },
  {
   "property": "C65",
   "status": "proved",
   "theorems": [
    "Verif.Build.C65_best_first",
    "Verif.Build.C65_qualifies",
    "Verif.Build.C65_tier",
    "Verif.Build.C65_order_independent"
   ],
   "note": "The order in which greedy packing enumerates its index set remains arbitrary (C45)."
  },
  {
   "property": "C66",
   "status": "proved",
   "theorems": [
    "Verif.Net.C66_payload",
    "Verif.Net.C66_foreign",
    "Verif.Net.C66_bounded",
    "Verif.Net.C66_blocks",
    "Verif.Net.C66_cut"
   ],
   "note": "C66_foreign: the chunks end with the last byte of data (padding after it would be left in the stream). Snappy is a parameter whose frames are well-formed and decompress to what was compressed; a raw snappy encoder satisfying the assumption is given."
  },
  {
   "property": "C67",
   "status": "proved",
   "theorems": [
    "Verif.Net.C67_routes",
    "Verif.Net.C67_distinct",
    "Verif.Net.C67_subscribed"
   ],
   "note": ""
  },
  {
   "property": "C68",
   "status": "proved",
   "theorems": [
    "Verif.Ckpt.C68_honest_accepted",
    "Verif.Ckpt.C68_same_state"
   ],
   "note": "For every chain from genesis with at least one block."
  },
  {
   "property": "C69",
   "status": "partial",
   "theorems": [
    "Verif.Net.C69_partial",
    "Verif.Net.C69_stalls",
    "Verif.Net.C69_refuted"
   ],
   "note": "False for the code (finding F15): the sync stalls until a status message arrives. C69_partial: a status message of a peer that has more resumes it."
  },
  {
   "property": "C70",
   "status": "proved",
   "theorems": [
    "Verif.Serve.C70_status"
   ],
   "note": "The separate reads of build_status are taken as one (DESIGN.md)."
  },
  {
   "property": "C71",
   "status": "partial",
   "theorems": [
    "Verif.Node.C71_false",
    "Verif.Node.C39_delivery"
   ],
   "note": "False for the code (finding F18): pending blocks are stored before their proof is checked and a later copy overwrites an earlier one; the bad copy is never replaced by asking a peer. What holds (C39_delivery): copies that arrive after the parent was imported do no harm."
  },
  {
   "property": "C72",
   "status": "proved",
   "theorems": [
    "Verif.Net.C72_exact",
    "Verif.Net.C72_only_responses"
   ],
   "note": "Blocks are their root and slot; the network delivers a response only for an open request, from the peer asked."
  },
  {
   "property": "C73",
   "status": "proved",
   "theorems": [
    "Verif.Net.C73_rotation"
   ],
   "note": "The random choice is any number; peers may come and go."
  },
  {
   "property": "C74",
   "status": "partial",
   "theorems": [
    "Verif.Net.C74_partial",
    "Verif.Net.C74_false"
   ],
   "note": "False for the code (finding F16): records of block-by-root requests answered with no block or an error stay, without bound. C74_partial: these are the only ones that stay."
  },
  {
   "property": "C75",
   "status": "partial",
   "theorems": [
    "Verif.Net.C75_partial",
    "Verif.Net.C75_gap",
    "Verif.Net.C75_false"
   ],
   "note": "False for the code (finding F17): 1024 empty slots in a row stop the sync for good. C75_partial: chains with a block in every batch of 1024 slots."
  },
  {
   "property": "C76",
   "status": "partial",
   "theorems": [
    "Verif.C76_refuted_pooling",
    "Verif.C76_refuted_grid",
    "Verif.C76_partial",
    "Verif.C76_adjacent_partial",
    "Verif.Node.C76_nodes_partial"
   ],
   "note": "False for the code, for two independent reasons. F21: votes with different sources are pooled (even under a wider notion of offence). F22: which slots may be justified depends on the finalized slot of each chain, so a finalizing link can skip a slot that the other chain justifies. C76_partial: it holds when the lower of the two finalized checkpoints has a two-thirds link to a later block of its chain and nothing in between is justified on the other chain; C76_adjacent_partial: in particular for links to the next slot. C76_nodes_partial: for two running nodes with signature checks, after any events, the offenders have signed both votes; that the blocks of the two chains do not collide is a condition."
  },
  {
   "property": "C77",
   "status": "proved",
   "theorems": [
    "Verif.Node.C77_requests",
    "Verif.Node.C77_only_blocks"
   ],
   "note": "Exact characterization for every reachable state; the one panic (F8, C60) is excluded by assuming that the step succeeds."
  },
  {
   "property": "C78",
   "status": "proved",
   "theorems": [
    "Verif.Node.C78_accepts_iff",
    "Verif.Node.C78_signed",
    "Verif.Node.C78_vote_signed",
    "Verif.Node.C78_aggregate_signed"
   ],
   "note": "The primitives of leansig and lean-multisig are parameters; unforgeability (Sound) is a hypothesis. The characterization C78_accepts_iff needs no hypothesis."
  },
  {
   "property": "C79",
   "status": "proved",
   "theorems": [
    "Verif.Node.C79_blocks_signed",
    "Verif.Node.C79_checkpoints_signed",
    "Verif.Node.C79_node_checkpoints_signed"
   ],
   "note": "Any events, any peers. Unforgeability (Sound) is a hypothesis; votes in the chain below a trusted checkpoint state are those of that chain."
  },
  {
   "property": "C80",
   "status": "proved",
   "theorems": [
    "Verif.Node.C80_own_block",
    "Verif.Node.C80_not_refused"
   ],
   "note": "Completeness of the provers (Complete: merging and aggregating valid proofs gives valid proofs, whatever the order of the keys) and a signer using the registered key are hypotheses; that the pool holds valid aggregates is a hypothesis here."
  },
  {
   "property": "C81",
   "status": "proved",
   "theorems": [
    "Verif.Node.C81_selection",
    "Verif.Node.C81_recovered",
    "Verif.Node.C81_valid"
   ],
   "note": "Completeness of the provers (Complete) is a hypothesis. The block's proof must have been verified: after a redelivery it may not have been (finding F23)."
  },
  {
   "property": "C82",
   "status": "proved",
   "theorems": [
    "Verif.Node.C82_counted_signed"
   ],
   "note": "Unforgeability (Sound) is a hypothesis, as is that the hash does not collide on the votes and block bodies that arrive (NoCollision); own aggregates are outputs of the modelled worker on jobs snapshotted earlier in the run (OwnMade), which C99_history proves of every node."
  },
  {
   "property": "C83",
   "status": "partial",
   "theorems": [
    "Verif.Node.C83_pools_valid_partial",
    "Verif.Node.C83_pools_valid_false"
   ],
   "note": "False for the code (finding F23): a second copy of an imported block is not verified, but votes are recovered from its proof. C83_pools_valid_partial: it holds when no block arrives with two different proofs (OneCopy) and validators have distinct attestation keys."
  },
  {
   "property": "C84",
   "status": "partial",
   "theorems": [
    "Verif.Node.C84_own_proposal_partial",
    "Verif.Node.C84_always_partial",
    "Verif.Node.C84_always_false"
   ],
   "note": "False for the code without OneCopy (finding F23): an invalid proof in the pool spoils the block, C84_always_false. With OneCopy both halves hold: a block is made (C84_always_partial, provers do not fail on valid inputs, keys available) and its import succeeds. Slots up to the protocol limit 2^18."
  },
  {
   "property": "C85",
   "status": "proved",
   "theorems": [
    "Verif.C85_can_finalize"
   ],
   "note": "Chains of valid blocks from genesis; no hash is the zero hash."
  },
  {
   "property": "C86",
   "status": "partial",
   "theorems": [
    "Verif.C86_extensible_partial",
    "Verif.C86_ends",
    "Verif.C86_extensible_false"
   ],
   "note": "False for the code (finding F24): no block beyond slot 2^18 is ever valid (C86_ends). C86_extensible_partial: every slot up to there."
  },
  {
   "property": "C87",
   "status": "proved",
   "theorems": [
    "Verif.Build.C87_justifies",
    "Verif.Build.C87_finalizes",
    "Verif.Build.C87_nothing_left"
   ],
   "note": "Assumes no two chain blocks share a root and that the head of the vote is known. The restriction to merging proposers is necessary (C64_fails_without_merging, finding F10): there the block leaves a justification behind. Votes with different data for one target are not added up before the first is packed."
  },
  {
   "property": "C88",
   "status": "partial",
   "theorems": [
    "Verif.Node.C88_votes",
    "Verif.Node.C88_flag",
    "Verif.Node.C88_votes_accepted",
    "Verif.Node.C88_idle",
    "Verif.Node.C88_proposal_partial",
    "Verif.Node.C88_history"
   ],
   "note": "Votes and idle ticks: proved in full. Proposals: for nodes that see one copy of each block (false otherwise, C84_always_false, finding F23), keys available, slots up to the protocol limit, no hash clash of the new block. Acceptance of own votes from genesis (necessary, finding F7) and for heads not in a later slot. C88_history embeds validating nodes in the runs all other theorems are about."
  },
  {
   "property": "C89",
   "status": "proved",
   "theorems": [
    "Verif.Node.C89_peer_accepts"
   ],
   "note": "Exact. Both nodes started from the same genesis; for checkpoint-synced nodes see finding F7."
  },
  {
   "property": "C90",
   "status": "partial",
   "theorems": [
    "Verif.Rpc.C90_header_by_slot_partial",
    "Verif.Rpc.C90_block_by_slot_partial",
    "Verif.Rpc.C90_head_not_found",
    "Verif.Rpc.C90_by_root",
    "Verif.Rpc.C90_refused",
    "Verif.Rpc.C90_refused_hex",
    "Verif.Rpc.C90_refused_large",
    "Verif.Rpc.C90_weights",
    "Verif.Rpc.C90_nodes"
   ],
   "note": "False for the code in one case (finding F26): the head block is never found by its own slot (C90_head_not_found, for every reachable node). The _partial theorems are exact: all blocks of the canonical chain below the head. Routing and JSON are not modelled."
  },
  {
   "property": "C91",
   "status": "proved",
   "theorems": [
    "Verif.Boot.C91_foreign",
    "Verif.Boot.C91_resume",
    "Verif.Boot.C91_genesis",
    "Verif.Boot.C91_sync_fresh",
    "Verif.Boot.C91_sync_stale"
   ],
   "note": "Own directories are those of any reachable node. HTTP replies are arbitrary; the retry order is C55. The served block is exact if only the empty body has the empty body root."
  },
  {
   "property": "C92",
   "status": "partial",
   "theorems": [
    "Verif.Boot.C92_false",
    "Verif.Boot.C92_partial"
   ],
   "note": "False for the code (finding F27): init_store keeps the index rows of the abandoned chain, C92_false. C92_partial: from the anchor's slot on the index is exact, below it the rows are those of before; for nodes that never sync over an old directory see C28 and C53."
  },
  {
   "property": "C93",
   "status": "partial",
   "theorems": [
    "Verif.Boot.C93_false",
    "Verif.Boot.C93_partial"
   ],
   "note": "False for the code (finding F28): a checkpoint sync over a stale directory resets the clock, C93_false. C93_partial: nodes whose starts after the first all resume."
  },
  {
   "property": "C94",
   "status": "partial",
   "theorems": [
    "Verif.Node.C94_advances_partial",
    "Verif.Node.C94_never_stops_partial",
    "Verif.Node.Witness.C94_single_false",
    "Verif.Node.Witness.C94_ideal_run"
   ],
   "note": "Proved for 2 to 2048 validators and any number of slots up to the protocol limit 2^18. False for the code with one validator (finding F29, C94_single_false) and not proved above 2048, where the signature pool overflows (finding F30, C95_false). Assumes that hashes do not collide on what the node made, and that each slot's session finishes within the slot. C94_ideal_run exhibits the full-length run."
  },
  {
   "property": "C95",
   "status": "partial",
   "theorems": [
    "Verif.Buffers.C95_keeps_partial",
    "Verif.Buffers.C95_left",
    "Verif.Buffers.C95_false"
   ],
   "note": "False for the code (finding F30): the signature that exceeds the capacity of 2048 evicts the whole message, C95_left (exact), C95_false (for every number above 2048 no supermajority is left). C95_keeps_partial: while everything fits nothing is lost."
  },
  {
   "property": "C96",
   "status": "partial",
   "theorems": [
    "Verif.Keys.C96_signs_partial",
    "Verif.Keys.C96_no_panic",
    "Verif.Keys.C96_false"
   ],
   "note": "The second half (no panic) is proved in full. The first is false for the code (finding F31): a node started before a key's activation interval makes the key unusable, C96_false. C96_signs_partial: nodes started within the interval, for requests in order up to one bottom tree. The XMSS library is modelled by what signature.rs documents of its preparation windows."
  },
  {
   "property": "C97",
   "status": "proved",
   "theorems": [
    "Verif.Keys.C97_loads",
    "Verif.Keys.C97_keys"
   ],
   "note": "YAML parsing and the file system are parameters."
  },
  {
   "property": "C98",
   "status": "partial",
   "theorems": [
    "Verif.Node.C98_advances_partial",
    "Verif.Node.C98_never_stops_partial",
    "Verif.Node.Witness.C98_ideal_run"
   ],
   "note": "Proved for 2 to 2048 validators and any number of slots up to the protocol limit 2^18; false for one validator (C94_single_false, finding F29), not proved above 2048, where the signature pool overflows (C95_false, finding F30). Lockstep: messages of an interval arrive before the next timers fire. C98_advances_partial assumes that hashes do not collide on what the nodes made, C98_never_stops_partial that they do not collide. Sessions start at the third interval, with the votes of that slot; a session that starts early can leave out votes (C99_every_vote_false, finding F32), which C98 does not cover. C98_ideal_run exhibits full-length runs of three nodes."
  },
  {
   "property": "C99",
   "status": "proved",
   "theorems": [
    "Verif.Node.C99_history",
    "Verif.Node.C99_timely",
    "Verif.Node.C99_signed",
    "Verif.Node.C99_valid",
    "Verif.Node.C99_at_most_two",
    "Verif.Node.C99_once",
    "Verif.Node.C99_every_vote_false"
   ],
   "note": "Unforgeability (Sound) and completeness of the provers (Complete) are hypotheses, as is that hashes do not collide on what occurs. A message sent with a delay does not arrive before it is due. C99_every_vote_false: an aggregate need not have every vote that came in time (finding F32). C99_history discharges the hypothesis OwnMade of C82-C84 and C88."
  },
  {
   "property": "C100",
   "status": "proved",
   "theorems": [
    "Verif.Node.C100_topics",
    "Verif.Node.C100_told",
    "Verif.Node.C100_complete",
    "Verif.Node.C100_alone",
    "Verif.Node.C100_current"
   ],
   "note": "The broadcast channel is tokio's, modelled by its documentation; JSON and HTTP framing are not modelled. For any capacity."
  },
  {
   "property": "C101",
   "status": "partial",
   "theorems": [
    "Verif.C101_iff",
    "Verif.C101_needed",
    "Verif.C101_enough",
    "Verif.C101_blocked",
    "Verif.C101_thirty",
    "Verif.C101_two_hundred_ten",
    "Verif.C101_two_thirds_false",
    "Verif.C101_prime_partial"
   ],
   "note": "False for the code (finding F33): C101_thirty (21 of 30 validators online, nothing is ever finalized from genesis), C101_two_hundred_ten (183 of 210), C101_two_thirds_false. C101_iff is exact: it is possible if and only if two slots that are neighbours among the justifiable ones have or can get a block and a later slot is online. C101_prime_partial: always possible with a prime number of validators of which more than three quarters are online, away from the end of the history."
  },
  {
   "property": "C102",
   "status": "partial",
   "theorems": [
    "Verif.Node.C102_late_false",
    "Verif.Node.C102_punctual_partial"
   ],
   "note": "False for the code (finding F34): C102_late_false, three honest nodes with synchronized clocks finalize different branches after 18 slots, because some messages are late. C102_punctual_partial: it holds when messages arrive within their interval (2 to 2048 validators)."
  },
  {
   "property": "C103",
   "status": "partial",
   "theorems": [
    "Verif.Node.C103_one_chain_false",
    "Verif.Node.C103_late_false",
    "Verif.Node.C103_punctual_partial",
    "Verif.Node.C103_same_branch_partial",
    "Verif.Node.C103_target_after_source"
   ],
   "note": "False for the code (finding F35): C103_one_chain_false, a surround vote on a single chain with all blocks on time and some votes lost; C103_late_false, after a change of branch. C103_punctual_partial: it holds when messages arrive within their interval. C103_same_branch_partial (any events): exact for two votes on one branch, the only possible offence is a target that falls while the source rises. C103_target_after_source (any events): the later target is never below the earlier source."
  },
  {
   "property": "C104",
   "status": "partial",
   "theorems": [
    "Verif.Node.C104_pace",
    "Verif.Node.C104_never_stops",
    "Verif.Node.C104_resumes_partial",
    "Verif.Node.C104_slow_forever",
    "Verif.Node.Witness.C104_pace_regained_false",
    "Verif.Node.Witness.C104_runs"
   ],
   "note": "False for the code (finding F36): after any pause of three slots the finalized slot is 7 to 12 behind for good (C104_slow_forever, exact; C104_pace_regained_false with runs). C104_resumes_partial: after a pause of any length the lag is at most 12 once as many slots have passed as the lag was. C104_pace: exact slots for any pattern of roles, as a recurrence on numbers. The role is on in the first three slots; one validator and more than 2048 as in C94."
  },
  {
   "property": "C105",
   "status": "partial",
   "theorems": [
    "Verif.Monitor.C105_snapshot",
    "Verif.Monitor.C105_retained",
    "Verif.Monitor.C105_backfill_partial",
    "Verif.Monitor.C105_crowded",
    "Verif.Monitor.C105_flood_false",
    "Verif.Monitor.C105_current_partial",
    "Verif.Monitor.C105_blank",
    "Verif.Monitor.C105_current_false"
   ],
   "note": "False for the code in two ways. F37: the ring of 50000 events is shared by all topics, C105_crowded, C105_flood_false. F38: an event stamped with the old geometry that is published after the reset raises the watermark again, and from the 50001st event of the new chain on the history is empty, C105_blank, C105_current_false. C105_retained is exact about what is dropped. C105_backfill_partial: fewer than 50000 events since; C105_current_partial: no event under way during a change of geometry, and an event less than the configured number of slots, less eight, behind the clock."
  },
  {
   "property": "C106",
   "status": "proved",
   "theorems": [
    "Verif.Monitor.C106_offset",
    "Verif.Monitor.C106_same_aggregate",
    "Verif.Monitor.C106_other_aggregate",
    "Verif.Monitor.C106_down",
    "Verif.Monitor.C106_quiet"
   ],
   "note": "JSON parsers and the content hash are parameters. Times up to 2^62 ms."
  },
  {
   "property": "C107",
   "status": "proved",
   "theorems": [
    "Verif.Mach.C107_transition",
    "Verif.Mach.C107_node",
    "Verif.Mach.C107_clock",
    "Verif.Mach.C107_future",
    "Verif.Mach.C107_clock_false",
    "Verif.Mach.C107_guard_false"
   ],
   "note": "Release builds with usize of 64 bits. The last two show that the hypotheses are needed: a genesis time beyond 2^64 milliseconds, and states that are not those of a chain (finding F39). Block building, aggregation and networking are not repeated on words; what they compute with untrusted numbers is saturating or checked in the code and modelled so."
  },
  {
   "property": "C108",
   "status": "proved",
   "theorems": [
    "Verif.Node.C108_backfill",
    "Verif.Node.C108_instance"
   ],
   "note": "That the node's requests are answered is a hypothesis (Answered), with the answer of the peer computed by the model of blocks-by-root; what the network layer does with requests and answers is C48, C49, C72 and C73. The branch is one of which nothing is stored at the beginning. The conditions on copies, own blocks and finality are needed (C71_false, C39_own_block_releases_nothing, C39_order_matters_across_finality)."
  },
  {
   "property": "C109",
   "status": "proved",
   "theorems": [
    "Verif.Node.C109_valid",
    "Verif.Node.C109_served",
    "Verif.Node.C109_instance",
    "Verif.Node.C109_rejected_served"
   ],
   "note": "C109_valid: the served copy is valid on the parent's state. C109_served: the other node imports it. Assumes that header hashes do not collide on what occurs, that state roots of the two nodes do not collide (StatesApart), and that no block that arrived has a body other than the empty one with the root of the empty body. C109_rejected_served: requests by root are answered also with a rejected block (finding F40)."
  },
  {
   "property": "C110",
   "status": "proved",
   "theorems": [
    "Verif.Node.C110_answers",
    "Verif.Node.C110_join",
    "Verif.Node.C110_instance",
    "Verif.Node.C110_recent"
   ],
   "note": "Puts together C53 (the peer's answers), C75 (requests and what is handed over) and C109 (imports). C110_answers: the peer's answers are those that C75 assumes. The conditions on gaps are needed (C75_false); hypotheses on hashes as in C109. That the finalized block of the node stays on the peer's chain during the sync is a hypothesis."
  },
  {
   "property": "C111",
   "status": "partial",
   "theorems": [
    "Verif.Race.C111_range",
    "Verif.Race.C111_linked_partial",
    "Verif.Race.C111_status",
    "Verif.Race.C111_state",
    "Verif.Race.C111_node",
    "Verif.Race.C111_mixed",
    "Verif.Race.C111_hole",
    "Verif.Race.C111_unborn",
    "Verif.Race.C111_instance"
   ],
   "note": "All but the last sentence is proved. The last sentence is false for the code (finding F41): C111_mixed (change of branch), C111_hole (imports past the tip). C111_linked_partial: it holds when the head only moves to descendants and the range ends at the first head. Storage calls are atomic batches; the two batches of update_checkpoints differ only in the live chain, which these readers do not read."
  },
  {
   "property": "C112",
   "status": "proved",
   "theorems": [
    "Verif.ForkTree.C112_draw",
    "Verif.ForkTree.C112_whole",
    "Verif.ForkTree.C112_node",
    "Verif.ForkTree.C112_sample",
    "Verif.ForkTree.C112_instance",
    "Verif.ForkTree.C112_hidden",
    "Verif.ForkTree.C112_long"
   ],
   "note": "The text is a list of tokens; the three header lines, the shortened roots and the drawing characters are left out. C112_hidden: the proviso is needed, with two blocks of the lowest slot the head can be missing (finding F42). C112_long: what is cut off are the newest blocks."
  },
  {
   "property": "C113",
   "status": "proved",
   "theorems": [
    "Verif.Node.C113_kept",
    "Verif.Node.C110_recent",
    "Verif.Node.C113_instance"
   ],
   "note": "C110_recent: C110 with the storage of the peer discharged. Blocks of the starting state and before it are excluded, the node never had them. That an empty body is not the hash of another one is a hypothesis (hempty)."
  },
  {
   "property": "C114",
   "status": "proved",
   "theorems": [
    "Verif.Build.C114_order",
    "Verif.Build.C114_unique",
    "Verif.Build.C114_found",
    "Verif.Node.C114_tick",
    "Verif.Node.C114_role"
   ],
   "note": "What worth it means is C65_qualifies and C65_tier. C114_found is about signatures; votes held only as proofs need two of them. The judgement uses the block builder's projection (C44)."
  },
  {
   "property": "C115",
   "status": "proved",
   "theorems": [
    "Verif.Node.C115_report",
    "Verif.Node.C115_other",
    "Verif.Node.C115_observes",
    "Verif.Node.C115_snapshot",
    "Verif.Node.C115_signed",
    "Verif.Node.C115_agg_start",
    "Verif.Node.C115_proposal"
   ],
   "note": "The report is a theorem about the gauges after a tick of any run; the snapshot is characterised by the run's history; runs with and without the gauges correspond one to one. The votes of the block section are those of the head block, whose signatures are the subject of C78. The reports at the start of a session and for a proposal are proved of the functions that write them."
  },
  {
   "property": "C116",
   "status": "proved",
   "theorems": [
    "Verif.Node.C116_replies",
    "Verif.Node.C116_acts",
    "Verif.Node.C116_off",
    "Verif.Node.C116_syncing",
    "Verif.Node.C116_syncing_seen",
    "Verif.Node.C116_torn"
   ],
   "note": "C116_acts also says that the node's part of such a run is a run as in the other properties. C116_torn: while blocks are imported the finalized slot of the answer can be above its head slot (finding F43). JSON text is not modelled; a handler that reads the role twice is taken to see the same value."
  },
  {
   "property": "C117",
   "status": "partial",
   "theorems": [
    "Verif.Redial.C117_not_given_up",
    "Verif.Redial.C117_redials",
    "Verif.Redial.C117_only",
    "Verif.Redial.C117_connected",
    "Verif.Redial.C117_greeted",
    "Verif.Redial.C117_one_partial",
    "Verif.Redial.C117_one_false",
    "Verif.Redial.C117_forever"
   ],
   "note": "All but the last sentence is proved. The last is false for the code (finding F44): each loss of the last connection starts another chain of attempts, and chains end only while connected; C117_one_false (any number of dials at once of a bootnode that is offline), C117_forever (the number stays exactly the same until there is contact again). C117_one_partial bounds it by the first dials and the connections lost. libp2p is modelled by its documentation."
  },
  {
   "property": "C118",
   "status": "proved",
   "theorems": [
    "Verif.Ssz.C118_layout",
    "Verif.Ssz.C118_read_back",
    "Verif.Ssz.C118_in_range",
    "Verif.Ssz.C118_sizes",
    "Verif.Ssz.C118_served",
    "Verif.Ssz.C118_gossip",
    "Verif.Ssz.C118_requests",
    "Verif.Ssz.C118_state",
    "Verif.Ssz.C118_injective"
   ],
   "note": "The crate libssz is not part of the source: its derived encoders and decoders are taken to follow the SSZ specification for the declared fields, with strict offsets and limits. Of the crate snap the laws SnappyOk and RawOk are assumed. The ranges of the Rust types are the only hypotheses on the values."
  },
  {
   "property": "C119",
   "status": "proved",
   "theorems": [
    "Verif.Merkle.C119_votes",
    "Verif.Merkle.C119_bodies",
    "Verif.Merkle.C119_header",
    "Verif.Merkle.C119_blocks",
    "Verif.Merkle.C119_states",
    "Verif.Merkle.C119_node",
    "Verif.Merkle.C119_run",
    "Verif.Merkle.C119_headers",
    "Verif.Merkle.C119_chains",
    "Verif.Merkle.C119_limits"
   ],
   "note": "The crate libssz_merkle is not part of the source: the trees are those of the SSZ specification for the declared fields and limits, with any two-to-one hash function. C119_node, C119_run, C119_headers and C119_chains derive the hypotheses on the hash functions in the other properties (no collisions among what a node has seen) from the absence of collisions among the inputs hashed; that no header hashes to zero and no block is its own ancestor stay assumptions there."
  },
  {
   "property": "C120",
   "status": "proved",
   "theorems": [
    "Verif.Genesis.C120_key",
    "Verif.Genesis.C120_file",
    "Verif.Genesis.C120_checkpoint",
    "Verif.Genesis.C120_genesis_root",
    "Verif.Genesis.C120_blocks",
    "Verif.Genesis.C120_votes"
   ],
   "note": "YAML is not modelled: a file is a time and the texts of the keys. The hypotheses on the hash are those of the other theorems about nodes (no two headers known to either node share a root, none is zero), plus that the two genesis states do not collide; C120_genesis_root needs at most 4096 validators, beyond which the node does not start."
  },
  {
   "property": "C121",
   "status": "proved",
   "theorems": [
    "Verif.Net.C121_atomic",
    "Verif.Net.C121_recorded",
    "Verif.Net.C121_order",
    "Verif.Net.C121_once",
    "Verif.Net.C121_progress",
    "Verif.Net.C121_closed"
   ],
   "note": "C121_atomic carries all theorems about PRun (fetching, range sync, records, rotation) over to the two concurrent tasks. Channels are unbounded and first in first out, the actor handles one message at a time and the swarm answers a request once, as tokio, spawned_concurrency and libp2p document. Ids of status requests, which the actor does not record, are counted separately."
  },
  {
   "property": "C122",
   "status": "partial",
   "theorems": [
    "Verif.Monitor.C122_complete_partial",
    "Verif.Monitor.C122_status_partial",
    "Verif.Monitor.C122_once_partial",
    "Verif.Monitor.C122_genuine",
    "Verif.Monitor.C122_history",
    "Verif.Monitor.C122_complete_false",
    "Verif.Monitor.C122_status_false",
    "Verif.Monitor.C122_once_false"
   ],
   "note": "The full statement is false (findings F45 and F46). Proved: every event and the last status of every node if the server handles the stream request before the history request and the page does not lag; no doubles if nothing of the history is still to arrive over the stream when the page reads the history; nothing made up, without a condition."
  },
  {
   "property": "C123",
   "status": "partial",
   "theorems": [
    "Verif.Monitor.C123_delays_partial",
    "Verif.Monitor.C123_order_partial",
    "Verif.Monitor.C123_delays_false"
   ],
   "note": "Proved for at most 400 ids per topic and a number of slots that is not raised (after raising it, ids tidied up before are missing). Beyond 400 ids the statement is false (finding F47). An id belongs to one slot: it is a block root or a hash over the content."
  },
  {
   "property": "C124",
   "status": "proved",
   "theorems": [
    "Verif.Monitor.C124_points",
    "Verif.Monitor.C124_position",
    "Verif.Monitor.C124_memory"
   ],
   "note": "The number of slots shown is not raised: after raising it, points tidied up before are missing."
  }
 ]
}
