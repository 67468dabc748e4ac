{
 "claims": [
  {
   "property": "C01",
   "status": "proved",
   "theorems": [
    "Radix.C01_lookup_finds_stored_keys"
   ],
   "note": "no bound on keys, length or history; operations one after the other, allocators mixed freely"
  },
  {
   "property": "C02",
   "status": "proved",
   "theorems": [
    "Radix.C02_lookup_returns_stored_values",
    "Radix.C02_verified_lookup_is_map"
   ],
   "note": ""
  },
  {
   "property": "C03",
   "status": "partial",
   "theorems": [
    "Radix.C03_candidate_agrees_at_branches_partial",
    "Radix.C03_does_not_hold",
    "Radix.C03_candidate_agrees_at_branches_two_partial"
   ],
   "note": "The statement does not hold: prefixes of inner nodes are skipped, so with keys apple and april Lookup(xxp) returns apple (C03_does_not_hold). Proved in every state of a calm execution: the candidate is a stored key that agrees with the lookup key at every position where another stored key branches off from it, and has the same first byte if it is the only key of a tree without deletes.; also in every state of the executions with single accesses and words, with two updates or one delete at a time and no restriction of C09 (C03_candidate_agrees_at_branches_two_partial)"
  },
  {
   "property": "C04",
   "status": "partial",
   "theorems": [
    "Radix.C04_prepare_update_classifies_partial",
    "Radix.C04_prepare_update_classifies_concurrent_partial",
    "Radix.C04_does_not_hold"
   ],
   "note": "The full statement fails: after three racing inserts PrepareUpdate reports a stored key as missing (C04_does_not_hold). Proved with one writer at a time, and for any overlap of operations in calm executions."
  },
  {
   "property": "C05",
   "status": "partial",
   "theorems": [
    "Radix.C05_finalize_stores_one_key_partial",
    "Radix.C05_does_not_hold"
   ],
   "note": "The full statement fails: in a race of three inserts a Finalize returns true and its key is not stored (C05_does_not_hold). Proved in every state of a calm execution, also with other operations under way."
  },
  {
   "property": "C06",
   "status": "partial",
   "theorems": [
    "Radix.C06_prepare_delete_not_found_partial",
    "Radix.C06_prepare_delete_candidate_partial",
    "Radix.C06_finalize_removes_one_key_partial",
    "Radix.C06_prepare_delete_not_found_concurrent_partial",
    "Radix.C06_prepare_delete_candidate_concurrent_partial",
    "Radix.C06_finalize_removes_one_key_concurrent_partial",
    "Radix.C06_does_not_hold"
   ],
   "note": "The full statement fails: after three racing inserts PrepareDelete reports a stored key as missing (C06_does_not_hold). Proved with one writer at a time and any number of lookups, and for any overlap of operations in calm executions."
  },
  {
   "property": "C07",
   "status": "partial",
   "theorems": [
    "Radix.C07_abort_update_partial",
    "Radix.C07_abort_update_frees_all_locks_partial",
    "Radix.C07_does_not_hold"
   ],
   "note": "Proved for all executions, whatever races happened, in which no aborted delete has released locks it does not hold (the bug of C08).  In full false: such an abort can release the lock of an update, if the node of the update has address 4096 (or another one with lock word 0 of the first block); then Abort of the update panics (C07_does_not_hold)"
  },
  {
   "property": "C08",
   "status": "partial",
   "theorems": [
    "Radix.C08_abort_delete_partial",
    "Radix.C08_abort_delete_any_partial",
    "Radix.C08_does_not_hold"
   ],
   "note": "Aborting a merge of the root with its child panics (delete.go:344, arguments swapped). Proved in all other cases, for all executions in which no such abort went wrong before."
  },
  {
   "property": "C09",
   "status": "partial",
   "theorems": [
    "Radix.C09_atomic_effects_partial",
    "Radix.C09_interleaved_calls_partial",
    "Radix.C09_update_answers_partial",
    "Radix.C09_delete_answers_partial",
    "Radix.C09_does_not_hold"
   ],
   "note": "three concurrent inserts can lose one (C09_does_not_hold); proved for all executions in which the races listed at Calm do not show, and for all interleavings of uninterrupted calls"
  },
  {
   "property": "C10",
   "status": "partial",
   "theorems": [
    "Radix.C10_panics_partial",
    "Radix.C10_does_not_hold"
   ],
   "note": "recycling a node of exactly 258 slots panics (allocator.go:55); proved that there is no other panic except running out of blocks and C08"
  },
  {
   "property": "C11",
   "status": "partial",
   "theorems": [
    "Radix.C11_update_without_competition_partial",
    "Radix.C11_delete_without_competition_partial"
   ],
   "note": "Missing: states reached by executions outside Calm. Proved in every state of a calm execution in which no update or delete is under way (lookups and walks may be), up to the panics of C10 and running out of blocks."
  },
  {
   "property": "C12",
   "status": "proved",
   "theorems": [
    "Radix.C12_lookup_terminates"
   ],
   "note": "length words of long prefixes are read as unsigned numbers"
  },
  {
   "property": "C13",
   "status": "partial",
   "theorems": [
    "Radix.C13_concurrent_lookup_is_correct_partial",
    "Radix.C13_concurrent_lookup_is_correct_calm_partial",
    "Radix.C13_does_not_hold"
   ],
   "note": "The full statement fails: after three racing inserts a lookup misses a stored key (C13_does_not_hold). Proved with one writer at a time and in all calm executions."
  },
  {
   "property": "C14",
   "status": "partial",
   "theorems": [
    "Radix.C14_full_iteration_partial",
    "Radix.C14_values_in_order_partial",
    "Radix.C14_does_not_hold",
    "Radix.C14_full_iteration_two_partial",
    "Radix.C14_values_in_order_two_partial"
   ],
   "note": "exact for at most 256 keys (any calm history) and, without finalized deletes, for any number of keys when the last key branches off at the root; for trees of any size, calls that do not panic return the values in order; the full statement is refuted: with 257 keys the iteration starts again after the last key (or panics), because the position to go on with is read beyond the root node; also in every state of the executions with single accesses and words, with two updates or one delete at a time and no restriction of C09 (C14_full_iteration_two_partial, C14_values_in_order_two_partial)"
  },
  {
   "property": "C15",
   "status": "partial",
   "theorems": [
    "Radix.C15_prefix_iteration_partial",
    "Radix.C15_prefix_without_keys_partial",
    "Radix.C15_does_not_hold",
    "Radix.C15_prefix_iteration_two_partial",
    "Radix.C15_prefix_without_keys_two_partial"
   ],
   "note": "exact under the restriction of C14 when some key has the prefix; otherwise at most one value of another key is returned, which refutes the full statement; also in every state of the executions with single accesses and words, with two updates or one delete at a time and no restriction of C09 (C15_prefix_iteration_two_partial); also in every state of the executions with single accesses and words, with two updates or one delete at a time and no restriction of C09 (C15_prefix_without_keys_two_partial)"
  },
  {
   "property": "C16",
   "status": "partial",
   "theorems": [
    "Radix.C16_min_key_partial",
    "Radix.C16_min_key_found_partial",
    "Radix.C16_does_not_hold",
    "Radix.C16_min_key_misses_a_stored_key",
    "Radix.C16_min_key_found_two_partial",
    "Radix.C16_min_key_two_partial"
   ],
   "note": "exact without finalized deletes when some key has the prefix; in all calm executions what is found is the minimum; refuted for prefixes that no key has, and after deletes also for the empty prefix: a 256-slot node whose keys were all deleted stays in the tree and MinKey(nil) returns false although a key is stored; also in every state of the executions with single accesses and words, with two updates or one delete at a time and no restriction of C09 (C16_min_key_found_two_partial); also in every state of the executions with single accesses and words in which at most two updates are under way and no delete is finalized (C16_min_key_two_partial)"
  },
  {
   "property": "C17",
   "status": "partial",
   "theorems": [
    "Radix.C17_max_key_partial",
    "Radix.C17_max_key_found_partial",
    "Radix.C17_does_not_hold",
    "Radix.C17_max_key_misses_a_stored_key",
    "Radix.C17_max_key_found_two_partial",
    "Radix.C17_max_key_two_partial"
   ],
   "note": "as C16; also in every state of the executions with single accesses and words, with two updates or one delete at a time and no restriction of C09 (C17_max_key_found_two_partial); also in every state of the executions with single accesses and words in which at most two updates are under way and no delete is finalized (C17_max_key_two_partial)"
  },
  {
   "property": "C18",
   "status": "partial",
   "theorems": [
    "Radix.C18_count_partial",
    "Radix.C18_does_not_hold",
    "Radix.C18_count_two_partial"
   ],
   "note": "exact for the empty prefix and when some key has the prefix, in every calm execution; refuted for prefixes that no key has; also in every state of the executions with single accesses and words, with two updates or one delete at a time and no restriction of C09 (C18_count_two_partial)"
  },
  {
   "property": "C19",
   "status": "partial",
   "theorems": [
    "Radix.C19_len_is_number_of_keys_partial",
    "Radix.C19_does_not_hold",
    "Radix.C19_len_two",
    "Radix.C19_len_fine_partial"
   ],
   "note": "The full statement fails for overlapping updates: a key lost in the race of C09 is counted twice when it is stored again (C19_does_not_hold). Proved in all calm executions, any choice of allocators and any flushes. Also for the executions with single accesses and words: without restriction if at most two updates or one delete are under way at a time (C19_len_two), otherwise with that of C60."
  },
  {
   "property": "C20",
   "status": "proved",
   "theorems": [
    "Radix.C20_values_keep_low_55_bits"
   ],
   "note": ""
  },
  {
   "property": "C21",
   "status": "proved",
   "theorems": [
    "Radix.C21_child_references_round_trip",
    "Radix.C21_child_references_injective"
   ],
   "note": ""
  },
  {
   "property": "C22",
   "status": "proved",
   "theorems": [
    "Radix.C22_prefix_round_trip",
    "Radix.C22_prefix_slots"
   ],
   "note": ""
  },
  {
   "property": "C23",
   "status": "partial",
   "theorems": [
    "Radix.C23_live_nodes_disjoint_partial",
    "Radix.C23_live_nodes_disjoint_one_writer",
    "Radix.C23_does_not_hold",
    "Radix.C23_live_nodes_disjoint_two",
    "Radix.C23_live_nodes_disjoint_fine_partial"
   ],
   "note": "holds in calm executions (and whenever at most one writer is active); the full statement is refuted: three racing inserts recycle a node that is still reachable. Also for the executions with single accesses and words: without restriction if at most two updates or one delete are under way at a time (C23_live_nodes_disjoint_two), otherwise with that of C60"
  },
  {
   "property": "C24",
   "status": "partial",
   "theorems": [
    "Radix.C24_no_reuse_under_a_reader_partial",
    "Radix.C24_count_partial",
    "Radix.C24_next_partial"
   ],
   "note": "calm executions (not the three-insert race that recycles a reachable node, C23); Lookup, Prepare*, Count and scanning calls of Next; Next may also load the slot right after a protected one"
  },
  {
   "property": "C25",
   "status": "partial",
   "theorems": [
    "Radix.C25_guarded_partial",
    "Radix.C25_does_not_hold"
   ],
   "note": "Does not hold as stated: MinKey and MaxKey reserve no epoch, so a slot they are about to load can be handed out again, even with all writers one after the other (C25_does_not_hold: C25_statement is false, by an execution with up to 1000 pairs of insert and delete). Proved for calls during which another operation, begun before, is running; calm executions."
  },
  {
   "property": "C26",
   "status": "proved",
   "theorems": [
    "Radix.C26_all_nodes_locked",
    "Radix.C26_locks_are_exclusive",
    "Radix.C26_roll_back_restores",
    "Radix.C26_no_lock_leaks",
    "Radix.C26_all_or_nothing",
    "Radix.C26_unlock_never_panics",
    "Radix.C26_generations_only_grow",
    "Radix.C26_unlock_changes_generation",
    "Radix.C26_operations_are_exclusive"
   ],
   "note": "lock words are unbounded integers; the theorem about operations is for executions in which no aborted delete has released locks it does not hold (C08)"
  },
  {
   "property": "C27",
   "status": "proved",
   "theorems": [
    "Radix.C27_one_user",
    "Radix.C27_released_can_be_obtained"
   ],
   "note": "Every interleaving of the load, compare-and-swap and store steps of slots.get/put by any number of goroutines (Model/Pool.lean). The second theorem: with a free slot, an undisturbed GetAllocator returns within n+1 steps and obtains a slot nobody used. Executions with Stop, Start and Len are the subject of C28."
  },
  {
   "property": "C28",
   "status": "partial",
   "theorems": [
    "Radix.C28_stop_is_exclusive_partial",
    "Radix.C28_quiet_until_start",
    "Radix.C28_stop_returns",
    "Radix.C28_does_not_hold",
    "Radix.C28_len_restarts",
    "Radix.C28_second_stop"
   ],
   "note": "The statement does not hold for the code: Len while Stop is waiting puts back slots which are in use, Len on a stopped tree restarts it, and a second Stop returns while allocators are in use (three witnesses). Proved for executions in which Stop, Start and Len do not overlap and Len is not called on a stopped tree; GetAllocator and ReleaseAllocator are not restricted."
  },
  {
   "property": "C29",
   "status": "partial",
   "theorems": [
    "Radix.C29_state_round_trip_partial",
    "Radix.C29_any_schedule_partial",
    "Radix.C29_does_not_hold",
    "Radix.C29_state_round_trip_two_partial"
   ],
   "note": "Proved for every reachable idle tree whose number of blocks has been published by the block goroutine, every block order and every schedule of the goroutines of WriteState; compression is an abstract codec with the round-trip property. The full statement fails (C29_does_not_hold): a tree saved while the block goroutine is behind loses a block.; also in every state of the executions with single accesses and words, with two updates or one delete at a time and no restriction of C09 (C29_state_round_trip_two_partial)"
  },
  {
   "property": "C30",
   "status": "partial",
   "theorems": [
    "Radix.C30_len_partial",
    "Radix.C30_what_is_lost",
    "Radix.C30_does_not_hold",
    "Radix.C30_len_two_partial"
   ],
   "note": "Proved if the allocator counters are flushed; C30_what_is_lost: exactly the unflushed part of Len is lost. The full statement fails (C30_does_not_hold).; also in every state of the executions with single accesses and words, with two updates or one delete at a time and no restriction of C09 (C30_len_two_partial)"
  },
  {
   "property": "C31",
   "status": "partial",
   "theorems": [
    "Radix.C31_truncated_partial",
    "Radix.C31_panics",
    "Radix.C31_accepts_nothing",
    "Radix.C31_loses_a_key",
    "Radix.C31_does_not_hold",
    "Radix.C31_truncated_does_not_hold",
    "Radix.C31_truncated_two_partial"
   ],
   "note": "Proved: truncated data of a tree with at least one block never panics and never gives a usable tree that differs. The full statement fails: a line without a space panics, truncated data is accepted, and a tree with one key is loaded as an empty tree from truncated data.; also in every state of the executions with single accesses and words, with two updates or one delete at a time and no restriction of C09 (C31_truncated_two_partial)"
  },
  {
   "property": "C32",
   "status": "partial",
   "theorems": [
    "Radix.C32_returns_partial",
    "Radix.C32_success",
    "Radix.C32_reports",
    "Radix.C32_terminates",
    "Radix.C32_hangs",
    "Radix.C32_does_not_hold"
   ],
   "note": "Proved for trees of at most 33 blocks, and whenever at most 32 blocks are left at the failing write. The full statement fails: with more blocks left WriteState never returns (C32_hangs)."
  },
  {
   "property": "C33",
   "status": "proved",
   "theorems": [
    "Radix.C33_structure_is_order_independent",
    "Radix.Run.serialInserts",
    "Radix.C33_structure_two"
   ],
   "note": "all results and statistics of Count for every prefix; insert-only executions that are calm, in particular all sequential ones; also in every state of the executions with single accesses and words in which at most two updates are under way and no delete is finalized (C33_structure_two)"
  },
  {
   "property": "C34",
   "status": "partial",
   "theorems": [
    "Radix.C34_prefix_violations_panic_partial",
    "Radix.C34_does_not_hold"
   ],
   "note": "The full statement fails: after the race of C09 a key that extends a stored key is stored without a panic (C34_does_not_hold). Proved in every idle state of a calm execution, every stored key and every key comparable with it by prefix; the contents are unchanged up to the panic."
  },
  {
   "property": "C35",
   "status": "partial",
   "theorems": [
    "Radix.C35_operations_of_a_new_tree_partial",
    "Radix.C35_does_not_hold"
   ],
   "note": "The statement does not hold: Lookup on an empty tree before the block goroutine's first step panics (C35_does_not_hold). Proved: PrepareUpdate, PrepareDelete and later lookups do not panic; Lookup panics exactly in that case."
  },
  {
   "property": "C36",
   "status": "partial",
   "theorems": [
    "Radix.C36_fewer_nodes_than_keys_partial",
    "Radix.C36_does_not_hold",
    "Radix.C36_fewer_nodes_than_keys_two_partial"
   ],
   "note": "proved without finalized deletes; refuted with deletes: a 256-slot node never goes away, after deleting all keys below it Count reports two nodes for one key; also in every state of the executions with single accesses and words in which at most two updates are under way and no delete is finalized (C36_fewer_nodes_than_keys_two_partial)"
  },
  {
   "property": "C37",
   "status": "partial",
   "theorems": [
    "Radix.C37_first_calls_partial",
    "Radix.C37_exactly_once_partial",
    "Radix.C37_scan_partial",
    "Radix.C37_does_not_hold"
   ],
   "note": "calm executions: the first 257 calls of Next return exactly once every key stored all the time (order, soundness, completeness up to the last one); later scans are sound and sorted. The full statement is refuted: an iteration over 257 keys returns a value twice or panics"
  },
  {
   "property": "C38",
   "status": "proved",
   "theorems": [
    "Radix.C38_safe_codec_round_trip",
    "Radix.C38_safe_codec_panics_on_spare_slot"
   ],
   "note": ""
  },
  {
   "property": "C39",
   "status": "partial",
   "theorems": [
    "Radix.C39_node_sizes_partial",
    "Radix.C39_does_not_hold",
    "Radix.C39_prefix_statistics_partial",
    "Radix.C39_node_sizes_two_partial",
    "Radix.C39_prefix_statistics_two_partial"
   ],
   "note": "The full statement is refuted (a node is counted once for every return of the walk to it). Proved for calm executions: nodes <= sum of NodeSizes < 2 nodes, NodesWithPrefix at most that sum, and how the prefix statistics are related.; also in every state of the executions with single accesses and words, with two updates or one delete at a time and no restriction of C09 (C39_node_sizes_two_partial, C39_prefix_statistics_two_partial)"
  },
  {
   "property": "C40",
   "status": "partial",
   "theorems": [
    "Radix.C40_stale_generations_rejected_partial",
    "Radix.C40_does_not_hold"
   ],
   "note": "with shared lock words lockNodes3 does not compare all generations; proved for different lock words"
  },
  {
   "property": "C41",
   "status": "proved",
   "theorems": [
    "Radix.C41_sequences_run_to_the_end",
    "Radix.C41_result_is_determined",
    "Radix.C41_short_sequences_run_to_the_end"
   ],
   "note": "unbounded lists by induction; the exceptions in the statement are the two panics of C10; without exceptions for keys of at most nine bytes and up to 32768 calls"
  },
  {
   "property": "C42",
   "status": "partial",
   "theorems": [
    "Radix.C42_partial",
    "Radix.C42_does_not_hold"
   ],
   "note": "calm executions, every interleaving of loads, except that the result may be 1 for a non-empty prefix that no key has all the time; the full statement is refuted by Count(\"appx\") with apple, april stored"
  },
  {
   "property": "C43",
   "status": "partial",
   "theorems": [
    "Radix.C43_min_partial",
    "Radix.C43_max_partial",
    "Radix.C43_does_not_hold"
   ],
   "note": "calm executions, for calls that return a value while some other operation begun before is running; the full statement is refuted by MinKey(\"appx\")"
  },
  {
   "property": "C44",
   "status": "partial",
   "theorems": [
    "Radix.C44_lookup_wait_free",
    "Radix.C44_lookup_step",
    "Radix.C44_prepare_update_partial",
    "Radix.C44_prepare_delete_partial",
    "Radix.C44_update_alone_partial",
    "Radix.C44_delete_alone_partial",
    "Radix.C44_prepared_finishes_partial",
    "Radix.C44_locking_can_cycle",
    "Radix.C44_retry_for_ever",
    "Radix.C44_does_not_hold"
   ],
   "note": "lookups: no restriction; the rest for calm executions, with the panics of C10 excepted; the bound for preparing grows with the number of times the operation meets a lock held for a moment by another one that is just taking its locks (slip).  Without that the statement is false: two updates whose nodes and parents share lock words crosswise can retry for ever while no operation is prepared (C44_retry_for_ever, C44_does_not_hold; every access is a step, two updates and nothing else under way)"
  },
  {
   "property": "C45",
   "status": "partial",
   "theorems": [
    "Radix.C45_simulated_partial",
    "Radix.C45_contents_partial",
    "Radix.C45_lookup_answers_partial",
    "Radix.C45_update_answers_partial",
    "Radix.C45_delete_answers_partial",
    "Radix.C45_effects_partial",
    "Radix.C45_panics_partial",
    "Radix.C45_locks_are_exclusive_partial",
    "Radix.C45_does_not_hold"
   ],
   "note": "proved in calm executions of Model/Fine, by a simulation: every such execution has a counterpart in Model/Sys with the same contents, phases and results; still one step there are building new nodes (the loads of the node copied included) and the end of Finalize after the locks are released; the full statement is refuted by the race of C09, access by access"
  },
  {
   "property": "C46",
   "status": "partial",
   "theorems": [
    "Radix.C46_does_not_hold",
    "Radix.C46_merging_runs_out",
    "Radix.C46_updates_take_no_memory_partial"
   ],
   "note": "refuted: merging a node with its only child recycles the child but not the node (delete.go:285-297), so storing and deleting one key often enough beside two others ends in the panic for want of memory; proved for updates of stored keys, which take no memory"
  },
  {
   "property": "C47",
   "status": "proved",
   "theorems": [
    "Radix.C47_two_updates_are_calm",
    "Radix.C47_simulated",
    "Radix.C47_contents",
    "Radix.C47_lookup_answers",
    "Radix.C47_update_answers",
    "Radix.C47_delete_answers",
    "Radix.C47_effects",
    "Radix.C47_panics",
    "Radix.C47_locks_are_exclusive",
    "Radix.C47_three_updates_lose_one",
    "Radix.C47_two_writers_partial"
   ],
   "note": "one access to shared memory per step, except that Finalize builds its new nodes in one step and does its last part after the locks in one step (as in C45); C47_three_updates_lose_one shows that two is the limit; C47_two_writers_partial is an addition about a delete besides an update, which keeps some restrictions of Calm"
  },
  {
   "property": "C48",
   "status": "partial",
   "theorems": [
    "Radix.C48_does_not_hold",
    "Radix.lost_delete",
    "Radix.C48_narrow_partial",
    "Radix.C48_updates_partial"
   ],
   "note": "false for the code: delete.go:158 prepares a delete in a 256-slot node without a lock, and its compare-and-swap succeeds in the old copy of the node (C48_does_not_hold, for two deletes without overlapping calls); C48_narrow_partial: true for key sets in which fewer than 128 bytes follow any beginning; C48_updates_partial: true without deletes"
  },
  {
   "property": "C49",
   "status": "partial",
   "theorems": [
    "Radix.C49_enough_partial",
    "Radix.C49_memory_partial",
    "Radix.C49_no_panic_partial"
   ],
   "note": "proved for calm executions; C49_enough_partial for any bound on the length of keys; C49_no_panic_partial joins it with the list of panics of C10.  Missing: executions that are not calm (see Calm.lean)"
  },
  {
   "property": "C50",
   "status": "partial",
   "theorems": [
    "Radix.C50_no_memory_lost_partial",
    "Radix.C50_does_not_hold"
   ],
   "note": "C50_statement does not hold: a delete that merges two nodes never recycles the upper one (delete.go:285-297), shown with the keys aa, ab, b.  Proved for calm executions (see Calm.lean) in which every Finalize returns true and no delete merges two nodes"
  },
  {
   "property": "C51",
   "status": "proved",
   "theorems": [
    "Radix.C51_reuse_waits",
    "Radix.C51_pieces"
   ],
   "note": "for the system of Model/Epoch, in which the tree is a list of nodes that operations replace at will; that an operation reads only nodes that were in the tree after it has stored its reservation is how the executions are set up, not proved (C24 proves it for calm executions of Model/Sys).  C51_pieces: without interruption the accesses are newNode and recycle of Model/Alloc"
  },
  {
   "property": "C52",
   "status": "partial",
   "theorems": [
    "Radix.C52_prints_alone_partial",
    "Radix.C52_returns_partial",
    "Radix.C52_does_not_hold"
   ],
   "note": "for executions in which only the goroutine that stopped the tree starts it (as C28); a single call returns.  In full false: two calls at the same time with two allocators wait for each other for ever"
  },
  {
   "property": "C53",
   "status": "partial",
   "theorems": [
    "Radix.C53_prints_partial",
    "Radix.C53_finds_partial",
    "Radix.C53_empty",
    "Radix.C53_lookup_partial",
    "Radix.C53_panics",
    "Radix.C53_clamped",
    "Radix.C53_does_not_hold",
    "Radix.C53_prints_two",
    "Radix.C53_finds_two"
   ],
   "note": "in calm executions what is printed is right, and the number printed leads to the node or leaf if it is below 2^63.  In full false: the number 2^43 makes the command panic in every state (admin.go:96 `>` for `>=`), and every number from 2^63 (256-slot nodes, values from 2^54) prints a leaf that does not exist, because the error of strconv.Atoi is ignored; C53_prints_two and C53_finds_two without the restriction of C09, for single accesses and words, with two updates or one delete at a time"
  },
  {
   "property": "C54",
   "status": "partial",
   "theorems": [
    "Radix.C54_objects_partial",
    "Radix.C54_flushed_partial",
    "Radix.C54_blocks_partial",
    "Radix.C54_blocks_before",
    "Radix.C54_table",
    "Radix.C54_does_not_hold",
    "Radix.C54_objects_two"
   ],
   "note": "objects_approx is exact if every allocator has flushed its counter since its last operation, and differs by the counters otherwise; blocks_allocated is exact once the first block of the goroutine exists, and one too large before.  In full false for these two reasons"
  },
  {
   "property": "C55",
   "status": "partial",
   "theorems": [
    "Radix.C55_close_partial",
    "Radix.C55_returns_partial",
    "Radix.C55_gone",
    "Radix.C55_hangs",
    "Radix.C55_twice",
    "Radix.C55_restart",
    "Radix.C55_does_not_hold"
   ],
   "note": "for executions in which calls of Stop, Start, Len and Close do not overlap and Close is called once.  In full false: while another Stop waits, Close returns at once and an operation under way then waits for a block for ever (C55_hangs); a second Close panics (C55_twice).  When the tree is started again after Close, the first operation that needs a block never returns (C55_restart)"
  },
  {
   "property": "C56",
   "status": "partial",
   "theorems": [
    "Radix.C56_update_partial",
    "Radix.C56_delete_partial",
    "Radix.C56_step_update_partial",
    "Radix.C56_step_delete_partial",
    "Radix.C56_finalize_partial",
    "Radix.C56_needs_one_writer"
   ],
   "note": "with two exceptions contained in OneWriter: lookups and walks begin when there is a block (C35), and the locks that Abort of a delete releases are its own (C08).  Finalize may panic for the reasons of C10; if it does not, it returns true.  With two writers operations do start again (C56_needs_one_writer)"
  },
  {
   "property": "C57",
   "status": "partial",
   "theorems": [
    "Radix.C57_no_error_partial",
    "Radix.C57_error_partial",
    "Radix.C57_succeeds",
    "Radix.C57_header_not_counted",
    "Radix.C57_section_not_counted",
    "Radix.C57_does_not_hold"
   ],
   "note": "the count is exact if there is no error, and never too large.  In full false: with an error it may be too small: what a failing call has written is not counted in the header and the blocks (C57_header_not_counted), nor what an earlier call has written of the same allocator's section (C57_section_not_counted).  Error if and only if a Write failed, and the data being a beginning of the complete data, are proved without restriction, for calls that return (C32)"
  },
  {
   "property": "C58",
   "status": "partial",
   "theorems": [
    "Radix.C58_same_executions_partial",
    "Radix.C58_stale_value",
    "Radix.C58_does_not_hold"
   ],
   "note": "proved, as an equivalence, for executions in which fewer than 2^31 updates and deletes have been prepared; with the steps of Model/Sys.  In full false: with little more than 2^31 prepared operations PrepareUpdate can return a value that has been replaced (C58_stale_value)"
  },
  {
   "property": "C59",
   "status": "partial",
   "theorems": [
    "Radix.C59_fits_partial",
    "Radix.C59_limit",
    "Radix.C59_overwrites",
    "Radix.C59_does_not_hold"
   ],
   "note": "no panic (except for want of blocks) proved for keys shorter than 2,000,000 bytes.  In full false: the second of two keys with at least 2,097,121 bytes in common cannot be inserted into a new tree, with less it can (C59_limit); before the panic bytes of the key are written behind the end of the block (C59_overwrites).  The limit for nodes that have more children or are in other blocks is not worked out"
  },
  {
   "property": "C60",
   "status": "partial",
   "theorems": [
    "Radix.C60_copied_at_once_partial",
    "Radix.C60_words_stay_partial",
    "Radix.C60_contents_partial",
    "Radix.C60_steps_partial",
    "Radix.C60_panics_partial",
    "Radix.C60_narrow_partial",
    "Radix.C60_does_not_hold"
   ],
   "note": "false in full (C60_does_not_hold): a deleteLeaf256, which takes no lock, clears a word that another Finalize has loaded and not yet stored into its copy; the deleted key is back when the copy is published.  Proved with the restriction of C45 and without such a deleteLeaf256 (TCalm), and in full for key sets in which fewer than 128 bytes follow any beginning (C60_narrow_partial)"
  },
  {
   "property": "C61",
   "status": "proved",
   "theorems": [
    "Radix.C61_single_accesses",
    "Radix.C61_calm",
    "Radix.C61_calm_at_rest",
    "Radix.C61_two_updates",
    "Radix.C61_lost_delete"
   ],
   "note": "for the executions of Model/Sys without the steps slip; a slip stands for what an operation reads of locks that another one holds in the middle of such a step, so it is an artefact of the larger steps.  C61_calm adds that the restriction of C09 becomes the one of C45, C61_two_updates that the one of C47 remains, and C61_calm_at_rest is the converse for states in which no operation is in the middle of such a step"
  },
  {
   "property": "C62",
   "status": "proved",
   "theorems": [
    "Radix.C62_copied_at_once",
    "Radix.C62_words_stay",
    "Radix.C62_contents",
    "Radix.C62_lookup_answers",
    "Radix.C62_update_answers",
    "Radix.C62_delete_answers",
    "Radix.C62_effects",
    "Radix.C62_panics"
   ],
   "note": "C47 with the steps of C60: nothing is assumed but the bound on the operations under way (lookups and walks begin when there is a block, see C35, and a merge of the root with its child is not aborted, see C08)"
  },
  {
   "property": "C63",
   "status": "proved",
   "theorems": [
    "Radix.C63_count",
    "Radix.C63_min",
    "Radix.C63_max",
    "Radix.C63_first_calls",
    "Radix.C63_exactly_once",
    "Radix.C63_count_loads",
    "Radix.C63_ends_loads",
    "Radix.C63_next_loads",
    "Radix.C63_copied_at_once",
    "Radix.C63_iterators_copied_at_once"
   ],
   "note": "C24, C25, C37, C42 and C43 with the steps of C47, where nothing is assumed but the bound on the operations under way (lookups and walks begin when there is a block, see C35, and a merge of the root with its child is not aborted, see C08). The exceptions named in the statement are those of C37, C42 and C43; a reader that does not end within the model's bound on iterations is not said to return anything. MinKey and MaxKey reserve no epoch of their own, so they are considered while an operation of some allocator runs (see C25). The last two theorems extend this to the system of C62, in which the words that Finalize copies are loaded one at a time"
  },
  {
   "property": "C64",
   "status": "partial",
   "theorems": [
    "Radix.C64_count_partial",
    "Radix.C64_min_partial",
    "Radix.C64_max_partial",
    "Radix.C64_count_loads_partial",
    "Radix.C64_ends_loads_partial",
    "Radix.C64_next_loads_partial",
    "Radix.C64_first_calls_partial",
    "Radix.C64_exactly_once_partial",
    "Radix.C64_does_not_hold"
   ],
   "note": "false in full (C64_does_not_hold): after the race of C09 a Count misses a key that is stored all the time. Proved in the executions of C60 in which the races do not show (TCalm), for any number of operations under way; the case of two updates or one delete is C63, without any restriction of this kind. A reader that does not end within the model's bound on iterations is not said to return anything"
  },
  {
   "property": "C65",
   "status": "proved",
   "theorems": [
    "Radix.C65_agrees",
    "Radix.C65_returns",
    "Radix.C65_trail",
    "Radix.C65_stored",
    "Radix.C65_stored_two",
    "Radix.C65_returns_two"
   ],
   "note": "the output is modelled as data (which words are printed, in which order), as in C53; the state does not change during the call. Proved for all executions in which the races of C09 do not show (Calm), of which operations run one after the other are a special case; C65_stored_two and C65_returns_two for single accesses and words, with two updates or one delete at a time"
  },
  {
   "property": "C66",
   "status": "partial",
   "theorems": [
    "Radix.C66_isLocked_partial",
    "Radix.C66_isLocked_two",
    "Radix.C66_returns",
    "Radix.C66_does_not_hold"
   ],
   "note": "false in full (C66_does_not_hold): after Abort of a delete has released the lock of an update (C07, C08), isLocked of the node that the update has locked returns false. Proved for executions of whole lock attempts without such an abort, any number of operations, and access by access (a lock that a failed attempt is about to give back counts as held) for two updates or one delete at a time"
  },
  {
   "property": "C67",
   "status": "proved",
   "theorems": [
    "Radix.C67_available",
    "Radix.C67_available_alone",
    "Radix.C67_returns",
    "Radix.C67_available_is_not_a_snapshot"
   ],
   "note": "while Stop, Start and Len are not called. C67_available_is_not_a_snapshot: the result can be 0 though an allocator was available at every time of the call, so that more than the bounds cannot be said"
  },
  {
   "property": "C68",
   "status": "partial",
   "theorems": [
    "Radix.C68_bounds_partial",
    "Radix.C68_room_partial",
    "Radix.C68_room_block_0",
    "Radix.C68_free_partial",
    "Radix.C68_draw",
    "Radix.C68_does_not_hold",
    "Radix.C68_room_two",
    "Radix.C68_free_two"
   ],
   "note": "false in full (C68_does_not_hold): in block 0, whose first 8 bytes are left out, unused is 8 more than the number of bytes to the end of the block (C68_room_block_0). In other blocks it is that number (C68_room_partial). That the bytes are free is shown for all but the last 8 of them (C68_free_partial), which this allocator never gives out (in block 0 they are the first 8 of block 1). All but C68_draw for executions in which the races of C09 do not show (Calm); C68_room_two and C68_free_two for single accesses and words, with two updates or one delete at a time"
  }
 ]
}