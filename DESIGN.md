# Formal model of jayloop/radix in Lean 4

What is modelled, how the proofs are organised, what is trusted, and what was found.  The properties are in `properties.jsonl`, their status
and the theorems in `MANIFEST.json`, and wrong programs tried against the theorems in `seeded/LOG.jsonl`.

## 1. Layers

All modules are under `lean/Verif/`.

1. **Words** (`Word.lean`): `utils.go` over `UInt64`/`UInt8`, bit for bit.
2. **Sequential code** (`Model/State`, `Locks`, `Alloc`, `Search`, `Update`, `Delete`, `Tail`, `Walk`, `Iterator`, `Serial`, `SafePrefix`): the memory of the
   tree is a function from slot numbers (`block << blockSlotsShift | offset`, constants of the default build) to words.  Every Go function is a
   total Lean function into `Except Panic`; indexing out of range, missing blocks, explicit `panic`s and running out of blocks are `Panic` values.
   Every definition cites the lines it models.
3. **System** (`Model/Lookup`, `Model/Sys`): any number of allocators, each with at most one operation; `exec` performs one step of one allocator or
   of the block goroutine.  An execution is any sequence of steps, so all interleavings, and schedules in which the block goroutine lags behind, are
   included.
4. **Machines of a finer grain**: node locks (`Model/LockSteps`, one compare-and-swap or addition per step), the allocator pool with `Stop`, `Start`,
   `Len` (`Model/Pool`, one atomic access per step), readers (`Model/Readers`, one load per step), the goroutines of `WriteState`
   (`Model/Pipeline`, one channel operation per step), epochs and reservations (`Model/Epoch`, one load, store or addition per step), and the system itself with one access to shared memory per step (`Model/Fine`, executions
   `FRun` in `FineSpec.lean`); C45 carries the results about `Model/Sys` over to it.
5. **Specification** (`Spec.lean`): a map from keys to values.  `Run env G s σ` pairs an execution that respects the caller's contract `env` and the
   restriction `G` with the map obtained from the successful `Finalize` calls in order.  `Env` says what the caller promises: nonempty keys, none a
   prefix of another, `fetch v` is the key of the object `v` refers to.
6. **Proofs**: the ghost tree (`Tree.lean`: `T = empty | leaf | node`), memory representing a tree (`Core`, `Shape`, `Leaves`), allocator ownership
   (`AllocProof`), the effect of `Finalize` (`Build`, `Commit`, `Fin*`), the invariant of the system and its preservation by every step
   (`Sys/Inv` … `Sys/Rest`), readers between steps of writers (`Sys/Reader` … `Sys/Walks`, and `Sys/FineWalks` with single accesses of the writers), locks in all executions (`Sys/LockInv`), uninterrupted
   operations (`Sys/Seq`, `Sys/Calls`, `Sys/Complete`), two updates at a time (`Sys/Apart`, `Sys/Two`), how many steps operations take (`Sys/Progress`), single accesses (`Sys/Atom`, `Sys/Relock`,
   `Sys/Fine*`; `FRelX` relates a state of the fine system to one of the coarse system and carries along what is known about the way there), epochs (`Sys/EpochInv`).
7. **Properties** (`Properties/*.lean`): the theorems named in the manifest.  Beside each there is an example: a concrete execution or state meeting
   the hypotheses, evaluated by the kernel.

### Restrictions used in theorems

* `fun _ _ => True`: all executions that respect the contract.
* `Serial`: operations do not overlap.  `OneWriter`: updates and deletes do not overlap with each other; lookups run at any time.
* `Calm` (`Calm.lean`): any number of operations overlap, in any way, except that these steps do not occur:
  passing the check of the parent's generation while an operation that has published its change holds that lock (unless the node is still
  in the tree, or such an operation holds its lock, too); taking three locks with
  a stale generation of a node whose lock word is shared; a successful `deleteLeaf256` on a slot of a node that has left the tree,
  or that another `Finalize` has copied and is about to replace by the copy; an
  aborted `replaceNodeWithNode` at the root that releases a lock it does not own; a lookup before the first block exists.  Each of
  them is a defect of the code (section 5).  `Serial` and `OneWriter` executions are calm (proved in `Sys/Seq.lean`), and so are all interleavings of
  uninterrupted calls (`Sys/Calls.lean`).
* `FCalm` (`FineSpec.lean`): `Calm` for `Model/Fine`.
* `TwoUpdates`, `FTwoUpdates`, `TTwoUpdates` (`Sys/Two.lean`, `Sys/FineTwo.lean`, `Properties/TornTwo.lean`): at most two updates, or one delete, are under way; lookups run at any time.  Such
  executions are calm (proved).  `FThreeUpdates` is the same with three and only used in a refutation.  `TwoWriters`: at most two updates or deletes are
  under way; the parts of `Calm` about publishing and aborting deletes remain.  `Apart` is used in proofs only.
* `TidyAbort`: only the wrong unlock by `delete.go:344` is excluded.
* `InsertOnly`: no delete is finalized.  `TTwoInserts` (`Properties/InsertTwo.lean`): the executions of C62 without finalized deletes.
* `WholeCalls` (`Sys/Narrow.lean`): calls of updates and deletes do not overlap, any number of operations may be prepared at the same time.
  `WholeUpdates`: the same without deletes.  `Env.Narrow` is a condition on the keys: fewer than 128 bytes follow any beginning.

## 2. What is modelled, file by file

| file | modelled | not modelled |
|------|----------|--------------|
| utils.go | all | |
| unsafe.go | `storePrefix`, `appendPrefix` (little endian) | `byteSliceFromUint64`, `memmove` as such |
| prefix.go | all | |
| radix.go | `NewTree`, `blockAllocator`, `allocateNode`, `allocateNodeWithPrefix`, `getNodeData`, `getNodeFromRaw`, `search`, `Lookup`, `partialSearch`, `MinKey`, `MaxKey`, `Count`, `NewIterator`, `Len`, `Stop`, `Start`, `GetAllocator`, `ReleaseAllocator`, `PrepareUpdate`, `PrepareDelete`, `Close` (with the channels of the block goroutine; `Model/Close`), `debugSearch` (`Model/DebugSearch`) | block status map (`blockMap`) |
| allocator.go | `Lookup`, `PrepareUpdate`, `PrepareDelete`, `startOp`, `endOp`, `recycle`, `newNode`, `allocateNode`, `FlushStats`, `loadState`, `writeState`, `unused` (`Model/Unused`) | `printStats`, statistics other than the item counter |
| update.go, delete.go | `prepareUpdate`, `prepare`, `Finalize`, `Abort`, `lock*`, `unlock*`, `enterNode`, `addSortedChildren` | `String` |
| locks.go | all (`isLocked`: `Model/DebugSearch`) | |
| epoch.go, slots.go | all (`available`: `Model/Available`) | |
| counter.go, iterator.go | all | |
| state.go | `writeState` (data: `Model/Serial`; calls of `Write` and number returned: `Model/WriteCount`), `loadState`, the goroutines | `jobPool` |
| admin.go, stats.go | `Admin` with the commands `allocators` (the pool; `Model/Admin`), `root`, `node`, `blocks`, `info`, `debugPrintNode`, `Stats` (which words are printed; `Model/Debug`) | the layout of the text, the fields computed from a printed word, `bytes_per_key`, `printStats` |
| blocksize*.go | default build | the other build tags |

### Simplifications

* Go's `sync/atomic` operations are sequentially consistent.  Plain accesses to memory that other goroutines write are treated like atomic ones.
* Steps of `Model/Sys`: a pass of `prepareUpdate`/`prepare` over one node reads the node's body in one step (in a delete, the other child of a node with two children is read in a
  step of its own).  Taking the two or three locks of an
  operation is one step (`run`; the protocol itself is proved step by step in `Model/LockSteps`: all or nothing, exclusive); what others see of a
  call of `lockNodes2` that is not finished is the step `slip`: while another operation is at such a call, a generation may be read one too large, a
  comparison with a free parent's generation may fail, and a lock may not be available.  `Finalize` is building the new nodes
  in memory nobody else sees (`build`), the store or compare-and-swap that publishes them (`commit`), the release of the locks one by one (`unlock`), and the
  rest (recycling, counting, `endOp`: `tail`); `publish` is `build` and `commit` without interruption, and `tail` includes the releases not done yet.
  `Abort` is `quit`, `unlock`s and `tail`, or `abort` without interruption.  Lookups, `Count`, `Next`, `MinKey`, `MaxKey` load one word per step.
* Steps of `Model/Fine`: every load, compare-and-swap and addition of `PrepareUpdate`, `PrepareDelete`, `Lookup`, and of the release of locks.  Still one step
  are: building the new nodes (`build`: stores to memory nobody else can reach, the loads of the node that is copied (single steps in `Model/Torn`, C60), the reservations scanned by
  `minReservation`), and the end of `Finalize` after the locks have been released (`tail`: recycling, the item counter, `endOp`; data of the allocator
  itself and one store of the reservation).  The accesses to the epoch and the reservations are single steps in `Model/Epoch` (C51), where the tree is a list of
  nodes.  C45 is a simulation: lock words that are taken only for a moment are the only difference from a state of `Model/Sys`.  C61 is the converse
  (`Sys/Coarse`): the steps of `Model/Sys` except `slip` are sequences of steps of `Model/Fine`.
* In the readers the block table `idx.blocks` is read once per node, and only its length is modelled.
* Generations are integers and epochs natural numbers (no wrap-around; `Model/Gen32` has generations of 32 bits, and C58 shows that this makes no
  difference during the first 2^31 operations, but may later); a new epoch begins after every 1000 nodes recycled by one allocator, as in the code.
* Keys are shorter than 2,000,000 bytes; a longer prefix may not fit into a block (C59).
* The length word of a long prefix is read as an unsigned number.
* The caller's objects do not change: `fetch` is one function for the whole execution.
* Loops of readers have a bound (`fuel`) on the number of rounds; the theorems say "for all large enough `fuel`" or prove that it suffices.
* `snappy` is an abstract codec with `decode (encode x) = x`; the writer of `WriteState` is a sequence of chunks that may fail.  Numbers in state files
  are parsed with the machine bounds of Go.
* Saving and loading within an execution (`Run.reload`) requires flushed counters and a published block number; what happens otherwise is C29, C30.
* `Len` is the sum of counters on a stopped tree; `Stop`/`Start`/`Len` as goroutines are in `Model/Pool`.
* The pool (`Model/Pool`) and the system (`Model/Sys`) are separate: C27 justifies that an allocator carries one operation at a time.

## 3. Trusted base

* The kernel of Lean 4.33.0.
* Axioms: of the 300 theorems in the manifest, 259 depend on `propext`, `Classical.choice`, `Quot.sound`; 35 on `propext`, `Quot.sound`; 1 on `propext`; 5 on none.  No
  axioms are added; no `sorry`, `native_decide`, `bv_decide`.  Concrete executions are evaluated with `decide` and `decide +kernel`.
* The reading of the Go code: the definitions in `Word.lean` and `Model/`, and the simplifications above.
* The specifications: `Spec.lean`, `Calm.lean`, `FineSpec.lean`, and the definitions at the head of the files in `Properties/`.

## 4. Properties

"partial" means that the full statement is not proved.  In most cases it is false for the code: the theorem `…_does_not_hold` proves the negation of the
full statement, from a concrete execution, and `…_partial` proves what holds.

| id | title | status | theorems | what is proved, what is missing |
|----|-------|--------|----------|------|
| C01 | Lookup finds every stored key | proved | `C01_lookup_finds_stored_keys` | no bound on keys, length or history; operations one after the other, allocators mixed freely |
| C02 | Lookup never returns a value that is not currently stored | proved | `C02_lookup_returns_stored_values`, `C02_verified_lookup_is_map` |  |
| C03 | A lookup candidate shares a prefix with the lookup key | partial | `C03_candidate_agrees_at_branches_partial`, `C03_does_not_hold`, `C03_candidate_agrees_at_branches_two_partial` | The statement does not hold: prefixes of inner nodes are skipped, so with keys apple and april Lookup(xxp) returns apple (C03_does_not_hold). Proved in every state of a calm execution: the candidate is a stored key that agrees with the lookup key at every position where another stored key branches off from it, and has the same first byte if it is the only key of a tree without deletes.; also in every state of the executions with single accesses and words, with two updates or one delete at a time and no restriction of C09 (C03_candidate_agrees_at_branches_two_partial) |
| C04 | PrepareUpdate classifies the key correctly | partial | `C04_prepare_update_classifies_partial`, `C04_prepare_update_classifies_concurrent_partial`, `C04_does_not_hold` | The full statement fails: after three racing inserts PrepareUpdate reports a stored key as missing (C04_does_not_hold). Proved with one writer at a time, and for any overlap of operations in calm executions. |
| C05 | Update.Finalize stores exactly one key | partial | `C05_finalize_stores_one_key_partial`, `C05_does_not_hold` | The full statement fails: in a race of three inserts a Finalize returns true and its key is not stored (C05_does_not_hold). Proved in every state of a calm execution, also with other operations under way. |
| C06 | Delete removes exactly one key | partial | `C06_prepare_delete_not_found_partial`, `C06_prepare_delete_candidate_partial`, `C06_finalize_removes_one_key_partial`, `C06_prepare_delete_not_found_concurrent_partial`, `C06_prepare_delete_candidate_concurrent_partial`, `C06_finalize_removes_one_key_concurrent_partial`, `C06_does_not_hold` | The full statement fails: after three racing inserts PrepareDelete reports a stored key as missing (C06_does_not_hold). Proved with one writer at a time and any number of lookups, and for any overlap of operations in calm executions. |
| C07 | Aborting an update leaves the tree unchanged | partial | `C07_abort_update_partial`, `C07_abort_update_frees_all_locks_partial`, `C07_does_not_hold` | Proved for all executions, whatever races happened, in which no aborted delete has released locks it does not hold (the bug of C08).  In full false: such an abort can release the lock of an update, if the node of the update has address 4096 (or another one with lock word 0 of the first block); then Abort of the update panics (C07_does_not_hold) |
| C08 | Aborting a delete leaves the tree unchanged | partial | `C08_abort_delete_partial`, `C08_abort_delete_any_partial`, `C08_does_not_hold` | Aborting a merge of the root with its child panics (delete.go:344, arguments swapped). Proved in all other cases, for all executions in which no such abort went wrong before. |
| C09 | Interleaved operations behave like atomic map operations | partial | `C09_atomic_effects_partial`, `C09_interleaved_calls_partial`, `C09_update_answers_partial`, `C09_delete_answers_partial`, `C09_does_not_hold` | three concurrent inserts can lose one (C09_does_not_hold); proved for all executions in which the races listed at Calm do not show, and for all interleavings of uninterrupted calls |
| C10 | Contract-respecting operations never panic | partial | `C10_panics_partial`, `C10_does_not_hold` | recycling a node of exactly 258 slots panics (allocator.go:55); proved that there is no other panic except running out of blocks and C08 |
| C11 | No spurious conflicts without competition | partial | `C11_update_without_competition_partial`, `C11_delete_without_competition_partial` | Missing: states reached by executions outside Calm. Proved in every state of a calm execution in which no update or delete is under way (lookups and walks may be), up to the panics of C10 and running out of blocks. |
| C12 | Lookup always terminates | proved | `C12_lookup_terminates` | length words of long prefixes are read as unsigned numbers |
| C13 | Lock-free lookups are correct under concurrent writers | partial | `C13_concurrent_lookup_is_correct_partial`, `C13_concurrent_lookup_is_correct_calm_partial`, `C13_does_not_hold` | The full statement fails: after three racing inserts a lookup misses a stored key (C13_does_not_hold). Proved with one writer at a time and in all calm executions. |
| C14 | Full iteration yields every value once, in key order | partial | `C14_full_iteration_partial`, `C14_values_in_order_partial`, `C14_does_not_hold`, `C14_full_iteration_two_partial`, `C14_values_in_order_two_partial` | exact for at most 256 keys (any calm history) and, without finalized deletes, for any number of keys when the last key branches off at the root; for trees of any size, calls that do not panic return the values in order; the full statement is refuted: with 257 keys the iteration starts again after the last key (or panics), because the position to go on with is read beyond the root node; also in every state of the executions with single accesses and words, with two updates or one delete at a time and no restriction of C09 (C14_full_iteration_two_partial, C14_values_in_order_two_partial) |
| C15 | Prefix iteration yields exactly the keys with the prefix | partial | `C15_prefix_iteration_partial`, `C15_prefix_without_keys_partial`, `C15_does_not_hold`, `C15_prefix_iteration_two_partial`, `C15_prefix_without_keys_two_partial` | exact under the restriction of C14 when some key has the prefix; otherwise at most one value of another key is returned, which refutes the full statement; also in every state of the executions with single accesses and words, with two updates or one delete at a time and no restriction of C09 (C15_prefix_iteration_two_partial); also in every state of the executions with single accesses and words, with two updates or one delete at a time and no restriction of C09 (C15_prefix_without_keys_two_partial) |
| C16 | MinKey returns the smallest key with the prefix | partial | `C16_min_key_partial`, `C16_min_key_found_partial`, `C16_does_not_hold`, `C16_min_key_misses_a_stored_key`, `C16_min_key_found_two_partial`, `C16_min_key_two_partial` | exact without finalized deletes when some key has the prefix; in all calm executions what is found is the minimum; refuted for prefixes that no key has, and after deletes also for the empty prefix: a 256-slot node whose keys were all deleted stays in the tree and MinKey(nil) returns false although a key is stored; also in every state of the executions with single accesses and words, with two updates or one delete at a time and no restriction of C09 (C16_min_key_found_two_partial); also in every state of the executions with single accesses and words in which at most two updates are under way and no delete is finalized (C16_min_key_two_partial) |
| C17 | MaxKey returns the largest key with the prefix | partial | `C17_max_key_partial`, `C17_max_key_found_partial`, `C17_does_not_hold`, `C17_max_key_misses_a_stored_key`, `C17_max_key_found_two_partial`, `C17_max_key_two_partial` | as C16; also in every state of the executions with single accesses and words, with two updates or one delete at a time and no restriction of C09 (C17_max_key_found_two_partial); also in every state of the executions with single accesses and words in which at most two updates are under way and no delete is finalized (C17_max_key_two_partial) |
| C18 | Count counts the keys with the prefix | partial | `C18_count_partial`, `C18_does_not_hold`, `C18_count_two_partial` | exact for the empty prefix and when some key has the prefix, in every calm execution; refuted for prefixes that no key has; also in every state of the executions with single accesses and words, with two updates or one delete at a time and no restriction of C09 (C18_count_two_partial) |
| C19 | Len is the number of stored keys | partial | `C19_len_is_number_of_keys_partial`, `C19_does_not_hold`, `C19_len_two`, `C19_len_fine_partial` | The full statement fails for overlapping updates: a key lost in the race of C09 is counted twice when it is stored again (C19_does_not_hold). Proved in all calm executions, any choice of allocators and any flushes. Also for the executions with single accesses and words: without restriction if at most two updates or one delete are under way at a time (C19_len_two), otherwise with that of C60. |
| C20 | Values keep their low 55 bits | proved | `C20_values_keep_low_55_bits` |  |
| C21 | Child references keep address, size, prefix length and byte | proved | `C21_child_references_round_trip`, `C21_child_references_injective` |  |
| C22 | Compressed prefixes are stored and read back exactly | proved | `C22_prefix_round_trip`, `C22_prefix_slots` |  |
| C23 | Live nodes never overlap in memory | partial | `C23_live_nodes_disjoint_partial`, `C23_live_nodes_disjoint_one_writer`, `C23_does_not_hold`, `C23_live_nodes_disjoint_two`, `C23_live_nodes_disjoint_fine_partial` | holds in calm executions (and whenever at most one writer is active); the full statement is refuted: three racing inserts recycle a node that is still reachable. Also for the executions with single accesses and words: without restriction if at most two updates or one delete are under way at a time (C23_live_nodes_disjoint_two), otherwise with that of C60 |
| C24 | Memory is not reused under a running reader | partial | `C24_no_reuse_under_a_reader_partial`, `C24_count_partial`, `C24_next_partial` | calm executions (not the three-insert race that recycles a reachable node, C23); Lookup, Prepare*, Count and scanning calls of Next; Next may also load the slot right after a protected one |
| C25 | MinKey and MaxKey are safe under concurrent writers | partial | `C25_guarded_partial`, `C25_does_not_hold` | Does not hold as stated: MinKey and MaxKey reserve no epoch, so a slot they are about to load can be handed out again, even with all writers one after the other (C25_does_not_hold: C25_statement is false, by an execution with up to 1000 pairs of insert and delete). Proved for calls during which another operation, begun before, is running; calm executions. |
| C26 | Node locks are exclusive and all-or-nothing | proved | `C26_all_nodes_locked`, `C26_locks_are_exclusive`, `C26_roll_back_restores`, `C26_no_lock_leaks`, `C26_all_or_nothing`, `C26_unlock_never_panics`, `C26_generations_only_grow`, `C26_unlock_changes_generation`, `C26_operations_are_exclusive` | lock words are unbounded integers; the theorem about operations is for executions in which no aborted delete has released locks it does not hold (C08) |
| C27 | An allocator has one user at a time | proved | `C27_one_user`, `C27_released_can_be_obtained` | Every interleaving of the load, compare-and-swap and store steps of slots.get/put by any number of goroutines (Model/Pool.lean). The second theorem: with a free slot, an undisturbed GetAllocator returns within n+1 steps and obtains a slot nobody used. Executions with Stop, Start and Len are the subject of C28. |
| C28 | Stop gives exclusive access until Start | partial | `C28_stop_is_exclusive_partial`, `C28_quiet_until_start`, `C28_stop_returns`, `C28_does_not_hold`, `C28_len_restarts`, `C28_second_stop` | The statement does not hold for the code: Len while Stop is waiting puts back slots which are in use, Len on a stopped tree restarts it, and a second Stop returns while allocators are in use (three witnesses). Proved for executions in which Stop, Start and Len do not overlap and Len is not called on a stopped tree; GetAllocator and ReleaseAllocator are not restricted. |
| C29 | State written is state read | partial | `C29_state_round_trip_partial`, `C29_any_schedule_partial`, `C29_does_not_hold`, `C29_state_round_trip_two_partial` | Proved for every reachable idle tree whose number of blocks has been published by the block goroutine, every block order and every schedule of the goroutines of WriteState; compression is an abstract codec with the round-trip property. The full statement fails (C29_does_not_hold): a tree saved while the block goroutine is behind loses a block.; also in every state of the executions with single accesses and words, with two updates or one delete at a time and no restriction of C09 (C29_state_round_trip_two_partial) |
| C30 | Len survives saving and loading | partial | `C30_len_partial`, `C30_what_is_lost`, `C30_does_not_hold`, `C30_len_two_partial` | Proved if the allocator counters are flushed; C30_what_is_lost: exactly the unflushed part of Len is lost. The full statement fails (C30_does_not_hold).; also in every state of the executions with single accesses and words, with two updates or one delete at a time and no restriction of C09 (C30_len_two_partial) |
| C31 | Incomplete state data is rejected | partial | `C31_truncated_partial`, `C31_panics`, `C31_accepts_nothing`, `C31_loses_a_key`, `C31_does_not_hold`, `C31_truncated_does_not_hold`, `C31_truncated_two_partial` | Proved: truncated data of a tree with at least one block never panics and never gives a usable tree that differs. The full statement fails: a line without a space panics, truncated data is accepted, and a tree with one key is loaded as an empty tree from truncated data.; also in every state of the executions with single accesses and words, with two updates or one delete at a time and no restriction of C09 (C31_truncated_two_partial) |
| C32 | WriteState reports writer errors | partial | `C32_returns_partial`, `C32_success`, `C32_reports`, `C32_terminates`, `C32_hangs`, `C32_does_not_hold` | Proved for trees of at most 33 blocks, and whenever at most 32 blocks are left at the failing write. The full statement fails: with more blocks left WriteState never returns (C32_hangs). |
| C33 | The structure does not depend on insertion order | proved | `C33_structure_is_order_independent`, `Run.serialInserts`, `C33_structure_two` | all results and statistics of Count for every prefix; insert-only executions that are calm, in particular all sequential ones; also in every state of the executions with single accesses and words in which at most two updates are under way and no delete is finalized (C33_structure_two) |
| C34 | Prefix violations are detected, not stored | partial | `C34_prefix_violations_panic_partial`, `C34_does_not_hold` | The full statement fails: after the race of C09 a key that extends a stored key is stored without a panic (C34_does_not_hold). Proved in every idle state of a calm execution, every stored key and every key comparable with it by prefix; the contents are unchanged up to the panic. |
| C35 | A new tree is usable as soon as NewTree returns | partial | `C35_operations_of_a_new_tree_partial`, `C35_does_not_hold` | The statement does not hold: Lookup on an empty tree before the block goroutine's first step panics (C35_does_not_hold). Proved: PrepareUpdate, PrepareDelete and later lookups do not panic; Lookup panics exactly in that case. |
| C36 | Index overhead is bounded by the number of keys | partial | `C36_fewer_nodes_than_keys_partial`, `C36_does_not_hold`, `C36_fewer_nodes_than_keys_two_partial` | proved without finalized deletes; refuted with deletes: a 256-slot node never goes away, after deleting all keys below it Count reports two nodes for one key; also in every state of the executions with single accesses and words in which at most two updates are under way and no delete is finalized (C36_fewer_nodes_than_keys_two_partial) |
| C37 | Iteration concurrent with updates | partial | `C37_first_calls_partial`, `C37_exactly_once_partial`, `C37_scan_partial`, `C37_does_not_hold` | calm executions: the first 257 calls of Next return exactly once every key stored all the time (order, soundness, completeness up to the last one); later scans are sound and sorted. The full statement is refuted: an iteration over 257 keys returns a value twice or panics |
| C38 | Portable prefix codec round-trips | proved | `C38_safe_codec_round_trip`, `C38_safe_codec_panics_on_spare_slot` |  |
| C39 | Counter statistics count each node once | partial | `C39_node_sizes_partial`, `C39_does_not_hold`, `C39_prefix_statistics_partial`, `C39_node_sizes_two_partial`, `C39_prefix_statistics_two_partial` | The full statement is refuted (a node is counted once for every return of the walk to it). Proved for calm executions: nodes <= sum of NodeSizes < 2 nodes, NodesWithPrefix at most that sum, and how the prefix statistics are related.; also in every state of the executions with single accesses and words, with two updates or one delete at a time and no restriction of C09 (C39_node_sizes_two_partial, C39_prefix_statistics_two_partial) |
| C40 | Locking several nodes rejects stale observations | partial | `C40_stale_generations_rejected_partial`, `C40_does_not_hold` | with shared lock words lockNodes3 does not compare all generations; proved for different lock words |
| C41 | Sequences of calls run to their end | proved | `C41_sequences_run_to_the_end`, `C41_result_is_determined`, `C41_short_sequences_run_to_the_end` | unbounded lists by induction; the exceptions in the statement are the two panics of C10; without exceptions for keys of at most nine bytes and up to 32768 calls |
| C42 | Count beside concurrent updates | partial | `C42_partial`, `C42_does_not_hold` | calm executions, every interleaving of loads, except that the result may be 1 for a non-empty prefix that no key has all the time; the full statement is refuted by Count("appx") with apple, april stored |
| C43 | MinKey and MaxKey beside concurrent updates | partial | `C43_min_partial`, `C43_max_partial`, `C43_does_not_hold` | calm executions, for calls that return a value while some other operation begun before is running; the full statement is refuted by MinKey("appx") |
| C44 | Progress | partial | `C44_lookup_wait_free`, `C44_lookup_step`, `C44_prepare_update_partial`, `C44_prepare_delete_partial`, `C44_update_alone_partial`, `C44_delete_alone_partial`, `C44_prepared_finishes_partial`, `C44_locking_can_cycle`, `C44_retry_for_ever`, `C44_does_not_hold` | lookups: no restriction; the rest for calm executions, with the panics of C10 excepted; the bound for preparing grows with the number of times the operation meets a lock held for a moment by another one that is just taking its locks (slip).  Without that the statement is false: two updates whose nodes and parents share lock words crosswise can retry for ever while no operation is prepared (C44_retry_for_ever, C44_does_not_hold; every access is a step, two updates and nothing else under way) |
| C45 | Every access to shared memory may be interleaved | partial | `C45_simulated_partial`, `C45_contents_partial`, `C45_lookup_answers_partial`, `C45_update_answers_partial`, `C45_delete_answers_partial`, `C45_effects_partial`, `C45_panics_partial`, `C45_locks_are_exclusive_partial`, `C45_does_not_hold` | proved in calm executions of Model/Fine, by a simulation: every such execution has a counterpart in Model/Sys with the same contents, phases and results; still one step there are building new nodes (the loads of the node copied included) and the end of Finalize after the locks are released; the full statement is refuted by the race of C09, access by access |
| C46 | A tree that holds few keys does not run out of memory | partial | `C46_does_not_hold`, `C46_merging_runs_out`, `C46_updates_take_no_memory_partial` | refuted: merging a node with its only child recycles the child but not the node (delete.go:285-297), so storing and deleting one key often enough beside two others ends in the panic for want of memory; proved for updates of stored keys, which take no memory |
| C47 | Two updates at a time do not get in each other's way | proved | `C47_two_updates_are_calm`, `C47_simulated`, `C47_contents`, `C47_lookup_answers`, `C47_update_answers`, `C47_delete_answers`, `C47_effects`, `C47_panics`, `C47_locks_are_exclusive`, `C47_three_updates_lose_one`, `C47_two_writers_partial` | one access to shared memory per step, except that Finalize builds its new nodes in one step and does its last part after the locks in one step (as in C45); C47_three_updates_lose_one shows that two is the limit; C47_two_writers_partial is an addition about a delete besides an update, which keeps some restrictions of Calm |
| C48 | Operations prepared side by side take effect if their calls do not overlap | partial | `C48_does_not_hold`, `lost_delete`, `C48_narrow_partial`, `C48_updates_partial` | false for the code: delete.go:158 prepares a delete in a 256-slot node without a lock, and its compare-and-swap succeeds in the old copy of the node (C48_does_not_hold, for two deletes without overlapping calls); C48_narrow_partial: true for key sets in which fewer than 128 bytes follow any beginning; C48_updates_partial: true without deletes |
| C49 | The memory suffices for millions of operations | partial | `C49_enough_partial`, `C49_memory_partial`, `C49_no_panic_partial` | proved for calm executions; C49_enough_partial for any bound on the length of keys; C49_no_panic_partial joins it with the list of panics of C10.  Missing: executions that are not calm (see Calm.lean) |
| C50 | No memory is lost | partial | `C50_no_memory_lost_partial`, `C50_does_not_hold` | C50_statement does not hold: a delete that merges two nodes never recycles the upper one (delete.go:285-297), shown with the keys aa, ab, b.  Proved for calm executions (see Calm.lean) in which every Finalize returns true and no delete merges two nodes |
| C51 | Memory is reused only when no operation can still read it, access by access | proved | `C51_reuse_waits`, `C51_pieces` | for the system of Model/Epoch, in which the tree is a list of nodes that operations replace at will; that an operation reads only nodes that were in the tree after it has stored its reservation is how the executions are set up, not proved (C24 proves it for calm executions of Model/Sys).  C51_pieces: without interruption the accesses are newNode and recycle of Model/Alloc |
| C52 | Admin("allocators") has all allocators to itself while it prints, and returns | partial | `C52_prints_alone_partial`, `C52_returns_partial`, `C52_does_not_hold` | for executions in which only the goroutine that stopped the tree starts it (as C28); a single call returns.  In full false: two calls at the same time with two allocators wait for each other for ever |
| C53 | The debug commands show the stored keys | partial | `C53_prints_partial`, `C53_finds_partial`, `C53_empty`, `C53_lookup_partial`, `C53_panics`, `C53_clamped`, `C53_does_not_hold`, `C53_prints_two`, `C53_finds_two` | in calm executions what is printed is right, and the number printed leads to the node or leaf if it is below 2^63.  In full false: the number 2^43 makes the command panic in every state (admin.go:96 `>` for `>=`), and every number from 2^63 (256-slot nodes, values from 2^54) prints a leaf that does not exist, because the error of strconv.Atoi is ignored; C53_prints_two and C53_finds_two without the restriction of C09, for single accesses and words, with two updates or one delete at a time |
| C54 | Stats reports the number of stored keys and of blocks | partial | `C54_objects_partial`, `C54_flushed_partial`, `C54_blocks_partial`, `C54_blocks_before`, `C54_table`, `C54_does_not_hold`, `C54_objects_two` | objects_approx is exact if every allocator has flushed its counter since its last operation, and differs by the counters otherwise; blocks_allocated is exact once the first block of the goroutine exists, and one too large before.  In full false for these two reasons |
| C55 | Close ends the block goroutine and leaves no operation waiting for memory | partial | `C55_close_partial`, `C55_returns_partial`, `C55_gone`, `C55_hangs`, `C55_twice`, `C55_restart`, `C55_does_not_hold` | for executions in which calls of Stop, Start, Len and Close do not overlap and Close is called once.  In full false: while another Stop waits, Close returns at once and an operation under way then waits for a block for ever (C55_hangs); a second Close panics (C55_twice).  When the tree is started again after Close, the first operation that needs a block never returns (C55_restart) |
| C56 | With one writer at a time no operation has to be repeated | partial | `C56_update_partial`, `C56_delete_partial`, `C56_step_update_partial`, `C56_step_delete_partial`, `C56_finalize_partial`, `C56_needs_one_writer` | with two exceptions contained in OneWriter: lookups and walks begin when there is a block (C35), and the locks that Abort of a delete releases are its own (C08).  Finalize may panic for the reasons of C10; if it does not, it returns true.  With two writers operations do start again (C56_needs_one_writer) |
| C57 | WriteState returns the number of bytes written | partial | `C57_no_error_partial`, `C57_error_partial`, `C57_succeeds`, `C57_header_not_counted`, `C57_section_not_counted`, `C57_does_not_hold` | the count is exact if there is no error, and never too large.  In full false: with an error it may be too small: what a failing call has written is not counted in the header and the blocks (C57_header_not_counted), nor what an earlier call has written of the same allocator's section (C57_section_not_counted).  Error if and only if a Write failed, and the data being a beginning of the complete data, are proved without restriction, for calls that return (C32) |
| C58 | The 32-bit generations do not wrap around unnoticed | partial | `C58_same_executions_partial`, `C58_stale_value`, `C58_does_not_hold` | proved, as an equivalence, for executions in which fewer than 2^31 updates and deletes have been prepared; with the steps of Model/Sys.  In full false: with little more than 2^31 prepared operations PrepareUpdate can return a value that has been replaced (C58_stale_value) |
| C59 | Keys of any length can be inserted | partial | `C59_fits_partial`, `C59_limit`, `C59_overwrites`, `C59_does_not_hold` | no panic (except for want of blocks) proved for keys shorter than 2,000,000 bytes.  In full false: the second of two keys with at least 2,097,121 bytes in common cannot be inserted into a new tree, with less it can (C59_limit); before the panic bytes of the key are written behind the end of the block (C59_overwrites).  The limit for nodes that have more children or are in other blocks is not worked out |
| C60 | Copying a node while others write does not tear it | partial | `C60_copied_at_once_partial`, `C60_words_stay_partial`, `C60_contents_partial`, `C60_steps_partial`, `C60_panics_partial`, `C60_narrow_partial`, `C60_does_not_hold` | false in full (C60_does_not_hold): a deleteLeaf256, which takes no lock, clears a word that another Finalize has loaded and not yet stored into its copy; the deleted key is back when the copy is published.  Proved with the restriction of C45 and without such a deleteLeaf256 (TCalm), and in full for key sets in which fewer than 128 bytes follow any beginning (C60_narrow_partial) |
| C61 | What uninterrupted steps can do, single accesses can do | proved | `C61_single_accesses`, `C61_calm`, `C61_calm_at_rest`, `C61_two_updates`, `C61_lost_delete` | for the executions of Model/Sys without the steps slip; a slip stands for what an operation reads of locks that another one holds in the middle of such a step, so it is an artefact of the larger steps.  C61_calm adds that the restriction of C09 becomes the one of C45, C61_two_updates that the one of C47 remains, and C61_calm_at_rest is the converse for states in which no operation is in the middle of such a step |
| C62 | Two updates at a time are safe down to the single words copied | proved | `C62_copied_at_once`, `C62_words_stay`, `C62_contents`, `C62_lookup_answers`, `C62_update_answers`, `C62_delete_answers`, `C62_effects`, `C62_panics` | C47 with the steps of C60: nothing is assumed but the bound on the operations under way (lookups and walks begin when there is a block, see C35, and a merge of the root with its child is not aborted, see C08) |
| C63 | Readers beside two updates or one delete are right, access by access | proved | `C63_count`, `C63_min`, `C63_max`, `C63_first_calls`, `C63_exactly_once`, `C63_count_loads`, `C63_ends_loads`, `C63_next_loads`, `C63_copied_at_once`, `C63_iterators_copied_at_once` | C24, C25, C37, C42 and C43 with the steps of C47, where nothing is assumed but the bound on the operations under way (lookups and walks begin when there is a block, see C35, and a merge of the root with its child is not aborted, see C08). The exceptions named in the statement are those of C37, C42 and C43; a reader that does not end within the model's bound on iterations is not said to return anything. MinKey and MaxKey reserve no epoch of their own, so they are considered while an operation of some allocator runs (see C25). The last two theorems extend this to the system of C62, in which the words that Finalize copies are loaded one at a time |
| C64 | Readers beside any number of writers are right, access by access | partial | `C64_count_partial`, `C64_min_partial`, `C64_max_partial`, `C64_count_loads_partial`, `C64_ends_loads_partial`, `C64_next_loads_partial`, `C64_first_calls_partial`, `C64_exactly_once_partial`, `C64_does_not_hold` | false in full (C64_does_not_hold): after the race of C09 a Count misses a key that is stored all the time. Proved in the executions of C60 in which the races do not show (TCalm), for any number of operations under way; the case of two updates or one delete is C63, without any restriction of this kind. A reader that does not end within the model's bound on iterations is not said to return anything |
| C65 | debugSearch returns what Lookup finds and prints the way to it | proved | `C65_agrees`, `C65_returns`, `C65_trail`, `C65_stored`, `C65_stored_two`, `C65_returns_two` | the output is modelled as data (which words are printed, in which order), as in C53; the state does not change during the call. Proved for all executions in which the races of C09 do not show (Calm), of which operations run one after the other are a special case; C65_stored_two and C65_returns_two for single accesses and words, with two updates or one delete at a time |
| C66 | isLocked tells whether an operation holds the lock of a node | partial | `C66_isLocked_partial`, `C66_isLocked_two`, `C66_returns`, `C66_does_not_hold` | false in full (C66_does_not_hold): after Abort of a delete has released the lock of an update (C07, C08), isLocked of the node that the update has locked returns false. Proved for executions of whole lock attempts without such an abort, any number of operations, and access by access (a lock that a failed attempt is about to give back counts as held) for two updates or one delete at a time |
| C67 | slots.available is between the allocators free all the time and those free at some time | proved | `C67_available`, `C67_available_alone`, `C67_returns`, `C67_available_is_not_a_snapshot` | while Stop, Start and Len are not called. C67_available_is_not_a_snapshot: the result can be 0 though an allocator was available at every time of the call, so that more than the bounds cannot be said |
| C68 | unused is the number of free bytes in the block an allocator fills | partial | `C68_bounds_partial`, `C68_room_partial`, `C68_room_block_0`, `C68_free_partial`, `C68_draw`, `C68_does_not_hold`, `C68_room_two`, `C68_free_two` | false in full (C68_does_not_hold): in block 0, whose first 8 bytes are left out, unused is 8 more than the number of bytes to the end of the block (C68_room_block_0). In other blocks it is that number (C68_room_partial). That the bytes are free is shown for all but the last 8 of them (C68_free_partial), which this allocator never gives out (in block 0 they are the first 8 of block 1). All but C68_draw for executions in which the races of C09 do not show (Calm); C68_room_two and C68_free_two for single accesses and words, with two updates or one delete at a time |

## 5. Findings

Defects of the code that the proofs ran into, with the theorem that shows the consequence where there is one.

1. `update.go:155`, `delete.go:118`: the check that the parent's generation is unchanged does not test whether it is odd, that is, locked.  Three concurrent
   inserts can lose a key, and a reachable node is recycled (`C09_does_not_hold`, `C23_does_not_hold`; consequences: C04, C05, C06, C13, C19, C34).
2. `delete.go:344`: `Abort` of a merge passes parent, node, child to `unlockNodes3` in the wrong order.  At the root it panics, or releases the lock word
   (0,0) of somebody else (`C08_does_not_hold`, `C07_does_not_hold`).
3. `allocator.go:180-193`: recycling a node of 258 slots (for example a 256-slot node with a prefix of 9 to 16 bytes) indexes the free lists out of range, because the test is `>` instead of `>=` (`C10_does_not_hold`).
4. `delete.go:158`: deleting a leaf of a 256-slot node takes no lock; the slot may belong to a node that has been replaced, or that another
   `Finalize` has copied (`nodePrefixMiss`, `replaceNodeWithNode` with 256 slots) and not yet replaced: the delete returns true and the key reappears with the
   copy (excluded by `Calm`).  It does not even need calls that overlap (`C48_does_not_hold`).
5. `locks.go:59,66`: with shared lock words the generations of node and parent are not compared (`C40_does_not_hold`).
6. `radix.go:182-196`: `NewTree` returns before the block goroutine has created block 0; `Lookup` then panics (`C35_does_not_hold`).
7. `iterator.go:233-262`: `storeResumePosition` reads one slot past the node when every entry of the stack is exhausted; an iteration over more than 256 keys
   panics or starts again (`C14_does_not_hold`, `C37_does_not_hold`).
8. `iterator.go`: when the tree has shrunk to a single leaf at a later fetch, `Next` sets `pp` to 0 but keeps the old values; when the byte to resume at is
   gone, the scan of that node begins at its first child.
9. `radix.go:314-395`: `partialSearch` returns a leaf when its branching byte fits, without comparing the rest of its key with the search prefix; `Count`, `MinKey`, `MaxKey` and iterators
   return keys without the prefix if no key has it (`C15`–`C18`, `C42`, `C43_does_not_hold`).
10. 256-slot nodes never shrink and stay when empty: `MinKey(nil)` and `MaxKey(nil)` report an empty tree although keys are stored
    (`C16_min_key_misses_a_stored_key`, `C17_max_key_misses_a_stored_key`), and there can be more nodes than keys (`C36_does_not_hold`).
11. `MinKey` and `MaxKey` reserve no epoch; the memory they read can be handed out again (`C25_does_not_hold`).
12. `Count` counts a node in its statistics each time the walk comes back to it (`C39_does_not_hold`).
13. `Lookup` documents that a candidate shares a prefix with the key; prefixes of nodes are skipped, so it need not (`C03_does_not_hold`).
14. `Len` uses `Stop`/`Start`: while another `Stop` waits it releases allocators in use; on a stopped tree it restarts it; a second `Stop` returns at once
    (`C28_does_not_hold`, `C28_len_restarts`, `C28_second_stop`).
15. `state.go`: counters that are not flushed are lost (`C30_does_not_hold`); the last block is lost if the block goroutine is behind
    (`C29_does_not_hold`); truncated data is accepted, other data makes the loader panic (`C31_*`); a failing writer makes `WriteState` hang if more than
    32 blocks are left (`C32_hangs`).
16. `delete.go:285-297`, `replaceNodeWithNode`: the two-child node that is removed is not recycled; storing and deleting one key again and again ends with
    the panic for want of memory (`C46_merging_runs_out`).
17. `locks.go:52-78`: two goroutines whose nodes share lock words the other way round can make each other's `lockNodes2` fail again and again
    (`C44_locking_can_cycle`); nothing is lost, both retry.  Such trees exist, and no operation needs to be prepared in all that time
    (`C44_retry_for_ever`).
18. `admin.go:31-45`: `Admin("allocators")` withdraws all allocators without the flag that `Stop` uses; two such calls can wait for each other for ever
    (`C52_does_not_hold`).
19. `admin.go:96`: `>` instead of `>=`; `Admin("node", "8796093022208")` panics in every state (`C53_panics`), and so does the number of a node in a block
    that does not exist.
20. `admin.go:77`: the error of `strconv.Atoi` is ignored; for every number from 2^63, which is what is printed for 256-slot nodes and values from 2^54, a
    leaf that does not exist is printed (`C53_clamped`).
21. `stats.go:10`: before the block goroutine has run, one block too many is reported (`C54_blocks_before`).
22. `radix.go:171-174`: `Close` returns at once if another `Stop` is waiting; operations under way can then wait for a block for ever (`C55_hangs`).  A second
    `Close` closes a closed channel (`C55_twice`).
23. `state.go:25, 74, 82`, `allocator.go:341, 359, 367`: with an error, `WriteState` returns too small a number of bytes (`C57_does_not_hold`).
24. `locks.go:34-172`: the generations have 32 bits.  An operation interrupted between reading a node and locking it, while 2^31 other operations lock this node,
    does not notice that the node has changed (`C58_stale_value`).
25. `unsafe.go:26`, `radix.go:226-242`: if two keys have more in common than fits into a block, `storePrefix` writes behind the end of the block (`memmove` is not
    checked), and then `Finalize` panics with the lock held (`C59_limit`, `C59_overwrites`).

