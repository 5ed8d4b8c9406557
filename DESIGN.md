# CandyStore in Lean 4: design

## Trusted base
* Lean 4.33.0's kernel, and the axioms `propext`, `Classical.choice`, `Quot.sound` (per-theorem list: section
  "Axioms", regenerated by `tools/axioms.sh`). No axioms of our own, no `native_decide`, no `bv_decide`.
* The reading of the Rust source: every definition in `lean/Verif/Model` cites the file and lines it models.
  The Rust code is not executed or extracted.

## Layers
1. `Model/Bytes, Hashing` - byte strings, little-endian u64 encoding, `PartedHash` (bit-exact, on `BitVec`),
   with SipHash an arbitrary function parameter `hash : Bytes -> u64 x u64` (so all theorems hold for every seed and
   for arbitrarily colliding hashes).
2. `Model/Shard` - `MmapFile`/`Shard`: 64 rows x 512 slots of (signature, packed descriptor), a byte-addressed data area,
   header counters; lookup loops, `read_kv`, `write_kv`, `try_replace`, `insert`, `remove`, `get`, `get_by_hash`, `read_at`,
   two-file state during compaction, one compaction step per row, `split`, `merge`.
3. `Model/Router` - the shard tree, routing, the insert/split retry loop (with fuel: running out of fuel = divergence),
   `calc_step`, `create_initial_shards`, `treeify`, `consolidate_ranges`, `_merge` (with the set of locks held: re-locking =
   deadlock), `merge_small_shards`, `clear`.
4. `Model/Dir` - the directory: a map from file names to file contents; `load`/`Shard::open` recovery; the
   file-system-level traces of split/compaction/merge, so that "crash" = stop after any prefix.
5. `Model/Prog` - the list, queue and big-value code as programs over the raw operations
   (get_raw, insert_internal, remove_raw, get_by_hash); the same program text is given a
   sequential meaning on the concrete store, an abstract meaning on a map, a crash meaning (stop after any raw operation) and a
   concurrent meaning (interleave raw operations of several threads).
6. `Model/Store, Lists, Queues, Typed, Stats, Flush`.
7. `Spec` - the specifications used in the property statements: an ideal map, an insertion-ordered association list,
   a deque of (index,value), nothing else.
8. `Props` - one file per group of properties with only the final theorems, each with an `example` showing the
   hypotheses are met by a concrete non-trivial case.

The main invariant `Router.Inv` (spans tile the selector space, each live slot holds a key of the right row/signature/span,
distinct keys, offsets below the write offset) is preserved by every step; the abstraction of a store is the set of its
live pairs; each raw operation commutes with the corresponding map operation. Lists/queues are then proved on the abstract
map by weakest preconditions and transferred to the concrete store by a generic theorem about programs.

## Modelled / not modelled
Modelled (each definition cites the lines):
* `hashing.rs`: `PartedHash`, bit layout, `from_hash`. SipHash itself is an arbitrary function (all theorems hold for every function).
* `shard.rs`: header counters, rows, descriptors, `read_kv`/`write_kv`, `Shard::open`, compaction, `split`, `merge`, `get`,
  `get_by_hash`, `read_at`, `try_replace`, `insert`, `remove`, `operate_on_row`, flush aggregation, `flush`, `get_stats`, `Drop`.
* `router.rs`: everything. `store.rs`: everything (sizes, namespaces, iterator, big values, stats). `lists.rs`, `queues.rs`,
  `typed.rs`: all public functions. `stats.rs`: `CyclicArr`, counters; not the formatting.

Simplifications:
* SipHash arbitrary; the `databuf` codec arbitrary with `decode (encode x) = x` assumed where stated (C37).
* `calc_step`'s `f64` is exact division; `max_fill_level` (`f32`) is given as the number of entries it stands for (at most 14745 =
  the check `0 < max_fill_level < 0.5`); the list-compaction hole ratio is an arbitrary predicate on the counters.
* File offsets are 32-bit fields: states in which a file is beyond 4 GiB are excluded by the hypothesis `Tree.Small` (`Dir.Sized` on
  the directory). `C01_budget` discharges it from a bound on the bytes written.
* Shards of empty span (a shard covering one selector value was split) are excluded from reopening and crashing (`s.lo < s.hi`); what
  happens then is `C10_refuted_width_one`.
* A raw operation is one step of a concurrent execution in `Model/Conc`; in `Model/Fine` (C62, C63) every load, store, `fetch_add` and byte of
  data is a step, and the node guards, file guards and row locks are taken and dropped explicitly. There a split, the beginning of a compaction and the
  final swap of the files are one step each (they hold the write guard), and memory is sequentially consistent. In the coarse model a background step copies one row. At a crash, the partial trace of the
  foreground operation comes before that of the background threads. The two copy loops of `split` are listed one after the other.
* A crash inside a concurrent period (`Model/FineCrash`, `Lives.died`, C65) happens between two memory accesses; `begin_compaction` and `split`, one step each in `Model/Fine`, may
  be cut off anywhere inside. The bytes of one data write reach the file in order there (in sequential crashes: in any order). Coarse concurrent periods (`Lives.conc`) end without a crash.
* `PowerLoss` (C45): metadata operations (create, rename, remove) are durable at once; unsynced data arbitrary.
* C46: sequentially consistent memory, except for the relaxed load in `C46_refuted_stale_load`.
* Overflow checks as in a debug build (C55). Using up the 2^63 indices of a list or queue is a separate outcome (`Res.exhausted`).
* `clear` concurrent with other calls (`Model/Clear`, C73): raw operations are single steps, the exchange of the tree is one step. An insertion that found its shard full before the exchange starts anew. C74: the listing of the directory is one step.
* An iterator is only continued from a cookie of the same store layout, except in C87 (any number, any store). There, what the calls of `next` find while
  other threads modify the store is arbitrary, which allows more than the program can do.

Not modelled: `mlock`, preallocation (`truncate_up`) other than the file length, the `whitebox_testing` feature, the file lock except in C86, the thread pool except in C84 (elsewhere a
background compaction may make its steps at any time), timing statistics and `Display`, I/O errors (except in C76, C77, C78 and failing syncs in C46),
out-of-memory, the weak memory model.

## Axioms
`tools/axioms.sh` prints them for every theorem in MANIFEST.json. All use at most `propext`, `Classical.choice` and `Quot.sound`:
* **no axioms** (1): C35_as_pushes
* **propext** (3): C46_refuted_stale_load, C46_refuted_deadlock, C86_close_completes
* **propext, Quot.sound** (14): C10_refuted_width_one, C37_types_apart, C37_list_keys_apart, C46_synced_partial, C46_refuted_compaction, C46_refuted_failed_sync, C46_progress_partial, C47_lock_exists, C47_number_of_locks, C49_refuted, C50_refuted_magic, C50_refuted_presplit, C50_refuted_half, C84_refuted_zero
* **propext, Classical.choice, Quot.sound** (242): C01_store_is_a_map, C01_budget, C01_get, C01_contains, C02_set, C03_replace, C04_get_or_create, C05_remove, C06_collisions, C07_split_transparent, C07_insert_keeps_others, C08_compaction_step_invisible, C08_same_answers, C08_compaction_finishes, C09_merge_keeps_contents_partial, C09_merge_flag, C09_merge_completes_partial, C09_refuted, C10_files_of_new_store, C10_files_follow, C10_reopen_partial, C11_kv_crash, C11_typed_crash, C11_other_crash, C11_opens, C12_background_crash, C12_split_crash, C13_recovery_is_idempotent, C13_recovery_is_crash_safe, C13_open_twice, C14_iter_exact, C14_iter_raw_exact, C15_resume_partial, C15_refuted, C16_refuted, C16_only_present, C16_present_partial, C16_untouched_partial, C16_refuted_twice, C17_limits, C18_kv, C18_typed, C18_queue, C18_list, C19_set_returns_partial, C19_refuted, C20_stats_exact, C21_list_is_an_ordered_map, C21_before_after, C21_set, C21_remove, C21_get, C22_pop, C22_peek, C22_reverse, C23_len, C24_compact, C25_refuted, C25_refuted_accepts, C25_replace_partial, C26_promote_partial, C26_status_refuted, C27_lists_isolated, C27_refuted_on_collision, C28_discard, C28_flag_refuted, C29_set_crash, C29_other_lists, C30_refuted, C30_remove_crash_partial, C31_refuted_list, C31_refuted_promoting, C31_refuted_queue, C31_failed_list_partial, C32_queue_is_a_deque, C32_before_after, C32_push, C32_pop, C32_peek, C32_reverse, C32_discard, C33_remove_partial, C33_refuted, C34_refuted, C34_len_range_partial, C35_extend, C36_big_partial, C36_refuted_empty, C36_remove, C37_typed_store, C37_typed_list, C37_typed_queue, C37_typed_big, C38_serializable_partial, C38_refuted_promoting, C39_refuted, C40_ranges_partition, C41_round_trip, C41_names_differ, C41_leftovers, C41_listing, C41_clear_takes, C41_clear_spares, C42_consolidate, C43_signature_valid, C44_read_back_partial, C45_flush_partial, C45_refuted, C45_refuted_later_compaction, C47_all_locks_used, C48_last_events, C49_presplit_partial, C50_create_partial, C50_clear_partial, C51_clear, C51_clear_files, C52_merge_partial, C52_refuted, C53_refuted, C54_refuted, C55_shards, C55_stats_merge, C55_kv, C55_list, C55_queue_partial, C55_refuted, C55_refuted_remove, C55_refuted_clash, C56_push_crash, C56_pop_crash, C56_extend_crash, C56_discard_crash, C56_other_queues, C57_refuted, C57_set_big_crash_partial, C58_other_options, C59_refuted_compact, C59_refuted_promoting, C59_refuted_discard, C59_compact_crash_partial, C59_promoting_crash_partial, C59_discard_crash_partial, C60_hash_layout, C60_all_rows_used, C61_write_counters, C62_memory_serializable_partial, C62_no_panic, C63_no_deadlock, C64_stats_exact, C64_iter_exact, C65_crash_keeps_map, C65_opens, C65_durable_linearizable_partial, C66_present_item_is_read, C66_refuted_discard, C67_no_panic, C67_no_panic_sequential, C68_serializable_in_parts, C69_handed_out_once, C70_no_value_from_nowhere, C70_big_pieces, C70_sequential, C71_iteration_complete, C71_big_complete, C71_peek_complete, C71_pop_complete, C71_range_complete, C72_iteration_complete, C72_peek_complete, C72_pop_complete, C72_get_complete, C72_refuted_compaction, C73_clear_partial, C73_clear_kv, C73_refuted_list, C74_clear_files_partial, C74_refuted, C75_files_stay_small, C75_file_size, C75_store_is_a_map, C75_refuted, C76_failed_calls_dir, C76_failed_calls_dir_world, C76_always_opens, C76_steps_run, C76_failed_calls, C76_failed_calls_world, C76_failed_set, C76_failed_remove, C76_failed_get, C76_reopens, C76_remains, C76_refuted, C77_failed_compactions_partial, C77_failed_compactions_world_partial, C77_failure_changes_nothing, C77_refuted_reopen, C77_refuted_merge, C77_split_elsewhere, C78_failed_merges_partial, C78_failed_merges_world_partial, C78_failed_merge, C78_old_or_current, C78_refuted, C79_settings_may_change, C79_settings_may_change_world, C79_reopen, C79_seed_refuted, C80_register, C80_one_creator, C80_no_lost_update, C80_mutual_exclusion, C81_counters, C81_total, C82_data_bytes_partial, C82_refuted_underflow, C82_refuted_overcount, C83_open_partial, C83_operations_partial, C83_clear_partial, C83_refuted_panic, C83_refuted_duplicate, C83_refuted_deletes, C83_refuted_clear, C84_no_panic, C84_history, C84_dead, C84_one_at_a_time, C84_progress, C84_finishes, C84_zero_never, C84_example, C85_advice, C85_merge_leaves_enough, C85_refuted_advice, C86_one_store_at_a_time, C86_refused_only_if_open, C86_lock_file_stays, C87_any_cookie_partial, C87_refuted, C87_library_cookies, C87_no_panic_while_changing


## Plan per property
| id | what is modelled and how it is proved |
|---|---|
| C01 | `Model/Store`, `Shard`, `Router`, `History`. Every reachable state satisfies `Tree.Inv`; its live pairs are a map; induction over the history (calls, background steps between any two raw operations, merge, clear, reopen, crash) shows each answer is that of the ideal map `Spec.Map`. `C01_budget` replaces "files below 4 GiB" by a bound on the bytes written. |
| C02, C03, C04, C05 | one call from any reachable state, previous value and final contents both stated; corollaries of the refinement. |
| C06 | corollary; the hash function is a universally quantified parameter, so all collisions are covered. |
| C07 | `Shard.split` (both copy loops, renames) on an arbitrary invariant shard; live pairs of the halves = partition of the old ones; also through `insert` with any number of splits. |
| C08 | each compaction step (one row, or the final rename) is a separate step of a history; the `activeFile` invariant shows it changes nothing observable; progress and end state. |
| C09 | `_merge` with the set of locks held (re-locking = deadlock): content preservation, meaning of the flag, completion on shallow trees; refutation (self-deadlock). |
| C10 | directory = map of file names to contents; `load`/`Shard::open` modelled; reopening any state gives the same contents; refutation for width-1 shards. |
| C11, C12, C13 | every raw operation, split, compaction, merge and recovery is also given as its list of primitive stores / file operations; "crash" = any prefix (`Dir.Crash`); `Recoverable d m` is an invariant of all prefixes. |
| C14, C15, C16 | iterator as a state machine over (selector, row, column); exactness by induction; resuming; refutations. C16 positively (`Model/IterConc`): the single slot reads of the iteration alternate with the raw operations of other threads and with compaction steps (`IterRun`); invariant: the iterator is before or behind the entry's position, which no step moves but a split of its shard or the copying of its row; soundness without restriction. |
| C17 | case analysis of the size checks, and no effect. |
| C18, C27 | key name spaces are disjoint; every program only touches keys of its own name space (`Footprint`). |
| C19 | termination measure (width of the span) under a crowding bound; divergence for every fuel proved for 513 equal hashes. |
| C20, C61 | counter invariant per file, sum over the tree; write counters over the list of writes. |
| C21-C24, C26, C28 | weakest-precondition proofs of the list programs against an insertion-ordered association list (`Spec.OList`), on the abstract map, transferred to the store by `CExec.sim`. |
| C25 | refutation by two histories; what holds. |
| C29, C30, C59 | crash semantics of programs (stop after any raw operation, plus a prefix of the next one's stores) on top of C11-C13. |
| C31 | refutations; what a failing list call leaves alone. |
| C32-C36 | wp proofs of the queue programs against a deque of (index, value); refutations. |
| C37 | typed wrappers over an arbitrary faithful codec, histories as for C21/C32. |
| C38, C39, C53, C54 | interleaving semantics of programs (`Model/Conc`); linearizability by commuting raw operations under the keyed locks; refutations by explicit schedules, with proof that no sequential order explains them. |
| C62 | `Model/Fine`: programs over single memory accesses. Rely/guarantee (`Proofs/FineSafe`): what the other actors may do while an actor holds its row lock, which regions of the data area are reserved but not published; every raw operation and the row copy of a compaction are safe against it (`FineOps`); each has one access at which it takes effect; simulation by the abstract interleaving semantics of C38 (`FineSim`, `FineStep`). |
| C63 | `Proofs/FineLive`: no program takes a lock while holding one; case analysis along the lock order (row, files, node, keyed lock); assertions excluded by C62's invariant. |
| C64 | ledger (`Proofs/FineBal`): the surplus of each header counter over the contents of its file equals the sum of what the actors at work on the shard have not settled; each access moves the surplus and the actor's account together (`Safe`), an actor leaves with account zero. At the end of a period the tree is well-formed with exact counters, so that sequential periods, reopening, crashes and further concurrent periods can follow (`Lives.fine`). |
| C65 | at every moment of a fine-grained period the files of each shard can be opened (`Sim.rok`: from the invariant of C62 and the ledger of C64) and hold the abstract map; a cut-off `begin_compaction` or `split` only touches the names of its own shard's range, so that the recovery arguments of C11/C12 apply shard by shard and are glued together (`Proofs/CrashLocal`, `FineCrash`); unfinished calls in a critical section commute with everything else (`CInv.crash`). |
| C66 | `get_from_list` is one raw read without the lock of the list, so the serial order must place it in the middle of another thread's critical section: each critical section changes each item at most once and in one raw step (`Proofs/Once`), so the invariant of C38 keeps for every list being read the map of items as of this step (`agreeW` in `Proofs/AConc`). The item a reader sees is then the one of the serial order, and C66 follows from the ideal list. |
| C67 | Per-key invariants (`Proofs/Typing`): every program writes under each raw key only values of the right form (list and queue records have 24 bytes, items at least 8, chain entries are encoded hashes), provided it reads only such values; no lock is needed for this, so it holds for every interleaving, every crash and clashing hashes (`Proofs/Shape`). The programs then reach `panic` only where a subtraction underflows. |
| C68 | `Spec/Parts`: the parts of each call (`Does`), histories in parts (`Splits`, `LifeInParts`). `Proofs/Parts`: the program of each call is a sequence of programs of its parts (`Plan`, by recursion over the program); what is read between parts under no lock changes nothing and, on a quiet list, is a `get_from_list`. `Proofs/PartsSim`: an execution of calls is, step by step, an execution of their parts; the parts are serial calls, so C38's linearization applies (`Proofs/PartsLife`). |
| C69 | From C68: each call that returns the item contains a successful `remove_from_list` part of it (counting over the history, `splits_takes`, `lin_count`), and the ideal list allows at most one such removal. |
| C70 | Typing of raw entries (`Proofs/Typing`): every raw value consists of a value that a begun call gave to the object, plus bookkeeping (`OT`); every program keeps this and returns only such values (`otypes_call`); single raw operations suffice, no locks are needed, so it holds for all interleavings. Causality: applied to the part of the history before the return. Specification: `Spec/Origin` (`Gives`, `Returns`, `Alike`). |
| C71 | Typing of raw entries that mentions the staying elements (`QT`: the record covers their indices, their entries have their values), in the form that may be broken once a certain answer is inevitable (`Proofs/Doom`: `Prog.TD`): a pop that removes the entry of a staying element can only return it (or fail), which the hypothesis `StaysQ` excludes. Every other call keeps it (`qtd_call`; calls elsewhere by their footprint); iteration, peek and range read only permitted entries, so they see every staying element. `Spec/Stay` states what staying means. |
| C72 | As C71, with a typing of the raw entries that mentions the staying items (`LT`: the record covers their indices, the chain entry of each leads to its hash, its entry ends with its index and has a permitted value, and no other item's entry ends with that index), kept by every call but compaction (`ltd_call`); initially it holds because the list is represented as in the sequential proofs (`LRep`, obtained for any concurrent life from C68). For `get_from_list` a weaker typing (`KT`, `Proofs/ListKeep`) that compaction keeps too. `C72_refuted_compaction`: with a compaction in the middle an iteration misses an item, by a concrete interleaving of memory accesses. |
| C73 | `Model/Clear`: the concurrent executions of C38 in which, between two raw operations (write guard of the root), the tree is exchanged for a new one. The invariant of C38 (`CInv`) holds for the empty world again if no call is in a critical section (`CInv.clear`); calls of the map hold no locks. `C73_refuted_list`: a schedule, with all its possible linearizations excluded. |
| C74 | `Model/ClearFiles`: the file operations of `clear` interleaved with the stores and the rename of compactions. Invariant: the names still to be deleted are there unless a compaction has renamed its file (`ClearFiles.missing`, `.deletes`). `C74_refuted`: a concrete store and interleaving, after which `treeify` panics. |
| C75 | `Model/Quota`: histories without any condition on the size of files, with a count of the bytes inserted into each shard since its running compaction began. Invariant `LeafB`: a quiet file is at most max(`max_shard_size`, live bytes + quota), a source adds a pair and the count, target plus rest to be copied is at most live bytes + count; live bytes are bounded by the number of slots times the largest pair. So `QRun` implies `Run` with `Tree.Small` everywhere. `C75_refuted` by induction over 65791 insertions (`Swollen`). |
| C76 | `Model/Errors`: `InsFails`/`OpFails`/`CallFails` (a call ends at a failing system call), `LeftDir` (directories with remains of failed operations), `ERun` (histories with failed calls). Each failed raw operation is one that was done or not done (`OpFails.sim`), so a history with failures refines the ideal store with `crash` in place of `failed`; `LeftDir.recov` shows that remains do not matter for recovery, `LeftDir.split`/`LeftDir.begin` that failing operations leave only such remains. `Model/ErrorDir` (`DRun`) follows the directory: every operation runs on what failed operations left. `Proofs/Litter*`: the directory is that of the shards, plus litter (temporary files, shard files inside a larger live shard, compact files without contents or not of a shard); every operation keeps it so at every step, and recovery deletes or ignores it (`DReachable.inv`). |
| C77 | `Model/BgError`: `Shard.BgFails` (a compaction ends at a failing system call, possibly in the middle of a row), `BState` (tree, the dead shards with what was left in their target files, undelivered errors), `BRun`. A dead shard still looks up rows below `compacted_up_to` in the new file and the others in the old one. Proved by simulation: scrubbing the half-copied row from the target commutes with every operation, and the scrubbed store is an ordinary store whose compaction never makes another step. The two false parts are refuted by evaluated executions. |
| C78 | `Model/MergeError`: `MergeFails` (the merge is cut off at any point, or the loading after it; the old tree stays in memory), `MRun`, `Follow` (how the directory follows writes of the open store: only files that still have their names change). The directory left is one from which recovery gives the old contents (`MergeCrashDir.recov`, `Recov.openStore`); for later writes, recovery takes for each shard either its own file (current) or a merged one (old). The false part is refuted by an evaluated execution. |
| C79 | `Model/Retune`: `Retuned` (same hash, the limits change), `VRun` (a history of segments, each under its configuration, joined by reopenings and crash recoveries under the next one). The representation invariants (`Tree.OK`, `Recov`, `MAbs`) mention the configuration only through the hash function and the size check, so they hold for the next configuration (`Retuned.treeOK`, `.recov`, `.abs`). Changing the seed is refuted by an evaluated execution. |
| C80 | `Spec/Cell`: a key as a register (`Cell`, `Register`). `Proofs/Cell`: direct induction over concurrent executions on the abstract map, following the calls on one key only: such a call makes one raw operation on its key (`OneOp`), and no other call touches it (`within_call`), so that non-atomic calls of other threads do not matter. `C80_register` (per-key linearizability with exact first and last values) by the simulation of the fine-grained executions; then `C80_one_creator`, `C80_no_lost_update` (for any `f`), `C80_mutual_exclusion` by inductions over the sequential explanation, counting returned calls. |
| C81 | `Model/Counters`: the increments of each raw operation (over all attempts of an insertion that splits), `CountRun` (an open store: concurrent calls as in `ConcRun`, merges, clears, with the counters). `Spec/Activity` reads off hits, misses and updates from the answers alone. Each key-value call makes one raw operation whose increments its answer tells (`kv_step`); sum over threads and trace. `C81_total`: every `ConcRun` has counters. |
| C82 | On `Reachable` (Model/Crash): sum over the shards of the accounting with slack (`Shard.AcctInv false`: live + wasted bytes ≤ write offset), which recovery re-establishes. The number of entries is refuted by two evaluated executions, each cut off between two stores of one call (`C82_refuted_underflow`, `C82_refuted_overcount`); `ShardStats.underflow` models the unchecked subtraction of shard.rs:332-334, at which `Tree.mergeSmall` panics; `Tree.OK.counted` shows that it does not without crashes. |
| C83 | `Model/RawDir`: the directory as a list of entries with arbitrary names (and subdirectories, links, names not in UTF-8); operations by printed name; `load` and `clear` parsing the names found (`Model/Names`), deleting by the name found but removing superseded shards by the printed name, as the code does. `Among d r`: the files `d` with foreign entries in between; a simulation (`Among.app`, `.openStore`, `.clearOps`) using injectivity of printing; all traces of a tree mention only names that fit (`Tree.Bdd`). The refutations are evaluated for an arbitrary content of the files. |
| C84 | `Model/Pool`: worker threads, the queue, the one-element result channels, `compaction_handle` with its mutex, `files.1`, the lock `files` (readers, one upgradable reader, writers), for any number of threads, shards and workers; every lock operation, test, channel operation and row is a step. An invariant of 22 parts (`Proofs/Pool`), a second one linking it with the history (`Proofs/PoolLog`), progress by case analysis on who blocks whom, termination by a measure (`Proofs/PoolRun`). Specification of the history: `Spec/Pool`. The contents of files are not in this model. |
| C85 | The derived numbers of `Stats` on top of C20 (exact counters) and the specification of `merge_small_shards` of C09; `calc_step` as exact division; refutation from the theorem about new stores (C49), no evaluation. |
| C86 | `Model/Single`: any number of stores (one per call of `open`), the file lock, `Shard` objects with running compactions, the order in which the fields of `CandyStore` are dropped; invariant (whoever can access files holds the lock), trace properties (`Spec/Single`). The lock provided by `fslock` and the operating system is assumed. |
| C87 | `Model/Cookie`: the iterator of `Model/Iter` with the panic of an entry index out of bounds; any position is equivalent to a position at a shard boundary or in a row (`It.norm`), and what is left from there is a suffix of the full iteration. While other threads modify the store, the shards found and the pairs read are left arbitrary. |
| C40 | span tiling invariant of the tree. |
| C41 | printing/parsing of file names, at character level. |
| C42 | `consolidate_ranges` incl. the sort. |
| C43, C60 | bit-exact `PartedHash`. |
| C44 | byte-level model of `write_kv`/`read_kv` with concurrent writers. |
| C45 | synced/unsynced contents of files, machine crash = any mixture for unsynced files; refutations. |
| C46 | small-step model of the flush aggregation protocol with threads, compactions and failing syncs; invariant; refutations incl. a deadlock. |
| C47, C48 | arithmetic of the lock table; ring buffer. |
| C49 | `calc_step`, `create_initial_shards`, `treeify`. |
| C50, C51 | file traces of creation and `clear`; refutations. |
| C52 | `merge_small_shards` against other threads; refutation by a schedule. |
| C55 | panics (assertions, `unwrap`, overflow checks of debug builds) are explicit outcomes of the model; unreachability; refutations. |
| C56, C57 | as C29, for queues and big values. |
| C58 | reopening under another configuration. |
