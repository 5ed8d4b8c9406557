# property -> (status, note); default is ('proved','')
status={
'C01':('proved','all histories of calls, background compaction, splits, merges, clears'),
'C25':('partial','The property is FALSE of the code: C25_refuted and C25_refuted_accepts exhibit histories where replace_in_list with the right expected value is refused and where it is accepted with a wrong one (lists.rs compares the expected value with the stored value including its 8-byte index suffix). C25_replace_partial proves the replace-without-expected behaviour and the exact condition used by the code.'),
'C26':('partial','Position/value part proved; the status part is FALSE of the code (C26_status_refuted): the call always answers CreatedNew.'),
'C27':('partial','Proved for lists whose 64-bit list hashes differ; FALSE of the code when two list keys collide (C27_refuted_on_collision).'),
'C28':('partial','Removal part proved; the "returns true iff the list had items" part is FALSE of the code (C28_flag_refuted).'),
'C31':('partial','FALSE of the code: C31_refuted_list, C31_refuted_promoting, C31_refuted_queue are histories where a failing call changes len / loses the item / changes the range. C31_failed_list_partial proves what a failing list call does not change.'),
'C33':('partial','FALSE of the code after removing the only element of a range (C33_refuted). C33_remove_partial proves the effect of one call.'),
'C34':('partial','C34_len_range_partial: for histories without remove_from_queue on this queue (C33) the range covers all elements, and the length is exact if no call on the queue has failed. FALSE of the code otherwise (C34_refuted: after a failed push_to_queue_tail queue_len is 1 and there is no element).'),
'C36':('partial','Proved for every non-empty value; FALSE for the empty value (C36_refuted_empty).'),
'C09':('partial','FALSE of the code: C09_refuted is a reachable store on which merge_small_shards blocks forever on its own lock. C09_merge_keeps_contents_partial: whenever it returns, nothing is lost, duplicated or changed; C09_merge_completes_partial: it returns on every two-level tree.'),
'C15':('partial','C15_resume_partial: resuming works from every iterator that is not exhausted. FALSE for exhausted iterators (C15_refuted): their cookie restarts from the beginning.'),
'C16':('partial','FALSE of the code (C16_refuted: a compaction during the iteration moves entries, and an untouched key is skipped; C16_refuted_twice: a split during the iteration, one untouched key is skipped and another returned twice). Proved, with other threads acting between any two slot reads: every pair returned was in the store at some moment of the iteration (C16_only_present); a key that is present all the time, or that no call changes, is returned exactly once while its shard is not split and its row not copied (C16_present_partial, C16_untouched_partial).'),
'C19':('partial','FALSE of the code (C19_refuted): with 512 keys of the same selector and row a further set never returns. C19_set_returns_partial: it returns while no row holds that many.'),
'C49':('partial','Proved up to 65536 * 29491 expected keys; beyond that create panics (C49_refuted).'),
'C10':('partial','Proved for stores without shards of empty span and with files below 4 GiB. FALSE of the code once a shard that covers a single selector value is split (C10_refuted_width_one): the directory can no longer be opened.'),
'C30':('partial','FALSE of the code (C30_refuted): after a crash inside remove_from_list the item may be gone from the iteration while get_from_list still returns it. C30_remove_crash_partial proves all the rest: every other item is untouched and the iteration shows one of the two lists.'),
'C57':('partial','FALSE of the code (C57_refuted): set_big first discards the old value. C57_set_big_crash_partial: never a mixture, never a part of the new value.'),
'C59':('partial','FALSE of the code in all three cases (C59_refuted_*). Proved: compact loses no item for get_from_list; promoting leaves every other item alone; after a crash inside discard_list iteration shows a final part of the list, get_from_list answers for the items of this part and no longer for the discarded ones, except possibly for the last of them (C59_discard_crash_partial); other lists are untouched (C29_other_lists).'),
'C38':('partial','Proved (C38_serializable_partial) for histories whose concurrent periods (steps: raw operations or single memory accesses) contain any calls except promoting inserts, pop_list_*, set_big, peek, iteration and list_len, whose storage accesses are not under one lock, and get_from_list of a list being discarded (C66_refuted_discard); the process may be killed at any moment of such a period (Lives.died, Explains.died). FALSE of the code for promoting (C38_refuted_promoting).'),
'C39':('partial','FALSE of the code (C39_refuted): pop_list_tail looks at the tail without the lock, and returns a stale value.'),
'C53':('partial','FALSE of the code (C53_refuted): two set_big calls leave the concatenation.'),
'C54':('partial','FALSE of the code (C54_refuted): peek_queue_head finds nothing although the queue is never empty.'),
'C44':('partial','C44_read_back_partial: concurrent writers, byte-wise interleaved; every acknowledged pair is read back. That the store keeps the files below 4 GiB is C75 (not for all schedules).'),
'C50':('partial','FALSE of the code: C50_refuted_magic, C50_refuted_presplit, C50_refuted_half (crash points after which open fails, panics, or gives a store that covers half of the selectors). C50_create_partial / C50_clear_partial: one-shard stores open again at every other crash point.'),
'C55':('partial','FALSE of the code for queues (C55_refuted: after a failed extend_queue; C55_refuted_remove: after removing the only element) and for lists with colliding hashes (C55_refuted_clash): debug builds panic on an underflow. Proved: no assertion of the shard layer can fail in any reachable state or inside any call (C55_shards), key-value and typed calls never panic (C55_kv), list calls never on lists without hash clash (C55_list), queue calls never without remove_from_queue (C55_queue_partial), stats and merge_small_shards not (C55_stats_merge).'),
'C52':('partial','FALSE of the code: C52_refuted (merge_small_shards reopens a shard whose background compaction is still running; the two compactions share the target header and skip a row: keys are lost). C52_merge_partial: if no compaction runs when the root lock is taken, whatever other threads did between the counting and the lock, nothing is lost.'),
'C45':('partial','FALSE of the code: C45_refuted (flush does not sync the target of a running compaction), C45_refuted_later_compaction (a compaction that finishes later replaces the synced file by one never synced). C45_flush_partial: true as long as no compaction is involved.'),
'C46':('partial','C46_synced_partial: true for data in the shard file when syncs do not fail (sequentially consistent memory); C46_progress_partial: no deadlock without compaction. FALSE of the code otherwise: C46_refuted_compaction, C46_refuted_failed_sync, C46_refuted_stale_load, and C46_refuted_deadlock (recursive read lock).'),
'C62':('partial','C62_memory_serializable_partial: for the same calls as C38 (the others are false of the code, see C38, C39, C53, C54). Sequentially consistent memory; files below 4 GiB. C62_no_panic: the assertions of the compaction, for all calls.'),
'C64':('proved','C64_stats_exact, C64_iter_exact: ReachableC now contains fine-grained periods (Lives.fine). A period ends when all calls have returned and no compaction is inside a row. Sequentially consistent memory; every access happens while the files of its shard are below 4 GiB.'),
'C63':('proved','All calls of the key-value, list, queue and typed API. A guard is waited for only while it is held (no queueing of waiting writers); merge_small_shards, clear and flush_aggregation are not part of this model (deadlocks of those: C09_refuted, C46_refuted_deadlock).'),
'C66':('proved','C66_present_item_is_read, at the granularity of single memory accesses; linearizability of get_from_list is part of C38/C62/C65. False while the list is being discarded (C66_refuted_discard): the statement excludes this.'),
'C65':('partial','C65_crash_keeps_map, C65_opens: for calls of every kind. C65_durable_linearizable_partial: for the calls of C38 (the others are false of the code already without crashes). The bytes of one data write reach the file in order; no shard of empty span (C10); opening with files below 4 GiB; merge_small_shards and clear do not run concurrently.'),
'C68':('proved','C68_serializable_in_parts, at the granularity of single memory accesses; crashes are in the life (Lives.died). Of lists that are being discarded (or of which a clashing one is compacted) nothing is said about what is read without the lock (C66_refuted_discard); nothing is said about the number list_len returns; completeness of concurrent iteration is not part of it.'),
'C69':('proved','C69_handed_out_once. On lists without hash clash and crash inside a removal (C27, C30).'),
'C70':('proved','C70_no_value_from_nowhere, C70_big_pieces, C70_sequential: for calls of every kind, at the granularity of single memory accesses. Iteration over the whole store is not part of it (C16).'),
'C71':('proved','C71_iteration_complete, C71_big_complete, C71_peek_complete, C71_pop_complete, C71_range_complete: at the granularity of single memory accesses. The elements are those that iter_queue returns before the concurrent period; pops must have returned at its end (one in progress may already have taken an element).'),
'C72':('proved','C72_iteration_complete, C72_peek_complete, C72_pop_complete, C72_get_complete (the last also during compactions of the list): at the granularity of single memory accesses. The list must not share its hash with another one in use and no call on it may have been cut off by a crash (IntactList). C72_refuted_compaction: an iteration during compact_list_if_needed misses items that stay.'),
'C73':('partial','C73_clear_partial: with list and queue calls if none of them holds its lock at the moment of the clear; C73_clear_kv: key-value calls, no restriction. C73_refuted_list: FALSE of the code for a list call in the middle of its accesses. Raw operations are atomic here (the write guard of the root excludes them); clear succeeds (see C74).'),
'C74':('partial','C74_clear_files_partial: success characterised, and its effect. C74_refuted: FALSE of the code when a compaction finishes during clear: it fails half-way and the store cannot be reopened. The listing of the directory is atomic.'),
'C75':('partial','C75_files_stay_small (with C75_file_size, C75_store_is_a_map): for histories without crashes in which no compaction lasts for more than 805 MB of insertions into its shard. C75_refuted: FALSE of the code without that condition.'),
'C76':('proved','C76_failed_calls_dir and C76_failed_calls_dir_world follow the directory: remains of failed operations stay while other calls work, shards are compacted, split and merged over them, and the process dies anywhere and any number of times; C76_always_opens, C76_steps_run. C76_failed_calls(_world), _set, _remove, _get, C76_reopens, C76_remains: the earlier versions, per call. Not included: failing background compactions (C77) and merges (C78), a crash in the middle of clear (C50), a clear while a compaction runs (C74). C76_refuted: an error does not mean that the call had no effect.'),
'C77':('partial','C77_failed_compactions_partial (with _world_partial and C77_failure_changes_nothing): any number of failing compactions; the shard of a failed compaction is not split or merged afterwards, and a store whose compaction failed in the middle of a row is not reopened (both necessary: C77_refuted_reopen, C77_refuted_merge show that removed keys come back and acknowledged writes are lost otherwise; C77_split_elsewhere: a split of such a shard concerns its own keys only); no crash of the process in the middle of a call.'),
'C78':('partial','C78_failed_merges_partial (with _world_partial, C78_failed_merge): any number of failing merges and calls; the store is not reopened if it has been written to since the failed merge. C78_refuted: acknowledged writes are lost otherwise; C78_old_or_current: each key then has its last value or that from the time of the failed merge, if no shard has been split or compacted since. A failing merge in a directory with remains of other failed calls is not described.'),
'C83':('partial','C83_open_partial, C83_operations_partial, C83_clear_partial: for names that do not begin like those of the store (and subdirectories etc. that do not have the name of one of its files). FALSE of the code otherwise: C83_refuted_panic, C83_refuted_duplicate (data loss), C83_refuted_deletes, C83_refuted_clear.'),
 'C84':('proved','All theorems are about Pool.Run, any number of threads, shards and workers; C84_progress and C84_finishes need at least one compaction thread. C84_refuted_zero, C84_zero_never: what happens with num_compaction_threads = 0.'),
'C82':('partial','C82_data_bytes_partial: stats succeeds, the number of shards is right and data_bytes is at least the size of the pairs, after any crashes. C82_refuted_underflow, C82_refuted_overcount: FALSE of the code for the number of entries, which may be too high, or underflow, in which case merge_small_shards panics too. Without crashes the statistics are exact (C20).'),
'C81':('proved','C81_counters, with C81_total. Key-value and typed calls (list and queue calls make lookups of their own); a raw operation is one step; the counters are unbounded numbers.'),
'C85':('partial','Proved but for the last part (C85_advice, C85_merge_leaves_enough). C85_refuted_advice: FALSE of the code for a store created with an expected number of keys: should_merge_small_shards() ignores it, merge_small_shards does not, so that the advice stays true and merging does nothing.'),
'C86':('proved','C86_one_store_at_a_time, C86_refused_only_if_open, C86_close_completes, C86_lock_file_stays. The file lock itself (fslock, the operating system) is assumed; that wait_for_compaction returns only after the result of the compaction has been sent is C84.'),
'C87':('partial','C87_any_cookie_partial, for the numbers whose entry field is below 512 or whose row field is at least 64; C87_library_cookies: among them are all cookies the library gives out, used on any store; C87_no_panic_while_changing: no panic either while other threads modify the store. C87_refuted: FALSE for the other numbers: next panics (index out of bounds), since iter_from_cookie does not check its argument.'),
}
