{
 "claims": [
  {
   "property": "C01",
   "status": "proved",
   "theorems": [
    "Candy.Props.C01_store_is_a_map",
    "Candy.Props.C01_budget",
    "Candy.Props.C01_get",
    "Candy.Props.C01_contains"
   ],
   "note": "all histories of calls, background compaction, splits, merges, clears"
  },
  {
   "property": "C02",
   "status": "proved",
   "theorems": [
    "Candy.Props.C02_set"
   ],
   "note": ""
  },
  {
   "property": "C03",
   "status": "proved",
   "theorems": [
    "Candy.Props.C03_replace"
   ],
   "note": ""
  },
  {
   "property": "C04",
   "status": "proved",
   "theorems": [
    "Candy.Props.C04_get_or_create"
   ],
   "note": ""
  },
  {
   "property": "C05",
   "status": "proved",
   "theorems": [
    "Candy.Props.C05_remove"
   ],
   "note": ""
  },
  {
   "property": "C06",
   "status": "proved",
   "theorems": [
    "Candy.Props.C06_collisions"
   ],
   "note": ""
  },
  {
   "property": "C07",
   "status": "proved",
   "theorems": [
    "Candy.Props.C07_split_transparent",
    "Candy.Props.C07_insert_keeps_others"
   ],
   "note": ""
  },
  {
   "property": "C08",
   "status": "proved",
   "theorems": [
    "Candy.Props.C08_compaction_step_invisible",
    "Candy.Props.C08_same_answers",
    "Candy.Props.C08_compaction_finishes"
   ],
   "note": ""
  },
  {
   "property": "C09",
   "status": "partial",
   "theorems": [
    "Candy.Props.C09_merge_keeps_contents_partial",
    "Candy.Props.C09_merge_flag",
    "Candy.Props.C09_merge_completes_partial",
    "Candy.Props.C09_refuted"
   ],
   "note": "FALSE of the code: C09_refuted is a reachable store on which merge_small_shards blocks forever on its own lock. C09_merge_keeps_contents_partial: whenever it returns, nothing is lost, duplicated or changed; C09_merge_completes_partial: it returns on every two-level tree."
  },
  {
   "property": "C10",
   "status": "partial",
   "theorems": [
    "Candy.Props.C10_files_of_new_store",
    "Candy.Props.C10_files_follow",
    "Candy.Props.C10_reopen_partial",
    "Candy.Props.C10_refuted_width_one"
   ],
   "note": "Proved for stores without shards of empty span and with files below 4 GiB. FALSE of the code once a shard that covers a single selector value is split (C10_refuted_width_one): the directory can no longer be opened."
  },
  {
   "property": "C11",
   "status": "proved",
   "theorems": [
    "Candy.Props.C11_kv_crash",
    "Candy.Props.C11_typed_crash",
    "Candy.Props.C11_other_crash",
    "Candy.Props.C11_opens"
   ],
   "note": ""
  },
  {
   "property": "C12",
   "status": "proved",
   "theorems": [
    "Candy.Props.C12_background_crash",
    "Candy.Props.C12_split_crash"
   ],
   "note": ""
  },
  {
   "property": "C13",
   "status": "proved",
   "theorems": [
    "Candy.Props.C13_recovery_is_idempotent",
    "Candy.Props.C13_recovery_is_crash_safe",
    "Candy.Props.C13_open_twice"
   ],
   "note": ""
  },
  {
   "property": "C14",
   "status": "proved",
   "theorems": [
    "Candy.Props.C14_iter_exact",
    "Candy.Props.C14_iter_raw_exact"
   ],
   "note": ""
  },
  {
   "property": "C15",
   "status": "partial",
   "theorems": [
    "Candy.Props.C15_resume_partial",
    "Candy.Props.C15_refuted"
   ],
   "note": "C15_resume_partial: resuming works from every iterator that is not exhausted. FALSE for exhausted iterators (C15_refuted): their cookie restarts from the beginning."
  },
  {
   "property": "C16",
   "status": "partial",
   "theorems": [
    "Candy.Props.C16_refuted",
    "Candy.Props.C16_only_present",
    "Candy.Props.C16_present_partial",
    "Candy.Props.C16_untouched_partial",
    "Candy.Props.C16_refuted_twice"
   ],
   "note": "FALSE of the code (C16_refuted: a compaction during the iteration moves entries, and an untouched key is skipped; C16_refuted_twice: a split during the iteration, one untouched key is skipped and another returned twice). Proved, with other threads acting between any two slot reads: every pair returned was in the store at some moment of the iteration (C16_only_present); a key that is present all the time, or that no call changes, is returned exactly once while its shard is not split and its row not copied (C16_present_partial, C16_untouched_partial)."
  },
  {
   "property": "C17",
   "status": "proved",
   "theorems": [
    "Candy.Props.C17_limits"
   ],
   "note": ""
  },
  {
   "property": "C18",
   "status": "proved",
   "theorems": [
    "Candy.Props.C18_kv",
    "Candy.Props.C18_typed",
    "Candy.Props.C18_queue",
    "Candy.Props.C18_list"
   ],
   "note": ""
  },
  {
   "property": "C19",
   "status": "partial",
   "theorems": [
    "Candy.Props.C19_set_returns_partial",
    "Candy.Props.C19_refuted"
   ],
   "note": "FALSE of the code (C19_refuted): with 512 keys of the same selector and row a further set never returns. C19_set_returns_partial: it returns while no row holds that many."
  },
  {
   "property": "C20",
   "status": "proved",
   "theorems": [
    "Candy.Props.C20_stats_exact"
   ],
   "note": ""
  },
  {
   "property": "C21",
   "status": "proved",
   "theorems": [
    "Candy.Props.C21_list_is_an_ordered_map",
    "Candy.Props.C21_before_after",
    "Candy.Props.C21_set",
    "Candy.Props.C21_remove",
    "Candy.Props.C21_get"
   ],
   "note": ""
  },
  {
   "property": "C22",
   "status": "proved",
   "theorems": [
    "Candy.Props.C22_pop",
    "Candy.Props.C22_peek",
    "Candy.Props.C22_reverse"
   ],
   "note": ""
  },
  {
   "property": "C23",
   "status": "proved",
   "theorems": [
    "Candy.Props.C23_len"
   ],
   "note": ""
  },
  {
   "property": "C24",
   "status": "proved",
   "theorems": [
    "Candy.Props.C24_compact"
   ],
   "note": ""
  },
  {
   "property": "C25",
   "status": "partial",
   "theorems": [
    "Candy.Props.C25_refuted",
    "Candy.Props.C25_refuted_accepts",
    "Candy.Props.C25_replace_partial"
   ],
   "note": "The property is FALSE of the code: C25_refuted and C25_refuted_accepts exhibit histories where replace_in_list with the right expected value is refused and where it is accepted with a wrong one (lists.rs compares the expected value with the stored value including its 8-byte index suffix). C25_replace_partial proves the replace-without-expected behaviour and the exact condition used by the code."
  },
  {
   "property": "C26",
   "status": "partial",
   "theorems": [
    "Candy.Props.C26_promote_partial",
    "Candy.Props.C26_status_refuted"
   ],
   "note": "Position/value part proved; the status part is FALSE of the code (C26_status_refuted): the call always answers CreatedNew."
  },
  {
   "property": "C27",
   "status": "partial",
   "theorems": [
    "Candy.Props.C27_lists_isolated",
    "Candy.Props.C27_refuted_on_collision"
   ],
   "note": "Proved for lists whose 64-bit list hashes differ; FALSE of the code when two list keys collide (C27_refuted_on_collision)."
  },
  {
   "property": "C28",
   "status": "partial",
   "theorems": [
    "Candy.Props.C28_discard",
    "Candy.Props.C28_flag_refuted"
   ],
   "note": "Removal part proved; the \"returns true iff the list had items\" part is FALSE of the code (C28_flag_refuted)."
  },
  {
   "property": "C29",
   "status": "proved",
   "theorems": [
    "Candy.Props.C29_set_crash",
    "Candy.Props.C29_other_lists"
   ],
   "note": ""
  },
  {
   "property": "C30",
   "status": "partial",
   "theorems": [
    "Candy.Props.C30_refuted",
    "Candy.Props.C30_remove_crash_partial"
   ],
   "note": "FALSE of the code (C30_refuted): after a crash inside remove_from_list the item may be gone from the iteration while get_from_list still returns it. C30_remove_crash_partial proves all the rest: every other item is untouched and the iteration shows one of the two lists."
  },
  {
   "property": "C31",
   "status": "partial",
   "theorems": [
    "Candy.Props.C31_refuted_list",
    "Candy.Props.C31_refuted_promoting",
    "Candy.Props.C31_refuted_queue",
    "Candy.Props.C31_failed_list_partial"
   ],
   "note": "FALSE of the code: C31_refuted_list, C31_refuted_promoting, C31_refuted_queue are histories where a failing call changes len / loses the item / changes the range. C31_failed_list_partial proves what a failing list call does not change."
  },
  {
   "property": "C32",
   "status": "proved",
   "theorems": [
    "Candy.Props.C32_queue_is_a_deque",
    "Candy.Props.C32_before_after",
    "Candy.Props.C32_push",
    "Candy.Props.C32_pop",
    "Candy.Props.C32_peek",
    "Candy.Props.C32_reverse",
    "Candy.Props.C32_discard"
   ],
   "note": ""
  },
  {
   "property": "C33",
   "status": "partial",
   "theorems": [
    "Candy.Props.C33_remove_partial",
    "Candy.Props.C33_refuted"
   ],
   "note": "FALSE of the code after removing the only element of a range (C33_refuted). C33_remove_partial proves the effect of one call."
  },
  {
   "property": "C34",
   "status": "partial",
   "theorems": [
    "Candy.Props.C34_refuted",
    "Candy.Props.C34_len_range_partial"
   ],
   "note": "C34_len_range_partial: for histories without remove_from_queue on this queue (C33) the range covers all elements, and the length is exact if no call on the queue has failed. FALSE of the code otherwise (C34_refuted: after a failed push_to_queue_tail queue_len is 1 and there is no element)."
  },
  {
   "property": "C35",
   "status": "proved",
   "theorems": [
    "Candy.Props.C35_extend",
    "Candy.Props.C35_as_pushes"
   ],
   "note": ""
  },
  {
   "property": "C36",
   "status": "partial",
   "theorems": [
    "Candy.Props.C36_big_partial",
    "Candy.Props.C36_refuted_empty",
    "Candy.Props.C36_remove"
   ],
   "note": "Proved for every non-empty value; FALSE for the empty value (C36_refuted_empty)."
  },
  {
   "property": "C37",
   "status": "proved",
   "theorems": [
    "Candy.Props.C37_types_apart",
    "Candy.Props.C37_typed_store",
    "Candy.Props.C37_typed_list",
    "Candy.Props.C37_list_keys_apart",
    "Candy.Props.C37_typed_queue",
    "Candy.Props.C37_typed_big"
   ],
   "note": ""
  },
  {
   "property": "C38",
   "status": "partial",
   "theorems": [
    "Candy.Props.C38_serializable_partial",
    "Candy.Props.C38_refuted_promoting"
   ],
   "note": "Proved (C38_serializable_partial) for histories whose concurrent periods (steps: raw operations or single memory accesses) contain any calls except promoting inserts, pop_list_*, set_big, peek, iteration and list_len, whose storage accesses are not under one lock, and get_from_list of a list being discarded (C66_refuted_discard); the process may be killed at any moment of such a period (Lives.died, Explains.died). FALSE of the code for promoting (C38_refuted_promoting)."
  },
  {
   "property": "C39",
   "status": "partial",
   "theorems": [
    "Candy.Props.C39_refuted"
   ],
   "note": "FALSE of the code (C39_refuted): pop_list_tail looks at the tail without the lock, and returns a stale value."
  },
  {
   "property": "C40",
   "status": "proved",
   "theorems": [
    "Candy.Props.C40_ranges_partition"
   ],
   "note": ""
  },
  {
   "property": "C41",
   "status": "proved",
   "theorems": [
    "Candy.Props.C41_round_trip",
    "Candy.Props.C41_names_differ",
    "Candy.Props.C41_leftovers",
    "Candy.Props.C41_listing",
    "Candy.Props.C41_clear_takes",
    "Candy.Props.C41_clear_spares"
   ],
   "note": ""
  },
  {
   "property": "C42",
   "status": "proved",
   "theorems": [
    "Candy.Props.C42_consolidate"
   ],
   "note": ""
  },
  {
   "property": "C43",
   "status": "proved",
   "theorems": [
    "Candy.Props.C43_signature_valid"
   ],
   "note": ""
  },
  {
   "property": "C44",
   "status": "partial",
   "theorems": [
    "Candy.Props.C44_read_back_partial"
   ],
   "note": "C44_read_back_partial: concurrent writers, byte-wise interleaved; every acknowledged pair is read back. That the store keeps the files below 4 GiB is C75 (not for all schedules)."
  },
  {
   "property": "C45",
   "status": "partial",
   "theorems": [
    "Candy.Props.C45_flush_partial",
    "Candy.Props.C45_refuted",
    "Candy.Props.C45_refuted_later_compaction"
   ],
   "note": "FALSE of the code: C45_refuted (flush does not sync the target of a running compaction), C45_refuted_later_compaction (a compaction that finishes later replaces the synced file by one never synced). C45_flush_partial: true as long as no compaction is involved."
  },
  {
   "property": "C46",
   "status": "partial",
   "theorems": [
    "Candy.Props.C46_synced_partial",
    "Candy.Props.C46_refuted_compaction",
    "Candy.Props.C46_refuted_failed_sync",
    "Candy.Props.C46_refuted_stale_load",
    "Candy.Props.C46_progress_partial",
    "Candy.Props.C46_refuted_deadlock"
   ],
   "note": "C46_synced_partial: true for data in the shard file when syncs do not fail (sequentially consistent memory); C46_progress_partial: no deadlock without compaction. FALSE of the code otherwise: C46_refuted_compaction, C46_refuted_failed_sync, C46_refuted_stale_load, and C46_refuted_deadlock (recursive read lock)."
  },
  {
   "property": "C47",
   "status": "proved",
   "theorems": [
    "Candy.Props.C47_lock_exists",
    "Candy.Props.C47_number_of_locks",
    "Candy.Props.C47_all_locks_used"
   ],
   "note": ""
  },
  {
   "property": "C48",
   "status": "proved",
   "theorems": [
    "Candy.Props.C48_last_events"
   ],
   "note": ""
  },
  {
   "property": "C49",
   "status": "partial",
   "theorems": [
    "Candy.Props.C49_presplit_partial",
    "Candy.Props.C49_refuted"
   ],
   "note": "Proved up to 65536 * 29491 expected keys; beyond that create panics (C49_refuted)."
  },
  {
   "property": "C50",
   "status": "partial",
   "theorems": [
    "Candy.Props.C50_create_partial",
    "Candy.Props.C50_clear_partial",
    "Candy.Props.C50_refuted_magic",
    "Candy.Props.C50_refuted_presplit",
    "Candy.Props.C50_refuted_half"
   ],
   "note": "FALSE of the code: C50_refuted_magic, C50_refuted_presplit, C50_refuted_half (crash points after which open fails, panics, or gives a store that covers half of the selectors). C50_create_partial / C50_clear_partial: one-shard stores open again at every other crash point."
  },
  {
   "property": "C51",
   "status": "proved",
   "theorems": [
    "Candy.Props.C51_clear",
    "Candy.Props.C51_clear_files"
   ],
   "note": ""
  },
  {
   "property": "C52",
   "status": "partial",
   "theorems": [
    "Candy.Props.C52_merge_partial",
    "Candy.Props.C52_refuted"
   ],
   "note": "FALSE of the code: C52_refuted (merge_small_shards reopens a shard whose background compaction is still running; the two compactions share the target header and skip a row: keys are lost). C52_merge_partial: if no compaction runs when the root lock is taken, whatever other threads did between the counting and the lock, nothing is lost."
  },
  {
   "property": "C53",
   "status": "partial",
   "theorems": [
    "Candy.Props.C53_refuted"
   ],
   "note": "FALSE of the code (C53_refuted): two set_big calls leave the concatenation."
  },
  {
   "property": "C54",
   "status": "partial",
   "theorems": [
    "Candy.Props.C54_refuted"
   ],
   "note": "FALSE of the code (C54_refuted): peek_queue_head finds nothing although the queue is never empty."
  },
  {
   "property": "C55",
   "status": "partial",
   "theorems": [
    "Candy.Props.C55_shards",
    "Candy.Props.C55_stats_merge",
    "Candy.Props.C55_kv",
    "Candy.Props.C55_list",
    "Candy.Props.C55_queue_partial",
    "Candy.Props.C55_refuted",
    "Candy.Props.C55_refuted_remove",
    "Candy.Props.C55_refuted_clash"
   ],
   "note": "FALSE of the code for queues (C55_refuted: after a failed extend_queue; C55_refuted_remove: after removing the only element) and for lists with colliding hashes (C55_refuted_clash): debug builds panic on an underflow. Proved: no assertion of the shard layer can fail in any reachable state or inside any call (C55_shards), key-value and typed calls never panic (C55_kv), list calls never on lists without hash clash (C55_list), queue calls never without remove_from_queue (C55_queue_partial), stats and merge_small_shards not (C55_stats_merge)."
  },
  {
   "property": "C56",
   "status": "proved",
   "theorems": [
    "Candy.Props.C56_push_crash",
    "Candy.Props.C56_pop_crash",
    "Candy.Props.C56_extend_crash",
    "Candy.Props.C56_discard_crash",
    "Candy.Props.C56_other_queues"
   ],
   "note": ""
  },
  {
   "property": "C57",
   "status": "partial",
   "theorems": [
    "Candy.Props.C57_refuted",
    "Candy.Props.C57_set_big_crash_partial"
   ],
   "note": "FALSE of the code (C57_refuted): set_big first discards the old value. C57_set_big_crash_partial: never a mixture, never a part of the new value."
  },
  {
   "property": "C58",
   "status": "proved",
   "theorems": [
    "Candy.Props.C58_other_options"
   ],
   "note": ""
  },
  {
   "property": "C59",
   "status": "partial",
   "theorems": [
    "Candy.Props.C59_refuted_compact",
    "Candy.Props.C59_refuted_promoting",
    "Candy.Props.C59_refuted_discard",
    "Candy.Props.C59_compact_crash_partial",
    "Candy.Props.C59_promoting_crash_partial",
    "Candy.Props.C59_discard_crash_partial"
   ],
   "note": "FALSE of the code in all three cases (C59_refuted_*). Proved: compact loses no item for get_from_list; promoting leaves every other item alone; after a crash inside discard_list iteration shows a final part of the list, get_from_list answers for the items of this part and no longer for the discarded ones, except possibly for the last of them (C59_discard_crash_partial); other lists are untouched (C29_other_lists)."
  },
  {
   "property": "C60",
   "status": "proved",
   "theorems": [
    "Candy.Props.C60_hash_layout",
    "Candy.Props.C60_all_rows_used"
   ],
   "note": ""
  },
  {
   "property": "C61",
   "status": "proved",
   "theorems": [
    "Candy.Props.C61_write_counters"
   ],
   "note": ""
  },
  {
   "property": "C62",
   "status": "partial",
   "theorems": [
    "Candy.Props.C62_memory_serializable_partial",
    "Candy.Props.C62_no_panic"
   ],
   "note": "C62_memory_serializable_partial: for the same calls as C38 (the others are false of the code, see C38, C39, C53, C54). Sequentially consistent memory; files below 4 GiB. C62_no_panic: the assertions of the compaction, for all calls."
  },
  {
   "property": "C63",
   "status": "proved",
   "theorems": [
    "Candy.Props.C63_no_deadlock"
   ],
   "note": "All calls of the key-value, list, queue and typed API. A guard is waited for only while it is held (no queueing of waiting writers); merge_small_shards, clear and flush_aggregation are not part of this model (deadlocks of those: C09_refuted, C46_refuted_deadlock)."
  },
  {
   "property": "C64",
   "status": "proved",
   "theorems": [
    "Candy.Props.C64_stats_exact",
    "Candy.Props.C64_iter_exact"
   ],
   "note": "C64_stats_exact, C64_iter_exact: ReachableC now contains fine-grained periods (Lives.fine). A period ends when all calls have returned and no compaction is inside a row. Sequentially consistent memory; every access happens while the files of its shard are below 4 GiB."
  },
  {
   "property": "C65",
   "status": "partial",
   "theorems": [
    "Candy.Props.C65_crash_keeps_map",
    "Candy.Props.C65_opens",
    "Candy.Props.C65_durable_linearizable_partial"
   ],
   "note": "C65_crash_keeps_map, C65_opens: for calls of every kind. C65_durable_linearizable_partial: for the calls of C38 (the others are false of the code already without crashes). The bytes of one data write reach the file in order; no shard of empty span (C10); opening with files below 4 GiB; merge_small_shards and clear do not run concurrently."
  },
  {
   "property": "C66",
   "status": "proved",
   "theorems": [
    "Candy.Props.C66_present_item_is_read",
    "Candy.Props.C66_refuted_discard"
   ],
   "note": "C66_present_item_is_read, at the granularity of single memory accesses; linearizability of get_from_list is part of C38/C62/C65. False while the list is being discarded (C66_refuted_discard): the statement excludes this."
  },
  {
   "property": "C67",
   "status": "proved",
   "theorems": [
    "Candy.Props.C67_no_panic",
    "Candy.Props.C67_no_panic_sequential"
   ],
   "note": ""
  },
  {
   "property": "C68",
   "status": "proved",
   "theorems": [
    "Candy.Props.C68_serializable_in_parts"
   ],
   "note": "C68_serializable_in_parts, at the granularity of single memory accesses; crashes are in the life (Lives.died). Of lists that are being discarded (or of which a clashing one is compacted) nothing is said about what is read without the lock (C66_refuted_discard); nothing is said about the number list_len returns; completeness of concurrent iteration is not part of it."
  },
  {
   "property": "C69",
   "status": "proved",
   "theorems": [
    "Candy.Props.C69_handed_out_once"
   ],
   "note": "C69_handed_out_once. On lists without hash clash and crash inside a removal (C27, C30)."
  },
  {
   "property": "C70",
   "status": "proved",
   "theorems": [
    "Candy.Props.C70_no_value_from_nowhere",
    "Candy.Props.C70_big_pieces",
    "Candy.Props.C70_sequential"
   ],
   "note": "C70_no_value_from_nowhere, C70_big_pieces, C70_sequential: for calls of every kind, at the granularity of single memory accesses. Iteration over the whole store is not part of it (C16)."
  },
  {
   "property": "C71",
   "status": "proved",
   "theorems": [
    "Candy.Props.C71_iteration_complete",
    "Candy.Props.C71_big_complete",
    "Candy.Props.C71_peek_complete",
    "Candy.Props.C71_pop_complete",
    "Candy.Props.C71_range_complete"
   ],
   "note": "C71_iteration_complete, C71_big_complete, C71_peek_complete, C71_pop_complete, C71_range_complete: at the granularity of single memory accesses. The elements are those that iter_queue returns before the concurrent period; pops must have returned at its end (one in progress may already have taken an element)."
  },
  {
   "property": "C72",
   "status": "proved",
   "theorems": [
    "Candy.Props.C72_iteration_complete",
    "Candy.Props.C72_peek_complete",
    "Candy.Props.C72_pop_complete",
    "Candy.Props.C72_get_complete",
    "Candy.Props.C72_refuted_compaction"
   ],
   "note": "C72_iteration_complete, C72_peek_complete, C72_pop_complete, C72_get_complete (the last also during compactions of the list): at the granularity of single memory accesses. The list must not share its hash with another one in use and no call on it may have been cut off by a crash (IntactList). C72_refuted_compaction: an iteration during compact_list_if_needed misses items that stay."
  },
  {
   "property": "C73",
   "status": "partial",
   "theorems": [
    "Candy.Props.C73_clear_partial",
    "Candy.Props.C73_clear_kv",
    "Candy.Props.C73_refuted_list"
   ],
   "note": "C73_clear_partial: with list and queue calls if none of them holds its lock at the moment of the clear; C73_clear_kv: key-value calls, no restriction. C73_refuted_list: FALSE of the code for a list call in the middle of its accesses. Raw operations are atomic here (the write guard of the root excludes them); clear succeeds (see C74)."
  },
  {
   "property": "C74",
   "status": "partial",
   "theorems": [
    "Candy.Props.C74_clear_files_partial",
    "Candy.Props.C74_refuted"
   ],
   "note": "C74_clear_files_partial: success characterised, and its effect. C74_refuted: FALSE of the code when a compaction finishes during clear: it fails half-way and the store cannot be reopened. The listing of the directory is atomic."
  },
  {
   "property": "C75",
   "status": "partial",
   "theorems": [
    "Candy.Props.C75_files_stay_small",
    "Candy.Props.C75_file_size",
    "Candy.Props.C75_store_is_a_map",
    "Candy.Props.C75_refuted"
   ],
   "note": "C75_files_stay_small (with C75_file_size, C75_store_is_a_map): for histories without crashes in which no compaction lasts for more than 805 MB of insertions into its shard. C75_refuted: FALSE of the code without that condition."
  },
  {
   "property": "C76",
   "status": "proved",
   "theorems": [
    "Candy.Props.C76_failed_calls_dir",
    "Candy.Props.C76_failed_calls_dir_world",
    "Candy.Props.C76_always_opens",
    "Candy.Props.C76_steps_run",
    "Candy.Props.C76_failed_calls",
    "Candy.Props.C76_failed_calls_world",
    "Candy.Props.C76_failed_set",
    "Candy.Props.C76_failed_remove",
    "Candy.Props.C76_failed_get",
    "Candy.Props.C76_reopens",
    "Candy.Props.C76_remains",
    "Candy.Props.C76_refuted"
   ],
   "note": "C76_failed_calls_dir and C76_failed_calls_dir_world follow the directory: remains of failed operations stay while other calls work, shards are compacted, split and merged over them, and the process dies anywhere and any number of times; C76_always_opens, C76_steps_run. C76_failed_calls(_world), _set, _remove, _get, C76_reopens, C76_remains: the earlier versions, per call. Not included: failing background compactions (C77) and merges (C78), a crash in the middle of clear (C50), a clear while a compaction runs (C74). C76_refuted: an error does not mean that the call had no effect."
  },
  {
   "property": "C77",
   "status": "partial",
   "theorems": [
    "Candy.Props.C77_failed_compactions_partial",
    "Candy.Props.C77_failed_compactions_world_partial",
    "Candy.Props.C77_failure_changes_nothing",
    "Candy.Props.C77_refuted_reopen",
    "Candy.Props.C77_refuted_merge",
    "Candy.Props.C77_split_elsewhere"
   ],
   "note": "C77_failed_compactions_partial (with _world_partial and C77_failure_changes_nothing): any number of failing compactions; the shard of a failed compaction is not split or merged afterwards, and a store whose compaction failed in the middle of a row is not reopened (both necessary: C77_refuted_reopen, C77_refuted_merge show that removed keys come back and acknowledged writes are lost otherwise; C77_split_elsewhere: a split of such a shard concerns its own keys only); no crash of the process in the middle of a call."
  },
  {
   "property": "C78",
   "status": "partial",
   "theorems": [
    "Candy.Props.C78_failed_merges_partial",
    "Candy.Props.C78_failed_merges_world_partial",
    "Candy.Props.C78_failed_merge",
    "Candy.Props.C78_old_or_current",
    "Candy.Props.C78_refuted"
   ],
   "note": "C78_failed_merges_partial (with _world_partial, C78_failed_merge): any number of failing merges and calls; the store is not reopened if it has been written to since the failed merge. C78_refuted: acknowledged writes are lost otherwise; C78_old_or_current: each key then has its last value or that from the time of the failed merge, if no shard has been split or compacted since. A failing merge in a directory with remains of other failed calls is not described."
  },
  {
   "property": "C79",
   "status": "proved",
   "theorems": [
    "Candy.Props.C79_settings_may_change",
    "Candy.Props.C79_settings_may_change_world",
    "Candy.Props.C79_reopen",
    "Candy.Props.C79_seed_refuted"
   ],
   "note": ""
  },
  {
   "property": "C80",
   "status": "proved",
   "theorems": [
    "Candy.Props.C80_register",
    "Candy.Props.C80_one_creator",
    "Candy.Props.C80_no_lost_update",
    "Candy.Props.C80_mutual_exclusion"
   ],
   "note": ""
  },
  {
   "property": "C81",
   "status": "proved",
   "theorems": [
    "Candy.Props.C81_counters",
    "Candy.Props.C81_total"
   ],
   "note": "C81_counters, with C81_total. Key-value and typed calls (list and queue calls make lookups of their own); a raw operation is one step; the counters are unbounded numbers."
  },
  {
   "property": "C82",
   "status": "partial",
   "theorems": [
    "Candy.Props.C82_data_bytes_partial",
    "Candy.Props.C82_refuted_underflow",
    "Candy.Props.C82_refuted_overcount"
   ],
   "note": "C82_data_bytes_partial: stats succeeds, the number of shards is right and data_bytes is at least the size of the pairs, after any crashes. C82_refuted_underflow, C82_refuted_overcount: FALSE of the code for the number of entries, which may be too high, or underflow, in which case merge_small_shards panics too. Without crashes the statistics are exact (C20)."
  },
  {
   "property": "C83",
   "status": "partial",
   "theorems": [
    "Candy.Props.C83_open_partial",
    "Candy.Props.C83_operations_partial",
    "Candy.Props.C83_clear_partial",
    "Candy.Props.C83_refuted_panic",
    "Candy.Props.C83_refuted_duplicate",
    "Candy.Props.C83_refuted_deletes",
    "Candy.Props.C83_refuted_clear"
   ],
   "note": "C83_open_partial, C83_operations_partial, C83_clear_partial: for names that do not begin like those of the store (and subdirectories etc. that do not have the name of one of its files). FALSE of the code otherwise: C83_refuted_panic, C83_refuted_duplicate (data loss), C83_refuted_deletes, C83_refuted_clear."
  },
  {
   "property": "C84",
   "status": "proved",
   "theorems": [
    "Candy.Props.C84_no_panic",
    "Candy.Props.C84_history",
    "Candy.Props.C84_dead",
    "Candy.Props.C84_one_at_a_time",
    "Candy.Props.C84_progress",
    "Candy.Props.C84_finishes",
    "Candy.Props.C84_zero_never",
    "Candy.Props.C84_example",
    "Candy.Props.C84_refuted_zero"
   ],
   "note": "All theorems are about Pool.Run, any number of threads, shards and workers; C84_progress and C84_finishes need at least one compaction thread. C84_refuted_zero, C84_zero_never: what happens with num_compaction_threads = 0."
  },
  {
   "property": "C85",
   "status": "partial",
   "theorems": [
    "Candy.Props.C85_advice",
    "Candy.Props.C85_merge_leaves_enough",
    "Candy.Props.C85_refuted_advice"
   ],
   "note": "Proved but for the last part (C85_advice, C85_merge_leaves_enough). C85_refuted_advice: FALSE of the code for a store created with an expected number of keys: should_merge_small_shards() ignores it, merge_small_shards does not, so that the advice stays true and merging does nothing."
  },
  {
   "property": "C86",
   "status": "proved",
   "theorems": [
    "Candy.Props.C86_one_store_at_a_time",
    "Candy.Props.C86_refused_only_if_open",
    "Candy.Props.C86_close_completes",
    "Candy.Props.C86_lock_file_stays"
   ],
   "note": "C86_one_store_at_a_time, C86_refused_only_if_open, C86_close_completes, C86_lock_file_stays. The file lock itself (fslock, the operating system) is assumed; that wait_for_compaction returns only after the result of the compaction has been sent is C84."
  },
  {
   "property": "C87",
   "status": "partial",
   "theorems": [
    "Candy.Props.C87_any_cookie_partial",
    "Candy.Props.C87_refuted",
    "Candy.Props.C87_library_cookies",
    "Candy.Props.C87_no_panic_while_changing"
   ],
   "note": "C87_any_cookie_partial, for the numbers whose entry field is below 512 or whose row field is at least 64; C87_library_cookies: among them are all cookies the library gives out, used on any store; C87_no_panic_while_changing: no panic either while other threads modify the store. C87_refuted: FALSE for the other numbers: next panics (index out of bounds), since iter_from_cookie does not check its argument."
  }
 ]
}