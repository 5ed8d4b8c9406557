{"id": "C01", "title": "The store is a map: reads return the latest acknowledged write", "statement": "After any sequence of set / get / contains / remove / replace / get_or_create calls, interleaved with any number of background compaction steps, shard splits, iterations, close/reopen and process crashes, every call returns exactly what an ideal in-memory map from byte strings to byte strings would return for the same sequence of calls.", "quantifier": "all configurations, all hash functions (seeds), all keys and values, all call sequences, all background-compaction schedules", "why_tests_cant": "The state space (which keys collide, when rows fill up, when a compaction is half done) is unbounded; a test only samples a few histories with one seed.", "anchors": ["src/store.rs:get_raw", "src/store.rs:insert_internal", "src/store.rs:remove_raw", "src/shard.rs:Shard::insert", "src/shard.rs:Shard::get", "src/shard.rs:Shard::remove", "src/router.rs:ShardRouter::insert"]}
{"id": "C02", "title": "set reports the previous value", "statement": "set(k,v) returns CreatedNew exactly when k was absent and otherwise PrevValue(old) with old the value k had immediately before; afterwards k maps to v.", "quantifier": "all reachable store states, keys, values", "why_tests_cant": "Every reachable physical layout must be covered (collisions, compacting shards, splits triggered by the call itself).", "anchors": ["src/store.rs:set_raw", "src/shard.rs:Shard::try_replace"]}
{"id": "C03", "title": "replace is a compare-and-swap", "statement": "replace(k,v,expected) changes the store only if k exists and (expected is None or equals the current value); it returns DoesNotExist / WrongValue(current) / PrevValue(old) accordingly and never creates a key.", "quantifier": "all reachable store states, keys, values, expected values", "why_tests_cant": "The no-effect branch must hold for all layouts, including when the call first triggers a split or a compaction.", "anchors": ["src/store.rs:replace_raw", "src/shard.rs:Shard::try_replace", "src/shard.rs:Shard::insert"]}
{"id": "C04", "title": "get_or_create creates at most once and never overwrites", "statement": "get_or_create(k,d) returns ExistingValue(v) and changes nothing if k maps to v, and otherwise stores d and returns CreatedNew(d).", "quantifier": "all reachable store states, keys, values", "why_tests_cant": "as C03", "anchors": ["src/store.rs:get_or_create_raw", "src/shard.rs:Shard::try_replace"]}
{"id": "C05", "title": "remove deletes exactly one key", "statement": "remove(k) returns the value k had (None if absent); afterwards k is absent and every other key is unchanged.", "quantifier": "all reachable store states, all pairs of keys", "why_tests_cant": "needs all pairs of keys in all layouts", "anchors": ["src/store.rs:remove_raw", "src/shard.rs:Shard::remove"]}
{"id": "C06", "title": "Hash collisions never mix up keys", "statement": "Operations on one key never change what any other key returns, even if the two keys have identical 64-bit hashes (same shard, row and signature).", "quantifier": "all hash functions, including constant ones; all pairs of distinct keys", "why_tests_cant": "A test can only force a few collisions; the statement is about every hash function.", "anchors": ["src/shard.rs:ShardRow::lookup", "src/shard.rs:Shard::get", "src/hashing.rs:PartedHash"]}
{"id": "C07", "title": "Shard splits are transparent", "statement": "When an insertion splits a shard (once or repeatedly), no key is lost, duplicated or changed, and the two halves cover exactly the original hash range.", "quantifier": "all shard contents, all hash functions, all split depths", "why_tests_cant": "all contents and hash distributions", "anchors": ["src/shard.rs:Shard::split", "src/router.rs:ShardRouter::insert"]}
{"id": "C08", "title": "Background compaction is transparent under every schedule", "statement": "A background compaction interleaved row by row, in any order, with any gets, sets, removes and iterator reads never changes the result of any of them, and the compacted shard holds exactly the live key-value pairs.", "quantifier": "all interleavings of row-compaction steps and client operations", "why_tests_cant": "the number of schedules is unbounded", "anchors": ["src/shard.rs:Shard::do_compaction", "src/shard.rs:Shard::background_compact", "src/shard.rs:Shard::operate_on_row", "src/shard.rs:Shard::operate_on_row_mut", "src/shard.rs:Shard::begin_compaction"]}
{"id": "C09", "title": "merge_small_shards preserves contents and completes", "statement": "merge_small_shards returns (does not deadlock), and no key is lost, duplicated or changed by it, for every store contents and shard-tree shape.", "quantifier": "all shard trees, contents, fill levels", "why_tests_cant": "tree shapes are unbounded; the existing tests only merge perfectly balanced trees", "anchors": ["src/router.rs:ShardRouter::_merge", "src/router.rs:ShardRouter::merge_small_shards", "src/shard.rs:Shard::merge"]}
{"id": "C10", "title": "Reopening preserves the contents", "statement": "Closing the store and opening the directory again (same hash seed) yields a store with exactly the same key-value pairs, for every reachable store.", "quantifier": "all reachable states", "why_tests_cant": "the on-disk layout after an arbitrary history is unbounded", "anchors": ["src/router.rs:ShardRouter::load", "src/router.rs:ShardRouter::treeify", "src/router.rs:consolidate_ranges", "src/shard.rs:Shard::open"]}
{"id": "C11", "title": "A process crash inside a key-value call is atomic", "statement": "If the process dies at any instruction inside set / replace / get_or_create / remove (including a partially executed data write), then after reopening, the store holds exactly the contents from before the call or exactly the contents after it; every earlier acknowledged call is preserved.", "quantifier": "all crash points, all reachable states, all calls", "why_tests_cant": "crash points times states is unbounded, and a test cannot stop the process between two machine stores", "anchors": ["src/shard.rs:MmapFile::write_kv", "src/shard.rs:Shard::insert", "src/shard.rs:Shard::try_replace", "src/shard.rs:Shard::remove"]}
{"id": "C12", "title": "A process crash inside split, compaction or merge loses nothing", "statement": "If the process dies at any point of a shard split, a shard compaction or a shard merge (between or inside its file-system operations), reopening yields a store with exactly the same contents.", "quantifier": "all crash points, all shard contents", "why_tests_cant": "as C11", "anchors": ["src/shard.rs:Shard::split", "src/shard.rs:Shard::do_compaction", "src/shard.rs:Shard::merge", "src/shard.rs:Shard::open", "src/router.rs:ShardRouter::load"]}
{"id": "C13", "title": "Recovery is idempotent and itself crash-safe", "statement": "A crash during reopening (while deleting leftovers or finishing an interrupted compaction), any number of times, followed by a successful reopen gives the same contents as an undisturbed reopen.", "quantifier": "all numbers of crashes and crash points inside recovery", "why_tests_cant": "nested crash histories are unbounded", "anchors": ["src/router.rs:ShardRouter::load", "src/router.rs:consolidate_ranges", "src/shard.rs:Shard::open", "src/shard.rs:Shard::do_compaction"]}
{"id": "C14", "title": "iter returns each user pair exactly once and nothing else", "statement": "On a store that is not modified meanwhile, iter() returns every pair written through the key-value API exactly once and never returns list, queue or typed items; iter_raw() returns every stored pair exactly once.", "quantifier": "all reachable stores", "why_tests_cant": "all layouts: holes, many shards, half-compacted shards", "anchors": ["src/store.rs:CandyStoreIterator", "src/shard.rs:Shard::read_at"]}
{"id": "C15", "title": "An iterator can be resumed from its cookie", "statement": "For an unmodified store, an iterator created from the cookie of another iterator, taken at any moment, returns exactly the items the other iterator had not yet returned.", "quantifier": "all reachable stores, all positions including the end", "why_tests_cant": "all positions of all stores", "anchors": ["src/store.rs:CandyStoreIterator::cookie", "src/store.rs:CandyStoreIterator::from_cookie"]}
{"id": "C16", "title": "Modifying the store while iterating does not disturb untouched keys", "statement": "If keys are inserted, updated or removed while an iteration is in progress, every key that is present from the beginning to the end of the iteration and not itself modified is returned exactly once.", "quantifier": "all interleavings of iterator steps with modifications (and the splits/compactions they trigger)", "why_tests_cant": "interleavings are unbounded", "anchors": ["src/store.rs:CandyStoreIterator::next", "src/shard.rs:Shard::do_compaction", "src/shard.rs:Shard::split"]}
{"id": "C17", "title": "Rejected key-value calls have no effect and the limits are exact", "statement": "set/replace/get_or_create fail with KeyTooLong exactly when the key exceeds MAX_KEY_SIZE, ValueTooLong exactly when the value exceeds MAX_VALUE_SIZE, and EntryCannotFitInShard exactly when key+1+value exceeds max_shard_size; a failing call leaves the store unchanged.", "quantifier": "all keys, values, configurations, states", "why_tests_cant": "boundary values over all configurations", "anchors": ["src/store.rs:ensure_sizes", "src/store.rs:insert_internal", "src/lib.rs:MAX_KEY_SIZE"]}
{"id": "C18", "title": "The APIs are isolated from each other", "statement": "Plain keys, lists, queues/big values and typed items live in separate name spaces: no call of one API changes what another API returns, even when the same key bytes are used.", "quantifier": "all key bytes, all calls, all states", "why_tests_cant": "a cross-API clash depends on concrete bytes", "anchors": ["src/store.rs:USER_NAMESPACE", "src/lists.rs:make_item_key", "src/lists.rs:ChainKey", "src/queues.rs:make_queue_item_key", "src/typed.rs:make_key"]}
{"id": "C19", "title": "Insertion terminates", "statement": "Every set call returns, for every key and every store contents.", "quantifier": "all contents, all hash functions", "why_tests_cant": "needs adversarial key sets", "anchors": ["src/router.rs:ShardRouter::insert", "src/shard.rs:Shard::split"]}
{"id": "C20", "title": "Statistics are exact", "statement": "In every reachable state of an uncrashed store, stats().num_entries() is the number of pairs stored (over all APIs) and stats().data_bytes() is the total size of their stored keys and values, also after splits, compactions and merges.", "quantifier": "all histories", "why_tests_cant": "drift only shows after particular histories", "anchors": ["src/stats.rs:Stats", "src/shard.rs:Shard::get_stats", "src/store.rs:CandyStore::stats", "src/shard.rs:ShardHeader"]}
{"id": "C21", "title": "A list is an insertion-ordered map", "statement": "set_in_list on a new item appends it at the tail, on an existing item updates it in place keeping its position; get_from_list, get_or_create_in_list, replace_in_list (without expected value), remove_from_list behave as on an insertion-ordered map; iter_list returns the items in insertion order and iter_list_backwards in reverse.", "quantifier": "all histories of list calls on any number of lists, all keys and values within limits", "why_tests_cant": "histories are unbounded; hash collisions between items need adversarial input", "anchors": ["src/lists.rs:_insert_to_list", "src/lists.rs:owned_remove_from_list", "src/lists.rs:ListIterator", "src/lists.rs:get_from_list_at_index"]}
{"id": "C22", "title": "List pop and peek act on the ends", "statement": "peek/pop_list_head return (and pop removes) the oldest remaining item, peek/pop_list_tail the newest; None exactly if the list has no items.", "quantifier": "all list contents and holes", "why_tests_cant": "holes patterns are unbounded", "anchors": ["src/lists.rs:owned_pop_list_head", "src/lists.rs:owned_pop_list_tail", "src/lists.rs:owned_peek_list_head", "src/lists.rs:owned_peek_list_tail"]}
{"id": "C23", "title": "list_len is the number of items", "statement": "In an uncrashed store list_len equals the number of items iter_list returns, after every history of list calls.", "quantifier": "all histories of list calls, including failing calls", "why_tests_cant": "the count drifts only after particular histories", "anchors": ["src/lists.rs:owned_list_len", "src/lists.rs:_insert_to_list", "src/lists.rs:owned_remove_from_list"]}
{"id": "C24", "title": "compact_list_if_needed preserves the list", "statement": "Compacting a list changes neither its items nor their order nor any get_from_list result, and afterwards the list has no holes; other lists are untouched.", "quantifier": "all list contents and hole patterns", "why_tests_cant": "hole patterns are unbounded", "anchors": ["src/lists.rs:compact_list_if_needed"]}
{"id": "C25", "title": "replace_in_list with an expected value is a compare-and-swap", "statement": "replace_in_list(l,k,v,Some(e)) replaces the value if and only if the current value of the item equals e, otherwise it returns WrongValue(current) and changes nothing.", "quantifier": "all items, values, expected values", "why_tests_cant": "needs all values, in particular the matching one", "anchors": ["src/lists.rs:_insert_to_list", "src/lists.rs:owned_replace_in_list"]}
{"id": "C26", "title": "set_in_list_promoting moves the item to the tail", "statement": "After set_in_list_promoting(l,k,v) item k has value v and is the last item, all other items keep their relative order; the returned status is CreatedNew if the item did not exist before and PrevValue(old) otherwise.", "quantifier": "all list contents", "why_tests_cant": "all positions and histories", "anchors": ["src/lists.rs:owned_set_in_list"]}
{"id": "C27", "title": "Lists are isolated from each other", "statement": "Operations on one list never change the items, order or length of another list.", "quantifier": "all pairs of list keys, all histories, all hash functions", "why_tests_cant": "depends on hash values of list keys", "anchors": ["src/lists.rs:make_list_key", "src/lists.rs:make_item_key"]}
{"id": "C28", "title": "discard_list removes exactly that list", "statement": "discard_list removes all items of the list (get_from_list returns None for each, iteration is empty, length 0) and nothing else; it returns true if and only if the list had items.", "quantifier": "all list contents", "why_tests_cant": "all contents", "anchors": ["src/lists.rs:owned_discard_list"]}
{"id": "C29", "title": "A crash inside set_in_list is atomic", "statement": "If the process dies at any point inside set_in_list (not promoting), after reopening the list shows exactly the items from before or from after the call, consistently through get_from_list and iteration; other lists are unaffected.", "quantifier": "all crash points, all lists", "why_tests_cant": "crash points cannot be hit by tests", "anchors": ["src/lists.rs:_insert_to_list"]}
{"id": "C30", "title": "A crash inside remove_from_list keeps get and iteration consistent", "statement": "If the process dies at any point inside remove_from_list / pop_list_*, after reopening the item is either still completely in the list or completely gone, through get_from_list, iteration and length alike; all other items are intact.", "quantifier": "all crash points, all lists", "why_tests_cant": "crash points cannot be hit by tests", "anchors": ["src/lists.rs:owned_remove_from_list"]}
{"id": "C31", "title": "Failed list and queue calls have no effect", "statement": "A list or queue call that returns an error because the item key or value is too long leaves every observable (items, length, ranges) unchanged.", "quantifier": "all keys and values beyond the limits", "why_tests_cant": "boundary values with histories", "anchors": ["src/lists.rs:_insert_to_list", "src/queues.rs:_push_to_queue", "src/queues.rs:extend_queue"]}
{"id": "C32", "title": "A queue is a double-ended queue", "statement": "push_to_queue_head/tail, pop_queue_head/tail, peek_queue_head/tail, iter_queue(_backwards) behave as on an ideal deque of (index,value) pairs with strictly increasing indices: each pushed element gets an index beyond all present ones and is returned by pop exactly once, in order.", "quantifier": "all histories of queue calls", "why_tests_cant": "histories are unbounded", "anchors": ["src/queues.rs:_push_to_queue", "src/queues.rs:_pop_queue", "src/queues.rs:QueueIterator"]}
{"id": "C33", "title": "remove_from_queue removes exactly the indexed element", "statement": "remove_from_queue(q,i) returns and removes the element with index i (None if absent) and leaves the queue a well-formed deque of the other elements; later pushes and pops behave normally.", "quantifier": "all queue contents, all indices, all later histories", "why_tests_cant": "needs particular contents and follow-up calls", "anchors": ["src/queues.rs:remove_from_queue"]}
{"id": "C34", "title": "queue_len and queue_range are exact", "statement": "queue_len is the number of elements in the queue and queue_range covers all their indices, after every history of queue calls.", "quantifier": "all histories", "why_tests_cant": "as C32", "anchors": ["src/queues.rs:queue_len", "src/queues.rs:queue_range", "src/queues.rs:fetch_queue"]}
{"id": "C35", "title": "extend_queue appends all elements in order", "statement": "extend_queue appends the given elements in order at the tail and returns the index range they occupy, equivalent to pushing them one by one.", "quantifier": "all queues, all element sequences", "why_tests_cant": "all sequences", "anchors": ["src/queues.rs:extend_queue"]}
{"id": "C36", "title": "Big values round-trip", "statement": "get_big after set_big(k,v) returns Some(v) for every byte string v, remove_big and set_big report existence correctly, and distinct keys do not interfere.", "quantifier": "all values of any length including 0 and multiples of the chunk size", "why_tests_cant": "all lengths", "anchors": ["src/store.rs:set_big", "src/store.rs:get_big", "src/store.rs:remove_big"]}
{"id": "C37", "title": "Typed wrappers round-trip and are isolated by type", "statement": "For any key/value codec with decode(encode(x)) = x, the typed store behaves as a map from typed keys to typed values; wrappers whose keys have different TYPE_IDs never interfere, nor do they interfere with the untyped key-value API.", "quantifier": "all codecs, keys, values, type ids", "why_tests_cant": "all byte encodings", "anchors": ["src/typed.rs:CandyTypedStore::make_key", "src/typed.rs:CandyTypedList::make_list_key"]}
{"id": "C38", "title": "Concurrent list/queue calls are serializable", "statement": "Any number of threads calling list or queue mutators concurrently leave the store as if the calls had been executed one at a time in some order consistent with each thread's program order, with the same return values.", "quantifier": "all numbers of threads, calls and interleavings of their storage accesses", "why_tests_cant": "schedules are unbounded", "anchors": ["src/lists.rs:lock_list", "src/store.rs:keyed_locks"]}
{"id": "C39", "title": "Concurrent pop returns the value it removed", "statement": "If pop_list_head (or tail) returns (k,v) then v is the value item k had when it was removed, also when other threads update the item at the same time (no acknowledged update is lost unobserved).", "quantifier": "all interleavings with other list calls", "why_tests_cant": "schedules are unbounded", "anchors": ["src/lists.rs:owned_pop_list_head", "src/lists.rs:owned_pop_list_tail"]}
{"id": "C40", "title": "Every hash belongs to exactly one shard", "statement": "In every reachable store the shards' hash ranges partition the whole 16-bit selector range, each operation is routed to the shard whose range contains the key's selector, and every stored key lies in the range of the shard storing it.", "quantifier": "all histories of splits, merges, reopenings", "why_tests_cant": "tree shapes are unbounded", "anchors": ["src/router.rs:ShardRouter::shared_op", "src/router.rs:treeify", "src/router.rs:create_initial_shards", "src/shard.rs:Shard::split"]}
{"id": "C41", "title": "Shard file names round-trip and leftover files are recognised", "statement": "The name written for any span is parsed back to that span on open, different spans have different names, and temporary files are never mistaken for shards.", "quantifier": "all spans", "why_tests_cant": "all spans", "anchors": ["src/router.rs:ShardRouter::load", "src/shard.rs:Shard::open"]}
{"id": "C42", "title": "Consolidation keeps exactly the outermost ranges", "statement": "For any set of shard files left by interrupted splits and merges, opening keeps a set of pairwise disjoint ranges that covers everything covered before, and deletes only files whose range is contained in a kept one.", "quantifier": "all sets of nested-or-disjoint ranges", "why_tests_cant": "all sets", "anchors": ["src/router.rs:consolidate_ranges"]}
{"id": "C43", "title": "Key signatures are never the empty-slot marker", "statement": "For every key and seed the signature stored for the key differs from the empty-slot marker, and shard and row numbers are in range.", "quantifier": "all 128-bit hash values", "why_tests_cant": "2^128 values", "anchors": ["src/hashing.rs:PartedHash::from_hash", "src/hashing.rs:row_selector"]}
{"id": "C44", "title": "What is written to a shard file is what is read back", "statement": "A pair written to a shard file is read back byte for byte as long as it is referenced, whatever is written later, provided the file stays below 4 GiB; and key-value calls never grow a file beyond that.", "quantifier": "all write sequences, all offsets and lengths", "why_tests_cant": "all offsets; overflow needs 4 GiB of history", "anchors": ["src/shard.rs:MmapFile::write_kv", "src/shard.rs:MmapFile::read_kv", "src/shard.rs:Shard::insert"]}
{"id": "C45", "title": "flush makes acknowledged writes durable", "statement": "After flush() returns, a machine crash loses none of the writes acknowledged before flush was called.", "quantifier": "all states including compacting shards", "why_tests_cant": "needs power-failure at all points", "anchors": ["src/shard.rs:Shard::flush", "src/store.rs:CandyStore::flush"]}
{"id": "C46", "title": "Flush aggregation never acknowledges an unsynced write", "statement": "With flush aggregation on, whenever a modifying call returns successfully, a sync of the shard file that began after the call's data was written has completed, for any number of concurrent callers.", "quantifier": "all interleavings of concurrent writers", "why_tests_cant": "schedules are unbounded", "anchors": ["src/shard.rs:Shard::flush_aggregation"]}
{"id": "C47", "title": "List lock striping is sound", "statement": "For every max_concurrent_list_ops (up to 2^31) the number of locks is a power of two at least max(4,n), the lock chosen for any list exists, and the same list always uses the same lock.", "quantifier": "all configurations and hashes", "why_tests_cant": "all values", "anchors": ["src/store.rs:CandyStore::open", "src/lists.rs:lock_list"]}
{"id": "C48", "title": "The recent-events buffer keeps the last N events", "statement": "stats().last_split_stats / last_compaction_stats report exactly the most recent (at most 8) events since the last call, oldest first.", "quantifier": "all event sequences", "why_tests_cant": "all sequence lengths", "anchors": ["src/stats.rs:CyclicArr", "src/stats.rs:fill_stats"]}
{"id": "C49", "title": "Pre-splitting covers the hash space", "statement": "For every expected_number_of_keys the initial shards partition the selector space into equal power-of-two ranges, at least as many as the expected number of keys requires, and the routing tree over them is well formed.", "quantifier": "all expected_number_of_keys", "why_tests_cant": "all values", "anchors": ["src/router.rs:calc_step", "src/router.rs:create_initial_shards", "src/router.rs:treeify"]}
{"id": "C50", "title": "Creating or clearing a store is crash-safe", "statement": "If the process dies while creating a new store or inside clear(), the directory can be opened again.", "quantifier": "all crash points, all configurations", "why_tests_cant": "crash points cannot be hit by tests", "anchors": ["src/router.rs:create_initial_shards", "src/router.rs:ShardRouter::clear", "src/shard.rs:Shard::open"]}
{"id": "C51", "title": "clear empties the store", "statement": "After clear() every get returns None, iteration is empty, statistics are zero and the store is usable as a new one.", "quantifier": "all reachable states", "why_tests_cant": "all states", "anchors": ["src/router.rs:ShardRouter::clear", "src/store.rs:CandyStore::clear"]}
{"id": "C52", "title": "merge_small_shards is safe to call concurrently with writers", "statement": "No acknowledged write is lost if merge_small_shards runs while other threads keep inserting.", "quantifier": "all interleavings with writers and the background compactions they start", "why_tests_cant": "schedules are unbounded", "anchors": ["src/router.rs:merge_small_shards", "src/shard.rs:Shard::open", "src/shard.rs:Shard::do_compaction"]}
{"id": "C53", "title": "Concurrent set_big on one key leaves one of the values", "statement": "If several threads call set_big on the same key, afterwards get_big returns one of the values, never a mixture.", "quantifier": "all interleavings", "why_tests_cant": "schedules are unbounded", "anchors": ["src/store.rs:set_big", "src/queues.rs:extend_queue"]}
{"id": "C54", "title": "peek on a never-empty queue finds an element", "statement": "If a queue is non-empty during the whole peek_queue_head/tail call, the call does not return None, whatever other threads push and pop.", "quantifier": "all interleavings", "why_tests_cant": "schedules are unbounded", "anchors": ["src/queues.rs:QueueIterator", "src/queues.rs:peek_queue_head"]}
{"id": "C55", "title": "Built-in assertions and panics never fire in normal operation", "statement": "No reachable uncrashed state and no call through the public list, queue and key-value API makes the library panic (failed assertion, unreachable!, slice or integer underflow).", "quantifier": "all histories", "why_tests_cant": "all histories", "anchors": ["src/shard.rs:do_compaction", "src/shard.rs:split", "src/shard.rs:merge", "src/router.rs:treeify", "src/lists.rs:_insert_to_list", "src/store.rs:set_raw"]}
{"id": "C56", "title": "A crash inside a queue call is atomic for the elements", "statement": "If the process dies at any point inside push_to_queue_head/tail, pop_queue_head/tail or extend_queue, after reopening iter_queue shows exactly the elements from before or from after the call; discard_queue leaves an end of the queue; other queues are unaffected.", "quantifier": "all histories and crash points", "why_tests_cant": "crash points cannot be hit by tests", "anchors": ["src/queues.rs:_push_to_queue", "src/queues.rs:_pop_queue", "src/queues.rs:extend_queue", "src/queues.rs:discard_queue"]}
{"id": "C57", "title": "A crash inside set_big is atomic", "statement": "If the process dies at any point inside set_big, after reopening get_big returns the old or the new value.", "quantifier": "all histories and crash points", "why_tests_cant": "crash points cannot be hit by tests", "anchors": ["src/store.rs:set_big", "src/queues.rs:discard_queue", "src/queues.rs:extend_queue"]}
{"id": "C58", "title": "A store may be reopened with other options", "statement": "Opening an existing store with the same hash seed but other values of the remaining options (shard size, compaction threshold, expected number of keys, number of list locks) succeeds and shows the same contents, and the store goes on working.", "quantifier": "all reachable stores and pairs of configurations", "why_tests_cant": "all pairs of configurations", "anchors": ["src/store.rs:CandyStore::open", "src/router.rs:ShardRouter::new", "src/router.rs:ShardRouter::load"]}
{"id": "C59", "title": "A crash inside compact_list_if_needed, set_in_list_promoting or discard_list loses nothing it should not", "statement": "If the process dies inside compact_list_if_needed the list still has all its items in order; inside set_in_list_promoting the item is still in the list, with the old or the new value; inside discard_list the list is complete or gone.", "quantifier": "all histories and crash points", "why_tests_cant": "crash points cannot be hit by tests", "anchors": ["src/lists.rs:compact_list_if_needed", "src/lists.rs:owned_set_in_list_promoting", "src/lists.rs:owned_discard_list"]}
{"id": "C60", "title": "All shards, rows and signatures are usable", "statement": "The shard, the row and the signature of a key are taken from disjoint bits of its 128-bit hash (bits 48-63, 32-47 mod 64 and the first non-zero 32-bit part), so that every shard selector, row and non-zero signature is used by some hash and a uniform hash spreads keys over all rows.", "quantifier": "all 128-bit hash values", "why_tests_cant": "2^128 values", "anchors": ["src/hashing.rs:PartedHash::from_hash", "src/hashing.rs:PartedHash::shard_selector", "src/hashing.rs:PartedHash::row_selector"]}
{"id": "C61", "title": "The write counters count every write once, by size", "statement": "stats() reports exactly the number of entries written, their total size, and how many fell into each of the five size classes, in whatever order concurrent writers report them.", "quantifier": "all sequences of entry sizes", "why_tests_cant": "all sequences", "anchors": ["src/stats.rs:InternalStats::add_entry"]}
{"id": "C62", "title": "Concurrent calls are serializable down to single memory accesses", "statement": "Whatever the threads and the background compactions do between any two memory accesses (loads and stores of signatures and descriptors, single bytes of data, counters, fetch_add of the write offset, locks), every call that has returned can be given a moment between its beginning and its return such that all calls answer as if executed one after the other at these moments on an ideal map, ideal lists and ideal queues; no assertion of a compaction fails.", "quantifier": "all histories followed by all interleavings, at the granularity of single memory accesses, of any number of threads with any number of calls, with compactions and splits at any moment", "why_tests_cant": "schedules are unbounded; a race shows up in one of astronomically many", "anchors": ["src/shard.rs:operate_on_row", "src/shard.rs:operate_on_row_mut", "src/shard.rs:do_compaction", "src/shard.rs:begin_compaction", "src/shard.rs:background_compact", "src/shard.rs:try_replace", "src/shard.rs:insert", "src/shard.rs:remove", "src/router.rs:shared_op", "src/router.rs:insert"]}
{"id": "C63", "title": "No deadlock", "statement": "Whenever a call is in progress, some thread or some background compaction can make a step: the locks of lists and queues, the guards of the shard nodes, the guards of the files and the row locks never wait for each other in a circle, also while compactions and splits are waited for.", "quantifier": "all interleavings, at the granularity of single memory accesses, of any number of threads with any number of calls of any kind", "why_tests_cant": "schedules are unbounded", "anchors": ["src/shard.rs:operate_on_row", "src/shard.rs:operate_on_row_mut", "src/shard.rs:do_compaction", "src/shard.rs:begin_compaction", "src/shard.rs:background_compact", "src/shard.rs:wait_for_compaction", "src/router.rs:shared_op", "src/router.rs:insert", "src/lists.rs:lock_list"]}
{"id": "C64", "title": "Counters stay exact under concurrency", "statement": "After any life of the store without a crash since its creation or last clear - calls one at a time or made by any number of threads whose single memory accesses alternate in any way that the locks allow, with background compactions and splits - stats() reports exactly the number of stored entries and their bytes, the counters have not underflowed, and iter_raw yields every stored pair exactly once. So no update of a counter is lost, doubled, or applied to the wrong file of a shard under compaction.", "quantifier": "all lives of a store with sequential and concurrent periods, all calls, all interleavings of memory accesses, compactions and splits", "why_tests_cant": "The counters are separate atomics updated after the data; whether they end up consistent depends on the interleaving with the compaction that switches files row by row.", "anchors": ["src/shard.rs:insert", "src/shard.rs:remove", "src/shard.rs:try_replace", "src/shard.rs:write_kv", "src/shard.rs:do_compaction", "src/shard.rs:background_compact", "src/shard.rs:get_stats"]}
{"id": "C65", "title": "Durable linearizability: the process may be killed while threads are at work", "statement": "If the process is killed at any moment of a concurrent period - between any two memory accesses of any threads and background compactions, with starts of compactions and splits half-done - the directory can be opened again (also if opening is itself interrupted), and what is read then is exactly what could be read at the moment of the crash. So every call that had returned is kept; a call in progress has happened completely, or is as if a process making only this call had died inside it; and the calls made after the restart answer as the ideal map, lists and queues do after this history.", "quantifier": "all lives of a store, all interleavings of memory accesses, all moments, all histories after the restart", "why_tests_cant": "a crash test can hit only some moments of some schedules", "anchors": ["src/shard.rs:insert", "src/shard.rs:remove", "src/shard.rs:do_compaction", "src/shard.rs:begin_compaction", "src/shard.rs:background_compact", "src/shard.rs:split", "src/shard.rs:Shard::open", "src/router.rs:load", "src/router.rs:insert"]}
{"id": "C66", "title": "get_from_list always finds an item that is present, whatever other threads do", "statement": "If an item is in a list and nobody removes it or discards the list, every get_from_list of it - also concurrently with inserts, updates, removals of other items and compaction of the same list by other threads, with splits and background compactions of the shards, and although it takes no lock of the list - returns a value, which is the one from before or one that a concurrent call puts there; and all such reads are linearizable with the other calls.", "quantifier": "all lives of a store, all interleavings of memory accesses of any number of threads", "why_tests_cant": "a stale or missing read shows up only in rare interleavings", "anchors": ["src/lists.rs:owned_get_from_list", "src/lists.rs:_insert_to_list", "src/lists.rs:compact_list_if_needed", "src/lists.rs:owned_remove_from_list", "src/shard.rs:get"]}
{"id": "C67", "title": "Most calls never panic, whatever other threads do", "statement": "No key-value, list, queue or big-value call panics, except possibly those that decrease the number of items of a list or queue or count its holes (remove_from_list, set_in_list_promoting, pop_list_*, compact_list_if_needed, remove_from_queue, pop_queue_*; see C55): also while other threads make any calls on the same list or queue, on lists whose keys have the same hash, and after crashes at any moment. In particular no unreachable!() of the list code is reached and no stored record is ever decoded with a wrong size.", "quantifier": "all lives of a store, all interleavings of memory accesses of any number of threads making any calls", "why_tests_cant": "a panic would show up only in rare interleavings, hash collisions and crash points", "anchors": ["src/lists.rs:_insert_to_list", "src/lists.rs:owned_set_in_list", "src/lists.rs:owned_replace_in_list", "src/lists.rs:owned_get_or_create_in_list", "src/lists.rs:get_from_list_at_index", "src/lists.rs:owned_discard_list", "src/lists.rs:owned_list_len", "src/queues.rs:_push_to_queue", "src/queues.rs:extend_queue", "src/queues.rs:discard_queue"]}
{"id": "C68", "title": "Every concurrent history of calls of any kind is explained by atomic parts", "statement": "Calls that are not atomic (set_in_list_promoting, pop_list_*, iteration and peeking, list_len, set_big, get_big) consist of parts, each of which is an atomic call of the public API: promoting is remove_from_list and then set_in_list; pop_list_* reads an item and removes it, again and again until a removal succeeds; iterating a list reads single items as get_from_list does; iterating a queue reads its range and then elements of it in order; set_big is discard_queue and then extend_queue. Every history of calls of all kinds made by any number of threads, with crashes at any moment, is explained by a sequential history of these parts, each at a moment of its own between the beginning and the return of its call, in which all parts answer as the ideal map, lists and queues do.", "quantifier": "all lives of a store, all calls, all interleavings of memory accesses of any number of threads, compactions and splits, all crash points", "why_tests_cant": "unbounded schedules; a lost or invented effect shows up only in rare interleavings", "anchors": ["src/lists.rs:owned_set_in_list_promoting", "src/lists.rs:pop_list_head", "src/lists.rs:iter_list", "src/lists.rs:peek_list_head", "src/lists.rs:list_len", "src/queues.rs:iter_queue", "src/queues.rs:peek_queue_head", "src/store.rs:set_big", "src/store.rs:get_big"]}
{"id": "C69", "title": "No list item is handed out twice", "statement": "When any number of threads take items out of a list at the same time (pop_list_head, pop_list_tail, remove_from_list) while others read, iterate, compact, discard or insert other items, an item that nobody puts into the list meanwhile is returned by at most one of these calls.", "quantifier": "all lives of a store, all interleavings of memory accesses of any number of threads making any calls", "why_tests_cant": "two workers getting the same item is a race that tests rarely hit", "anchors": ["src/lists.rs:pop_list_head", "src/lists.rs:pop_list_tail", "src/lists.rs:owned_remove_from_list"]}
{"id": "C70", "title": "No value comes from nowhere", "statement": "Every value that any call returns - get, the previous value of set, replace, remove and get_or_create, the items of a list from get_from_list, iteration, peek, pop, remove, the elements of a queue - was given for the same key, list item or queue by a call that had begun before the returning call returned: also while other threads make any calls on the same key, list or queue, discard it, compact it, after the process was killed at any moment, and for lists whose keys have the same hash (for which it may have been given to the other list). A big value is a sequence of such pieces. So no value is ever torn, invented, taken from another key or resurrected with other contents.", "quantifier": "all lives of a store, all calls, all interleavings of memory accesses of any number of threads, all crash points", "why_tests_cant": "a torn or mixed-up value appears only in rare interleavings and crash points", "anchors": ["src/shard.rs:get", "src/shard.rs:insert", "src/store.rs:get", "src/lists.rs:_insert_to_list", "src/lists.rs:get_from_list_at_index", "src/lists.rs:compact_list_if_needed", "src/queues.rs:_pop_queue", "src/store.rs:get_big"]}
{"id": "C71", "title": "Concurrent iteration over a queue misses no element that stays", "statement": "If an element is in a queue and stays there (nobody removes it or discards the queue, and no pop takes it), then every iteration over the queue by any thread, forwards or backwards, begun and finished at any moments while other threads push, extend, pop and remove other elements and use other keys, lists and queues, returns it exactly once, with its value and in the right order relative to the other elements that stay; get_big contains its piece; peek and pop at either end return some element (never None), and one that is at least as near to that end; queue_range covers its index.", "quantifier": "all lives of a store, all interleavings of memory accesses of any number of threads making any calls that do not take the element out", "why_tests_cant": "the iterator takes no lock while it walks: a missed element shows up only in rare interleavings with pushes, pops and removals", "anchors": ["src/queues.rs:iter_queue", "src/queues.rs:iter_queue_backwards", "src/queues.rs:peek_queue_head", "src/queues.rs:peek_queue_tail", "src/queues.rs:_pop_queue", "src/queues.rs:_push_to_queue", "src/queues.rs:extend_queue", "src/queues.rs:remove_from_queue", "src/queues.rs:queue_range", "src/store.rs:get_big"]}
{"id": "C72", "title": "Concurrent iteration over a list misses no item that stays", "statement": "If an item is in a list and stays there (nobody removes or promotes it or discards the list, and no pop takes it), then every iteration over the list by any thread, forwards or backwards, begun and finished at any moments while other threads insert, replace, promote, pop and remove other items and use other keys, lists and queues, returns it exactly once, in the right order relative to the other items that stay, and with a value that it had at the beginning or was given meanwhile; peek and pop at either end return some item (never None); get_from_list finds it. Excluded: compact_list_if_needed on the same list during the iteration, which moves all items to other indices, so that a concurrent iteration misses them (get_from_list still finds them).", "quantifier": "all lives of a store, all interleavings of memory accesses of any number of threads making any calls that do not take the item out", "why_tests_cant": "the iterator takes no lock while it walks: a missed item shows up only in rare interleavings with insertions, pops and removals", "anchors": ["src/lists.rs:iter_list", "src/lists.rs:iter_list_backwards", "src/lists.rs:peek_list_head", "src/lists.rs:peek_list_tail", "src/lists.rs:pop_list_head", "src/lists.rs:_insert_to_list", "src/lists.rs:remove_from_list", "src/lists.rs:get_from_list", "src/lists.rs:compact_list_if_needed"]}
{"id": "C73", "title": "clear is one of the concurrent calls", "statement": "Threads may call clear while others make key-value, list and queue calls: every clear that returns Ok happens at one moment between its beginning and its return, and together with the other calls, in an order compatible with real time, everything answers as the ideal map, lists and queues do, which a clear empties. So a key, list or queue written only by calls that returned before the clear began is gone, and what is written by calls that begin after the clear has returned is there. For list and queue calls this holds if no such call is between its first and last access to the list or queue when the store is cleared (it is false otherwise: clear does not take the locks of lists and queues, and a list may be left whose items can be fetched by key but are missing from iteration).", "quantifier": "all lives of a store, all interleavings of any number of threads making any calls and of any number of clears", "why_tests_cant": "the clear has to hit the window between two accesses of another call", "anchors": ["src/router.rs:clear", "src/store.rs:clear", "src/router.rs:shared_op", "src/router.rs:insert", "src/lists.rs:lock_list", "src/lists.rs:_insert_to_list"]}
{"id": "C74", "title": "clear while background compactions run", "statement": "clear called while background compactions of shards are still running either succeeds and leaves exactly the files of a new, empty store, which the compactions do not change afterwards, or fails and leaves the store as it was, which can then be closed and opened again. It succeeds exactly if no compaction finishes (renames its file) between the moment clear lists the directory and the moment it has deleted the files. (The second half is false of the code: if a compaction finishes meanwhile, clear fails after it has deleted files of other shards, the open store goes on answering, but after closing it the directory can no longer be opened: open panics.)", "quantifier": "all reachable stores, all running compactions, all interleavings of the file operations of clear with the stores and renames of the compactions", "why_tests_cant": "the rename has to fall between two particular file operations of another thread", "anchors": ["src/router.rs:clear", "src/shard.rs:background_compact", "src/shard.rs:begin_compaction", "src/router.rs:treeify", "src/router.rs:create_initial_shards"]}
{"id": "C75", "title": "Shard files stay below the 4 GiB that offsets can express", "statement": "Whatever is written to a store in total, and however often keys are overwritten, no shard file outgrows the 32 bits that a slot has for an offset, so no entry is ever stored at a place it cannot be read from: splitting and compaction keep a file at max_shard_size, or at the largest possible live contents of a shard, plus what is inserted while it is being compacted. This needs the background compaction of a shard to finish before 805 MB have been inserted into that shard: while a compaction is running (or after it has failed) neither the size of the file nor the waste is checked, and a set beyond 4 GiB returns Ok although the key cannot be found afterwards.", "quantifier": "all histories of calls, background steps, merges, clears and reopenings, of any length and writing any number of bytes; all configurations with max_shard_size up to 4 GiB less the quota", "why_tests_cant": "needs gigabytes of writes and a compaction that is late", "anchors": ["src/shard.rs:insert", "src/shard.rs:begin_compaction", "src/shard.rs:background_compact", "src/shard.rs:write_kv", "src/shard.rs:read_kv", "src/shard.rs:split", "src/router.rs:insert", "src/router.rs:merge_small_shards"]}
{"id": "C76", "title": "A call that returns an I/O error has happened or not", "statement": "If a system call made on behalf of a call fails (reading or writing a pair, creating the file of a compaction, anything during a split, the sync of flush_aggregation), the call returns the error; its effect on the key-value store is then all or nothing, no other key changes, and nothing acknowledged before or afterwards is lost: the store goes on answering like an ideal map, and so it does after it has been closed and opened again, whatever files the failed operation left, and after a crash. A get that fails changes nothing. For lists and queues a failed call leaves what a crash in the middle of the call leaves. (An error does not mean that nothing happened: set may store the value and then return an error.)", "quantifier": "all histories of calls, failing at any system call, any number of times, with background compactions, splits, merges, clears, reopenings and crashes of the process between them; all remains of failed operations in the directory", "why_tests_cant": "an error has to be injected at every system call of every history", "anchors": ["src/shard.rs:insert", "src/shard.rs:try_replace", "src/shard.rs:remove", "src/shard.rs:get", "src/shard.rs:write_kv", "src/shard.rs:read_kv", "src/shard.rs:begin_compaction", "src/shard.rs:split", "src/router.rs:insert", "src/router.rs:load", "src/shard.rs:open"]}
{"id": "C77", "title": "A failed background compaction loses nothing", "statement": "If the background compaction of a shard fails with an I/O error at any point, the store goes on answering like an ideal map: no value changes at the moment of the failure, everything written before and afterwards is served, the error is returned by some later call on that shard, which has then happened or not, and closing and reopening the store keeps everything. (False of the code in two cases: if the compaction failed in the middle of a row, a key of that row that is removed afterwards is back after the store has been closed and opened again; and if after the error has been reported merge_small_shards is called again, values set since the compaction began are lost.)", "quantifier": "all histories of calls, background steps, failures of any number of compactions at any of their steps, clears, merges and reopenings; all keys and values", "why_tests_cant": "an error has to be injected at every step of the background thread, and what it breaks shows up only after later calls", "anchors": ["src/shard.rs:background_compact", "src/shard.rs:do_compaction", "src/shard.rs:begin_compaction", "src/shard.rs:wait_for_compaction", "src/shard.rs:get_stats", "src/shard.rs:operate_on_row", "src/shard.rs:open", "src/shard.rs:merge", "src/router.rs:merge_small_shards"]}
{"id": "C78", "title": "A failed merge_small_shards loses nothing", "statement": "If merge_small_shards returns an I/O error, at any point, the store stays open and goes on answering like an ideal map, and closing and reopening it keeps everything: what was there before, and what has been written since. (The last part is false of the code: the open store goes on writing to files that the failed merge has deleted or covered by a merged file, so that values set after the failure may be back to their old ones after reopening. Every key then has its last value or the one from the time of the failure.)", "quantifier": "all histories of calls, background steps, clears, merges and reopenings, with merges failing at any system call and calls failing with I/O errors; all keys and values", "why_tests_cant": "an error has to be injected at every system call of the merge, and what it breaks shows up only after later writes and a reopening", "anchors": ["src/router.rs:merge_small_shards", "src/router.rs:_merge", "src/shard.rs:merge", "src/router.rs:load", "src/router.rs:treeify"]}
{"id": "C79", "title": "Settings other than the hash seed may be changed between openings", "statement": "A store may be opened with another configuration than before: as long as the hash seed is the same (and max_shard_size is not lowered below the size of one record, expected_number_of_keys is at most 65536*29491), the opening succeeds, everything stored under the earlier configurations is there, and the store goes on answering like one ideal map through any number of openings with different settings, after clean closings and after crashes; which pairs are refused as too large is decided by the current configuration. (The hash seed must not change: with another seed the store opens without an error but does not find its keys.)", "quantifier": "all sequences of configurations with the same seed, all histories of calls, background steps, splits, merges, clears, reopenings and crashes under each of them", "why_tests_cant": "tests open stores with one configuration; files written under one setting of the limits are read, compacted, split and merged under another in ways that depend on the whole history", "anchors": ["src/store.rs:open", "src/router.rs:load", "src/shard.rs:open", "src/shard.rs:insert", "src/router.rs:calc_step", "src/lib.rs:Config"]}
{"id": "C80", "title": "Keys are atomic registers, usable as synchronization primitives by any number of threads", "statement": "Whatever else threads do concurrently (calls of any kind on any key, list or queue), the calls on one key behave like those on one atomic register that starts with the key's value, and the key has the register's value afterwards. Hence: if a key is only read and get_or_create'd concurrently, at most one call reports to have created it (none if it existed) and all see the same value; if threads update a key only by replace(key, f(e), Some(e)), then once all calls have returned f has been applied exactly as often as replace reported success (no lost update); and if threads take a lock by get_or_create (the creator has it) and only the holder removes the key, at most one thread holds the lock at any moment.", "quantifier": "all earlier histories of the store, all numbers of threads, all programs of calls and all interleavings of their memory accesses with each other and with background compactions and splits; all functions f", "why_tests_cant": "lost updates and double creations occur only in rare interleavings of memory accesses, with compactions or splits in between", "anchors": ["src/store.rs:get_or_create", "src/store.rs:replace", "src/store.rs:remove", "src/shard.rs:insert", "src/shard.rs:try_replace", "src/shard.rs:remove", "src/shard.rs:operate_on_row", "src/shard.rs:background_compact"]}
{"id": "C81", "title": "The activity counters count the answers", "statement": "While a store is open, stats().num_positive_lookups is the number of get, contains and get_or_create calls that found their key since the store was opened or last cleared, num_negative_lookups the number of get and contains calls that did not, and num_updates the number of set and replace calls that changed a value to a different one; num_collisions is at most the number of keys created. With any number of threads making key-value calls, and whatever compactions, splits and merges happen in between (a retried insertion is not counted twice).", "quantifier": "all histories of an open store with concurrent key-value calls", "why_tests_cant": "every place where an operation is retried or leaves early must count exactly once", "anchors": ["src/stats.rs:InternalStats", "src/stats.rs:fill_stats", "src/shard.rs:Shard::get", "src/shard.rs:Shard::try_replace", "src/shard.rs:Shard::insert", "src/store.rs:CandyStore::clear"]}
{"id": "C82", "title": "The statistics stay meaningful after a crash", "statement": "After any history with crashes anywhere, stats() does not panic, reports the number of shards, num_entries() is the number of stored pairs and data_bytes() at least their total size, and merge_small_shards does not panic. (False of the code for the number of entries: a process that dies inside set may leave an entry that is there but not counted, so that after its removal num_entries() underflows and merge_small_shards panics; one that dies inside remove leaves a count that is too high.)", "quantifier": "all histories of calls, background steps, merges, clears and reopenings, with crashes of the process between any two stores to memory or files", "why_tests_cant": "the counters are written by separate stores after the entry itself, so that only certain crash points, followed by a certain call, show it", "anchors": ["src/shard.rs:insert", "src/shard.rs:remove", "src/shard.rs:num_items", "src/shard.rs:get_stats", "src/stats.rs:Stats", "src/router.rs:merge_small_shards"]}
{"id": "C83", "title": "Other files in the directory are left alone and do no harm", "statement": "If the directory of a store also contains entries that are not the store's (files, subdirectories, names that are not UTF-8), opening the store, all its operations, clear and recovery from crashes behave as if they were not there and leave them as they are. (False of the code for files whose names begin like those of the store: a backup copy shard_0000-10000.bak makes opening panic, a copy shard_0-10000 makes opening delete the shard file itself and all its data, files like top_secret.txt are deleted when the store is opened and files like compact_disc.iso by clear.)", "quantifier": "all contents of the directory, all other entries anywhere between the store's files, all states of the store, all operations, finished or cut off at any point", "why_tests_cant": "tests use fresh directories; the other names, and their order among the store's files, are arbitrary", "anchors": ["src/router.rs:load", "src/router.rs:clear", "src/router.rs:consolidate_ranges", "src/shard.rs:open"]}
{"id": "C84", "title": "The compaction threads neither deadlock nor panic, and compact one shard at a time", "statement": "With at least one compaction thread (num_compaction_threads), however many threads read, write, split shards and ask for statistics: no background compaction is started on a shard before the previous one of that shard has ended successfully and its result has been collected, and none is ever started again after a failure has been reported; no two compaction threads work on the same shard; the assertions and unwraps of the compaction code never fail and no compaction thread dies; every result is delivered at most once; there is no deadlock between the locks of a shard, the queue of compactions and the threads waiting for results, also when the read-write lock makes new readers wait behind a waiting writer; and when no new calls are made, all calls return and all compactions end after a bounded number of steps. (num_compaction_threads = 0 is accepted, but then the first insertion that needs a compaction fails, and the shard counts as being compacted for ever: it is never compacted.)", "quantifier": "all numbers of threads, shards and compaction threads, all schedules of their steps, all failures of file operations in compactions", "why_tests_cant": "deadlocks and double compactions need particular schedules of several threads, and the bound on the number of steps holds for all of them", "anchors": ["src/shard.rs:CompactionThreadPool", "src/shard.rs:TPHandle", "src/shard.rs:begin_compaction", "src/shard.rs:wait_for_compaction", "src/shard.rs:background_compact", "src/shard.rs:do_compaction", "src/shard.rs:operate_on_row", "src/shard.rs:get_stats", "src/shard.rs:Drop"]}
{"id": "C85", "title": "The advice of stats() is right", "statement": "In a store without crashes since its creation or last clear, required_num_shards() is the smallest power of two of shards with room for the stored pairs, should_merge_small_shards() says whether there are more than twice as many shards, average_entry_size() is the mean size of the stored pairs rounded down (0 if there are none), and no subtraction in them underflows; after merge_small_shards has merged shards at least required_num_shards() are left; and when should_merge_small_shards() is true, merge_small_shards tries to merge.", "quantifier": "all histories of a store", "why_tests_cant": "the numbers depend on the whole history; the rounding of calc_step has to be right for every number of pairs", "anchors": ["src/stats.rs:Stats::required_num_shards", "src/stats.rs:Stats::should_merge_small_shards", "src/stats.rs:Stats::average_entry_size", "src/router.rs:ShardRouter::calc_step", "src/router.rs:merge_small_shards"]}
{"id": "C86", "title": "A directory is used by one store at a time", "statement": "However many threads and processes open, use and close stores on one directory: the file accesses of different stores never alternate; while a store is open no other one can be opened on the directory; once a store has been closed (drop has returned), its process has died or open has returned an error, nothing of it - no compaction thread either - accesses the directory any more; open reports that the lock file is in use only if another store is open at that moment; and closing waits for nothing but the store's own compactions.", "quantifier": "all numbers of stores and processes, all schedules of their calls and compaction threads, all moments at which processes die", "why_tests_cant": "needs several processes and a compaction that is still running when the store is closed", "anchors": ["src/store.rs:CandyStore::open", "src/store.rs:CandyStore", "src/shard.rs:Drop", "src/shard.rs:CompactionThreadPool"]}
{"id": "C87", "title": "iter_from_cookie accepts any number", "statement": "Whatever 64-bit number iter_from_cookie is given - a cookie of this store, one taken before the shards were split or merged, one of another store, or no cookie at all - the iteration does not panic, ends, and returns a final part of what a full iteration of the (unmodified) store returns; and it does not panic either while other threads modify the store.", "quantifier": "all histories of the store, all 64-bit numbers, all cookies of other stores and of earlier states", "why_tests_cant": "a cookie is kept by the user while the store changes; tests use cookies of the same iteration only", "anchors": ["src/store.rs:CandyStoreIterator::from_cookie", "src/store.rs:CandyStoreIterator::next", "src/shard.rs:read_at"]}
