#!/usr/bin/env python3
"""Generates /verif/properties.jsonl (kept as a script so entries stay easy to edit)."""
import json
P=[]
def p(id,title,statement,quantifier,why,anchors):
    P.append(dict(id=id,title=title,statement=statement,quantifier=quantifier,why_tests_cant=why,anchors=anchors))
S="src/shard.rs";R="src/router.rs";ST="src/store.rs";L="src/lists.rs";Q="src/queues.rs";H="src/hashing.rs";T="src/typed.rs";X="src/stats.rs";LB="src/lib.rs"

p("C01","The store is a map: reads return the latest acknowledged write",
 "After any sequence of set / get / contains / remove / replace / get_or_create calls, interleaved with any number of background compaction steps, shard splits, iterations, close/reopen and process crashes, every call returns exactly what an ideal in-memory map from byte strings to byte strings would return for the same sequence of calls.",
 "all configurations, all hash functions (seeds), all keys and values, all call sequences, all background-compaction schedules",
 "The state space (which keys collide, when rows fill up, when a compaction is half done) is unbounded; a test only samples a few histories with one seed.",
 [f"{ST}:get_raw",f"{ST}:insert_internal",f"{ST}:remove_raw",f"{S}:Shard::insert",f"{S}:Shard::get",f"{S}:Shard::remove",f"{R}:ShardRouter::insert"])
p("C02","set reports the previous value",
 "set(k,v) returns CreatedNew exactly when k was absent and otherwise PrevValue(old) with old the value k had immediately before; afterwards k maps to v.",
 "all reachable store states, keys, values","Every reachable physical layout must be covered (collisions, compacting shards, splits triggered by the call itself).",
 [f"{ST}:set_raw",f"{S}:Shard::try_replace"])
p("C03","replace is a compare-and-swap",
 "replace(k,v,expected) changes the store only if k exists and (expected is None or equals the current value); it returns DoesNotExist / WrongValue(current) / PrevValue(old) accordingly and never creates a key.",
 "all reachable store states, keys, values, expected values","The no-effect branch must hold for all layouts, including when the call first triggers a split or a compaction.",
 [f"{ST}:replace_raw",f"{S}:Shard::try_replace",f"{S}:Shard::insert"])
p("C04","get_or_create creates at most once and never overwrites",
 "get_or_create(k,d) returns ExistingValue(v) and changes nothing if k maps to v, and otherwise stores d and returns CreatedNew(d).",
 "all reachable store states, keys, values","as C03",[f"{ST}:get_or_create_raw",f"{S}:Shard::try_replace"])
p("C05","remove deletes exactly one key",
 "remove(k) returns the value k had (None if absent); afterwards k is absent and every other key is unchanged.",
 "all reachable store states, all pairs of keys","needs all pairs of keys in all layouts",[f"{ST}:remove_raw",f"{S}:Shard::remove"])
p("C06","Hash collisions never mix up keys",
 "Operations on one key never change what any other key returns, even if the two keys have identical 64-bit hashes (same shard, row and signature).",
 "all hash functions, including constant ones; all pairs of distinct keys","A test can only force a few collisions; the statement is about every hash function.",
 [f"{S}:ShardRow::lookup",f"{S}:Shard::get",f"{H}:PartedHash"])
p("C07","Shard splits are transparent",
 "When an insertion splits a shard (once or repeatedly), no key is lost, duplicated or changed, and the two halves cover exactly the original hash range.",
 "all shard contents, all hash functions, all split depths","all contents and hash distributions",[f"{S}:Shard::split",f"{R}:ShardRouter::insert"])
p("C08","Background compaction is transparent under every schedule",
 "A background compaction interleaved row by row, in any order, with any gets, sets, removes and iterator reads never changes the result of any of them, and the compacted shard holds exactly the live key-value pairs.",
 "all interleavings of row-compaction steps and client operations","the number of schedules is unbounded",
 [f"{S}:Shard::do_compaction",f"{S}:Shard::background_compact",f"{S}:Shard::operate_on_row",f"{S}:Shard::operate_on_row_mut",f"{S}:Shard::begin_compaction"])
p("C09","merge_small_shards preserves contents and completes",
 "merge_small_shards returns (does not deadlock), and no key is lost, duplicated or changed by it, for every store contents and shard-tree shape.",
 "all shard trees, contents, fill levels","tree shapes are unbounded; the existing tests only merge perfectly balanced trees",
 [f"{R}:ShardRouter::_merge",f"{R}:ShardRouter::merge_small_shards",f"{S}:Shard::merge"])
p("C10","Reopening preserves the contents",
 "Closing the store and opening the directory again (same hash seed) yields a store with exactly the same key-value pairs, for every reachable store.",
 "all reachable states","the on-disk layout after an arbitrary history is unbounded",
 [f"{R}:ShardRouter::load",f"{R}:ShardRouter::treeify",f"{R}:consolidate_ranges",f"{S}:Shard::open"])
p("C11","A process crash inside a key-value call is atomic",
 "If the process dies at any instruction inside set / replace / get_or_create / remove (including a partially executed data write), then after reopening, the store holds exactly the contents from before the call or exactly the contents after it; every earlier acknowledged call is preserved.",
 "all crash points, all reachable states, all calls","crash points times states is unbounded, and a test cannot stop the process between two machine stores",
 [f"{S}:MmapFile::write_kv",f"{S}:Shard::insert",f"{S}:Shard::try_replace",f"{S}:Shard::remove"])
p("C12","A process crash inside split, compaction or merge loses nothing",
 "If the process dies at any point of a shard split, a shard compaction or a shard merge (between or inside its file-system operations), reopening yields a store with exactly the same contents.",
 "all crash points, all shard contents","as C11",
 [f"{S}:Shard::split",f"{S}:Shard::do_compaction",f"{S}:Shard::merge",f"{S}:Shard::open",f"{R}:ShardRouter::load"])
p("C13","Recovery is idempotent and itself crash-safe",
 "A crash during reopening (while deleting leftovers or finishing an interrupted compaction), any number of times, followed by a successful reopen gives the same contents as an undisturbed reopen.",
 "all numbers of crashes and crash points inside recovery","nested crash histories are unbounded",
 [f"{R}:ShardRouter::load",f"{R}:consolidate_ranges",f"{S}:Shard::open",f"{S}:Shard::do_compaction"])
p("C14","iter returns each user pair exactly once and nothing else",
 "On a store that is not modified meanwhile, iter() returns every pair written through the key-value API exactly once and never returns list, queue or typed items; iter_raw() returns every stored pair exactly once.",
 "all reachable stores","all layouts: holes, many shards, half-compacted shards",
 [f"{ST}:CandyStoreIterator",f"{S}:Shard::read_at"])
p("C15","An iterator can be resumed from its cookie",
 "For an unmodified store, an iterator created from the cookie of another iterator, taken at any moment, returns exactly the items the other iterator had not yet returned.",
 "all reachable stores, all positions including the end","all positions of all stores",
 [f"{ST}:CandyStoreIterator::cookie",f"{ST}:CandyStoreIterator::from_cookie"])
p("C16","Modifying the store while iterating does not disturb untouched keys",
 "If keys are inserted, updated or removed while an iteration is in progress, every key that is present from the beginning to the end of the iteration and not itself modified is returned exactly once.",
 "all interleavings of iterator steps with modifications (and the splits/compactions they trigger)","interleavings are unbounded",
 [f"{ST}:CandyStoreIterator::next",f"{S}:Shard::do_compaction",f"{S}:Shard::split"])
p("C17","Rejected key-value calls have no effect and the limits are exact",
 "set/replace/get_or_create fail with KeyTooLong exactly when the key exceeds MAX_KEY_SIZE, ValueTooLong exactly when the value exceeds MAX_VALUE_SIZE, and EntryCannotFitInShard exactly when key+1+value exceeds max_shard_size; a failing call leaves the store unchanged.",
 "all keys, values, configurations, states","boundary values over all configurations",
 [f"{ST}:ensure_sizes",f"{ST}:insert_internal",f"{LB}:MAX_KEY_SIZE"])
p("C18","The APIs are isolated from each other",
 "Plain keys, lists, queues/big values and typed items live in separate name spaces: no call of one API changes what another API returns, even when the same key bytes are used.",
 "all key bytes, all calls, all states","a cross-API clash depends on concrete bytes",
 [f"{ST}:USER_NAMESPACE",f"{L}:make_item_key",f"{L}:ChainKey",f"{Q}:make_queue_item_key",f"{T}:make_key"])
p("C19","Insertion terminates",
 "Every set call returns, for every key and every store contents.",
 "all contents, all hash functions","needs adversarial key sets",
 [f"{R}:ShardRouter::insert",f"{S}:Shard::split"])
p("C20","Statistics are exact",
 "In every reachable state of an uncrashed store, stats().num_entries() is the number of pairs stored (over all APIs) and stats().data_bytes() is the total size of their stored keys and values, also after splits, compactions and merges.",
 "all histories","drift only shows after particular histories",
 [f"{X}:Stats",f"{S}:Shard::get_stats",f"{ST}:CandyStore::stats",f"{S}:ShardHeader"])
p("C21","A list is an insertion-ordered map",
 "set_in_list on a new item appends it at the tail, on an existing item updates it in place keeping its position; get_from_list, get_or_create_in_list, replace_in_list (without expected value), remove_from_list behave as on an insertion-ordered map; iter_list returns the items in insertion order and iter_list_backwards in reverse.",
 "all histories of list calls on any number of lists, all keys and values within limits","histories are unbounded; hash collisions between items need adversarial input",
 [f"{L}:_insert_to_list",f"{L}:owned_remove_from_list",f"{L}:ListIterator",f"{L}:get_from_list_at_index"])
p("C22","List pop and peek act on the ends",
 "peek/pop_list_head return (and pop removes) the oldest remaining item, peek/pop_list_tail the newest; None exactly if the list has no items.",
 "all list contents and holes","holes patterns are unbounded",
 [f"{L}:owned_pop_list_head",f"{L}:owned_pop_list_tail",f"{L}:owned_peek_list_head",f"{L}:owned_peek_list_tail"])
p("C23","list_len is the number of items",
 "In an uncrashed store list_len equals the number of items iter_list returns, after every history of list calls.",
 "all histories of list calls, including failing calls","the count drifts only after particular histories",
 [f"{L}:owned_list_len",f"{L}:_insert_to_list",f"{L}:owned_remove_from_list"])
p("C24","compact_list_if_needed preserves the list",
 "Compacting a list changes neither its items nor their order nor any get_from_list result, and afterwards the list has no holes; other lists are untouched.",
 "all list contents and hole patterns","hole patterns are unbounded",
 [f"{L}:compact_list_if_needed"])
p("C25","replace_in_list with an expected value is a compare-and-swap",
 "replace_in_list(l,k,v,Some(e)) replaces the value if and only if the current value of the item equals e, otherwise it returns WrongValue(current) and changes nothing.",
 "all items, values, expected values","needs all values, in particular the matching one",
 [f"{L}:_insert_to_list",f"{L}:owned_replace_in_list"])
p("C26","set_in_list_promoting moves the item to the tail",
 "After set_in_list_promoting(l,k,v) item k has value v and is the last item, all other items keep their relative order; the returned status is CreatedNew if the item did not exist before and PrevValue(old) otherwise.",
 "all list contents","all positions and histories",
 [f"{L}:owned_set_in_list"])
p("C27","Lists are isolated from each other",
 "Operations on one list never change the items, order or length of another list.",
 "all pairs of list keys, all histories, all hash functions","depends on hash values of list keys",
 [f"{L}:make_list_key",f"{L}:make_item_key"])
p("C28","discard_list removes exactly that list",
 "discard_list removes all items of the list (get_from_list returns None for each, iteration is empty, length 0) and nothing else; it returns true if and only if the list had items.",
 "all list contents","all contents",
 [f"{L}:owned_discard_list"])
p("C29","A crash inside set_in_list is atomic",
 "If the process dies at any point inside set_in_list (not promoting), after reopening the list shows exactly the items from before or from after the call, consistently through get_from_list and iteration; other lists are unaffected.",
 "all crash points, all lists","crash points cannot be hit by tests",
 [f"{L}:_insert_to_list"])
p("C30","A crash inside remove_from_list keeps get and iteration consistent",
 "If the process dies at any point inside remove_from_list / pop_list_*, after reopening the item is either still completely in the list or completely gone, through get_from_list, iteration and length alike; all other items are intact.",
 "all crash points, all lists","crash points cannot be hit by tests",
 [f"{L}:owned_remove_from_list"])
p("C31","Failed list and queue calls have no effect",
 "A list or queue call that returns an error because the item key or value is too long leaves every observable (items, length, ranges) unchanged.",
 "all keys and values beyond the limits","boundary values with histories",
 [f"{L}:_insert_to_list",f"{Q}:_push_to_queue",f"{Q}:extend_queue"])
p("C32","A queue is a double-ended queue",
 "push_to_queue_head/tail, pop_queue_head/tail, peek_queue_head/tail, iter_queue(_backwards) behave as on an ideal deque of (index,value) pairs with strictly increasing indices: each pushed element gets an index beyond all present ones and is returned by pop exactly once, in order.",
 "all histories of queue calls","histories are unbounded",
 [f"{Q}:_push_to_queue",f"{Q}:_pop_queue",f"{Q}:QueueIterator"])
p("C33","remove_from_queue removes exactly the indexed element",
 "remove_from_queue(q,i) returns and removes the element with index i (None if absent) and leaves the queue a well-formed deque of the other elements; later pushes and pops behave normally.",
 "all queue contents, all indices, all later histories","needs particular contents and follow-up calls",
 [f"{Q}:remove_from_queue"])
p("C34","queue_len and queue_range are exact",
 "queue_len is the number of elements in the queue and queue_range covers all their indices, after every history of queue calls.",
 "all histories","as C32",[f"{Q}:queue_len",f"{Q}:queue_range",f"{Q}:fetch_queue"])
p("C35","extend_queue appends all elements in order",
 "extend_queue appends the given elements in order at the tail and returns the index range they occupy, equivalent to pushing them one by one.",
 "all queues, all element sequences","all sequences",[f"{Q}:extend_queue"])
p("C36","Big values round-trip",
 "get_big after set_big(k,v) returns Some(v) for every byte string v, remove_big and set_big report existence correctly, and distinct keys do not interfere.",
 "all values of any length including 0 and multiples of the chunk size","all lengths",
 [f"{ST}:set_big",f"{ST}:get_big",f"{ST}:remove_big"])
p("C37","Typed wrappers round-trip and are isolated by type",
 "For any key/value codec with decode(encode(x)) = x, the typed store behaves as a map from typed keys to typed values; wrappers whose keys have different TYPE_IDs never interfere, nor do they interfere with the untyped key-value API.",
 "all codecs, keys, values, type ids","all byte encodings",
 [f"{T}:CandyTypedStore::make_key",f"{T}:CandyTypedList::make_list_key"])
p("C38","Concurrent list/queue calls are serializable",
 "Any number of threads calling list or queue mutators concurrently leave the store as if the calls had been executed one at a time in some order consistent with each thread's program order, with the same return values.",
 "all numbers of threads, calls and interleavings of their storage accesses","schedules are unbounded",
 [f"{L}:lock_list",f"{ST}:keyed_locks"])
p("C39","Concurrent pop returns the value it removed",
 "If pop_list_head (or tail) returns (k,v) then v is the value item k had when it was removed, also when other threads update the item at the same time (no acknowledged update is lost unobserved).",
 "all interleavings with other list calls","schedules are unbounded",
 [f"{L}:owned_pop_list_head",f"{L}:owned_pop_list_tail"])
p("C40","Every hash belongs to exactly one shard",
 "In every reachable store the shards' hash ranges partition the whole 16-bit selector range, each operation is routed to the shard whose range contains the key's selector, and every stored key lies in the range of the shard storing it.",
 "all histories of splits, merges, reopenings","tree shapes are unbounded",
 [f"{R}:ShardRouter::shared_op",f"{R}:treeify",f"{R}:create_initial_shards",f"{S}:Shard::split"])
p("C41","Shard file names round-trip and leftover files are recognised",
 "The name written for any span is parsed back to that span on open, different spans have different names, and temporary files are never mistaken for shards.",
 "all spans","all spans",[f"{R}:ShardRouter::load",f"{S}:Shard::open"])
p("C42","Consolidation keeps exactly the outermost ranges",
 "For any set of shard files left by interrupted splits and merges, opening keeps a set of pairwise disjoint ranges that covers everything covered before, and deletes only files whose range is contained in a kept one.",
 "all sets of nested-or-disjoint ranges","all sets",[f"{R}:consolidate_ranges"])
p("C43","Key signatures are never the empty-slot marker",
 "For every key and seed the signature stored for the key differs from the empty-slot marker, and shard and row numbers are in range.",
 "all 128-bit hash values","2^128 values",[f"{H}:PartedHash::from_hash",f"{H}:row_selector"])
p("C44","What is written to a shard file is what is read back",
 "A pair written to a shard file is read back byte for byte as long as it is referenced, whatever is written later, provided the file stays below 4 GiB; and key-value calls never grow a file beyond that.",
 "all write sequences, all offsets and lengths","all offsets; overflow needs 4 GiB of history",
 [f"{S}:MmapFile::write_kv",f"{S}:MmapFile::read_kv",f"{S}:Shard::insert"])
p("C45","flush makes acknowledged writes durable",
 "After flush() returns, a machine crash loses none of the writes acknowledged before flush was called.",
 "all states including compacting shards","needs power-failure at all points",[f"{S}:Shard::flush",f"{ST}:CandyStore::flush"])
p("C46","Flush aggregation never acknowledges an unsynced write",
 "With flush aggregation on, whenever a modifying call returns successfully, a sync of the shard file that began after the call's data was written has completed, for any number of concurrent callers.",
 "all interleavings of concurrent writers","schedules are unbounded",[f"{S}:Shard::flush_aggregation"])
p("C47","List lock striping is sound",
 "For every max_concurrent_list_ops (up to 2^31) the number of locks is a power of two at least max(4,n), the lock chosen for any list exists, and the same list always uses the same lock.",
 "all configurations and hashes","all values",[f"{ST}:CandyStore::open",f"{L}:lock_list"])
p("C48","The recent-events buffer keeps the last N events",
 "stats().last_split_stats / last_compaction_stats report exactly the most recent (at most 8) events since the last call, oldest first.",
 "all event sequences","all sequence lengths",[f"{X}:CyclicArr",f"{X}:fill_stats"])
p("C49","Pre-splitting covers the hash space",
 "For every expected_number_of_keys the initial shards partition the selector space into equal power-of-two ranges, at least as many as the expected number of keys requires, and the routing tree over them is well formed.",
 "all expected_number_of_keys","all values",[f"{R}:calc_step",f"{R}:create_initial_shards",f"{R}:treeify"])
p("C50","Creating or clearing a store is crash-safe",
 "If the process dies while creating a new store or inside clear(), the directory can be opened again.",
 "all crash points, all configurations","crash points cannot be hit by tests",
 [f"{R}:create_initial_shards",f"{R}:ShardRouter::clear",f"{S}:Shard::open"])
p("C51","clear empties the store",
 "After clear() every get returns None, iteration is empty, statistics are zero and the store is usable as a new one.",
 "all reachable states","all states",[f"{R}:ShardRouter::clear",f"{ST}:CandyStore::clear"])
p("C52","merge_small_shards is safe to call concurrently with writers",
 "No acknowledged write is lost if merge_small_shards runs while other threads keep inserting.",
 "all interleavings with writers and the background compactions they start","schedules are unbounded",
 [f"{R}:merge_small_shards",f"{S}:Shard::open",f"{S}:Shard::do_compaction"])
p("C53","Concurrent set_big on one key leaves one of the values",
 "If several threads call set_big on the same key, afterwards get_big returns one of the values, never a mixture.",
 "all interleavings","schedules are unbounded",[f"{ST}:set_big",f"{Q}:extend_queue"])
p("C54","peek on a never-empty queue finds an element",
 "If a queue is non-empty during the whole peek_queue_head/tail call, the call does not return None, whatever other threads push and pop.",
 "all interleavings","schedules are unbounded",[f"{Q}:QueueIterator",f"{Q}:peek_queue_head"])
p("C55","Built-in assertions and panics never fire in normal operation",
 "No reachable uncrashed state and no call through the public list, queue and key-value API makes the library panic (failed assertion, unreachable!, slice or integer underflow).",
 "all histories","all histories",[f"{S}:do_compaction",f"{S}:split",f"{S}:merge",f"{R}:treeify",f"{L}:_insert_to_list",f"{ST}:set_raw"])
p("C56","A crash inside a queue call is atomic for the elements",
 "If the process dies at any point inside push_to_queue_head/tail, pop_queue_head/tail or extend_queue, after reopening iter_queue shows exactly the elements from before or from after the call; discard_queue leaves an end of the queue; other queues are unaffected.",
 "all histories and crash points","crash points cannot be hit by tests",[f"{Q}:_push_to_queue",f"{Q}:_pop_queue",f"{Q}:extend_queue",f"{Q}:discard_queue"])
p("C57","A crash inside set_big is atomic",
 "If the process dies at any point inside set_big, after reopening get_big returns the old or the new value.",
 "all histories and crash points","crash points cannot be hit by tests",[f"{ST}:set_big",f"{Q}:discard_queue",f"{Q}:extend_queue"])
p("C58","A store may be reopened with other options",
 "Opening an existing store with the same hash seed but other values of the remaining options (shard size, compaction threshold, expected number of keys, number of list locks) succeeds and shows the same contents, and the store goes on working.",
 "all reachable stores and pairs of configurations","all pairs of configurations",[f"{ST}:CandyStore::open",f"{R}:ShardRouter::new",f"{R}:ShardRouter::load"])
p("C59","A crash inside compact_list_if_needed, set_in_list_promoting or discard_list loses nothing it should not",
 "If the process dies inside compact_list_if_needed the list still has all its items in order; inside set_in_list_promoting the item is still in the list, with the old or the new value; inside discard_list the list is complete or gone.",
 "all histories and crash points","crash points cannot be hit by tests",[f"{L}:compact_list_if_needed",f"{L}:owned_set_in_list_promoting",f"{L}:owned_discard_list"])
p("C60","All shards, rows and signatures are usable",
 "The shard, the row and the signature of a key are taken from disjoint bits of its 128-bit hash (bits 48-63, 32-47 mod 64 and the first non-zero 32-bit part), so that every shard selector, row and non-zero signature is used by some hash and a uniform hash spreads keys over all rows.",
 "all 128-bit hash values","2^128 values",[f"{H}:PartedHash::from_hash",f"{H}:PartedHash::shard_selector",f"{H}:PartedHash::row_selector"])
p("C61","The write counters count every write once, by size",
 "stats() reports exactly the number of entries written, their total size, and how many fell into each of the five size classes, in whatever order concurrent writers report them.",
 "all sequences of entry sizes","all sequences",[f"{X}:InternalStats::add_entry"])
p("C62","Concurrent calls are serializable down to single memory accesses",
 "Whatever the threads and the background compactions do between any two memory accesses (loads and stores of signatures and descriptors, single bytes of data, counters, fetch_add of the write offset, locks), every call that has returned can be given a moment between its beginning and its return such that all calls answer as if executed one after the other at these moments on an ideal map, ideal lists and ideal queues; no assertion of a compaction fails.",
 "all histories followed by all interleavings, at the granularity of single memory accesses, of any number of threads with any number of calls, with compactions and splits at any moment","schedules are unbounded; a race shows up in one of astronomically many",
 [f"{S}:operate_on_row",f"{S}:operate_on_row_mut",f"{S}:do_compaction",f"{S}:begin_compaction",f"{S}:background_compact",f"{S}:try_replace",f"{S}:insert",f"{S}:remove",f"{R}:shared_op",f"{R}:insert"])
p("C63","No deadlock",
 "Whenever a call is in progress, some thread or some background compaction can make a step: the locks of lists and queues, the guards of the shard nodes, the guards of the files and the row locks never wait for each other in a circle, also while compactions and splits are waited for.",
 "all interleavings, at the granularity of single memory accesses, of any number of threads with any number of calls of any kind","schedules are unbounded",
 [f"{S}:operate_on_row",f"{S}:operate_on_row_mut",f"{S}:do_compaction",f"{S}:begin_compaction",f"{S}:background_compact",f"{S}:wait_for_compaction",f"{R}:shared_op",f"{R}:insert","src/lists.rs:lock_list"])
p("C64","Counters stay exact under concurrency",
 "After any life of the store without a crash since its creation or last clear - calls one at a time or made by any number of threads whose single memory accesses alternate in any way that the locks allow, with background compactions and splits - stats() reports exactly the number of stored entries and their bytes, the counters have not underflowed, and iter_raw yields every stored pair exactly once. So no update of a counter is lost, doubled, or applied to the wrong file of a shard under compaction.",
 "all lives of a store with sequential and concurrent periods, all calls, all interleavings of memory accesses, compactions and splits",
 "The counters are separate atomics updated after the data; whether they end up consistent depends on the interleaving with the compaction that switches files row by row.",
 [f"{S}:insert",f"{S}:remove",f"{S}:try_replace",f"{S}:write_kv",f"{S}:do_compaction",f"{S}:background_compact",f"{S}:get_stats"])
p("C65","Durable linearizability: the process may be killed while threads are at work",
 "If the process is killed at any moment of a concurrent period - between any two memory accesses of any threads and background compactions, with starts of compactions and splits half-done - the directory can be opened again (also if opening is itself interrupted), and what is read then is exactly what could be read at the moment of the crash. So every call that had returned is kept; a call in progress has happened completely, or is as if a process making only this call had died inside it; and the calls made after the restart answer as the ideal map, lists and queues do after this history.",
 "all lives of a store, all interleavings of memory accesses, all moments, all histories after the restart",
 "a crash test can hit only some moments of some schedules",
 [f"{S}:insert",f"{S}:remove",f"{S}:do_compaction",f"{S}:begin_compaction",f"{S}:background_compact",f"{S}:split",f"{S}:Shard::open",f"{R}:load",f"{R}:insert"])
p("C66","get_from_list always finds an item that is present, whatever other threads do",
 "If an item is in a list and nobody removes it or discards the list, every get_from_list of it - also concurrently with inserts, updates, removals of other items and compaction of the same list by other threads, with splits and background compactions of the shards, and although it takes no lock of the list - returns a value, which is the one from before or one that a concurrent call puts there; and all such reads are linearizable with the other calls.",
 "all lives of a store, all interleavings of memory accesses of any number of threads",
 "a stale or missing read shows up only in rare interleavings",
 [f"{L}:owned_get_from_list",f"{L}:_insert_to_list",f"{L}:compact_list_if_needed",f"{L}:owned_remove_from_list",f"{S}:get"])
p("C67","Most calls never panic, whatever other threads do",
 "No key-value, list, queue or big-value call panics, except possibly those that decrease the number of items of a list or queue or count its holes (remove_from_list, set_in_list_promoting, pop_list_*, compact_list_if_needed, remove_from_queue, pop_queue_*; see C55): also while other threads make any calls on the same list or queue, on lists whose keys have the same hash, and after crashes at any moment. In particular no unreachable!() of the list code is reached and no stored record is ever decoded with a wrong size.",
 "all lives of a store, all interleavings of memory accesses of any number of threads making any calls",
 "a panic would show up only in rare interleavings, hash collisions and crash points",
 [f"{L}:_insert_to_list",f"{L}:owned_set_in_list",f"{L}:owned_replace_in_list",f"{L}:owned_get_or_create_in_list",f"{L}:get_from_list_at_index",f"{L}:owned_discard_list",f"{L}:owned_list_len",f"{Q}:_push_to_queue",f"{Q}:extend_queue",f"{Q}:discard_queue"])
p("C68","Every concurrent history of calls of any kind is explained by atomic parts",
 "Calls that are not atomic (set_in_list_promoting, pop_list_*, iteration and peeking, list_len, set_big, get_big) consist of parts, each of which is an atomic call of the public API: promoting is remove_from_list and then set_in_list; pop_list_* reads an item and removes it, again and again until a removal succeeds; iterating a list reads single items as get_from_list does; iterating a queue reads its range and then elements of it in order; set_big is discard_queue and then extend_queue. Every history of calls of all kinds made by any number of threads, with crashes at any moment, is explained by a sequential history of these parts, each at a moment of its own between the beginning and the return of its call, in which all parts answer as the ideal map, lists and queues do.",
 "all lives of a store, all calls, all interleavings of memory accesses of any number of threads, compactions and splits, all crash points",
 "unbounded schedules; a lost or invented effect shows up only in rare interleavings",
 [f"{L}:owned_set_in_list_promoting",f"{L}:pop_list_head",f"{L}:iter_list",f"{L}:peek_list_head",f"{L}:list_len",f"{Q}:iter_queue",f"{Q}:peek_queue_head",f"{ST}:set_big",f"{ST}:get_big"])
p("C69","No list item is handed out twice",
 "When any number of threads take items out of a list at the same time (pop_list_head, pop_list_tail, remove_from_list) while others read, iterate, compact, discard or insert other items, an item that nobody puts into the list meanwhile is returned by at most one of these calls.",
 "all lives of a store, all interleavings of memory accesses of any number of threads making any calls",
 "two workers getting the same item is a race that tests rarely hit",
 [f"{L}:pop_list_head",f"{L}:pop_list_tail",f"{L}:owned_remove_from_list"])
p("C70","No value comes from nowhere",
 "Every value that any call returns - get, the previous value of set, replace, remove and get_or_create, the items of a list from get_from_list, iteration, peek, pop, remove, the elements of a queue - was given for the same key, list item or queue by a call that had begun before the returning call returned: also while other threads make any calls on the same key, list or queue, discard it, compact it, after the process was killed at any moment, and for lists whose keys have the same hash (for which it may have been given to the other list). A big value is a sequence of such pieces. So no value is ever torn, invented, taken from another key or resurrected with other contents.",
 "all lives of a store, all calls, all interleavings of memory accesses of any number of threads, all crash points",
 "a torn or mixed-up value appears only in rare interleavings and crash points",
 [f"{S}:get",f"{S}:insert",f"{ST}:get",f"{L}:_insert_to_list",f"{L}:get_from_list_at_index",f"{L}:compact_list_if_needed",f"{Q}:_pop_queue",f"{ST}:get_big"])
p("C71","Concurrent iteration over a queue misses no element that stays",
 "If an element is in a queue and stays there (nobody removes it or discards the queue, and no pop takes it), then every iteration over the queue by any thread, forwards or backwards, begun and finished at any moments while other threads push, extend, pop and remove other elements and use other keys, lists and queues, returns it exactly once, with its value and in the right order relative to the other elements that stay; get_big contains its piece; peek and pop at either end return some element (never None), and one that is at least as near to that end; queue_range covers its index.",
 "all lives of a store, all interleavings of memory accesses of any number of threads making any calls that do not take the element out",
 "the iterator takes no lock while it walks: a missed element shows up only in rare interleavings with pushes, pops and removals",
 [f"{Q}:iter_queue",f"{Q}:iter_queue_backwards",f"{Q}:peek_queue_head",f"{Q}:peek_queue_tail",f"{Q}:_pop_queue",f"{Q}:_push_to_queue",f"{Q}:extend_queue",f"{Q}:remove_from_queue",f"{Q}:queue_range",f"{ST}:get_big"])
p("C72","Concurrent iteration over a list misses no item that stays",
 "If an item is in a list and stays there (nobody removes or promotes it or discards the list, and no pop takes it), then every iteration over the list by any thread, forwards or backwards, begun and finished at any moments while other threads insert, replace, promote, pop and remove other items and use other keys, lists and queues, returns it exactly once, in the right order relative to the other items that stay, and with a value that it had at the beginning or was given meanwhile; peek and pop at either end return some item (never None); get_from_list finds it. Excluded: compact_list_if_needed on the same list during the iteration, which moves all items to other indices, so that a concurrent iteration misses them (get_from_list still finds them).",
 "all lives of a store, all interleavings of memory accesses of any number of threads making any calls that do not take the item out",
 "the iterator takes no lock while it walks: a missed item shows up only in rare interleavings with insertions, pops and removals",
 [f"{L}:iter_list",f"{L}:iter_list_backwards",f"{L}:peek_list_head",f"{L}:peek_list_tail",f"{L}:pop_list_head",f"{L}:_insert_to_list",f"{L}:remove_from_list",f"{L}:get_from_list",f"{L}:compact_list_if_needed"])
p("C73","clear is one of the concurrent calls",
 "Threads may call clear while others make key-value, list and queue calls: every clear that returns Ok happens at one moment between its beginning and its return, and together with the other calls, in an order compatible with real time, everything answers as the ideal map, lists and queues do, which a clear empties. So a key, list or queue written only by calls that returned before the clear began is gone, and what is written by calls that begin after the clear has returned is there. For list and queue calls this holds if no such call is between its first and last access to the list or queue when the store is cleared (it is false otherwise: clear does not take the locks of lists and queues, and a list may be left whose items can be fetched by key but are missing from iteration).",
 "all lives of a store, all interleavings of any number of threads making any calls and of any number of clears",
 "the clear has to hit the window between two accesses of another call",
 [f"{R}:clear",f"{ST}:clear",f"{R}:shared_op",f"{R}:insert",f"{L}:lock_list",f"{L}:_insert_to_list"])
p("C74","clear while background compactions run",
 "clear called while background compactions of shards are still running either succeeds and leaves exactly the files of a new, empty store, which the compactions do not change afterwards, or fails and leaves the store as it was, which can then be closed and opened again. It succeeds exactly if no compaction finishes (renames its file) between the moment clear lists the directory and the moment it has deleted the files. (The second half is false of the code: if a compaction finishes meanwhile, clear fails after it has deleted files of other shards, the open store goes on answering, but after closing it the directory can no longer be opened: open panics.)",
 "all reachable stores, all running compactions, all interleavings of the file operations of clear with the stores and renames of the compactions",
 "the rename has to fall between two particular file operations of another thread",
 [f"{R}:clear",f"{S}:background_compact",f"{S}:begin_compaction",f"{R}:treeify",f"{R}:create_initial_shards"])
p("C75","Shard files stay below the 4 GiB that offsets can express",
 "Whatever is written to a store in total, and however often keys are overwritten, no shard file outgrows the 32 bits that a slot has for an offset, so no entry is ever stored at a place it cannot be read from: splitting and compaction keep a file at max_shard_size, or at the largest possible live contents of a shard, plus what is inserted while it is being compacted. This needs the background compaction of a shard to finish before 805 MB have been inserted into that shard: while a compaction is running (or after it has failed) neither the size of the file nor the waste is checked, and a set beyond 4 GiB returns Ok although the key cannot be found afterwards.",
 "all histories of calls, background steps, merges, clears and reopenings, of any length and writing any number of bytes; all configurations with max_shard_size up to 4 GiB less the quota",
 "needs gigabytes of writes and a compaction that is late",
 [f"{S}:insert",f"{S}:begin_compaction",f"{S}:background_compact",f"{S}:write_kv",f"{S}:read_kv",f"{S}:split",f"{R}:insert",f"{R}:merge_small_shards"])
p("C76","A call that returns an I/O error has happened or not",
 "If a system call made on behalf of a call fails (reading or writing a pair, creating the file of a compaction, anything during a split, the sync of flush_aggregation), the call returns the error; its effect on the key-value store is then all or nothing, no other key changes, and nothing acknowledged before or afterwards is lost: the store goes on answering like an ideal map, and so it does after it has been closed and opened again, whatever files the failed operation left, and after a crash. A get that fails changes nothing. For lists and queues a failed call leaves what a crash in the middle of the call leaves. (An error does not mean that nothing happened: set may store the value and then return an error.)",
 "all histories of calls, failing at any system call, any number of times, with background compactions, splits, merges, clears, reopenings and crashes of the process between them; all remains of failed operations in the directory",
 "an error has to be injected at every system call of every history",
 [f"{S}:insert",f"{S}:try_replace",f"{S}:remove",f"{S}:get",f"{S}:write_kv",f"{S}:read_kv",f"{S}:begin_compaction",f"{S}:split",f"{R}:insert",f"{R}:load",f"{S}:open"])
p("C77","A failed background compaction loses nothing",
 "If the background compaction of a shard fails with an I/O error at any point, the store goes on answering like an ideal map: no value changes at the moment of the failure, everything written before and afterwards is served, the error is returned by some later call on that shard, which has then happened or not, and closing and reopening the store keeps everything. (False of the code in two cases: if the compaction failed in the middle of a row, a key of that row that is removed afterwards is back after the store has been closed and opened again; and if after the error has been reported merge_small_shards is called again, values set since the compaction began are lost.)",
 "all histories of calls, background steps, failures of any number of compactions at any of their steps, clears, merges and reopenings; all keys and values",
 "an error has to be injected at every step of the background thread, and what it breaks shows up only after later calls",
 [f"{S}:background_compact",f"{S}:do_compaction",f"{S}:begin_compaction",f"{S}:wait_for_compaction",f"{S}:get_stats",f"{S}:operate_on_row",f"{S}:open",f"{S}:merge",f"{R}:merge_small_shards"])
p("C78","A failed merge_small_shards loses nothing",
 "If merge_small_shards returns an I/O error, at any point, the store stays open and goes on answering like an ideal map, and closing and reopening it keeps everything: what was there before, and what has been written since. (The last part is false of the code: the open store goes on writing to files that the failed merge has deleted or covered by a merged file, so that values set after the failure may be back to their old ones after reopening. Every key then has its last value or the one from the time of the failure.)",
 "all histories of calls, background steps, clears, merges and reopenings, with merges failing at any system call and calls failing with I/O errors; all keys and values",
 "an error has to be injected at every system call of the merge, and what it breaks shows up only after later writes and a reopening",
 [f"{R}:merge_small_shards",f"{R}:_merge",f"{S}:merge",f"{R}:load",f"{R}:treeify"])
p("C79","Settings other than the hash seed may be changed between openings",
 "A store may be opened with another configuration than before: as long as the hash seed is the same (and max_shard_size is not lowered below the size of one record, expected_number_of_keys is at most 65536*29491), the opening succeeds, everything stored under the earlier configurations is there, and the store goes on answering like one ideal map through any number of openings with different settings, after clean closings and after crashes; which pairs are refused as too large is decided by the current configuration. (The hash seed must not change: with another seed the store opens without an error but does not find its keys.)",
 "all sequences of configurations with the same seed, all histories of calls, background steps, splits, merges, clears, reopenings and crashes under each of them",
 "tests open stores with one configuration; files written under one setting of the limits are read, compacted, split and merged under another in ways that depend on the whole history",
 [f"{ST}:open",f"{R}:load",f"{S}:open",f"{S}:insert",f"{R}:calc_step","src/lib.rs:Config"])
p("C80","Keys are atomic registers, usable as synchronization primitives by any number of threads",
 "Whatever else threads do concurrently (calls of any kind on any key, list or queue), the calls on one key behave like those on one atomic register that starts with the key's value, and the key has the register's value afterwards. Hence: if a key is only read and get_or_create'd concurrently, at most one call reports to have created it (none if it existed) and all see the same value; if threads update a key only by replace(key, f(e), Some(e)), then once all calls have returned f has been applied exactly as often as replace reported success (no lost update); and if threads take a lock by get_or_create (the creator has it) and only the holder removes the key, at most one thread holds the lock at any moment.",
 "all earlier histories of the store, all numbers of threads, all programs of calls and all interleavings of their memory accesses with each other and with background compactions and splits; all functions f",
 "lost updates and double creations occur only in rare interleavings of memory accesses, with compactions or splits in between",
 [f"{ST}:get_or_create",f"{ST}:replace",f"{ST}:remove",f"{S}:insert",f"{S}:try_replace",f"{S}:remove",f"{S}:operate_on_row",f"{S}:background_compact"])
p("C81", "The activity counters count the answers", "While a store is open, stats().num_positive_lookups is the number of get, contains and get_or_create calls that found their key since the store was opened or last cleared, num_negative_lookups the number of get and contains calls that did not, and num_updates the number of set and replace calls that changed a value to a different one; num_collisions is at most the number of keys created. With any number of threads making key-value calls, and whatever compactions, splits and merges happen in between (a retried insertion is not counted twice).",
  "all histories of an open store with concurrent key-value calls", "every place where an operation is retried or leaves early must count exactly once",
  [f"{X}:InternalStats", f"{X}:fill_stats", f"{S}:Shard::get", f"{S}:Shard::try_replace", f"{S}:Shard::insert", f"{ST}:CandyStore::clear"])
p("C82", "The statistics stay meaningful after a crash",
 "After any history with crashes anywhere, stats() does not panic, reports the number of shards, num_entries() is the number of stored pairs and data_bytes() at least their total size, and merge_small_shards does not panic. (False of the code for the number of entries: a process that dies inside set may leave an entry that is there but not counted, so that after its removal num_entries() underflows and merge_small_shards panics; one that dies inside remove leaves a count that is too high.)",
 "all histories of calls, background steps, merges, clears and reopenings, with crashes of the process between any two stores to memory or files",
 "the counters are written by separate stores after the entry itself, so that only certain crash points, followed by a certain call, show it",
 [f"{S}:insert",f"{S}:remove",f"{S}:num_items",f"{S}:get_stats",f"{X}:Stats",f"{R}:merge_small_shards"])
p("C83", "Other files in the directory are left alone and do no harm",
 "If the directory of a store also contains entries that are not the store's (files, subdirectories, names that are not UTF-8), opening the store, all its operations, clear and recovery from crashes behave as if they were not there and leave them as they are. (False of the code for files whose names begin like those of the store: a backup copy shard_0000-10000.bak makes opening panic, a copy shard_0-10000 makes opening delete the shard file itself and all its data, files like top_secret.txt are deleted when the store is opened and files like compact_disc.iso by clear.)",
 "all contents of the directory, all other entries anywhere between the store's files, all states of the store, all operations, finished or cut off at any point",
 "tests use fresh directories; the other names, and their order among the store's files, are arbitrary",
 [f"{R}:load",f"{R}:clear",f"{R}:consolidate_ranges",f"{S}:open"])
p("C84", "The compaction threads neither deadlock nor panic, and compact one shard at a time",
 "With at least one compaction thread (num_compaction_threads), however many threads read, write, split shards and ask for statistics: no background compaction is started on a shard before the previous one of that shard has ended successfully and its result has been collected, and none is ever started again after a failure has been reported; no two compaction threads work on the same shard; the assertions and unwraps of the compaction code never fail and no compaction thread dies; every result is delivered at most once; there is no deadlock between the locks of a shard, the queue of compactions and the threads waiting for results, also when the read-write lock makes new readers wait behind a waiting writer; and when no new calls are made, all calls return and all compactions end after a bounded number of steps. (num_compaction_threads = 0 is accepted, but then the first insertion that needs a compaction fails, and the shard counts as being compacted for ever: it is never compacted.)",
 "all numbers of threads, shards and compaction threads, all schedules of their steps, all failures of file operations in compactions",
 "deadlocks and double compactions need particular schedules of several threads, and the bound on the number of steps holds for all of them",
 [f"{S}:CompactionThreadPool",f"{S}:TPHandle",f"{S}:begin_compaction",f"{S}:wait_for_compaction",f"{S}:background_compact",f"{S}:do_compaction",f"{S}:operate_on_row",f"{S}:get_stats",f"{S}:Drop"])

p("C85","The advice of stats() is right",
 "In a store without crashes since its creation or last clear, required_num_shards() is the smallest power of two of shards with room for the stored pairs, should_merge_small_shards() says whether there are more than twice as many shards, average_entry_size() is the mean size of the stored pairs rounded down (0 if there are none), and no subtraction in them underflows; after merge_small_shards has merged shards at least required_num_shards() are left; and when should_merge_small_shards() is true, merge_small_shards tries to merge.",
 "all histories of a store","the numbers depend on the whole history; the rounding of calc_step has to be right for every number of pairs",[f"{X}:Stats::required_num_shards",f"{X}:Stats::should_merge_small_shards",f"{X}:Stats::average_entry_size",f"{R}:ShardRouter::calc_step",f"{R}:merge_small_shards"])

p("C86","A directory is used by one store at a time",
 "However many threads and processes open, use and close stores on one directory: the file accesses of different stores never alternate; while a store is open no other one can be opened on the directory; once a store has been closed (drop has returned), its process has died or open has returned an error, nothing of it - no compaction thread either - accesses the directory any more; open reports that the lock file is in use only if another store is open at that moment; and closing waits for nothing but the store's own compactions.",
 "all numbers of stores and processes, all schedules of their calls and compaction threads, all moments at which processes die","needs several processes and a compaction that is still running when the store is closed",[f"{ST}:CandyStore::open",f"{ST}:CandyStore",f"{S}:Drop",f"{S}:CompactionThreadPool"])

p("C87","iter_from_cookie accepts any number",
 "Whatever 64-bit number iter_from_cookie is given - a cookie of this store, one taken before the shards were split or merged, one of another store, or no cookie at all - the iteration does not panic, ends, and returns a final part of what a full iteration of the (unmodified) store returns; and it does not panic either while other threads modify the store.",
 "all histories of the store, all 64-bit numbers, all cookies of other stores and of earlier states","a cookie is kept by the user while the store changes; tests use cookies of the same iteration only",[f"{ST}:CandyStoreIterator::from_cookie",f"{ST}:CandyStoreIterator::next",f"{S}:read_at"])

with open("/verif/properties.jsonl","w") as f:
    for x in P: f.write(json.dumps(x)+"\n")
print(len(P))
