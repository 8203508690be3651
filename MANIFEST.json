{
 "claims": [
  {
   "property": "C01",
   "status": "proved",
   "theorems": [
    "C01_expand"
   ],
   "note": ""
  },
  {
   "property": "C02",
   "status": "partial",
   "theorems": [
    "C02_max_size_respected",
    "C02_noop_partial",
    "C02_noop_false",
    "C02_wrap_false"
   ],
   "note": "The limit half is proved for all sequences. The no-op half is false of the code when the pool exceeds this opener's max_size (and for sizes within a page of 2^64); proved otherwise."
  },
  {
   "property": "C03",
   "status": "partial",
   "theorems": [
    "C03_partial",
    "C03_false"
   ],
   "note": "Proved for offsets in the first page; false of the code from offset 4096 on (mmap always at file offset 0), witness proved."
  },
  {
   "property": "C04",
   "status": "proved",
   "theorems": [
    "C04_live_blocks_disjoint",
    "C04_no_ub"
   ],
   "note": "all histories incl. crashes+repair; request sizes n with n + pool size + 8192 < 2^64 (larger ones: C11)"
  },
  {
   "property": "C05",
   "status": "proved",
   "theorems": [
    "C05_contents_untouched"
   ],
   "note": ""
  },
  {
   "property": "C06",
   "status": "proved",
   "theorems": [
    "C06_counters_exact"
   ],
   "note": "bytes_allocated/bytes_free counted over the blocks not effectively freed (lk = the frees ignored per C07)"
  },
  {
   "property": "C07",
   "status": "partial",
   "theorems": [
    "C07_free_releases_partial",
    "C07_false"
   ],
   "note": "False for blocks of at most 16 bytes ending at the end of the pool: free() ignores them. Proved for all others."
  },
  {
   "property": "C08",
   "status": "proved",
   "theorems": [
    "C08_no_growth_when_room",
    "C08_best_fit"
   ],
   "note": ""
  },
  {
   "property": "C09",
   "status": "proved",
   "theorems": [
    "C09_crash_in_allocate",
    "C09_crash_in_free"
   ],
   "note": ""
  },
  {
   "property": "C10",
   "status": "proved",
   "theorems": [
    "C10_failed_allocate_changes_nothing"
   ],
   "note": ""
  },
  {
   "property": "C11",
   "status": "partial",
   "theorems": [
    "C11_usable_bytes_partial",
    "C11_false"
   ],
   "note": "False for sizes near 2^64 (wrap-around), witness proved; proved for n + pool size + 8192 < 2^64."
  },
  {
   "property": "C12",
   "status": "partial",
   "theorems": [
    "C12_orders_partial",
    "C12_headers",
    "C12_false"
   ],
   "note": "size_for_order is wrong from order 31 on (int shift); everything else for the whole 64-bit domain"
  },
  {
   "property": "C13",
   "status": "partial",
   "theorems": [
    "C13_live_blocks_partial",
    "C13_allocate_partial",
    "C13_free_partial",
    "C13_counters_partial",
    "C13_false_zero",
    "C13_false_reuse"
   ],
   "note": "LogarithmicAllocator; pools below 2^31 bytes, 1 <= n <= 2^30 - 8, and expansions that do not reuse free blocks at the end of the pool (Tidy); the excluded cases are false in the code (C13_false_zero, C13_false_reuse, C12_false)."
  },
  {
   "property": "C14",
   "status": "partial",
   "theorems": [
    "C14_reuses_room_partial",
    "C14_free_then_allocate_partial",
    "C14_all_freed_partial"
   ],
   "note": "LogarithmicAllocator; pools below 2^31 bytes, 1 <= n <= 2^30 - 8, and expansions that do not reuse free blocks at the end of the pool (Tidy); the excluded cases are false in the code (C13_false_zero, C13_false_reuse, C12_false)."
  },
  {
   "property": "C15",
   "status": "partial",
   "theorems": [
    "C15_write_exclusion_partial",
    "C15_mutex_exclusion_partial",
    "C15_false"
   ],
   "note": "Proved for process ids in 1..2^18-1 that are not reused during the run (C78); for larger pids (Linux allows 2^22) the 18-bit mask in pid_for_token makes the property false (C15_false)."
  },
  {
   "property": "C16",
   "status": "partial",
   "theorems": [
    "C16_only_dead_robbed_partial",
    "C16_stolen_reported_partial",
    "C15_false"
   ],
   "note": "Proved for process ids in 1..2^18-1 that are not reused during the run (C78); for larger pids (Linux allows 2^22) the 18-bit mask in pid_for_token makes the property false (C15_false)."
  },
  {
   "property": "C17",
   "status": "partial",
   "theorems": [
    "C17_writer_gets_lock_partial",
    "C17_reader_gets_lock_partial",
    "C17_mutex_gets_lock_partial"
   ],
   "note": "Proved for process ids in 1..2^18-1 that are not reused during the run (C78); for larger pids (Linux allows 2^22) the 18-bit mask in pid_for_token makes the property false (C15_false). Explicit step bounds (338 / 338 / 13)."
  },
  {
   "property": "C18",
   "status": "partial",
   "theorems": [
    "C18_released_partial",
    "C18_never_throws_partial",
    "C18_downgrade_of_reader_throws",
    "C18_downgrade_keeps_protection_partial"
   ],
   "note": "Proved for process ids in 1..2^18-1 that are not reused during the run (C78); for larger pids (Linux allows 2^22) the 18-bit mask in pid_for_token makes the property false (C15_false)."
  },
  {
   "property": "C19",
   "status": "partial",
   "theorems": [
    "C19_serializable_partial",
    "C19_sequential_partial",
    "C19_queue_concurrent_partial",
    "C19_prioqueue_concurrent_partial",
    "C19_hashtable_concurrent_partial",
    "C19_prefixtree_concurrent_partial",
    "concurrent_calls",
    "C19_program_order",
    "C19_real_time_order",
    "C19_calls_in_order",
    "linearizable",
    "C19_queue_linearizable_partial",
    "C19_prioqueue_linearizable_partial",
    "C19_hashtable_linearizable_partial",
    "C19_prefixtree_linearizable_partial"
   ],
   "note": "Proved for process ids in 1..2^18-1 that are not reused during the run (C78); for larger pids (Linux allows 2^22) the 18-bit mask in pid_for_token makes the property false (C15_false). Serialization for arbitrary protected programs with crashes; instantiated for Queue, PriorityQueue, HashTable and PrefixTree on pool bytes (no deaths), with program order."
  },
  {
   "property": "C20",
   "status": "proved",
   "theorems": [
    "C20_queue_any_allocator",
    "C20_queue_on_pool"
   ],
   "note": "Refinement of every history to a deque of byte strings, for every lawful allocator and on SimpleAllocator pool bytes."
  },
  {
   "property": "C21",
   "status": "proved",
   "theorems": [
    "C21_size_bytes_exact"
   ],
   "note": ""
  },
  {
   "property": "C22",
   "status": "proved",
   "theorems": [
    "C22_failed_ops_change_nothing"
   ],
   "note": ""
  },
  {
   "property": "C23",
   "status": "partial",
   "theorems": [
    "C23_crash_partial",
    "C23_split_ends_partial",
    "C23_false"
   ],
   "note": "False of the code: witness of a crash in push_back after which two pop_backs both return the same item. Proved for every state, call and crash point: the queue afterwards is the old or the new one (counters off by a constant), with all later histories answered accordingly, unless the death falls between the two link stores, where the forward chain is the new queue and the backward chain the old one."
  },
  {
   "property": "C24",
   "status": "proved",
   "theorems": [
    "C24_blocks_exact"
   ],
   "note": ""
  },
  {
   "property": "C25",
   "status": "proved",
   "theorems": [
    "C25_prioqueue_any_allocator",
    "C25_prioqueue_on_pool",
    "C25_pops_sorted"
   ],
   "note": "Refinement of every history to a multiset whose pop removes a least item, for every lawful allocator and on SimpleAllocator pool bytes."
  },
  {
   "property": "C26",
   "status": "proved",
   "theorems": [
    "C26_comparison",
    "C26_meaning",
    "C26_total_order"
   ],
   "note": ""
  },
  {
   "property": "C27",
   "status": "proved",
   "theorems": [
    "C27_size_clear_failures"
   ],
   "note": ""
  },
  {
   "property": "C28",
   "status": "partial",
   "theorems": [
    "C28_false",
    "C28_blocks_partial"
   ],
   "note": "False of the code: the old array is leaked when the queue grows (witness). Proved: exactly which blocks are held, including the leaked arrays."
  },
  {
   "property": "C29",
   "status": "proved",
   "theorems": [
    "C29_words",
    "C29_store",
    "C29_out_of_range",
    "C29_history"
   ],
   "note": "For every element size; any process mapping."
  },
  {
   "property": "C30",
   "status": "partial",
   "theorems": [
    "C30_bits_partial",
    "C30_readme_false"
   ],
   "note": "Everything except the README claim that xor_bit returns the old value: the code returns the new one (witness)."
  },
  {
   "property": "C31",
   "status": "partial",
   "theorems": [
    "C31_expand_partial",
    "C31_expand_bits_partial",
    "C31_false"
   ],
   "note": "False for counts whose byte size overflows size_t (witness); proved for all others."
  },
  {
   "property": "C32",
   "status": "partial",
   "theorems": [
    "C32_linearizable_partial",
    "C32_size_monotone_partial",
    "C32_false",
    "C32_access_false"
   ],
   "note": "False of the code when expands overlap, or when an access to a new element overlaps an expand (C32_false, C32_access_false). Proved for all interleavings and deaths of processes whose expands do not overlap (Polite)."
  },
  {
   "property": "C33",
   "status": "partial",
   "theorems": [
    "C33_no_lost_update_partial",
    "C33_one_winner_partial"
   ],
   "note": "False of the code when expands overlap, or when an access to a new element overlaps an expand (C32_false, C32_access_false). Proved for all interleavings and deaths of processes whose expands do not overlap (Polite)."
  },
  {
   "property": "C34",
   "status": "proved",
   "theorems": [
    "C34_map_any_allocator",
    "C34_map_on_pool",
    "C34_clients_partial",
    "get_put"
   ],
   "note": "for every hash function, 2 <= bits < 31 (1 << bits is an int in the code); refinement of an association-list map, on every lawful allocator and on the bytes of a SimpleAllocator pool"
  },
  {
   "property": "C35",
   "status": "partial",
   "theorems": [
    "C35_false",
    "C35_false_younger",
    "C35_erase_partial",
    "C35_erase_guarded_partial",
    "C35_no_collisions_partial"
   ],
   "note": "false in the code: erasing the oldest of three keys of a slot loses the others, and erasing the younger of two is undefined behaviour when the block of the older is at a multiple of 256 (witnesses); proved for keys that are absent, alone, the older of two, or not the oldest of three or more, and for all histories without collisions"
  },
  {
   "property": "C36",
   "status": "partial",
   "theorems": [
    "C36_check_and_set",
    "C36_check_and_delete_partial"
   ],
   "note": "check-and-set proved for every table; check-and-delete proved when the check fails, and when it passes in the cases where erase works (C35)"
  },
  {
   "property": "C37",
   "status": "partial",
   "theorems": [
    "C37_false",
    "C37_incr_partial",
    "C35_no_collisions_partial"
   ],
   "note": "false in the code for keys that share a slot; proved for keys alone in their slot; floating-point addition is a parameter; about pointers invalidated by growth see C69"
  },
  {
   "property": "C38",
   "status": "proved",
   "theorems": [
    "C38_iteration"
   ],
   "note": "every table state; the iterator's own loop (begin, ++, ==, end) is modelled"
  },
  {
   "property": "C39",
   "status": "partial",
   "theorems": [
    "C39_false",
    "C39_blocks_partial"
   ],
   "note": "false when an insert fails for lack of memory after its first allocation (leak); proved exact for histories without such failures"
  },
  {
   "property": "C40",
   "status": "proved",
   "theorems": [
    "C40_failed_insert",
    "C34_map_any_allocator"
   ],
   "note": "failure at each of the allocations"
  },
  {
   "property": "C41",
   "status": "proved",
   "theorems": [
    "C41_round_trip"
   ],
   "note": "strings up to 2^62 bytes; -0.0 excepted (read back as 0.0, see the example beside it)"
  },
  {
   "property": "C42",
   "status": "proved",
   "theorems": [
    "C42_map_any_allocator",
    "C42_spec_on_pool",
    "C42_map_on_pool",
    "C42_clients_partial"
   ],
   "note": "refinement of every history to a map from byte strings to values, for every lawful allocator and on the bytes of a SimpleAllocator pool; calls whose own property is false (C43-C45, C47) are guarded in the specification"
  },
  {
   "property": "C43",
   "status": "partial",
   "theorems": [
    "C43_false",
    "C43_exists_partial"
   ],
   "note": "false in the code: exists is true for proper prefixes of keys that have a node; proved: never false for a present key, and true only for keys or inner prefixes"
  },
  {
   "property": "C44",
   "status": "partial",
   "theorems": [
    "C44_false",
    "C44_erase_partial"
   ],
   "note": "false in the code: erase of an absent key that is an inner prefix returns true; proved: the map effect of every erase, and the return value otherwise"
  },
  {
   "property": "C45",
   "status": "partial",
   "theorems": [
    "C45_false",
    "C45_incr_int",
    "C45_incr_double_partial"
   ],
   "note": "int incr proved for every tree and key; incr(double) false for a missing key and delta 0.0; proved otherwise; floating-point addition is a parameter"
  },
  {
   "property": "C46",
   "status": "proved",
   "theorems": [
    "C46_next",
    "C46_iteration",
    "C46_walk"
   ],
   "note": "every tree, lexicographic order of bytes"
  },
  {
   "property": "C47",
   "status": "partial",
   "theorems": [
    "C47_false",
    "C47_false_bytes",
    "C47_bounds_partial"
   ],
   "note": "false in the code: a bound on an absent key can use address 0 of the pool as a node (undefined behaviour); proved for prefixes of keys and extensions of leaf keys"
  },
  {
   "property": "C48",
   "status": "partial",
   "theorems": [
    "C48_false",
    "C48_counts_partial",
    "C48_clear_partial"
   ],
   "note": "size exact except after a failed allocation or a crash (witness); proved for all other histories"
  },
  {
   "property": "C49",
   "status": "partial",
   "theorems": [
    "C49_false",
    "C49_check_partial"
   ],
   "note": "false for checks whose values differ in representation (witness); proved for all variants the check covers"
  },
  {
   "property": "C50",
   "status": "partial",
   "theorems": [
    "C50_false",
    "C50_crash_partial"
   ],
   "note": "false: a crash can lose the old value of the key being written (witness); proved: at every crash point every other key keeps its value and the tree stays usable"
  },
  {
   "property": "C51",
   "status": "partial",
   "theorems": [
    "C51_false",
    "C51_failed_insert_partial"
   ],
   "note": "false: an insert that fails for lack of memory has already erased the old value (witness); proved: all other keys keep theirs and the tree stays usable"
  },
  {
   "property": "C52",
   "status": "proved",
   "theorems": [
    "C52_blocks"
   ],
   "note": "every history including failed allocations; exactness of the set of nodes (no superfluous ones) when no call has failed since the last clear"
  },
  {
   "property": "C53",
   "status": "partial",
   "theorems": [
    "C53_store_decode",
    "C53_encode_decode",
    "C53_encodings_disjoint",
    "C53_store_total",
    "C53_prefixtree_partial",
    "C53_prefixtree_any_allocator_partial",
    "C53_check_marshalled",
    "C53_hashtable_partial",
    "C53_queue",
    "C53_false"
   ],
   "note": "round trip and disjointness are proved in full for all objects; check_and_set after t[k]=v is false for b\"\" (C53_false) and for marshalled objects depends on whether marshal writes the same bytes (C53_check_marshalled). The Python classes PrefixTree, HashTable and Queue are dictionaries and queues of objects for the calls that TOp.ok and HOp.ok allow. marshal itself is abstract."
  },
  {
   "property": "C54",
   "status": "partial",
   "theorems": [
    "C54_repair_partial",
    "C54_live_blocks_partial",
    "C54_later_calls_partial",
    "C54_false",
    "C54_false_growth"
   ],
   "note": "Proved for every crash point inside free, inside an allocate that splits nothing, and inside repair, in any history with any number of such crashes. False in the code for a crash while a block is split (witness C54_false) and for a crash just after the pool has grown (C54_false_growth)."
  },
  {
   "property": "C55",
   "status": "partial",
   "theorems": [
    "C55_prefixtree_crashes_partial",
    "C55_prefixtree_guarded_partial",
    "C55_prioqueue_crashes_partial",
    "C55_prioqueue_safe_partial",
    "C55_queue_crashes_partial",
    "C55_hashtable_crashes_partial",
    "concurrent_calls_crash",
    "concurrent_calls_guarded"
   ],
   "note": "On SimpleAllocator: every interleaving, every pattern of deaths. PrefixTree: excluded are whole iterations, and calls in states in which they are false of the code (everything is explained up to such a call, C55_prefixtree_guarded_partial). For Queue, PriorityQueue and HashTable the statement is false (C23_false, C80_false, C74_needed): a death inside certain calls damages the structure; proved is that everything is explained by a sequential history with deaths until a thread uses the damaged structure (or slot), and how the damaged structure looks then."
  },
  {
   "property": "C56",
   "status": "partial",
   "theorems": [
    "C56_reopen",
    "C56_queue_open_concurrent",
    "C56_prioqueue_open_concurrent",
    "C56_hashtable_open_concurrent_partial",
    "C56_prefixtree_open_crash_partial",
    "C56_hashtable_open_crash_partial",
    "C56_prioqueue_open_crash_partial",
    "C56_queue_open_crash_false"
   ],
   "note": "With deaths inside the constructor: proved for PrefixTree, HashTable and PriorityQueue (for the latter two together with the read-only methods), false for Queue, which records the base object before initialising it (witness). Without deaths: all four."
  },
  {
   "property": "C57",
   "status": "partial",
   "theorems": [
    "C57_total_partial",
    "C57_prefix_partial",
    "C57_false",
    "C57_false_zero",
    "C57_false_empty"
   ],
   "note": "false in the code in three ways (witnesses): values of keys that have a node are not counted, 0.0 is counted with a buffer it does not have, an empty string is undefined behaviour. Proved: exact total for trees without these, bounds otherwise."
  },
  {
   "property": "C58",
   "status": "proved",
   "theorems": [
    "C58_iteration_concurrent",
    "C58_same_loop"
   ],
   "note": "each iterator call is atomic (C19) and finds any table with the same number of slots (it never changes)"
  },
  {
   "property": "C59",
   "status": "partial",
   "theorems": [
    "C59_iteration_concurrent_partial",
    "C59_no_erase_partial",
    "C59_false"
   ],
   "note": "false in the code when another process erases the key the iterator stands on (undefined behaviour, witness). Proved for all other histories."
  },
  {
   "property": "C60",
   "status": "proved",
   "theorems": [
    "C60_verify_sound",
    "C60_verify_accepts",
    "C60_verify_after_crash"
   ],
   "note": "Queue on SimpleAllocator"
  },
  {
   "property": "C61",
   "status": "partial",
   "theorems": [
    "C61_verify_sound",
    "C61_verify_accepts_partial",
    "C61_verify_blind"
   ],
   "note": "soundness on any bytes is proved in full; acceptance for the histories of C54 (allocations as in C13_*_partial). verify does not check that every free block is on a list (witness C61_verify_blind). SimpleAllocator::verify is an empty TODO in the code."
  },
  {
   "property": "C62",
   "status": "partial",
   "theorems": [
    "C62_queue_partial",
    "C62_prefixtree_partial",
    "C62_hashtable_partial",
    "C62_prioqueue_partial",
    "C62_false",
    "C62_false_empty"
   ],
   "note": "as stated it is false: requests over 4088 bytes can corrupt the pool when it grows (C62_false), and empty PriorityQueue items corrupt the allocator (C62_false_empty). Proved when every block the structure asks for is nonempty and fits in a page, or the pool cannot grow; hash table slots under SlotsFit."
  },
  {
   "property": "C63",
   "status": "proved",
   "theorems": [
    "C63_queue_cost",
    "C63_queue_cost_any_allocator",
    "counted_run"
   ],
   "note": "counted in allocator calls, accesses and copied bytes"
  },
  {
   "property": "C64",
   "status": "proved",
   "theorems": [
    "C64_prioqueue_cost",
    "C64_prioqueue_cost_any_allocator"
   ],
   "note": "README's '+ 1 free' on expand is not claimed: the code never frees the old array (C28_false)"
  },
  {
   "property": "C65",
   "status": "proved",
   "theorems": [
    "C65_hashtable_cost",
    "C65_constant_without_collisions"
   ],
   "note": "for the calls that C35 and C37 cover. The README's O(# items) for clear is not claimed: the code visits all 2^bits slots (lower bound proved)"
  },
  {
   "property": "C66",
   "status": "proved",
   "theorems": [
    "C66_intvector",
    "C66_new_vector",
    "C66_store_false"
   ],
   "note": "one process; concurrent calls are atomic by C29-C31, since a method makes one C++ call. Arguments of other types than int/bool are not modelled. C66_store_false: the docstring of store is wrong about values out of range"
  },
  {
   "property": "C67",
   "status": "proved",
   "theorems": [
    "C67_priorities",
    "C67_python_prioqueue",
    "C67_order",
    "C67_str_order",
    "C67_accepts_str"
   ],
   "note": "README's 'only accepts bytes objects' is not claimed: str is accepted (C67_accepts_str)"
  },
  {
   "property": "C68",
   "status": "proved",
   "theorems": [
    "C68_mappings",
    "C68_mappings_crash",
    "C68_queue",
    "C68_prioqueue",
    "C68_hashtable",
    "C68_prefixtree"
   ],
   "note": "for Pool objects used by one thread each, as README.md recommends; for HashTable, PriorityQueue and Queue without deaths, for PrefixTree with; HashTable calls as in C19"
  },
  {
   "property": "C69",
   "status": "partial",
   "theorems": [
    "C69_incr_false",
    "C69_pointers",
    "C69_pointers_crash",
    "C69_queue",
    "C69_prioqueue",
    "C69_prefixtree",
    "C69_hashtable_partial",
    "C69_hashtable_call_partial"
   ],
   "note": "false of HashTable::incr when it expands the pool (C69_incr_false); proved for all other methods, and for incr up to that case"
  },
  {
   "property": "C70",
   "status": "partial",
   "theorems": [
    "C70_failure_false",
    "C70_race_false",
    "C70_open",
    "C70_delete",
    "C70_unfinished",
    "C70_mapped",
    "C70_same",
    "C70_stays",
    "C70_new_pool",
    "C70_untouched"
   ],
   "note": "false when system calls fail (C70_failure_false: open failing with EMFILE makes the constructor unlink an existing pool); C70_same and C70_stays are proved for executions without such failures, C70_mapped, C70_new_pool and C70_untouched for all; opening during creation may throw (C70_race_false, documented)"
  },
  {
   "property": "C71",
   "status": "proved",
   "theorems": [
    "C71_prefixtree_cost",
    "C71_bytes_for_prefix"
   ],
   "note": "bounds for searches, bytes_for_prefix and clear's frees are for clean trees (no insert or incr has failed for lack of memory since the last clear), where the number of nodes is a function of the keys"
  },
  {
   "property": "C72",
   "status": "partial",
   "theorems": [
    "C72_simple_allocate",
    "C72_simple_free",
    "C72_simple_repair",
    "C72_logarithmic_allocate_partial",
    "C72_logarithmic_free"
   ],
   "note": "LogarithmicAllocator::allocate is bounded for Tidy calls (as in C13); when it reuses free blocks at the end of the pool its delete loop steps by the wrong order, and takes a number of steps linear in their size (and corrupts the pool, C13_false_reuse)"
  },
  {
   "property": "C73",
   "status": "proved",
   "theorems": [
    "C73_wait_free",
    "C73_expand",
    "C73_moves"
   ],
   "note": "steps are the model's: one per access to the count, to an element, to the mapping or to the file's size"
  },
  {
   "property": "C74",
   "status": "proved",
   "theorems": [
    "C74_contained",
    "C74_at_after",
    "C74_needed"
   ],
   "note": "erase and incr under the conditions of C35/C37 (their defects); C74_needed shows that the excluded calls do go wrong"
  },
  {
   "property": "C75",
   "status": "proved",
   "theorems": [
    "C75_many",
    "C75_alone",
    "C75_concurrent",
    "C75_concurrent_crash"
   ],
   "note": "calls under the conditions of the single-structure theorems (C20, C25, C35, C74, C41: the defects found there stay excluded); after a death inside a call on it a Queue or PriorityQueue is not used any more (C23, README), a HashTable as C74 says, a PrefixTree as C50 says; AtomicVector has a pool of its own and is not part of this"
  },
  {
   "property": "C76",
   "status": "partial",
   "theorems": [
    "C76_simple",
    "C76_log_false"
   ],
   "note": "proved for SimpleAllocator; false of LogarithmicAllocator: its constructor marks the pool as initialized before it has created the free blocks, and its repair cannot deal with memory that has no blocks in it (C76_log_false)"
  },
  {
   "property": "C77",
   "status": "partial",
   "theorems": [
    "C77_reader_enters_partial",
    "C77_writer_waits_partial",
    "C77_false"
   ],
   "note": "process ids below 2^18 as in C15. False as stated: a reader that once found all 65 slots taken waits until the reader in slot pid % 65 leaves, although another slot is free and no writer is there (C77_false); a reader that comes while a slot is free gets in within 79 steps of its own, and a writer waits only for the readers it found inside"
  },
  {
   "property": "C78",
   "status": "partial",
   "theorems": [
    "C78_exclusion_partial",
    "C78_false_recovery",
    "C78_false_exclusion"
   ],
   "note": "false on Linux, where tokens do not contain the start time of the process as they do on macOS: while a process with the id of the dead holder runs nobody ever gets the lock again (C78_false_recovery), and a waiter that has found the old process dead can rob the new one (C78_false_exclusion). True without reuse (C78_exclusion_partial; recovery: C17)"
  },
  {
   "property": "C79",
   "status": "partial",
   "theorems": [
    "C79_queue_partial",
    "C79_prioqueue_partial",
    "C79_hashtable_partial",
    "C79_prefixtree_partial",
    "log_linearizable",
    "C62_false",
    "C62_false_empty"
   ],
   "note": "false as stated because one caller alone can corrupt the pool (C62_false, C62_false_empty). Proved under the restrictions of C62: nonempty blocks that fit in a page or a pool that cannot grow; at most 256 items in a PriorityQueue; no deaths."
  },
  {
   "property": "C80",
   "status": "partial",
   "theorems": [
    "C80_safe_deaths_partial",
    "C80_one_death_partial",
    "C80_false"
   ],
   "note": "false as stated (README 292 warns of it): a death in a push onto a nonempty queue can leave the items out of order, or one item entered twice and another lost; a death in a pop with at least two items likewise (C80_false). True for all other deaths, any number of them, at any point (C80_safe_deaths_partial); after one harmful death the entries stand for the items of the call except that one may be entered twice in place of another, size() and the next pop are safe, and blocks of others are untouched (C80_one_death_partial)"
  },
  {
   "property": "C81",
   "status": "proved",
   "theorems": [
    "C81_queue",
    "C81_prioqueue",
    "C81_prefixtree",
    "C81_hashtable",
    "readers_may_die",
    "C81_log_queue_partial",
    "C81_log_prioqueue_partial",
    "C81_log_prefixtree_partial",
    "C81_log_hashtable_partial",
    "lreaders_may_die"
   ],
   "note": "SimpleAllocator: calls as in C19 (the defects C35, C37, C43... stay excluded). LogarithmicAllocator: requests as in C62 (the _partial theorems). pids are not reused (C78)"
  },
  {
   "property": "C82",
   "status": "partial",
   "theorems": [
    "C82_reader_count_partial",
    "C82_counted_partial",
    "C82_count_exact",
    "C82_write_locked_partial",
    "C82_read_locked_partial",
    "C82_mutex_locked_partial",
    "C82_false"
   ],
   "note": "process ids below 2^18 as in C15. The last sentence is false: a dead reader stays counted until a writer comes (C82_false)"
  },
  {
   "property": "C83",
   "status": "partial",
   "theorems": [
    "C83_views_partial",
    "C83_views_any_allocator_partial",
    "C83_prefix_scan",
    "C83_false"
   ],
   "note": "false for starts that are neither a key or prefix of a key nor an extension of a leaf key: keys_from is then undefined behaviour (C83_false, from C47). `in` also holds for proper prefixes of keys (C44). Stored strings at most 2^62 bytes and the restrictions of C53"
  },
  {
   "property": "C84",
   "status": "proved",
   "theorems": [
    "C84_pieces",
    "C84_any_allocator",
    "C84_crash"
   ],
   "note": "strings of at most 2^62 bytes"
  },
  {
   "property": "C85",
   "status": "proved",
   "theorems": [
    "C85_prefixtree",
    "C85_prefixtree_guarded",
    "C85_queue",
    "C85_prioqueue",
    "C85_hashtable"
   ],
   "note": "single calls on SimpleAllocator; iteration (several locked sections per call) is C58/C59"
  },
  {
   "property": "C86",
   "status": "proved",
   "theorems": [
    "C86_prefixtree",
    "C86_queue",
    "C86_prioqueue",
    "C86_hashtable"
   ],
   "note": "single calls on SimpleAllocator; for PrefixTree the calls covered in every state (Op.free); for the others up to the first use of a structure damaged by a death"
  },
  {
   "property": "C87",
   "status": "proved",
   "theorems": [
    "C87_counter",
    "C87_race"
   ],
   "note": "integer counters; new values of check-and-sets below 2^60 in size (larger ones need a buffer, and lose the old value when memory runs out, C51)"
  },
  {
   "property": "C88",
   "status": "proved",
   "theorems": [
    "C88_pool",
    "C88_contained",
    "C88_sound"
   ],
   "note": "single calls on SimpleAllocator, constructors that take only an allocator (the others are in C56); iterations over a whole table or tree take the lock at each step and are in C59; direct memory accesses of clients are modelled under the lock"
  },
  {
   "property": "C89",
   "status": "proved",
   "theorems": [
    "C89_queue",
    "C89_fifo"
   ],
   "note": "SimpleAllocator; after a death that split the queue the items are those its prev links give, until the first use (C23, C86)"
  },
  {
   "property": "C90",
   "status": "proved",
   "theorems": [
    "C90_priority",
    "C90_least"
   ],
   "note": "SimpleAllocator; calls of clear() are left out; after a death that damaged the queue only size() is called (C80, C86)"
  },
  {
   "property": "C91",
   "status": "proved",
   "theorems": [
    "C91_hash_views",
    "C91_zip"
   ],
   "note": "deletions of keys that share a slot and checks with objects that marshal does not always write as the same bytes are excluded (C35, C53)"
  },
  {
   "property": "C92",
   "status": "proved",
   "theorems": [
    "C92_counter",
    "C92_tickets",
    "C92_order",
    "C92_flags"
   ],
   "note": "under the restriction of C32 on expand, without which the code is wrong (C32_false, C32_access_false)"
  },
  {
   "property": "C93",
   "status": "proved",
   "theorems": [
    "C93_lease"
   ],
   "note": ""
  },
  {
   "property": "C94",
   "status": "proved",
   "theorems": [
    "C94_spinlock",
    "C94_protects"
   ],
   "note": "under the restriction of C32 on expand, which the statement includes"
  },
  {
   "property": "C95",
   "status": "proved",
   "theorems": [
    "C95_chain",
    "C95_iterate"
   ],
   "note": "under the restriction of C32 on expand, which the statement includes"
  },
  {
   "property": "C96",
   "status": "proved",
   "theorems": [
    "C96_queue",
    "C96_prefixtree",
    "C96_hashtable",
    "C96_prioqueue",
    "C96_jobs",
    "C96_least"
   ],
   "note": "under the restrictions that the statement includes (those of C62 and C79)"
  },
  {
   "property": "C97",
   "status": "proved",
   "theorems": [
    "C97_protected"
   ],
   "note": "the discipline is stated on the history of finished calls, which the log and the calls begun determine (`same_calls`)"
  },
  {
   "property": "C98",
   "status": "proved",
   "theorems": [
    "C98_reads",
    "C98_determines",
    "C98_not_canonical"
   ],
   "note": "%lg is any function; the theorem that the text determines the map assumes of it, for the doubles stored, what the statement says. std::string's allocation is not modelled. get_structure takes no lock, so it is covered alone, not beside writers"
  }
 ]
}