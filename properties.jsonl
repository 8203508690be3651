{"id": "C01", "title": "Pool::expand grows, rounds to pages, and never loses data", "statement": "If Pool::expand(n) returns, then Pool::size() >= n (for any n whose page round-up fits in 64 bits), size() is a multiple of the page size, size() is at least the old size, every byte of the old pool (other than the size field itself) is unchanged and every byte between the old and the new size is zero. If it throws, nothing has changed.", "quantifier": "every pool state, every requested size, every max_size", "why_tests_cant": "sizes range over all of 2^64 and the contents over all byte strings", "anchors": ["src/Pool.cc: Pool::expand, Pool::check_size_and_remap", "src/Pool.hh: PAGE_SIZE"]}
{"id": "C02", "title": "Pool::expand honours max_size and is a no-op for sizes already satisfied", "statement": "With a nonzero max_size a pool that starts within max_size never exceeds it under any sequence of expands, and expand(n) with n (rounded up) no larger than the current size does nothing and does not throw (Pool.hh: 'If the pool is already at least that large, does nothing').", "quantifier": "every pool state, requested size and max_size", "why_tests_cant": "the offending combination (a pool already larger than this opener's max_size; sizes within a page of 2^64) is not in the tests", "anchors": ["src/Pool.cc: Pool::expand", "src/Pool.hh: expand"]}
{"id": "C03", "title": "Temporary-mapping accessors address the offset they are given", "statement": "Pool::map_and_read_atomic(o) returns the value stored at offset o; map_and_write_atomic(o, v) and map_and_call(o, ...) change offset o and nothing else.", "quantifier": "every offset inside the pool, every value", "why_tests_cant": "the tests never call them with an offset beyond the first page", "anchors": ["src/Pool.hh: map_and_read_atomic, map_and_write_atomic", "src/Pool.cc: map_and_call"]}
{"id": "C04", "title": "SimpleAllocator: live blocks never overlap", "statement": "After any sequence of allocate and free calls on a SimpleAllocator, every block returned by allocate and not yet freed lies wholly inside the pool, after the allocator's header, starts at an 8-aligned nonzero offset, and is disjoint from every other live block.", "quantifier": "every history of allocate(size)/free(live offset), every max_size", "why_tests_cant": "a history is unbounded and the best-fit search depends on all previous gaps", "anchors": ["src/SimpleAllocator.cc: SimpleAllocator::allocate, SimpleAllocator::free, SimpleAllocator::link_block", "src/SimpleAllocator.hh"]}
{"id": "C05", "title": "SimpleAllocator: allocate/free never touch the bytes of live blocks", "statement": "allocate(n), whether it returns or throws, and free(o) leave every byte of every (other) live block unchanged, including across pool expansion.", "quantifier": "every history, every live block, every byte", "why_tests_cant": "needs all block layouts and contents", "anchors": ["src/SimpleAllocator.cc: allocate, free", "src/Pool.cc: expand"]}
{"id": "C06", "title": "SimpleAllocator: block_size and bytes_allocated are exact", "statement": "block_size(o) of a live block is the size passed to the allocate that returned it; bytes_allocated() is the sum of the live blocks' sizes; bytes_free() is size() minus the bytes committed (rounded sizes plus one 24-byte header per block plus the allocator header).", "quantifier": "every history", "why_tests_cant": "accounting drift shows only over histories", "anchors": ["src/SimpleAllocator.cc: block_size, bytes_allocated, bytes_free, allocate, free"]}
{"id": "C07", "title": "SimpleAllocator: free always releases the block", "statement": "After free(o) of a live block o, o is no longer live: bytes_allocated drops by its size, and the space can be reused. In particular allocating and freeing everything returns bytes_allocated to 0.", "quantifier": "every history and every live block", "why_tests_cant": "fails only for a block whose header is within 24 bytes of the pool's end, which the tests do not create", "anchors": ["src/SimpleAllocator.cc: SimpleAllocator::free"]}
{"id": "C08", "title": "SimpleAllocator: the pool grows only when no gap fits, and never grows more than needed", "statement": "allocate(n) leaves Pool::size() unchanged whenever some gap before, between or after the blocks can hold n bytes plus header, and chooses a smallest such gap; otherwise it expands to the smallest page multiple holding the block after the last one.", "quantifier": "every reachable layout, every n", "why_tests_cant": "best-fit optimality is a statement over all gaps of all layouts", "anchors": ["src/SimpleAllocator.cc: allocate"]}
{"id": "C09", "title": "SimpleAllocator: a crash at any point inside allocate/free is repaired", "statement": "If the process dies between any two memory writes of allocate or free, then after another process steals the lock and repair() runs, the allocator is consistent: the blocks other than the one being allocated/freed are all live with their sizes and contents, that one is either fully present or fully absent, and counters and backward links agree with the forward list.", "quantifier": "every reachable state, every operation, every crash point", "why_tests_cant": "a unit test cannot kill the process at each individual store", "anchors": ["src/SimpleAllocator.cc: allocate, free, repair, lock"]}
{"id": "C10", "title": "SimpleAllocator: failed allocations change nothing", "statement": "If allocate throws because the pool cannot be expanded, the pool, all live blocks and all counters are exactly as before.", "quantifier": "every reachable state, every size, every max_size", "why_tests_cant": "requires exhausting every configuration", "anchors": ["src/SimpleAllocator.cc: allocate", "src/Pool.cc: expand"]}
{"id": "C11", "title": "SimpleAllocator: allocate(n) yields at least n usable bytes for every n", "statement": "For every 64-bit n, allocate(n) either throws or returns a block with n usable bytes.", "quantifier": "every 64-bit size", "why_tests_cant": "the arithmetic wraps only within 32 bytes of 2^64", "anchors": ["src/SimpleAllocator.cc: allocate"]}
{"id": "C12", "title": "LogarithmicAllocator: order arithmetic and header packing are exact", "statement": "order_for_size(n) is the least order whose block holds n bytes, size/order/alignment helpers agree with powers of two, and the packed free/allocated headers round-trip (flag, order, prev).", "quantifier": "every size and order the allocator can see", "why_tests_cant": "64-bit domain", "anchors": ["src/LogarithmicAllocator.cc: order_for_size, size_for_order, largest_order_within_size, order_alignment_of_size, FreeBlock, AllocatedBlock"]}
{"id": "C13", "title": "LogarithmicAllocator: live blocks never overlap and are never touched by allocate/free", "statement": "After any sequence of allocate and free calls, every live block lies inside the pool, is disjoint from every other live block, has the requested size, and its bytes are unchanged by other operations.", "quantifier": "every history of allocate(size)/free(live offset)", "why_tests_cant": "two reachable corner cases (size 0; expansion after freeing at the end of the pool) corrupt memory and are not in the tests", "anchors": ["src/LogarithmicAllocator.cc: allocate, free, create_free_block, merge_blocks_at, unlink_block"]}
{"id": "C14", "title": "LogarithmicAllocator: freeing everything coalesces", "statement": "After all blocks are freed bytes_allocated is 0 and all memory is back on the free lists, so a later allocation of the same size does not expand the pool.", "quantifier": "every history ending with no live blocks", "why_tests_cant": "history-dependent", "anchors": ["src/LogarithmicAllocator.cc: free, allocate"]}
{"id": "C15", "title": "Write lock mutual exclusion", "statement": "At no time do two live threads/processes both hold the write lock, and while one holds the lock for writing no live thread holds a read guard. (False of the code for pids >= 2^18: the liveness probe looks only at 18 bits of the token.)", "quantifier": "every interleaving of lock operations of any number of processes, with crashes at any step", "why_tests_cant": "schedules are unbounded", "anchors": ["src/ProcessLock.cc: acquire_process_lock, release_process_lock, ProcessReadWriteLockGuard"]}
{"id": "C16", "title": "Locks are stolen only from dead processes", "statement": "A lock (or reader slot) held by a live process is never taken or cleared by another process; `stolen` is reported exactly when the previous holder had died holding the lock.", "quantifier": "every interleaving and every crash", "why_tests_cant": "needs all schedules", "anchors": ["src/ProcessLock.cc: acquire_process_lock, wait_for_reader_release, wait_for_reader_drain"]}
{"id": "C17", "title": "A dead process cannot block the others for ever", "statement": "From any reachable state in which the lock is held only by dead processes, a lone waiter acquires it in boundedly many of its own steps; likewise when it is free.", "quantifier": "every reachable lock state", "why_tests_cant": "liveness under crashes", "anchors": ["src/ProcessLock.cc: acquire_process_lock, wait_for_reader_drain"]}
{"id": "C18", "title": "Guards release what they took; downgrade keeps protection", "statement": "After a guard is destroyed the lock word/reader slot it held is free; downgrade() turns a write guard into a read guard with no instant at which another process could hold the write guard, and throws if the guard was not writing.", "quantifier": "every interleaving", "why_tests_cant": "schedules", "anchors": ["src/ProcessLock.cc: ProcessReadWriteLockGuard::~ProcessReadWriteLockGuard, downgrade"]}
{"id": "C19", "title": "Operations under the lock are serializable", "statement": "Any concurrent execution of operations that each run wholly inside a guard has the same results and final state as running them one at a time in one order, in which each thread's operations come in the order the thread made them, each once, and an operation that finished before another began comes first.", "quantifier": "every interleaving of any number of processes' operations at memory-access granularity", "why_tests_cant": "schedules", "anchors": ["src/ProcessLock.cc", "src/Queue.cc, HashTable.cc, PrefixTree.cc, PriorityQueue.cc: every public method"]}
{"id": "C20", "title": "Queue behaves as a double-ended queue of byte strings", "statement": "For any sequence of push_back, push_front, pop_back, pop_front, size, bytes on a Queue, results equal those of a list of byte strings: FIFO/LIFO order, binary safe, pops return exactly the pushed bytes.", "quantifier": "every operation history, every byte string, every lawful allocator", "why_tests_cant": "unbounded histories", "anchors": ["src/Queue.cc: push_back, push_front, pop_back, pop_front, size, bytes"]}
{"id": "C21", "title": "Queue::size and Queue::bytes are exact", "statement": "size() is the number of items, bytes() the sum of their lengths, after every history.", "quantifier": "every history", "why_tests_cant": "unbounded histories", "anchors": ["src/Queue.cc: size, bytes"]}
{"id": "C22", "title": "Empty and failed Queue operations change nothing", "statement": "pop on an empty queue throws out_of_range and a push whose allocation fails throws; both leave the queue contents unchanged.", "quantifier": "every queue state", "why_tests_cant": "all states", "anchors": ["src/Queue.cc: pop_back, pop_front, push_back, push_front"]}
{"id": "C23", "title": "Queue is consistent after a crash at any point (README: 'always consistent')", "statement": "If a process dies at any point in a queue operation, later operations by other processes behave as on a queue in which the interrupted operation either happened or did not.", "quantifier": "every state, operation and crash point", "why_tests_cant": "crash points", "anchors": ["src/Queue.cc: link/unlink in push and pop", "README.md: Reliability"]}
{"id": "C24", "title": "Queue frees what it allocates", "statement": "After any history, the blocks the queue holds in the allocator are exactly its base object and one per item; popping everything leaves only the base object.", "quantifier": "every history", "why_tests_cant": "leaks show over histories", "anchors": ["src/Queue.cc"]}
{"id": "C25", "title": "PriorityQueue pops the minimum", "statement": "pop() returns the lexicographically (unsigned bytes) least item in the queue and removes exactly one copy of it; the queue is otherwise the multiset of pushed items. Popping everything yields a sorted permutation of what was pushed.", "quantifier": "every push/pop history and every byte strings", "why_tests_cant": "unbounded histories", "anchors": ["src/PriorityQueue.cc: push, pop, less_locked, sift_up, sift_down"]}
{"id": "C26", "title": "PriorityQueue order is a total order on byte strings", "statement": "The comparison used is exactly lexicographic order on unsigned bytes with a proper prefix first: irreflexive, transitive, total.", "quantifier": "all pairs/triples of byte strings", "why_tests_cant": "infinite domain", "anchors": ["src/PriorityQueue.cc: less_locked"]}
{"id": "C27", "title": "PriorityQueue size, clear, empty pop and failed push", "statement": "size() is the number of items; clear() empties; pop on empty throws out_of_range and changes nothing; a failed push leaves the contents unchanged.", "quantifier": "every history", "why_tests_cant": "unbounded histories", "anchors": ["src/PriorityQueue.cc: size, clear, pop, push"]}
{"id": "C28", "title": "PriorityQueue frees its old heap array when it grows (README: 'expand: ... + 1 free')", "statement": "After any history the blocks held are the base, one heap array and one block per item.", "quantifier": "every history", "why_tests_cant": "leaks are invisible to functional tests", "anchors": ["src/PriorityQueue.cc: push", "README.md: Time complexity"]}
{"id": "C29", "title": "AtomicVector word operations", "statement": "load/store/exchange/compare_exchange/fetch_add/fetch_sub/fetch_and/fetch_or/fetch_xor act on element i exactly like the operation on words of the element type, return the old value, and change no other element; an index >= size() throws out_of_range and changes nothing.", "quantifier": "every vector, index and 64-bit operands", "why_tests_cant": "64-bit domain", "anchors": ["src/AtomicVector.hh: load .. fetch_xor, at"]}
{"id": "C30", "title": "AtomicVector bit operations", "statement": "load_bit/store_bit/xor_bit address bit i as the (63 - i%64)-th bit of element i/64, change only that bit, and bit indices map one-to-one to (element, bit) pairs; store_bit and xor_bit return the value the documentation states (README: the old value).", "quantifier": "every vector and bit index", "why_tests_cant": "64-bit domain; README and tests disagree", "anchors": ["src/AtomicVector.hh: load_bit, store_bit, xor_bit, mask_for_bit_index", "README.md"]}
{"id": "C31", "title": "AtomicVector::expand preserves contents and zero-fills", "statement": "After expand(n) by a single process, size() = max(old, n), old elements are unchanged, new elements are 0; expand_bits(n) makes at least n bits.", "quantifier": "every vector and n", "why_tests_cant": "unbounded n", "anchors": ["src/AtomicVector.hh: expand, expand_bits"]}
{"id": "C32", "title": "AtomicVector::expand is safe under concurrency", "statement": "When several processes call expand and stores concurrently, size() never decreases, the pool always holds size() elements and no stored element is lost.", "quantifier": "every interleaving", "why_tests_cant": "schedules", "anchors": ["src/AtomicVector.hh: expand", "src/Pool.cc: expand"]}
{"id": "C33", "title": "AtomicVector atomic updates are not lost", "statement": "Any interleaving of fetch_add/fetch_sub by any number of processes leaves the element equal to the initial value plus the sum of all deltas mod 2^64; a compare_exchange succeeds for at most one of several processes racing from the same expected value to distinct new values.", "quantifier": "every interleaving", "why_tests_cant": "schedules", "anchors": ["src/AtomicVector.hh: fetch_add, fetch_sub, compare_exchange"]}
{"id": "C34", "title": "HashTable insert/at/exists behave as a map of byte strings", "statement": "For any history of insert, at, exists, size, clear on a HashTable, results equal those of a finite map from byte strings to byte strings, whatever collisions the hash produces.", "quantifier": "every history, all byte-string keys and values, every hash function and so every collision pattern, every bits from 2 to 30 (1 << bits is an int in the code)", "why_tests_cant": "collision patterns and histories", "anchors": ["src/HashTable.cc: insert, at, exists, size, clear, walk_tables, walk_indirect_list"]}
{"id": "C35", "title": "HashTable::erase removes exactly its key", "statement": "erase(k) returns whether k was present, removes k and leaves every other key's value unchanged.", "quantifier": "every table state and key, including colliding keys", "why_tests_cant": "needs three or more keys in one slot", "anchors": ["src/HashTable.cc: erase, execute_check"]}
{"id": "C36", "title": "HashTable check-and-set / check-and-delete", "statement": "insert/erase with a CheckRequest takes effect exactly when the checked key's current value equals (or the key is absent as) requested, returns whether it did, and otherwise changes nothing.", "quantifier": "every table, check request and key", "why_tests_cant": "all states", "anchors": ["src/HashTable.cc: execute_check, insert, erase"]}
{"id": "C37", "title": "HashTable::incr adds to the stored integer", "statement": "incr(k, d) on an absent key stores d; on a key holding an integer of the same width stores and returns the sum (mod 2^width); other keys are unchanged; other sizes throw and change nothing.", "quantifier": "every table state, key, width, delta", "why_tests_cant": "only colliding keys or pool remaps expose the failures", "anchors": ["src/HashTable.cc: incr"]}
{"id": "C38", "title": "HashTable iteration visits every key exactly once", "statement": "Iterating from begin() to end() over an unmodified table yields each key-value pair exactly once.", "quantifier": "every table state", "why_tests_cant": "all states", "anchors": ["src/HashTable.cc: HashTableIterator, get_slot_contents"]}
{"id": "C39", "title": "HashTable frees what it allocates", "statement": "After any history of inserts and clears the blocks held are exactly the base, the slot table, one block per item and one per chain link; overwriting frees the old value.", "quantifier": "every history", "why_tests_cant": "leaks show over histories", "anchors": ["src/HashTable.cc: insert, clear"]}
{"id": "C40", "title": "Failed HashTable inserts leave the map unchanged", "statement": "If insert throws because the allocator cannot provide memory, every key keeps its value.", "quantifier": "every table state, key and value", "why_tests_cant": "failure at each allocation", "anchors": ["src/HashTable.cc: insert"]}
{"id": "C41", "title": "PrefixTree value encodings round-trip", "statement": "Every int64, every double other than -0.0, every bool, null and every byte string inserted is returned by at() with the same type and value; encodings of different types never collide.", "quantifier": "every value", "why_tests_cant": "2^64 values and unbounded strings", "anchors": ["src/PrefixTree.cc: insert, lookup_result_for_contents, value_for_contents, type_for_contents"]}
{"id": "C42", "title": "PrefixTree insert/at/type behave as a map", "statement": "For any history of insert, erase, clear, at, type on a PrefixTree results equal those of a finite map from byte strings to typed values (including the empty key and keys that are prefixes of each other).", "quantifier": "every history, all byte-string keys, all values", "why_tests_cant": "tree shapes are unbounded", "anchors": ["src/PrefixTree.cc: insert, erase, at, type, traverse"]}
{"id": "C43", "title": "PrefixTree::exists is true exactly for the keys present", "statement": "exists(k) returns true if and only if k has a value.", "quantifier": "every tree state and key", "why_tests_cant": "the failure needs a key that is an interior path", "anchors": ["src/PrefixTree.cc: exists, execute_check"]}
{"id": "C44", "title": "PrefixTree::erase removes exactly its key and says whether it was there", "statement": "erase(k) returns true iff k was present, removes it, and leaves every other key unchanged; emptied nodes are deleted.", "quantifier": "every tree state and key", "why_tests_cant": "tree shapes", "anchors": ["src/PrefixTree.cc: erase"]}
{"id": "C45", "title": "PrefixTree::incr", "statement": "incr(k, d) on an absent key stores d, on a key of the same numeric type stores and returns the sum, otherwise throws and changes nothing.", "quantifier": "every tree state, key, delta", "why_tests_cant": "value/encoding boundary cases (2^60, 0.0)", "anchors": ["src/PrefixTree.cc: incr"]}
{"id": "C46", "title": "PrefixTree ordered iteration", "statement": "next_key_value(k) for a key k present in the tree returns the lexicographically least key greater than k with its value; iterating from begin() yields all pairs in strictly increasing order.", "quantifier": "every tree state and key", "why_tests_cant": "tree shapes", "anchors": ["src/PrefixTree.cc: next_key_value_internal, begin, end, PrefixTreeIterator"]}
{"id": "C47", "title": "PrefixTree lower_bound/upper_bound/iteration from an absent key", "statement": "lower_bound/upper_bound/next_key_value for a key not present in the tree (never inserted, or erased during iteration) still return the least larger key.", "quantifier": "every tree state and every key", "why_tests_cant": "depends on where the absent key falls in the tree", "anchors": ["src/PrefixTree.cc: next_key_value_internal, lower_bound, upper_bound", "README.md: Mapping iteration semantics"]}
{"id": "C48", "title": "PrefixTree size and node counts", "statement": "size() is the number of keys, node_size() the number of nodes; nodes_for_prefix(\"\") equals node_size(); clear() leaves size 0 and one node.", "quantifier": "every history", "why_tests_cant": "history-dependent", "anchors": ["src/PrefixTree.cc: size, node_size, nodes_for_prefix, clear"]}
{"id": "C49", "title": "PrefixTree check-and-set", "statement": "insert/erase with a CheckRequest takes effect exactly when the checked key's current value equals the requested value, otherwise changes nothing and returns false.", "quantifier": "every tree, check and key", "why_tests_cant": "all states", "anchors": ["src/PrefixTree.cc: execute_check, insert, erase"]}
{"id": "C50", "title": "PrefixTree is consistent after a crash at any point (README: 'always consistent')", "statement": "If a process dies at any point in an operation on key k, every key other than k keeps its value and k has its old value, its new value or none.", "quantifier": "every state, operation and crash point", "why_tests_cant": "crash points", "anchors": ["src/PrefixTree.cc: insert, erase, traverse", "README.md: Reliability"]}
{"id": "C51", "title": "Failed PrefixTree inserts leave the map unchanged", "statement": "If insert throws for lack of memory, every key including the inserted one keeps its old value.", "quantifier": "every state and allocation failure point", "why_tests_cant": "failure points", "anchors": ["src/PrefixTree.cc: insert, traverse"]}
{"id": "C52", "title": "PrefixTree frees what it allocates", "statement": "After any history the blocks held are exactly the base, one per node and one per out-of-line value; clear() returns to the base and the root.", "quantifier": "every history", "why_tests_cant": "leaks", "anchors": ["src/PrefixTree.cc: erase, clear, clear_value_slot"]}
{"id": "C53", "title": "Python value marshalling round-trips", "statement": "For each Python value type the byte/native encoding stored in HashTable/PrefixTree/Queue decodes to an equal value, encodings of different types never collide, and check_and_set on a value just stored by t[k]=v matches.", "quantifier": "every bytes/str/int/float/bool/None value", "why_tests_cant": "all values", "anchors": ["src/PythonModule.cc: sharedstructures_internal_get_result_for_python_object, sharedstructures_internal_get_python_object_for_result, PrefixTree_SetItem"]}
{"id": "C54", "title": "LogarithmicAllocator: live blocks survive a crash and repair", "statement": "If a process dies at any point inside allocate or free, the repair run by the next lock holder succeeds and every other live block keeps its place, size and contents, and later allocations do not overlap it.", "quantifier": "every history, every call, every crash point", "why_tests_cant": "a crash point is an instruction boundary; tests kill at a few random ones", "anchors": ["src/LogarithmicAllocator.cc: repair, allocate, free"]}
{"id": "C55", "title": "Several processes share a structure and some of them die", "statement": "Threads of several processes call the methods of one structure on one pool at the same time and processes may die at any point (inside a call, inside the allocator, inside a repair). Finished calls have the results of some sequential order; a call cut short by a death has either no effect or a partial effect limited to its own key; the lock is recovered, repair succeeds and the survivors find the structure usable with every other key unharmed.", "quantifier": "every number of processes, every interleaving of memory accesses, every pattern of deaths", "why_tests_cant": "interleavings and kill points are scheduler-chosen", "anchors": ["src/ProcessLock.cc", "src/Allocator.hh: ProcessReadWriteLockGuard", "src/SimpleAllocator.cc: repair", "src/PrefixTree.cc"]}
{"id": "C56", "title": "Opening the base object: created once, and complete", "statement": "Several processes open the base object of a pool (base_offset 0) at the same time. At most one structure is created, every opener gets the same one, initially empty, and opening an existing one changes nothing. If a process dies while opening, later openers still find either no base object or a complete empty structure.", "quantifier": "every number of processes, every interleaving, every pattern of deaths, every structure type with such a constructor", "why_tests_cant": "the race between looking and creating, and the crash window inside the constructor, need a scheduler-chosen interleaving", "anchors": ["src/Queue.cc: Queue::Queue", "src/PriorityQueue.cc: PriorityQueue::PriorityQueue", "src/HashTable.cc: HashTable::HashTable", "src/PrefixTree.cc: PrefixTree::PrefixTree"]}
{"id": "C57", "title": "PrefixTree::bytes_for_prefix is the space taken below a prefix", "statement": "bytes_for_prefix(p) changes nothing and returns the number of bytes of pool memory that the nodes, slots and values of keys starting with p occupy; for the empty prefix this is everything the tree has allocated except its two counters. It is 0 (or one empty slot) when no key starts with p.", "quantifier": "every tree reachable by any history, every prefix", "why_tests_cant": "the tree shape depends on the whole history of inserts, erases and failures", "anchors": ["src/PrefixTree.cc: bytes_for_prefix, bytes_for_contents"]}
{"id": "C58", "title": "HashTable iteration while other processes write", "statement": "While one process iterates over a HashTable, others may insert, overwrite and erase between any two of the iterator's calls. The iteration ends without an exception, returns no key twice, returns every key that is in the table for the whole duration, and every pair it returns was in the table at some moment of the iteration.", "quantifier": "every table, every sequence of contents the iterator's calls may find", "why_tests_cant": "needs every interleaving of an iteration of any length with any writers", "anchors": ["src/HashTable.cc: HashTableIterator, get_slot_contents", "README.md: Mapping iteration semantics"]}
{"id": "C59", "title": "PrefixTree iteration while other processes write", "statement": "While one process iterates over a PrefixTree, others may insert, overwrite and erase between any two of the iterator's calls. Each step returns the least key above the current one in the tree as it is then, so keys come in strictly increasing order, changes after the current key are seen and changes at or before it are not, and every key that is there for the whole duration is returned if the iteration reaches the end.", "quantifier": "every sequence of tree states the iterator's calls may find", "why_tests_cant": "needs every interleaving of an iteration of any length with any writers", "anchors": ["src/PrefixTree.cc: PrefixTreeIterator, next_key_value_internal", "README.md: Mapping iteration semantics"]}
{"id": "C60", "title": "Queue::verify tells a consistent queue from a damaged one", "statement": "verify() never changes the pool. It returns normally after any history of completed calls on any queue. If it returns normally on any pool contents whatever, the forward and backward links form one chain of distinct nodes between the two ends and the stored item count and byte total match it. After a process died inside any call and the allocator repaired itself, either verify() throws, or the queue holds exactly the contents before or after the interrupted call and behaves as such from then on.", "quantifier": "every history, every pool contents, every crash point of every call", "why_tests_cant": "soundness is over all byte contents of a pool, completeness over all histories, and the third part over every crash point", "anchors": ["src/Queue.cc: verify, push_back, push_front, pop_back, pop_front"]}
{"id": "C61", "title": "LogarithmicAllocator::verify accepts every reachable pool and certifies its structure", "statement": "verify() never changes the pool. It returns normally in every state reachable by allocations, frees, writes into live blocks, crashes and repairs. If it returns normally on any pool contents, the arena is a gapless sequence of well-formed blocks up to the end of the pool, bytes_allocated and bytes_committed equal the sums over these blocks, and every free list is a doubly linked chain of free blocks of its order.", "quantifier": "every history, every pool contents", "why_tests_cant": "soundness is over all byte contents of a pool and completeness over all histories", "anchors": ["src/LogarithmicAllocator.cc: verify"]}
{"id": "C62", "title": "Every structure behaves the same on the LogarithmicAllocator", "statement": "A Queue, PriorityQueue, HashTable or PrefixTree created in a pool managed by a LogarithmicAllocator (the README's default allocator) answers every sequence of calls exactly as its documentation says, whatever was allocated and freed in the pool before, and no call changes a byte of a block that another client of the pool holds.", "quantifier": "every allocator history, every sequence of calls with arbitrary keys, values and strings, every point at which allocations fail", "why_tests_cant": "the offending combinations of free blocks at the end of the pool, request sizes and growth are not in the tests, and the histories are unbounded", "anchors": ["src/LogarithmicAllocator.cc: allocate, free", "src/Queue.cc", "src/PriorityQueue.cc", "src/HashTable.cc", "src/PrefixTree.cc"]}
{"id": "C63", "title": "Queue's costs", "statement": "Every push makes exactly one allocation and copies no more bytes than the value has; every pop that returns a value makes exactly one free and copies exactly its bytes; a pop on an empty queue allocates, frees and copies nothing. Every call makes at most a constant number of other accesses to the pool, however long the queue is; size() and bytes() make one.", "quantifier": "every history of the pool, every sequence of calls, every value, every point at which allocation fails", "why_tests_cant": "a bound for all queue lengths and all contents; timing tests show neither the worst case nor the allocation counts", "anchors": ["README.md: Time complexity", "src/Queue.cc: push_back, push_front, pop_back, pop_front, size, bytes"]}
{"id": "C64", "title": "PriorityQueue's costs", "statement": "On a queue of n items push makes one allocation and O(log n) accesses, except when n is 0 or 32 times a power of two, when it may make a second allocation and O(n) accesses; pop makes one free and O(log n) accesses; clear makes exactly n frees and O(n) accesses; size one access. Copied bytes are the value's plus those of O(log n) compared items.", "quantifier": "every history of the pool, every sequence of calls, every value, every point at which allocation fails", "why_tests_cant": "an asymptotic worst-case bound over all heap shapes and item contents", "anchors": ["README.md: Time complexity", "src/PriorityQueue.cc: push, pop, clear, size"]}
{"id": "C65", "title": "HashTable's costs", "statement": "An insert that stores makes one to three allocations and frees at most one block (only when it replaces a value, and then it allocates once); an insert whose check fails allocates and frees nothing; incr makes at most three allocations and no frees; an erase that removes frees one to three blocks; clear frees between one and two blocks for each item and visits every slot; exists, at and iteration allocate and free nothing. Every call that takes a key makes at most 4 accesses for each item in the key's slot (and in the slot of the check's key) plus a constant, so a constant number when no keys collide, however many items the table holds; size() makes one.", "quantifier": "every hash function, table size, history of the pool, sequence of calls, key, value and check, every point at which allocation fails", "why_tests_cant": "a worst-case bound over all collision patterns and table contents", "anchors": ["README.md: Time complexity", "src/HashTable.cc: insert, incr, erase, clear, at, exists, size"]}
{"id": "C66", "title": "Python IntVector is a list of 64-bit signed ints", "statement": "Any sequence of method calls on a sharedstructures.IntVector returns what a list of 64-bit signed ints gives: load/store/exchange/compare_exchange/add/subtract/bitwise_and/or/xor act on exactly the int at the index (add and subtract wrap modulo 2^64) and return the old value, load_bit/store_bit/xor_bit act on exactly one bit counted from the most significant bit of int index/64, expand appends zeros and never shrinks, len is the length. An argument outside of 64 bits raises OverflowError, a negative expand ValueError, an index outside of 0..len-1 (also a negative one) TypeError in load and store and IndexError in the others; then nothing changes. No call touches memory outside of the mapping. (The docstring of store says that values out of range silently overflow: false, they raise OverflowError.)", "quantifier": "every sequence of calls, every int argument of any size, every vector of at most 2^57 ints, every initial mapping of the process", "why_tests_cant": "all integers including those near 2^63 and 2^64 and negative indexes converted to size_t, all contents and histories", "anchors": ["src/PythonModule.cc: sharedstructures_IntVector_*", "src/AtomicVector.hh"]}
{"id": "C67", "title": "Python PriorityQueue, and priorities in front of items", "statement": "A sharedstructures.PriorityQueue answers push, pop and len as a multiset of byte strings; pop returns a least string as bytes and raises IndexError exactly when the queue is empty; a str argument is stored as its UTF-8 encoding (which keeps the order of code points), other arguments raise TypeError and change nothing. A program that prepends struct.pack('>Q', priority) to each item and strips it after pop, as README.md advises, has a queue of (priority, item) pairs: pop returns a pair with the least priority, and among those the least item; no pair is lost, duplicated or altered.", "quantifier": "every sequence of calls, every priority below 2^64, all items of any content (at most 2^62 bytes), every history of the pool, every point at which allocation fails", "why_tests_cant": "the order of encodings must agree with the order of priorities for all 2^128 pairs and all item contents, in all heap shapes", "anchors": ["README.md: Priority queues", "src/PythonModule.cc: sharedstructures_PriorityQueue_push, _pop, _Len", "src/PriorityQueue.cc: push, pop, less"]}
{"id": "C68", "title": "Mappings that another process has made out of date", "statement": "A process whose mapping of the pool is shorter than the pool, because another process has expanded it in the meantime, never touches memory beyond its mapping: every method call on a Queue, PriorityQueue, HashTable or PrefixTree refreshes the mapping when it has taken the lock, the mapping stays up to date until the lock is released, and the call returns what the sequential specification says about all the data, including that in the part of the pool that was added. The same holds for the repair after a death.", "quantifier": "every number of processes and threads (each with a Pool object of its own), every program of calls, every interleaving of their memory accesses, every size of the mappings at the start of a call, every point at which a process dies", "why_tests_cant": "which mapping is out of date at which access depends on the interleaving; a test on one schedule or with one process never sees a stale mapping", "anchors": ["src/Pool.cc: check_size_and_remap, expand", "src/SimpleAllocator.cc: lock", "src/LogarithmicAllocator.cc: lock", "README.md: Concurrency"]}
{"id": "C69", "title": "No use of pointers that the pool's growth has invalidated", "statement": "No method of Queue, PriorityQueue, HashTable or PrefixTree accesses memory through a pointer that it fetched before an allocation that expanded (and thereby remapped) the pool: each call behaves as if every access computed its address anew. (False of HashTable::incr, which stores the offset of a new pair through a pointer to the slot that it fetched before allocating; such a call faults when it expands the pool, and does what the specification says otherwise.)", "quantifier": "every call with every argument, every state of the structure and of the pool, every allocation of the call that expands the pool, concurrent calls in every interleaving, deaths at every point", "why_tests_cant": "the pool must be exactly so full that this call's allocation expands it, in each of the branches of each method, and the kernel must move the mapping", "anchors": ["src/Pool.hh: at", "src/Pool.cc: check_size_and_remap", "src/HashTable.cc: insert, incr", "src/Queue.cc: push_back, push_front", "src/PriorityQueue.cc: push", "src/PrefixTree.cc: traverse, insert, incr"]}
{"id": "C70", "title": "What a pool's name means: opening, creating and deleting", "statement": "Constructing a Pool under a new name creates one zeroed page with the size word set; under an existing name it maps that pool's whole file and changes nothing. All Pool objects constructed under one name by any processes are the same pool and the name keeps it, until somebody calls delete_pool for that name. delete_pool returns whether the pool existed, and neither it nor any constructor changes the bytes of an existing pool; a pool constructed after the deletion is none of the pools that were constructed before. The memory that a constructed Pool maps lies within its file for ever. (False when system calls fail: if open fails with an errno other than EEXIST, e.g. EMFILE, the constructor unlinks the name of the existing pool. Creation is not race-free, as the README says.)", "quantifier": "every state of the file system, any number of processes and threads, every interleaving of the system calls of constructors, deletions and users of the pools, deaths at every point, every failure of a system call where stated", "why_tests_cant": "the interleavings of the system calls of several processes, their deaths and the failures of system calls are unbounded", "anchors": ["src/Pool.cc: Pool::Pool, Pool::delete_pool, Pool::check_size_and_remap, open_segment, unlink_segment"]}
{"id": "C71", "title": "PrefixTree's time complexity", "statement": "PrefixTree's methods cost what the README's table says, where memory accesses, bytes copied, allocations and frees are counted separately: insert and incr O(key length) accesses, at most key length + 1 allocations and one free; erase O(key length) and at most key length + 1 frees; exists and type O(key length); at and find O(key length) plus the value's bytes; size and node_size one access; next_key, next_key_value, lower_bound and upper_bound O(length of the given key + length of the returned key) plus the returned value's bytes, whatever the number of keys in the tree; nodes_for_prefix and bytes_for_prefix O(prefix length) + O(nodes in the subtree); clear O(node count) and one free for each node but the root and at most one for each key. A call that returns false because of its check allocates and frees nothing.", "quantifier": "every history of calls, every tree they build, every key, value and check", "why_tests_cant": "a complexity bound is a statement about all sizes; a measurement of some sizes cannot exclude a hidden scan of the tree", "anchors": ["README.md: Time complexity", "src/PrefixTree.cc: traverse, insert, erase, execute_write, incr, next_key, next_key_value, find, lower_bound, upper_bound, clear, nodes_for_prefix, bytes_for_prefix"]}
{"id": "C72", "title": "The allocators' time complexity", "statement": "The allocators cost what the README's table says: SimpleAllocator::allocate makes O(number of allocated blocks) accesses to the pool and SimpleAllocator::free O(1); LogarithmicAllocator::allocate and free make O(log of the pool's size) accesses; allocate calls ftruncate at most once and free never. Repairing a SimpleAllocator pool after a death in allocate takes O(number of allocated blocks) accesses.", "quantifier": "every history of allocations, frees, writes and (for SimpleAllocator::free) crashes, every request size, every pool", "why_tests_cant": "a complexity bound is a statement about all numbers of blocks and all pool sizes; a benchmark sees a few", "anchors": ["README.md: Time complexity", "src/SimpleAllocator.cc: allocate, free, repair", "src/LogarithmicAllocator.cc: allocate, free, merge_blocks_at, create_free_blocks"]}
{"id": "C73", "title": "AtomicVector is non-blocking", "statement": "An AtomicVector method never waits for another process. Every method other than expand and expand_bits (load, store, exchange, compare_exchange, the fetch_* operations, load_bit, store_bit, xor_bit, size) returns or throws within five steps of its own (accesses to the shared memory, the file or its mapping), whatever the other processes do between them, including being suspended or dying anywhere. expand and expand_bits take at most twelve steps, plus eleven for each time another process has changed the vector's size during the call. A process in a call can always take its next step.", "quantifier": "every interleaving of any number of processes' calls, every point at which any of the others stop or die, every argument", "why_tests_cant": "wait-freedom is a bound over all schedules, including adversarial ones in which the other processes stop at the worst point", "anchors": ["src/AtomicVector.hh: expand, load, store, compare_exchange, load_bit, store_bit, xor_bit", "README.md: AtomicVector"]}
{"id": "C74", "title": "HashTable: a crash damages at most the slot of the key", "statement": "When a process dies at any point of a HashTable call (insert, erase, incr, with or without a check, at, exists, size, iteration; not clear), inside the allocator too, and the next process repairs the allocator, then calls on keys in other slots than that of the dead call's key go on answering exactly as a map would (at returns the value it had, insert, erase, incr and checks work), none of them faults or touches other clients' blocks, and this remains so after any number of further calls and deaths, as long as no call is given a key of a slot in which a process died and the table is not cleared or iterated. size() may be wrong by then. A death in a call that would have returned false (its check fails, or it erases an absent key) loses nothing at all.", "quantifier": "every history of calls and deaths, every point of every call at which a process dies, every hash function, any number of slots, every prior allocator history", "why_tests_cant": "a test can kill a process at a few points; this ranges over every access of every call in every reachable state, any number of times", "anchors": ["src/HashTable.cc: insert, erase, incr, walk_tables", "README.md: HashTable and PriorityQueue are not necessarily consistent after a crash"]}
{"id": "C75", "title": "Structures in one pool do not affect each other", "statement": "Any number of Queues, PriorityQueues, HashTables and PrefixTrees can be made in one pool, by any processes and in any order, and be used together with code that calls the allocator directly, also by several processes at the same time. Every call on a structure returns what it would return, and leaves the structure as it would be left, if that structure were alone in the pool; a structure can fail to be made only for lack of memory, and then nothing changes for the others. When a process dies anywhere in a constructor or in a call on one structure and the next one repairs the allocator, all other structures keep their contents and go on working, and blocks of other clients keep their bytes.", "quantifier": "every set of structures, every adaptive client (what is done next may depend on all answers so far), every history of the pool before, every point of every call and constructor at which a process dies, any number of deaths; for the concurrent form every interleaving of accesses", "why_tests_cant": "interference depends on which blocks the allocator hands out, which depends on the whole history of all structures; a test fixes one such history and one crash point", "anchors": ["src/Queue.cc", "src/PriorityQueue.cc", "src/HashTable.cc", "src/PrefixTree.cc", "src/SimpleAllocator.cc: allocate, free, repair", "README.md: multiple data structures in one pool (base_offset)"]}
{"id": "C76", "title": "A process that dies while it sets up an allocator does not spoil the pool", "statement": "When a process dies at any point of the constructor of SimpleAllocator or LogarithmicAllocator on a new pool, and any number of others die opening it after that, the next process that opens the pool gets a working, empty allocator, as if it had been the first.", "quantifier": "every new pool, every access of the constructor and of the repair at which a process dies, any number of deaths", "why_tests_cant": "tests open pools without being killed; the property is about every crash point of a short critical section, most of which are practically never hit by chance", "anchors": ["src/SimpleAllocator.cc: SimpleAllocator::SimpleAllocator, lock, repair", "src/LogarithmicAllocator.cc: LogarithmicAllocator::LogarithmicAllocator, lock, repair, create_free_block"]}
{"id": "C77", "title": "Who waits for whom at the read-write lock", "statement": "A reader waits only for writers, and for a free reader slot: when no writer has the lock and fewer than 65 readers are inside, a process that wants to read gets in after a bounded number of its own steps, even if no other process runs. A writer that has taken the write lock waits only for the readers that were inside at that moment: while it has it no further reader gets in.", "quantifier": "every number of threads and processes, every reachable state of the lock, every schedule of the other threads, deaths of other processes at any point", "why_tests_cant": "starvation and needless waiting depend on the schedule; a test sees only the schedules the machine happens to produce and cannot distinguish a long wait from an endless one", "anchors": ["src/ProcessLock.cc: ProcessReadWriteLockGuard::ProcessReadWriteLockGuard, wait_for_reader_drain, wait_for_reader_release, acquire_process_lock"]}
{"id": "C78", "title": "The lock survives the reuse of process ids", "statement": "When the operating system gives the process id of a dead process to a new process, the lock goes on working: a lock held by the dead process is taken over by those who wait for it, and two live processes are never inside sections that exclude each other.", "quantifier": "every number of processes, every schedule, deaths at any point, process ids reused at any time after the death of their owner", "why_tests_cant": "process ids are reused only after the system has gone through all others, and the dangerous cases need a death and a reuse within windows of a few instructions", "anchors": ["src/ProcessLock.cc: this_process_token, pid_for_token, process_for_token_is_running, acquire_process_lock"]}
{"id": "C79", "title": "Structures on the default allocator are linearizable", "statement": "When threads of several processes use one Queue, PriorityQueue, HashTable or PrefixTree in a pool of a LogarithmicAllocator at once, every call answers as if the calls had been made one at a time in one order that respects each thread's own order; and no call damages the allocator.", "quantifier": "every number of threads and processes, every sequence of calls of each, every interleaving of their memory accesses", "why_tests_cant": "schedules; the allocator's lists are shared by all threads and every call goes through them", "anchors": ["src/LogarithmicAllocator.cc: allocate, free, lock", "src/Queue.cc, HashTable.cc, PrefixTree.cc, PriorityQueue.cc: every public method"]}
{"id": "C80", "title": "PriorityQueue: what a crash can damage", "statement": "After a process dies at any point of a PriorityQueue call and the next process repairs the allocator, the queue still works: it holds the items it had before the call or those it would have after it, and later pushes, pops, clears and size() answer accordingly; blocks of other clients are untouched.", "quantifier": "every history of calls, every item, every death point (counted in accesses to the pool, also inside the allocator), every later history", "why_tests_cant": "the number of crash points times queue shapes is unbounded, and the damage of a death shows only in later calls", "anchors": ["src/PriorityQueue.cc: push, pop, clear, size", "README.md: 292"]}
{"id": "C81", "title": "Processes that only read may die at any time", "statement": "While several processes use one structure (with calls that it answers correctly when nobody dies), any process that only calls reading methods (size, bytes, at, exists, type, next_key, ...) may die at any time: while waiting for the lock, while holding it, inside a call, or while repairing the allocator after another death. The finished calls of all processes have the results of one sequential order, and the survivors find the structure in the state that order leaves.", "quantifier": "every structure, every number of processes and threads, every interleaving of memory accesses, every pattern of deaths of reading processes", "why_tests_cant": "interleavings and kill points are scheduler-chosen", "anchors": ["src/ProcessLock.cc: ProcessReadWriteLockGuard", "src/SimpleAllocator.cc: lock, repair", "src/Queue.cc", "src/PriorityQueue.cc", "src/HashTable.cc", "src/PrefixTree.cc"]}
{"id": "C82", "title": "is_locked and reader_count tell the truth about locks in use", "statement": "While other threads and processes take and release a lock, reader_count() counts every reader that stays inside during the call, counts nothing that was not in a reader slot at some moment during the call, and is exact when nobody comes or goes; is_locked(true) is true whenever somebody is inside a write section during the whole call (so always for the writer itself) and is_locked(false) whenever some reader stays inside; ProcessLock::is_locked likewise. Readers that have died are not counted.", "quantifier": "every number of threads and processes, every interleaving of their steps with the loads of the observer, every pattern of deaths", "why_tests_cant": "the observer reads 65 slots one after another while they change", "anchors": ["src/ProcessLock.cc: ProcessLock::is_locked, ProcessReadWriteLock::is_locked, reader_count", "src/LogarithmicAllocator.cc: allocate, free (assertions)", "src/SimpleAllocator.cc: is_locked"]}
{"id": "C83", "title": "Iterating over a Python PrefixTree shows exactly the dictionary", "statement": "list(t.keys()), list(t.values()), list(t.items()) and iter(t) yield every entry of the dictionary exactly once, in increasing order of the keys, with the objects that were stored; keys_from(p), values_from(p) and items_from(p) do the same for the entries whose keys are not below p, for every p, so that a scan that stops at the first key that does not start with p has seen exactly the entries under p; k in t holds for every key of the dictionary. Iterating changes nothing. This holds for programs that choose each call by the results of the calls before.", "quantifier": "every adaptive sequence of calls, every key, prefix and object of every type, every pool history, every allocator", "why_tests_cant": "keys, prefixes, values and histories are unbounded; whether a start is handled depends on the shape of the tree", "anchors": ["src/PythonModule.cc: sharedstructures_PrefixTreeIterator_New, sharedstructures_PrefixTreeIterator_Next, sharedstructures_PrefixTree_iter_generic, sharedstructures_PrefixTree_In", "src/PrefixTree.cc: lower_bound, begin, PrefixTreeIterator::operator++"]}
{"id": "C84", "title": "Inserting a value in pieces stores the concatenation", "statement": "PrefixTree::insert with an array of struct iovec does what insert of the concatenated bytes does: the same checks, the same answers, the same state afterwards, for any number of pieces, empty ones included, and any lengths; programs that mix both kinds of calls get the answers of the map. A process that dies inside such a call leaves the key with its old value, no value or the whole concatenation, never with a part.", "quantifier": "every list of pieces, key and check, every adaptive sequence of calls, every tree and pool history, every allocator, every crash point", "why_tests_cant": "the lists of pieces, histories and crash points are unbounded; the short form packs pieces at bit offsets that depend on all lengths before", "anchors": ["src/PrefixTree.cc: PrefixTree::insert(const void*, size_t, const struct iovec*, size_t, const CheckRequest*)", "src/PythonModule.cc: sharedstructures_PrefixTree_SetItem (marshalled objects)"]}
{"id": "C85", "title": "Durable linearizability: one history explains a run with deaths, in every thread's program order", "statement": "Threads of any number of processes call the methods of one PrefixTree, Queue, PriorityQueue or HashTable at the same time, and any process may die at any time, also inside a call, the allocator or a repair. There is one sequential history of the calls: finished calls stand in it in the order they finished, with the results they returned; every thread's calls stand in the order the thread makes them, each once; at most one call per thread is cut short, its last one, and only if its process is dead. At every moment a first part of the history, which only grows, accounts for what has happened: a thread that has come to its end has all its calls in it, and as long as no live process is writing, the lock recovery's repair succeeds and yields exactly the contents in which that part ends. For Queue, PriorityQueue and HashTable this holds until some thread goes on to use a structure that a death has damaged in the ways described in C23, C80 and C74.", "quantifier": "every number of threads and processes, every list of calls of each thread, every interleaving of memory accesses, every set of death points, every moment", "why_tests_cant": "interleavings and death points are unbounded; the claim is about a single history that fits all moments of a run", "anchors": ["src/ProcessLock.cc: ProcessReadWriteLockGuard", "src/SimpleAllocator.cc: SimpleAllocator::repair", "src/PrefixTree.cc", "src/Queue.cc", "src/PriorityQueue.cc", "src/HashTable.cc"]}
{"id": "C86", "title": "Threads may decide what to call next from what they have seen", "statement": "The guarantee of C85 does not need the calls of a thread to be fixed in advance: a thread that is not in a call may begin any call at any time, depending on the results it got, on time or on anything else. One sequential history accounts for every moment of every run: it has exactly the finished calls, in the order they finished and with their results, and possibly, of each thread whose process is dead, the call that was under way; each thread's calls in the order it began them and none that has not begun; a thread that is not in a call has all its calls in it; while no live process is writing, repair yields the contents in which the history ends.", "quantifier": "every run of any number of threads and processes, every choice of the next calls, every interleaving of memory accesses, every set of death points, every moment", "why_tests_cant": "interleavings, death points and client behaviours are unbounded", "anchors": ["src/ProcessLock.cc: ProcessReadWriteLockGuard", "src/SimpleAllocator.cc", "src/PrefixTree.cc", "src/Queue.cc", "src/PriorityQueue.cc", "src/HashTable.cc"]}
{"id": "C87", "title": "Shared counters in a prefix tree lose no increment", "statement": "If the value of a key is changed only by incr and by check-and-set of small integers, then at every moment its value is the initial one plus the amounts of all finished increments and successful check-and-sets, whatever the interleaving; if processes die (also inside incr), each finished increment counts exactly once and of every dead thread at most the increment it was in counts, at most once. With a separate read and write (t[k] += 1, README 259) increments of other processes can be lost.", "quantifier": "every run of any number of threads and processes, every interleaving of memory accesses, every set of death points (with check-and-set: no deaths), every moment", "why_tests_cant": "a lost update needs a particular interleaving or death point; both are unbounded", "anchors": ["src/PrefixTree.cc: PrefixTree::incr, insert with CheckRequest", "README.md 36, 259"]}
{"id": "C88", "title": "A whole pool: structures of every kind made and used concurrently by processes that may die", "statement": "Threads of any number of processes construct structures of any kind in one pool and call the methods of any of them (and the allocator), each deciding as it goes what to do next, and any process may die at any time, also in a constructor, a call or a repair. One sequential history accounts for every moment of the run: the finished calls, in the order they finished, have the results they would have if their structure were alone; a death affects at most the structure the call was on; each thread's calls are in the order it began them; while no live process is writing, repair succeeds, every structure that can be used can be used further, and the blocks of other clients are untouched. This holds up to the first call on a structure that a process has died in a call on (after deaths in calls on prefix trees or in the allocator alone: always).", "quantifier": "every set of structures and kinds, every run of any number of threads and processes, every choice of the next calls, every interleaving of memory accesses, every set of death points, every moment", "why_tests_cant": "interleavings, death points, client behaviours and sets of structures are unbounded", "anchors": ["src/ProcessLock.cc: ProcessReadWriteLockGuard", "src/SimpleAllocator.cc", "src/PrefixTree.cc", "src/Queue.cc", "src/PriorityQueue.cc", "src/HashTable.cc"]}
{"id": "C89", "title": "A queue of jobs: nothing is lost or delivered twice", "statement": "Threads of any number of processes push to one Queue and pop from it, each deciding freely what to call next. At every moment: what was in the queue at the beginning together with the values pushed is, as a multiset, what pops have returned together with what is in the queue now; a process that dies in the middle of a push or pop can add at most that one value, or remove at most one value that nobody is told. If values are pushed at the back and popped at the front only, they come out in the order in which they went in; without deaths, the initial contents and the values pushed in the order in which the pushes finished are exactly the values popped, in the order the pops finished, followed by the queue's contents. (Until a thread uses a queue that a death has split; see C86.)", "quantifier": "every initial queue, every run of any number of threads and processes, every choice of the next calls, every interleaving of memory accesses, every set of death points, every moment", "why_tests_cant": "interleavings, death points, client behaviours and lengths of runs are unbounded", "anchors": ["src/Queue.cc: push_back, push_front, pop_back, pop_front", "src/ProcessLock.cc: ProcessReadWriteLockGuard"]}
{"id": "C90", "title": "A priority queue of jobs: each pop delivers the least value, nothing is lost or delivered twice", "statement": "Threads of any number of processes push to one PriorityQueue, pop from it and ask for its size, each deciding freely what to call next. At every moment the initial contents and the values pushed are, as a multiset, the values popped and the contents. Without deaths each pop that succeeds returns the least of the values in the queue, counting the calls that finished before it, and a pop fails only if there is none. A process that dies in a push or pop can add at most that value or remove at most one that nobody is told; but it may also damage the queue, so that one item is there twice and another is gone (C80).", "quantifier": "every initial queue, every run of any number of threads and processes, every choice of the next calls, every interleaving of memory accesses, every set of death points, every moment", "why_tests_cant": "interleavings, death points, client behaviours and lengths of runs are unbounded", "anchors": ["src/PriorityQueue.cc: push, pop, size", "src/ProcessLock.cc: ProcessReadWriteLockGuard"]}
{"id": "C91", "title": "Iterators of the Python HashTable: keys, values and items", "statement": "For every client of a Python HashTable, list(t.keys()), list(t.values()), list(t.items()) and list(t) each have every entry exactly once, with the objects that were stored, in an order that is the same for all of them and does not change until the table is changed: keys and values listed one after the other belong together, as in dict(zip(t.keys(), t.values())). (Excluding what C53 excludes.)", "quantifier": "every sequence of calls chosen by outcomes, every hash function, every marshal module, every number of buckets, every history of the pool", "why_tests_cant": "tables, hash functions and histories are unbounded", "anchors": ["src/PythonModule.cc: sharedstructures_HashTableIterator_New, sharedstructures_HashTableIterator_Next, sharedstructures_HashTable_iter_generic", "src/HashTable.cc: HashTableIterator"]}
{"id": "C92", "title": "Tickets, counters and test-and-set flags on an AtomicVector", "statement": "Processes that share an AtomicVector and may die at any time: (counters) an element changed only by fetch_add and fetch_sub is at every moment its initial value plus the amounts of all finished calls and of some unfinished ones, each once and at most one per thread; (tickets) if an element is changed only by fetch_add of 1, no two finished calls get the same value, all values are the initial one plus less than the number of calls begun, and a call that begins after another has returned gets a later value; (flags) if a clear bit is changed only by store_bit(b, true), at most one finished call finds it clear, it is set once one call has returned, and if it is set then one call found it clear that has finished or is the one its thread is in or died in - while other bits of the same element change. (Provided that calls of expand overlap neither each other nor accesses to elements that do not exist yet; without that see C32.)", "quantifier": "every interleaving of the single steps of any number of processes, every pattern of deaths, every element size, every other calls on other elements", "why_tests_cant": "the interleavings and the points of death are unbounded in number", "anchors": ["src/AtomicVector.hh: fetch_add, fetch_sub, store_bit, xor_bit, expand"]}
{"id": "C93", "title": "A lock made of conditional calls on a PrefixTree", "statement": "Threads with different tokens use a key of a PrefixTree as a lock: they insert their token on condition that the key is missing, and erase the key on condition that its value still is their token; nothing else changes the key. Whatever the schedule, and whichever processes die at whatever points, inside these calls too: no two threads own the lock (got true from the insert and not yet from the erase), except that one of them has died inside its erase; as long as no live process is writing, the tree, after the repair that the next locker makes, has the owner's token for the key (unless the owner has died inside its erase), and if it has any value then it is the token of the owner or of a thread that has died inside its insert. So an insert that was refused, or an erase whose condition failed, changes nothing, even if its process dies inside it.", "quantifier": "every number of threads, every interleaving of single accesses, every pattern of deaths, every choice of other calls that do not change the key", "why_tests_cant": "the interleavings and the points of death are unbounded in number", "anchors": ["src/PrefixTree.cc: insert, erase, check_key, execute_check", "src/ProcessLock.cc"]}
{"id": "C94", "title": "A spin lock made of a bit of an AtomicVector", "statement": "A bit of an AtomicVector that is clear at first is used as a lock: store_bit(b, true) that returns false takes it, store_bit(b, false) gives it back, and only a thread that has it begins to give it back; nothing else changes the bit, though other bits of the element may change. At every moment, whatever the interleaving and whoever has died: no two threads have the lock; while a thread has it, the bit is set; if the bit is set, a thread has the lock or is in, or has died in, a call that takes it or gives it back. If the calls on another element are loads and stores begun with the lock, every load returns what the last store to return before it has written. (Calls of expand as in C32.)", "quantifier": "every interleaving of the single steps of any number of processes, every pattern of deaths, every element size, every other calls on other bits", "why_tests_cant": "the interleavings and the points of death are unbounded in number", "anchors": ["src/AtomicVector.hh: store_bit, fetch_or, fetch_and, at"]}
{"id": "C95", "title": "Lock-free updates of an AtomicVector element", "statement": "An element of an AtomicVector is changed only by compare_exchange (load the value, compute another from it, try to put it in, start again when that fails). At every moment, whatever the interleaving and whoever has died, there is a list of exchanges from the initial value of the element to the one in memory, in which each expects the value that the one before it has put in. It consists of all calls that have returned success, each once, and of some calls that threads are in or have died in, at most one of each thread; it respects real time; and every value that a load or a compare_exchange has returned is the initial one or has been put in by a call of the list. So no update is lost, repeated, or based on a value that another has replaced. If every exchange puts in g of the value that it expects, the element is g applied to the initial value, once for every call of the list. (Calls of expand as in C32.)", "quantifier": "every interleaving of the single steps of any number of processes, every pattern of deaths, every element size, every function g, every other calls on other elements", "why_tests_cant": "the interleavings and the points of death are unbounded in number", "anchors": ["src/AtomicVector.hh: compare_exchange, load, at"]}
{"id": "C96", "title": "Threads that choose their calls, on a LogarithmicAllocator", "statement": "Threads of several processes use one Queue, PriorityQueue, HashTable or PrefixTree in a pool of a LogarithmicAllocator (the default), each beginning any call at any time when it is not in one, depending on the results it got or on anything else. As long as no process dies, at every moment the finished calls have answered as if made one at a time in the order in which they finished, and while nobody is writing the pool is sound and holds exactly what that history leaves. So for a queue the values pushed are exactly the values popped and the values in the queue (in this order if all push at one end and pop at the other), and each pop of a PriorityQueue returns the least of the items pushed before it and not yet popped, or out_of_range when there are none. Restrictions: every block that is asked for is nonempty and fits in a page, or the pool cannot grow (C62); at most 256 items are pushed into the PriorityQueue; HashTable keys never collide in all the bits used, or erase is not called.", "quantifier": "every run of any number of threads and processes, every choice of the next calls, every interleaving of memory accesses, every moment", "why_tests_cant": "the interleavings, and the ways in which threads may choose their calls, are unbounded in number", "anchors": ["src/LogarithmicAllocator.cc: allocate, free, lock", "src/ProcessLock.cc: ProcessReadWriteLockGuard", "src/Queue.cc, src/PriorityQueue.cc, src/HashTable.cc, src/PrefixTree.cc"]}
{"id": "C97", "title": "Data protected by a lock made of conditional calls", "statement": "The threads of C93 read a second key of the prefix tree and write it (without a condition) only when they have the lock by the calls finished before; other calls do not change that key. Then deaths do not show: each read returns what the last write before it that has succeeded has written (or the key missing, if a write since then has failed for lack of memory); between two accesses of a thread without a release in between, no other thread accesses the key, so no update that is computed from a value read is lost; and if no thread has died in a write of the key, it has that value as long as no live process is writing, after a repair.", "quantifier": "every run of any number of threads and processes, every choice of the next calls that keeps to the discipline, every interleaving of memory accesses, every set of death points, every moment", "why_tests_cant": "the interleavings, the discipline's possible uses and the death points are unbounded in number", "anchors": ["src/PrefixTree.hh: check_and_set, erase, insert, at", "src/ProcessLock.cc: ProcessReadWriteLockGuard"]}
{"id": "C98", "title": "get_structure tells everything that is in a prefix tree", "statement": "PrefixTree::get_structure changes nothing, reads nothing outside allocated blocks, and returns the text of a tree in which every key has the value the map has for it. Two trees (in the same or in different pools, with different histories) for which it returns the same string hold exactly the same keys and values, provided that %lg prints no comma or parenthesis and prints no two of the doubles stored alike: characters of strings cannot be mistaken for the delimiters, and the nodes' ends can be told from the text. The converse is not so: trees with the same keys and values can have different strings.", "quantifier": "every pair of trees that histories of calls (including crashed ones) can make, with all types of values and any bytes in keys and strings", "why_tests_cant": "the trees, and the pairs of them, are unbounded in number and depth", "anchors": ["src/PrefixTree.cc: get_structure, get_structure_for_contents, should_escape_char_for_structure"]}
