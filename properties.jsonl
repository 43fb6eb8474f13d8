{"id": "C01", "title": "map/set/table lookups agree with a mathematical finite map after any history", "statement": "Start from an empty map (set, table) and apply any finite sequence of insert/set, update, update_if_exists and erase. Afterwards find(k)/count(k)/at(k)/operator[](k) give, for every key k, exactly what the sequence of operations prescribes for a mathematical finite map: the element of the last write to a key equal to k, or absent. No internal array access is out of bounds on the way.", "quantifier": "all operation sequences, all keys and values, all hash functions compatible with the key equality, all branching parameters B>=1", "why_tests_cant": "The state space is the set of all trie shapes, reached through hash prefixes of 64 bit hashes; tests visit a handful of shapes.", "anchors": ["immer/detail/hamts/champ.hpp get, do_add, do_update, do_update_if_exists, do_sub", "immer/detail/hamts/node.hpp make_merged, copy_inner_*", "immer/map.hpp", "immer/set.hpp", "immer/table.hpp"]}
{"id": "C02", "title": "size() is the exact number of distinct keys", "statement": "After any sequence of operations size() (and empty()) of a map, set or table equals the number of keys for which count(k)==1, i.e. the number of elements produced by iterating it.", "quantifier": "all operation sequences, all hash functions", "why_tests_cant": "size is a separately maintained counter whose agreement with the tree is a global invariant", "anchors": ["immer/detail/hamts/champ.hpp add, update, update_if_exists, sub, size"]}
{"id": "C03", "title": "Iteration visits every element exactly once", "statement": "Iterating a map/set/table from begin() to end() terminates, yields every element that lookup can find and nothing else, yields no key twice, and for_each_chunk/for_each/accumulate visit the same sequence as the iterators.", "quantifier": "all reachable containers", "why_tests_cant": "iterators walk a path array over arbitrary trie shapes including collision nodes at the last level", "anchors": ["immer/detail/hamts/champ_iterator.hpp", "immer/detail/hamts/champ.hpp for_each_chunk_traversal", "immer/algorithm.hpp"]}
{"id": "C04", "title": "Hash collisions never lose or conflate entries", "statement": "The map/set contract holds for every hash function that respects key equality, including constant ones: keys whose 64-bit hashes agree entirely or in any prefix remain independent entries.", "quantifier": "all hash functions K -> 64 bits", "why_tests_cant": "the collision level is reached only by full 64 bit collisions; partial collisions exist for each of the 13 levels", "anchors": ["immer/detail/hamts/node.hpp make_merged, make_collision, copy_collision_insert", "immer/detail/hamts/champ.hpp do_add, do_sub, get"]}
{"id": "C05", "title": "== on maps/sets is extensional equality", "statement": "Two maps (sets, tables) compare equal exactly when they hold the same elements, no matter by which insertion/erase histories they were built.", "quantifier": "all pairs of operation histories", "why_tests_cant": "depends on every history leading to the same canonical trie; quantifies over pairs of histories", "anchors": ["immer/detail/hamts/champ.hpp equals, equals_tree, equals_values, equals_collisions, do_sub"]}
{"id": "C06", "title": "diff reports exactly the difference", "statement": "diff(a,b,added,removed,changed) calls added exactly once for each element whose key is only in b, removed exactly once for each element whose key is only in a, changed(x,y) exactly once for each key in both with different elements, and nothing else.", "quantifier": "all pairs of reachable maps/sets", "why_tests_cant": "pairs of arbitrary histories; the 4x4 case analysis on node/data bits is recursive", "anchors": ["immer/detail/hamts/champ.hpp diff, diff_data_node, diff_collisions", "immer/algorithm.hpp diff"]}
{"id": "C07", "title": "Erase keeps the trie canonical", "statement": "After any history, every trie node below the root holds at least two elements, so erase always undoes insert: m.insert(v).erase(k) == m for a key k not in m, and the structure never retains chains of single-element nodes.", "quantifier": "all operation histories", "why_tests_cant": "shape invariant over all histories", "anchors": ["immer/detail/hamts/champ.hpp do_sub, sub_result", "immer/detail/hamts/node.hpp copy_inner_replace_inline"]}
{"id": "C08", "title": "Construction from a range equals successive insertion", "statement": "Building a map/set from a range or initializer list gives a container equal to inserting the elements one at a time in order into an empty one (later duplicates win).", "quantifier": "all input ranges", "why_tests_cant": "all lengths, all duplicates", "anchors": ["immer/detail/hamts/champ.hpp from_range, from_initializer_list, add_mut"]}
{"id": "C09", "title": "popcount fallback and bitmap iteration are exact", "statement": "The portable popcount used for 32 and 64 bit bitmaps returns the number of one bits for every input word, and iterating a bitmap's set bits yields each set bit exactly once in increasing order.", "quantifier": "all 2^32 and 2^64 words", "why_tests_cant": "2^64 inputs", "anchors": ["immer/detail/hamts/bits.hpp popcount_fallback, set_bits_range"]}
{"id": "C10", "title": "vector behaves as a sequence", "statement": "Start from an empty vector and apply any finite sequence of push_back, set, update and take. size(), operator[] and iteration agree with the same operations on a mathematical list; no operation reads or writes outside its nodes.", "quantifier": "all operation sequences, all B>=1, BL>=1, all element types", "why_tests_cant": "unbounded lengths, all tree heights, boundaries at every power of the branching factor", "anchors": ["immer/detail/rbts/rbtree.hpp push_back, get, update, take", "immer/detail/rbts/operations.hpp push_tail_visitor, slice_right_visitor, update_visitor", "immer/vector.hpp"]}
{"id": "C11", "title": "at() throws exactly on out of range", "statement": "at(i) on vector, flex_vector and array throws std::out_of_range iff i >= size(), and otherwise returns the i-th element; map/table at(k) throws iff count(k)==0.", "quantifier": "all reachable containers, all indices/keys", "why_tests_cant": "all indices", "anchors": ["immer/detail/rbts/rbtree.hpp get_check", "immer/detail/rbts/rrbtree.hpp get_check", "immer/map.hpp at", "immer/detail/arrays/with_capacity.hpp get_check"]}
{"id": "C12", "title": "flex_vector concatenation is list concatenation", "statement": "For all flex_vectors l and r that can be produced by the API, l + r has the elements of l followed by those of r, and the result satisfies the structural invariant every other operation relies on (exact cumulative size tables, leaf sizes within capacity).", "quantifier": "all reachable pairs of flex_vectors", "why_tests_cant": "the rebalancing algorithm's behaviour depends on node counts at all levels of both trees", "anchors": ["immer/detail/rbts/rrbtree.hpp concat", "immer/detail/rbts/operations.hpp concat_trees, concat_rebalance_plan, concat_merger"]}
{"id": "C13", "title": "flex_vector take/drop/insert/erase/push_front are list operations", "statement": "take(n), drop(n), insert(i,v), insert(i,vec), erase(i), erase(i,j), push_front(v) and push_back(v) produce exactly the list result for every index, including n beyond size().", "quantifier": "all reachable flex_vectors, all indices", "why_tests_cant": "left and right slicing of arbitrary relaxed trees", "anchors": ["immer/detail/rbts/rrbtree.hpp take, drop, push_back", "immer/detail/rbts/operations.hpp slice_right_visitor, slice_left_visitor", "immer/flex_vector.hpp"]}
{"id": "C14", "title": "Relaxed radix search stays in bounds and finds the right child", "statement": "In every flex_vector the API can produce, indexing any i < size() terminates, never inspects a size table beyond its stored count, and reaches the element at list position i.", "quantifier": "all reachable flex_vectors, all i<size()", "why_tests_cant": "the search starts at a radix guess and scans right; wrong tables would scan out of bounds", "anchors": ["immer/detail/rbts/position.hpp relaxed_pos::index, relaxed_descent", "immer/detail/rbts/rrbtree.hpp get"]}
{"id": "C15", "title": "Concatenation rebalance plan is safe and total-preserving", "statement": "The rebalancing plan computed when concatenating never uses more than its fixed-size array of 2*branches+1 entries, never reads past its end, terminates, keeps the total number of slots, keeps every node within its capacity, and ends with fewer than optimal+2 nodes.", "quantifier": "all slot count sequences the fill phase can produce", "why_tests_cant": "all multisets of child counts", "anchors": ["immer/detail/rbts/operations.hpp concat_rebalance_plan fill, shuffle"]}
{"id": "C16", "title": "vector == is element-wise equality", "statement": "Two vectors compare equal exactly when they have the same length and equal elements at every index, regardless of their histories and sharing.", "quantifier": "all pairs of reachable vectors", "why_tests_cant": "pairs of arbitrary histories; shortcut on pointer identity", "anchors": ["immer/detail/rbts/rbtree.hpp equals", "immer/detail/rbts/operations.hpp equals_visitor"]}
{"id": "C17", "title": "flex_vector == is element-wise equality", "statement": "Two flex_vectors compare equal exactly when they have the same length and equal elements at every index.", "quantifier": "all pairs of reachable flex_vectors", "why_tests_cant": "pairs of differently shaped relaxed trees; the bug found needs a tree-backed left operand and a tail-only right operand", "anchors": ["immer/detail/rbts/rrbtree.hpp equals", "immer/detail/rbts/operations.hpp equals_visitor"]}
{"id": "C18", "title": "Chunked traversal of sequences equals iteration", "statement": "for_each_chunk over a (flex_)vector passes chunks whose concatenation is the element list; over iterator range [i,j) the concatenation is the sublist; accumulate/for_each/copy equal the std algorithms; all_of/for_each_chunk_p stop at the first false and return the conjunction.", "quantifier": "all reachable vectors, all index ranges, all functions", "why_tests_cant": "all shapes and ranges", "anchors": ["immer/detail/rbts/operations.hpp for_each_chunk_visitor, for_each_chunk_i_visitor, for_each_chunk_p_*", "immer/detail/rbts/rrbtree.hpp for_each_chunk", "immer/algorithm.hpp"]}
{"id": "C19", "title": "Iterators are random access over the element list", "statement": "For an iterator at position i of a (flex_)vector, any sequence of ++, --, += n, -= n that stays in range leaves it at the arithmetic position, dereferencing yields the element at that position whatever chunk was cached before, and equality/distance agree with positions.", "quantifier": "all vectors, all iterator movement sequences", "why_tests_cant": "the iterator caches a chunk; stale caches appear only for particular movement sequences", "anchors": ["immer/detail/rbts/rbtree_iterator.hpp", "immer/detail/rbts/rrbtree_iterator.hpp", "immer/detail/iterator_facade.hpp"]}
{"id": "C20", "title": "Tree depth stays within the unrolled descent", "statement": "Indexing a container never reaches the unreachable branch of the unrolled descent: for every vector the depth is logarithmic in size; for flex_vector every API-reachable tree of feasible size must have at most six inner levels.", "quantifier": "all operation sequences", "why_tests_cant": "heights are driven by long concat/slice histories", "anchors": ["immer/detail/rbts/position.hpp regular_descent, relaxed_descent", "immer/config.hpp IMMER_DESCENT_DEEP"]}
{"id": "C21", "title": "Index arithmetic does not wrap", "statement": "Slicing and concatenating vectors that are larger than 2^32 elements computes the same sizes as exact arithmetic.", "quantifier": "all sizes up to max_size()", "why_tests_cant": "needs vectors of more than 2^32 elements", "anchors": ["immer/detail/rbts/position.hpp towards_sub_oh_regular, each_right_sub_, regular_sub_pos::size"]}
{"id": "C22", "title": "Transient and rvalue map/set operations give the persistent result", "statement": "Applying insert/set/update/update_if_exists/erase through a transient or on an rvalue gives a container equal to the persistent operation's result.", "quantifier": "all histories mixing persistent, rvalue and transient use", "why_tests_cant": "in-place update depends on which nodes happen to be shared", "anchors": ["immer/detail/hamts/champ.hpp do_add_mut, do_update_mut, do_update_if_exists_mut, do_sub_mut", "immer/detail/hamts/node.hpp move_*"]}
{"id": "C23", "title": "Mutation through transients/rvalues is never visible through other map values", "statement": "With reference counting, an in-place operation on one map/set leaves every other live map/set (and everything reachable from them) observably unchanged.", "quantifier": "all heaps of containers sharing nodes, all histories", "why_tests_cant": "aliasing patterns are unbounded", "anchors": ["immer/detail/hamts/node.hpp can_mutate, can_mutate_values, ensure_mutable_values", "immer/detail/hamts/champ.hpp *_mut"]}
{"id": "C24", "title": "Map/set memory is reference-exact", "statement": "After any history of constructing, copying, operating on (persistently or in place) and destroying maps/sets, every node's reference count equals the number of references to it; no node is used after being freed, freed twice, or leaked, and destroying all containers frees all nodes.", "quantifier": "all histories", "why_tests_cant": "leaks and double frees depend on sharing patterns", "anchors": ["immer/detail/hamts/node.hpp inc_nodes, delete_deep, delete_inner", "immer/detail/hamts/champ.hpp add_mut, sub_mut, ~champ"]}
{"id": "C25", "title": "Transient and rvalue vector operations give the list result and do not disturb sharers", "statement": "push_back/set/update/take through a vector transient or rvalue give the same list as the persistent operation and leave every other live vector unchanged, with exact reference counts.", "quantifier": "all heaps of vectors sharing nodes, all histories", "why_tests_cant": "aliasing patterns are unbounded", "anchors": ["immer/detail/rbts/rbtree.hpp push_back_mut, update_mut, take_mut", "immer/detail/rbts/operations.hpp push_tail_mut_visitor, get_mut_visitor, slice_right_mut_visitor, dec_visitor"]}
{"id": "C26", "title": "flex_vector transient prepend keeps reference counts exact", "statement": "Prepending or appending one flex_vector transient to another by move never leaves a node with fewer counted references than actual references.", "quantifier": "all pairs of transients", "why_tests_cant": "needs a full left tail and a tail-only right operand moved into prepend", "anchors": ["immer/detail/rbts/rrbtree.hpp concat_mut_lr_r, concat_mut_lr_l, concat_mut_r", "immer/flex_vector_transient.hpp prepend"]}
{"id": "C27", "title": "GC-mode transients are isolated by ownership tokens", "statement": "Under a tracing collector (no counts), nodes are mutated in place only by the transient that created them since its last persistent()/copy; values obtained from persistent(), and copies of a transient, never change afterwards.", "quantifier": "all interleavings of transient(), persistent(), copying, moving and mutation", "why_tests_cant": "token flow through copies and moves", "anchors": ["immer/transience/gc_transience_policy.hpp owner, ownee", "immer/detail/hamts/node.hpp owned, can_mutate"]}
{"id": "C28", "title": "array behaves as a sequence", "statement": "array and its transient agree with a mathematical list under push_back, set, update, take, at, and conversions between array and transient; capacity is never exceeded.", "quantifier": "all operation sequences", "why_tests_cant": "growth/shrink policy over all sizes", "anchors": ["immer/detail/arrays/with_capacity.hpp", "immer/detail/arrays/no_capacity.hpp", "immer/array.hpp", "immer/array_transient.hpp"]}
{"id": "C29", "title": "array element lifetimes are balanced", "statement": "Every element an array or array transient constructs is destroyed exactly once, and nothing else is destroyed, for all operation sequences including take on a transient.", "quantifier": "all operation sequences", "why_tests_cant": "lifetime errors are silent for trivial types", "anchors": ["immer/detail/arrays/with_capacity.hpp take_mut", "immer/detail/arrays/node.hpp"]}
{"id": "C30", "title": "array transient push_back is amortised constant", "statement": "n push_backs on an array transient starting from empty copy or move fewer than 2n existing elements in total.", "quantifier": "all n", "why_tests_cant": "amortised bound over all n", "anchors": ["immer/detail/arrays/with_capacity.hpp recommend_up, push_back_mut"]}
{"id": "C31", "title": "atom operations are linearizable", "statement": "Any concurrent history of load, store, exchange and update on a reference-counted or GC atom is linearizable to a single mutable cell; update applies its function to the value it replaces, and no update is lost.", "quantifier": "all thread counts and interleavings", "why_tests_cant": "schedules are unbounded", "anchors": ["immer/atom.hpp refcount_atom_impl, gc_atom_impl"]}
{"id": "C32", "title": "Spinlock gives mutual exclusion", "statement": "At most one thread is between lock()/try_lock() success and unlock(), under every interleaving.", "quantifier": "all thread counts and interleavings", "why_tests_cant": "schedules", "anchors": ["immer/lock/spinlock_policy.hpp"]}
{"id": "C33", "title": "Concurrent reference counting frees exactly once", "statement": "When threads only inc through a reference they hold and dec references they hold, exactly one dec observes zero, it is the last, and no thread holds a reference when the object is freed (as long as fewer than 2^32 references to the object exist at any time: the counter is an int).", "quantifier": "all thread counts and interleavings", "why_tests_cant": "schedules", "anchors": ["immer/refcount/refcount_policy.hpp"]}
{"id": "C34", "title": "Free list heaps never hand out a live block", "statement": "A block returned by allocate on a free-list heap is not in use by anyone until it is deallocated; the number of cached blocks never exceeds the limit.", "quantifier": "all allocation/deallocation sequences (single thread) and interleavings (lock-free variant)", "why_tests_cant": "schedules (ABA)", "anchors": ["immer/heap/unsafe_free_list_heap.hpp", "immer/heap/free_list_heap.hpp", "immer/heap/thread_local_free_list_heap.hpp"]}
{"id": "C35", "title": "Heap adaptors route each block back to where it came from", "statement": "split_heap, with_data, identity_heap and debug_size_heap deallocate a block through the same underlying heap, with the same address and size as it was allocated with, and give the client a non-overlapping block of the requested size.", "quantifier": "all sizes and adaptor stacks", "why_tests_cant": "size thresholds and offsets over all sizes", "anchors": ["immer/heap/split_heap.hpp", "immer/heap/with_data.hpp", "immer/heap/debug_size_heap.hpp"]}
{"id": "C36", "title": "Throwing element operations neither leak nor double-destroy", "statement": "When allocation or an element copy throws at any point inside a node-building helper, every element constructed so far is destroyed exactly once, all memory allocated by the helper is released, and the source node is unchanged.", "quantifier": "all fault points, all node contents", "why_tests_cant": "fault injection at each point of each size", "anchors": ["immer/detail/hamts/node.hpp copy_collision_insert, copy_collision_replace, copy_inner_*", "immer/detail/util.hpp uninitialized_copy"]}
{"id": "C37", "title": "Throwing operations give the strong guarantee on maps", "statement": "If hashing, comparison, the user's update function, element copy or allocation throws during a persistent map/set operation, all existing containers keep their value and no memory is leaked.", "quantifier": "all fault points", "why_tests_cant": "fault points times shapes", "anchors": ["immer/detail/hamts/champ.hpp do_add, do_update, do_sub IMMER_TRY/IMMER_CATCH"]}
{"id": "C38", "title": "box is an immutable value with copy-on-write update", "statement": "A box's content never changes through operations on other boxes; update returns f of the content; comparison agrees with contents; in-place rvalue update happens only if no other box shares the cell.", "quantifier": "all histories of boxes", "why_tests_cant": "sharing patterns", "anchors": ["immer/box.hpp"]}
{"id": "C39", "title": "identity implies equality", "statement": "If two containers report the same identity() they hold the same elements at that moment.", "quantifier": "all histories", "why_tests_cant": "sharing patterns", "anchors": ["immer/map.hpp identity", "immer/vector.hpp identity", "immer/flex_vector.hpp identity", "immer/array.hpp identity"]}
{"id": "C40", "title": "update leaves other entries alone", "statement": "update(k,f) on a map calls f exactly once, with the current value or a default-constructed one, and stores its result under k; update_if_exists calls f only when the key is present and otherwise returns an equal map; no other key changes.", "quantifier": "all maps, keys, functions", "why_tests_cant": "all shapes", "anchors": ["immer/detail/hamts/champ.hpp do_update, do_update_if_exists"]}
{"id": "C41", "title": "Exceptions in transient map operations leave a usable container", "statement": "If allocation, an element copy, hashing, comparison or the user's function throws during an in-place operation on a map or set, the container can still be read and destroyed, and no memory is leaked or released twice.", "quantifier": "all fault points, all states", "why_tests_cant": "fault points times shapes", "anchors": ["immer/detail/hamts/champ.hpp do_add_mut, do_update_mut, do_sub_mut"]}
{"id": "C42", "title": "Throwing operations on vectors leave everything as it was", "statement": "If allocation, an element copy or the user's function throws during an operation on a vector or vector_transient, in place or not, every vector and transient holds what it held before, nothing is leaked and all reference counts are exact. The only exceptions: a user function that throws while it updates an element in place leaves there what it leaves, and std::move(v).transient() leaves v empty.", "quantifier": "all fault points, all heaps of vectors sharing nodes, all histories", "why_tests_cant": "fault points times shapes times sharing", "anchors": ["immer/detail/rbts/rbtree.hpp", "immer/detail/rbts/operations.hpp", "immer/vector.hpp", "immer/vector_transient.hpp"]}
{"id": "C43", "title": "Programs with flex_vectors do what they should", "statement": "push_back, set, update, take and drop on flex_vectors, as persistent operations, through a transient or on an rvalue, together with copies, moves, assignments and destructions, never do anything undefined, give the lists they should, leave every other object unchanged, and keep reference counts exact.", "quantifier": "all programs, all sharing patterns, reference counting and tracing collector", "why_tests_cant": "sharing patterns of relaxed nodes and of their size tables are unbounded", "anchors": ["immer/detail/rbts/rrbtree.hpp", "immer/detail/rbts/operations.hpp", "immer/flex_vector.hpp", "immer/flex_vector_transient.hpp"]}
{"id": "C44", "title": "Throwing operations on flex_vectors leave everything as it was", "statement": "If allocation, an element copy or the user's function throws during an operation on a flex_vector or its transient, every object holds what it held before, nothing is leaked and all reference counts are exact, with the exceptions of C42.", "quantifier": "all fault points, all heaps of flex_vectors sharing nodes, all histories", "why_tests_cant": "fault points times shapes times sharing", "anchors": ["immer/detail/rbts/rrbtree.hpp", "immer/detail/rbts/operations.hpp"]}
{"id": "C45", "title": "Programs that concatenate flex_vectors do what they should", "statement": "operator+ on flex_vectors with lvalues and rvalues, and append and prepend on transients, in programs with all other operations, never do anything undefined, give the elements of the first operand followed by those of the second, and leave every object that they do not work on unchanged.", "quantifier": "all programs, all shapes and sharing patterns of the two operands, reference counting and tracing collector", "why_tests_cant": "the merger moves children between nodes that may be shared, at all levels of both trees; sharing patterns are unbounded", "anchors": ["immer/detail/rbts/rrbtree.hpp concat, concat_mut_l, concat_mut_r, concat_mut_lr_l, concat_mut_lr_r", "immer/detail/rbts/operations.hpp concat_trees, concat_merger", "immer/flex_vector.hpp operator+", "immer/flex_vector_transient.hpp append, prepend"]}
{"id": "C46", "title": "A concatenation that throws leaves everything as it was", "statement": "If an allocation or an element copy throws during a concatenation of flex_vectors or transients, as a new vector or in place, every object holds what it held before, nothing is leaked and all reference counts are exact.", "quantifier": "all fault points, all heaps of flex_vectors sharing nodes, all histories", "why_tests_cant": "fault points times shapes of two trees times sharing", "anchors": ["immer/detail/rbts/rrbtree.hpp concat, concat_mut_l, concat_mut_r", "immer/detail/rbts/operations.hpp concat_merger::abort"]}
{"id": "C47", "title": "push_front, insert and erase on memory", "statement": "push_front, insert (of an element or of a vector) and erase (of an element or of a range) of a flex_vector give the sequence they should, on values and on rvalues, under reference counting and under a collector; all other vectors keep their contents and nodes; if an allocation or an element copy throws in any part of the call, a vector that is not an rvalue holds what it held before, everything made on the way is destroyed and all reference counts are exact.", "quantifier": "all vectors, positions, elements, fault points, histories of sharing", "why_tests_cant": "every call is a series of slices and concatenations whose temporaries share nodes with the operand; faults in the middle times shapes cannot be enumerated", "anchors": ["immer/flex_vector.hpp push_front, insert, erase"]}
{"id": "C48", "title": "Threads with vectors that share nodes do not disturb each other", "statement": "When several threads create, copy, read, push_back to, update (as new vectors or, with rvalues, in place), destroy and pass on vectors that share nodes, each thread sees its own vectors change as if it were alone; there is no data race and no access to freed memory, each command ends without waiting for others, and when all vectors are destroyed every node has been freed exactly once.", "quantifier": "any number of threads, all commands, all interleavings of single memory accesses, with the memory orders of the reference counts as in the code", "why_tests_cant": "data races depend on interleavings and on orderings that a given machine may never show", "anchors": ["immer/refcount/refcount_policy.hpp", "immer/vector.hpp", "immer/detail/rbts/rbtree.hpp", "immer/detail/rbts/operations.hpp", "immer/detail/rbts/node.hpp"]}
{"id": "C49", "title": "Operations are cheap", "statement": "Copies, moves, assignment, destruction, transient() and persistent() of vectors allocate no node and copy no element, however large the vector is. push_back, set, update and take on a vector, persistent, on an rvalue or on a transient, allocate a number of nodes that is at most the depth of the tree plus two, copy at most the elements of one leaf, and call the function they are given at most once; for flex_vector, whose nodes have size tables, and also drop, the number of allocations is at most twice the depth plus three. Insertion into and erasure from a map or set allocates a bounded number of nodes, however many elements it has. The depth of a vector is the least for its size, and so grows with its logarithm.", "quantifier": "all vectors, maps and transients that programs can make, of any size and sharing nodes in any way", "why_tests_cant": "tests measure time on some sizes and some machines; that no path through an operation allocates or copies more has to be shown for all trees", "anchors": ["immer/vector.hpp", "immer/vector_transient.hpp", "immer/flex_vector.hpp", "immer/detail/rbts/rbtree.hpp", "immer/detail/rbts/rrbtree.hpp", "immer/detail/rbts/operations.hpp", "immer/detail/hamts/champ.hpp"]}
{"id": "C50", "title": "Concatenation is cheap", "statement": "Concatenating two flex_vectors, in any of the ways the interface offers (operator+ with lvalues and rvalues, append and prepend of transients with and without a move), makes a number of allocations bounded by a constant, which depends on the branching factor only, times the sum of the depths of the two trees plus one, however many elements the vectors have and whatever they share with other vectors.", "quantifier": "all pairs of vectors or transients that programs with concatenations can make, including a vector with itself", "why_tests_cant": "the nodes made depend on the shapes of both trees along the seam and on how the plan redistributes them; shapes cannot be enumerated, and measured times do not show the worst case", "anchors": ["immer/flex_vector.hpp operator+", "immer/flex_vector_transient.hpp append, prepend", "immer/detail/rbts/rrbtree.hpp concat", "immer/detail/rbts/operations.hpp concat_merger, concat_rebalance_plan"]}
{"id": "C51", "title": "dvektor is an immutable sequence", "statement": "Whatever push_back, assoc and update calls a program makes on dvektors, on any of the versions made so far, size and operator[] give for each version what a list with the same operations has, no call has undefined behaviour, and versions made earlier do not change.", "quantifier": "all programs of push_back, assoc and update over any versions, all numbers of bits per level, all sizes up to the capacity", "why_tests_cant": "which nodes are shared, copied and left out of date depends on the whole history through the focus; tests only push and then update, never push after an update on more than three levels", "anchors": ["immer/experimental/dvektor.hpp", "immer/experimental/detail/dvektor_impl.hpp"]}
{"id": "C52", "title": "Iterators of dvektor visit its elements", "statement": "begin() and end() of a dvektor are usable for every vector, also for the empty one; incrementing from begin() visits the elements in order and reaches end(); decrementing, jumping and dereferencing agree with the positions; making and using iterators changes no vector.", "quantifier": "all dvektors programs can make, of any size, and all moves between their positions", "why_tests_cant": "tests iterate over one size, 666; undefined behaviour depends on the size being a multiple of a leaf", "anchors": ["immer/experimental/dvektor.hpp begin, end", "immer/experimental/detail/dvektor_impl.hpp iterator"]}
{"id": "C53", "title": "Transients work in place", "statement": "An operation on a transient vector, or with reference counts on an rvalue, leaves the nodes on the way to the element it has changed to the object alone: a set, update or push_back that follows on an element of the same leaf allocates nothing and copies no element, wherever the leaf is and whatever else is shared with other objects. A push_back that follows a push_back copies no element, and allocates only when the leaf is full; this also holds for the copies made by flex_vector. Making a vector of n elements from a range copies no element from one node to another and allocates a number of nodes proportional to the number of leaves: no intermediate version is kept.", "quantifier": "all vectors and transients that programs can make, of any size and sharing nodes in any way, all pairs of calls that follow each other, with reference counting and under a collector", "why_tests_cant": "tests of transients compare results, which are the same if every node is copied; benchmarks measure time for some sizes", "anchors": ["immer/vector_transient.hpp", "immer/vector.hpp", "immer/flex_vector.hpp", "immer/detail/rbts/rbtree.hpp push_back_mut, get_mut, ensure_mutable_tail, from_range", "immer/detail/rbts/rrbtree.hpp push_back_mut", "immer/detail/rbts/operations.hpp get_mut_visitor", "immer/detail/rbts/node.hpp can_mutate", "immer/transience/gc_transience_policy.hpp"]}
{"id": "C54", "title": "Joining transients under a collector disturbs no other vector", "statement": "Under a tracing collector, append and prepend of a flex_vector_transient with another transient, moved from or not, work in place on nodes with the tokens of these transients only. Whether the call returns or throws, every vector that persistent() has returned, every vector a transient was made from, every other transient, and the second operand if it was not moved from, keeps all its nodes, with their children, size tables, elements and tokens, and its contents.", "quantifier": "all pairs of different transients that programs can make, all shapes and sharing patterns, all points where an allocation or a copy throws", "why_tests_cant": "in place, the merger writes to nodes, size tables and leaves of both trees at all levels; each write is guarded by a check of a token, and a missing check shows only if the node happens to be shared with a vector that is looked at afterwards", "anchors": ["immer/flex_vector_transient.hpp append, prepend", "immer/detail/rbts/rrbtree.hpp concat_mut_l, concat_mut_r, concat_mut_lr_l, concat_mut_lr_r", "immer/detail/rbts/operations.hpp concat_trees_mut, concat_merger_mut, concat_rebalance_plan_fill_mut", "immer/detail/rbts/node.hpp can_mutate, ensure_mutable_relaxed", "immer/transience/gc_transience_policy.hpp"]}
{"id": "C55", "title": "push_front, insert and erase are cheap", "statement": "push_front, insert (of an element or of a vector) and erase (of an element or of a range) of a flex_vector, on values and on rvalues, make a number of allocations bounded by a constant, which depends on the branching factor only, times the depth of the trees of the vectors, however many elements these have and whatever they share with other vectors. take and drop give a tree that is not deeper than the one they are applied to, push_back one that has at most one level more, and a concatenation one that has at most one level more than the deeper of the two.", "quantifier": "all vectors that programs can make, all positions and elements, all forms of the calls, with reference counting and under a collector", "why_tests_cant": "each call slices and joins trees of shapes that depend on the whole history; a slice or a join that leaves a level too many costs more only in later parts, and tests compare contents only", "anchors": ["immer/flex_vector.hpp push_front, insert, erase", "immer/detail/rbts/rrbtree.hpp take, drop, push_back, concat", "immer/detail/rbts/operations.hpp slice_right_visitor, slice_left_visitor, concat_merger"]}
{"id": "C56", "title": "Iterators of vectors are random access iterators", "statement": "For any number of iterators and reverse iterators of a vector or flex_vector, made by begin, end, rbegin, rend, by copying, by postfix ++ and --, by + and -, and moved with ++, --, += and -= by positive and negative amounts within the container, *, [] give the elements at the arithmetic positions (in the reversed sequence for reverse iterators), differences are the differences of the positions, and ==, !=, <, <=, >, >= compare the positions, whatever was dereferenced and cached before; no word arithmetic wraps or overflows. A loop from begin to end visits the elements in order, one from rbegin to rend in reverse.", "quantifier": "all vectors that programs can make, all programs over any number of their iterators that stay within the container, sizes below 2^63", "why_tests_cant": "positions are unsigned 64-bit words, differences signed ones: signs and wrapping matter only for some combinations of moves and directions; caches of leaves depend on the order of all dereferences and copies, and on where leaves of irregular trees begin", "anchors": ["immer/detail/iterator_facade.hpp", "immer/detail/rbts/rbtree_iterator.hpp", "immer/detail/rbts/rrbtree_iterator.hpp", "immer/vector.hpp begin, end, rbegin, rend", "immer/flex_vector.hpp begin, end, rbegin, rend"]}
{"id": "C57", "title": "Transients stay apart when the collector reuses memory", "statement": "Under a tracing collector the identity of a transient is the address of a small block. Once the transient is gone and no node keeps the block alive, its address may become the identity of another transient. However often this happens, and whichever of the addresses the collector may hand out it hands out, every array, vector, flex_vector, map, set, table and transient keeps the elements it should have, allowed calls do nothing undefined, and an operation of a transient changes no node of another object.", "quantifier": "all programs, all choices of the collector, all shapes and sharing patterns, all points where something throws", "why_tests_cant": "the collector runs at times and reuses addresses in ways that a test can hardly bring about; the outcome depends on which nodes of which vectors still hold the address at that moment", "anchors": ["immer/transience/gc_transience_policy.hpp make_token_, can_mutate", "immer/heap/gc_heap.hpp allocate", "immer/detail/rbts/node.hpp make_inner_r_e, make_inner_sr_n, ensure_mutable_relaxed", "immer/detail/rbts/operations.hpp slice_left_mut_visitor", "immer/vector.hpp transient", "immer/flex_vector.hpp transient", "immer/detail/hamts/node.hpp make_inner_n, make_collision_n, can_mutate", "immer/map.hpp transient", "immer/detail/arrays/node.hpp make_e, can_mutate", "immer/array.hpp transient"]}
