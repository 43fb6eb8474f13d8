{
 "claims": [
  {
   "property": "C01",
   "status": "proved",
   "theorems": [
    "Champ.C01_lookup",
    "Champ.mapApi_lawful",
    "Champ.setApi_lawful",
    "Champ.tableApi_lawful"
   ],
   "note": ""
  },
  {
   "property": "C02",
   "status": "proved",
   "theorems": [
    "Champ.C02_size"
   ],
   "note": ""
  },
  {
   "property": "C03",
   "status": "proved",
   "theorems": [
    "Champ.C03_iteration"
   ],
   "note": ""
  },
  {
   "property": "C04",
   "status": "proved",
   "theorems": [
    "Champ.C04_hash_independent"
   ],
   "note": ""
  },
  {
   "property": "C05",
   "status": "proved",
   "theorems": [
    "Champ.C05_equality",
    "Champ.C05_map"
   ],
   "note": ""
  },
  {
   "property": "C06",
   "status": "proved",
   "theorems": [
    "Champ.C06_diff"
   ],
   "note": ""
  },
  {
   "property": "C07",
   "status": "proved",
   "theorems": [
    "Champ.C07_no_singleton_nodes",
    "Champ.C07_erase_undoes_insert"
   ],
   "note": ""
  },
  {
   "property": "C08",
   "status": "proved",
   "theorems": [
    "Champ.C08_from_range",
    "ChampHeap.C22_programs"
   ],
   "note": "the first theorem at value level; the second on memory, with the in-place loop of the code"
  },
  {
   "property": "C09",
   "status": "proved",
   "theorems": [
    "Champ.C09_popcount32",
    "Champ.C09_popcount64",
    "Champ.C09_set_bits"
   ],
   "note": ""
  },
  {
   "property": "C10",
   "status": "partial",
   "theorems": [
    "Rrb.Vec.C10_operations",
    "Rrb.Vec.C10_index_partial",
    "Rrb.Vec.C10_front_back_partial",
    "Rrb.Vec.C20_vector_too_deep"
   ],
   "note": "all operations, size and traversal for all sizes; indexing for all sizes with IMMER_DESCENT_DEEP and up to 2^(BL+6B) without, beyond which it is proved undefined"
  },
  {
   "property": "C11",
   "status": "partial",
   "theorems": [
    "Champ.C11_map_at",
    "Rrb.Vec.C11_vector_at_partial",
    "Rrb.Vec.C11_vector_throws",
    "Rrb.Flex.C11_flex_at_partial",
    "Rrb.Flex.C11_flex_throws",
    "Arr.C11_array_at",
    "ArrGc.C11_gc_array_at"
   ],
   "note": "map and array in full; vector and flex_vector below the six level limit of the descent, beyond which indexing is proved undefined"
  },
  {
   "property": "C12",
   "status": "partial",
   "theorems": [
    "Rrb.Flex.C12_concat_partial",
    "Rrb.Flex.C12_concat_invariant_partial"
   ],
   "note": "for right operands with at most 2^32 elements and shift below 32, where the 32-bit shifts of position.hpp 657/873 are defined (see C21)"
  },
  {
   "property": "C13",
   "status": "partial",
   "theorems": [
    "Rrb.Flex.C13_shows",
    "Rrb.Flex.C13_push_take_set",
    "Rrb.Flex.C13_drop_insert_erase_partial"
   ],
   "note": "push_back, take, set, update without restriction; operations that drop from the front for at most 2^32 elements and shift below 32 (C21)"
  },
  {
   "property": "C14",
   "status": "partial",
   "theorems": [
    "Rrb.Flex.C14_region",
    "Rrb.Flex.C14_index_partial",
    "Rrb.Flex.C14_front_back_partial"
   ],
   "note": "region_for (used by iterators) without restriction; operator[] up to six inner levels without IMMER_DESCENT_DEEP, any number with it"
  },
  {
   "property": "C15",
   "status": "proved",
   "theorems": [
    "Rrb.Flex.C15_plan"
   ],
   "note": ""
  },
  {
   "property": "C16",
   "status": "proved",
   "theorems": [
    "Rrb.Vec.C16_vector_equality"
   ],
   "note": ""
  },
  {
   "property": "C17",
   "status": "partial",
   "theorems": [
    "Rrb.Flex.C17_compared",
    "Rrb.Flex.C17_equal_lists",
    "Rrb.Flex.C17_equality_partial",
    "Rrb.Flex.C17_tail_only_false",
    "Rrb.Flex.C17_higher_false"
   ],
   "note": "the code violates the claim: exact characterisation of what is compared, correctness outside two bad cases, and reachable counterexamples for both"
  },
  {
   "property": "C18",
   "status": "proved",
   "theorems": [
    "Rrb.Vec.C18_vector_chunks",
    "Rrb.Vec.C18_vector_algorithms",
    "Rrb.Vec.C18_vector_all_of",
    "Rrb.Flex.C18_flex_chunks",
    "Rrb.Flex.C18_flex_algorithms",
    "Rrb.Flex.C18_flex_all_of",
    "Rrb.Algo.allOfOwn_pure",
    "Rrb.Vec.C18_own_state"
   ],
   "note": "state of predicates and of the function given to accumulate is outside of them; state within them is copied for every chunk (F33, C18_own_state), which the C++ standard allows std::all_of too"
  },
  {
   "property": "C19",
   "status": "partial",
   "theorems": [
    "Rrb.VecIter.C19_vector_iterator_partial",
    "Rrb.VecIter.C19_vector_distance",
    "Rrb.FlexIter.C19_flex_iterator",
    "Rrb.FlexIter.C19_flex_iterator_end",
    "Rrb.FlexIter.C19_flex_distance"
   ],
   "note": "flex_vector in full; vector iterators use the unrolled descent, so up to 2^(BL+6B) elements without IMMER_DESCENT_DEEP"
  },
  {
   "property": "C20",
   "status": "partial",
   "theorems": [
    "Rrb.Vec.C20_vector_depth",
    "Rrb.Vec.C20_vector_too_deep",
    "Rrb.Vec.C20_vector_too_deep_witness",
    "Rrb.Flex.C20_flex_too_deep",
    "Rrb.Flex.C20_flex_too_deep_witness"
   ],
   "note": "vector depth is minimal; the unrolled descent nevertheless fails for small B, proved with reachable witnesses for vector and flex_vector"
  },
  {
   "property": "C21",
   "status": "partial",
   "theorems": [
    "Rrb.Flex.C21_sizes_partial",
    "Rrb.Flex.C21_drop_undefined",
    "Rrb.Flex.C21_drop_undefined_reachable"
   ],
   "note": "the code violates the claim: exact below 2^32, and a proof that drop is undefined on reachable trees with shift 32 and above"
  },
  {
   "property": "C22",
   "status": "proved",
   "theorems": [
    "ChampHeap.C22_programs",
    "ChampHeap.C22_same_result"
   ],
   "note": "any programs, with reference counting and under the collector; persistent operations and object management may throw, in-place operations are assumed not to (see C41); under the collector a transient that was moved from is only assigned to or destroyed"
  },
  {
   "property": "C23",
   "status": "proved",
   "theorems": [
    "ChampHeap.C23_others_unchanged",
    "ChampHeap.C22_programs"
   ],
   "note": "the same programs as C22"
  },
  {
   "property": "C24",
   "status": "proved",
   "theorems": [
    "ChampHeap.C24_exact",
    "ChampHeap.C24_all_released",
    "ChampHeap.C22_programs"
   ],
   "note": "the same programs as C22; nothing undefined happens in them, which includes use after release and double release"
  },
  {
   "property": "C25",
   "status": "proved",
   "theorems": [
    "VecHeap.C25_programs",
    "VecHeap.C25_same_result",
    "VecHeap.C25_others_unchanged",
    "VecHeap.C25_exact",
    "VecHeap.C25_all_released"
   ],
   "note": "vectors and their transients: any programs of constructions, copies, moves, assignments, destructions, transient/persistent and push_back/set/update/take in all three forms, any of which may throw; heaps shared with flex_vectors are not modelled"
  },
  {
   "property": "C26",
   "status": "partial",
   "theorems": [
    "FlexHeap.C26_fails",
    "FlexHeap.C26_exact_partial",
    "FlexHeap.C26_all_released_partial"
   ],
   "note": "false for prepend of an rvalue transient with a full tail (F2, C26_fails); proved for all other cases of append and prepend, in programs with the other operations and with faults (not F8, F24; not a transient with itself)"
  },
  {
   "property": "C27",
   "status": "proved",
   "theorems": [
    "ChampHeap.C27_others_unchanged",
    "ChampHeap.C27_only_owner",
    "ChampHeap.C27_persistent_gives_up",
    "ChampHeap.C22_programs",
    "VecHeap.C27_vector_others_unchanged",
    "VecHeap.C27_vector_only_owner",
    "VecHeap.C27_vector_persistent_gives_up",
    "VecHeap.C25_programs"
   ],
   "note": "maps, sets and vectors; under the collector a transient that was moved from is only assigned to or destroyed (F11)"
  },
  {
   "property": "C28",
   "status": "partial",
   "theorems": [
    "Arr.C28_operations",
    "Arr.C28_shows",
    "Arr.C28_get",
    "Arr.C28_equals",
    "ArrGc.C28_gc_operations",
    "ArrGc.C28_gc_shows",
    "ArrGc.C28_gc_get",
    "ArrGc.C28_gc_equals"
   ],
   "note": "with reference counting and with a garbage collector (tokens), including exceptions; partial only because take in place on a transient is covered just for types without destructor or when nothing is removed (the code is wrong otherwise, see C29); under the collector, transients that were moved from are only assigned to or destroyed"
  },
  {
   "property": "C29",
   "status": "partial",
   "theorems": [
    "Arr.C29_lifetimes_partial",
    "Arr.C29_all_released_partial",
    "Arr.C28_operations",
    "Arr.C29_take_mut"
   ],
   "note": "the code violates the claim: take on a transient destroys the wrong elements, and is proved undefined whenever it works in place on elements with a destructor; everything else is proved"
  },
  {
   "property": "C30",
   "status": "proved",
   "theorems": [
    "Arr.C30_amortised"
   ],
   "note": ""
  },
  {
   "property": "C31",
   "status": "proved",
   "theorems": [
    "Conc.Atom.C31_refcount_linearizable",
    "Conc.Atom.C31_refcount_updates",
    "Conc.Atom.C31_refcount_memory",
    "Conc.Atom.Gc.C31_gc_linearizable",
    "Conc.Atom.Gc.C31_gc_updates"
   ],
   "note": "sequentially consistent memory; the lock is abstract here and C32 proves the spinlock"
  },
  {
   "property": "C32",
   "status": "proved",
   "theorems": [
    "Conc.Spinlock.C32_mutual_exclusion",
    "Conc.Spinlock.C32_available"
   ],
   "note": ""
  },
  {
   "property": "C33",
   "status": "proved",
   "theorems": [
    "Conc.Refcount.C33_frees_once",
    "Conc.Refcount.C33_unique",
    "Conc.Refcount.C33_overflow"
   ],
   "note": "the last theorem shows that the bound on the number of references is needed"
  },
  {
   "property": "C34",
   "status": "partial",
   "theorems": [
    "Heap.C34_cached",
    "Heap.C34_returned",
    "Heap.C35_blocks",
    "Conc.FreeList.C34_lockfree_partial",
    "Conc.FreeList.C34_lockfree_not_exclusive",
    "Conc.FreeList.C34_lockfree_use_after_free"
   ],
   "note": "proved for global lists used by one thread and thread-local lists; for the lock-free list the claim is false (two witness schedules), proved when allocate calls do not overlap, with the limit exceeded by less than the number of threads"
  },
  {
   "property": "C35",
   "status": "proved",
   "theorems": [
    "Heap.C35_blocks",
    "Heap.C34_cached",
    "Heap.C34_returned"
   ],
   "note": ""
  },
  {
   "property": "C36",
   "status": "partial",
   "theorems": [
    "ChampHeap.C36_copy_inner",
    "ChampHeap.C36_copy_collision_partial",
    "ChampHeap.C36_fails"
   ],
   "note": "the code violates the claim: copy_collision_replace destroys an element that is not there when a copy throws; proved for the other helpers of maps and sets"
  },
  {
   "property": "C37",
   "status": "partial",
   "theorems": [
    "ChampHeap.C37_strong_partial",
    "ChampHeap.C37_fails"
   ],
   "note": "the code violates the claim when a copy throws in copy_collision_replace; proved for all other exceptions"
  },
  {
   "property": "C38",
   "status": "proved",
   "theorems": [
    "Box.C38_values",
    "Box.C38_memory",
    "Box.C38_in_place",
    "Box.C38_compare",
    "Box.C38_total"
   ],
   "note": ""
  },
  {
   "property": "C39",
   "status": "partial",
   "theorems": [
    "Arr.C39_array_identity",
    "ChampHeap.C39_identity",
    "VecHeap.C39_vector_identity",
    "FlexHeap.C39_flex_identity",
    "FlexHeap.C39_concat_identity_partial"
   ],
   "note": "arrays, maps, sets, tables, vectors, and flex_vectors; those that are made by concatenations on the conditions of C45"
  },
  {
   "property": "C40",
   "status": "proved",
   "theorems": [
    "Champ.C40_update",
    "Champ.C40_update_if_exists"
   ],
   "note": ""
  },
  {
   "property": "C41",
   "status": "partial",
   "theorems": [
    "ChampHeap.C41_hash_partial",
    "ChampHeap.C41_fails"
   ],
   "note": "the code violates the claim: after an exception in erase through a transient its destructor follows a dangling pointer"
  },
  {
   "property": "C42",
   "status": "proved",
   "theorems": [
    "VecHeap.C42_strong",
    "VecHeap.C42_persistent"
   ],
   "note": "vectors and their transients"
  },
  {
   "property": "C43",
   "status": "partial",
   "theorems": [
    "FlexHeap.C43_programs_partial",
    "FlexHeap.C43_same_result_partial",
    "FlexHeap.C43_others_unchanged_partial",
    "FlexHeap.C43_exact_partial",
    "FlexHeap.C43_all_released_partial",
    "FlexHeap.C43_only_owner_partial",
    "FlexHeap.C43_persistent_gives_up_partial",
    "FlexHeap.drop_self_move_fails"
   ],
   "note": "proved except for drop in place with elements that a move assignment to themselves changes, where it fails (F23, drop_self_move_fails), and for drop on trees too large for 32-bit shifts (F5); F24 in calls that throw"
  },
  {
   "property": "C44",
   "status": "partial",
   "theorems": [
    "FlexHeap.C44_strong_partial",
    "FlexHeap.C44_persistent_partial",
    "FlexHeap.take_table_throws_fails",
    "FlexHeap.push_table_throws_fails"
   ],
   "note": "proved for all faults but one: it fails when the allocation of a size table that is shared throws during an operation in place (F24)"
  },
  {
   "property": "C45",
   "status": "partial",
   "theorems": [
    "FlexHeap.C45_programs_partial",
    "FlexHeap.C45_others_unchanged_partial",
    "FlexHeap.C26_fails"
   ],
   "note": "proved but for F2 (C26_fails), for second operands too large for 32-bit shifts (F5), for the faults of F8, F24, F25; in place only with reference counting (with the collector concat_trees_mut is modelled in FlexHeap/ConcatGc, not proved)"
  },
  {
   "property": "C46",
   "status": "partial",
   "theorems": [
    "FlexHeap.C46_strong_partial",
    "FlexHeap.append_throws_fails",
    "FlexHeap.concat_abort_size_fails"
   ],
   "note": "false when the new tail of an append in place cannot be allocated (F8), and under the collector when a copy throws in the merger (F25); proved for all other faults but those of F24; in place only with reference counting"
  },
  {
   "property": "C47",
   "status": "partial",
   "theorems": [
    "FlexHeap.C47_no_fault",
    "FlexHeap.C47_edit_partial",
    "FlexHeap.C47_basic_partial",
    "FlexHeap.C47_strong_partial"
   ],
   "note": "all calls in which nothing throws, for vectors not too large for 32-bit shifts (F5); when something throws, if each part is on the conditions of C44 and C46 (EditOn)"
  },
  {
   "property": "C48",
   "status": "proved",
   "theorems": [
    "Thr.C48_results",
    "Thr.C48_no_undefined",
    "Thr.C48_no_race",
    "Thr.C48_released",
    "Thr.C48_wait_free",
    "Thr.C48_unique_current"
   ],
   "note": "vector with atomic reference counts; happens-before computed from the orders in refcount_policy.hpp; loads of counts may see values that are out of date; no exceptions"
  },
  {
   "property": "C49",
   "status": "proved",
   "theorems": [
    "VecHeap.C49_vector_ops",
    "VecHeap.C49_vector_handles",
    "FlexHeap.C49_flex_ops",
    "FlexHeap.C49_flex_handles",
    "ChampHeap.C49_map_ops",
    "ChampHeap.C49_map_handles"
   ],
   "note": "vectors in full, with the depth bounded by the logarithm of the size; flex_vector: allocations, copies and calls of functions of all operations, in terms of the depth; maps, sets and tables: allocations of all operations"
  },
  {
   "property": "C50",
   "status": "proved",
   "theorems": [
    "FlexHeap.C50_bound",
    "FlexHeap.C50_tables",
    "FlexHeap.C50_concat_partial"
   ],
   "note": "tables of sizes made for nodes that are changed in place are counted apart (C50_tables: one for each level of the first operand at most); for each of the five forms of concatenation and all pairs of objects, with reference counting and under a collector, in all states of memory; a transient is not joined with itself, which the code asserts; the bound says nothing about what happens where concatenation is undefined (F2, F5), C50_concat_partial says when it is not"
  },
  {
   "property": "C51",
   "status": "partial",
   "theorems": [
    "Dv.C51_seq_partial",
    "Dv.C51_fails"
   ],
   "note": "the code violates it (F28): push_back after an update on a vector with more than 2^(3B) elements (32768 by default) can lose elements, proved for all numbers of bits; proved for all programs that only push_back on vectors up to that size or just made by push_back"
  },
  {
   "property": "C52",
   "status": "partial",
   "theorems": [
    "Dv.C52_iter_partial",
    "Dv.C52_end_fails",
    "Dv.C52_empty_fails"
   ],
   "note": "the code violates it (F29, F30): a loop over a vector whose size is a multiple of 2^B, and begin() or end() of an empty one, have undefined behaviour, proved for all of them; all other moves are proved right"
  },
  {
   "property": "C53",
   "status": "proved",
   "theorems": [
    "VecHeap.C53_same_leaf",
    "VecHeap.C53_push",
    "VecHeap.C53_range",
    "FlexHeap.C53_flex_push"
   ],
   "note": "for calls that follow each other directly; vectors in full, flex_vector for the copies of elements made by push_back; that the first call may have to copy is shown by an example, and that it must again after persistent()"
  },
  {
   "property": "C54",
   "status": "partial",
   "theorems": [
    "FlexHeap.C54_gc_joins_partial",
    "FlexHeap.C54_gc_calls_partial",
    "FlexHeap.C54_gc_plus_partial",
    "FlexHeap.C54_gc_others_unchanged_partial"
   ],
   "note": "for any sequence of joins of different transients, of operations of one object and of concatenations of values, after any program without joins of transients, and for the call that returns or throws at its end; programs also go on after a call that threw if it is + or one that changes no object (new, range constructor, copy, transient(), persistent(), operations of values); missing are programs that go on after an operation in place, a join or an assignment of transients that threw after the first join, and drop in place that throws; the contents of the result are not part of the claim"
  },
  {
   "property": "C55",
   "status": "proved",
   "theorems": [
    "FlexHeap.C55_bound",
    "FlexHeap.C55_cheap",
    "FlexHeap.C55_concat_depth",
    "FlexHeap.depth_take",
    "FlexHeap.depth_dropN",
    "FlexHeap.depth_takeMut",
    "FlexHeap.depth_pushBack",
    "FlexHeap.depth_pushBackMut"
   ],
   "note": "the bound is (6 D + 4)(4 2^B + 8) with D a bound on the levels of the vectors; C55_bound is for all states of memory and says nothing about calls that are undefined, C55_cheap says that the call ends with the right result for vectors of programs that are small enough for 32-bit shifts (F5) (erase of a range on an rvalue does not compile under a collector, F26); copies of elements and size tables made in place are not counted here"
  },
  {
   "property": "C56",
   "status": "partial",
   "theorems": [
    "Rrb.C56_flex_iterators",
    "Rrb.C56_flex_loops",
    "Rrb.C56_vector_iterators_partial",
    "Rrb.C56_vector_loops_partial"
   ],
   "note": "flex_vector in full (below 2^63 elements); vector iterators use the unrolled descent, so up to 2^(BL+6B) elements without IMMER_DESCENT_DEEP (C20)"
  },
  {
   "property": "C57",
   "status": "partial",
   "theorems": [
    "FlexHeap.C57_vectors",
    "ArrGc.C57_arrays",
    "ArrGc.C57_arrays_nodes",
    "ChampHeap.C57_maps",
    "FlexHeap.C57_flex_partial",
    "FlexHeap.Ex.C57_flex_fails"
   ],
   "note": "vectors, arrays, maps, sets and tables in full; for flex_vector the claim fails (F32, C57_flex_fails: a program after which a value has another element), and C57_flex_partial is for programs in which no token is given out again while a size table that can be reached has it; joins of transients are not among these programs"
  }
 ]
}