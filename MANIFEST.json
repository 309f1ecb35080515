{
 "claims": [
  {
   "property": "C34",
   "status": "proved",
   "theorems": [
    "GoSTL.RB.C34_rbtree_balanced",
    "GoSTL.RB.C34_rbtree_no_panic"
   ],
   "note": "All reachable states of the pointer model."
  },
  {
   "property": "C35",
   "status": "proved",
   "theorems": [
    "GoSTL.RB.C35_rbtree_contents",
    "GoSTL.RB.C35_insertBy_meaning"
   ],
   "note": ""
  },
  {
   "property": "C36",
   "status": "proved",
   "theorems": [
    "GoSTL.RB.C36_rbtree_lookups"
   ],
   "note": ""
  },
  {
   "property": "C37",
   "status": "proved",
   "theorems": [
    "GoSTL.RB.C37_rbtree_iteration"
   ],
   "note": ""
  },
  {
   "property": "C38",
   "status": "proved",
   "theorems": [
    "GoSTL.RB.C38_isRbTree_decides",
    "GoSTL.RB.C38_isRbTree_reachable"
   ],
   "note": ""
  },
  {
   "property": "C39",
   "status": "partial",
   "theorems": [
    "GoSTL.RB.C39_delete_handles_partial",
    "GoSTL.RB.C39_violated"
   ],
   "note": "The code violates the full property: deleting a node with two children moves the successor into it (C39_violated is a machine-checked counterexample). Proved: at most the immediate successor is affected."
  },
  {
   "property": "C40",
   "status": "proved",
   "theorems": [
    "GoSTL.TreeMap.C40_map_is_finite_map",
    "GoSTL.TreeMap.C40_map_no_panic"
   ],
   "note": ""
  },
  {
   "property": "C41",
   "status": "proved",
   "theorems": [
    "GoSTL.TreeMap.C41_map_order_and_bounds"
   ],
   "note": ""
  },
  {
   "property": "C42",
   "status": "proved",
   "theorems": [
    "GoSTL.TreeMap.C42_multimap",
    "GoSTL.TreeMap.C42_multimap_no_panic"
   ],
   "note": ""
  },
  {
   "property": "C43",
   "status": "proved",
   "theorems": [
    "GoSTL.TreeMap.C43_set",
    "GoSTL.TreeMap.C43_set_no_panic"
   ],
   "note": ""
  },
  {
   "property": "C44",
   "status": "proved",
   "theorems": [
    "GoSTL.TreeMap.C44_multiset",
    "GoSTL.TreeMap.C44_multiset_no_panic"
   ],
   "note": ""
  },
  {
   "property": "C45",
   "status": "proved",
   "theorems": [
    "GoSTL.TreeMap.C45_set_algebra"
   ],
   "note": "Operands are read-only in the model; the missing lock on the second operand is C59."
  },
  {
   "property": "C46",
   "status": "proved",
   "theorems": [
    "GoSTL.TreeMap.C46_eraseIter_exact",
    "GoSTL.TreeMap.C46_eraseIter_invalid",
    "GoSTL.TreeMap.C46_stale_iterator_corrupts"
   ],
   "note": "Invalid means IsValid()=false. C46_stale_iterator_corrupts shows that a stale iterator, which still says IsValid()=true, does damage."
  },
  {
   "property": "C18",
   "status": "proved",
   "theorems": [
    "GoSTL.Algo.C18_sort_sorts"
   ],
   "note": "For any container whose Size/At/Set act like a list (instances proved for list, vector, array, slice wrapper, deque)."
  },
  {
   "property": "C19",
   "status": "partial",
   "theorems": [
    "GoSTL.Algo.C19_stable_sorts_partial",
    "GoSTL.Algo.C19_stable_empty_diverges"
   ],
   "note": "Proved for non-empty ranges; for empty ranges the property is false: the recursion never ends (proved for every budget)."
  },
  {
   "property": "C20",
   "status": "proved",
   "theorems": [
    "GoSTL.Algo.C20_binarySearch_decides"
   ],
   "note": ""
  },
  {
   "property": "C21",
   "status": "proved",
   "theorems": [
    "GoSTL.Algo.C21_lowerBound",
    "GoSTL.Algo.C21_upperBound"
   ],
   "note": ""
  },
  {
   "property": "C22",
   "status": "partial",
   "theorems": [
    "GoSTL.Algo.C22_nthElement_partial",
    "GoSTL.Algo.C22_nthElement_wrong"
   ],
   "note": "The property is false of the code: a two-element subrange is never ordered. Proved: everything else (n-th element up to exchange with one neighbour)."
  },
  {
   "property": "C23",
   "status": "proved",
   "theorems": [
    "GoSTL.Algo.C23_nextPermutation"
   ],
   "note": ""
  },
  {
   "property": "C24",
   "status": "partial",
   "theorems": [
    "GoSTL.Algo.C24_reverse_partial",
    "GoSTL.Algo.C24_reverse_empty_panics"
   ],
   "note": "Proved for non-empty ranges; on empty ranges Reverse always panics (proved)."
  },
  {
   "property": "C25",
   "status": "proved",
   "theorems": [
    "GoSTL.Algo.C25_count",
    "GoSTL.Algo.C25_find",
    "GoSTL.Algo.C25_maxElement",
    "GoSTL.Algo.C25_minElement",
    "GoSTL.Algo.C25_visitors"
   ],
   "note": "Stated for random-access containers; the underlying *_spec theorems hold for any const iterator range."
  },
  {
   "property": "C12",
   "status": "proved",
   "theorems": [
    "GoSTL.Vector.C12_vector_is_sequence"
   ],
   "note": "Any growth of the backing arrays (parameter of each appending call); memory model with shared backing arrays."
  },
  {
   "property": "C13",
   "status": "proved",
   "theorems": [
    "GoSTL.Vector.C13_vectors_independent",
    "GoSTL.Vector.C13_copy_same"
   ],
   "note": ""
  },
  {
   "property": "C14",
   "status": "proved",
   "theorems": [
    "GoSTL.Vector.C14_capacity"
   ],
   "note": ""
  },
  {
   "property": "C15",
   "status": "proved",
   "theorems": [
    "GoSTL.Arr.C15_array_is_sequence",
    "GoSTL.Arr.C15_size_fixed"
   ],
   "note": ""
  },
  {
   "property": "C17",
   "status": "partial",
   "theorems": [
    "GoSTL.SliceWrap.C17_last_prev_partial",
    "GoSTL.SliceWrap.C17_last_is_invalid"
   ],
   "note": "The property is false of the code for every slice: Last() returns position Len(). Proved: the negation, and that one Prev() reaches the last element."
  },
  {
   "property": "C01",
   "status": "proved",
   "theorems": [
    "GoSTL.Deque.C01_deque_is_sequence",
    "GoSTL.Deque.C01_deque_is_sequence_go"
   ],
   "note": "Histories of all calls; any positive segment capacity and any shrink threshold rounding that does not lower it; instantiated with the code's 128 and n*6/5."
  },
  {
   "property": "C02",
   "status": "proved",
   "theorems": [
    "GoSTL.Deque.C02_deque_bounds"
   ],
   "note": ""
  },
  {
   "property": "C16",
   "status": "proved",
   "theorems": [
    "GoSTL.Seq.C16_forward",
    "GoSTL.Seq.C16_backward",
    "GoSTL.Seq.C16_bounds",
    "GoSTL.Vector.C16_vector",
    "GoSTL.Arr.C16_array",
    "GoSTL.SliceWrap.C16_slice",
    "GoSTL.SliceWrap.C16_slice_attach",
    "GoSTL.Deque.C16_deque"
   ],
   "note": "General for any lawful random-access container; instances for the four containers."
  },
  {
   "property": "C05",
   "status": "proved",
   "theorems": [
    "GoSTL.BidList.C05_history",
    "GoSTL.BidList.C05_history_noClear",
    "GoSTL.BidList.C05_sequences"
   ],
   "note": "All 24 calls on any number of lists; histories that use a handle of a node whose list was cleared around it are excluded (C06). In the specification MoveAfter(front, back) is a no-op and copying into an empty list panics, as in the code (C07, C08)."
  },
  {
   "property": "C06",
   "status": "partial",
   "theorems": [
    "GoSTL.BidList.C06_foreign_partial",
    "GoSTL.BidList.C06_violated"
   ],
   "note": "False of the code for nodes whose list was cleared around them: Clear does not detach them, Remove then makes Len negative. Proved for all other foreign handles."
  },
  {
   "property": "C07",
   "status": "partial",
   "theorems": [
    "GoSTL.BidList.C07_moveAfter_partial",
    "GoSTL.BidList.C07_violated"
   ],
   "note": "False of the code when the node is the front and the mark the back: the call does nothing (proved for every such list). Proved for all other pairs."
  },
  {
   "property": "C08",
   "status": "partial",
   "theorems": [
    "GoSTL.BidList.C08_pushBackList_partial",
    "GoSTL.BidList.C08_pushFrontList_partial",
    "GoSTL.BidList.C08_violated"
   ],
   "note": "False of the code for an empty receiver: it panics (proved for every such call). Proved otherwise, including the same list twice."
  },
  {
   "property": "C09",
   "status": "proved",
   "theorems": [
    "GoSTL.BidList.C09_walks",
    "GoSTL.BidList.C09_traversal"
   ],
   "note": ""
  },
  {
   "property": "C03",
   "status": "proved",
   "theorems": [
    "GoSTL.Adapter.C03_queue_deque",
    "GoSTL.Adapter.C03_queue_list",
    "GoSTL.Adapter.C03_fifo"
   ],
   "note": ""
  },
  {
   "property": "C04",
   "status": "proved",
   "theorems": [
    "GoSTL.Adapter.C04_stack_deque",
    "GoSTL.Adapter.C04_stack_list"
   ],
   "note": ""
  },
  {
   "property": "C10",
   "status": "proved",
   "theorems": [
    "GoSTL.SimpleList.C10_history",
    "GoSTL.SimpleList.C10_traversal"
   ],
   "note": ""
  },
  {
   "property": "C11",
   "status": "partial",
   "theorems": [
    "GoSTL.SimpleList.C11_order_partial",
    "GoSTL.SimpleList.C11_violated"
   ],
   "note": "False of the code for every foreign mark: Len grows (proved for every reachable list). Proved: FrontNode and the traversal stay the same."
  },
  {
   "property": "C27",
   "status": "proved",
   "theorems": [
    "GoSTL.Heap.C27_history",
    "GoSTL.Heap.C27_popAll",
    "GoSTL.Heap.Slice.C27_slice"
   ],
   "note": "C27_slice: the same with the elements in a Go slice, for every growth of its backing array."
  },
  {
   "property": "C28",
   "status": "proved",
   "theorems": [
    "GoSTL.Heap.C28_init",
    "GoSTL.Heap.C28_push",
    "GoSTL.Heap.C28_remove",
    "GoSTL.Heap.C28_remove_panics",
    "GoSTL.Heap.C28_fix",
    "GoSTL.Heap.C28_fix_outside"
   ],
   "note": ""
  },
  {
   "property": "C29",
   "status": "proved",
   "theorems": [
    "GoSTL.Bitmap.C29_history",
    "GoSTL.Bitmap.C29_last"
   ],
   "note": ""
  },
  {
   "property": "C30",
   "status": "proved",
   "theorems": [
    "GoSTL.Bitmap.C30_size",
    "GoSTL.Bitmap.C30_resize",
    "GoSTL.Bitmap.C30_data",
    "GoSTL.Bitmap.C29_history"
   ],
   "note": "C29_history covers Resize, Data and shared slices as well."
  },
  {
   "property": "C31",
   "status": "proved",
   "theorems": [
    "GoSTL.Bloom.C31_no_false_negatives",
    "GoSTL.Bloom.C31_monotone",
    "GoSTL.Bloom.C31_zero_m",
    "GoSTL.Bloom.C31_huge_k"
   ],
   "note": "Any hash function returning at least 8 bytes."
  },
  {
   "property": "C32",
   "status": "proved",
   "theorems": [
    "GoSTL.Bloom.C32_roundtrip",
    "GoSTL.Bloom.C32_reachable"
   ],
   "note": "The byte slice passed to NewFromData is modelled by value."
  },
  {
   "property": "C33",
   "status": "partial",
   "theorems": [
    "GoSTL.Bloom.C33_genHashInts_partial",
    "GoSTL.Bloom.C33_repeats",
    "GoSTL.Bloom.C33_violated"
   ],
   "note": "False of the code: every block is the hash of the seed itself (shadowed variable), so values repeat with period 8 (proved for all seeds). Proved: length, prefix consistency, first block."
  },
  {
   "property": "C60",
   "status": "partial",
   "theorems": [
    "GoSTL.Bitmap.C60_new_partial",
    "GoSTL.Bitmap.C60_violated",
    "GoSTL.Bloom.C60_bloom_violated"
   ],
   "note": "False of the code for sizes above 2^64-8: the rounding wraps to 0. Proved for all other sizes."
  },
  {
   "property": "C47",
   "status": "proved",
   "theorems": [
    "GoSTL.Hamt.C47_hamt_is_a_map",
    "GoSTL.Hamt.Heap.C47_hamt_heap"
   ],
   "note": "any hash function, any history; no panic, 11 levels of recursion suffice. Proved for the trie as a value and, by refinement, for the trie as nodes and pairs on a heap that the calls change in place."
  },
  {
   "property": "C48",
   "status": "proved",
   "theorems": [
    "GoSTL.Hamt.C48_traversal_lists_the_map",
    "GoSTL.Hamt.C48_keys",
    "GoSTL.Hamt.Heap.C48_traversal_heap"
   ],
   "note": "C48_traversal_heap: the same for the trie on a heap. StringKeys returns the same byte strings as Keys"
  },
  {
   "property": "C49",
   "status": "partial",
   "theorems": [
    "GoSTL.Hamt.C49_traversal_partial",
    "GoSTL.Hamt.C49_exactly_partial",
    "GoSTL.Hamt.C49_exactly_heap_partial",
    "GoSTL.Hamt.C49_flat_root_partial",
    "GoSTL.Hamt.C49_violated"
   ],
   "note": "false of the code: a stop inside a nested node does not stop the outer loop (witness with the real FNV hash). Proved: exactly which entries are skipped after a stop, in terms of the hashes of the keys alone (C49_exactly_partial; with pointers, C49_exactly_heap_partial); nothing before the first stop is missed, what is visited later is a part of the rest of the listing; with no nested node the traversal stops"
  },
  {
   "property": "C50",
   "status": "proved",
   "theorems": [
    "GoSTL.Hamt.C50_depth_and_shape",
    "GoSTL.Hamt.C47_hamt_is_a_map"
   ],
   "note": ""
  },
  {
   "property": "C51",
   "status": "proved",
   "theorems": [
    "GoSTL.Skiplist.C51_skiplist_is_a_map"
   ],
   "note": "maximum levels 1 to 64 (default 10); any random draws"
  },
  {
   "property": "C52",
   "status": "proved",
   "theorems": [
    "GoSTL.Skiplist.C52_traversal_in_order"
   ],
   "note": ""
  },
  {
   "property": "C53",
   "status": "partial",
   "theorems": [
    "GoSTL.Skiplist.C53_randomLevel_partial",
    "GoSTL.Skiplist.C53_violated",
    "GoSTL.Skiplist.C53_zero"
   ],
   "note": "false of the code for maximum levels above 64 (never ends, proved for every draw) and 0 (division by zero); proved for 1 to 64"
  },
  {
   "property": "C54",
   "status": "proved",
   "theorems": [
    "GoSTL.Ketama.C54_get_is_clockwise_owner",
    "GoSTL.Ketama.C54_no_panic"
   ],
   "note": "any hash function returning at least 8 bytes"
  },
  {
   "property": "C55",
   "status": "proved",
   "theorems": [
    "GoSTL.Ketama.C55_add_minimal",
    "GoSTL.Ketama.C55_remove_minimal",
    "GoSTL.Ketama.C55_removed_gets_nothing"
   ],
   "note": ""
  },
  {
   "property": "C56",
   "status": "partial",
   "theorems": [
    "GoSTL.Ketama.C56_membership_partial",
    "GoSTL.Ketama.C56_get_member_partial",
    "GoSTL.Ketama.C56_remove_undoes_add_partial",
    "GoSTL.Ketama.C56_violated"
   ],
   "note": "false of the code when two nodes share a point: after removing the first, the second does not get the point back (witness). Proved for nodes without common points"
  },
  {
   "property": "C57",
   "status": "partial",
   "theorems": [
    "GoSTL.Conc.C57_violated",
    "GoSTL.Conc.C57_no_remove_partial",
    "GoSTL.Conc.C57_kept_node_partial"
   ],
   "note": "false of the code: Get checks for emptiness and looks up in two critical sections (a panicking interleaving for every hash, replica count, node and key). Proved: no panic without Remove, or while some node is never removed"
  },
  {
   "property": "C58",
   "status": "proved",
   "theorems": [
    "GoSTL.Conc.C58_sections_atomic",
    "GoSTL.Conc.C58_race_free",
    "GoSTL.Conc.C58_no_deadlock",
    "GoSTL.Conc.C58_linearizable",
    "GoSTL.Conc.C58_linearizable_rel",
    "GoSTL.Conc.C58_every_order_possible",
    "GoSTL.Conc.C58_readers_only_read",
    "GoSTL.Conc.C58_ketama_kept",
    "GoSTL.Conc.C58_ketama_members",
    "GoSTL.Conc.C58_ketama_owner",
    "GoSTL.Conc.C58_queue_list",
    "GoSTL.Conc.C58_stack_list",
    "GoSTL.Conc.C58_queue",
    "GoSTL.Conc.C58_stack",
    "GoSTL.Conc.C58_map",
    "GoSTL.Conc.C58_set",
    "GoSTL.Conc.C58_hamt",
    "GoSTL.Conc.C58_skiplist",
    "GoSTL.Conc.C58_priority_queue",
    "GoSTL.Conc.C58_multimap",
    "GoSTL.Conc.C58_multiset",
    "GoSTL.Conc.C58_bloom",
    "GoSTL.Conc.C58_ketama",
    "GoSTL.Conc.C58_ketama_readers_only_read"
   ],
   "note": "RWMutex by its specification, sequentially consistent memory; iterators are the subject of C65"
  },
  {
   "property": "C59",
   "status": "partial",
   "theorems": [
    "GoSTL.Conc.C59_violated",
    "GoSTL.Conc.C59_not_linearizable",
    "GoSTL.Conc.C59_frozen_partial"
   ],
   "note": "false of the code: other is read without its lock (a race for every code of the three methods; a result that no sequential execution gives). Proved when other is the receiver or is not changed concurrently"
  },
  {
   "property": "C61",
   "status": "partial",
   "theorems": [
    "GoSTL.Ketama.C61_violated",
    "GoSTL.Ketama.C61_replicas_partial"
   ],
   "note": "false of the code for replicas above 8 (the default is 10), because the hash values repeat. Proved: up to 8"
  },
  {
   "property": "C26",
   "status": "partial",
   "theorems": [
    "GoSTL.Comparator.C26_integers",
    "GoSTL.Comparator.C26_string",
    "GoSTL.Comparator.C26_bool",
    "GoSTL.Comparator.C26_float",
    "GoSTL.Comparator.C26_float_formats",
    "GoSTL.Comparator.C26_orderedFloat_partial",
    "GoSTL.Comparator.C26_orderedFloat_violated",
    "GoSTL.Comparator.C26_complex128_partial",
    "GoSTL.Comparator.C26_complex128_violated",
    "GoSTL.Comparator.C26_complex64_partial",
    "GoSTL.Comparator.C26_complex64_violated",
    "GoSTL.Comparator.C26_reverse",
    "GoSTL.Comparator.C26_reverse_violated"
   ],
   "note": "false of Complex64Comparator (line 283 compares real(a) with itself), of OrderedTypeCmp and Complex128Comparator with NaN, and of Reverse for comparators that return the smallest int. Proved for all other comparators and values"
  },
  {
   "property": "C62",
   "status": "partial",
   "theorems": [
    "GoSTL.Str.C62_deque",
    "GoSTL.Str.C62_simplelist",
    "GoSTL.Str.C62_bidlist",
    "GoSTL.Str.C62_set",
    "GoSTL.Str.C62_multiset",
    "GoSTL.Str.C62_string_partial",
    "GoSTL.Str.C62_violated"
   ],
   "note": "false of the code when the leading elements print as the empty string: the separator is dropped, so [\"\", \"a\"] and [\"a\"] print the same. Proved: exactly what is printed, for every reachable container"
  },
  {
   "property": "C63",
   "status": "proved",
   "theorems": [
    "GoSTL.RB.C63_rbtree_logarithmic",
    "GoSTL.Heap.C63_heap_logarithmic",
    "GoSTL.Algo.C63_binarySearch_logarithmic",
    "GoSTL.Algo.C63_bounds_logarithmic",
    "GoSTL.Algo.C63_stable_nlogn"
   ],
   "note": "Tree and heap: number of loop rounds; algorithms: number of element reads and writes. Cost of Sort is not stated (quadratic in the worst case)."
  },
  {
   "property": "C64",
   "status": "partial",
   "theorems": [
    "GoSTL.Conc.C64_no_deadlock_partial",
    "GoSTL.Conc.C64_every_execution_ends_partial",
    "GoSTL.Conc.C64_containers_partial",
    "GoSTL.Conc.C64_visitor_write_violated",
    "GoSTL.Conc.C64_visitor_read_violated"
   ],
   "note": "false of the code when a visitor calls the container it is visiting: a writing method blocks for good, a reading method blocks when a writer waits. Proved for all uses in which no call is made from a visitor"
  },
  {
   "property": "C65",
   "status": "partial",
   "theorems": [
    "GoSTL.Conc.C65_iterators",
    "GoSTL.Conc.C65_violated",
    "GoSTL.Conc.C65_while_nobody_writes_partial"
   ],
   "note": "false of the code: iterators read without the lock. Proved: no race while nobody writes"
  },
  {
   "property": "C66",
   "status": "proved",
   "theorems": [
    "GoSTL.Obj.C66_iterators_stay",
    "GoSTL.Obj.C66_sort",
    "GoSTL.Obj.C66_stable",
    "GoSTL.Obj.C66_binarySearch",
    "GoSTL.Obj.C66_lowerBound",
    "GoSTL.Obj.C66_upperBound",
    "GoSTL.Obj.C66_nthElement",
    "GoSTL.Obj.C66_nextPermutation",
    "GoSTL.Obj.C66_reverse",
    "GoSTL.Obj.C66_const_iterators_stay",
    "GoSTL.Obj.C66_find",
    "GoSTL.Obj.C66_extremes"
   ],
   "note": "Iterators are mutable objects here; the theorems also carry C18 to C25 over to them. For visitors (CountIf, FindIf, AllOf, AnyOf, NoneOf) the hypothesis is that the visitor moves no iterator but its own clones."
  },
  {
   "property": "C67",
   "status": "partial",
   "theorems": [
    "GoSTL.Obj.C67_violated",
    "GoSTL.Obj.C67_bounds_partial",
    "GoSTL.Obj.C66_find"
   ],
   "note": "false of the code: MaxElement and MinElement return the object first itself when the first element is extremal, Find and FindIf return the object last itself when nothing matches (C66_find). Proved: LowerBound and UpperBound always return a new iterator, Find and FindIf when something matches"
  },
  {
   "property": "C68",
   "status": "proved",
   "theorems": [
    "GoSTL.Vector.C68_data",
    "GoSTL.Vector.C68_agree",
    "GoSTL.Arr.C68_array_data"
   ],
   "note": "Histories over any number of vectors (arrays) and slices handed out by Data, with reads and writes through the slices; any growth of the backing arrays. Not covered: append and reslicing by the caller on such a slice."
  },
  {
   "property": "C69",
   "status": "proved",
   "theorems": [
    "GoSTL.Iters.C69_bidlist",
    "GoSTL.Iters.C69_simplelist",
    "GoSTL.Iters.C69_map",
    "GoSTL.Iters.C69_multimap",
    "GoSTL.Iters.C69_set",
    "GoSTL.Iters.C69_multiset"
   ],
   "note": "Ranges between iterators reached by Next from the front of any reachable container; visitors are pure predicates of the iterator."
  },
  {
   "property": "C70",
   "status": "partial",
   "theorems": [
    "GoSTL.Iters.C70_bidlist_partial",
    "GoSTL.Iters.C70_map_partial",
    "GoSTL.Iters.C70_multimap_partial"
   ],
   "note": "Proved: non-empty ranges whose end is an element, and the empty range at the end. The property is false otherwise, and the theorems say what happens instead: a range up to the end always panics; an empty range at an element panics, or reverses the whole container when the element starts the second half."
  },
  {
   "property": "C71",
   "status": "proved",
   "theorems": [
    "GoSTL.Algo.C71_sort",
    "GoSTL.Algo.C71_stable",
    "GoSTL.Algo.C71_nthElement",
    "GoSTL.Algo.C71_binarySearch",
    "GoSTL.Algo.C71_lowerBound",
    "GoSTL.Algo.C71_upperBound",
    "GoSTL.Algo.C71_nextPermutation_wrong",
    "GoSTL.Heap.C71_init",
    "GoSTL.Heap.C71_push",
    "GoSTL.Heap.C71_remove",
    "GoSTL.Heap.C71_fix",
    "GoSTL.Heap.C71_priorityqueue",
    "GoSTL.TreeMap.C71_tree_updates",
    "GoSTL.TreeMap.C71_tree_lookups",
    "GoSTL.TreeMap.C71_eraseAll_then_find",
    "GoSTL.TreeMap.C71_set_insert",
    "GoSTL.TreeMap.C71_set_algebra",
    "GoSTL.TreeMap.C71_set_algebra_two_orders",
    "GoSTL.TreeMap.C71_map_nan_hides_keys",
    "GoSTL.Skiplist.C71_skiplist"
   ],
   "note": "The comparator is an arbitrary (deterministic) function. NextPermutation is not among the robust algorithms: C71_nextPermutation_wrong shows it panicking or writing outside its range. C71_map_nan_hides_keys shows what is not promised: with NaN keys a key that is there is not found. Skip lists with maximum level 1 to 64; Stable on non-empty ranges, as for C19."
  },
  {
   "property": "C72",
   "status": "proved",
   "theorems": [
    "GoSTL.Bloom.C72_exact",
    "GoSTL.Bloom.C72_order",
    "GoSTL.Bloom.C72_more_functions_do_nothing"
   ],
   "note": "The positions of a value are the first k words of the hash of the salted value modulo m. The third theorem is the consequence of the defect of C33: functions beyond the eighth change nothing."
  },
  {
   "property": "C73",
   "status": "partial",
   "theorems": [
    "GoSTL.Bloom.C73_parameters_partial",
    "GoSTL.Bloom.C73_no_false_negatives",
    "GoSTL.Bloom.C73_violated",
    "GoSTL.Bloom.C73_rate_one",
    "GoSTL.Bloom.C73_float",
    "GoSTL.Bloom.C73_float_no_false_negatives",
    "GoSTL.Bloom.C73_float_violated"
   ],
   "note": "In exact real arithmetic, and for every floating-point arithmetic whose operations have a relative error of at most u <= 2^-40 (with p^(1-30u) for p); the latter assumes such an error of math.Log. Missing is a probabilistic statement about the bits (see C79). C73_violated: for fp < 1/256 the estimated number of functions is above 8 and the functions beyond the eighth do nothing."
  },
  {
   "property": "C74",
   "status": "proved",
   "theorems": [
    "GoSTL.Deque.C74_deque_memory",
    "GoSTL.Deque.C74_deque_memory_go"
   ],
   "note": "For every segment capacity and every scale12 with n <= scale12 n <= 6n/5; the second theorem instantiates the parameters of the code."
  },
  {
   "property": "C75",
   "status": "partial",
   "theorems": [
    "GoSTL.Conc.C75_readers_never_wait_partial",
    "GoSTL.Conc.C75_reading_code_never_waits",
    "GoSTL.Conc.C75_only_writers_lock",
    "GoSTL.Conc.C75_bloom_data_violated",
    "GoSTL.Conc.C75_ketama_get_violated"
   ],
   "note": "Holds for queue, stack, priority queue, map, multimap, set, multiset, hamt and skiplist: a method takes Lock exactly if it can change the container, and goroutines making other calls can always go on. False for BloomFilter.Data and Ketama.Get, which take Lock though they change nothing: two of them exclude each other."
  },
  {
   "property": "C76",
   "status": "partial",
   "theorems": [
    "GoSTL.Algo.C76_sort_quadratic_partial",
    "GoSTL.Algo.C76_sort_violated",
    "GoSTL.Algo.C76_nthElement_quadratic_partial",
    "GoSTL.Algo.C76_nthElement_violated"
   ],
   "note": "Proved: never more than 5 n^2 accesses, for every content and comparator. The n log n (n) bound is false of the code: on every range of n equal elements Sort makes at least n^2/2 and NthElement at least n^2 accesses."
  },
  {
   "property": "C77",
   "status": "proved",
   "theorems": [
    "GoSTL.Deque.C77_deque_amortised",
    "GoSTL.Deque.C77_deque_amortised_go",
    "GoSTL.Deque.goCfg_scale12_float"
   ],
   "note": "A ghost counter in the model counts the slots allocated by expand, shrinkIfNeeded and shrinkPool; potential argument. The shrink rule int(float64(n)*1.2) is computed as IEEE 754 prescribes and proved equal to n*6/5 rounded down for n < 2^49."
  },
  {
   "property": "C78",
   "status": "partial",
   "theorems": [
    "GoSTL.Iters.C78_bidlist",
    "GoSTL.Iters.C78_bidlist_two",
    "GoSTL.Iters.C78_simplelist",
    "GoSTL.Iters.C78_map",
    "GoSTL.Iters.C78_multimap",
    "GoSTL.Iters.C78_set",
    "GoSTL.Iters.C78_multiset",
    "GoSTL.Iters.C78_random_access",
    "GoSTL.Iters.C78_slice_partial",
    "GoSTL.Iters.C78_slice_violated"
   ],
   "note": "Proved within one container for every kind, and across containers for Vector, Array and Deque. False of the code across containers for slices (Equal ignores the slice) and for the end iterators of lists, maps and sets (all nil, so all Equal)."
  },
  {
   "property": "C79",
   "status": "partial",
   "theorems": [
    "GoSTL.Bloom.C79_answer",
    "GoSTL.Bloom.C79_realizable",
    "GoSTL.Bloom.C79_rate_ge",
    "GoSTL.Bloom.C79_rate_le",
    "GoSTL.Bloom.C79_within_factor_partial",
    "GoSTL.Bloom.C79_violated",
    "GoSTL.Bloom.C79_eight_functions",
    "GoSTL.Bloom.C79_float_within_factor_partial",
    "GoSTL.Bloom.C79_float_violated",
    "GoSTL.Bloom.C79_float_eight_functions"
   ],
   "note": "Proved: the rate lies between p^k and p(p+(1-p)/m)...(p+(k-1)(1-p)/m) with p = 1-(1-1/m)^(nk), for all m, k, n; with the estimated parameters it is at most 4 times the rate asked for (n >= 10, rate <= 1/2, k <= n). The bound itself is false of the code: asked for 1/2 the rate is more than 1/2 for every n >= 6 (k is rounded up), and since only 8 functions have an effect the rate falls only like (1/log(1/p))^8. The bounds are proved in real arithmetic and again for every floating-point arithmetic with relative errors of at most 2^-40. Uniform positions instead of SHA-512 modulo m."
  },
  {
   "property": "C80",
   "status": "proved",
   "theorems": [
    "GoSTL.Skiplist.C80_levels_geometric"
   ],
   "note": ""
  },
  {
   "property": "C81",
   "status": "proved",
   "theorems": [
    "GoSTL.Skiplist.C81_average_comparisons",
    "GoSTL.Skiplist.C81_logarithmic",
    "GoSTL.Skiplist.C81_linear_for_fixed_levels",
    "GoSTL.Skiplist.stepC_fst"
   ],
   "note": "The comparator calls are counted by a second version of the operations, proved to agree with the first (stepC_fst). The average is over all 64-bit numbers for every call of the history, exactly, including the bias of the remainder. That math/rand produces such numbers is not modelled."
  },
  {
   "property": "C82",
   "status": "proved",
   "theorems": [
    "GoSTL.Ketama.C82_exact_share",
    "GoSTL.Ketama.C82_balanced",
    "GoSTL.Ketama.C82_moves_little"
   ],
   "note": "Exactly 1/m among the choices of hashes in which no two nodes share a word, hence 1/m up to N^2/2^58 among all, with N node names. That SHA-512 behaves like a uniform choice is not modelled. This is the share of one key over the hash functions, not the variance of the load over keys for one hash function."
  },
  {
   "property": "C83",
   "status": "proved",
   "theorems": [
    "GoSTL.Hamt.C83_order",
    "GoSTL.Hamt.C83_canonical",
    "GoSTL.Hamt.C83_same_keys_same_order",
    "GoSTL.Hamt.C83_collisions"
   ],
   "note": "For every hash function, FNV-1 included. With collisions the order of the colliding keys depends on the history (C83_collisions, for every colliding pair)."
  },
  {
   "property": "C84",
   "status": "partial",
   "theorems": [
    "GoSTL.Hamt.C84_value_semantics_partial",
    "GoSTL.Hamt.C84_from_new_partial",
    "GoSTL.Hamt.C84_violated",
    "GoSTL.Hamt.C84_reused_buffer"
   ],
   "note": "False of the code: Insert keeps the caller's slice. For every hash function a byte changed after Insert makes the inserted key disappear and Keys list a key that was never inserted (C84_violated). Proved for programs that do not write to a slice after passing it to Insert (or to the slices Keys returned, which are the same)."
  },
  {
   "property": "C85",
   "status": "proved",
   "theorems": [
    "GoSTL.Bloom.Alias.C85_slices",
    "GoSTL.Bloom.Alias.C85_no_false_negatives",
    "GoSTL.Bloom.Alias.C85_imports_share",
    "GoSTL.Bloom.Alias.C85_violated"
   ],
   "note": "C85_violated and C85_imports_share show what sharing means in practice (no defect of the statement above, but of the wish that an import is a snapshot): writing to the imported slice makes the filter forget values, and two filters imported from one slice are one filter."
  },
  {
   "property": "C86",
   "status": "proved",
   "theorems": [
    "GoSTL.Adapter.Shared.C86_given_container",
    "GoSTL.Adapter.Shared.C86_library",
    "GoSTL.Adapter.Shared.C86_two_ends"
   ],
   "note": "for every lawful container, and instantiated for the library's deque and list."
  },
  {
   "property": "C87",
   "status": "partial",
   "theorems": [
    "GoSTL.Conc.C87_one_adapter_partial",
    "GoSTL.Conc.C87_violated"
   ],
   "note": "C87 is false: each adapter has a lock of its own, so two pushes through different adapters on one container race, for every container, content and code (C87_violated). Proved: with one adapter per container every execution is linearizable and race free, whatever the container held at the start."
  },
  {
   "property": "C88",
   "status": "partial",
   "theorems": [
    "GoSTL.Algo.C88_sort",
    "GoSTL.Algo.C88_nthElement",
    "GoSTL.Algo.C88_stable",
    "GoSTL.Algo.C88_binarySearch",
    "GoSTL.Algo.C88_lowerBound",
    "GoSTL.Algo.C88_upperBound",
    "GoSTL.Algo.C88_nextPermutation_crash",
    "GoSTL.Algo.C88_agree",
    "GoSTL.Heap.C88_heap_init",
    "GoSTL.Heap.C88_heap_push_partial",
    "GoSTL.Heap.C88_heap_pop",
    "GoSTL.Heap.C88_heap_remove",
    "GoSTL.Heap.C88_heap_fix",
    "GoSTL.Heap.C88_heap_agree",
    "GoSTL.Heap.C88_heap_agree_rest",
    "GoSTL.Heap.C88_pqueue_history",
    "GoSTL.Heap.C88_violated_order",
    "GoSTL.RB.C88_tree_agree",
    "GoSTL.RB.C88_tree_lookups",
    "GoSTL.RB.C88_tree_lookups_end",
    "GoSTL.RB.C88_tree_insert_partial",
    "GoSTL.RB.C88_tree_insert_pure",
    "GoSTL.RB.C88_tree_insert_asks",
    "GoSTL.RB.C88_tree_erase",
    "GoSTL.RB.C88_tree_eraseAll",
    "GoSTL.RB.C88_violated_size",
    "GoSTL.RB.C88_violated_entries",
    "GoSTL.Skiplist.C88_skiplist_partial",
    "GoSTL.Skiplist.C88_skiplist_lawful",
    "GoSTL.Skiplist.C88_violated_skiplist"
   ],
   "note": "everything but three clauses, which are false: after a panic in the last comparison of Insert the entries are right but Size is one too high (C88_violated_size; exactly as before when panics depend only on the keys, C88_tree_insert_pure), and a comparator that answers the same question differently within one Insert makes the tree lose entries (C88_violated_entries). After a panic in a Push the priority queue holds the elements but may pop them out of order (C88_violated_order). Skip lists lose nothing and stay exactly as they were (C88_skiplist_partial), with one false clause: inconsistent answers can leave a cycle, in which a later honest Get loops forever (C88_violated_skiplist)."
  },
  {
   "property": "C89",
   "status": "proved",
   "theorems": [
    "GoSTL.Conc.C89_map",
    "GoSTL.Conc.C89_set",
    "GoSTL.Conc.C89_skiplist",
    "GoSTL.RB.C88_tree_insert_asks",
    "GoSTL.RB.C88_tree_insert_pure",
    "GoSTL.RB.C88_tree_erase"
   ],
   "note": "maps and sets: comparators whose panics depend on the two keys only; skip lists: panics at any call. For maps and panics that depend on the call, Size can go wrong (C88_violated_size)."
  },
  {
   "property": "C90",
   "status": "partial",
   "theorems": [
    "GoSTL.TreeMap.C90_map_backward",
    "GoSTL.TreeMap.C90_map_forward_partial",
    "GoSTL.TreeMap.C90_set_forward",
    "GoSTL.TreeMap.C90_multimap_forward",
    "GoSTL.TreeMap.C90_multiset_forward",
    "GoSTL.TreeMap.C90_multiset_forward_one",
    "GoSTL.TreeMap.C90_violated_forward",
    "GoSTL.BidList.C90_list",
    "GoSTL.BidList.C90_list_next_after_remove",
    "GoSTL.SimpleList.C90_simplelist",
    "GoSTL.Vector.C90_vector",
    "GoSTL.Deque.C90_deque"
   ],
   "note": "the forward loop over a map that steps off the entry before erasing it is wrong: it can leave entries in, count wrongly or panic (C90_violated_forward). Proved: the backward loop over a map, the forward loop over a map, a set, a multimap and a multiset that goes on from LowerBound of the erased key (MultiMap.Erase and MultiSet.EraseAll take every entry of the key, so there the entries left are those for whose key none was rejected), and the loops over both kinds of lists, vectors and deques."
  },
  {
   "property": "C91",
   "status": "proved",
   "theorems": [
    "GoSTL.TreeMap.C91_map",
    "GoSTL.TreeMap.C91_set",
    "GoSTL.TreeMap.C91_map_insert_equal",
    "GoSTL.TreeMap.C91_set_algebra",
    "GoSTL.Skiplist.C52_traversal_in_order",
    "GoSTL.TreeMap.C42_multimap",
    "GoSTL.TreeMap.C44_multiset"
   ],
   "note": "for skip lists, multimaps and multisets the exact keys are part of C52, C42 and C44."
  },
  {
   "property": "C92",
   "status": "partial",
   "theorems": [
    "GoSTL.Deque.C92_insert",
    "GoSTL.Deque.C92_eraseRange",
    "GoSTL.Deque.C92_eraseAt_partial",
    "GoSTL.Deque.C92_violated"
   ],
   "note": "proved for Insert and EraseRange; for EraseAt only the bound by the distance to the front holds. The bound by the nearer end is false of EraseAt: it compares the number of segments in front with the number of elements behind, and nearly always shifts from the front (C92_violated)."
  },
  {
   "property": "C93",
   "status": "partial",
   "theorems": [
    "GoSTL.BidList.C93_bidlist",
    "GoSTL.BidList.C93_removed_node",
    "GoSTL.SimpleList.C93_simplelist",
    "GoSTL.TreeMap.C93_map",
    "GoSTL.TreeMap.C93_multimap",
    "GoSTL.TreeMap.C93_set",
    "GoSTL.TreeMap.C93_multiset",
    "GoSTL.Skiplist.C93_skiplist",
    "GoSTL.Hamt.Heap.C93_hamt",
    "GoSTL.Vector.C93_vector_shrink_partial",
    "GoSTL.Vector.C93_vector_violated",
    "GoSTL.Deque.C93_deque_violated",
    "GoSTL.Heap.Slice.C93_priorityqueue_violated"
   ],
   "note": "proved for the lists, the tree containers, the Hamt and the skip list (its prevNodesCache included). False of Vector (PopBack, Clear and Resize leave every removed element in the backing array; only ShrinkToFit on a vector with spare room releases them) of PriorityQueue, and of Deque (popped slots are not cleared). A removed node of the single list still points to its old successor, so the clause on held nodes is claimed for the bidirectional list only. PriorityQueue.Pop and Clear leave every removed element in the backing array, too (with any comparator). C93_hamt also bounds the objects a Hamt keeps alive: at most 12 for each entry, and the root."
  },
  {
   "property": "C94",
   "status": "proved",
   "theorems": [
    "GoSTL.Pair.C94_equal",
    "GoSTL.Pair.C94_equal_decides",
    "GoSTL.Pair.C94_components",
    "GoSTL.Pair.C94_exceptions"
   ],
   "note": "C94_equal_decides: without floating-point numbers Equal decides equality. C94_exceptions: witnesses for the NaN and the slice, and that differing fronts hide uncomparable backs."
  },
  {
   "property": "C95",
   "status": "partial",
   "theorems": [
    "GoSTL.Algo.C95_stable",
    "GoSTL.Algo.C95_sort_partial",
    "GoSTL.Algo.C95_sort_violated",
    "GoSTL.Algo.C95_nthElement_partial",
    "GoSTL.Algo.C95_nthElement_violated",
    "GoSTL.RB.C63_rbtree_logarithmic",
    "GoSTL.Hamt.C47_hamt_is_a_map"
   ],
   "note": "Proved exactly for Stable, and as a bound for the searches and the trie. False of Sort and NthElement: Sort nests at most n/2 calls, and does so on every range of n equal elements; NthElement at most n-2, and at least n-max(2,k) on n equal elements asked for position k."
  },
  {
   "property": "C96",
   "status": "partial",
   "theorems": [
    "GoSTL.TreeMap.C96_map_partial",
    "GoSTL.TreeMap.C96_set_partial",
    "GoSTL.TreeMap.C96_map_visits_partial",
    "GoSTL.TreeMap.C96_map_ends_partial",
    "GoSTL.TreeMap.C96_map_violated",
    "GoSTL.TreeMap.C96_demo"
   ],
   "note": "Proved for visitors that insert anything and erase any key except the visited one and the one right before it in the container as it is at that moment. False of the others: erasing the visited key can end the walk before an untouched entry, erasing the one right before it can visit an entry twice (counterexamples proved)."
  },
  {
   "property": "C97",
   "status": "partial",
   "theorems": [
    "GoSTL.Skiplist.C97_skiplist_partial",
    "GoSTL.Skiplist.C97_skiplist_increasing_partial",
    "GoSTL.Skiplist.C97_skiplist_remove_if",
    "GoSTL.Skiplist.C97_skiplist_violated",
    "GoSTL.Skiplist.C97_demo"
   ],
   "note": "Proved for visitors that insert and remove anything, the visited key included if its removal is the last call of the visit. False if the visitor goes on changing the list after it removed the visited key: then entries no longer there are visited, and new ones missed (counterexamples proved)."
  },
  {
   "property": "C98",
   "status": "partial",
   "theorems": [
    "GoSTL.Hamt.Arr.C98_hamt_arrays",
    "GoSTL.Hamt.Arr.C98_hamt_partial",
    "GoSTL.Hamt.Arr.C98_hamt_any_partial",
    "GoSTL.Hamt.Arr.C98_hamt_violated",
    "GoSTL.Hamt.Arr.mover_ok",
    "GoSTL.Hamt.Arr.mover_demo"
   ],
   "note": "Proved for visitors that insert anything and erase keys they have been called with. False if the visitor erases another key: the loop can meet the nil that erase leaves in the array and panic (counterexample proved); for all visitors, no key is visited twice, the walk ends, and without a panic no key that stays is missed."
  },
  {
   "property": "C99",
   "status": "partial",
   "theorems": [
    "GoSTL.BidList.C99_bidlist_partial",
    "GoSTL.BidList.C99_bidlist_noClear_partial",
    "GoSTL.BidList.C99_bidlist_adding",
    "GoSTL.BidList.C99_bidlist_violated",
    "GoSTL.BidList.C99_bidlist_clear_violated",
    "GoSTL.SimpleList.C99_simplelist",
    "GoSTL.SimpleList.C99_simplelist_dropper",
    "GoSTL.SimpleList.C99_simplelist_violated"
   ],
   "note": "The walks are characterised exactly (for singly linked lists with right arguments, for bidirectional lists without handles of cleared lists). The statement is false in three cases, proved: a bidirectional list's walk ends when the visited node is removed and never ends when the list is cleared; a singly linked list's walk can visit a node that was removed."
  },
  {
   "property": "C100",
   "status": "partial",
   "theorems": [
    "GoSTL.TreeMap.C100_multimap_partial",
    "GoSTL.TreeMap.C100_multiset_partial",
    "GoSTL.TreeMap.C100_multimap_calls",
    "GoSTL.TreeMap.C100_multiset_calls",
    "GoSTL.TreeMap.C100_multimap_visits_partial",
    "GoSTL.TreeMap.C100_multiset_visits_partial",
    "GoSTL.TreeMap.C100_multimap_violated",
    "GoSTL.TreeMap.C100_multiset_violated"
   ],
   "note": "Proved for visitors that do not erase the visited entry or the one right before it. For those the statement is false of the code, proved: a walk may end early, pass over an entry nobody touched, or visit an entry twice."
  },
  {
   "property": "C101",
   "status": "proved",
   "theorems": [
    "GoSTL.Conc.C101_map",
    "GoSTL.Conc.C101_multimap",
    "GoSTL.Conc.C101_set",
    "GoSTL.Conc.C101_multiset",
    "GoSTL.Conc.C101_skiplist",
    "GoSTL.Conc.C101_hamt",
    "GoSTL.Conc.C101_calls_end"
   ],
   "note": "For hash tries the specification of a stop is the exact one of C49 (the entries near the stopping key are skipped, the others still come); a panic ends the walk at once."
  },
  {
   "property": "C102",
   "status": "proved",
   "theorems": [
    "GoSTL.Moving.C102_vector",
    "GoSTL.Moving.C102_array",
    "GoSTL.Moving.C102_deque",
    "GoSTL.Moving.C102_stays",
    "GoSTL.Moving.C102_vector_shows",
    "GoSTL.Moving.C102_deque_shows"
   ],
   "note": "The C++ reading, in which an insertion may invalidate iterators, does not apply: positions count from the front, so in a deque PushFront makes every iterator show its left neighbour. Programs name only containers and iterators they have made; slice wrapper iterators are in C16, C17 and C78."
  },
  {
   "property": "C103",
   "status": "partial",
   "theorems": [
    "GoSTL.TreeMap.C103_history_partial",
    "GoSTL.TreeMap.C103_stays_partial",
    "GoSTL.TreeMap.C103_inserting",
    "GoSTL.TreeMap.C103_violated"
   ],
   "note": "Proved for programs that use no iterator to an erased entry nor to the entry that was right behind an erased one (at the time). Missing for the full statement, and false of the code: Delete of a node with two children moves the successor's entry into it and unlinks the successor's node, so iterators to the untouched neighbour go stale (C103_violated: a SetValue through one is lost; cf. C39). Programs that only insert, set and look are covered without condition."
  },
  {
   "property": "C104",
   "status": "partial",
   "theorems": [
    "GoSTL.Lists.C104_bidlist_partial",
    "GoSTL.Lists.C104_bidlist_noClear",
    "GoSTL.Lists.C104_bidlist_shows",
    "GoSTL.Lists.C104_simplelist_partial",
    "GoSTL.Lists.C104_simplelist_shows",
    "GoSTL.Lists.C104_bidlist_violated",
    "GoSTL.Lists.C104_simplelist_violated"
   ],
   "note": "holds of bidirectional lists for all programs without Clear; violated for elements whose list was cleared around them (Next still finds the old neighbour), and in single lists for elements that were removed (Next still finds the old neighbour, removed or not)"
  },
  {
   "property": "C105",
   "status": "partial",
   "theorems": [
    "GoSTL.Callback.C105_positions_partial",
    "GoSTL.Callback.C105_ordered_partial",
    "GoSTL.Callback.C105_lists_partial",
    "GoSTL.Callback.C105_update",
    "GoSTL.Callback.C105_findIf_violated",
    "GoSTL.Callback.C105_countIf_violated",
    "GoSTL.Callback.C105_erasing_violated"
   ],
   "note": "holds for all functions that bring the iterator they get, and last, back to their places and keep the elements of the range in the container; violated otherwise: the algorithms hand out their own walking iterator, so a function that moves it makes FindIf return a wrong place and CountIf never return, and so does a function that erases"
  },
  {
   "property": "C106",
   "status": "proved",
   "theorems": [
    "GoSTL.Machine.C106_same",
    "GoSTL.Machine.C106_sort",
    "GoSTL.Machine.C106_stable",
    "GoSTL.Machine.C106_binarySearch",
    "GoSTL.Machine.C106_bounds",
    "GoSTL.Machine.C106_nextPermutation",
    "GoSTL.Machine.C106_reverse",
    "GoSTL.Machine.C106_binarySearch_overflows",
    "GoSTL.Heap.Machine.C106_heap_init",
    "GoSTL.Heap.Machine.C106_heap_push",
    "GoSTL.Heap.Machine.C106_heap_pop",
    "GoSTL.Heap.Machine.C106_heap_remove",
    "GoSTL.Heap.Machine.C106_heap_fix",
    "GoSTL.Heap.Machine.C106_priorityqueue",
    "GoSTL.Deque.C106_deque_step",
    "GoSTL.Deque.C106_deque",
    "GoSTL.Deque.C106_deque_is_sequence"
   ],
   "note": "for the algorithms the bound 2^62 is tight (C106_binarySearch_overflows), and only containers of zero-sized elements can be that long"
  },
  {
   "property": "C107",
   "status": "proved",
   "theorems": [
    "GoSTL.TreeMap.C107_history",
    "GoSTL.TreeMap.C107_alone",
    "GoSTL.TreeMap.C107_foreign_violated"
   ],
   "note": "C107_foreign_violated: EraseIter with an iterator of another map damages both maps (defect 41)"
  },
  {
   "property": "C108",
   "status": "proved",
   "theorems": [
    "GoSTL.SliceWindow.C108_window",
    "GoSTL.SliceWindow.C108_seen",
    "GoSTL.SliceWindow.C108_sort",
    "GoSTL.SliceWindow.C108_attach",
    "GoSTL.SliceWindow.C108_new"
   ],
   "note": ""
  },
  {
   "property": "C109",
   "status": "proved",
   "theorems": [
    "GoSTL.TreeMap.C109_history",
    "GoSTL.TreeMap.C109_meaning"
   ],
   "note": ""
  },
  {
   "property": "C110",
   "status": "proved",
   "theorems": [
    "GoSTL.Algo.C110_sort_average"
   ],
   "note": ""
  },
  {
   "property": "C111",
   "status": "proved",
   "theorems": [
    "GoSTL.Algo.C111_nthElement_average"
   ],
   "note": ""
  },
  {
   "property": "C112",
   "status": "proved",
   "theorems": [
    "GoSTL.Heap.C112_heap",
    "GoSTL.Algo.C112_algorithms",
    "GoSTL.Algo.C112_nextPermutation",
    "GoSTL.RB.C112_tree",
    "GoSTL.RB.C112_set_insert",
    "GoSTL.Skiplist.C112_skiplist"
   ],
   "note": "The comparator's calls are effects of the model (as in C88); C88_agree, C88_heap_agree, C88_heap_agree_rest and C88_tree_agree tie these models to the others."
  }
 ]
}