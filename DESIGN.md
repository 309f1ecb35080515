# Formal model of liyue201/gostl in Lean 4 — design

The first part is the plan, written before the proofs. "Status per property" (generated from MANIFEST.json) says what was proved; after it follow the
trusted base, the map from the code to the model, what is not modelled, and the defects found.

## Modelling conventions

* Go `int` is unbounded `Int`/`Nat` except where wrap-around matters (`uint64` bit tricks in `hamt`,
  `skiplist.randomLevel`, `bitmap`, hashes), which use `UInt64`/`BitVec 64` or explicit `% 2^64`.
* A Go panic (nil dereference, index out of range, explicit `panic`) is `Res.panic`; a loop whose termination is
  not structural takes a `fuel` argument and returns `Res.outOfFuel` when it runs out. Termination claims are then
  "for every fuel above this bound the result is `ok`", non-termination claims "for every fuel the result is `outOfFuel`".
* Pointers are natural-number ids into an explicit heap (`rbtree`, `bidlist`, `simplelist`, `skiplist`); methods that
  mutate through a pointer return the new heap. Slices with observable aliasing (`vector`, `array`) are
  `(backing array id, offset, len, cap)` over a heap of backing arrays.
* Random choices (`skiplist` levels) and hash functions (`sha512`, `fnv`) are parameters, universally quantified;
  FNV-1 is also defined concretely for the witnesses.
* A comparator is any `cmp : α → α → Int` that is a total preorder up to sign (`LawfulCmp`, Verif/Basic/Cmp.lean).
* Goroutine-safe variants: one RWMutex per container and methods of the shape lock; body; unlock, as an
  interleaving state machine.

## Plan per property

| id | model | proof |
|----|-------|-------|
| C01,C02 | ring segments, pool, ring of segments, every deque method | refinement to `List`, invariant by induction over the op list |
| C03,C04 | Queue/Stack over an abstract container; deque and bidlist instances | corollary of C01/C05 refinements |
| C05–C09 | heap of ring nodes with owner pointer | ring representation predicate, refinement to list of ids |
| C10,C11 | heap of singly linked nodes | chain representation predicate |
| C12–C14 | Go slices over a heap of backing arrays, any growth policy | refinement + frame lemma (disjoint backing arrays) |
| C15 | same slice model, fixed size | same |
| C16,C17 | iterator = position over a lawful random-access container | induction on walk length; counterexample for `SliceWrapper.Last` |
| C18–C25 | algorithms over an arbitrary lawful random-access container | loop invariants; counterexamples for Stable on empty, NthElement on two elements, Reverse on empty |
| C26 | comparator functions over Lean ordered types, an abstract float type with NaN, complex as pairs | case analysis; counterexamples for Complex64Comparator and OrderedTypeCmp with NaN |
| C27,C28 | binary heap in a list with up/down loops | heap-except-at-i invariants |
| C29,C30 | list of bytes as bit vectors | bit lemmas, history induction |
| C31–C33 | bloom filter over bitmap, GenHashInts with sha512 as parameter | monotonicity of the set of bits; little-endian round-trip |
| C34–C38 | pointer-level red-black tree: nodes with parent/left/right, rotations and fixups as in the code | representation predicate over id-trees and zippers; red-black invariant with "one defect" states |
| C39 | same | counterexample: erase with two children detaches the successor node |
| C40–C46 | Map/MultiMap/Set/MultiSet on the pointer-level tree | refinement to sorted association lists |
| C47–C50 | trie with 64-bit bitmaps, popcount indices, collision chains, arbitrary hash | representation of the trie as partial map by depth-prefix |
| C51–C53 | pointer-level skiplist with per-level next arrays, levels as an oracle | per-level chains are sublists of the base chain |
| C54–C57 | ketama over the tree map, hash as parameter; two-step Get for the race | ring reasoning; counterexamples for collision and for the Empty/Get window |
| C58,C59 | interleaving semantics with RWMutex | simulation by sequential runs in lock order; counterexample for the unlocked operand |
| C60 | bitmap sizes modulo 2^64 | arithmetic; counterexample at the wrap |
| C61 | ketama points from GenHashInts | counting the distinct points; counterexample above 8 replicas |
| C62 | String methods as folds with the separator test | induction over the contents; counterexample with empty texts |
| C63 | the loops of the models, by the fuel they need or by counting reads and writes | height of red-black trees, halving arguments |
| C64 | goroutines whose code holds lock and unlock statements; RWMutex with a waiting writer | invariant linking held locks and code, well-founded measure; counterexamples for visitors |
| C65 | iterator methods as reads outside the lock, in the language of C64 | a schedule to a race for every code; invariant of read-only code |
| C66 | algorithms over a heap of mutable iterator objects (Clone allocates, Next/Prev move) | simulation of the position-valued algorithms of C18–C25, keeping every older object |
| C67 | the same; the identity of the returned object | loop argument for the extremal first element; freshness of the bounds' result |
| C68 | slice headers handed out by Data, over shared backing arrays | refinement of storages by step; every call writes within the new length |
| C69 | node-pointer iterators of the lists and trees, under the const_op algorithms | every container is a chain of distinct nodes; ranges of chains satisfy the algorithm specifications |
| C70 | Reverse over a chain of nodes with Prev and SetValue | loop invariants on positions, walking inward and outward; list and map instances |
| C71 | The models as they are, with an arbitrary function as comparator | the loop invariants without order: swaps inside the range, permutations, red-black shape, skip-list levels as subsequences |
| C72 | The Bloom filter model | the set of bits after a history is the union of the positions of the added values |
| C73 | `EstimateParameters` in real arithmetic, and with every operation off by a relative error | inequalities between logarithms and ceilings |
| C74 | the deque of C01: lengths of the ring and of the pool, number of live segments | invariant over histories: ring ≤ max(2, 12u/5) and 6·pool ≤ 5u+9 for u segments in use; middle segments are full |
| C75 | the lock model of C64 and the lock tables of C58 | invariant: no writer and nobody waiting while all code only reads; per container: Lock is taken exactly by the calls that change some reachable state |
| C76 | the sorting programs over the iterator interface, counting `Value`/`SetValue` | induction on the recursion; for equal elements the partition always splits off two elements |
| C77 | the deque with a ghost counter of the slots allocated by its rebuilds | a potential (distance of the table and the pool from their thresholds) pays for each rebuild; one inequality per operation, induction on the history |
| C78 | iterators as node pointers, or container pointer and position | the nodes of a container are distinct, so `Next` from the front never returns to a node; lists own their nodes |
| C79 | the filter of C72 under every assignment of positions to values; the rate is a count of assignments | balls into bins: set bits are negatively correlated (throwing again the balls of one bin), power mean inequality, estimates of exp |
| C80 | `randomLevel` on 64-bit words, as in C53 | loop invariant that gives the level as a comparison of the residue with 2^(n-i)-1; counting |
| C81 | `Insert`, `Get`, `Remove` with a counter of comparator calls, proved to agree with C51; histories with their random numbers as variables | steps forward on a level = heights equal to it after the last higher one; the calls that inserted the present keys do not depend on the random numbers; counting product sets of draws, geometric series |
| C82 | the ring of C54-C56 with a hash function whose values on the node names are variables | exchanging the hashes of two members exchanges their keys, so all shares are equal; union bound for collisions |
| C83 | the trie of C47 | the listing of a well-formed trie is sorted; a well-formed trie is determined by its contents (induction on the levels) |
| C84 | the code of C47 again, with slices into a memory of byte arrays as keys | reading the slices commutes with insert, find, erase and Keys; only slices passed to Insert are kept; so writes elsewhere change nothing |
| C85 | bitmaps, filters and slices as windows of byte arrays (Bloom/Alias) | refinement to rows of bits with shared storages for every program; monotonicity of bits without Unset and assignments; the two consequences for every hash function |
| C86 | containers as numbered cells, adapters as kind and cell number (Adapter/Shared) | simulation by plain sequences for every program |
| C87 | calls as lock, micro-steps of the container's method, unlock (Conc/Deadlock, Conc/Objects) | linearizability of C58 for calls on given containers; a racing execution for two locks |
| C88 | the comparator as an effect: a function of its own state that answers or panics (Algo/CrashModel, Heap/Crash, RBTree/Crash, Skiplist/Crash), proved equal to the other models for comparators that are functions | invariants that hold at every comparator call |
| C89 | calls as critical sections with deferred unlock whose result may be a panic (Conc/Panics, Conc/PanicsSkip over Conc/Objects and RBTree/Crash) | linearizability of the calls with panics as results, then refinement of finite maps and sets with ineffective panicking calls |
| C90 | the client loops, written with the models' iterator methods (EraseLoop.lean of TreeMap, BidList, SimpleList, Vector and Deque) | induction over the part of the sequence still to be walked; an erasure in a tree only moves the entry of the successor, so nodes in front keep theirs; a concrete run for the loop that fails |
| C91 | the step functions of maps and sets beside sorted lists of the very keys (Conc/Instances.lean), the set algebra of TreeMap/Model.lean | refinement of the histories; the merging loops insert only keys of the receiver (Union: all of them), and a strictly increasing list has at most one of several equal keys |
| C92 | the three methods with a budget of N rounds per loop (Deque/Moves.lean) beside the methods of Deque/Model.lean | the budgeted methods are equal to the methods when N is at least the bound, and run out of budget in the counterexample; positions from the deque invariant |
| C93 | pointer graphs read off the existing heap models: node fields and list header (BidList, SimpleList), parent/left/right and header (RBTree), next pointers and prevNodesCache (Skiplist), backing arrays (Vector), segment table and pool (Deque) | Alive is the least set closed under pointers; both inclusions from the representation invariants of each container; for the skip list a second run that also maintains the cache, shown to agree with the plain one |
| C94 | dynamic types and values as inductive types, == of the Go specification as a recursive function that may panic (Pair/Model) | induction over the typing of the values; Same is an independent inductive relation |
| C95 | the budget of the recursive functions is the number of nested calls there is room for; running out of it is the stack overflow (Algo/Depth) | induction over the budget with a tight relation to the length; monotonicity in the budget for all containers; partition of equal elements puts the pivot next to the end |
| C96 | the loop of Traversal over the heap of tree nodes, with a visitor that answers with calls on the tree (TreeMap/Reentrant); the specification is the same walk over a sorted list | simulation: the visited node stays in the tree and keeps its key under a safe call; successor in the new tree is the next entry of the list |
| C97 | the loop of Traversal over the store of elements, with a visitor that answers with calls on the list (Skiplist/Reentrant); the specification is the walk over a sorted list of C96 | simulation: the visited element, in the list or just removed, still points to the next entry; frame lemma for unlinking |
| C98 | objects and arrays of children on a heap, the loops of traversal holding an array, and a visitor that answers with calls on the trie (Hamt/Arrays); the specification is the finite map of C47 | invariant that labels every array with its path and bit positions for good; relation between heaps that says what a call does to old arrays and chains; induction over the loops |
| C99 | the loops of Traversal with a visitor that is a program of calls (BidList/Reentrant, SimpleList/Reentrant); the specification walks sequences of handles, for singly linked lists with a record of what followed each removed node | the refinement of single calls (C05, C10) lifted over visits and visits over walks; frame lemma: no call writes the pointer of a removed node |
| C100 | the loop of Traversal with a visitor that makes calls (TreeMap/Reentrant, TreeMap/MultiReentrant); the specification is a list with a marked entry, on which an insertion goes before or behind the mark | the node of the marked entry keeps its contents under Insert and under Delete of any node but itself and its predecessor; lifted over EraseAll, the calls of a visit and the visits |
| C101 | the loops of Traversal with a visitor that returns true, returns false or panics (Conc/PanicsVisit), under the lock model of Conc; the unlock is deferred, so it happens in all three cases | a panicking visitor is simulated by one that writes down the panic and stops (in tries: and then ignores what it is shown), so the traversal theorems apply; linearizability by C58_linearizable_rel, ends by C64 |
| C102 | Seq/Moving: a state of containers and iterator objects (container, position), one step per call, on top of the vector (slice memory), array and deque (segments) models | refinement to plain sequences with positions, step by step, from the container refinements C12, C15, C01; the tables vecSrc and deqSrc then say what stands at a position after each call |
| C103 | TreeMap/Moving: a state of a tree and iterator objects (node pointers), one step per call, on top of the tree model | refinement to a sorted list of numbered entries, iterators being numbers: entries stay in their nodes on insertion; deletion keeps all nodes but the erased and the next one |
| C104 | `Iters/Lists`: the lists of C05 and C10 together with iterator objects (node pointers), all calls in any order | the calls refine sequences of elements with iterators that denote elements: simulation over C05's and C10's refinements |
| C105 | `Obj/Callback`: the algorithms on the states of C102, C103 and C104 (containers and iterator objects), with the function an arbitrary program on such states | the loops are calls of the function at the places in order: induction on the range |
| C106 | `Basic/Int64`, `Algo/Machine`, `Heap/Machine`, `Deque/Machine*`: the functions again, each sum and difference reduced modulo 2^64 to the signed range | the machine program and the exact one do the same step by step on containers of at most N elements (relation on programs, induction); for the deque a bound on all its numbers, taken from C01's invariant and C74, is carried through each call |
| C107 | `TreeMap/World`: the node operations of `RBTree/Model` on one heap shared by all containers, each a root pointer, a count and its iterators | frame property (`RBTree/Frame`): every operation writes only to nodes reachable from its own root and to new nodes, by going through all functions of rbtree.go; then simulation as in C103 for each container, with the node sets kept apart |
| C108 | `SliceWrap/Window`: arrays in memory, slices as (array, offset, length), wrappers as objects holding slices | induction on the program of reads and writes: each write is a patch of the window; patches compose |
| C109 | `TreeMap/WorldAlg`: the three merge loops on the heap the trees share, as further operations of the programs of C107 | frame property of Insert (only the new tree's nodes change), invariant of each loop, simulation of C107 |
| C110 | the model of Sort of C18 and the count of reads and writes of C76, summed over all arrangements (List.permutations) | simulation (renaming and moving a range does not change a run), equal fibres of the partition (the two parts are random arrangements given the pivot), distribution of the median of three, entropy bound, strong induction |
| C111 | the model of NthElement of C22 and the count of reads and writes of C76, summed over all arrangements (List.permutations) | as for C110, for two kinds of arrangements at once: all, and those with the greatest element last, which a step to the left leaves; distribution of the greater of two sampled elements; strong induction |
| C112 | the models with comparator calls as effects of C88, run with a comparator that counts its calls | a bound on the counter for every answer, by induction on the loops and recursions; Init: the sum of the heights of a heap's positions; existence of the result from C88 |

## Status per property

(`_violated` and similar theorems are machine-checked refutations of the full property for the code as pinned; the `_partial` theorems beside them are what is true.)

| id | property | status | theorems (namespace `GoSTL`) | remark |
|----|----|----|----|----|
| C01 | Deque behaves as a sequence for every history | proved | `Deque.C01_deque_is_sequence`, `Deque.C01_deque_is_sequence_go` | Histories of all calls; any positive segment capacity and any shrink threshold rounding that does not lower it; instantiated with the code's 128 and n*6/5. |
| C02 | Deque rejects out-of-range positions without effect | proved | `Deque.C02_deque_bounds` |  |
| C03 | Queue is FIFO on either container | proved | `Adapter.C03_queue_deque`, `Adapter.C03_queue_list`, `Adapter.C03_fifo` |  |
| C04 | Stack is LIFO on either container | proved | `Adapter.C04_stack_deque`, `Adapter.C04_stack_list` |  |
| C05 | Bidirectional list behaves as a sequence of live handles | proved | `BidList.C05_history`, `BidList.C05_history_noClear`, `BidList.C05_sequences` | All 24 calls on any number of lists; histories that use a handle of a node whose list was cleared around it are excluded (C06). In the specification MoveAfter(front, back) is a no-op and copying into an empty list panics, as in the code (C07, C08). |
| C06 | List operations ignore nodes that are not in the list | partial | `BidList.C06_foreign_partial`, `BidList.C06_violated` | False of the code for nodes whose list was cleared around them: Clear does not detach them, Remove then makes Len negative. Proved for all other foreign handles. |
| C07 | MoveAfter puts the node right after the mark | partial | `BidList.C07_moveAfter_partial`, `BidList.C07_violated` | False of the code when the node is the front and the mark the back: the call does nothing (proved for every such list). Proved for all other pairs. |
| C08 | PushBackList / PushFrontList splice a copy | partial | `BidList.C08_pushBackList_partial`, `BidList.C08_pushFrontList_partial`, `BidList.C08_violated` | False of the code for an empty receiver: it panics (proved for every such call). Proved otherwise, including the same list twice. |
| C09 | Forward and backward walks of a list mirror each other | proved | `BidList.C09_walks`, `BidList.C09_traversal` |  |
| C10 | Single list behaves as a sequence | proved | `SimpleList.C10_history`, `SimpleList.C10_traversal` |  |
| C100 | A visitor may change the multimap or multiset it is walking | partial | `TreeMap.C100_multimap_partial`, `TreeMap.C100_multiset_partial`, `TreeMap.C100_multimap_calls`, `TreeMap.C100_multiset_calls`, `TreeMap.C100_multimap_visits_partial`, `TreeMap.C100_multiset_visits_partial`, `TreeMap.C100_multimap_violated`, `TreeMap.C100_multiset_violated` | Proved for visitors that do not erase the visited entry or the one right before it. For those the statement is false of the code, proved: a walk may end early, pass over an entry nobody touched, or visit an entry twice. |
| C101 | A visitor that panics leaves the container usable | proved | `Conc.C101_map`, `Conc.C101_multimap`, `Conc.C101_set`, `Conc.C101_multiset`, `Conc.C101_skiplist`, `Conc.C101_hamt`, `Conc.C101_calls_end` | For hash tries the specification of a stop is the exact one of C49 (the entries near the stopping key are skipped, the others still come); a panic ends the walk at once. |
| C102 | Iterators of vectors, arrays and deques survive every change | proved | `Moving.C102_vector`, `Moving.C102_array`, `Moving.C102_deque`, `Moving.C102_stays`, `Moving.C102_vector_shows`, `Moving.C102_deque_shows` | The C++ reading, in which an insertion may invalidate iterators, does not apply: positions count from the front, so in a deque PushFront makes every iterator show its left neighbour. Programs name only containers and iterators they have made; slice wrapper iterators are in C16, C17 and C78. |
| C103 | Iterators of ordered containers denote entries while the container changes | partial | `TreeMap.C103_history_partial`, `TreeMap.C103_stays_partial`, `TreeMap.C103_inserting`, `TreeMap.C103_violated` | Proved for programs that use no iterator to an erased entry nor to the entry that was right behind an erased one (at the time). Missing for the full statement, and false of the code: Delete of a node with two children moves the successor's entry into it and unlinks the successor's node, so iterators to the untouched neighbour go stale (C103_violated: a SetValue through one is lost; cf. C39). Programs that only insert, set and look are covered without condition. |
| C104 | Iterators of lists denote elements while the lists change | partial | `Lists.C104_bidlist_partial`, `Lists.C104_bidlist_noClear`, `Lists.C104_bidlist_shows`, `Lists.C104_simplelist_partial`, `Lists.C104_simplelist_shows`, `Lists.C104_bidlist_violated`, `Lists.C104_simplelist_violated` | holds of bidirectional lists for all programs without Clear; violated for elements whose list was cleared around them (Next still finds the old neighbour), and in single lists for elements that were removed (Next still finds the old neighbour, removed or not) |
| C105 | Functions given to the search algorithms may do anything that leaves the walk alone | partial | `Callback.C105_positions_partial`, `Callback.C105_ordered_partial`, `Callback.C105_lists_partial`, `Callback.C105_update`, `Callback.C105_findIf_violated`, `Callback.C105_countIf_violated`, `Callback.C105_erasing_violated` | holds for all functions that bring the iterator they get, and last, back to their places and keep the elements of the range in the container; violated otherwise: the algorithms hand out their own walking iterator, so a function that moves it makes FindIf return a wrong place and CountIf never return, and so does a function that erases |
| C106 | Machine integers do not change what the algorithms, the heap and the deque do | proved | `Machine.C106_same`, `Machine.C106_sort`, `Machine.C106_stable`, `Machine.C106_binarySearch`, `Machine.C106_bounds`, `Machine.C106_nextPermutation`, `Machine.C106_reverse`, `Machine.C106_binarySearch_overflows`, `Heap.Machine.C106_heap_init`, `Heap.Machine.C106_heap_push`, `Heap.Machine.C106_heap_pop`, `Heap.Machine.C106_heap_remove`, `Heap.Machine.C106_heap_fix`, `Heap.Machine.C106_priorityqueue`, `Deque.C106_deque_step`, `Deque.C106_deque`, `Deque.C106_deque_is_sequence` | for the algorithms the bound 2^62 is tight (C106_binarySearch_overflows), and only containers of zero-sized elements can be that long |
| C107 | Ordered containers in one memory do not interfere | proved | `TreeMap.C107_history`, `TreeMap.C107_alone`, `TreeMap.C107_foreign_violated` | C107_foreign_violated: EraseIter with an iterator of another map damages both maps (defect 41) |
| C108 | Slice wrappers are windows onto the caller's arrays | proved | `SliceWindow.C108_window`, `SliceWindow.C108_seen`, `SliceWindow.C108_sort`, `SliceWindow.C108_attach`, `SliceWindow.C108_new` |  |
| C109 | Sets made by Intersect, Union and Diff share nothing with their operands | proved | `TreeMap.C109_history`, `TreeMap.C109_meaning` |  |
| C11 | Single list InsertAfter ignores foreign marks | partial | `SimpleList.C11_order_partial`, `SimpleList.C11_violated` | False of the code for every foreign mark: Len grows (proved for every reachable list). Proved: FrontNode and the traversal stay the same. |
| C110 | Sort is quick on average | proved | `Algo.C110_sort_average` |  |
| C111 | NthElement is linear on average | proved | `Algo.C111_nthElement_average` |  |
| C112 | The comparator is called rarely | proved | `Heap.C112_heap`, `Algo.C112_algorithms`, `Algo.C112_nextPermutation`, `RB.C112_tree`, `RB.C112_set_insert`, `Skiplist.C112_skiplist` | The comparator's calls are effects of the model (as in C88); C88_agree, C88_heap_agree, C88_heap_agree_rest and C88_tree_agree tie these models to the others. |
| C12 | Vector behaves as a sequence for every history | proved | `Vector.C12_vector_is_sequence` | Any growth of the backing arrays (parameter of each appending call); memory model with shared backing arrays. |
| C13 | Vector copies do not share storage | proved | `Vector.C13_vectors_independent`, `Vector.C13_copy_same` |  |
| C14 | Vector capacity contract | proved | `Vector.C14_capacity` |  |
| C15 | Array has fixed size and independent copies | proved | `Arr.C15_array_is_sequence`, `Arr.C15_size_fixed` |  |
| C16 | Random-access iterators walk the container | proved | `Seq.C16_forward`, `Seq.C16_backward`, `Seq.C16_bounds`, `Vector.C16_vector`, `Arr.C16_array`, `SliceWrap.C16_slice`, `SliceWrap.C16_slice_attach`, `Deque.C16_deque` | General for any lawful random-access container; instances for the four containers. |
| C17 | Last() of a slice wrapper is the last element | partial | `SliceWrap.C17_last_prev_partial`, `SliceWrap.C17_last_is_invalid` | The property is false of the code for every slice: Last() returns position Len(). Proved: the negation, and that one Prev() reaches the last element. |
| C18 | Sort sorts any range of any random-access container | proved | `Algo.C18_sort_sorts` | For any container whose Size/At/Set act like a list (instances proved for list, vector, array, slice wrapper, deque). |
| C19 | Stable sort is stable and total | partial | `Algo.C19_stable_sorts_partial`, `Algo.C19_stable_empty_diverges` | Proved for non-empty ranges; for empty ranges the property is false: the recursion never ends (proved for every budget). |
| C20 | BinarySearch decides membership | proved | `Algo.C20_binarySearch_decides` |  |
| C21 | LowerBound/UpperBound return the partition points | proved | `Algo.C21_lowerBound`, `Algo.C21_upperBound` |  |
| C22 | NthElement puts the n-th smallest at n | partial | `Algo.C22_nthElement_partial`, `Algo.C22_nthElement_wrong` | The property is false of the code: a two-element subrange is never ordered. Proved: everything else (n-th element up to exchange with one neighbour). |
| C23 | NextPermutation steps to the lexicographic successor | proved | `Algo.C23_nextPermutation` |  |
| C24 | Reverse reverses a range | partial | `Algo.C24_reverse_partial`, `Algo.C24_reverse_empty_panics` | Proved for non-empty ranges; on empty ranges Reverse always panics (proved). |
| C25 | Counting and searching algorithms meet their definitions | proved | `Algo.C25_count`, `Algo.C25_find`, `Algo.C25_maxElement`, `Algo.C25_minElement`, `Algo.C25_visitors` | Stated for random-access containers; the underlying *_spec theorems hold for any const iterator range. |
| C26 | Comparators are total orders | partial | `Comparator.C26_integers`, `Comparator.C26_string`, `Comparator.C26_bool`, `Comparator.C26_float`, `Comparator.C26_float_formats`, `Comparator.C26_orderedFloat_partial`, `Comparator.C26_orderedFloat_violated`, `Comparator.C26_complex128_partial`, `Comparator.C26_complex128_violated`, `Comparator.C26_complex64_partial`, `Comparator.C26_complex64_violated`, `Comparator.C26_reverse`, `Comparator.C26_reverse_violated` | false of Complex64Comparator (line 283 compares real(a) with itself), of OrderedTypeCmp and Complex128Comparator with NaN, and of Reverse for comparators that return the smallest int. Proved for all other comparators and values |
| C27 | Priority queue always pops a minimum | proved | `Heap.C27_history`, `Heap.C27_popAll`, `Heap.Slice.C27_slice` | C27_slice: the same with the elements in a Go slice, for every growth of its backing array. |
| C28 | heap Init/Remove/Fix restore the heap | proved | `Heap.C28_init`, `Heap.C28_push`, `Heap.C28_remove`, `Heap.C28_remove_panics`, `Heap.C28_fix`, `Heap.C28_fix_outside` |  |
| C29 | Bitmap is a set of positions | proved | `Bitmap.C29_history`, `Bitmap.C29_last` |  |
| C30 | Bitmap Resize and Data/NewFromData keep the bits | proved | `Bitmap.C30_size`, `Bitmap.C30_resize`, `Bitmap.C30_data`, `Bitmap.C29_history` | C29_history covers Resize, Data and shared slices as well. |
| C31 | Bloom filter has no false negatives | proved | `Bloom.C31_no_false_negatives`, `Bloom.C31_monotone`, `Bloom.C31_zero_m`, `Bloom.C31_huge_k` | Any hash function returning at least 8 bytes. |
| C32 | Bloom filter export/import round-trips | proved | `Bloom.C32_roundtrip`, `Bloom.C32_reachable` | The byte slice passed to NewFromData is modelled by value. |
| C33 | GenHashInts yields n values | partial | `Bloom.C33_genHashInts_partial`, `Bloom.C33_repeats`, `Bloom.C33_violated` | False of the code: every block is the hash of the seed itself (shadowed variable), so values repeat with period 8 (proved for all seeds). Proved: length, prefix consistency, first block. |
| C34 | Red-black tree stays balanced | proved | `RB.C34_rbtree_balanced`, `RB.C34_rbtree_no_panic` | All reachable states of the pointer model. |
| C35 | Red-black tree holds the sorted multiset of inserted entries | proved | `RB.C35_rbtree_contents`, `RB.C35_insertBy_meaning` |  |
| C36 | Tree lookups find the first match / bounds | proved | `RB.C36_rbtree_lookups` |  |
| C37 | Tree iteration is complete, ordered and reversible | proved | `RB.C37_rbtree_iteration` |  |
| C38 | IsRbTree decides the red-black conditions | proved | `RB.C38_isRbTree_decides`, `RB.C38_isRbTree_reachable` |  |
| C39 | Erasing one entry keeps iterators to other entries usable | partial | `RB.C39_delete_handles_partial`, `RB.C39_violated` | The code violates the full property: deleting a node with two children moves the successor into it (C39_violated is a machine-checked counterexample). Proved: at most the immediate successor is affected. |
| C40 | Map is a finite map for every history | proved | `TreeMap.C40_map_is_finite_map`, `TreeMap.C40_map_no_panic` |  |
| C41 | Map iteration and bounds are in key order | proved | `TreeMap.C41_map_order_and_bounds` |  |
| C42 | MultiMap keeps all values per key in insertion order | proved | `TreeMap.C42_multimap`, `TreeMap.C42_multimap_no_panic` |  |
| C43 | Set is a mathematical set for every history | proved | `TreeMap.C43_set`, `TreeMap.C43_set_no_panic` |  |
| C44 | MultiSet counts | proved | `TreeMap.C44_multiset`, `TreeMap.C44_multiset_no_panic` |  |
| C45 | Set algebra is correct | proved | `TreeMap.C45_set_algebra` | Operands are read-only in the model; the missing lock on the second operand is C59. |
| C46 | EraseIter erases exactly the pointed entry | proved | `TreeMap.C46_eraseIter_exact`, `TreeMap.C46_eraseIter_invalid`, `TreeMap.C46_stale_iterator_corrupts` | Invalid means IsValid()=false. C46_stale_iterator_corrupts shows that a stale iterator, which still says IsValid()=true, does damage. |
| C47 | Hamt is a finite map for every history and any collisions | proved | `Hamt.C47_hamt_is_a_map`, `Hamt.Heap.C47_hamt_heap` | any hash function, any history; no panic, 11 levels of recursion suffice. Proved for the trie as a value and, by refinement, for the trie as nodes and pairs on a heap that the calls change in place. |
| C48 | Hamt Keys/Traversal enumerate each key once | proved | `Hamt.C48_traversal_lists_the_map`, `Hamt.C48_keys`, `Hamt.Heap.C48_traversal_heap` | C48_traversal_heap: the same for the trie on a heap. StringKeys returns the same byte strings as Keys |
| C49 | Hamt Traversal stops when the visitor says so | partial | `Hamt.C49_traversal_partial`, `Hamt.C49_exactly_partial`, `Hamt.C49_exactly_heap_partial`, `Hamt.C49_flat_root_partial`, `Hamt.C49_violated` | false of the code: a stop inside a nested node does not stop the outer loop (witness with the real FNV hash). Proved: exactly which entries are skipped after a stop, in terms of the hashes of the keys alone (C49_exactly_partial; with pointers, C49_exactly_heap_partial); nothing before the first stop is missed, what is visited later is a part of the rest of the listing; with no nested node the traversal stops |
| C50 | Hamt trie depth is bounded and shape canonical | proved | `Hamt.C50_depth_and_shape`, `Hamt.C47_hamt_is_a_map` |  |
| C51 | Skiplist is a finite map for every history and every random choice | proved | `Skiplist.C51_skiplist_is_a_map` | maximum levels 1 to 64 (default 10); any random draws |
| C52 | Skiplist enumerates keys in increasing order | proved | `Skiplist.C52_traversal_in_order` |  |
| C53 | Random level is within bounds | partial | `Skiplist.C53_randomLevel_partial`, `Skiplist.C53_violated`, `Skiplist.C53_zero` | false of the code for maximum levels above 64 (never ends, proved for every draw) and 0 (division by zero); proved for 1 to 64 |
| C54 | Ketama Get returns the clockwise owner | proved | `Ketama.C54_get_is_clockwise_owner`, `Ketama.C54_no_panic` | any hash function returning at least 8 bytes |
| C55 | Ketama remapping is minimal | proved | `Ketama.C55_add_minimal`, `Ketama.C55_remove_minimal`, `Ketama.C55_removed_gets_nothing` |  |
| C56 | Ketama membership is history independent | partial | `Ketama.C56_membership_partial`, `Ketama.C56_get_member_partial`, `Ketama.C56_remove_undoes_add_partial`, `Ketama.C56_violated` | false of the code when two nodes share a point: after removing the first, the second does not get the point back (witness). Proved for nodes without common points |
| C57 | Goroutine-safe Ketama.Get never panics | partial | `Conc.C57_violated`, `Conc.C57_no_remove_partial`, `Conc.C57_kept_node_partial` | false of the code: Get checks for emptiness and looks up in two critical sections (a panicking interleaving for every hash, replica count, node and key). Proved: no panic without Remove, or while some node is never removed |
| C58 | Goroutine-safe containers are linearizable | proved | `Conc.C58_sections_atomic`, `Conc.C58_race_free`, `Conc.C58_no_deadlock`, `Conc.C58_linearizable`, `Conc.C58_linearizable_rel`, `Conc.C58_every_order_possible`, `Conc.C58_readers_only_read`, `Conc.C58_ketama_kept`, `Conc.C58_ketama_members`, `Conc.C58_ketama_owner`, `Conc.C58_queue_list`, `Conc.C58_stack_list`, `Conc.C58_queue`, `Conc.C58_stack`, `Conc.C58_map`, `Conc.C58_set`, `Conc.C58_hamt`, `Conc.C58_skiplist`, `Conc.C58_priority_queue`, `Conc.C58_multimap`, `Conc.C58_multiset`, `Conc.C58_bloom`, `Conc.C58_ketama`, `Conc.C58_ketama_readers_only_read` | RWMutex by its specification, sequentially consistent memory; iterators are the subject of C65 |
| C59 | Goroutine-safe set algebra is race free | partial | `Conc.C59_violated`, `Conc.C59_not_linearizable`, `Conc.C59_frozen_partial` | false of the code: other is read without its lock (a race for every code of the three methods; a result that no sequential execution gives). Proved when other is the receiver or is not changed concurrently |
| C60 | Bitmaps and Bloom filters of every size have their positions | partial | `Bitmap.C60_new_partial`, `Bitmap.C60_violated`, `Bloom.C60_bloom_violated` | False of the code for sizes above 2^64-8: the rounding wraps to 0. Proved for all other sizes. |
| C61 | WithReplicas(n) gives n points per node | partial | `Ketama.C61_violated`, `Ketama.C61_replicas_partial` | false of the code for replicas above 8 (the default is 10), because the hash values repeat. Proved: up to 8 |
| C62 | String lists the elements in order | partial | `Str.C62_deque`, `Str.C62_simplelist`, `Str.C62_bidlist`, `Str.C62_set`, `Str.C62_multiset`, `Str.C62_string_partial`, `Str.C62_violated` | false of the code when the leading elements print as the empty string: the separator is dropped, so ["", "a"] and ["a"] print the same. Proved: exactly what is printed, for every reachable container |
| C63 | Operations cost what the documentation says | proved | `RB.C63_rbtree_logarithmic`, `Heap.C63_heap_logarithmic`, `Algo.C63_binarySearch_logarithmic`, `Algo.C63_bounds_logarithmic`, `Algo.C63_stable_nlogn` | Tree and heap: number of loop rounds; algorithms: number of element reads and writes. Cost of Sort is not stated (quadratic in the worst case). |
| C64 | Goroutine-safe containers do not deadlock | partial | `Conc.C64_no_deadlock_partial`, `Conc.C64_every_execution_ends_partial`, `Conc.C64_containers_partial`, `Conc.C64_visitor_write_violated`, `Conc.C64_visitor_read_violated` | false of the code when a visitor calls the container it is visiting: a writing method blocks for good, a reading method blocks when a writer waits. Proved for all uses in which no call is made from a visitor |
| C65 | Iterators of goroutine-safe containers are as safe as the containers | partial | `Conc.C65_iterators`, `Conc.C65_violated`, `Conc.C65_while_nobody_writes_partial` | false of the code: iterators read without the lock. Proved: no race while nobody writes |
| C66 | Algorithms leave the caller's iterators where they stand | proved | `Obj.C66_iterators_stay`, `Obj.C66_sort`, `Obj.C66_stable`, `Obj.C66_binarySearch`, `Obj.C66_lowerBound`, `Obj.C66_upperBound`, `Obj.C66_nthElement`, `Obj.C66_nextPermutation`, `Obj.C66_reverse`, `Obj.C66_const_iterators_stay`, `Obj.C66_find`, `Obj.C66_extremes` | Iterators are mutable objects here; the theorems also carry C18 to C25 over to them. For visitors (CountIf, FindIf, AllOf, AnyOf, NoneOf) the hypothesis is that the visitor moves no iterator but its own clones. |
| C67 | The iterator an algorithm returns is the caller's own | partial | `Obj.C67_violated`, `Obj.C67_bounds_partial`, `Obj.C66_find` | false of the code: MaxElement and MinElement return the object first itself when the first element is extremal, Find and FindIf return the object last itself when nothing matches (C66_find). Proved: LowerBound and UpperBound always return a new iterator, Find and FindIf when something matches |
| C68 | Data hands out the live storage | proved | `Vector.C68_data`, `Vector.C68_agree`, `Arr.C68_array_data` | Histories over any number of vectors (arrays) and slices handed out by Data, with reads and writes through the slices; any growth of the backing arrays. Not covered: append and reslicing by the caller on such a slice. |
| C69 | The read-only algorithms on lists, maps and sets | proved | `Iters.C69_bidlist`, `Iters.C69_simplelist`, `Iters.C69_map`, `Iters.C69_multimap`, `Iters.C69_set`, `Iters.C69_multiset` | Ranges between iterators reached by Next from the front of any reachable container; visitors are pure predicates of the iterator. |
| C70 | Reverse on list and map iterators | partial | `Iters.C70_bidlist_partial`, `Iters.C70_map_partial`, `Iters.C70_multimap_partial` | Proved: non-empty ranges whose end is an element, and the empty range at the end. The property is false otherwise, and the theorems say what happens instead: a range up to the end always panics; an empty range at an element panics, or reverses the whole container when the element starts the second half. |
| C71 | Robustness with any comparator | proved | `Algo.C71_sort`, `Algo.C71_stable`, `Algo.C71_nthElement`, `Algo.C71_binarySearch`, `Algo.C71_lowerBound`, `Algo.C71_upperBound`, `Algo.C71_nextPermutation_wrong`, `Heap.C71_init`, `Heap.C71_push`, `Heap.C71_remove`, `Heap.C71_fix`, `Heap.C71_priorityqueue`, `TreeMap.C71_tree_updates`, `TreeMap.C71_tree_lookups`, `TreeMap.C71_eraseAll_then_find`, `TreeMap.C71_set_insert`, `TreeMap.C71_set_algebra`, `TreeMap.C71_set_algebra_two_orders`, `TreeMap.C71_map_nan_hides_keys`, `Skiplist.C71_skiplist` | The comparator is an arbitrary (deterministic) function. NextPermutation is not among the robust algorithms: C71_nextPermutation_wrong shows it panicking or writing outside its range. C71_map_nan_hides_keys shows what is not promised: with NaN keys a key that is there is not found. Skip lists with maximum level 1 to 64; Stable on non-empty ranges, as for C19. |
| C72 | Bloom filters answer exactly up to collisions | proved | `Bloom.C72_exact`, `Bloom.C72_order`, `Bloom.C72_more_functions_do_nothing` | The positions of a value are the first k words of the hash of the salted value modulo m. The third theorem is the consequence of the defect of C33: functions beyond the eighth change nothing. |
| C73 | NewWithEstimates fits the requested error rate | partial | `Bloom.C73_parameters_partial`, `Bloom.C73_no_false_negatives`, `Bloom.C73_violated`, `Bloom.C73_rate_one`, `Bloom.C73_float`, `Bloom.C73_float_no_false_negatives`, `Bloom.C73_float_violated` | In exact real arithmetic, and for every floating-point arithmetic whose operations have a relative error of at most u <= 2^-40 (with p^(1-30u) for p); the latter assumes such an error of math.Log. Missing is a probabilistic statement about the bits (see C79). C73_violated: for fp < 1/256 the estimated number of functions is above 8 and the functions beyond the eighth do nothing. |
| C74 | A deque gives memory back | proved | `Deque.C74_deque_memory`, `Deque.C74_deque_memory_go` | For every segment capacity and every scale12 with n <= scale12 n <= 6n/5; the second theorem instantiates the parameters of the code. |
| C75 | Readers do not exclude each other | partial | `Conc.C75_readers_never_wait_partial`, `Conc.C75_reading_code_never_waits`, `Conc.C75_only_writers_lock`, `Conc.C75_bloom_data_violated`, `Conc.C75_ketama_get_violated` | Holds for queue, stack, priority queue, map, multimap, set, multiset, hamt and skiplist: a method takes Lock exactly if it can change the container, and goroutines making other calls can always go on. False for BloomFilter.Data and Ketama.Get, which take Lock though they change nothing: two of them exclude each other. |
| C76 | Sort costs n log n accesses, NthElement n | partial | `Algo.C76_sort_quadratic_partial`, `Algo.C76_sort_violated`, `Algo.C76_nthElement_quadratic_partial`, `Algo.C76_nthElement_violated` | Proved: never more than 5 n^2 accesses, for every content and comparator. The n log n (n) bound is false of the code: on every range of n equal elements Sort makes at least n^2/2 and NthElement at least n^2 accesses. |
| C77 | Deque growth and shrinking is amortised constant | proved | `Deque.C77_deque_amortised`, `Deque.C77_deque_amortised_go`, `Deque.goCfg_scale12_float` | A ghost counter in the model counts the slots allocated by expand, shrinkIfNeeded and shrinkPool; potential argument. The shrink rule int(float64(n)*1.2) is computed as IEEE 754 prescribes and proved equal to n*6/5 rounded down for n < 2^49. |
| C78 | Equal tells iterator positions apart | partial | `Iters.C78_bidlist`, `Iters.C78_bidlist_two`, `Iters.C78_simplelist`, `Iters.C78_map`, `Iters.C78_multimap`, `Iters.C78_set`, `Iters.C78_multiset`, `Iters.C78_random_access`, `Iters.C78_slice_partial`, `Iters.C78_slice_violated` | Proved within one container for every kind, and across containers for Vector, Array and Deque. False of the code across containers for slices (Equal ignores the slice) and for the end iterators of lists, maps and sets (all nil, so all Equal). |
| C79 | The false positive rate is the one asked for | partial | `Bloom.C79_answer`, `Bloom.C79_realizable`, `Bloom.C79_rate_ge`, `Bloom.C79_rate_le`, `Bloom.C79_within_factor_partial`, `Bloom.C79_violated`, `Bloom.C79_eight_functions`, `Bloom.C79_float_within_factor_partial`, `Bloom.C79_float_violated`, `Bloom.C79_float_eight_functions` | Proved: the rate lies between p^k and p(p+(1-p)/m)...(p+(k-1)(1-p)/m) with p = 1-(1-1/m)^(nk), for all m, k, n; with the estimated parameters it is at most 4 times the rate asked for (n >= 10, rate <= 1/2, k <= n). The bound itself is false of the code: asked for 1/2 the rate is more than 1/2 for every n >= 6 (k is rounded up), and since only 8 functions have an effect the rate falls only like (1/log(1/p))^8. The bounds are proved in real arithmetic and again for every floating-point arithmetic with relative errors of at most 2^-40. Uniform positions instead of SHA-512 modulo m. |
| C80 | Skiplist levels are geometric | proved | `Skiplist.C80_levels_geometric` |  |
| C81 | Skiplist calls are quick on average | proved | `Skiplist.C81_average_comparisons`, `Skiplist.C81_logarithmic`, `Skiplist.C81_linear_for_fixed_levels`, `Skiplist.stepC_fst` | The comparator calls are counted by a second version of the operations, proved to agree with the first (stepC_fst). The average is over all 64-bit numbers for every call of the history, exactly, including the bias of the remainder. That math/rand produces such numbers is not modelled. |
| C82 | A consistent-hash ring is balanced | proved | `Ketama.C82_exact_share`, `Ketama.C82_balanced`, `Ketama.C82_moves_little` | Exactly 1/m among the choices of hashes in which no two nodes share a word, hence 1/m up to N^2/2^58 among all, with N node names. That SHA-512 behaves like a uniform choice is not modelled. This is the share of one key over the hash functions, not the variance of the load over keys for one hash function. |
| C83 | The order of Hamt keys depends only on the keys | proved | `Hamt.C83_order`, `Hamt.C83_canonical`, `Hamt.C83_same_keys_same_order`, `Hamt.C83_collisions` | For every hash function, FNV-1 included. With collisions the order of the colliding keys depends on the history (C83_collisions, for every colliding pair). |
| C84 | Hamt keys are the bytes at the time of the call | partial | `Hamt.C84_value_semantics_partial`, `Hamt.C84_from_new_partial`, `Hamt.C84_violated`, `Hamt.C84_reused_buffer` | False of the code: Insert keeps the caller's slice. For every hash function a byte changed after Insert makes the inserted key disappear and Keys list a key that was never inserted (C84_violated). Proved for programs that do not write to a slice after passing it to Insert (or to the slices Keys returned, which are the same). |
| C85 | Byte slices given to and taken from bitmaps and Bloom filters | proved | `Bloom.Alias.C85_slices`, `Bloom.Alias.C85_no_false_negatives`, `Bloom.Alias.C85_imports_share`, `Bloom.Alias.C85_violated` | C85_violated and C85_imports_share show what sharing means in practice (no defect of the statement above, but of the wish that an import is a snapshot): writing to the imported slice makes the filter forget values, and two filters imported from one slice are one filter. |
| C86 | Stacks and queues over a container the caller supplies | proved | `Adapter.Shared.C86_given_container`, `Adapter.Shared.C86_library`, `Adapter.Shared.C86_two_ends` | for every lawful container, and instantiated for the library's deque and list. |
| C87 | Goroutine-safe adapters over one container exclude each other | partial | `Conc.C87_one_adapter_partial`, `Conc.C87_violated` | C87 is false: each adapter has a lock of its own, so two pushes through different adapters on one container race, for every container, content and code (C87_violated). Proved: with one adapter per container every execution is linearizable and race free, whatever the container held at the start. |
| C88 | A comparator that panics, or changes its mind, at any call | partial | `Algo.C88_sort`, `Algo.C88_nthElement`, `Algo.C88_stable`, `Algo.C88_binarySearch`, `Algo.C88_lowerBound`, `Algo.C88_upperBound`, `Algo.C88_nextPermutation_crash`, `Algo.C88_agree`, `Heap.C88_heap_init`, `Heap.C88_heap_push_partial`, `Heap.C88_heap_pop`, `Heap.C88_heap_remove`, `Heap.C88_heap_fix`, `Heap.C88_heap_agree`, `Heap.C88_heap_agree_rest`, `Heap.C88_pqueue_history`, `Heap.C88_violated_order`, `RB.C88_tree_agree`, `RB.C88_tree_lookups`, `RB.C88_tree_lookups_end`, `RB.C88_tree_insert_partial`, `RB.C88_tree_insert_pure`, `RB.C88_tree_insert_asks`, `RB.C88_tree_erase`, `RB.C88_tree_eraseAll`, `RB.C88_violated_size`, `RB.C88_violated_entries`, `Skiplist.C88_skiplist_partial`, `Skiplist.C88_skiplist_lawful`, `Skiplist.C88_violated_skiplist` | everything but three clauses, which are false: after a panic in the last comparison of Insert the entries are right but Size is one too high (C88_violated_size; exactly as before when panics depend only on the keys, C88_tree_insert_pure), and a comparator that answers the same question differently within one Insert makes the tree lose entries (C88_violated_entries). After a panic in a Push the priority queue holds the elements but may pop them out of order (C88_violated_order). Skip lists lose nothing and stay exactly as they were (C88_skiplist_partial), with one false clause: inconsistent answers can leave a cycle, in which a later honest Get loops forever (C88_violated_skiplist). |
| C89 | Goroutine-safe maps, sets and skip lists survive panicking comparators | proved | `Conc.C89_map`, `Conc.C89_set`, `Conc.C89_skiplist`, `RB.C88_tree_insert_asks`, `RB.C88_tree_insert_pure`, `RB.C88_tree_erase` | maps and sets: comparators whose panics depend on the two keys only; skip lists: panics at any call. For maps and panics that depend on the call, Size can go wrong (C88_violated_size). |
| C90 | Erasing while walking | partial | `TreeMap.C90_map_backward`, `TreeMap.C90_map_forward_partial`, `TreeMap.C90_set_forward`, `TreeMap.C90_multimap_forward`, `TreeMap.C90_multiset_forward`, `TreeMap.C90_multiset_forward_one`, `TreeMap.C90_violated_forward`, `BidList.C90_list`, `BidList.C90_list_next_after_remove`, `SimpleList.C90_simplelist`, `Vector.C90_vector`, `Deque.C90_deque` | the forward loop over a map that steps off the entry before erasing it is wrong: it can leave entries in, count wrongly or panic (C90_violated_forward). Proved: the backward loop over a map, the forward loop over a map, a set, a multimap and a multiset that goes on from LowerBound of the erased key (MultiMap.Erase and MultiSet.EraseAll take every entry of the key, so there the entries left are those for whose key none was rejected), and the loops over both kinds of lists, vectors and deques. |
| C91 | Which of several equal keys is kept | proved | `TreeMap.C91_map`, `TreeMap.C91_set`, `TreeMap.C91_map_insert_equal`, `TreeMap.C91_set_algebra`, `Skiplist.C52_traversal_in_order`, `TreeMap.C42_multimap`, `TreeMap.C44_multiset` | for skip lists, multimaps and multisets the exact keys are part of C52, C42 and C44. |
| C92 | Inserting and erasing near either end of a deque is cheap | partial | `Deque.C92_insert`, `Deque.C92_eraseRange`, `Deque.C92_eraseAt_partial`, `Deque.C92_violated` | proved for Insert and EraseRange; for EraseAt only the bound by the distance to the front holds. The bound by the nearer end is false of EraseAt: it compares the number of segments in front with the number of elements behind, and nearly always shifts from the front (C92_violated). |
| C93 | Containers release what has been removed | partial | `BidList.C93_bidlist`, `BidList.C93_removed_node`, `SimpleList.C93_simplelist`, `TreeMap.C93_map`, `TreeMap.C93_multimap`, `TreeMap.C93_set`, `TreeMap.C93_multiset`, `Skiplist.C93_skiplist`, `Hamt.Heap.C93_hamt`, `Vector.C93_vector_shrink_partial`, `Vector.C93_vector_violated`, `Deque.C93_deque_violated`, `Heap.Slice.C93_priorityqueue_violated` | proved for the lists, the tree containers, the Hamt and the skip list (its prevNodesCache included). False of Vector (PopBack, Clear and Resize leave every removed element in the backing array; only ShrinkToFit on a vector with spare room releases them) of PriorityQueue, and of Deque (popped slots are not cleared). A removed node of the single list still points to its old successor, so the clause on held nodes is claimed for the bidirectional list only. PriorityQueue.Pop and Clear leave every removed element in the backing array, too (with any comparator). C93_hamt also bounds the objects a Hamt keeps alive: at most 12 for each entry, and the root. |
| C94 | Pair.Equal compares both components by value | proved | `Pair.C94_equal`, `Pair.C94_equal_decides`, `Pair.C94_components`, `Pair.C94_exceptions` | C94_equal_decides: without floating-point numbers Equal decides equality. C94_exceptions: witnesses for the NaN and the slice, and that differing fronts hide uncomparable backs. |
| C95 | Recursion depth is logarithmic | partial | `Algo.C95_stable`, `Algo.C95_sort_partial`, `Algo.C95_sort_violated`, `Algo.C95_nthElement_partial`, `Algo.C95_nthElement_violated`, `RB.C63_rbtree_logarithmic`, `Hamt.C47_hamt_is_a_map` | Proved exactly for Stable, and as a bound for the searches and the trie. False of Sort and NthElement: Sort nests at most n/2 calls, and does so on every range of n equal elements; NthElement at most n-2, and at least n-max(2,k) on n equal elements asked for position k. |
| C96 | A visitor may change the map or set it is walking | partial | `TreeMap.C96_map_partial`, `TreeMap.C96_set_partial`, `TreeMap.C96_map_visits_partial`, `TreeMap.C96_map_ends_partial`, `TreeMap.C96_map_violated`, `TreeMap.C96_demo` | Proved for visitors that insert anything and erase any key except the visited one and the one right before it in the container as it is at that moment. False of the others: erasing the visited key can end the walk before an untouched entry, erasing the one right before it can visit an entry twice (counterexamples proved). |
| C97 | A visitor may change the skip list it is walking | partial | `Skiplist.C97_skiplist_partial`, `Skiplist.C97_skiplist_increasing_partial`, `Skiplist.C97_skiplist_remove_if`, `Skiplist.C97_skiplist_violated`, `Skiplist.C97_demo` | Proved for visitors that insert and remove anything, the visited key included if its removal is the last call of the visit. False if the visitor goes on changing the list after it removed the visited key: then entries no longer there are visited, and new ones missed (counterexamples proved). |
| C98 | A visitor may change the trie it is walking | partial | `Hamt.Arr.C98_hamt_arrays`, `Hamt.Arr.C98_hamt_partial`, `Hamt.Arr.C98_hamt_any_partial`, `Hamt.Arr.C98_hamt_violated`, `Hamt.Arr.mover_ok`, `Hamt.Arr.mover_demo` | Proved for visitors that insert anything and erase keys they have been called with. False if the visitor erases another key: the loop can meet the nil that erase leaves in the array and panic (counterexample proved); for all visitors, no key is visited twice, the walk ends, and without a panic no key that stays is missed. |
| C99 | A visitor may change the list it is walking | partial | `BidList.C99_bidlist_partial`, `BidList.C99_bidlist_noClear_partial`, `BidList.C99_bidlist_adding`, `BidList.C99_bidlist_violated`, `BidList.C99_bidlist_clear_violated`, `SimpleList.C99_simplelist`, `SimpleList.C99_simplelist_dropper`, `SimpleList.C99_simplelist_violated` | The walks are characterised exactly (for singly linked lists with right arguments, for bidirectional lists without handles of cleared lists). The statement is false in three cases, proved: a bidirectional list's walk ends when the visited node is removed and never ends when the list is cleared; a singly linked list's walk can visit a node that was removed. |

## Trusted base

* Lean 4.33.0's kernel. Every theorem in MANIFEST.json depends on at most the axioms `propext`, `Classical.choice` and `Quot.sound`
  (checked with `#print axioms` for all of them); no axioms are added, no compiled code is trusted.
* The reading of the Go source: each definition cites the file and lines it models and says where it simplifies.
* Go's semantics as encoded in `Verif/Basic/Res.lean` (results `ok`/`panic`/`outOfFuel`), `Verif/GoSlice/Mem.lean` (slices over shared backing arrays,
  `append` with any growth policy), and the explicit heaps of the pointer structures.
* The specification files (`*/Spec.lean` and the definitions at the head of the `Props.lean` files), which say what the theorems mean.

## Loops and recursion

A loop or recursion of the code whose termination is not visible from its syntax takes `fuel`. A theorem of the form "with this much fuel the
result is `ok`" is a termination proof with a bound on the number of iterations; "for every fuel the result is `outOfFuel`" is a proof that the call
does not terminate. No theorem is restricted to a fixed fuel: either the fuel is universally quantified (above a bound that is part of the statement) or the
entry point computes a sufficient fuel from the state and the theorem says the result is not `outOfFuel`.

## What is modelled

| code | model | comments |
|----|----|----|
| ds/deque (deque, segment, pool, iterator) | `Deque/Segment`, `Deque/Model` | all methods; segment capacity and shrink rule are parameters, then instantiated with the code's |
| ds/queue, ds/stack | `Adapter/Model` | over either container |
| ds/list/bidlist | `BidList/Model` | heap of nodes with `next`/`prev`/`list` pointers, all methods, any number of lists |
| ds/list/simplelist | `SimpleList/Model` | heap of nodes, all methods |
| ds/vector, ds/array | `GoSlice/Mem`, `Vector/Model`, `Vector/Data`, `Array/Model`, `Array/Data` | shared backing arrays; any capacity growth; slices handed out by `Data` |
| ds/slice | `SliceWrap/Props` | wrapper and iterator |
| iterators of the random access containers | `Seq/Prog`, `Seq/Iter` | positions over a container |
| algorithm, algorithm/sort | `Algo/Model`, `Algo/ConstOp` | programs over an arbitrary container with Size/At/Set, iterators as positions |
| the same, and iterators as mutable objects | `Obj/Iter`, `Obj/Algo`, `Obj/ConstOp` | `Clone` allocates, `Next`/`Prev` move the object; proved to simulate the above |
| algorithm/hash | `Bloom/Model` | `sha512` is a parameter |
| utils/comparator | `Comparator/Model` | machine integers, IEEE bit patterns, byte strings |
| ds/heap, ds/priorityqueue | `Heap/Model`, `Heap/Slice` | the `container/heap` algorithms over a list; `Heap/Slice`: the priority queue over a Go slice with its backing array |
| ds/bitmap, ds/bloomfilter | `Bitmap/Model`, `Bloom/Model` | bytes as `BitVec`/`UInt8`, sizes modulo 2^64 |
| ds/rbtree (tree, node, iterator) | `RBTree/Model` | pointer level: heap of nodes with parent/left/right/colour |
| ds/map, ds/set | `TreeMap/Model`, `TreeMap/Iter` | over the pointer-level tree |
| ds/hamt | `Hamt/Model`, `Hamt/Heap`, `Hamt/Alias`, `Hamt/Arrays` | 64-bit bitmaps and popcounts; hash function is a parameter, FNV-1 defined for witnesses. `Hamt/Heap` has nodes, key-value nodes and pairs as objects on a heap that are changed in place; `Hamt/HeapProps` proves that it answers like `Hamt/Model` for every history. `Hamt/Arrays` has the arrays of children as objects too, for C98 |
| ds/skiplist | `Skiplist/Model` | heap of nodes with next arrays; random draws are a parameter |
| ds/ketama | `Ketama/Model` | over the tree map; hash is a parameter |
| utils/sync and the locked methods of all goroutine-safe containers | `Conc/Model`, `Conc/Objects`, `Conc/Deadlock` | RWMutex by its specification; goroutines interleave at every shared access; in `Conc/Deadlock` with waiting writers |

## What is not modelled

* Compilation and typing: as pinned, utils/comparator/comparator.go does not import `math`, which it uses, so the module does not compile; the model is of the file with that import.
* `fmt.Sprintf` itself; it is a parameter where `String` methods are modelled.
* `int(float64(n)*1.2)` in the deque (deque.go:365) is a parameter: the behaviour theorems assume only that it is at least n, C74 that it is at most n*6/5, C77 that it is at least n*6/5 - 1; `Deque/Float12` computes it as IEEE 754 binary64 prescribes and proves it equal to n*6/5 rounded down for n < 2^49. `Deq.work` is a ghost field (slots allocated by rebuilds) that no modelled function reads.
* In `bloomfilter.EstimateParameters` the digits of `float64` (modelled in real arithmetic, `Bloom/Estimate`, and with relative errors of at most 2^-40 in every operation, `Bloom/Float`; that `math.Log` has such an error is assumed; Mathlib's reals rest on the same three axioms), and its results for n = 0, negative or NaN arguments.
* `rbtree.findNode` (unexported, never called).
* Options and constructors that only store their arguments; `FakeLocker` (does nothing); the interfaces of utils/iterator and ds/container (no code).
* `int` is unbounded except in C106, which shows for the algorithms, the heap and the deque that wrapping around makes no difference, and except where a statement says otherwise (bitmap and Bloom sizes, hashes, hamt bitmaps, skiplist levels, `Reverse`). Sizes and positions of containers are bounded by memory, far below 2^63.
* Garbage collection, memory exhaustion, stack exhaustion (a recursion that ends is taken to end well; C95 bounds its depth).
* The Go memory model beyond sequential consistency for data-race-free programs; `sync.RWMutex` is taken by its specification (mutual exclusion), without fairness.
* Races (C58, C59, C65) are at the granularity of whole containers.
* Bit operations of `math/bits`, `binary.BigEndian`, `sha512`, `hash/fnv`, `math/rand` are the library's; popcount and FNV-1 are defined, the rest are parameters.

## Defects found (all machine-checked, see the status table)

1. comparator.go uses `math` without importing it. `Complex64Comparator` compares `real(a)` with `real(a)` (C26). `OrderedTypeCmp` and `Complex128Comparator` are inconsistent with NaN, `Reverse` with the smallest int (C26).
2. `algorithm.Reverse` panics on an empty range (C24).
3. `sort.Stable` never returns on an empty range (C19).
4. `sort.NthElement` does not order subranges of two elements (C22).
5. `hash.GenHashInts` shadows its variable, values repeat with period 8 (C33); a Ketama node therefore has at most 8 different points, whatever `WithReplicas` says (C61).
6. `Hamt.Traversal` does not stop when the visitor returns false inside a nested node (C49).
7. `skiplist` with a maximum level above 64 loops forever on the first insertion; with 0 it panics (C53).
8. `bidlist.Clear` does not detach the nodes (C06); `MoveAfter(front, back)` does nothing (C07); `PushBackList`/`PushFrontList` panic on an empty receiver (C08).
9. `simplelist.InsertAfter` accepts foreign marks and then counts wrongly (C11).
10. `SliceWrapper.Last` is the end position, not the last element (C17).
11. `rbtree.Delete` moves the successor's entry, so that iterators to the successor dangle (C39); a stale iterator still says `IsValid` and damages the tree when erased (C46).
12. `Ketama.Get` checks for emptiness and looks up in two critical sections and can panic (C57). `Ketama.Remove` loses points of other nodes on hash collisions (C56).
13. `Set.Intersect/Union/Diff` read the other set without its lock (C59).
14. `bitmap.New`/`Resize` wrap to size 0 for sizes above 2^64-8; Bloom filters of such sizes have false negatives, with m = 0 they panic (C60, C31).
15. The `String` methods drop the separator while everything printed so far is empty, so `["", "a"]` and `["a"]` print the same (C62).
16. `Traversal` runs the visitor under `RLock`: a visitor that calls a writing method of the same container never returns, one that calls a reading method blocks when a writer waits (C64).
17. Iterators of goroutine-safe maps and sets take no lock, so that using one races with every writing method (C65).
18. `MaxElement`/`MinElement` return the caller's `first` object when the first element is extremal, `Find`/`FindIf` the caller's `last` object when nothing matches: moving the result moves the argument (C67).
19. `algorithm.Reverse` always panics when `last` is the end of a list or a map, because `Prev` does not move the end iterator; on an empty range at an element of a list or a map it panics or, in the middle, reverses the whole container (C70).
20. With a comparator that is not an order, `NextPermutation` can panic or swap with an element before its range (C71); with float64 keys and the generic comparator, inserting a NaN key makes other keys unreachable for `Get`, `Contains` and `Erase` (C71).
21. Bloom filter functions beyond the eighth do nothing (C72), so that `NewWithEstimates` with an error rate below 1/256 does not get the functions it computes (C73).
22. `BloomFilter.Data` and the lookup of `Ketama.Get` take `Lock` although they only read, so such calls exclude each other (C75).
23. `Sort` and `NthElement` are quadratic on equal elements: the partition sends every element equal to the pivot to the left (C76).
24. `SliceIterator.Equal` ignores the slice: iterators of different slices at the same position are equal; so are the end iterators of different lists, maps and sets (C78).
25. `EstimateParameters` rounds the number of functions up, so that `NewWithEstimates(n, 0.5)` has a false positive rate above 1/2 for every n >= 6 even with ideal hashing; for small error rates the rate is far above the one asked for, because only 8 functions have an effect (C79).
26. `Hamt.Insert` keeps the caller's key slice instead of a copy, and `Keys` returns the kept slices: a program that reuses a key buffer loses entries and sees keys it never inserted (C84).
27. `WithGoroutineSafe` gives every adapter its own lock, also when several adapters are given one container with `WithContainer`: two goroutine-safe adapters over one container race (C87).
28. `RbTree.Insert` increases the size before its last comparison: a comparator that panics there leaves a size that is one too high (C88).
29. Stepping a map iterator forward and then erasing the entry it stood on can unlink the node the iterator now stands on: the usual erase-while-walking loop leaves entries in, miscounts or panics (C90).
30. `Deque.EraseAt` compares the number of segments before the position with the number of elements behind it, and so nearly always shifts from the front: erasing at the back touches every segment (C92).
31. `Vector.PopBack`, `Clear` and `Resize`, and the pops of `Deque` and `PriorityQueue`, leave the removed elements in their arrays, so that they are not garbage collected (C93).
32. A comparator that answers inconsistently can make `Skiplist.Remove` leave a cycle in an upper level; a later `Get` or `Insert`, with honest answers, then never returns and holds the lock (C88_violated_skiplist).
33. `Sort` recurses `n/2` calls deep and `NthElement` up to `n-2` calls deep on `n` equal elements; Go aborts the process when the stack passes 1 GB (C95).
34. A visitor that erases the visited key while `Map.Traversal` or `Set.Traversal` walks can end the walk early; one that erases the key right before can have an entry visited twice (C96); likewise for `MultiMap` and `MultiSet`, where erasing the visited entry can also pass over an entry nobody touched (C100).
35. A visitor that removes the visited key of a skip list and then changes the list further can be shown entries that are gone and miss entries that are there (C97).
36. A visitor that erases a key of the trie other than those it has been called with can make `Hamt.Traversal` panic: `erase` writes nil into the array the loop is walking (C98).
37. A visitor that removes the visited node of a bidirectional list ends the traversal without a word; one that clears the list makes the traversal run round the old nodes for ever (C99).
38. An iterator of a map or set to the entry behind an erased one is stale although its entry is still there: writes through it are lost (C103).
39. An iterator to an element removed from a single list, or to an element of a cleared bidirectional list, still says it is valid and goes on to former neighbours, whether these are in the list or not (C104).
40. `CountIf`, `FindIf`, `AnyOf`, `AllOf` and `NoneOf` hand their own walking iterator to the function: if it moves it (to look at the next element, say), `FindIf` returns a wrong place and `CountIf` may never return; a function that erases the element it is called for makes `CountIf` never return (C105).
41. `Map.EraseIter` does not check whose iterator it gets: with an iterator of another map it unlinks the entry there and counts it off here, so that both sizes are wrong (C107).
