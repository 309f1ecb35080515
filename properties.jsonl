{"id": "C01", "title": "Deque behaves as a sequence for every history", "statement": "Starting from deque.New, after any sequence of PushFront, PushBack, Insert, PopFront, PopBack, EraseAt, EraseRange, Set and Clear, every At/Front/Back/Size/Empty/Pop result is what a plain sequence would give, and no call panics except Pop/At/Front/Back on a missing element.", "quantifier": "all finite histories of deque calls, all positions, all element values, any amount of growth/shrink/ring wrap-around", "why_tests_cant": "The claim ranges over unboundedly long call histories and sizes (ring wrap-around, growth, shrink, pool reuse); a test fixes one history.", "anchors": ["ds/deque/deque.go:Deque", "ds/deque/segment.go:Segment", "ds/deque/pool.go:Pool"]}
{"id": "C02", "title": "Deque rejects out-of-range positions without effect", "statement": "Insert with pos<0 or pos>Size, EraseAt with pos outside [0,Size), EraseRange with an empty or out-of-range interval leave the deque's contents and size unchanged; Set outside [0,Size) returns ErrOutOfRange and changes nothing; At/PopFront/PopBack panic exactly when the element does not exist.", "quantifier": "all reachable deques, all integer positions", "why_tests_cant": "Must hold in every reachable internal layout for every integer argument.", "anchors": ["ds/deque/deque.go:Insert,EraseAt,EraseRange,Set,At,PopFront,PopBack"]}
{"id": "C03", "title": "Queue is FIFO on either container", "statement": "A Queue built with the default container or with WithListContainer returns from Pop the oldest value pushed and not yet popped; Front/Back/Size/Empty agree, for every history.", "quantifier": "all histories of Push/Pop/Front/Back/Clear on both containers", "why_tests_cant": "The claim ranges over unboundedly long call histories and sizes (ring wrap-around, growth, shrink, pool reuse); a test fixes one history.", "anchors": ["ds/queue/queue.go:Queue", "ds/deque/deque.go", "ds/list/bidlist/list.go"]}
{"id": "C04", "title": "Stack is LIFO on either container", "statement": "A Stack built with the default container or with WithListContainer returns from Pop/Top the most recently pushed value not yet popped; Size/Empty agree, for every history.", "quantifier": "all histories of Push/Pop/Top/Clear on both containers", "why_tests_cant": "The claim ranges over unboundedly long call histories and sizes (ring wrap-around, growth, shrink, pool reuse); a test fixes one history.", "anchors": ["ds/stack/stack.go:Stack"]}
{"id": "C05", "title": "Bidirectional list behaves as a sequence of live handles", "statement": "For every history of PushFront/PushBack/InsertAfter/InsertBefore/Remove/PopFront/PopBack/MoveToFront/MoveToBack/MoveAfter through node handles, the list's front-to-back order, Len, Front, Back equal those of a plain sequence of handles, Remove returns the handle's value and removed handles are gone. (Three exceptions are properties of their own: handles whose list was cleared around them, C06; MoveAfter of the front behind the back, C07; copying into an empty list, C08.)", "quantifier": "all histories of all calls on any number of lists, all choices of handles except those of C06", "why_tests_cant": "Pointer surgery must be right for every ring shape and handle choice, not just the shapes a test builds.", "anchors": ["ds/list/bidlist/list.go:List"]}
{"id": "C06", "title": "List operations ignore nodes that are not in the list", "statement": "InsertAfter/InsertBefore/Remove/MoveToFront/MoveToBack/MoveAfter with a node that is not (or no longer) a node of the list do not modify the list (documented on each method).", "quantifier": "all reachable lists and all node handles, including handles removed or cleared earlier", "why_tests_cant": "Depends on the whole history of the handle.", "anchors": ["ds/list/bidlist/list.go:InsertAfter,InsertBefore,Remove,MoveToFront,MoveToBack,MoveAfter,Clear"]}
{"id": "C07", "title": "MoveAfter puts the node right after the mark", "statement": "MoveAfter(n, mark) with two different nodes of the list yields the list in which n is immediately after mark and all other nodes keep their order.", "quantifier": "all reachable lists, all pairs of nodes", "why_tests_cant": "Every pair of positions must be right, including the wrap-around pair.", "anchors": ["ds/list/bidlist/list.go:MoveAfter,moveToAfter"]}
{"id": "C08", "title": "PushBackList / PushFrontList splice a copy", "statement": "l.PushBackList(o) (PushFrontList) makes l = l ++ o (o ++ l), leaves o unchanged, also when o is l itself.", "quantifier": "all pairs of reachable lists, including the same list twice and empty lists", "why_tests_cant": "All sizes, and aliasing of the two arguments.", "anchors": ["ds/list/bidlist/list.go:PushBackList,PushFrontList"]}
{"id": "C09", "title": "Forward and backward walks of a list mirror each other", "statement": "Following Next from FrontNode visits every element once in order and ends; following Prev from BackNode visits exactly the reverse.", "quantifier": "all reachable lists", "why_tests_cant": "Must hold for every ring reachable by pointer surgery.", "anchors": ["ds/list/bidlist/list.go:Next,Prev,Traversal", "ds/list/bidlist/iterator.go"]}
{"id": "C10", "title": "Single list behaves as a sequence", "statement": "For every history of PushFront/PushBack/InsertAfter/Remove/MoveToFront/MoveToBack given a correct predecessor, the simple list's order, Len, FrontNode and BackNode equal those of a plain sequence.", "quantifier": "all histories with correct predecessor arguments", "why_tests_cant": "Unbounded histories; tail pointer maintenance in every position.", "anchors": ["ds/list/simplelist/simplelist.go:List"]}
{"id": "C11", "title": "Single list InsertAfter ignores foreign marks", "statement": "InsertAfter(v, mark) with a mark that is not a node of the list does not modify the list (documented).", "quantifier": "all reachable lists and marks", "why_tests_cant": "Depends on which nodes are in the list.", "anchors": ["ds/list/simplelist/simplelist.go:InsertAfter,insertAfter"]}
{"id": "C12", "title": "Vector behaves as a sequence for every history", "statement": "After any history of PushBack/PopBack/InsertAt/EraseAt/EraseIndexRange/SetAt/Resize/Reserve/ShrinkToFit/Clear the observable values (At, Front, Back, Size, Empty) are those of a plain sequence; out-of-range positions are no-ops (or panic for At/Front/Back/PopBack); a negative Resize or initial capacity panics; Resize never grows.", "quantifier": "all histories, all integer positions, any append growth policy", "why_tests_cant": "The claim ranges over unboundedly long call histories and sizes (ring wrap-around, growth, shrink, pool reuse); a test fixes one history.", "anchors": ["ds/vector/vector.go:Vector"]}
{"id": "C13", "title": "Vector copies do not share storage", "statement": "After NewFromVector(v), no operation on one of the two vectors is visible through the other; Reserve/ShrinkToFit keep contents.", "quantifier": "all vectors and all later histories on either", "why_tests_cant": "Aliasing bugs appear only for particular capacity/length histories.", "anchors": ["ds/vector/vector.go:NewFromVector,Reserve,ShrinkToFit,PushBack,InsertAt,EraseIndexRange"]}
{"id": "C14", "title": "Vector capacity contract", "statement": "Capacity() >= Size() always; after Reserve(c) Capacity() >= c; after ShrinkToFit Capacity() = Size(); Clear/PopBack/Erase keep the capacity.", "quantifier": "all histories and growth policies", "why_tests_cant": "Depends on the whole history.", "anchors": ["ds/vector/vector.go:Reserve,ShrinkToFit,Capacity,Clear"]}
{"id": "C15", "title": "Array has fixed size and independent copies", "statement": "An Array never changes Size; Set/At/Fill act as on a plain sequence; NewFromArray copies share no storage; SwapArray exchanges contents exactly when sizes match.", "quantifier": "all arrays and all histories", "why_tests_cant": "All sizes, positions and histories.", "anchors": ["ds/array/array.go:Array"]}
{"id": "C16", "title": "Random-access iterators walk the container", "statement": "For vector, array, slice wrapper and deque: from Begin, repeated Next visits every element in order and then becomes invalid; repeated Prev from Last visits the reverse; Next/Prev never leave [-1,Size].", "quantifier": "all containers, all positions", "why_tests_cant": "Quantifies over all sizes and walks.", "anchors": ["ds/vector/iterator.go", "ds/array/iterator.go", "ds/slice/iterator.go", "ds/deque/iterator.go", "utils/iterator/iterator.go"]}
{"id": "C17", "title": "Last() of a slice wrapper is the last element", "statement": "SliceWrapper.Last() on a non-empty slice is a valid iterator to the final element (as for vector, array, deque).", "quantifier": "all non-empty slices", "why_tests_cant": "All sizes.", "anchors": ["ds/slice/slice_wrapper.go:Last"]}
{"id": "C18", "title": "Sort sorts any range of any random-access container", "statement": "Sort(first,last,cmp) terminates without panic, leaves the range a sorted permutation of what it was and everything outside untouched, for any consistent comparator.", "quantifier": "all containers, all ranges, all element values, all total-preorder comparators", "why_tests_cant": "A sorting claim over all inputs, comparators with ties, sub-ranges.", "anchors": ["algorithm/sort/sort.go:Sort,quickSort,doPivot"]}
{"id": "C19", "title": "Stable sort is stable and total", "statement": "Stable(first,last,cmp) terminates, leaves a sorted permutation in which elements that compare equal keep their order, everything outside untouched, for every range including the empty one.", "quantifier": "all containers, all ranges, all total-preorder comparators", "why_tests_cant": "Stability and termination over all inputs.", "anchors": ["algorithm/sort/stable_sort.go:Stable,mergeSort,merge"]}
{"id": "C20", "title": "BinarySearch decides membership", "statement": "On a sorted range BinarySearch returns true iff an element comparing equal to val is in [first,last).", "quantifier": "all sorted ranges, values, comparators", "why_tests_cant": "All sizes and values.", "anchors": ["algorithm/sort/search.go:BinarySearch"]}
{"id": "C21", "title": "LowerBound/UpperBound return the partition points", "statement": "On a sorted range LowerBound returns the position of the first element >= val and UpperBound of the first element > val in [first,last), or last if none.", "quantifier": "all sorted ranges, values, comparators", "why_tests_cant": "All sizes, values, duplicates.", "anchors": ["algorithm/sort/search.go:LowerBound,UpperBound"]}
{"id": "C22", "title": "NthElement puts the n-th smallest at n", "statement": "After NthElement(first,last,n,cmp) with 0<=n<len, the element at position first+n is the one that sorting would put there, the range is a permutation of the original and nothing outside moved.", "quantifier": "all ranges, n, comparators", "why_tests_cant": "Selection over all inputs.", "anchors": ["algorithm/sort/nth_element.go:NthElement,nthElement"]}
{"id": "C23", "title": "NextPermutation steps to the lexicographic successor", "statement": "NextPermutation returns true and rearranges the range into the least permutation greater than the current one, or returns false and changes nothing when the range is already the greatest.", "quantifier": "all ranges, comparators with ties", "why_tests_cant": "All lengths and multisets.", "anchors": ["algorithm/sort/next_permutation.go:NextPermutation"]}
{"id": "C24", "title": "Reverse reverses a range", "statement": "Reverse(first,last) reverses the elements of [first,last), leaves the rest unchanged and does not panic, for every range including the empty one.", "quantifier": "all containers and ranges", "why_tests_cant": "All lengths (odd/even/empty).", "anchors": ["algorithm/op.go:Reverse,Swap"]}
{"id": "C25", "title": "Counting and searching algorithms meet their definitions", "statement": "Count/CountIf/Find/FindIf/AnyOf/AllOf/NoneOf over [first,last) return the count, the first matching position (or last), and the quantified truth; MaxElement/MinElement return the first extremal element (or last when empty).", "quantifier": "all ranges, values, predicates, comparators", "why_tests_cant": "All lengths.", "anchors": ["algorithm/const_op.go"]}
{"id": "C26", "title": "Comparators are total orders", "statement": "Each provided comparator returns a negative, zero or positive number consistently with one total order: cmp(a,b) and cmp(b,a) have opposite signs, cmp is transitive, and 0 means equal; Reverse inverts it.", "quantifier": "all pairs and triples of values of each type", "why_tests_cant": "All values incl. NaN, complex.", "anchors": ["utils/comparator/comparator.go"]}
{"id": "C27", "title": "Priority queue always pops a minimum", "statement": "For every history of Push/Pop/Clear, Top and Pop return an element no other queued element precedes, and the queue holds exactly the multiset pushed minus popped.", "quantifier": "all histories, all consistent comparators", "why_tests_cant": "Heap shape invariants over all histories.", "anchors": ["ds/priorityqueue/priority_queue.go", "ds/heap/heap.go:Push,Pop"]}
{"id": "C28", "title": "heap Init/Remove/Fix restore the heap", "statement": "Init heapifies any slice; Remove(i) removes exactly element i and leaves a heap; Fix(i) after changing element i leaves a heap; all keep the multiset.", "quantifier": "all slices, all indices, all consistent comparators", "why_tests_cant": "All sizes and positions.", "anchors": ["ds/heap/heap.go:Init,Remove,Fix,up,down"]}
{"id": "C29", "title": "Bitmap is a set of positions", "statement": "For every history of Set/Unset/Clear, IsSet(p) reports exactly whether the last effective operation on p was Set; positions >= Size are rejected and reported unset; other bits never change.", "quantifier": "all sizes, positions, histories", "why_tests_cant": "All bit positions and histories.", "anchors": ["ds/bitmap/bitmap.go"]}
{"id": "C30", "title": "Bitmap Resize and Data/NewFromData keep the bits", "statement": "Resize keeps every bit below both sizes and clears new ones; Size is the requested size rounded up to a multiple of 8 (for sizes up to 2^64-8, see C60); NewFromData(b.Data()) has the same bits.", "quantifier": "all bitmaps and sizes", "why_tests_cant": "All sizes and contents.", "anchors": ["ds/bitmap/bitmap.go:Resize,NewFromData,Data,New"]}
{"id": "C31", "title": "Bloom filter has no false negatives", "statement": "After any sequence of Adds, Contains(v) is true for every added v; Add never makes a Contains turn from true to false.", "quantifier": "all parameters 0<m<=2^64-8 and k<2^63, all values, all histories, any hash function (larger m: C60)", "why_tests_cant": "Probabilistic structure; false negatives for all values cannot be sampled.", "anchors": ["ds/bloomfilter/bloom.go:Add,Contains"]}
{"id": "C32", "title": "Bloom filter export/import round-trips", "statement": "NewFromData(bf.Data()) answers every Contains exactly like bf and can be extended like bf.", "quantifier": "all filters and values", "why_tests_cant": "All byte strings.", "anchors": ["ds/bloomfilter/bloom.go:Data,NewFromData"]}
{"id": "C33", "title": "GenHashInts yields n values", "statement": "GenHashInts(seed,n) returns exactly n values, is deterministic and prefix-consistent (asking for more values extends the list), each further block being derived by a further hash round.", "quantifier": "all seeds and n", "why_tests_cant": "All n.", "anchors": ["algorithm/hash/hash.go:GenHashInts"]}
{"id": "C34", "title": "Red-black tree stays balanced", "statement": "After any history of Insert/Delete the root is black, no red node has a red child, all root-leaf paths have the same number of black nodes, and the height is at most 2*log2(n+1).", "quantifier": "all histories of inserts and deletes of any node", "why_tests_cant": "Rebalancing cases reachable only by long histories.", "anchors": ["ds/rbtree/rbtree.go:Insert,Delete,rbInsertFixup,rbDeleteFixup"]}
{"id": "C35", "title": "Red-black tree holds the sorted multiset of inserted entries", "statement": "After any history the in-order entries are the inserted minus deleted ones in key order, equal keys in insertion order, Size is their number.", "quantifier": "all histories, keys, consistent comparators", "why_tests_cant": "All histories.", "anchors": ["ds/rbtree/rbtree.go:Insert,Delete,Size"]}
{"id": "C36", "title": "Tree lookups find the first match / bounds", "statement": "Find/FindNode return the first entry (in insertion order) with an equal key or not-found; FindLowerBoundNode / FindUpperBoundNode the first entry with key >= / > the argument or nil.", "quantifier": "all reachable trees and keys", "why_tests_cant": "All trees, keys, duplicates.", "anchors": ["ds/rbtree/rbtree.go:findFirstNode,findLowerBoundNode,findUpperBoundNode"]}
{"id": "C37", "title": "Tree iteration is complete, ordered and reversible", "statement": "From First, Next visits every entry once in order and ends in nil; from Last, Prev visits the reverse; Traversal visits the in-order entries and stops when the visitor returns false.", "quantifier": "all reachable trees", "why_tests_cant": "Successor logic in every tree shape.", "anchors": ["ds/rbtree/node.go:Next,Prev", "ds/rbtree/iterator.go", "ds/rbtree/rbtree.go:Traversal"]}
{"id": "C38", "title": "IsRbTree decides the red-black conditions", "statement": "IsRbTree returns true exactly when the root is black, no red node has a red child and all paths have equal black counts.", "quantifier": "all trees, valid or not", "why_tests_cant": "All trees.", "anchors": ["ds/rbtree/rbtree.go:IsRbTree,test"]}
{"id": "C39", "title": "Erasing one entry keeps iterators to other entries usable", "statement": "After erasing the entry one iterator points to, every iterator to another entry still denotes that entry (same key/value, SetValue visible through Get).", "quantifier": "all reachable maps, all pairs of iterators", "why_tests_cant": "Depends on tree shape.", "anchors": ["ds/rbtree/rbtree.go:Delete", "ds/map/map.go:EraseIter"]}
{"id": "C40", "title": "Map is a finite map for every history", "statement": "After any history of Insert/Erase/Clear, Get/Contains/Size agree with a finite map keyed up to comparator equality: Insert overwrites, Erase removes.", "quantifier": "all histories, keys, values, consistent comparators", "why_tests_cant": "All histories.", "anchors": ["ds/map/map.go:Map"]}
{"id": "C41", "title": "Map iteration and bounds are in key order", "statement": "Begin/Next/Traversal enumerate each key once in increasing order; LowerBound/UpperBound return the first key >= / > the argument.", "quantifier": "all reachable maps", "why_tests_cant": "All histories.", "anchors": ["ds/map/map.go", "ds/map/iterator.go"]}
{"id": "C42", "title": "MultiMap keeps all values per key in insertion order", "statement": "After any history Insert adds an entry, Get returns the oldest value of the key, Erase removes all entries of the key and only these, iteration is key-ordered with equal keys in insertion order.", "quantifier": "all histories", "why_tests_cant": "All histories and duplicate patterns.", "anchors": ["ds/map/multimap.go:MultiMap"]}
{"id": "C43", "title": "Set is a mathematical set for every history", "statement": "Contains reports exactly membership after any history of Insert/Erase/Clear, elements are kept once and enumerated in increasing order.", "quantifier": "all histories", "why_tests_cant": "All histories.", "anchors": ["ds/set/set.go:Set"]}
{"id": "C44", "title": "MultiSet counts", "statement": "Count(x) is insertions minus erasures of elements equal to x; Erase removes one, EraseAll all; enumeration is sorted.", "quantifier": "all histories", "why_tests_cant": "All histories.", "anchors": ["ds/set/multiset.go:MultiSet"]}
{"id": "C45", "title": "Set algebra is correct", "statement": "Intersect/Union/Diff return a set with exactly the elements in both / either / first-not-second; the operands are unchanged.", "quantifier": "all pairs of reachable sets with the same comparator", "why_tests_cant": "All pairs of sets.", "anchors": ["ds/set/set.go:Intersect,Union,Diff"]}
{"id": "C46", "title": "EraseIter erases exactly the pointed entry", "statement": "EraseIter(it) with a valid iterator removes exactly that entry and nothing else; with an invalid iterator does nothing.", "quantifier": "all reachable maps and iterators", "why_tests_cant": "All tree shapes.", "anchors": ["ds/map/map.go:EraseIter"]}
{"id": "C47", "title": "Hamt is a finite map for every history and any collisions", "statement": "After any history of Insert/Erase, Get returns the last inserted value or not-found; Erase returns whether the key was present, even when hashes collide partly or fully.", "quantifier": "all byte-string keys, values, histories, any 64-bit hash function", "why_tests_cant": "Full 64-bit collisions cannot be hit by tests.", "anchors": ["ds/hamt/hamt.go"]}
{"id": "C48", "title": "Hamt Keys/Traversal enumerate each key once", "statement": "Keys, StringKeys and a never-stopping Traversal list every present key exactly once with its current value.", "quantifier": "all reachable hamts", "why_tests_cant": "All histories.", "anchors": ["ds/hamt/hamt.go:Keys,StringKeys,traversal"]}
{"id": "C49", "title": "Hamt Traversal stops when the visitor says so", "statement": "Traversal stops at the first visited entry for which the visitor returns false (documented).", "quantifier": "all reachable hamts and visitors", "why_tests_cant": "Depends on trie shape.", "anchors": ["ds/hamt/hamt.go:traversal"]}
{"id": "C50", "title": "Hamt trie depth is bounded and shape canonical", "statement": "Every operation descends at most 11 levels; after erasing, a subtrie with one remaining hash is collapsed, so no subtrie below the root holds fewer than two hashes.", "quantifier": "all histories and hash functions", "why_tests_cant": "All hashes.", "anchors": ["ds/hamt/hamt.go:insert,erase"]}
{"id": "C51", "title": "Skiplist is a finite map for every history and every random choice", "statement": "After any history of Insert/Remove, Get/Remove/Len results agree with a finite map keyed up to comparator equality, whatever levels the random generator picks.", "quantifier": "all histories, all random level sequences, consistent comparators", "why_tests_cant": "Randomised structure: all level choices.", "anchors": ["ds/skiplist/skiplist.go"]}
{"id": "C52", "title": "Skiplist enumerates keys in increasing order", "statement": "Keys/Traversal list each key once in increasing order with its current value and Traversal stops at the first false.", "quantifier": "all reachable skiplists", "why_tests_cant": "All histories and levels.", "anchors": ["ds/skiplist/skiplist.go:Traversal,Keys"]}
{"id": "C53", "title": "Random level is within bounds", "statement": "randomLevel terminates with a level in [1,maxLevel] for every random draw and every accepted maxLevel.", "quantifier": "all maxLevel values and random draws", "why_tests_cant": "All 2^64 draws.", "anchors": ["ds/skiplist/skiplist.go:randomLevel"]}
{"id": "C54", "title": "Ketama Get returns the clockwise owner", "statement": "Get(key) returns the node owning the smallest ring point >= hash(key), or the smallest point overall if none; false iff the ring is empty.", "quantifier": "all histories, keys, hash functions", "why_tests_cant": "All rings.", "anchors": ["ds/ketama/ketama.go:Get"]}
{"id": "C55", "title": "Ketama remapping is minimal", "statement": "Adding a node only moves keys to that node; removing a node only moves keys that were on it.", "quantifier": "all rings, nodes, keys, hash functions", "why_tests_cant": "All keys and rings.", "anchors": ["ds/ketama/ketama.go:Add,Remove,Get"]}
{"id": "C56", "title": "Ketama membership is history independent", "statement": "The mapping depends only on the set of member nodes: Remove undoes Add and the order of Adds does not matter.", "quantifier": "all histories", "why_tests_cant": "Hash collisions between nodes.", "anchors": ["ds/ketama/ketama.go:Add,Remove"]}
{"id": "C57", "title": "Goroutine-safe Ketama.Get never panics", "statement": "With WithGoroutineSafe, Get running concurrently with Add/Remove returns a node or false but does not crash.", "quantifier": "all interleavings of concurrent calls", "why_tests_cant": "Schedules cannot be enumerated by tests.", "anchors": ["ds/ketama/ketama.go:Get,Empty"]}
{"id": "C58", "title": "Goroutine-safe containers are linearizable", "statement": "With WithGoroutineSafe, every concurrent execution of methods that take the lock for their whole body has the effect and results of running them one at a time in lock order.", "quantifier": "all numbers of goroutines, programs and interleavings", "why_tests_cant": "Schedules cannot be enumerated.", "anchors": ["utils/sync/locker.go", "ds/map/map.go", "ds/queue/queue.go", "ds/stack/stack.go", "ds/priorityqueue/priority_queue.go"]}
{"id": "C59", "title": "Goroutine-safe set algebra is race free", "statement": "With WithGoroutineSafe on both sets, s.Intersect/Union/Diff(other) never reads other while another goroutine writes it.", "quantifier": "all interleavings", "why_tests_cant": "Schedules cannot be enumerated.", "anchors": ["ds/set/set.go:Intersect,Union,Diff"]}
{"id": "C60", "title": "Bitmaps and Bloom filters of every size have their positions", "statement": "bitmap.New(size) and Resize(size) give a bitmap with at least size positions, for every uint64 size; a Bloom filter with any m>0 bits has no false negatives.", "quantifier": "all uint64 sizes", "why_tests_cant": "Boundary of unsigned wrap-around.", "anchors": ["ds/bitmap/bitmap.go:New,Resize", "ds/bloomfilter/bloom.go:New,Add,Contains"]}
{"id": "C61", "title": "WithReplicas(n) gives n points per node", "statement": "On a ring without collisions every added node owns exactly n points, where n is the configured number of replicas.", "quantifier": "all n, nodes, hash functions without collisions", "why_tests_cant": "All replica counts and names.", "anchors": ["ds/ketama/ketama.go:Add,WithReplicas", "algorithm/hash/hash.go:GenHashInts"]}
{"id": "C62", "title": "String lists the elements in order", "statement": "String() of a deque, list, set or multiset (and of a queue or stack) is an opening bracket, the texts of all elements in order separated by one blank each, and a closing bracket, as fmt prints a slice.", "quantifier": "every reachable container, every element type and every formatting of the elements", "why_tests_cant": "the separator test depends on the text accumulated so far; only a statement over all contents shows which contents break it", "anchors": ["ds/deque/deque.go:String", "ds/list/simplelist/simplelist.go:String", "ds/list/bidlist/list.go:String", "ds/set/set.go:String", "ds/set/multiset.go:String"]}
{"id": "C63", "title": "Operations cost what the documentation says", "statement": "On a red-black tree (and so on map, multimap, set, multiset and the ketama ring) of n entries every loop of Insert, Delete, Find, LowerBound, UpperBound, Next and Prev makes at most 2*log2(n+1)+1 rounds; Push, Pop, Remove and Fix of a heap of n elements walk at most log2(n)+1 positions; BinarySearch reads at most log2(n)+1 and LowerBound/UpperBound at most log2(n)+2 elements of a range of n; Stable makes at most 4*n*ceil(log2 n) reads and writes.", "quantifier": "all sizes, all contents, all comparators, all histories that built the structure", "why_tests_cant": "a benchmark samples a few inputs; the worst case over all histories and contents is never among them", "anchors": ["ds/rbtree/rbtree.go: Insert, Delete, FindLowerBoundNode, FindUpperBoundNode, successor", "ds/heap/heap.go: up, down", "algorithm/sort/search.go: BinarySearch, LowerBound, UpperBound", "algorithm/sort/stable_sort.go: Stable"]}
{"id": "C64", "title": "Goroutine-safe containers do not deadlock", "statement": "Goroutines that use goroutine-safe containers, including Traversal with visitors that call methods of the container, never block each other for good: every call returns.", "quantifier": "every number of goroutines and containers, every sequence of calls, every interleaving, writers waiting while readers hold the lock included", "why_tests_cant": "a deadlock needs one particular interleaving of lock requests; a test that happens not to hit it passes", "anchors": ["utils/sync/sync.go", "ds/set/set.go:Traversal", "ds/set/multiset.go:Traversal", "ds/map/map.go:Traversal", "ds/map/multimap.go:Traversal", "ds/hamt/hamt.go:Traversal", "ds/skiplist/skiplist.go:Traversal"]}
{"id": "C65", "title": "Iterators of goroutine-safe containers are as safe as the containers", "statement": "A goroutine can use an iterator of a goroutine-safe map, multimap, set or multiset while other goroutines call methods of the container: there is no data race.", "quantifier": "every container content, every comparator, every interleaving, every code of the methods", "why_tests_cant": "a data race is a property of all interleavings; a test sees a few, and may run without the race detector", "anchors": ["ds/map/iterator.go", "ds/set/iterator.go", "ds/map/map.go:Find", "ds/map/map.go:Begin", "ds/set/set.go:Find"]}
{"id": "C66", "title": "Algorithms leave the caller's iterators where they stand", "statement": "Iterators are mutable objects passed by reference. After Sort, Stable, NthElement, BinarySearch, LowerBound, UpperBound, NextPermutation, Reverse, Count, CountIf, Find, FindIf, MaxElement, MinElement, AllOf, AnyOf or NoneOf returns, every iterator the caller holds, first and last included, stands where it stood before the call.", "quantifier": "every container, range, element type and comparator, lawful or not; every number of iterators the caller holds", "why_tests_cant": "a missing Clone shows only for callers that go on using the iterator, and only on the paths that move it", "anchors": ["algorithm/sort/sort.go:Sort", "algorithm/sort/stable_sort.go:Stable", "algorithm/sort/nth_element.go:NthElement", "algorithm/sort/search.go", "algorithm/sort/next_permutation.go", "algorithm/op.go:Reverse", "algorithm/const_op.go"]}
{"id": "C67", "title": "The iterator an algorithm returns is the caller's own", "statement": "Moving the iterator returned by Find, FindIf, MaxElement, MinElement, LowerBound or UpperBound does not move the iterators passed to the call.", "quantifier": "every container, range, element type and comparator", "why_tests_cant": "aliasing depends on where the match is found; a test that reads the result without moving it never sees it", "anchors": ["algorithm/const_op.go:Find,FindIf,MaxElement,MinElement", "algorithm/sort/search.go:LowerBound,UpperBound"]}
{"id": "C68", "title": "Data hands out the live storage", "statement": "The slice returned by Vector.Data shares storage with the vector until a call reallocates it (an insertion into a full vector, Reserve above the capacity, ShrinkToFit with spare room): until then writes on either side show on the other at all common positions, afterwards on neither. The slice returned by Array.Data is the array's storage for good; SwapArray exchanges the storages. No other vector or array is ever affected.", "quantifier": "every history of calls on any number of vectors or arrays and slices handed out, every capacity growth", "why_tests_cant": "whether two objects share memory depends on the whole history of capacities", "anchors": ["ds/vector/vector.go:Data,PushBack,InsertAt,Reserve,ShrinkToFit", "ds/array/array.go:Data,SwapArray"]}
{"id": "C69", "title": "The read-only algorithms on lists, maps and sets", "statement": "For the iterators of List (both kinds), Map, MultiMap, Set and MultiSet: the iterators after p and after q calls of Next on the front iterator delimit exactly the elements at positions p to q-1 of the container's sequence, and Count, CountIf, Find, FindIf, AnyOf, AllOf, NoneOf, MaxElement and MinElement on that range return the count, the first matching iterator or last, the truth value, and the first extremal element. LowerBound(k), UpperBound(k) and Find(k) of the trees return the iterators after as many Next as there are keys below k, not above k, and below k.", "quantifier": "every reachable container, every range of its iterators, every comparator and predicate", "why_tests_cant": "node identity, end iterators and tree navigation combine in unboundedly many shapes", "anchors": ["algorithm/const_op.go:Count,Find,MaxElement,AnyOf", "ds/list/bidlist/iterator.go:Next,Value,Equal", "ds/list/simplelist/iterator.go:Next,Value,Equal", "ds/map/iterator.go:Next,Value,Equal", "ds/set/iterator.go:Next,Value,Equal"]}
{"id": "C70", "title": "Reverse on list and map iterators", "statement": "Reverse(first,last) with iterators of a bidirectional List, a Map or a MultiMap reverses the values of [first,last) (keys and their order stay), leaves every other value unchanged and does not panic, for every range including the empty one and those up to the end of the container.", "quantifier": "every reachable container and every range of its iterators", "why_tests_cant": "all lengths, parities and positions; the end iterator has no predecessor", "anchors": ["algorithm/op.go:Reverse,Swap", "ds/list/bidlist/iterator.go:Prev,SetValue", "ds/map/iterator.go:Prev,SetValue"]}
{"id": "C71", "title": "Robustness with any comparator", "statement": "With a comparator that is an arbitrary function (not an order: cyclic, NaN-like, never zero), the containers and algorithms that take one stay memory-safe and lose nothing: Sort, Stable (on a non-empty range, see C19) and NthElement return, permute the range and touch nothing outside it; BinarySearch, LowerBound and UpperBound return, stay in the range and change nothing; the heap operations and PriorityQueue keep exactly the pushed elements; Insert of a map or set adds or overwrites exactly one entry, Erase removes only entries the comparator calls equal, Len is the number of entries traversed, lookups return only entries that are there. Set algebra, also between sets with different comparators, returns a well-formed set that holds nothing but elements of the operands and lacks only elements the comparator calls equal to one of the other operand (or, for Intersect, has only such). Order and reachability of a given key are not promised.", "quantifier": "every deterministic function as comparator, every content, every history of operations", "why_tests_cant": "no test can run all functions; the loops and the rebalancing must end whatever the answers are", "anchors": ["algorithm/sort/sort.go:Sort,Stable", "algorithm/sort/nth_element.go:NthElement", "algorithm/sort/search.go:BinarySearch,LowerBound,UpperBound", "ds/priorityqueue/priority_queue.go:PriorityQueue", "ds/rbtree/rbtree.go:Insert,Delete,FindNode", "ds/map/map.go:Map", "ds/set/set.go:Insert", "ds/skiplist/skiplist.go:Insert,Get,Remove"]}
{"id": "C72", "title": "Bloom filters answer exactly up to collisions", "statement": "After any sequence of Adds, Contains(v) is true exactly if each position of v is a position of some added value; the contents depend only on the set of added values, not on their order or repetition.", "quantifier": "every hash function, every m from 1 to 2^64-8, every k below 2^63, every sequence of values", "why_tests_cant": "false positives cannot be told from wrong answers by examples; all histories and values", "anchors": ["ds/bloomfilter/bloom.go:Add,Contains,New", "algorithm/hash/hash.go:GenHashInts"]}
{"id": "C73", "title": "NewWithEstimates fits the requested error rate", "statement": "For n >= 1 and 0 < fp < 1 NewWithEstimates(n, fp) gives a filter with at least one bit and one hash function, with enough functions that a filter whose bits are half set passes a random value with probability at most fp, and without false negatives.", "quantifier": "every capacity and every error rate", "why_tests_cant": "real-valued parameter; rounding up at two places", "anchors": ["ds/bloomfilter/bloom.go:EstimateParameters,NewWithEstimates"]}
{"id": "C74", "title": "A deque gives memory back", "statement": "After any history of calls a Deque keeps allocated at most twice as many element slots as it has elements, plus a constant (five segments), and a pointer table proportional to that; once empty it keeps at most one segment and two pointers, however large it has been.", "quantifier": "every history of calls of every length, every segment capacity", "why_tests_cant": "an invariant relating capacity and size over all histories, with two independent release heuristics (halving the ring, cutting the pool)", "anchors": ["ds/deque/deque.go:expand,shrinkIfNeeded,putToPool,EraseAt,PopFront,PopBack", "ds/deque/pool.go:get,put,shrinkToSize"]}
{"id": "C75", "title": "Readers do not exclude each other", "statement": "With WithGoroutineSafe, goroutines whose calls never change a container (Size, Empty, Front, Back, Top, Get, Contains, Find, Count, Keys, Traversal with reading visitors, Data, ...) never wait for each other: in every reachable state each of them that is not finished can go on at once.", "quantifier": "every number of goroutines and containers, every mix of such calls, every interleaving", "why_tests_cant": "whether a goroutine can be made to wait is a property of all interleavings; a wrongly chosen Lock still gives right results", "anchors": ["utils/sync/locker.go", "ds/queue/queue.go:Front,Size,Empty", "ds/map/map.go:Get,Size", "ds/set/set.go:Contains", "ds/hamt/hamt.go:Get,Keys", "ds/skiplist/skiplist.go:Get,Len", "ds/bloomfilter/bloom.go:Data", "ds/ketama/ketama.go:Get"]}
{"id": "C76", "title": "Sort costs n log n accesses, NthElement n", "statement": "Sort on a range of n elements makes O(n log n) Value/SetValue calls and NthElement O(n), and never more than a fixed multiple of n squared, whatever the elements and the comparator are.", "quantifier": "every random-access container, range, content, position and comparator", "why_tests_cant": "a quadratic input family exists at every size and no finite set of timings bounds the cost for all inputs", "anchors": ["algorithm/sort/sort.go:Sort,quickSort,doPivot", "algorithm/sort/nth_element.go:NthElement,nthElement"]}
{"id": "C77", "title": "Deque growth and shrinking is amortised constant", "statement": "Over any history of calls on a new deque, the slots allocated by all rebuilds of its segment table and of its pool of spare segments together are at most 50 for each PushFront, PushBack or Insert made; alternating pushes and pops at a boundary cannot make the deque rebuild its tables again and again.", "quantifier": "every history of deque calls of any length, starting from a new deque", "why_tests_cant": "an amortised bound is a statement about every history; thrashing shows only on particular interleavings at particular sizes", "anchors": ["ds/deque/deque.go:expand,shrinkIfNeeded,segUsed,PushFront,PushBack,PopFront,PopBack,Insert,EraseAt,EraseRange,Clear,putToPool,shrinkPool"]}
{"id": "C78", "title": "Equal tells iterator positions apart", "statement": "Two iterators are Equal exactly if they belong to the same container and stand at the same position: for a container of n entries the iterators reached by p and q calls of Next from the front (p, q <= n) are Equal iff p = q, and iterators of two containers are not Equal.", "quantifier": "every container kind, every reachable content, all pairs of positions, all pairs of containers", "why_tests_cant": "a loop guarded by Equal ends for every content only if Equal is exact at every position; tests compare a few positions", "anchors": ["ds/list/bidlist/iterator.go:Equal,Next", "ds/list/simplelist/iterator.go:Equal,Next", "ds/map/iterator.go:Equal,Next", "ds/set/iterator.go:Equal,Next", "ds/vector/iterator.go:Equal,Next", "ds/array/iterator.go:Equal,Next", "ds/deque/iterator.go:Equal,Next", "ds/slice/iterator.go:Equal,Next"]}
{"id": "C79", "title": "The false positive rate is the one asked for", "statement": "A filter made by NewWithEstimates(n, p), after n different values have been added, answers true for a value that was not added with probability at most p, when the positions of the values are uniformly random (averaged over hash functions).", "quantifier": "every n, every p, all values, all choices of positions (hash functions)", "why_tests_cant": "the rate is an average over all hash functions and a small p needs more than 1/p trials per parameter; a measured rate proves nothing about other n and p", "anchors": ["ds/bloomfilter/bloom.go:NewWithEstimates,EstimateParameters,Add,Contains", "algorithm/hash/hash.go:GenHashInts"]}
{"id": "C80", "title": "Skiplist levels are geometric", "statement": "The level of a new skiplist element depends only on the random number modulo 2^n-1, where n is the maximum level, and exactly 2^(n-i) of these residues lead to level i: each level is half as likely as the one below.", "quantifier": "every maximum level 1..64, every level, every 64-bit random number", "why_tests_cant": "a test draws a few thousand of 2^64 numbers for one maximum level; a wrong share of a high level cannot be seen", "anchors": ["ds/skiplist/skiplist.go:randomLevel"]}
{"id": "C81", "title": "Skiplist calls are quick on average", "statement": "On a skiplist with n levels, after any history, Insert, Get and Remove call the comparator at most 2n+2+r(1/(2^n-1)+1/2^64) times, averaged over the random numbers drawn by the insertions of the history, where r is the number of keys below the one asked for; so at most 2n+4 times if r < 2^n. With a fixed number of levels the cost is linear: Get makes at least r/2^n calls on average.", "quantifier": "every maximum level 1..64, every history, every further call, every lawful comparator, all random numbers", "why_tests_cant": "it is an average over all random numbers of all insertions, for every history; a benchmark shows one history and one sequence of numbers", "anchors": ["ds/skiplist/skiplist.go:randomLevel,findPrevNodes,Insert,Get,Remove"]}
{"id": "C82", "title": "A consistent-hash ring is balanced", "statement": "After any history of Add and Remove of nodes, Get(key) is each of the m members with probability 1/m, when the hashes of the node names are uniformly random (averaged over hash functions, up to the probability that two nodes collide); adding one more node moves the key with probability 1/(m+1).", "quantifier": "every number of node names, every history, every number of replicas from 1, every key, all choices of hashes of the node names", "why_tests_cant": "the load is an average over all hash functions; a measured distribution of some keys on some ring proves nothing about other rings", "anchors": ["ds/ketama/ketama.go:Add,Remove,Get", "algorithm/hash/hash.go:GenHashInts"]}
{"id": "C83", "title": "The order of Hamt keys depends only on the keys", "statement": "After any history Keys and Traversal list the keys in the dictionary order of their hashes (six bits at a time, lowest first); keys with the same hash stand next to each other, the later inserted first. If no two keys present have the same hash, two Hamts with the same keys list them in the same order, and two with the same pairs are the same trie, whatever their histories.", "quantifier": "every hash function, every pair of histories", "why_tests_cant": "canonicity relates all pairs of histories with the same outcome", "anchors": ["ds/hamt/hamt.go:insert,erase,Keys,Traversal"]}
{"id": "C84", "title": "Hamt keys are the bytes at the time of the call", "statement": "A Hamt is a map of byte strings: Insert takes the bytes its key slice has at the time of the call, and what the program does with the slice afterwards does not matter.", "quantifier": "every hash function, every history of calls and of writes to byte arrays, overlapping slices included", "why_tests_cant": "whether a buffer is reused while the trie still refers to it is a property of the whole program history", "anchors": ["ds/hamt/hamt.go:Insert,Get,Erase,Keys"]}
{"id": "C85", "title": "Byte slices given to and taken from bitmaps and Bloom filters", "statement": "bitmap.NewFromData works on the caller's slice and Bitmap.Data returns the bitmap's own slice until its next Clear or change of size; bloom.NewFromData works on the caller's bytes from position 16 on, BloomFilter.Data returns a copy. Two objects influence each other exactly if they share bytes in this way. An added value stays contained in a Bloom filter as long as nobody unsets bits through a sharing bitmap or slice.", "quantifier": "every program over any number of slices, sub-slices, bitmaps and filters, with writes through any of them in any order; every hash function", "why_tests_cant": "aliasing shows only in particular interleavings of writes through several handles; tests create one object and use it alone", "anchors": ["ds/bitmap/bitmap.go:NewFromData", "ds/bitmap/bitmap.go:Data", "ds/bitmap/bitmap.go:Resize", "ds/bitmap/bitmap.go:Clear", "ds/bloomfilter/bloom.go:NewFromData", "ds/bloomfilter/bloom.go:Data"]}
{"id": "C86", "title": "Stacks and queues over a container the caller supplies", "statement": "With WithContainer a stack or queue works on the given container itself: it starts with what the container holds, pushes at the container's back, pops at its front (queue) or back (stack), and everything the caller or another adapter does to the container is seen at once. Every program gets the answers of plain sequences, one per container.", "quantifier": "every container that behaves as a sequence (the library's deques and lists among them), every content at the start, every program over any number of containers, stacks and queues", "why_tests_cant": "tests use adapters over fresh containers; sharing shows only when calls through several handles interleave", "anchors": ["ds/queue/queue.go:WithContainer", "ds/queue/queue.go:New", "ds/stack/stack.go:WithContainer", "ds/stack/stack.go:New", "ds/container/container.go:Container"]}
{"id": "C87", "title": "Goroutine-safe adapters over one container exclude each other", "statement": "Two calls on goroutine-safe stacks or queues never access their container at the same time, also when both were given the same container with WithContainer.", "quantifier": "every container, every content, every code of its methods, every interleaving of any number of goroutines", "why_tests_cant": "a race needs a particular interleaving of two goroutines on two adapters", "anchors": ["ds/queue/queue.go:WithGoroutineSafe", "ds/queue/queue.go:WithContainer", "ds/stack/stack.go:WithGoroutineSafe", "ds/stack/stack.go:WithContainer"]}
{"id": "C88", "title": "A comparator that panics, or changes its mind, at any call", "statement": "When the caller's comparator panics in the middle of a call and the caller recovers, no container has lost or gained elements: sorting and searching leave the elements of the range (a permutation of it) and everything outside alone; heap and priority-queue calls hold exactly the elements of before or after the call and keep serving; lookups and Erase in trees, maps and sets change nothing when they panic, and an Insert that panics leaves all entries and the count as they were; a skip list is after the panic what it was before the call. Without a panic the calls end and lose nothing even when the answers are inconsistent.", "quantifier": "every content, every argument, every comparator whose answers may depend on all earlier calls and which may panic at any call", "why_tests_cant": "a panic is possible at every single comparison of every input; tests never make comparators panic", "anchors": ["algorithm/sort/sort.go:Sort", "algorithm/sort/nth_element.go:NthElement", "algorithm/sort/stable_sort.go:Stable", "algorithm/sort/binary_search.go:BinarySearch", "algorithm/sort/permutation.go:NextPermutation", "algorithm/heap/heap.go:Push", "algorithm/heap/heap.go:Pop", "algorithm/heap/heap.go:Fix", "ds/priorityqueue/priorityqueue.go:PriorityQueue.Push", "ds/rbtree/rbtree.go:RbTree.Insert", "ds/map/map.go:Map.Insert", "ds/map/multimap.go:MultiMap.Erase", "ds/set/set.go:Set.Insert"]}
{"id": "C89", "title": "Goroutine-safe maps, sets and skip lists survive panicking comparators", "statement": "When the comparator panics for some keys and the goroutines recover, the lock is free again, a call that panicked has had no effect, and all other calls of all goroutines are linearizable as if the panicking calls had not been made. A call can panic only if the comparator does for its key and keys held.", "quantifier": "every order on the keys, every set of pairs of keys for which the comparator panics, any number of maps, sets or skip lists and goroutines, every client, every interleaving", "why_tests_cant": "needs a panic inside a critical section combined with arbitrary interleavings", "anchors": ["ds/map/map.go:Map.Insert", "ds/map/map.go:Map.Erase", "ds/map/map.go:Map.Get", "ds/set/set.go:Set.Insert", "ds/set/set.go:Set.Erase", "ds/set/set.go:Set.Contains", "ds/rbtree/rbtree.go:RbTree.Insert"]}
{"id": "C90", "title": "Erasing while walking", "statement": "A loop that walks a container and erases the elements it does not want, stepping off an element before erasing it (or, for vectors and deques, staying at the position of the erased element), looks at every element exactly once, in order, and leaves exactly the other elements, in order; other containers do not change, and the container can be used on as usual.", "quantifier": "every reachable container, every choice of the elements to erase", "why_tests_cant": "the effect of an erasure on the iterators held depends on the shape of the tree, so a few examples say nothing", "anchors": ["ds/map/map.go:Map.EraseIter", "ds/map/iterator.go:MapIterator.Next", "ds/map/iterator.go:MapIterator.Prev", "ds/map/map.go:Map.LowerBound", "ds/set/set.go:Set.Erase", "ds/list/bidlist/list.go:List.Remove", "ds/list/bidlist/list.go:Node.Next", "ds/list/simplelist/simplelist.go:List.Remove", "ds/vector/vector.go:Vector.Erase", "ds/deque/deque.go:Deque.EraseAt"]}
{"id": "C91", "title": "Which of several equal keys is kept", "statement": "When keys that compare equal but are different values are inserted, a Map, a Set and a skip list keep the key inserted first (Insert only replaces the value), and enumeration shows that very key; Intersect and Diff list elements of the receiver, Union prefers the receiver's elements; multimaps and multisets keep them all, oldest first.", "quantifier": "all histories, keys, values, consistent comparators with ties", "why_tests_cant": "the comparator decides what is equal, so tests with integer keys cannot tell which key is stored", "anchors": ["ds/map/map.go:Map.Insert", "ds/set/set.go:Set.Insert", "ds/set/set.go:Set.Intersect", "ds/set/set.go:Set.Union", "ds/set/set.go:Set.Diff", "ds/skiplist/skiplist.go:Skiplist.Insert", "ds/map/multimap.go:MultiMap.Insert", "ds/set/multiset.go:MultiSet.Insert"]}
{"id": "C92", "title": "Inserting and erasing near either end of a deque is cheap", "statement": "Insert, EraseAt and EraseRange of a deque move the elements of the shorter side: the number of rounds of their loops is bounded by the distance to the nearer end (for Insert and EraseAt: in segments, plus a constant), however large the deque is.", "quantifier": "all reachable deques, positions, ranges, values and segment sizes", "why_tests_cant": "a benchmark shows a time for some positions, not a bound for every position and every history; the result is the same whichever side moves", "anchors": ["ds/deque/deque.go:Deque.Insert", "ds/deque/deque.go:Deque.EraseAt", "ds/deque/deque.go:Deque.EraseRange", "ds/deque/deque.go:Deque.moveFrontInsert", "ds/deque/deque.go:Deque.moveBackInsert"]}
{"id": "C93", "title": "Containers release what has been removed", "statement": "What a container keeps alive (what a garbage collector must keep because a chain of pointers leads from the container to it) are its current elements and nothing else: removed, popped, erased and overwritten elements become collectable, and a node the caller still holds after removing it does not keep the list or its other nodes alive.", "quantifier": "all histories of calls, all elements, all comparators that are strict weak orders, all random level choices", "why_tests_cant": "reachability is not observable by a call; a heap profile shows one history", "anchors": ["ds/list/bidlist/bidlist.go:List.Remove", "ds/list/simplelist/simplelist.go:List.Remove", "ds/rbtree/rbtree.go:RbTree.Delete", "ds/map/map.go:Map.Erase", "ds/hamt/hamt.go:Hamt.Erase", "ds/skiplist/skiplist.go:Skiplist.Remove", "ds/vector/vector.go:Vector.PopBack", "ds/vector/vector.go:Vector.ShrinkToFit", "ds/deque/segment.go:Segment.popBack", "ds/priorityqueue/priority_queue.go:ElementHolder.Pop"]}
{"id": "C94", "title": "Pair.Equal compares both components by value", "statement": "MakePair and New set both components, Fronts and Backs return them. p.Equal(q) is true exactly if both components have the same dynamic type and the same value; the answer does not depend on which of the two is the receiver; Equal is transitive; it does not panic if p contains no slice, map or function, and is then true for p itself exactly if p contains no NaN.", "quantifier": "all pairs of Go values: nested structs, arrays, interfaces, strings, numbers including NaN and both zeros, uncomparable types", "why_tests_cant": "the values are of type any: the dynamic types are unbounded, and a panic needs a type no test happens to use", "anchors": ["ds/pair/pair.go:MakePair", "ds/pair/pair.go:Pair.New", "ds/pair/pair.go:Pair.Equal", "ds/pair/pair.go:Pair.Fronts", "ds/pair/pair.go:Pair.Backs"]}
{"id": "C95", "title": "Recursion depth is logarithmic", "statement": "The recursive calls (Sort, NthElement, Stable, the lower and upper bound searches of maps and sets, the calls of the trie) nest at most logarithmically many calls in the number of elements, so that no input size in memory can overflow the stack. Exactly: Stable nests ceil(log2 n)+1 calls, the bound searches at most 2 log2(n+1)+1, the trie at most 11.", "quantifier": "all range lengths and contents, comparators, containers, histories", "why_tests_cant": "a stack overflows only at a depth that depends on length and content together; it needs inputs of millions of elements of one particular shape", "anchors": ["algorithm/sort/sort.go:quickSort", "algorithm/sort/nth_element.go:nthElement", "algorithm/sort/stable_sort.go:mergeSort", "ds/rbtree/rbtree.go:RbTree.findLowerBoundNode", "ds/hamt/hamt.go:BitmapNode.insert"]}
{"id": "C96", "title": "A visitor may change the map or set it is walking", "statement": "A visitor passed to Traversal of a Map or Set may itself call Insert and Erase on the container: no call panics, the walk goes on each time with the entry of the smallest key above the visited one in the container as it then is, keys are visited in strictly increasing order, every entry that was there at the start and that no call names is visited, and the container afterwards holds what the calls made of it. If no key above the visited one is inserted the walk ends after at most as many visits as there were entries.", "quantifier": "all histories, comparators, visitors with their own state that see the whole container, all sequences of calls per visit, all lengths of the walk", "why_tests_cant": "the outcome depends on which node the tree unlinks when a key is erased, that is on the shape of the tree", "anchors": ["ds/rbtree/rbtree.go:RbTree.Traversal", "ds/rbtree/rbtree.go:RbTree.Delete", "ds/map/map.go:Map.Traversal", "ds/set/set.go:Set.Traversal"]}
{"id": "C97", "title": "A visitor may change the skip list it is walking", "statement": "A visitor passed to Traversal of a Skiplist may itself call Insert and Remove on the list: no call panics, the walk goes on each time with the entry of the smallest key above the visited one in the list as it then is, keys are visited in strictly increasing order, and the list afterwards holds what the calls made of it. In particular a traversal that removes the visited entry whenever a condition holds visits every entry once and leaves exactly the others.", "quantifier": "all histories, maximum levels 1 to 64, comparators, random draws, visitors with their own state that see the whole list, all sequences of calls per visit, all lengths of the walk", "why_tests_cant": "the outcome depends on pointers kept by removed elements and on the levels drawn", "anchors": ["ds/skiplist/skiplist.go:Skiplist.Traversal", "ds/skiplist/skiplist.go:Skiplist.Remove", "ds/skiplist/skiplist.go:Skiplist.Insert"]}
{"id": "C98", "title": "A visitor may change the trie it is walking", "statement": "A visitor passed to Traversal of a Hamt may itself call Insert and Erase on the trie: no call panics, the visitor is called with no key twice, always with a key that is in the trie at that moment and with its value there, a visitor that always says go on is called with every key that was in the trie at the start and has not been erased before its turn, and the trie afterwards is what the same calls make of it one after the other.", "quantifier": "all histories, hash functions, visitors with their own state that see the whole trie, all sequences of calls per visit", "why_tests_cant": "the outcome depends on arrays of children that the loop still holds after a call replaced them, and on chains of pairs with equal hashes", "anchors": ["ds/hamt/hamt.go:BitmapNode.traversal", "ds/hamt/hamt.go:BitmapNode.erase", "ds/hamt/hamt.go:BitmapNode.insert", "ds/hamt/hamt.go:Hamt.Traversal"]}
{"id": "C99", "title": "A visitor may change the list it is walking", "statement": "A visitor passed to Traversal of a bidirectional or singly linked list may itself call the methods of lists, choosing each call by the results of those before: the walk goes on each time with the element that is then behind the visited one (or, if the visited one has been removed, with the one that was behind it), shows each element with the value it has then, visits only elements of the list, and leaves the lists as the calls make them. A visitor that only adds elements sees all elements the list had at the start, in order.", "quantifier": "all histories, any number of lists, all visitors with their own state, all sequences of calls per visit, all lengths of the walk (including walks that never end)", "why_tests_cant": "the outcome depends on the pointers of nodes that were removed, moved or cleared during the walk; a walk that never ends cannot be tested", "anchors": ["ds/list/bidlist/list.go:List.Traversal", "ds/list/bidlist/list.go:Node.Next", "ds/list/bidlist/list.go:List.Remove", "ds/list/bidlist/list.go:List.Clear", "ds/list/simplelist/simplelist.go:List.Traversal", "ds/list/simplelist/simplelist.go:Node.Next", "ds/list/simplelist/simplelist.go:List.Remove"]}
{"id": "C100", "title": "A visitor may change the multimap or multiset it is walking", "statement": "A visitor passed to Traversal of a multimap or multiset may itself insert and erase (in a container without WithGoroutineSafe): the walk goes on each time with the entry that then follows the visited one, visits entries in the order of their keys, visits every entry that was there and whose key is never erased, and leaves in the container what the calls make of it. If nothing is inserted at or above the visited key, the walk ends and visits no entry twice.", "quantifier": "all histories, all lawful comparators (different keys may be equal), all visitors with their own state, all sequences of calls per visit, all lengths of the walk", "why_tests_cant": "erasing an entry may move the contents of another one into its node, so the outcome depends on the shape of the tree; visitors and histories are unbounded", "anchors": ["ds/map/multimap.go:MultiMap.Traversal", "ds/map/multimap.go:MultiMap.Insert", "ds/map/multimap.go:MultiMap.Erase", "ds/set/multiset.go:MultiSet.Traversal", "ds/set/multiset.go:MultiSet.Insert", "ds/set/multiset.go:MultiSet.Erase", "ds/set/multiset.go:MultiSet.EraseAll", "ds/rbtree/rbtree.go:RbTree.Traversal", "ds/rbtree/rbtree.go:RbTree.Delete"]}
{"id": "C101", "title": "A visitor that panics leaves the container usable", "statement": "In goroutine-safe maps, multimaps, sets, multisets, skip lists and hash tries, a visitor passed to Traversal may panic at any entry. The panic ends the traversal at that entry, changes nothing in the container and leaves its lock free: when the callers recover, any concurrent execution with such traversals amounts to the finished calls made one at a time, where a traversal shows the entries in the documented order up to the first one at which the visitor does not return true, and every call returns.", "quantifier": "all numbers of containers and goroutines, all clients, all visitors with captured variables (returning true or false or panicking at each call), all interleavings, all comparators that are orders, all hash functions, all random draws", "why_tests_cant": "visitors, clients and schedules are unbounded; a lock left taken or a half-finished walk shows only in some schedule", "anchors": ["ds/map/map.go:Map.Traversal", "ds/map/multimap.go:MultiMap.Traversal", "ds/set/set.go:Set.Traversal", "ds/set/multiset.go:MultiSet.Traversal", "ds/skiplist/skiplist.go:Skiplist.Traversal", "ds/hamt/hamt.go:Hamt.Traversal", "ds/hamt/hamt.go:BitmapNode.traversal", "ds/rbtree/rbtree.go:RbTree.Traversal"]}
{"id": "C102", "title": "Iterators of vectors, arrays and deques survive every change", "statement": "An iterator of a vector, array or deque stands at a position of its container, whatever happens to the container afterwards. Programs may keep any number of iterators around while they call anything on any number of containers, including Insert, Erase and EraseRange of a vector with iterators (even of another vector): Value, SetValue, IsValid, Next, Prev, Position, Clone, IteratorAt and Equal then do what they would do for a position of a plain sequence holding the current contents. No growth, reallocation, shrinking or segment change leaves an iterator with stale elements. Only Next and Prev on the iterator itself move it. After a call the iterator shows its own element if the change was beyond it, and the left or right neighbour if one element was inserted or removed at or before it.", "quantifier": "all programs over any number of containers and iterators, all element types and values, all positions (also outside the container), all capacities the runtime chooses", "why_tests_cant": "histories mixing container changes and old iterators are unbounded; stale storage would show only after particular reallocations", "anchors": ["ds/vector/iterator.go:VectorIterator", "ds/array/iterator.go:ArrayIterator", "ds/deque/iterator.go:DequeIterator", "ds/vector/vector.go:Vector.Insert", "ds/vector/vector.go:Vector.Erase", "ds/vector/vector.go:Vector.EraseRange", "ds/vector/vector.go:Vector.IterAt"]}
{"id": "C103", "title": "Iterators of ordered containers denote entries while the container changes", "statement": "An iterator of a map, multimap, set or multiset denotes an entry (or the end), and keeps denoting it whatever is inserted, whatever values change and whatever other entries are erased: Key and Value show that entry, SetValue changes it, Next and Prev move to its current neighbours, Equal says whether two iterators denote the same entry. Only an iterator whose own entry was erased is unusable.", "quantifier": "all programs over one container of any of the four kinds and any number of iterators made at any time (Begin, Last, Find, LowerBound, UpperBound, Clone), all lawful comparators, keys and values", "why_tests_cant": "histories mixing insertions, erasures, rotations and old iterators are unbounded", "anchors": ["ds/map/iterator.go:MapIterator", "ds/set/iterator.go:SetIterator", "ds/map/map.go:Map.Insert", "ds/map/map.go:Map.Erase", "ds/map/map.go:Map.EraseIter", "ds/map/multimap.go:MultiMap.Erase", "ds/set/set.go:Set.Insert", "ds/set/multiset.go:MultiSet.EraseAll", "ds/rbtree/rbtree.go:RbTree.Delete"]}
{"id": "C104", "title": "Iterators of lists denote elements while the lists change", "statement": "An iterator made for a node of a bidirectional or single list denotes that element for good: through insertions, moves, splices and removals it shows the element's current value, Next and Prev lead to the neighbours the element has now, and once the element has been removed it still shows the value and Next and Prev lead to no element. Clones are independent; Equal says whether two iterators denote the same element.", "quantifier": "every program of list calls and iterator calls, on any number of lists and iterators, of any length", "why_tests_cant": "tests take iterators of a list that does not change; the property ranges over all interleavings of list changes and iterator calls", "anchors": ["ds/list/bidlist/iterator.go: ListIterator", "ds/list/bidlist/list.go", "ds/list/simplelist/iterator.go: ListIterator", "ds/list/simplelist/simplelist.go"]}
{"id": "C105", "title": "Functions given to the search algorithms may do anything that leaves the walk alone", "statement": "CountIf, FindIf, AnyOf, AllOf and NoneOf call the given function once for each element of the range, in order, until the answer is known, each time in the state the last call left, with an iterator at that element; this is so whatever else the function does: read or write elements, change other containers, append to this one.", "quantifier": "every vector, array, deque, map, multimap, set, multiset and list, every range in it, and every function (any program on the containers and iterators)", "why_tests_cant": "tests pass pure predicates; here the function is an arbitrary stateful program, so the algorithm's loop and the function interleave in unboundedly many ways", "anchors": ["algorithm/const_op.go: CountIf, FindIf, AnyOf, AllOf, NoneOf", "ds/vector/iterator.go", "ds/deque/iterator.go", "ds/array/iterator.go", "ds/map/iterator.go", "ds/set/iterator.go", "ds/list/bidlist/iterator.go", "ds/list/simplelist/iterator.go"]}
{"id": "C106", "title": "Machine integers do not change what the algorithms, the heap and the deque do", "statement": "With Go's 64-bit wrap-around int, Sort, Stable, NthElement, BinarySearch, LowerBound, UpperBound, NextPermutation and Reverse do on every range what they do with unbounded integers, so what C18 to C24 say holds of the machine code; so do heap.Init, Push, Pop, Remove and Fix, for every int given as index. A deque that never holds 2^48 elements gives through every history of calls the results and panics that C01 promises.", "quantifier": "every lawful random-access container with fewer than 2^62 elements, every range of it, every comparator, every int n; every heap collection with fewer than 2^63 elements, every int index, every history of fewer than 2^63 queue calls; every history of deque calls during which the size stays below 2^48", "why_tests_cant": "the sums that could wrap around occur only with containers no test can allocate, and the claim is about all of them", "anchors": ["algorithm/sort/sort.go: Sort, quickSort", "algorithm/sort/nth_element.go: NthElement", "algorithm/sort/search.go: BinarySearch, LowerBound, UpperBound", "algorithm/sort/stable_sort.go: Stable, mergeSort, merge", "algorithm/sort/next_permutation.go: NextPermutation", "algorithm/op.go: Reverse", "ds/heap/heap.go: Init, Push, Pop, Remove, Fix, up, down", "ds/deque/deque.go: PushFront, PushBack, Insert, PopFront, PopBack, EraseAt, EraseRange, Clear, At, Set, Front, Back", "ds/deque/segment.go"]}
{"id": "C107", "title": "Ordered containers in one memory do not interfere", "statement": "In a program with any number of maps, multimaps, sets and multisets and their iterators, interleaved in any way, every call on a container returns what it would return if the container were alone in the program: nothing done to one container, or through its iterators, shows in another; iterators of different containers are equal only at the end. This holds as long as a container is given only its own iterators and no iterator is used that C103 calls stale.", "quantifier": "all lists of lawful comparators, all programs over that many containers sharing one heap and any number of iterators of each", "why_tests_cant": "interference would come from nodes written by a rotation or erasure in another tree, after some interleaving of histories of several containers", "anchors": ["ds/rbtree/rbtree.go: Insert, Delete, rbInsertFixup, rbDeleteFixup, leftRotate, rightRotate", "ds/map/map.go: Map", "ds/map/multimap.go: MultiMap", "ds/set/set.go: Set", "ds/set/multiset.go: MultiSet", "ds/map/iterator.go", "ds/set/iterator.go"]}
{"id": "C108", "title": "Slice wrappers are windows onto the caller's arrays", "statement": "A slice wrapper holds no elements of its own. Whatever is done through it or its iterators, by a user's loop or by any of the algorithms, happens as if to a list to exactly the part of the caller's array that its slice covers: the elements of the array outside the slice, the other arrays and all wrappers stay as they are, and every other slice or wrapper over the same array, overlapping or not, sees the new elements. Attach redirects the wrapper and all iterators made from it to another slice and touches no element.", "quantifier": "all memories of arrays, all slices into them (any array, offset, length), all wrappers on them, overlapping or not, all programs of reads, writes and size queries", "why_tests_cant": "a write past the window's end by some algorithm lands silently in the caller's neighbouring elements, only for some ranges and contents", "anchors": ["ds/slice/slice_wrapper.go: NewSliceWrapper, Attach, Len, At, Set", "ds/slice/iterator.go: SliceIterator"]}
{"id": "C109", "title": "Sets made by Intersect, Union and Diff share nothing with their operands", "statement": "Intersect, Union and Diff make a new set in the memory in which their operands live. The result holds, in increasing order, exactly the elements it should, each as the first operand holds it where both hold one. The operands and all other sets stay as they were, iterators into them stay good, and whatever is later done to the result or to an operand, also when a set is combined with itself or with an earlier result, shows in none of the others.", "quantifier": "all lists of lawful comparators, all programs on the sets made with them, of inserts, erases, lookups, iterators and combinations of any two sets of one comparator, using no stale iterator", "why_tests_cant": "a node shared between a result and its operand shows only when one of them is changed later, in a way that depends on the whole history", "anchors": ["ds/set/set.go: Intersect, Union, Diff", "ds/rbtree/rbtree.go: Insert, First", "ds/rbtree/node.go: Next"]}
{"id": "C110", "title": "Sort is quick on average", "statement": "Over all the orders in which n elements, no two of which compare equal, may stand in a range, Sort makes on average at most 10\u00b7n\u00b7ln n + 26\u00b7n reads and writes of elements, whatever container the range is in and whatever surrounds it.", "quantifier": "all lawful containers, all lawful comparators, all lists of elements that all compare different, with all their arrangements, all surroundings", "why_tests_cant": "the average over all n! orders for every n; C76 shows that the worst case is quadratic, so no bound holds for each input", "anchors": ["algorithm/sort/sort.go: Sort, quickSort, doPivot"]}
{"id": "C111", "title": "NthElement is linear on average", "statement": "Over all the orders in which n elements, no two of which compare equal, may stand in a range, NthElement makes on average at most 51\u00b7n reads and writes of elements, whatever position is asked for, whatever container the range is in and whatever surrounds it.", "quantifier": "all lawful containers, all lawful comparators, all lists of elements that all compare different, with all their arrangements, all positions, all surroundings", "why_tests_cant": "the average over all n! orders for every n and every position; C76 shows that the worst case is quadratic, so no linear bound holds for each input", "anchors": ["algorithm/sort/nth_element.go: NthElement, nthElement", "algorithm/sort/sort.go: doPivot"]}
{"id": "C112", "title": "The comparator is called rarely", "statement": "With any comparator that does not panic, consistent or not, and n elements: heap Init calls it at most 2(n-1) times, Push at most log2(n+1), Pop and Remove at most 2 log2(n-1), Fix at most 2 log2(n) times; Sort at most n(n-1)/2, NthElement at most n(n-2), Stable at most n*ceil(log2 n), BinarySearch at most log2(n)+1, LowerBound and UpperBound at most log2(n)+2 times. On every tree of n entries, L = 2 log2(n+1): the bound searches call it at most 2L times, Get/Find/Contains and Erase at most 2L+1 times, and with a comparator that is a function Insert of multimaps and multisets at most L+1 and Insert of maps and sets at most 3L+2 times. With a consistent comparator NextPermutation calls it at most 2n times, and Insert, Get and Remove of a skip list of m levels at most r+m+1 times, r being the number of keys below the one asked for, whatever the random numbers.", "quantifier": "all contents and sizes, all comparators with any state that do not panic, all histories that built the tree, all lawful containers and ranges", "why_tests_cant": "the worst case over all contents, histories and answers of the comparator is not among the inputs a test can count calls on", "anchors": ["ds/heap/heap.go: Init, Push, Pop, Remove, Fix, up, down", "algorithm/sort/sort.go: Sort", "algorithm/sort/stable_sort.go: Stable", "algorithm/sort/nth_element.go: NthElement", "algorithm/sort/search.go: BinarySearch, LowerBound, UpperBound", "algorithm/sort/next_permutation.go: NextPermutation", "ds/skiplist/skiplist.go: Insert, Get, Remove", "ds/rbtree/rbtree.go: Insert, FindNode, FindLowerBoundNode, FindUpperBoundNode", "ds/map/map.go: Insert, Erase", "ds/set/set.go: Insert, Erase"]}
