import Verif.Basic.Res
import Verif.Basic.Cmp
import Verif.RBTree.Props
import Verif.TreeMap.MapProps
import Verif.TreeMap.Reentrant
import Verif.TreeMap.MultiReentrant
import Verif.TreeMap.MultiProps
import Verif.TreeMap.SetProps
import Verif.Algo.Props
import Verif.Vector.Props
import Verif.Array.Props
import Verif.SliceWrap.Props
import Verif.Deque.Segment
import Verif.Deque.SegProofs
import Verif.Deque.Model
import Verif.Deque.Ring
import Verif.Deque.Rep
import Verif.Deque.Loops
import Verif.Deque.Ops1
import Verif.Deque.Ops2
import Verif.Deque.Props
import Verif.Deque.Memory
import Verif.BidList.Model
import Verif.BidList.Ring
import Verif.BidList.Spec
import Verif.BidList.Proofs
import Verif.BidList.Ops1
import Verif.BidList.Ops2
import Verif.BidList.Refine
import Verif.BidList.Props
import Verif.Adapter.Model
import Verif.Adapter.Props
import Verif.SimpleList.Model
import Verif.SimpleList.Proofs
import Verif.SimpleList.Props
import Verif.Heap.Model
import Verif.Heap.Proofs
import Verif.Heap.Props
import Verif.Bitmap.Model
import Verif.Bitmap.Props
import Verif.Bloom.Model
import Verif.Bloom.Props
import Verif.Hamt.Props
import Verif.Skiplist.Props
import Verif.Skiplist.Reentrant
import Verif.Ketama.Members
import Verif.Comparator.Props
import Verif.Conc.SetAlg
import Verif.Conc.Ketama
import Verif.Str.Props
import Verif.RBTree.Cost
import Verif.Algo.Cost
import Verif.Algo.SortCost
import Verif.Heap.Cost
import Verif.Conc.Deadlock
import Verif.Conc.Specs
import Verif.Conc.IterRace
import Verif.Conc.Sharing
import Verif.Conc.Serial
import Verif.Obj.Props
import Verif.Vector.Data
import Verif.Array.Data
import Verif.Iters.Props
import Verif.Iters.ReverseProps
import Verif.Algo.AnyCmp
import Verif.Heap.AnyCmp
import Verif.TreeMap.AnyCmp
import Verif.TreeMap.SetAlgAny
import Verif.Skiplist.AnyCmp
import Verif.Bloom.Exact
import Verif.Bloom.Estimate
import Verif.Deque.Amort
import Verif.Deque.Float12
import Verif.Iters.Equal
import Verif.Bloom.Balls
import Verif.Bloom.Ideal
import Verif.Skiplist.Cost
import Verif.Skiplist.Random
import Verif.Skiplist.Average
import Verif.Skiplist.Expected
import Verif.Ketama.Balance
import Verif.Hamt.Canon
import Verif.Hamt.Alias
import Verif.Hamt.HeapProps
import Verif.Hamt.Stop
import Verif.Heap.Slice
import Verif.Bloom.Alias
import Verif.Adapter.Shared
import Verif.Conc.SharedContainer
import Verif.Algo.CrashModel
import Verif.Algo.Crash
import Verif.Heap.Crash
import Verif.RBTree.Crash
import Verif.Conc.Panics
import Verif.Skiplist.Crash
import Verif.Conc.PanicsSkip
import Verif.Conc.PanicsVisit
import Verif.TreeMap.EraseLoop
import Verif.TreeMap.MultiEraseLoop
import Verif.TreeMap.Kept
import Verif.Deque.Moves
import Verif.BidList.EraseLoop
import Verif.BidList.Reentrant
import Verif.SimpleList.EraseLoop
import Verif.SimpleList.Reentrant
import Verif.Vector.EraseLoop
import Verif.Deque.EraseLoop
import Verif.Basic.Reach
import Verif.BidList.Released
import Verif.SimpleList.Released
import Verif.TreeMap.Released
import Verif.Skiplist.Released
import Verif.Vector.Released
import Verif.Deque.Released
import Verif.Bloom.Float
import Verif.Pair.Model
import Verif.Pair.Props
import Verif.Algo.Depth
import Verif.Hamt.Arrays
import Verif.Hamt.ArraysInv
import Verif.Hamt.ArraysSteps
import Verif.Hamt.ArraysOps
import Verif.Hamt.ArraysCalls
import Verif.Hamt.ArraysState
import Verif.Hamt.ArraysWalk
import Verif.Seq.Moving
import Verif.TreeMap.Moving
import Verif.Iters.Lists
import Verif.Obj.Callback
import Verif.Basic.Int64
import Verif.Algo.Machine
import Verif.Algo.MachineProps
import Verif.Heap.Machine
import Verif.RBTree.Frame
import Verif.TreeMap.World
import Verif.SliceWrap.Window
import Verif.TreeMap.WorldAlg
import Verif.Algo.AvgSim
import Verif.Algo.AvgCount
import Verif.Algo.Avg
import Verif.Algo.SortAvg
import Verif.Algo.AvgNth
import Verif.Algo.Calls
import Verif.Heap.Calls
import Verif.RBTree.Calls
import Verif.Skiplist.Calls
import Verif.Deque.Machine
import Verif.Deque.MachineSeg
import Verif.Deque.MachineDeq
import Verif.Deque.MachineOps
import Verif.Deque.MachineProps
