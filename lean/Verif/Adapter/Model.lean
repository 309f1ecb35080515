import Verif.Deque.Props
import Verif.BidList.Props
/-!
# Model of `ds/container/container.go`, `ds/stack/stack.go`, `ds/queue/queue.go`

A stack or queue forwards each call to its container, between `Lock` and `Unlock`. The lock calls are left out here: in a sequential
history they do nothing (concurrent use is C58). `String` is not modelled.
-/
namespace GoSTL.Adapter

/-- container.go:4-15 `Container` (without `PushFront`, which no adapter calls, and `String`). -/
structure Container (C T : Type) where
  pushBack : C → T → Res C
  front : C → Res T
  back : C → Res T
  popFront : C → Res (T × C)
  popBack : C → Res (T × C)
  empty : C → Res Bool
  size : C → Res Int
  clear : C → Res C

variable {C T : Type}

/-! ## stack.go -/

/-- The calls of stack.go:69-114. -/
inductive StackOp (T : Type)
  | push (v : T)
  | pop
  | top
  | size
  | empty
  | clear

/-- The calls of queue.go:70-123. -/
inductive QueueOp (T : Type)
  | push (v : T)
  | pop
  | front
  | back
  | size
  | empty
  | clear

/-- What they return. -/
inductive Out (T : Type)
  | unit
  | val (x : T)
  | int (n : Int)
  | bool (b : Bool)
  deriving DecidableEq

/-- stack.go:69-118: `Size` 69-74, `Empty` 77-82, `Push` 85-90, `Top` 93-98, `Pop` 101-106, `Clear` 109-114. -/
def stackStep (K : Container C T) (op : StackOp T) (c : C) : Res (Out T × C) :=
  match op with
  | .push v => do let c ← K.pushBack c v; .ok (.unit, c)
  | .pop => do let (x, c) ← K.popBack c; .ok (.val x, c)
  | .top => do let x ← K.back c; .ok (.val x, c)
  | .size => do let n ← K.size c; .ok (.int n, c)
  | .empty => do let b ← K.empty c; .ok (.bool b, c)
  | .clear => do let c ← K.clear c; .ok (.unit, c)

/-- queue.go:70-123: `Size` 70-75, `Empty` 78-83, `Push` 86-91, `Front` 94-99, `Back` 102-107, `Pop` 110-115, `Clear` 118-123. -/
def queueStep (K : Container C T) (op : QueueOp T) (c : C) : Res (Out T × C) :=
  match op with
  | .push v => do let c ← K.pushBack c v; .ok (.unit, c)
  | .pop => do let (x, c) ← K.popFront c; .ok (.val x, c)
  | .front => do let x ← K.front c; .ok (.val x, c)
  | .back => do let x ← K.back c; .ok (.val x, c)
  | .size => do let n ← K.size c; .ok (.int n, c)
  | .empty => do let b ← K.empty c; .ok (.bool b, c)
  | .clear => do let c ← K.clear c; .ok (.unit, c)

/-- A history of calls, each done by `stp`. -/
def runAll {Op Out S : Type} (stp : Op → S → Res (Out × S)) : List Op → S → Res (List Out × S)
  | [], s => .ok ([], s)
  | op :: ops, s => do
    let (o, s) ← stp op s
    let (os, s) ← runAll stp ops s
    .ok (o :: os, s)

/-- stack.go:54, queue.go:54: the default container `deque.New`. -/
def dequeContainer (cfg : Deque.Cfg T) : Container (Deque.Deq T) T where
  pushBack := Deque.pushBack cfg
  front := Deque.front
  back := Deque.back
  popFront := Deque.popFront cfg
  popBack := Deque.popBack cfg
  empty d := .ok (Deque.empty d)
  size d := .ok (Deque.size d)
  clear := Deque.clear cfg

/-- stack.go:40-44, queue.go:41-45 `WithListContainer`: list number `l` of a world of lists. -/
def listContainer (l : Nat) : Container (BidList.World T) T where
  pushBack w v := BidList.pushBack w l v
  front w := BidList.front w l
  back w := BidList.back w l
  popFront w := BidList.popFront w l
  popBack w := BidList.popBack w l
  empty w := BidList.empty w l
  size w := BidList.len w l
  clear w := BidList.clear w l

end GoSTL.Adapter
