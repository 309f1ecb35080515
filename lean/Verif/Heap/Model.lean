import Verif.Basic.Res
import Verif.Algo.Swap
/-!
# Model of `ds/heap/heap.go` and `ds/priorityqueue/priority_queue.go`

The collection behind `heap.Interface` is a list of elements with a comparator, as in priority_queue.go:16-56 `ElementHolder`; any
implementation of the interface whose methods act like this is covered. Positions are integers of any size; `Heap/Machine` has
the functions with Go's `int`, where `2*i+1` can wrap around. Not modelled here: the lock (see `Verif/Conc`).
-/
namespace GoSTL.Heap
open GoSTL.Seq GoSTL.Algo
variable {T : Type}

/-- priority_queue.go:49-51 `Less`; reading outside the slice panics. -/
def lessAt (cmp : T → T → Int) (h : List T) (i j : Int) : Res Bool := do
  let x ← Res.ofOption (at? h i)
  let y ← Res.ofOption (at? h j)
  .ok (decide (cmp x y < 0))

/-- priority_queue.go:54-56 `Swap`. -/
def swapAt (h : List T) (i j : Int) : Res (List T) := do
  let _ ← Res.ofOption (at? h i)
  let _ ← Res.ofOption (at? h j)
  .ok (lswap h i j)

/-- priority_queue.go:27-34 `ElementHolder.Pop`. -/
def holderPop (h : List T) : Res (T × List T) :=
  match h.getLast? with
  | none => .panic
  | some x => .ok (x, h.dropLast)

/-- heap.go:82-91 `up`, with a step budget. Go's division truncates. -/
def upLoop (cmp : T → T → Int) : Nat → List T → Int → Res (List T)
  | 0, _, _ => .outOfFuel
  | f + 1, h, j => do
    let i := (j - 1).tdiv 2
    if i = j then .ok h else do
      let b ← lessAt cmp h j i
      if !b then .ok h else do
        let h ← swapAt h i j
        upLoop cmp f h i

/-- heap.go:100-103: the child of `i` the element is compared with; `j1` is the left one. -/
def child (cmp : T → T → Int) (h : List T) (n j1 : Int) : Res Int :=
  if j1 + 1 < n then do
    let b ← lessAt cmp h (j1 + 1) j1
    .ok (if b then j1 + 1 else j1)
  else .ok j1

/-- heap.go:93-111 `down` from position `i`, with a step budget; returns the final position. -/
def downLoop (cmp : T → T → Int) (n : Int) : Nat → List T → Int → Res (Int × List T)
  | 0, _, _ => .outOfFuel
  | f + 1, h, i => do
    let j1 := 2 * i + 1
    if j1 ≥ n ∨ j1 < 0 then .ok (i, h) else do
      let j ← child cmp h n j1
      let b ← lessAt cmp h j i
      if !b then .ok (i, h) else do
        let h ← swapAt h i j
        downLoop cmp n f h j

/-- heap.go:82-91; the budget is never used up (`up_spec`). -/
def up (cmp : T → T → Int) (h : List T) (j : Int) : Res (List T) := upLoop cmp (h.length + 1) h j

/-- heap.go:93-111; the budget is never used up (`down_spec`). -/
def down (cmp : T → T → Int) (h : List T) (i0 n : Int) : Res (Bool × List T) := do
  let (i, h) ← downLoop cmp n (h.length + 1) h i0
  .ok (decide (i > i0), h)

/-- heap.go:34-40 `Init`: the loop from position `i` down to 0. -/
def initLoop (cmp : T → T → Int) (n : Int) : Nat → List T → Res (List T)
  | 0, h => .ok h
  | i + 1, h => do
    let (_, h) ← down cmp h i n
    initLoop cmp n i h

/-- heap.go:34-40 `Init`. (`n/2` is the number of rounds: `i` runs from `n/2 - 1` to 0.) -/
def init (cmp : T → T → Int) (h : List T) : Res (List T) := initLoop cmp h.length (h.length / 2) h

/-- heap.go:44-47 `Push`. -/
def push (cmp : T → T → Int) (h : List T) (x : T) : Res (List T) :=
  let h := h ++ [x]
  up cmp h (h.length - 1)

/-- heap.go:52-57 `Pop`. -/
def pop (cmp : T → T → Int) (h : List T) : Res (T × List T) := do
  let n : Int := h.length - 1
  let h ← swapAt h 0 n
  let (_, h) ← down cmp h 0 n
  holderPop h

/-- heap.go:61-70 `Remove`. -/
def remove (cmp : T → T → Int) (h : List T) (i : Int) : Res (T × List T) :=
  let n : Int := h.length - 1
  if n ≠ i then do
    let h ← swapAt h i n
    let (b, h) ← down cmp h i n
    if !b then do
      let h ← up cmp h i
      holderPop h
    else holderPop h
  else holderPop h

/-- heap.go:76-80 `Fix`. -/
def fix (cmp : T → T → Int) (h : List T) (i : Int) : Res (List T) := do
  let (b, h) ← down cmp h i h.length
  if !b then up cmp h i else .ok h

/-! ## priority_queue.go -/

/-- The calls of priority_queue.go:98-144. -/
inductive Op (T : Type)
  | push (x : T)
  | pop
  | top
  | empty
  | size
  | clear

/-- What they return. -/
inductive Out (T : Type)
  | unit
  | val (x : T)
  | bool (b : Bool)
  | int (n : Int)

/-- priority_queue.go:98-144. -/
def step (cmp : T → T → Int) (op : Op T) (h : List T) : Res (Out T × List T) :=
  match op with
  | .push x => do let h ← push cmp h x; .ok (.unit, h)
  | .pop => do let (x, h) ← pop cmp h; .ok (.val x, h)
  | .top => match h with
    | [] => .panic
    | x :: _ => .ok (.val x, h)
  | .empty => .ok (.bool (decide (h.length = 0)), h)
  | .size => .ok (.int h.length, h)
  | .clear => .ok (.unit, [])

/-- A history on a new queue (priority_queue.go:80-95 `New`). -/
def run (cmp : T → T → Int) : List (Op T) → List T → Res (List (Out T) × List T)
  | [], h => .ok ([], h)
  | op :: ops, h => do
    let (o, h) ← step cmp op h
    let (os, h) ← run cmp ops h
    .ok (o :: os, h)

end GoSTL.Heap
