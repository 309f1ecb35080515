import Verif.Basic.Res
/-!
# Model of `ds/list/simplelist/simplelist.go` and `iterator.go`

A state holds all nodes ever allocated (`nodes`; handles are indices) and the list's three fields. Not modelled: `String`.
-/
namespace GoSTL.SimpleList
variable {T : Type}

/-- simplelist.go:9-12 `Node`. -/
structure Node (T : Type) where
  next : Option Nat
  value : T

/-- simplelist.go:23-27 `List`, with the heap of nodes. -/
structure World (T : Type) where
  nodes : List (Node T)
  head : Option Nat
  tail : Option Nat
  len : Int

/-- simplelist.go:30-33 `New`. -/
def new : World T := { nodes := [], head := none, tail := none, len := 0 }

/-- Dereferencing a node pointer. -/
def node (w : World T) (n : Nat) : Res (Node T) := Res.ofOption w.nodes[n]?
/-- `n.next = p`. -/
def setNext (w : World T) (n : Nat) (p : Option Nat) : Res (World T) := do
  let nd ← node w n
  .ok { w with nodes := w.nodes.set n { nd with next := p } }
/-- `&Node[T]{Value: v}` (simplelist.go:52, 65, 80). -/
def alloc (w : World T) (v : T) : Nat × World T :=
  (w.nodes.length, { w with nodes := w.nodes ++ [{ next := none, value := v }] })

/-- simplelist.go:15-17 `Next`. -/
def next (w : World T) (n : Nat) : Res (Option Nat) := do let nd ← node w n; .ok nd.next

/-- simplelist.go:51-61 `PushFront`. -/
def pushFront (w : World T) (v : T) : Res (World T) := do
  let (n, w) := alloc w v
  let w ← if w.len = 0 then .ok { w with head := some n, tail := some n } else do
    let w ← setNext w n w.head
    .ok { w with head := some n }
  .ok { w with len := w.len + 1 }

/-- simplelist.go:64-74 `PushBack`. -/
def pushBack (w : World T) (v : T) : Res (World T) := do
  let (n, w) := alloc w v
  let w ← if w.len = 0 then .ok { w with head := some n, tail := some n } else do
    let t ← Res.ofOption w.tail
    let w ← setNext w t (some n)
    .ok { w with tail := some n }
  .ok { w with len := w.len + 1 }

/-- simplelist.go:79-91 `InsertAfter` and `insertAfter`; returns the new node. (The mark is read before the
allocation, so that a handle that does not exist yet stands for nil.) -/
def insertAfter (w : World T) (v : T) (at_ : Nat) : Res (Nat × World T) := do
  let a ← node w at_
  let (n, w) := alloc w v
  let w ← setNext w n a.next
  let w ← setNext w at_ (some n)
  let nd ← node w n
  let w := if nd.next = none then { w with tail := some n } else w
  .ok (n, { w with len := w.len + 1 })

/-- simplelist.go:95-112 `Remove`; `none` is a nil argument, the result is the zero value then. -/
def remove (zero : T) (w : World T) (pre n : Option Nat) : Res (T × World T) :=
  match n with
  | none => .ok (zero, w)
  | some n => do
    let nd ← node w n
    let w ← match pre with
      | none => .ok { w with head := nd.next, tail := if nd.next = none then none else w.tail }
      | some p => do
        let w ← setNext w p nd.next
        let pd ← node w p
        .ok { w with tail := if pd.next = none then some p else w.tail }
    let w := { w with len := w.len - 1 }
    let nd ← node w n
    .ok (nd.value, w)

/-- simplelist.go:116-126 `MoveToFront`. -/
def moveToFront (w : World T) (pre n : Option Nat) : Res (World T) :=
  match pre with
  | none => .ok w
  | some p => do
    let pd ← node w p
    if pd.next ≠ n then .ok w else
    match n with
    | none => .ok w
    | some n =>
      if w.len ≤ 1 then .ok w else do
      let nd ← node w n
      let w ← setNext w p nd.next
      let pd ← node w p
      let w := { w with tail := if pd.next = none then some p else w.tail }
      let w ← setNext w n w.head
      .ok { w with head := some n }

/-- simplelist.go:130-142 `MoveToBack`. -/
def moveToBack (w : World T) (pre n : Option Nat) : Res (World T) :=
  match n with
  | none => .ok w
  | some n => do
    let nd ← node w n
    if nd.next = none then .ok w else
    if w.len ≤ 1 then .ok w else do
    let w ← match pre with
      | none => .ok { w with head := nd.next }
      | some p => setNext w p nd.next
    let t ← Res.ofOption w.tail
    let w ← setNext w t (some n)
    let w := { w with tail := some n }
    setNext w n none

/-- The public field `Value` of a node; ds/list/simplelist/iterator.go:32-44 `Value`, `SetValue`. -/
def value (w : World T) (n : Nat) : Res T := do let nd ← node w n; .ok nd.value
/-- ds/list/simplelist/iterator.go:40-44 `SetValue` (and writing the public field `Node.Value`). -/
def setValue (w : World T) (n : Nat) (v : T) : Res (World T) := do
  let nd ← node w n
  .ok { w with nodes := w.nodes.set n { nd with value := v } }

/-- simplelist.go:158-164 `Traversal` with a visitor that says whether to go on; the visited values. -/
def traversal (visitor : T → Bool) (w : World T) : Nat → Option Nat → Res (List T)
  | 0, _ => .outOfFuel
  | _ + 1, none => .ok []
  | f + 1, some n => do
    let nd ← node w n
    if visitor nd.value then do
      let m ← next w n
      let xs ← traversal visitor w f m
      .ok (nd.value :: xs)
    else .ok [nd.value]

/-! ## All calls as one step -/

/-- The calls of simplelist.go:36-142 and node.Next (15-20); nodes are named by their pointers. -/
inductive Op (T : Type)
  | pushFront (v : T)
  | pushBack (v : T)
  | insertAfter (v : T) (mark : Nat)
  | remove (pre n : Option Nat)
  | moveToFront (pre n : Option Nat)
  | moveToBack (pre n : Option Nat)
  | setValue (n : Nat) (v : T)
  | value (n : Nat)
  | next (n : Nat)
  | frontNode
  | backNode
  | len

/-- What they return. -/
inductive Out (T : Type)
  | unit
  | val (x : T)
  | int (n : Int)
  | node (n : Option Nat)

/-- `FrontNode` (simplelist.go:41-43), `BackNode` (46-48) and `Len` (36-38) are the fields. -/
def step (zero : T) (op : Op T) (w : World T) : Res (Out T × World T) :=
  match op with
  | .pushFront v => do let w ← pushFront w v; .ok (.unit, w)
  | .pushBack v => do let w ← pushBack w v; .ok (.unit, w)
  | .insertAfter v m => do let (n, w) ← insertAfter w v m; .ok (.node (some n), w)
  | .remove p n => do let (x, w) ← remove zero w p n; .ok (.val x, w)
  | .moveToFront p n => do let w ← moveToFront w p n; .ok (.unit, w)
  | .moveToBack p n => do let w ← moveToBack w p n; .ok (.unit, w)
  | .setValue n v => do let w ← setValue w n v; .ok (.unit, w)
  | .value n => do let x ← value w n; .ok (.val x, w)
  | .next n => do let m ← next w n; .ok (.node m, w)
  | .frontNode => .ok (.node w.head, w)
  | .backNode => .ok (.node w.tail, w)
  | .len => .ok (.int w.len, w)

/-- A program. -/
def run (zero : T) : List (Op T) → World T → Res (List (Out T) × World T)
  | [], w => .ok ([], w)
  | op :: ops, w => do
    let (o, w) ← step zero op w
    let (os, w) ← run zero ops w
    .ok (o :: os, w)

end GoSTL.SimpleList
