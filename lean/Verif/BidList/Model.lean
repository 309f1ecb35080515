import Verif.Basic.Res
/-!
# Model of `ds/list/bidlist/list.go` and `ds/list/bidlist/iterator.go`

A program state holds all nodes ever allocated (`nodes`, node handles are indices) and any number of lists (`lists`). Nodes
point to nodes and carry the pointer to the list they believe to be in. A handle or list number that does not exist stands
for a nil pointer: using it panics. Not modelled: `String`; `Size` is the same code as `Len`.
-/
namespace GoSTL.BidList

variable {T : Type}

/-- list.go:19-24 `Node`. -/
structure Node (T : Type) where
  prev : Option Nat
  next : Option Nat
  value : T
  list : Option Nat

/-- list.go:53-56 `List`. -/
structure Lst where
  head : Option Nat
  len : Int

/-- The memory: all nodes and all lists ever made; pointers are indices. -/
structure World (T : Type) where
  nodes : List (Node T)
  lists : List Lst

/-- Dereferencing a node pointer. -/
def node (w : World T) (n : Nat) : Res (Node T) := Res.ofOption w.nodes[n]?
/-- Dereferencing a list pointer. -/
def lst (w : World T) (l : Nat) : Res Lst := Res.ofOption w.lists[l]?
/-- Writing through a node pointer. -/
def modNode (w : World T) (n : Nat) (f : Node T → Node T) : Res (World T) := do
  let nd ← node w n
  .ok { w with nodes := w.nodes.set n (f nd) }
/-- Writing through a list pointer. -/
def modLst (w : World T) (l : Nat) (f : Lst → Lst) : Res (World T) := do
  let x ← lst w l
  .ok { w with lists := w.lists.set l (f x) }

/-- `n.next = p` (list.go:12-24 for the fields). -/
def setNext (w : World T) (n : Nat) (p : Option Nat) : Res (World T) := modNode w n fun nd => { nd with next := p }
/-- `n.prev = p`. -/
def setPrev (w : World T) (n : Nat) (p : Option Nat) : Res (World T) := modNode w n fun nd => { nd with prev := p }
/-- `l.head = p` (list.go:53-56). -/
def setHead (w : World T) (l : Nat) (p : Option Nat) : Res (World T) := modLst w l fun x => { x with head := p }
/-- `l.len++`, `l.len--`, `l.len = 0`. -/
def setLen (w : World T) (l : Nat) (f : Int → Int) : Res (World T) := modLst w l fun x => { x with len := f x.len }

/-- list.go:59-62 `New`. -/
def newList (w : World T) : World T := { w with lists := w.lists ++ [{ head := none, len := 0 }] }

/-- Allocation `&Node[T]{Value: v, list: l}` (list.go:115, 139, 149). -/
def alloc (w : World T) (v : T) (l : Nat) : Nat × World T :=
  (w.nodes.length, { w with nodes := w.nodes ++ [{ prev := none, next := none, value := v, list := some l }] })

/-- list.go:27-35 `Node.Next`. -/
def next (w : World T) (n : Nat) : Res (Option Nat) := do
  let nd ← node w n
  match nd.list with
  | none => .ok none
  | some l => do
    let x ← lst w l
    if nd.next = x.head then .ok none else .ok nd.next

/-- list.go:38-46 `Node.Prev`. -/
def prev (w : World T) (n : Nat) : Res (Option Nat) := do
  let nd ← node w n
  match nd.list with
  | none => .ok none
  | some l => do
    let x ← lst w l
    if some n = x.head then .ok none else .ok nd.prev

/-- list.go:65-72 `Len`, `Size`. -/
def len (w : World T) (l : Nat) : Res Int := do let x ← lst w l; .ok x.len
/-- list.go:75-77 `Empty`. -/
def empty (w : World T) (l : Nat) : Res Bool := do let x ← lst w l; .ok (decide (x.len = 0))
/-- list.go:80-82 `FrontNode`. -/
def frontNode (w : World T) (l : Nat) : Res (Option Nat) := do let x ← lst w l; .ok x.head
/-- list.go:85-90 `BackNode`. -/
def backNode (w : World T) (l : Nat) : Res (Option Nat) := do
  let x ← lst w l
  match x.head with
  | none => .ok none
  | some h => do let nd ← node w h; .ok nd.prev

/-- list.go:93-98 `Front`. -/
def front (w : World T) (l : Nat) : Res T := do
  let x ← lst w l
  if x.len = 0 then .panic else do
  let h ← Res.ofOption x.head
  let nd ← node w h
  .ok nd.value

/-- list.go:101-106 `Back`. -/
def back (w : World T) (l : Nat) : Res T := do
  let x ← lst w l
  if x.len = 0 then .panic else do
  let h ← Res.ofOption x.head
  let nd ← node w h
  let p ← Res.ofOption nd.prev
  let nd ← node w p
  .ok nd.value

/-- list.go:157-160, the four pointer writes of `insertAfter`, and the same four at list.go:262-265. -/
def link (w : World T) (n a : Nat) : Res (World T) := do
  let na ← node w a
  let w ← setNext w n na.next
  let w ← setPrev w n (some a)
  let na ← node w a
  let x ← Res.ofOption na.next
  let w ← setPrev w x (some n)
  setNext w a (some n)

/-- list.go:156-163 `insertAfter`. -/
def insertAfter_ (w : World T) (l : Nat) (n a : Nat) : Res (World T) := do
  let w ← link w n a
  setLen w l (· + 1)

/-- list.go:114-124 `pushBack`; returns the new node. -/
def pushBack_ (w : World T) (l : Nat) (v : T) : Res (Nat × World T) := do
  let (n, w) := alloc w v l
  let x ← lst w l
  if x.len = 0 then do
    let w ← setPrev w n (some n)
    let w ← setNext w n (some n)
    let w ← setHead w l (some n)
    let w ← setLen w l (· + 1)
    .ok (n, w)
  else do
    let h ← Res.ofOption x.head
    let nd ← node w h
    let p ← Res.ofOption nd.prev
    let w ← insertAfter_ w l n p
    .ok (n, w)

/-- list.go:109-111 `PushBack`. -/
def pushBack (w : World T) (l : Nat) (v : T) : Res (World T) := do let (_, w) ← pushBack_ w l v; .ok w

/-- list.go:127-130 `PushFront`. -/
def pushFront (w : World T) (l : Nat) (v : T) : Res (World T) := do
  let (n, w) ← pushBack_ w l v
  setHead w l (some n)

/-- list.go:135-140 `InsertAfter`. -/
def insertAfter (w : World T) (l : Nat) (v : T) (mark : Nat) : Res (Option Nat × World T) := do
  let m ← node w mark
  if m.list ≠ some l then .ok (none, w) else do
  let (n, w) := alloc w v l
  let w ← insertAfter_ w l n mark
  .ok (some n, w)

/-- list.go:145-154 `InsertBefore`. -/
def insertBefore (w : World T) (l : Nat) (v : T) (mark : Nat) : Res (Option Nat × World T) := do
  let m ← node w mark
  if m.list ≠ some l then .ok (none, w) else do
  let (n, w) := alloc w v l
  let m ← node w mark
  let p ← Res.ofOption m.prev
  let w ← insertAfter_ w l n p
  let x ← lst w l
  if x.head = some mark then do
    let w ← setHead w l (some n)
    .ok (some n, w)
  else .ok (some n, w)

/-- list.go:179-180 (and 260-261), the two writes that take `n` out of its ring. -/
def unlink (w : World T) (n : Nat) : Res (World T) := do
  let nd ← node w n
  let p ← Res.ofOption nd.prev
  let w ← setNext w p nd.next
  let nd ← node w n
  let x ← Res.ofOption nd.next
  setPrev w x nd.prev

/-- list.go:175-189 `remove`. -/
def remove_ (w : World T) (l : Nat) (n : Nat) : Res (World T) := do
  let x ← lst w l
  let w ← if some n = x.head then do
      let nd ← node w n
      setHead w l nd.next
    else .ok w
  let w ← unlink w n
  let w ← modNode w n fun nd => { nd with next := none, prev := none, list := none }
  let w ← setLen w l (· - 1)
  let x ← lst w l
  if x.len = 0 then setHead w l none else .ok w

/-- list.go:168-173 `Remove`. -/
def remove (w : World T) (l : Nat) (n : Nat) : Res (T × World T) := do
  let nd ← node w n
  let w ← if nd.list = some l then remove_ w l n else .ok w
  let nd ← node w n
  .ok (nd.value, w)

/-- list.go:192-195 `Clear`. -/
def clear (w : World T) (l : Nat) : Res (World T) := modLst w l fun _ => { head := none, len := 0 }

/-- list.go:198-204 `PopBack`. -/
def popBack (w : World T) (l : Nat) : Res (T × World T) := do
  let o ← backNode w l
  match o with
  | some n => remove w l n
  | none => .panic

/-- list.go:207-213 `PopFront`. -/
def popFront (w : World T) (l : Nat) : Res (T × World T) := do
  let o ← frontNode w l
  match o with
  | some n => remove w l n
  | none => .panic

/-- list.go:253-266 `moveToAfter`. -/
def moveToAfter (w : World T) (l : Nat) (n a : Nat) : Res (World T) := do
  let na ← node w a
  if some n = na.next ∨ n = a then .ok w else do
  let x ← lst w l
  let w ← if some n = x.head then do
      let nd ← node w n
      setHead w l nd.next
    else .ok w
  let w ← unlink w n
  link w n a

/-- list.go:218-226 `MoveToFront`. -/
def moveToFront (w : World T) (l : Nat) (n : Nat) : Res (World T) := do
  let nd ← node w n
  if nd.list ≠ some l then .ok w else do
  let x ← lst w l
  if x.head ≠ some n then do
    let h ← Res.ofOption x.head
    let hd ← node w h
    let p ← Res.ofOption hd.prev
    let w ← moveToAfter w l n p
    setHead w l (some n)
  else .ok w

/-- list.go:231-241 `MoveToBack`. -/
def moveToBack (w : World T) (l : Nat) (n : Nat) : Res (World T) := do
  let nd ← node w n
  if nd.list ≠ some l then .ok w else do
  let x ← lst w l
  let h ← Res.ofOption x.head
  let hd ← node w h
  if hd.prev ≠ some n then do
    let w ← if h = n then setHead w l nd.next else .ok w
    let x ← lst w l
    let h ← Res.ofOption x.head
    let hd ← node w h
    let p ← Res.ofOption hd.prev
    moveToAfter w l n p
  else .ok w

/-- list.go:246-251 `MoveAfter`. -/
def moveAfter (w : World T) (l : Nat) (n mark : Nat) : Res (World T) := do
  let nd ← node w n
  if nd.list ≠ some l then .ok w else
  if n = mark then .ok w else do
  let md ← node w mark
  if md.list ≠ some l then .ok w else moveToAfter w l n mark

/-- list.go:270-274 `PushBackList`: `i` rounds from `n`. -/
def pushBackListLoop (l : Nat) : Nat → Option Nat → World T → Res (World T)
  | 0, _, w => .ok w
  | i + 1, n, w => do
    let n ← Res.ofOption n
    let nd ← node w n
    let x ← lst w l
    let h ← Res.ofOption x.head
    let hd ← node w h
    let p ← Res.ofOption hd.prev
    let (_, w) ← insertAfter w l nd.value p
    let n ← next w n
    pushBackListLoop l i n w

/-- list.go:270-275 `PushBackList`: the rounds are counted by the length of `other` before the loop. -/
def pushBackList (w : World T) (l other : Nat) : Res (World T) := do
  let k ← len w other
  let f ← frontNode w other
  pushBackListLoop l k.toNat f w

/-- list.go:278-282 `PushFrontList`: `i` rounds from `e`. -/
def pushFrontListLoop (l : Nat) : Nat → Option Nat → World T → Res (World T)
  | 0, _, w => .ok w
  | i + 1, e, w => do
    let e ← Res.ofOption e
    let ed ← node w e
    let x ← lst w l
    let h ← Res.ofOption x.head
    let (_, w) ← insertBefore w l ed.value h
    let e ← prev w e
    pushFrontListLoop l i e w

/-- list.go:278-282 `PushFrontList`. -/
def pushFrontList (w : World T) (l other : Nat) : Res (World T) := do
  let k ← len w other
  let b ← backNode w other
  pushFrontListLoop l k.toNat b w

/-- ds/list/bidlist/iterator.go:42-47 `Value`, 50-54 `SetValue` (and the public field `Node.Value`). -/
def value (w : World T) (n : Nat) : Res T := do let nd ← node w n; .ok nd.value
/-- ds/list/bidlist/iterator.go:50-54 `SetValue` (and writing the public field `Node.Value`). -/
def setValue (w : World T) (n : Nat) (v : T) : Res (World T) := modNode w n fun nd => { nd with value := v }

/-- list.go:298-304 `Traversal` with a visitor that says whether to go on; the visited values. -/
def traversal (visitor : T → Bool) (w : World T) : Nat → Option Nat → Res (List T)
  | 0, _ => .outOfFuel
  | _ + 1, none => .ok []
  | f + 1, some n => do
    let nd ← node w n
    if visitor nd.value then do
      let m ← next w n
      let xs ← traversal visitor w f m
      .ok (nd.value :: xs)
    else .ok [nd.value]

/-! ## All calls as one step -/

/-- The calls of list.go:59-304 and node.Next, node.Prev (list.go:27-50); lists and nodes are named by their pointers. -/
inductive Op (T : Type)
  | newList
  | pushBack (l : Nat) (v : T)
  | pushFront (l : Nat) (v : T)
  | insertAfter (l : Nat) (v : T) (mark : Nat)
  | insertBefore (l : Nat) (v : T) (mark : Nat)
  | remove (l n : Nat)
  | popBack (l : Nat)
  | popFront (l : Nat)
  | moveToFront (l n : Nat)
  | moveToBack (l n : Nat)
  | moveAfter (l n mark : Nat)
  | pushBackList (l other : Nat)
  | pushFrontList (l other : Nat)
  | clear (l : Nat)
  | setValue (n : Nat) (v : T)
  | value (n : Nat)
  | next (n : Nat)
  | prev (n : Nat)
  | frontNode (l : Nat)
  | backNode (l : Nat)
  | front (l : Nat)
  | back (l : Nat)
  | len (l : Nat)
  | empty (l : Nat)

/-- What a call returns; `node` is a handle or nil. -/
inductive Out (T : Type)
  | unit
  | val (x : T)
  | int (n : Int)
  | bool (b : Bool)
  | node (n : Option Nat)

/-- Each call as modelled above. -/
def step (op : Op T) (w : World T) : Res (Out T × World T) :=
  match op with
  | .newList => .ok (.unit, newList w)
  | .pushBack l v => do let w ← pushBack w l v; .ok (.unit, w)
  | .pushFront l v => do let w ← pushFront w l v; .ok (.unit, w)
  | .insertAfter l v m => do let (o, w) ← insertAfter w l v m; .ok (.node o, w)
  | .insertBefore l v m => do let (o, w) ← insertBefore w l v m; .ok (.node o, w)
  | .remove l n => do let (x, w) ← remove w l n; .ok (.val x, w)
  | .popBack l => do let (x, w) ← popBack w l; .ok (.val x, w)
  | .popFront l => do let (x, w) ← popFront w l; .ok (.val x, w)
  | .moveToFront l n => do let w ← moveToFront w l n; .ok (.unit, w)
  | .moveToBack l n => do let w ← moveToBack w l n; .ok (.unit, w)
  | .moveAfter l n m => do let w ← moveAfter w l n m; .ok (.unit, w)
  | .pushBackList l o => do let w ← pushBackList w l o; .ok (.unit, w)
  | .pushFrontList l o => do let w ← pushFrontList w l o; .ok (.unit, w)
  | .clear l => do let w ← clear w l; .ok (.unit, w)
  | .setValue n v => do let w ← setValue w n v; .ok (.unit, w)
  | .value n => do let x ← value w n; .ok (.val x, w)
  | .next n => do let x ← next w n; .ok (.node x, w)
  | .prev n => do let x ← prev w n; .ok (.node x, w)
  | .frontNode l => do let x ← frontNode w l; .ok (.node x, w)
  | .backNode l => do let x ← backNode w l; .ok (.node x, w)
  | .front l => do let x ← front w l; .ok (.val x, w)
  | .back l => do let x ← back w l; .ok (.val x, w)
  | .len l => do let x ← len w l; .ok (.int x, w)
  | .empty l => do let x ← empty w l; .ok (.bool x, w)

/-- A history of calls. -/
def run : List (Op T) → World T → Res (List (Out T) × World T)
  | [], w => .ok ([], w)
  | op :: ops, w => do
    let (o, w) ← step op w
    let (os, w) ← run ops w
    .ok (o :: os, w)

/-- The program state before any call. -/
def start : World T := { nodes := [], lists := [] }

end GoSTL.BidList
