import Verif.Basic.Res
import Verif.Basic.Cmp
/-!
# Pointer-level model of `ds/rbtree`

Nodes live in a heap indexed by ids (`*Node` is `Option Id`, `none` is nil). Every Go statement that dereferences a
pointer is a heap read that panics on nil; every assignment through a pointer is a heap update. Loops carry a step
budget. The comparator is a parameter. Simplifications: garbage collection is not modelled (unlinked nodes stay in the
heap, as they do in Go while somebody still points to them); `int` sizes are unbounded.
-/
namespace GoSTL.RB

/-- A node pointer that is not nil (ds/rbtree/node.go:12-20). -/
abbrev Id := Nat

/-- ds/rbtree/node.go:12-20 `Node` (`color` is `true` for BLACK, node.go:6-10). -/
structure Node (K V : Type) where
  parent : Option Id
  left : Option Id
  right : Option Id
  black : Bool
  key : K
  value : V

/-- ds/rbtree/rbtree.go:17-21 `RbTree`, together with the heap its nodes live in; `next` is the next unused id. -/
structure Tree (K V : Type) where
  heap : Id → Option (Node K V)
  root : Option Id
  size : Int
  next : Id

variable {K V : Type}

namespace Tree

/-- ds/rbtree/rbtree.go:24-26 `New`. -/
def new : Tree K V := { heap := fun _ => none, root := none, size := 0, next := 0 }

/-- ds/rbtree/rbtree.go:29-32 `Clear`. -/
def clear (t : Tree K V) : Tree K V := { t with root := none, size := 0 }

/-- Reading the node a non-nil pointer points to (a Go pointer dereference). -/
def node (t : Tree K V) (i : Id) : Res (Node K V) := Res.ofOption (t.heap i)

/-- Assigning to fields of the node with id `i`. -/
def modify (t : Tree K V) (i : Id) (f : Node K V → Node K V) : Tree K V :=
  { t with heap := fun j => if j = i then (t.heap i).map f else t.heap j }

/-- `n.parent = p` (ds/rbtree/node.go:14). -/
def setParent (t : Tree K V) (i : Id) (p : Option Id) : Tree K V := t.modify i fun n => { n with parent := p }
/-- `n.left = p` (ds/rbtree/node.go:15). -/
def setLeft (t : Tree K V) (i : Id) (p : Option Id) : Tree K V := t.modify i fun n => { n with left := p }
/-- `n.right = p` (ds/rbtree/node.go:16). -/
def setRight (t : Tree K V) (i : Id) (p : Option Id) : Tree K V := t.modify i fun n => { n with right := p }
/-- `n.color = BLACK` or `RED` (ds/rbtree/node.go:17). -/
def setBlack (t : Tree K V) (i : Id) (b : Bool) : Tree K V := t.modify i fun n => { n with black := b }
/-- ds/rbtree/node.go:33-35 `SetValue`. -/
def setValue (t : Tree K V) (i : Id) (v : V) : Tree K V := t.modify i fun n => { n with value := v }
/-- `n.key, n.value = k, v`: what `Delete` copies (ds/rbtree/rbtree.go:200-203). -/
def setKV (t : Tree K V) (i : Id) (k : K) (v : V) : Tree K V := t.modify i fun n => { n with key := k, value := v }

/-- ds/rbtree/rbtree.go:460-465 `getColor` (`true` = BLACK; nil is BLACK). -/
def getColor (t : Tree K V) : Option Id → Res Bool
  | none => .ok true
  | some i => do let n ← t.node i; pure n.black

/-- Step budget of the loops below: at least the number of nodes ever allocated. -/
def fuel (t : Tree K V) : Nat := t.next + 2

/-- ds/rbtree/node.go:78-83 `minimum` (loop with budget). -/
def minimumLoop (t : Tree K V) : Nat → Id → Res Id
  | 0, _ => .outOfFuel
  | f + 1, n => do
    let nn ← t.node n
    match nn.left with
    | none => pure n
    | some l => minimumLoop t f l

/-- ds/rbtree/node.go:86-91 `maximum` (loop with budget). -/
def maximumLoop (t : Tree K V) : Nat → Id → Res Id
  | 0, _ => .outOfFuel
  | f + 1, n => do
    let nn ← t.node n
    match nn.right with
    | none => pure n
    | some r => maximumLoop t f r

/-- ds/rbtree/node.go:52-57, the climbing loop of `successor`: `y := x.parent; for y != nil && x == y.right {...}`. -/
def succClimb (t : Tree K V) : Nat → Id → Option Id → Res (Option Id)
  | 0, _, _ => .outOfFuel
  | f + 1, x, y =>
    match y with
    | none => pure none
    | some yi => do
      let yn ← t.node yi
      if yn.right = some x then succClimb t f yi yn.parent else pure (some yi)

/-- ds/rbtree/node.go:48-58 `successor`, with `B` rounds for its loop. -/
def successorB (B : Nat) (t : Tree K V) (x : Id) : Res (Option Id) := do
  let xn ← t.node x
  match xn.right with
  | some r => do let m ← t.minimumLoop B r; pure (some m)
  | none => t.succClimb B x xn.parent

/-- ds/rbtree/node.go:48-58 `successor`. -/
def successor (t : Tree K V) (x : Id) : Res (Option Id) := successorB t.fuel t x

/-- ds/rbtree/node.go:69-72, the climbing loop of `presuccessor`:
`for x.parent != nil && x.parent.left == x { x = x.parent }; return x.parent`. -/
def predClimb (t : Tree K V) : Nat → Id → Res (Option Id)
  | 0, _ => .outOfFuel
  | f + 1, x => do
    let xn ← t.node x
    match xn.parent with
    | none => pure none
    | some p => do
      let pn ← t.node p
      if pn.left = some x then predClimb t f p else pure (some p)

/-- ds/rbtree/node.go:61-75 `presuccessor`, with `B` rounds for its loop. -/
def presuccessorB (B : Nat) (t : Tree K V) (x : Id) : Res (Option Id) := do
  let xn ← t.node x
  match xn.left with
  | some l => do let m ← t.maximumLoop B l; pure (some m)
  | none =>
    match xn.parent with
    | none => pure none
    | some p => do
      let pn ← t.node p
      if pn.right = some x then pure (some p) else t.predClimb B x

/-- ds/rbtree/node.go:61-75 `presuccessor`. -/
def presuccessor (t : Tree K V) (x : Id) : Res (Option Id) := presuccessorB t.fuel t x

/-- ds/rbtree/rbtree.go:59-64 `First` (also `Begin`, 54-56). -/
def first (t : Tree K V) : Res (Option Id) :=
  match t.root with
  | none => pure none
  | some r => do let m ← t.minimumLoop t.fuel r; pure (some m)

/-- ds/rbtree/rbtree.go:72-77 `Last` (also `RBegin`, 67-69). -/
def last (t : Tree K V) : Res (Option Id) :=
  match t.root with
  | none => pure none
  | some r => do let m ← t.maximumLoop t.fuel r; pure (some m)

/-- ds/rbtree/rbtree.go:290-306 `leftRotate`. -/
def leftRotate (t : Tree K V) (x : Id) : Res (Tree K V) := do
  let xn ← t.node x
  let y ← Res.ofOption xn.right
  let yn ← t.node y
  let t := t.setRight x yn.left
  let t := match yn.left with
    | some b => t.setParent b (some x)
    | none => t
  let xn ← t.node x
  let t := t.setParent y xn.parent
  let t ← match xn.parent with
    | none => pure { t with root := some y }
    | some p => do
      let pn ← t.node p
      if pn.left = some x then pure (t.setLeft p (some y)) else pure (t.setRight p (some y))
  let t := t.setLeft y (some x)
  pure (t.setParent x (some y))

/-- ds/rbtree/rbtree.go:308-324 `rightRotate`. -/
def rightRotate (t : Tree K V) (x : Id) : Res (Tree K V) := do
  let xn ← t.node x
  let y ← Res.ofOption xn.left
  let yn ← t.node y
  let t := t.setLeft x yn.right
  let t := match yn.right with
    | some b => t.setParent b (some x)
    | none => t
  let xn ← t.node x
  let t := t.setParent y xn.parent
  let t ← match xn.parent with
    | none => pure { t with root := some y }
    | some p => do
      let pn ← t.node p
      if pn.right = some x then pure (t.setRight p (some y)) else pure (t.setLeft p (some y))
  let t := t.setRight y (some x)
  pure (t.setParent x (some y))

/-- Reading `x.parent` where the result is about to be dereferenced. -/
def parentOf (t : Tree K V) (x : Id) : Res Id := do
  let xn ← t.node x
  Res.ofOption xn.parent

/-- ds/rbtree/rbtree.go:130-164, the loop of `rbInsertFixup`. -/
def insertFixupLoop : Nat → Tree K V → Id → Res (Tree K V)
  | 0, _, _ => .outOfFuel
  | f + 1, t, z => do
    let zn ← t.node z
    match zn.parent with
    | none => pure t
    | some p => do
      let pn ← t.node p
      if pn.black then pure t else
      let g ← Res.ofOption pn.parent
      let gn ← t.node g
      if gn.left = some p then
        let yBlack ← t.getColor gn.right
        match gn.right, yBlack with
        | some y, false =>
          let t := t.setBlack p true
          let t := t.setBlack y true
          let t := t.setBlack g false
          insertFixupLoop f t g
        | _, _ =>
          let (t, z) ← (if pn.right = some z then do
              let t ← t.leftRotate p
              pure (t, p)
            else pure (t, z))
          let p ← t.parentOf z
          let t := t.setBlack p true
          let g ← t.parentOf p
          let t := t.setBlack g false
          let t ← t.rightRotate g
          insertFixupLoop f t z
      else
        let yBlack ← t.getColor gn.left
        match gn.left, yBlack with
        | some y, false =>
          let t := t.setBlack p true
          let t := t.setBlack y true
          let t := t.setBlack g false
          insertFixupLoop f t g
        | _, _ =>
          let (t, z) ← (if pn.left = some z then do
              let t ← t.rightRotate p
              pure (t, p)
            else pure (t, z))
          let p ← t.parentOf z
          let t := t.setBlack p true
          let g ← t.parentOf p
          let t := t.setBlack g false
          let t ← t.leftRotate g
          insertFixupLoop f t z

/-- ds/rbtree/rbtree.go:128-166 `rbInsertFixup`, with `B` rounds for its loop. -/
def insertFixup (B : Nat) (t : Tree K V) (z : Id) : Res (Tree K V) := do
  let t ← insertFixupLoop B t z
  let r ← Res.ofOption t.root
  pure (t.setBlack r true)

/-- ds/rbtree/rbtree.go:101-111, the descent of `Insert`: returns the last non-nil node visited (`y`). -/
def insertDescend (cmp : K → K → Int) (t : Tree K V) (key : K) : Nat → Option Id → Option Id → Res (Option Id)
  | 0, _, _ => .outOfFuel
  | f + 1, x, y =>
    match x with
    | none => pure y
    | some xi => do
      let xn ← t.node xi
      if cmp key xn.key < 0 then insertDescend cmp t key f xn.left (some xi)
      else insertDescend cmp t key f xn.right (some xi)

/-- Allocation `z := &Node{parent: y, color: RED, key: key, value: value}` and `t.size++`, rbtree.go:113-114. -/
def alloc (t : Tree K V) (y : Option Id) (key : K) (value : V) : Tree K V :=
  { t with
    heap := fun j => if j = t.next then
        some { parent := y, left := none, right := none, black := false, key := key, value := value } else t.heap j
    size := t.size + 1
    next := t.next + 1 }

/-- ds/rbtree/rbtree.go:100-126 `Insert`, with `B` rounds for each of its two loops. -/
def insertB (B : Nat) (cmp : K → K → Int) (t : Tree K V) (key : K) (value : V) : Res (Tree K V) := do
  let y ← t.insertDescend cmp key B t.root none
  let z := t.next
  let t := t.alloc y key value
  match y with
  | none =>
    let t := t.setBlack z true
    pure { t with root := some z }
  | some y => do
    let yn ← t.node y
    let zn ← t.node z
    let t := if cmp zn.key yn.key < 0 then t.setLeft y (some z) else t.setRight y (some z)
    insertFixup B t z

/-- ds/rbtree/rbtree.go:100-126 `Insert`. -/
def insert (cmp : K → K → Int) (t : Tree K V) (key : K) (value : V) : Res (Tree K V) := insertB t.fuel cmp t key value

/-- ds/rbtree/rbtree.go:228-257 `rbFixupLeft`; returns the tree and the new `x`. (`w` is recomputed by every call.) -/
def fixupLeft (t : Tree K V) (parent : Id) : Res (Tree K V × Option Id) := do
  let pn ← t.node parent
  let w ← Res.ofOption pn.right
  let wn ← t.node w
  let (t, w) ← (if wn.black = false then do
      let t := t.setBlack w true
      let t := t.setBlack parent false
      let t ← t.leftRotate parent
      let pn ← t.node parent
      let w ← Res.ofOption pn.right
      pure (t, w)
    else pure (t, w))
  let wn ← t.node w
  let lb ← t.getColor wn.left
  let rb ← t.getColor wn.right
  if lb ∧ rb then
    pure (t.setBlack w false, some parent)
  else do
    let (t, w) ← (if rb then do
        let t := match wn.left with
          | some l => t.setBlack l true
          | none => t
        let t := t.setBlack w false
        let t ← t.rightRotate w
        let pn ← t.node parent
        let w ← Res.ofOption pn.right
        pure (t, w)
      else pure (t, w))
    let pn ← t.node parent
    let t := t.setBlack w pn.black
    let t := t.setBlack parent true
    let wn ← t.node w
    let t := match wn.right with
      | some r => t.setBlack r true
      | none => t
    let t ← t.leftRotate parent
    pure (t, t.root)

/-- ds/rbtree/rbtree.go:259-288 `rbFixupRight`. -/
def fixupRight (t : Tree K V) (parent : Id) : Res (Tree K V × Option Id) := do
  let pn ← t.node parent
  let w ← Res.ofOption pn.left
  let wn ← t.node w
  let (t, w) ← (if wn.black = false then do
      let t := t.setBlack w true
      let t := t.setBlack parent false
      let t ← t.rightRotate parent
      let pn ← t.node parent
      let w ← Res.ofOption pn.left
      pure (t, w)
    else pure (t, w))
  let wn ← t.node w
  let lb ← t.getColor wn.left
  let rb ← t.getColor wn.right
  if lb ∧ rb then
    pure (t.setBlack w false, some parent)
  else do
    let (t, w) ← (if lb then do
        let t := match wn.right with
          | some r => t.setBlack r true
          | none => t
        let t := t.setBlack w false
        let t ← t.leftRotate w
        let pn ← t.node parent
        let w ← Res.ofOption pn.left
        pure (t, w)
      else pure (t, w))
    let pn ← t.node parent
    let t := t.setBlack w pn.black
    let t := t.setBlack parent true
    let wn ← t.node w
    let t := match wn.left with
      | some l => t.setBlack l true
      | none => t
    let t ← t.rightRotate parent
    pure (t, t.root)

/-- ds/rbtree/rbtree.go:214-216: `if x != nil { parent = x.parent }`. -/
def fixupParent (t : Tree K V) (x parent : Option Id) : Res (Option Id) :=
  match x with
  | some xi => do let xn ← t.node xi; pure xn.parent
  | none => pure parent

/-- ds/rbtree/rbtree.go:213-222, the loop of `rbDeleteFixup`; returns the tree and the final `x`. -/
def deleteFixupLoop : Nat → Tree K V → Option Id → Option Id → Res (Tree K V × Option Id)
  | 0, _, _, _ => .outOfFuel
  | f + 1, t, x, parent => do
    if x = t.root then pure (t, x) else
    let xb ← t.getColor x
    if xb = false then pure (t, x) else
    let parent ← t.fixupParent x parent
    let p ← Res.ofOption parent
    let pn ← t.node p
    if x = pn.left then do
      let (t, x) ← t.fixupLeft p
      deleteFixupLoop f t x parent
    else do
      let (t, x) ← t.fixupRight p
      deleteFixupLoop f t x parent

/-- ds/rbtree/rbtree.go:211-226 `rbDeleteFixup`, with `B` rounds for its loop. -/
def deleteFixup (B : Nat) (t : Tree K V) (x parent : Option Id) : Res (Tree K V) := do
  let (t, x) ← deleteFixupLoop B t x parent
  match x with
  | some xi => pure (t.setBlack xi true)
  | none => pure t

/-- ds/rbtree/rbtree.go:189-198, the pointer part of `Delete`: the only child `x` of `y` takes the place of `y`
below `y.parent`. -/
def spliceOut (s : Tree K V) (y : Id) (x parent : Option Id) : Res (Tree K V) := do
  let t := match x with
    | some xi => s.setParent xi parent
    | none => s
  match parent with
    | none => pure { t with root := x }
    | some p => do
      let pn ← t.node p
      if pn.left = some y then pure (t.setLeft p x) else pure (t.setRight p x)

/-- ds/rbtree/rbtree.go:169-209 `Delete`, with `B` rounds for each of its two loops. -/
def deleteB (B : Nat) (t : Tree K V) (node : Option Id) : Res (Tree K V) := do
  match node with
  | none => pure t
  | some z => do
    let zn ← t.node z
    let y ← (if zn.left.isSome ∧ zn.right.isSome then do
        let s ← successorB B t z
        Res.ofOption s
      else pure z)
    let yn ← t.node y
    let x := if yn.left.isSome then yn.left else yn.right
    let xparent := yn.parent
    let t ← t.spliceOut y x xparent
    let yn ← t.node y
    let t := if y ≠ z then t.setKV z yn.key yn.value else t
    let t ← (if yn.black then deleteFixup B t x xparent else pure t)
    pure { t with size := t.size - 1 }

/-- ds/rbtree/rbtree.go:169-209 `Delete`. -/
def delete (t : Tree K V) (node : Option Id) : Res (Tree K V) := deleteB t.fuel t node

/-- ds/rbtree/rbtree.go:359-374 `findLowerBoundNode` (recursion with budget). -/
def lowerBoundFrom (cmp : K → K → Int) (t : Tree K V) (key : K) : Nat → Option Id → Res (Option Id)
  | 0, _ => .outOfFuel
  | f + 1, x =>
    match x with
    | none => pure none
    | some xi => do
      let xn ← t.node xi
      if cmp key xn.key ≤ 0 then do
        let ret ← lowerBoundFrom cmp t key f xn.left
        match ret with
        | none => pure (some xi)
        | some r => do
          let rn ← t.node r
          if cmp rn.key xn.key ≤ 0 then pure (some r) else pure (some xi)
      else lowerBoundFrom cmp t key f xn.right

/-- ds/rbtree/rbtree.go:355-357 `FindLowerBoundNode`. -/
def findLowerBoundNode (cmp : K → K → Int) (t : Tree K V) (key : K) : Res (Option Id) :=
  t.lowerBoundFrom cmp key t.fuel t.root

/-- ds/rbtree/rbtree.go:381-396 `findUpperBoundNode` (recursion with budget). -/
def upperBoundFrom (cmp : K → K → Int) (t : Tree K V) (key : K) : Nat → Option Id → Res (Option Id)
  | 0, _ => .outOfFuel
  | f + 1, x =>
    match x with
    | none => pure none
    | some xi => do
      let xn ← t.node xi
      if cmp key xn.key ≥ 0 then upperBoundFrom cmp t key f xn.right
      else do
        let ret ← upperBoundFrom cmp t key f xn.left
        match ret with
        | none => pure (some xi)
        | some r => do
          let rn ← t.node r
          if cmp rn.key xn.key ≤ 0 then pure (some r) else pure (some xi)

/-- ds/rbtree/rbtree.go:377-379 `FindUpperBoundNode`. -/
def findUpperBoundNode (cmp : K → K → Int) (t : Tree K V) (key : K) : Res (Option Id) :=
  t.upperBoundFrom cmp key t.fuel t.root

/-- ds/rbtree/rbtree.go:343-352 `findFirstNode`, 44-46 `FindNode`. -/
def findNode (cmp : K → K → Int) (t : Tree K V) (key : K) : Res (Option Id) := do
  let node ← t.findLowerBoundNode cmp key
  match node with
  | none => pure none
  | some i => do
    let n ← t.node i
    if cmp n.key key = 0 then pure (some i) else pure none

/-- ds/rbtree/rbtree.go:35-41 `Find`: the value, or `none` for `ErrorNotFound`. -/
def find (cmp : K → K → Int) (t : Tree K V) (key : K) : Res (Option V) := do
  let n ← t.findNode cmp key
  match n with
  | some i => do let nn ← t.node i; pure (some nn.value)
  | none => pure none

/-- ds/rbtree/rbtree.go:400-404, the loop of `Traversal`: the visitor is a state transformer that returns whether to go
on; the result is the visitor's final state. -/
def traversalLoop {S : Type} (t : Tree K V) (visit : S → K → V → S × Bool) : Nat → Option Id → S → Res S
  | 0, _, _ => .outOfFuel
  | f + 1, node, s =>
    match node with
    | none => pure s
    | some i => do
      let n ← t.node i
      match visit s n.key n.value with
      | (s, true) => do
        let nx ← t.successor i
        traversalLoop t visit f nx s
      | (s, false) => pure s

/-- ds/rbtree/rbtree.go:399-405 `Traversal`. -/
def traversal {S : Type} (t : Tree K V) (visit : S → K → V → S × Bool) (s : S) : Res S := do
  let n ← t.first
  t.traversalLoop visit t.fuel n s

/-- ds/rbtree/rbtree.go:422-457 `test`: (black count, violated property, ok). -/
def test (t : Tree K V) : Nat → Option Id → Res (Int × Int × Bool)
  | 0, _ => .outOfFuel
  | f + 1, n =>
    match n with
    | none => pure (1, 0, true)
    | some i => do
      let nn ← t.node i
      if t.root = some i ∧ nn.black = false then pure (1, 2, false) else
      let (lc, prop, ok) ← test t f nn.left
      if ok = false then pure (lc, prop, ok) else
      let (rc, prop, ok) ← test t f nn.right
      if ok = false then pure (rc, prop, ok) else
      if rc ≠ lc then pure (lc, 5, false) else
      if nn.black = false then
        let lb ← t.getColor nn.left
        let rb ← t.getColor nn.right
        if lb = false ∨ rb = false then pure (0, 4, false) else pure (lc, 0, true)
      else pure (lc + 1, 0, true)

/-- ds/rbtree/rbtree.go:408-420 `IsRbTree` (the boolean result). -/
def isRbTree (t : Tree K V) : Res Bool := do
  let (_, _, ok) ← t.test t.fuel t.root
  pure ok

end Tree
end GoSTL.RB
