import Verif.RBTree.Model
/-!
# Model of `ds/map` and `ds/set`: Map, MultiMap, Set, MultiSet

All four are thin layers over the red-black tree, so their state is the tree (`RB.Tree`). The comparator given to `New`
is a parameter `cmp` of every method. Locks are not modelled here (every method below holds the container's lock for
its whole body; see the concurrency model). An iterator holds a node pointer: `Option Id`.
-/
namespace GoSTL.TreeMap
open GoSTL.RB

variable {K V : Type}

/-! ## Iterators -/

/-- ds/map/iterator.go:14-19, ds/set/iterator.go:14-19 `IsValid`. -/
def iterIsValid (it : Option Id) : Bool := it.isSome

/-- ds/map/iterator.go:22-27, ds/set/iterator.go:22-27, ds/rbtree/iterator.go:24-29 `Next`. -/
def iterNext (t : Tree K V) : Option Id → Res (Option Id)
  | some i => t.successor i
  | none => .ok none

/-- ds/map/iterator.go:30-35, ds/set/iterator.go:30-35 `Prev`. -/
def iterPrev (t : Tree K V) : Option Id → Res (Option Id)
  | some i => t.presuccessor i
  | none => .ok none

/-- ds/map/iterator.go:38-40 `Key`; ds/set/iterator.go:38-40 `Value`; ds/rbtree/iterator.go:40-42 `Key` (nil panics). -/
def iterKey (t : Tree K V) (it : Option Id) : Res K := do
  let i ← Res.ofOption it
  let n ← t.node i
  pure n.key

/-- ds/map/iterator.go:43-45 `Value` (nil panics). -/
def iterValue (t : Tree K V) (it : Option Id) : Res V := do
  let i ← Res.ofOption it
  let n ← t.node i
  pure n.value

/-- ds/map/iterator.go:48-50 `SetValue` (nil panics). -/
def iterSetValue (t : Tree K V) (it : Option Id) (v : V) : Res (Tree K V) := do
  let i ← Res.ofOption it
  let _ ← t.node i
  pure (t.setValue i v)

/-! ## Methods shared by all four containers -/

/-- ds/map/map.go:103-109, ds/map/multimap.go:64-70, ds/set/set.go:85-91, ds/set/multiset.go `Find`. -/
def find (cmp : K → K → Int) (t : Tree K V) (key : K) : Res (Option Id) := t.findNode cmp key

/-- ds/map/map.go:112-118, ds/map/multimap.go:73-79, ds/set/set.go:94-100, ds/set/multiset.go:75-81 `LowerBound`. -/
def lowerBound (cmp : K → K → Int) (t : Tree K V) (key : K) : Res (Option Id) := t.findLowerBoundNode cmp key

/-- ds/map/map.go:121-127, ds/map/multimap.go:82-88, ds/set/set.go:103-109, ds/set/multiset.go:84-90 `UpperBound`. -/
def upperBound (cmp : K → K → Int) (t : Tree K V) (key : K) : Res (Option Id) := t.findUpperBoundNode cmp key

/-- `Begin` / `First`: ds/map/map.go:130-143, ds/map/multimap.go:91-104, ds/set/set.go:112-122. -/
def first (t : Tree K V) : Res (Option Id) := t.first

/-- `Last`: ds/map/map.go:146-151, ds/map/multimap.go:107-112, ds/set/set.go:125-130. -/
def last (t : Tree K V) : Res (Option Id) := t.last

/-- ds/map/map.go:154-159, ds/map/multimap.go:115-120, ds/set/set.go:133-138, ds/set/multiset.go:128-133 `Clear`. -/
def clear (t : Tree K V) : Tree K V := t.clear

/-- ds/map/map.go:162-170, ds/map/multimap.go:123-131, ds/set/set.go:141-149, ds/set/multiset.go:136-144 `Contains`. -/
def contains (cmp : K → K → Int) (t : Tree K V) (key : K) : Res Bool := do
  let r ← t.find cmp key
  pure r.isSome

/-- ds/map/map.go:173-178, ds/map/multimap.go:134-139, ds/set/set.go:152-157, ds/set/multiset.go:147-152 `Size`. -/
def size (t : Tree K V) : Int := t.size

/-- ds/map/map.go:69-78, ds/map/multimap.go:38-47 `Get` (`none` is `ErrorNotFound`). -/
def get (cmp : K → K → Int) (t : Tree K V) (key : K) : Res (Option V) := do
  let node ← t.findNode cmp key
  match node with
  | some i => do let n ← t.node i; pure (some n.value)
  | none => pure none

/-- ds/map/map.go:181-186, ds/map/multimap.go:142-147 `Traversal`. -/
def mapTraversal {S : Type} (t : Tree K V) (visit : S → K → V → S × Bool) (s : S) : Res S := t.traversal visit s

/-- ds/set/set.go:164-168, ds/set/multiset.go:159-163, the loop of `Traversal`. -/
def setTraversalLoop {S : Type} (t : Tree K V) (visit : S → K → S × Bool) : Nat → Option Id → S → Res S
  | 0, _, _ => .outOfFuel
  | _ + 1, none, s => .ok s
  | f + 1, some i, s => do
    let n ← t.node i
    match visit s n.key with
    | (s, true) => do
      let nx ← t.successor i
      setTraversalLoop t visit f nx s
    | (s, false) => pure s

/-- ds/set/set.go:160-169, ds/set/multiset.go:155-164 `Traversal`. -/
def setTraversal {S : Type} (t : Tree K V) (visit : S → K → S × Bool) (s : S) : Res S := do
  let n ← t.first
  setTraversalLoop t visit t.fuel n s

/-- Erasing the first node found: ds/map/map.go:81-89 `Map.Erase`, ds/set/set.go:74-82 `Set.Erase`,
ds/set/multiset.go:41-49 `MultiSet.Erase`. -/
def eraseOne (cmp : K → K → Int) (t : Tree K V) (key : K) : Res (Tree K V) := do
  let node ← t.findNode cmp key
  match node with
  | some i => t.delete (some i)
  | none => pure t

/-- The loop of ds/map/multimap.go:54-60 `MultiMap.Erase` and ds/set/multiset.go:56-62 `MultiSet.EraseAll`. -/
def eraseAllLoop (cmp : K → K → Int) (key : K) : Nat → Tree K V → Res (Tree K V)
  | 0, _ => .outOfFuel
  | f + 1, t => do
    let node ← t.findNode cmp key
    match node with
    | none => pure t
    | some i => do
      let t ← t.delete (some i)
      eraseAllLoop cmp key f t

/-- ds/map/multimap.go:50-61 `MultiMap.Erase`, ds/set/multiset.go:52-63 `MultiSet.EraseAll`. -/
def eraseAll (cmp : K → K → Int) (t : Tree K V) (key : K) : Res (Tree K V) := eraseAllLoop cmp key t.fuel t

/-! ## Map -/

/-- ds/map/map.go:56-66 `Map.Insert`. -/
def mapInsert (cmp : K → K → Int) (t : Tree K V) (key : K) (value : V) : Res (Tree K V) := do
  let node ← t.findNode cmp key
  match node with
  | some i => pure (t.setValue i value)
  | none => t.insert cmp key value

/-- What is passed to `EraseIter`: a `*MapIterator` holding a node pointer, or an iterator of another type. -/
inductive AnyIter where
  | map (node : Option Id)
  | other

/-- ds/map/map.go:92-100 `Map.EraseIter`. -/
def eraseIter (t : Tree K V) : AnyIter → Res (Tree K V)
  | .map node => t.delete node
  | .other => .ok t

/-! ## MultiMap and MultiSet -/

/-- ds/map/multimap.go:30-35 `MultiMap.Insert`. -/
def multiMapInsert (cmp : K → K → Int) (t : Tree K V) (key : K) (value : V) : Res (Tree K V) := t.insert cmp key value

/-- ds/set/multiset.go:33-38 `MultiSet.Insert` (`Empty` is `true`, set.go:15). -/
def multiSetInsert (cmp : K → K → Int) (t : Tree K Bool) (x : K) : Res (Tree K Bool) := t.insert cmp x true

/-- ds/set/multiset.go:118-124, the loop of `MultiSet.Count`. -/
def countLoop (cmp : K → K → Int) (t : Tree K V) (x : K) : Nat → Option Id → Int → Res Int
  | 0, _, _ => .outOfFuel
  | _ + 1, none, c => .ok c
  | f + 1, some i, c => do
    let n ← t.node i
    let nx ← t.successor i
    countLoop cmp t x f nx (if cmp n.key x = 0 then c + 1 else c)

/-- ds/set/multiset.go:114-125 `MultiSet.Count`. -/
def count (cmp : K → K → Int) (t : Tree K V) (x : K) : Res Int := do
  let n ← t.first
  countLoop cmp t x t.fuel n 0

/-! ## Set -/

/-- ds/set/set.go:62-71 `Set.Insert`. -/
def setInsert (cmp : K → K → Int) (t : Tree K Bool) (x : K) : Res (Tree K Bool) := do
  let node ← t.findNode cmp x
  match node with
  | some _ => pure t
  | none => t.insert cmp x true

/-- ds/set/set.go:194-205, the loop of `Intersect`: `a`, `b` are the two iterators, `r` the result set. The operands'
trees are only read. -/
def intersectLoop (cmp : K → K → Int) (s o : Tree K Bool) :
    Nat → Option Id → Option Id → Tree K Bool → Res (Tree K Bool)
  | f + 1, some a, some b, r => do
    let ka ← iterKey s (some a)
    let kb ← iterKey o (some b)
    if cmp ka kb = 0 then do
      let r ← r.insert cmp ka true
      let a ← iterNext s (some a)
      let b ← iterNext o (some b)
      intersectLoop cmp s o f a b r
    else if cmp ka kb < 0 then do
      let a ← iterNext s (some a)
      intersectLoop cmp s o f a (some b) r
    else do
      let b ← iterNext o (some b)
      intersectLoop cmp s o f (some a) b r
  | 0, _, _, _ => .outOfFuel
  | _ + 1, _, _, r => .ok r

/-- ds/set/set.go:187-207 `Intersect`. -/
def intersect (cmp : K → K → Int) (s o : Tree K Bool) : Res (Tree K Bool) := do
  let a ← s.first
  let b ← o.first
  intersectLoop cmp s o (s.fuel + o.fuel) a b Tree.new

/-- ds/set/set.go:233-238 and 262-264, the draining loops of `Union` and `Diff`. -/
def drainLoop (cmp : K → K → Int) (s : Tree K Bool) : Nat → Option Id → Tree K Bool → Res (Tree K Bool)
  | 0, _, _ => .outOfFuel
  | _ + 1, none, r => .ok r
  | f + 1, some a, r => do
    let ka ← iterKey s (some a)
    let r ← r.insert cmp ka true
    let a ← iterNext s (some a)
    drainLoop cmp s f a r

/-- ds/set/set.go:218-232, the merging loop of `Union`; returns the iterators and the result set. -/
def unionLoop (cmp : K → K → Int) (s o : Tree K Bool) :
    Nat → Option Id → Option Id → Tree K Bool → Res (Option Id × Option Id × Tree K Bool)
  | f + 1, some a, some b, r => do
    let ka ← iterKey s (some a)
    let kb ← iterKey o (some b)
    if cmp ka kb = 0 then do
      let r ← r.insert cmp ka true
      let a ← iterNext s (some a)
      let b ← iterNext o (some b)
      unionLoop cmp s o f a b r
    else if cmp ka kb < 0 then do
      let r ← r.insert cmp ka true
      let a ← iterNext s (some a)
      unionLoop cmp s o f a (some b) r
    else do
      let r ← r.insert cmp kb true
      let b ← iterNext o (some b)
      unionLoop cmp s o f (some a) b r
  | 0, _, _, _ => .outOfFuel
  | _ + 1, a, b, r => .ok (a, b, r)

/-- ds/set/set.go:211-239 `Union`. -/
def union (cmp : K → K → Int) (s o : Tree K Bool) : Res (Tree K Bool) := do
  let a ← s.first
  let b ← o.first
  let (a, b, r) ← unionLoop cmp s o (s.fuel + o.fuel) a b Tree.new
  let r ← drainLoop cmp s s.fuel a r
  drainLoop cmp o o.fuel b r

/-- ds/set/set.go:250-261, the merging loop of `Diff`. -/
def diffLoop (cmp : K → K → Int) (s o : Tree K Bool) :
    Nat → Option Id → Option Id → Tree K Bool → Res (Option Id × Tree K Bool)
  | f + 1, some a, some b, r => do
    let ka ← iterKey s (some a)
    let kb ← iterKey o (some b)
    if cmp ka kb = 0 then do
      let a ← iterNext s (some a)
      let b ← iterNext o (some b)
      diffLoop cmp s o f a b r
    else if cmp ka kb < 0 then do
      let r ← r.insert cmp ka true
      let a ← iterNext s (some a)
      diffLoop cmp s o f a (some b) r
    else do
      let b ← iterNext o (some b)
      diffLoop cmp s o f (some a) b r
  | 0, _, _, _ => .outOfFuel
  | _ + 1, a, _, r => .ok (a, r)

/-- ds/set/set.go:243-266 `Diff`. -/
def diff (cmp : K → K → Int) (s o : Tree K Bool) : Res (Tree K Bool) := do
  let a ← s.first
  let b ← o.first
  let (a, r) ← diffLoop cmp s o (s.fuel + o.fuel) a b Tree.new
  drainLoop cmp s s.fuel a r

end GoSTL.TreeMap
