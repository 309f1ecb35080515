import Verif.TreeMap.Model
import Verif.Bloom.Model
/-!
# Model of `ds/ketama/ketama.go`: a consistent-hash ring

The ring is a `treemap.Map[uint64, string]` (the model of `ds/map`, on the model of `ds/rbtree`). Node names and keys are byte strings. `H` is
the hash function used by `hash.GenHashInts` (SHA-512 in the code, a parameter here). A nil `locker` option is not modelled; the locks are
modelled in `Verif/Conc`: `empty` and `getBody` are two different critical sections of `Get`.
-/
namespace GoSTL.Ketama
open GoSTL.RB GoSTL.TreeMap
open Bitmap (Byte)

/-- Node names and keys (Go strings). -/
abbrev Str := List Byte

/-- ketama.go:16 `salt`: "ni9fkh72hgh1g". -/
def salt : Str := [0x6e, 0x69, 0x39, 0x66, 0x6b, 0x68, 0x37, 0x32, 0x68, 0x67, 0x68, 0x31, 0x67]

/-- utils/comparator/comparator.go:187-195 `Uint64Comparator`. -/
def u64Cmp (a b : Nat) : Int := if a = b then 0 else if a < b then -1 else 1

/-- ketama.go:42-46 `Ketama` without the locker. -/
structure Ketama where
  replicas : Int
  m : Tree Nat Str

/-- ketama.go:49-63 `New` with `WithReplicas(replicas)` (the default is 10). -/
def new (replicas : Int) : Ketama := { replicas := replicas, m := Tree.new }

/-- ketama.go:66-71 `Empty`. -/
def empty (k : Ketama) : Bool := decide (size k.m = 0)

/-- ketama.go:82-84: insert unless present. -/
def addPoint (node : Str) (m : Tree Nat Str) (key : Nat) (present : Bool) : Res (Tree Nat Str) :=
  if present then .ok m else mapInsert u64Cmp m key node

/-- ketama.go:80-85, the inner loop of `Add`: `hashs[i]` for `i < replicas` are all the elements of `hashs`. -/
def addPoints (node : Str) : List Nat → Tree Nat Str → Res (Tree Nat Str)
  | [], m => .ok m
  | key :: hashs, m => do
    let present ← contains u64Cmp m key
    let m ← addPoint node m key present
    addPoints node hashs m

/-- ketama.go:78-86, the outer loop of `Add`. -/
def addNodes (H : Str → Str) (replicas : Int) : List Str → Tree Nat Str → Res (Tree Nat Str)
  | [], m => .ok m
  | node :: nodes, m => do
    let hashs ← Bloom.genHashInts H (salt ++ node) replicas
    let m ← addPoints node hashs m
    addNodes H replicas nodes m

/-- ketama.go:74-87 `Add`. -/
def add (H : Str → Str) (k : Ketama) (nodes : List Str) : Res Ketama := do
  let m ← addNodes H k.replicas nodes k.m
  pure { k with m := m }

/-- ketama.go:99-101: erase the point if it was found and belongs to the node. -/
def removePoint (node : Str) (m : Tree Nat Str) : Option Id → Res (Tree Nat Str)
  | none => .ok m
  | some i => do
    let v ← iterValue m (some i)
    if v = node then eraseIter m (.map (some i)) else .ok m

/-- ketama.go:96-102, the inner loop of `Remove`. -/
def removePoints (node : Str) : List Nat → Tree Nat Str → Res (Tree Nat Str)
  | [], m => .ok m
  | key :: hashs, m => do
    let iter ← find u64Cmp m key
    let m ← removePoint node m iter
    removePoints node hashs m

/-- ketama.go:94-103, the outer loop of `Remove`. -/
def removeNodes (H : Str → Str) (replicas : Int) : List Str → Tree Nat Str → Res (Tree Nat Str)
  | [], m => .ok m
  | node :: nodes, m => do
    let hashs ← Bloom.genHashInts H (salt ++ node) replicas
    let m ← removePoints node hashs m
    removeNodes H replicas nodes m

/-- ketama.go:90-104 `Remove`. -/
def remove (H : Str → Str) (k : Ketama) (nodes : List Str) : Res Ketama := do
  let m ← removeNodes H k.replicas nodes k.m
  pure { k with m := m }

/-- ketama.go:118-122: the value of the iterator, or of the first one (which panics if there is none). -/
def ownerOf (m : Tree Nat Str) (iter : Option Id) : Res Str :=
  if iterIsValid iter then iterValue m iter else do
    let f ← first m
    iterValue m f

/-- ketama.go:112-122, `Get` after the test for emptiness: hash the key, then (under the lock) look it up. -/
def getBody (H : Str → Str) (k : Ketama) (key : Str) : Res Str := do
  let hashs ← Bloom.genHashInts H (salt ++ key) 1
  let h ← Res.ofOption hashs[0]?
  let iter ← lowerBound u64Cmp k.m h
  ownerOf k.m iter

/-- ketama.go:107-123 `Get`, when nothing runs in between: `none` is `("", false)`. -/
def get (H : Str → Str) (k : Ketama) (key : Str) : Res (Option Str) :=
  if empty k then .ok none else do
    let n ← getBody H k key
    pure (some n)

end GoSTL.Ketama
