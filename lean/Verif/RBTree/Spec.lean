import Verif.RBTree.Model
/-!
# Specification vocabulary for the red-black tree

Everything here is phrased with what a client (or a debugger following the pointers) can observe; no proof-side
notions occur.
-/
namespace GoSTL.RB
variable {K V : Type}

/-- Insert `e` behind every element whose key is not greater (so behind all elements with an equal key). -/
def insertBy {α : Type} (cmp : K → K → Int) (key : α → K) (e : α) : List α → List α
  | [] => [e]
  | x :: xs => if cmp (key e) (key x) < 0 then e :: x :: xs else x :: insertBy cmp key e xs

/-- Follow `Next` from a node, collecting node, key and value. -/
def walk (s : Tree K V) : Nat → Option Id → Res (List (Id × K × V))
  | 0, _ => .outOfFuel
  | _ + 1, none => .ok []
  | f + 1, some i => do
    let n ← s.node i
    let j ← s.successor i
    let rest ← walk s f j
    pure ((i, n.key, n.value) :: rest)

/-- Follow `Prev` from a node. -/
def walkBack (s : Tree K V) : Nat → Option Id → Res (List (Id × K × V))
  | 0, _ => .outOfFuel
  | _ + 1, none => .ok []
  | f + 1, some i => do
    let n ← s.node i
    let j ← s.presuccessor i
    let rest ← walkBack s f j
    pure ((i, n.key, n.value) :: rest)

/-- All entries met from `First` by `Next`. -/
def toList (s : Tree K V) : Res (List (Id × K × V)) := do
  let f ← s.first
  walk s s.fuel f

/-- All entries met from `Last` by `Prev`. -/
def toListBack (s : Tree K V) : Res (List (Id × K × V)) := do
  let f ← s.last
  walkBack s s.fuel f

/-- Feeding a list of entries to a visitor that may stop. -/
def feed {S : Type} (visit : S → K → V → S × Bool) : List (Id × K × V) → S → S
  | [], s => s
  | (_, k, v) :: es, s => match visit s k v with
    | (s, true) => feed visit es s
    | (s, false) => s

/-- `Path s p len blacks`: there is a downward path from `p` to a nil pointer through `len` nodes, `blacks` of them
black. -/
inductive Path (s : Tree K V) : Option Id → Nat → Nat → Prop
  | nil : Path s none 0 0
  | left {i n len b} : s.heap i = some n → Path s n.left len b → Path s (some i) (len + 1) (b + if n.black then 1 else 0)
  | right {i n len b} : s.heap i = some n → Path s n.right len b → Path s (some i) (len + 1) (b + if n.black then 1 else 0)

/-- Node `i` is linked into the tree. -/
inductive Linked (s : Tree K V) : Id → Prop
  | root {i} : s.root = some i → Linked s i
  | left {i n j} : Linked s i → s.heap i = some n → n.left = some j → Linked s j
  | right {i n j} : Linked s i → s.heap i = some n → n.right = some j → Linked s j

/-- States a client can produce: `New`, `Insert`, `Delete` of a node of the tree (or nil), `SetValue` on a node of the
tree, `Clear`. -/
inductive Reachable (cmp : K → K → Int) : Tree K V → Prop
  | new : Reachable cmp Tree.new
  | insert {s s' k v} : Reachable cmp s → s.insert cmp k v = .ok s' → Reachable cmp s'
  | delete {s s' i} : Reachable cmp s → Linked s i → s.delete (some i) = .ok s' → Reachable cmp s'
  | deleteNil {s s'} : Reachable cmp s → s.delete none = .ok s' → Reachable cmp s'
  | setValue {s i v} : Reachable cmp s → Linked s i → Reachable cmp (s.setValue i v)
  | clear {s} : Reachable cmp s → Reachable cmp s.clear

/-- Histories with the sequence of key/value pairs they should produce: an inserted pair goes behind all pairs with
smaller or equal keys, deleting a node removes the pair at that node's position. -/
inductive History (cmp : K → K → Int) : Tree K V → List (K × V) → Prop
  | new : History cmp Tree.new []
  | insert {s s' k v es} : History cmp s es → s.insert cmp k v = .ok s' →
      History cmp s' (insertBy cmp (·.1) (k, v) es)
  | delete {s s' i k v es A B} : History cmp s es → toList s = .ok (A ++ (i, k, v) :: B) →
      s.delete (some i) = .ok s' → History cmp s' ((A ++ B).map (·.2))
  | setValue {s i k v v' es A B} : History cmp s es → toList s = .ok (A ++ (i, k, v) :: B) →
      History cmp (s.setValue i v') ((A ++ (i, k, v') :: B).map (·.2))
  | clear {s es} : History cmp s es → History cmp s.clear []

end GoSTL.RB
