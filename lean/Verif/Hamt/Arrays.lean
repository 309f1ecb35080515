import Verif.Hamt.HeapProps
/-!
# `ds/hamt/hamt.go` with the arrays of children as objects

`Verif/Hamt/Heap.lean` keeps the children of a node inside the node. That is the same as long as nothing else refers to the array; but the loop of `traversal` does
(`for _, entry := range h.children` goes over the array that was there when the loop began), and a visitor that changes the trie makes that visible. Here a node has a
pointer to its array. A nil slice of children is an empty array.
-/
namespace GoSTL.Hamt.Arr
variable {T σ : Type}

/-- hamt.go:53-71 `BitmapNode`, `KvNode`, `KvPair`; `arr` is the array of children. -/
inductive Obj (T : Type) where
  | node (bitmap : Hash) (pos : Nat) (arr : Nat)
  | kv (hash : Hash) (list : Option Nat)
  | pair (key : Key) (value : T) (next : Option Nat)

/-- The heap: objects, and arrays of children (`none` is a nil entry). -/
structure Mem (T : Type) where
  objs : List (Obj T)
  arrs : List (List (Option Nat))

/-- Reading the fields of the node that a pointer points to, and its array. -/
def asNode (m : Mem T) (a : Nat) : Res (Hash × Nat × Nat × List (Option Nat)) :=
  match m.objs[a]? with
  | some (.node bm p ar) => do
    let cs ← Res.ofOption m.arrs[ar]?
    .ok (bm, p, ar, cs)
  | _ => .panic

/-- Reading the fields of the pair that a pointer points to. -/
def asPair (m : Mem T) (a : Nat) : Res (Key × T × Option Nat) :=
  match m.objs[a]? with
  | some (.pair k v n) => .ok (k, v, n)
  | _ => .panic

/-- hamt.go:85-87, 242-244 `BitPosNum`. -/
def bitPosNum (m : Mem T) (depth : Nat) (a : Nat) : Res Hash :=
  match m.objs[a]? with
  | some (.node _ p _) => .ok ((1 : Hash) <<< p)
  | some (.kv h _) => .ok ((1 : Hash) <<< pos h depth)
  | _ => .panic

/-- The write `arr[i] = e` to an array of the heap; outside the array it panics. -/
def write (m : Mem T) (ar i : Nat) (e : Option Nat) : Res (Mem T) := do
  let cs ← Res.ofOption m.arrs[ar]?
  if i < cs.length then .ok { m with arrs := m.arrs.set ar (cs.set i e) } else .panic

/-- hamt.go:105-108 (a nil entry would panic) and 217-222 (`skip`: nil entries are left out); the new array is still local. -/
def placeLoop (m : Mem T) (depth : Nat) (bitmap : Hash) (skip : Bool) : List (Option Nat) → List (Option Nat) → Res (List (Option Nat))
  | [], arr => .ok arr
  | none :: es, arr => if skip then placeLoop m depth bitmap skip es arr else .panic
  | some a :: es, arr => do
    let b ← bitPosNum m depth a
    let arr ← Heap.setSlot arr (index bitmap b) a
    placeLoop m depth bitmap skip es arr

/-- hamt.go:116-121: the loop that looks for the key in a chain. -/
def findPair (m : Mem T) (key : Key) : Nat → Option Nat → Res (Option Nat)
  | 0, _ => .outOfFuel
  | _ + 1, none => .ok none
  | f + 1, some a => do
    let (k, _, n) ← asPair m a
    if k = key then .ok (some a) else findPair m key f n

/-- The budget for loops along a chain. -/
abbrev budget (m : Mem T) : Nat := m.objs.length + 1

/-- hamt.go:97-109: a new array for the node `h`, with the entry `a` added. -/
def addChild (m : Mem T) (depth h : Nat) (bm : Hash) (p0 : Nat) (cs : List (Option Nat)) (b : Hash) (a : Nat) : Res (Mem T) := do
  let arr ← Heap.setSlot (List.replicate (cs.length + 1) none) (index bm b) a
  let arr ← placeLoop m depth bm false cs arr
  .ok ⟨m.objs.set h (.node bm p0 m.arrs.length), m.arrs ++ [arr]⟩

/-- hamt.go:94-137 `insert`; `kv` is the pointer to the pair. -/
def insert : Nat → Nat → Nat → Hash → Option Nat → Mem T → Res (Mem T)
  | 0, _, _, _, _, _ => .outOfFuel
  | f + 1, depth, h, hash, kv, m => do
    let (bm, p0, _, cs) ← asNode m h
    let p := pos hash depth
    let b := bitPos p
    if b &&& bm = 0 then addChild ⟨m.objs ++ [.kv hash kv], m.arrs⟩ depth h (bm ||| b) p0 cs b m.objs.length
    else do
      let i := index bm b
      let slot ← Res.ofOption cs[i]?
      let e ← Res.ofOption slot
      match m.objs[e]? with
      | some (.kv hash' l) =>
        if hash' = hash then do
          let kv ← Res.ofOption kv
          let (key, value, _) ← asPair m kv
          let found ← findPair m key (budget m) l
          match found with
          | some a => do
            let (k, _, n) ← asPair m a
            .ok { m with objs := m.objs.set a (.pair k value n) }
          | none => .ok { m with objs := (m.objs.set kv (.pair key value l)).set e (.kv hash' (some kv)) }
        else do
          let a := m.objs.length
          let m := ⟨m.objs ++ [.node 0 p m.arrs.length], m.arrs ++ [[]]⟩
          let m ← insert f (depth + 1) a hash' l m
          let m ← insert f (depth + 1) a hash kv m
          let (_, _, ar, _) ← asNode m h
          write m ar i (some a)
      | some (.node _ _ _) => insert f (depth + 1) e hash kv m
      | _ => .panic

/-- hamt.go:139-162 `find`; `none` is the error. -/
def find : Nat → Nat → Nat → Hash → Key → Mem T → Res (Option T)
  | 0, _, _, _, _, _ => .outOfFuel
  | f + 1, depth, h, hash, key, m => do
    let (bm, _, _, cs) ← asNode m h
    let b := bitPos (pos hash depth)
    if b &&& bm = 0 then .ok none
    else do
      let slot ← Res.ofOption cs[index bm b]?
      let e ← Res.ofOption slot
      match m.objs[e]? with
      | some (.kv hash' l) =>
        if hash' ≠ hash then .ok none
        else do
          let found ← findPair m key (budget m) l
          match found with
          | some a => do
            let (_, v, _) ← asPair m a
            .ok (some v)
          | none => .ok none
      | some (.node _ _ _) => find f (depth + 1) e hash key m
      | _ => .panic

/-- hamt.go:195-205: the loop of `erase`: the pair with the key and the one before it. -/
def findPrev (m : Mem T) (key : Key) : Nat → Option Nat → Option Nat → Res (Option (Option Nat × Nat))
  | 0, _, _ => .outOfFuel
  | _ + 1, _, none => .ok none
  | f + 1, pre, some a => do
    let (k, _, n) ← asPair m a
    if k = key then .ok (some (pre, a)) else findPrev m key f (some a) n

/-- hamt.go:207-212: the pair `a` is unlinked; `pre` is the pair before it. -/
def unlink (m : Mem T) (e a : Nat) (pre : Option Nat) : Res (Mem T) := do
  let (_, _, n) ← asPair m a
  match pre with
  | some c => do
    let (k, v, _) ← asPair m c
    .ok { m with objs := m.objs.set c (.pair k v n) }
  | none =>
    match m.objs[e]? with
    | some (.kv h _) => .ok { m with objs := m.objs.set e (.kv h n) }
    | _ => .panic

/-- hamt.go:213-224: the slot `i` of the array `ar` of node `h` becomes nil, and the other entries go into a new array. -/
def dropChild (m : Mem T) (depth h : Nat) (bm : Hash) (p0 ar i : Nat) : Res (Mem T) := do
  let m ← write m ar i none
  let cs ← Res.ofOption m.arrs[ar]?
  let arr ← placeLoop m depth bm true cs (List.replicate (cs.length - 1) none)
  .ok ⟨m.objs.set h (.node bm p0 m.arrs.length), m.arrs ++ [arr]⟩

/-- hamt.go:228-232: a node with a single key-value child is replaced by the child, in the array of `h`. -/
def collapse (m : Mem T) (h i e : Nat) (ok : Bool) : Res (Bool × Mem T) := do
  let (_, _, _, ds) ← asNode m e
  match ok, ds with
  | true, [some c] =>
    match m.objs[c]? with
    | some (.kv _ _) => do
      let (_, _, ar, _) ← asNode m h
      let m ← write m ar i (some c)
      .ok (ok, m)
    | _ => .ok (ok, m)
  | _, _ => .ok (ok, m)

/-- hamt.go:179-234 `erase`. -/
def erase : Nat → Nat → Nat → Hash → Key → Mem T → Res (Bool × Mem T)
  | 0, _, _, _, _, _ => .outOfFuel
  | f + 1, depth, h, hash, key, m => do
    let (bm, p0, ar, cs) ← asNode m h
    let b := bitPos (pos hash depth)
    if b &&& bm = 0 then .ok (false, m)
    else do
      let i := index bm b
      let slot ← Res.ofOption cs[i]?
      let e ← Res.ofOption slot
      match m.objs[e]? with
      | some (.kv hash' l) =>
        if hash' ≠ hash then .ok (false, m)
        else do
          let found ← findPrev m key (budget m) none l
          match found with
          | none => .ok (false, m)
          | some (pre, a) => do
            let m ← unlink m e a pre
            match m.objs[e]? with
            | some (.kv _ none) => do
              let m ← dropChild m depth h (bm &&& ~~~ b) p0 ar i
              .ok (true, m)
            | _ => .ok (true, m)
      | some (.node _ _ _) => do
        let (ok, m) ← erase f (depth + 1) e hash key m
        collapse m h i e ok
      | _ => .panic

/-- hamt.go:74-77, 247-255 `New`; the root is the object 0. -/
def new : Mem T := ⟨[.node 0 0 0], [[]]⟩

/-- hamt.go:258-265 `Insert`. -/
def Insert (hash : Key → Hash) (m : Mem T) (k : Key) (v : T) : Res (Mem T) :=
  insert levels 0 0 (hash k) (some m.objs.length) ⟨m.objs ++ [.pair k v none], m.arrs⟩

/-- hamt.go:278-285 `Erase`. -/
def Erase (hash : Key → Hash) (m : Mem T) (k : Key) : Res (Bool × Mem T) := erase levels 0 0 (hash k) k m

/-- hamt.go:268-275 `Get`. -/
def Get (hash : Key → Hash) (m : Mem T) (k : Key) : Res (Option T) := find levels 0 0 (hash k) k m

/-- One call, with its answer. -/
def step (hash : Key → Hash) (op : Op T) (m : Mem T) : Res (Out T × Mem T) :=
  match op with
  | .insert k v => do let m ← Insert hash m k v; .ok (.unit, m)
  | .get k => do let v ← Get hash m k; .ok (.val v, m)
  | .erase k => do let (b, m) ← Erase hash m k; .ok (.bool b, m)

/-- A history of calls. -/
def run (hash : Key → Hash) : List (Op T) → Mem T → Res (List (Out T) × Mem T)
  | [], m => .ok ([], m)
  | op :: ops, m => do
    let (o, m) ← step hash op m
    let (os, m) ← run hash ops m
    .ok (o :: os, m)

/-! ## `Traversal` with a visitor that changes the trie -/

/-- The calls a visitor makes. -/
inductive Call (T : Type)
  | insert (k : Key) (v : T)
  | erase (k : Key)

/-- What happens during a traversal: the visitor is called, or the visitor calls. -/
inductive Event (T : Type)
  | visit (k : Key) (v : T)
  | call (c : Call T)

/-- A traversal under way: what happened so far, the state of the visitor, and the heap. -/
structure Walk (σ T : Type) where
  trace : List (Event T)
  st : σ
  mem : Mem T

/-- What a visitor does when it is called: it changes its own state, makes calls on the trie, and says whether to go on. -/
structure Answer (σ T : Type) where
  st : σ
  calls : List (Call T)
  go : Bool

/-- A visitor may look at everything before it decides. -/
abbrev Visitor (σ T : Type) := Walk σ T → Key → T → Answer σ T

/-- One call. -/
def call (hash : Key → Hash) (m : Mem T) : Call T → Res (Mem T)
  | .insert k v => Insert hash m k v
  | .erase k => do
    let r ← Erase hash m k
    .ok r.2

/-- Calls, one after the other. -/
def calls (hash : Key → Hash) : List (Call T) → Mem T → Res (Mem T)
  | [], m => .ok m
  | c :: cs, m => do
    let m ← call hash m c
    calls hash cs m

/-- The traversal after a visit. -/
def after (w : Walk σ T) (k : Key) (v : T) (ans : Answer σ T) (m : Mem T) : Walk σ T := ⟨w.trace ++ .visit k v :: ans.calls.map .call, ans.st, m⟩

/-- hamt.go:170-174: the loop along the chain of one `KvNode`; the flag says whether to go on. -/
def pairLoop (hash : Key → Hash) (visit : Visitor σ T) : Nat → Option Nat → Walk σ T → Res (Walk σ T × Bool)
  | 0, _, _ => .outOfFuel
  | _ + 1, none, w => .ok (w, true)
  | f + 1, some a, w => do
    let (k, v, _) ← asPair w.mem a
    let m ← calls hash (visit w k v).calls w.mem
    if (visit w k v).go then do
      let (_, _, n) ← asPair m a
      pairLoop hash visit f n (after w k v (visit w k v) m)
    else .ok (after w k v (visit w k v) m, false)

/-- hamt.go:165-176: the loop over the array `ar` from index `i` on, `n` entries more; calling `Type` of a nil entry panics. `rec` is the call on a nested node. -/
def slotLoop (hash : Key → Hash) (visit : Visitor σ T) (rec : Nat → Walk σ T → Res (Walk σ T)) (ar : Nat) : Nat → Nat → Walk σ T → Res (Walk σ T)
  | 0, _, w => .ok w
  | n + 1, i, w => do
    let cs ← Res.ofOption w.mem.arrs[ar]?
    let slot ← Res.ofOption cs[i]?
    let e ← Res.ofOption slot
    match w.mem.objs[e]? with
    | some (.node _ _ _) => do
      let w ← rec e w
      slotLoop hash visit rec ar n (i + 1) w
    | some (.kv _ l) => do
      let (w, go) ← pairLoop hash visit (budget w.mem) l w
      if go then slotLoop hash visit rec ar n (i + 1) w else .ok w
    | _ => .panic

/-- hamt.go:164-177 `traversal`. -/
def traversal (hash : Key → Hash) (visit : Visitor σ T) : Nat → Nat → Walk σ T → Res (Walk σ T)
  | 0, _, _ => .outOfFuel
  | f + 1, h, w => do
    let (_, _, ar, cs) ← asNode w.mem h
    slotLoop hash visit (traversal hash visit f) ar cs.length 0 w

/-- hamt.go:314-319 `Traversal`. -/
def Traversal (hash : Key → Hash) (visit : Visitor σ T) (m : Mem T) (s : σ) : Res (Walk σ T) := traversal hash visit levels 0 ⟨[], s, m⟩

end GoSTL.Hamt.Arr
