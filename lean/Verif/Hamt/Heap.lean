import Verif.Hamt.Model
import Verif.Basic.Store
/-!
# `ds/hamt/hamt.go` with pointers

The nodes, key-value nodes and pairs are objects on a heap, which the calls change in place; `Verif/Hamt/Model.lean` treats the trie as a value. The array of
children of a node is kept in the node: `make` gives a new one and no other variable refers to it (hamt.go:99-109, 216-223),
except for the loop of `traversal`, for which `Verif/Hamt/Arrays.lean` makes the arrays objects. Loops along a chain of pairs carry a step budget.
-/
namespace GoSTL.Hamt.Heap
variable {T : Type}

/-- hamt.go:53-71 `BitmapNode`, `KvNode`, `KvPair`; `none` is nil. -/
inductive Obj (T : Type) where
  | node (bitmap : Hash) (pos : Nat) (children : List (Option Nat))
  | kv (hash : Hash) (list : Option Nat)
  | pair (key : Key) (value : T) (next : Option Nat)

/-- The heap. -/
abbrev Mem (T : Type) := List (Obj T)

/-- Reading the fields of the node that a pointer points to. -/
def asNode (m : Mem T) (a : Nat) : Res (Hash × Nat × List (Option Nat)) :=
  match m[a]? with
  | some (.node bm p cs) => .ok (bm, p, cs)
  | _ => .panic

/-- Reading the fields of the pair that a pointer points to. -/
def asPair (m : Mem T) (a : Nat) : Res (Key × T × Option Nat) :=
  match m[a]? with
  | some (.pair k v n) => .ok (k, v, n)
  | _ => .panic

/-- hamt.go:85-87, 242-244 `BitPosNum`. -/
def bitPosNum (m : Mem T) (depth : Nat) (a : Nat) : Res Hash :=
  match m[a]? with
  | some (.node _ p _) => .ok ((1 : Hash) <<< p)
  | some (.kv h _) => .ok ((1 : Hash) <<< pos h depth)
  | _ => .panic

/-- The write `newChildren[index] = entry`. -/
def setSlot (arr : List (Option Nat)) (i a : Nat) : Res (List (Option Nat)) := if i < arr.length then .ok (arr.set i (some a)) else .panic

/-- hamt.go:105-108 (a nil entry would panic) and 217-222 (`skip`: nil entries are left out). -/
def placeLoop (m : Mem T) (depth : Nat) (bitmap : Hash) (skip : Bool) : List (Option Nat) → List (Option Nat) → Res (List (Option Nat))
  | [], arr => .ok arr
  | none :: es, arr => if skip then placeLoop m depth bitmap skip es arr else .panic
  | some a :: es, arr => do
    let b ← bitPosNum m depth a
    let arr ← setSlot arr (index bitmap b) a
    placeLoop m depth bitmap skip es arr

/-- hamt.go:116-121: the loop that looks for the key in a chain. -/
def findPair (m : Mem T) (key : Key) : Nat → Option Nat → Res (Option Nat)
  | 0, _ => .outOfFuel
  | _ + 1, none => .ok none
  | f + 1, some a => do
    let (k, _, n) ← asPair m a
    if k = key then .ok (some a) else findPair m key f n

/-- The budget for loops along a chain. -/
abbrev budget (m : Mem T) : Nat := m.length + 1

/-- hamt.go:94-137 `insert`; `kv` is the pointer to the pair. -/
def insert : Nat → Nat → Nat → Hash → Option Nat → Mem T → Res (Mem T)
  | 0, _, _, _, _, _ => .outOfFuel
  | f + 1, depth, h, hash, kv, m => do
    let (bm, p0, cs) ← asNode m h
    let p := pos hash depth
    let b := bitPos p
    if b &&& bm = 0 then do
      let bm := bm ||| b
      let a := m.length
      let m := m ++ [.kv hash kv]
      let arr ← setSlot (List.replicate (cs.length + 1) none) (index bm b) a
      let arr ← placeLoop m depth bm false cs arr
      .ok (m.set h (.node bm p0 arr))
    else do
      let i := index bm b
      let slot ← Res.ofOption cs[i]?
      let e ← Res.ofOption slot
      match m[e]? with
      | some (.kv hash' l) =>
        if hash' = hash then do
          let kv ← Res.ofOption kv
          let (key, value, _) ← asPair m kv
          let found ← findPair m key (budget m) l
          match found with
          | some a => do
            let (k, _, n) ← asPair m a
            .ok (m.set a (.pair k value n))
          | none => .ok ((m.set kv (.pair key value l)).set e (.kv hash' (some kv)))
        else do
          let a := m.length
          let m := m ++ [.node 0 p []]
          let m ← insert f (depth + 1) a hash' l m
          let m ← insert f (depth + 1) a hash kv m
          let (bm, p0, cs) ← asNode m h
          .ok (m.set h (.node bm p0 (cs.set i (some a))))
      | some (.node _ _ _) => insert f (depth + 1) e hash kv m
      | _ => .panic

/-- hamt.go:139-162 `find`; `none` is the error. -/
def find : Nat → Nat → Nat → Hash → Key → Mem T → Res (Option T)
  | 0, _, _, _, _, _ => .outOfFuel
  | f + 1, depth, h, hash, key, m => do
    let (bm, _, cs) ← asNode m h
    let b := bitPos (pos hash depth)
    if b &&& bm = 0 then .ok none
    else do
      let slot ← Res.ofOption cs[index bm b]?
      let e ← Res.ofOption slot
      match m[e]? with
      | some (.kv hash' l) =>
        if hash' ≠ hash then .ok none
        else do
          let found ← findPair m key (budget m) l
          match found with
          | some a => do
            let (_, v, _) ← asPair m a
            .ok (some v)
          | none => .ok none
      | some (.node _ _ _) => find f (depth + 1) e hash key m
      | _ => .panic

/-- hamt.go:195-205: the loop of `erase`: the pair with the key and the one before it. -/
def findPrev (m : Mem T) (key : Key) : Nat → Option Nat → Option Nat → Res (Option (Option Nat × Nat))
  | 0, _, _ => .outOfFuel
  | _ + 1, _, none => .ok none
  | f + 1, pre, some a => do
    let (k, _, n) ← asPair m a
    if k = key then .ok (some (pre, a)) else findPrev m key f (some a) n

/-- hamt.go:207-212: the pair `a` is unlinked; `pre` is the pair before it. -/
def unlink (m : Mem T) (e a : Nat) (pre : Option Nat) : Res (Mem T) := do
  let (_, _, n) ← asPair m a
  match pre with
  | some c => do
    let (k, v, _) ← asPair m c
    .ok (m.set c (.pair k v n))
  | none =>
    match m[e]? with
    | some (.kv h _) => .ok (m.set e (.kv h n))
    | _ => .panic

/-- hamt.go:179-234 `erase`. -/
def erase : Nat → Nat → Nat → Hash → Key → Mem T → Res (Bool × Mem T)
  | 0, _, _, _, _, _ => .outOfFuel
  | f + 1, depth, h, hash, key, m => do
    let (bm, p0, cs) ← asNode m h
    let b := bitPos (pos hash depth)
    if b &&& bm = 0 then .ok (false, m)
    else do
      let i := index bm b
      let slot ← Res.ofOption cs[i]?
      let e ← Res.ofOption slot
      match m[e]? with
      | some (.kv hash' l) =>
        if hash' ≠ hash then .ok (false, m)
        else do
          let found ← findPrev m key (budget m) none l
          match found with
          | none => .ok (false, m)
          | some (pre, a) => do
            let m ← unlink m e a pre
            match m[e]? with
            | some (.kv _ none) => do
              let bm := bm &&& ~~~ b
              let arr ← placeLoop m depth bm true (cs.set i none) (List.replicate (cs.length - 1) none)
              .ok (true, m.set h (.node bm p0 arr))
            | _ => .ok (true, m)
      | some (.node _ _ _) => do
        let (ok, m) ← erase f (depth + 1) e hash key m
        let (_, _, ds) ← asNode m e
        match ok, ds with
        | true, [some c] =>
          match m[c]? with
          | some (.kv _ _) => do
            let (bm, p0, cs) ← asNode m h
            .ok (ok, m.set h (.node bm p0 (cs.set i (some c))))
          | _ => .ok (ok, m)
        | _, _ => .ok (ok, m)
      | _ => .panic

/-- hamt.go:170-174: the chain of one `KvNode`; the flag says whether to go on. -/
def visitPairs {σ : Type} (visit : σ → Key → T → σ × Bool) (m : Mem T) : Nat → Option Nat → σ → Res (σ × Bool)
  | 0, _, _ => .outOfFuel
  | _ + 1, none, s => .ok (s, true)
  | f + 1, some a, s => do
    let (k, v, n) ← asPair m a
    match visit s k v with
    | (s, true) => visitPairs visit m f n s
    | (s, false) => .ok (s, false)

/-- hamt.go:165-176: the loop over the children. -/
def travLoop {σ : Type} (visit : σ → Key → T → σ × Bool) (m : Mem T) (rec : Nat → σ → Res σ) : List (Option Nat) → σ → Res σ
  | [], s => .ok s
  | none :: _, _ => .panic
  | some a :: es, s =>
    match m[a]? with
    | some (.node _ _ _) => do
      let s ← rec a s
      travLoop visit m rec es s
    | some (.kv _ l) => do
      let (s, go) ← visitPairs visit m (budget m) l s
      if go then travLoop visit m rec es s else .ok s
    | _ => .panic

/-- hamt.go:164-177 `traversal`. -/
def traversal {σ : Type} (visit : σ → Key → T → σ × Bool) (m : Mem T) : Nat → Nat → σ → Res σ
  | 0, _, _ => .outOfFuel
  | f + 1, h, s => do
    let (_, _, cs) ← asNode m h
    travLoop visit m (traversal visit m f) cs s

/-! ## The public calls; the root is the object 0 -/

/-- hamt.go:74-77, 247-255 `New`. -/
def new : Mem T := [.node 0 0 []]

/-- hamt.go:258-265 `Insert`. -/
def Insert (hash : Key → Hash) (m : Mem T) (k : Key) (v : T) : Res (Mem T) := insert levels 0 0 (hash k) (some m.length) (m ++ [.pair k v none])

/-- hamt.go:268-275 `Get`. -/
def Get (hash : Key → Hash) (m : Mem T) (k : Key) : Res (Option T) := find levels 0 0 (hash k) k m

/-- hamt.go:278-285 `Erase`. -/
def Erase (hash : Key → Hash) (m : Mem T) (k : Key) : Res (Bool × Mem T) := erase levels 0 0 (hash k) k m

/-- hamt.go:314-319 `Traversal`. -/
def Traversal {σ : Type} (visit : σ → Key → T → σ × Bool) (m : Mem T) (s : σ) : Res σ := traversal visit m levels 0 s

/-- hamt.go:288-298 `Keys`. -/
def Keys (m : Mem T) : Res (List Key) := Traversal (fun (s : List Key) k _ => (s ++ [k], true)) m []

/-- One call. -/
def step (hash : Key → Hash) (op : Op T) (m : Mem T) : Res (Out T × Mem T) :=
  match op with
  | .insert k v => do let m ← Insert hash m k v; .ok (.unit, m)
  | .get k => do let v ← Get hash m k; .ok (.val v, m)
  | .erase k => do let (b, m) ← Erase hash m k; .ok (.bool b, m)

/-- A history of calls. -/
def run (hash : Key → Hash) : List (Op T) → Mem T → Res (List (Out T) × Mem T)
  | [], m => .ok ([], m)
  | op :: ops, m => do
    let (o, m) ← step hash op m
    let (os, m) ← run hash ops m
    .ok (o :: os, m)

/-- A pointer from one object to another. -/
def Points (m : Mem T) (a b : Nat) : Prop :=
  match m[a]? with
  | some (.node _ _ cs) => some b ∈ cs
  | some (.kv _ l) => l = some b
  | some (.pair _ _ n) => n = some b
  | none => False

end GoSTL.Hamt.Heap
