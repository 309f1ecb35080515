import Verif.Basic.Res
/-!
# Model of `ds/hamt/hamt.go`

The trie is a tree value (`Verif/Hamt/Heap.lean` has it as objects on a heap), the chain of `KvPair`s of a node is a list. `depth` recursion carries a step budget;
`Verif/Hamt/Props.lean` shows that 11 levels are enough. Keys are byte strings by value: a caller that changes the bytes of a key slice
after `Insert` is modelled in `Verif/Hamt/Alias.lean`. Not modelled: the lock (see `Verif/Conc`).
-/
namespace GoSTL.Hamt

/-- hamt.go:23 `Key`: a byte string. -/
abbrev Key := List (BitVec 8)
/-- A `uint64`. -/
abbrev Hash := BitVec 64

/-- hamt.go:54-71 `BitmapNode`, `KvNode` (with its chain of `KvPair`). -/
inductive Entry (T : Type) where
  | kv (hash : Hash) (l : List (Key × T))
  | node (bitmap : Hash) (pos : Nat) (children : List (Entry T))

/-- The fields `bitmap` and `children` of a `BitmapNode`. -/
structure Node (T : Type) where
  bitmap : Hash
  children : List (Entry T)

variable {T : Type}

/-- hamt.go:327-329 `pos`. (Shifting by 64 or more gives 0.) -/
def pos (hash : Hash) (depth : Nat) : Nat := ((hash >>> (depth * 6)) &&& 63).toNat

/-- hamt.go:331-333 `bitPos`. -/
def bitPos (p : Nat) : Hash := (1 : Hash) <<< p

/-- `bits.OnesCount64`. -/
def onesCount (b : Hash) : Nat := ((List.range 64).filter b.getLsbD).length

/-- hamt.go:90-92 `Index`. -/
def index (bitmap bitPos : Hash) : Nat := onesCount ((bitPos - 1) &&& bitmap)

/-- hamt.go:85-87, 242-244 `BitPosNum`. -/
def bitPosNum (depth : Nat) : Entry T → Hash
  | .kv hash _ => (1 : Hash) <<< pos hash depth
  | .node _ p _ => (1 : Hash) <<< p

/-- hamt.go:105-108, 217-222: every entry is written to the slot of the new array that `Index` gives; writing outside panics. -/
def placeLoop (depth : Nat) (bitmap : Hash) : List (Entry T) → List (Option (Entry T)) → Res (List (Option (Entry T)))
  | [], a => .ok a
  | e :: es, a =>
    let i := index bitmap (bitPosNum depth e)
    if i < a.length then placeLoop depth bitmap es (a.set i (some e)) else .panic

/-- A slot that was not written holds nil; the next access to it would panic, the model does so at once. -/
def allSome : List (Option (Entry T)) → Res (List (Entry T))
  | [] => .ok []
  | none :: _ => .panic
  | some e :: a => do
    let es ← allSome a
    .ok (e :: es)

/-- hamt.go:99-109, 216-223: a new array with `n` slots for the entries. -/
def place (depth : Nat) (bitmap : Hash) (n : Nat) (es : List (Entry T)) : Res (List (Entry T)) := do
  let a ← placeLoop depth bitmap es (List.replicate n none)
  allSome a

/-- hamt.go:116-121: overwrite the value of the first equal key. -/
def updKv (k : Key) (v : T) : List (Key × T) → Option (List (Key × T))
  | [] => none
  | x :: l => if x.1 = k then some ((x.1, v) :: l) else (updKv k v l).map (x :: ·)

/-- hamt.go:116-123: overwrite the value of an equal key, or put the pair in front. -/
def setKv (k : Key) (v : T) (l : List (Key × T)) : List (Key × T) := (updKv k v l).getD ((k, v) :: l)

/-- hamt.go:94-137 `insert`. `kvs` is the chain that starts at the pair to insert; in an existing chain only the first pair goes in
(its `next` is overwritten). -/
def insert : Nat → Nat → Node T → Hash → List (Key × T) → Res (Node T)
  | 0, _, _, _, _ => .outOfFuel
  | f + 1, depth, h, hash, kvs => do
    let p := pos hash depth
    let b := bitPos p
    if b &&& h.bitmap = 0 then do
      let bm := h.bitmap ||| b
      let cs ← place depth bm (h.children.length + 1) (.kv hash kvs :: h.children)
      .ok ⟨bm, cs⟩
    else do
      let i := index h.bitmap b
      let e ← Res.ofOption h.children[i]?
      match e with
      | .kv hash' l =>
        if hash' = hash then
          match kvs with
          | [] => .panic
          | (k, v) :: _ => .ok { h with children := h.children.set i (.kv hash' (setKv k v l)) }
        else do
          let n ← insert f (depth + 1) ⟨0, []⟩ hash' l
          let n ← insert f (depth + 1) n hash kvs
          .ok { h with children := h.children.set i (.node n.bitmap p n.children) }
      | .node bm p' cs => do
        let n ← insert f (depth + 1) ⟨bm, cs⟩ hash kvs
        .ok { h with children := h.children.set i (.node n.bitmap p' n.children) }

/-- hamt.go:139-162 `find`; `none` is the error. -/
def find : Nat → Nat → Node T → Hash → Key → Res (Option T)
  | 0, _, _, _, _ => .outOfFuel
  | f + 1, depth, h, hash, key => do
    let b := bitPos (pos hash depth)
    if b &&& h.bitmap = 0 then .ok none
    else do
      let e ← Res.ofOption h.children[index h.bitmap b]?
      match e with
      | .kv hash' l =>
        if hash' ≠ hash then .ok none
        else .ok ((l.find? (fun x => x.1 == key)).map Prod.snd)
      | .node bm _ cs => find f (depth + 1) ⟨bm, cs⟩ hash key

/-- hamt.go:179-234 `erase`; the answer and the changed node. -/
def erase : Nat → Nat → Node T → Hash → Key → Res (Bool × Node T)
  | 0, _, _, _, _ => .outOfFuel
  | f + 1, depth, h, hash, key => do
    let b := bitPos (pos hash depth)
    if b &&& h.bitmap = 0 then .ok (false, h)
    else do
      let i := index h.bitmap b
      let e ← Res.ofOption h.children[i]?
      match e with
      | .kv hash' l =>
        if hash' ≠ hash then .ok (false, h)
        else if l.any (fun x => x.1 == key) then
          match l.eraseP (fun x => x.1 == key) with
          | [] => do
            let bm := h.bitmap &&& ~~~ b
            let cs ← place depth bm (h.children.length - 1) (h.children.eraseIdx i)
            .ok (true, ⟨bm, cs⟩)
          | x :: l' => .ok (true, { h with children := h.children.set i (.kv hash' (x :: l')) })
        else .ok (false, h)
      | .node bm p' cs => do
        let (ok, n) ← erase f (depth + 1) ⟨bm, cs⟩ hash key
        match ok, n.children with
        | true, [.kv hash' l] => .ok (ok, { h with children := h.children.set i (.kv hash' l) })
        | _, _ => .ok (ok, { h with children := h.children.set i (.node n.bitmap p' n.children) })

/-- hamt.go:170-174: the chain of one `KvNode`; the flag says whether to go on. `visit` may keep a state. -/
def visitKvs {σ : Type} (visit : σ → Key → T → σ × Bool) : List (Key × T) → σ → σ × Bool
  | [], s => (s, true)
  | (k, v) :: l, s =>
    match visit s k v with
    | (s, true) => visitKvs visit l s
    | (s, false) => (s, false)

/-- hamt.go:165-176: the loop over the children; `rec` is the call on a nested node, whose result is not looked at. -/
def travLoop {σ : Type} (visit : σ → Key → T → σ × Bool) (rec : List (Entry T) → σ → Res σ) : List (Entry T) → σ → Res σ
  | [], s => .ok s
  | .node _ _ cs :: es, s => do
    let s ← rec cs s
    travLoop visit rec es s
  | .kv _ l :: es, s =>
    match visitKvs visit l s with
    | (s, true) => travLoop visit rec es s
    | (s, false) => .ok s

/-- hamt.go:164-177 `traversal`. -/
def traversal {σ : Type} (visit : σ → Key → T → σ × Bool) : Nat → List (Entry T) → σ → Res σ
  | 0, _, _ => .outOfFuel
  | f + 1, cs, s => travLoop visit (traversal visit f) cs s

/-! ## The public calls -/

/-- The levels of the trie: 64 bits, 6 per level (hamt.go:16). -/
def levels : Nat := 11

/-- hamt.go:247-255 `New`. -/
def new : Node T := ⟨0, []⟩

/-- hamt.go:258-265 `Insert`; `hash` is the hash function. -/
def Insert (hash : Key → Hash) (h : Node T) (k : Key) (v : T) : Res (Node T) := insert levels 0 h (hash k) [(k, v)]
/-- hamt.go:268-275 `Get`. -/
def Get (hash : Key → Hash) (h : Node T) (k : Key) : Res (Option T) := find levels 0 h (hash k) k
/-- hamt.go:278-285 `Erase`. -/
def Erase (hash : Key → Hash) (h : Node T) (k : Key) : Res (Bool × Node T) := erase levels 0 h (hash k) k
/-- hamt.go:314-319 `Traversal`. -/
def Traversal {σ : Type} (visit : σ → Key → T → σ × Bool) (h : Node T) (s : σ) : Res σ := traversal visit levels h.children s
/-- hamt.go:288-298 `Keys`; 301-311 `StringKeys` returns the same keys. -/
def Keys (h : Node T) : Res (List Key) := Traversal (fun (s : List Key) k _ => (s ++ [k], true)) h []

/-- hamt.go:321-325 `hash`: 64-bit FNV-1 (`hash/fnv`). -/
def fnv1 (k : Key) : Hash := k.foldl (fun (h : Hash) b => (h * 1099511628211) ^^^ (b.zeroExtend 64)) 14695981039346656037

/-- The calls of hamt.go:258-285. -/
inductive Op (T : Type)
  | insert (k : Key) (v : T)
  | get (k : Key)
  | erase (k : Key)

/-- What they return; `val none` is `ErrorNotFound`. -/
inductive Out (T : Type)
  | unit
  | val (v : Option T)
  | bool (b : Bool)

/-- Each call as modelled above. -/
def step (hash : Key → Hash) (op : Op T) (h : Node T) : Res (Out T × Node T) :=
  match op with
  | .insert k v => do let h ← Insert hash h k v; .ok (.unit, h)
  | .get k => do let v ← Get hash h k; .ok (.val v, h)
  | .erase k => do let (b, h) ← Erase hash h k; .ok (.bool b, h)

/-- A program. -/
def run (hash : Key → Hash) : List (Op T) → Node T → Res (List (Out T) × Node T)
  | [], h => .ok ([], h)
  | op :: ops, h => do
    let (o, h) ← step hash op h
    let (os, h) ← run hash ops h
    .ok (o :: os, h)

end GoSTL.Hamt
