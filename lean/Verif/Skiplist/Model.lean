import Verif.Basic.Res
/-!
# Model of `ds/skiplist/skiplist.go`

Elements live in a store and are addressed by their index; a removed element stays in the store. The random draw of `randomLevel` is an argument
of `Insert`. Loops along a level carry a step budget (`Verif/Skiplist/Props.lean` shows that the number of stored elements plus one is enough).
`prevNodesCache` is written in full before it is read, so it is a local list here. Not modelled: the lock (see `Verif/Conc`).
-/
namespace GoSTL.Skiplist

/-- skiplist.go:47-52 `Element`; `next` points to elements, `none` is nil. -/
structure Elem (K V : Type) where
  key : K
  value : V
  next : List (Option Nat)

/-- skiplist.go:42-52 a `*Node`: the head or the node part of an element. -/
inductive Ref
  | head
  | elem (a : Nat)
  deriving DecidableEq

/-- skiplist.go:54-63 `Skiplist`. `maxLevel` is the length of `head`. -/
structure SL (K V : Type) where
  elems : List (Elem K V)
  head : List (Option Nat)
  maxLevel : Nat
  len : Int

variable {K V : Type}

/-- skiplist.go:66-83 `New` with the given maximum level; `make` panics for a negative length. -/
def New (maxLevel : Int) : Res (SL K V) :=
  if maxLevel < 0 then .panic else .ok ⟨[], List.replicate maxLevel.toNat none, maxLevel.toNat, 0⟩

/-- The read `r.next[i]`. -/
def nextAt (w : SL K V) (r : Ref) (i : Nat) : Res (Option Nat) :=
  match r with
  | .head => Res.ofOption w.head[i]?
  | .elem a => do
    let e ← Res.ofOption w.elems[a]?
    Res.ofOption e.next[i]?

/-- The write `r.next[i] = v`. -/
def setNext (w : SL K V) (r : Ref) (i : Nat) (v : Option Nat) : Res (SL K V) :=
  match r with
  | .head => if i < w.head.length then .ok { w with head := w.head.set i v } else .panic
  | .elem a => do
    let e ← Res.ofOption w.elems[a]?
    if i < e.next.length then .ok { w with elems := w.elems.set a { e with next := e.next.set i v } } else .panic

/-- skiplist.go:183-188: the loop along level `i`; `next` is the element after `prev`. -/
def walk (cmp : K → K → Int) (w : SL K V) (key : K) (i : Nat) : Nat → Ref → Option Nat → Res Ref
  | 0, _, _ => .outOfFuel
  | _ + 1, prev, none => .ok prev
  | f + 1, prev, some a => do
    let e ← Res.ofOption w.elems[a]?
    if cmp e.key key ≥ 0 then .ok prev
    else do
      let n ← nextAt w (.elem a) i
      walk cmp w key i f (.elem a) n

/-- The budget for loops along a level. -/
abbrev budget (w : SL K V) : Nat := w.elems.length + 1

/-- skiplist.go:182-190: one level of `findPrevNodes`. -/
def prevLevel (cmp : K → K → Int) (w : SL K V) (key : K) (i : Nat) (prev : Ref) : Res Ref := do
  let h ← nextAt w .head i
  match h with
  | none => .ok prev
  | some _ => do
    let n ← nextAt w prev i
    walk cmp w key i (budget w) prev n

/-- skiplist.go:178-193 `findPrevNodes`: the levels `i-1 .. 0`. -/
def findPrevs (cmp : K → K → Int) (w : SL K V) (key : K) : Nat → Ref → List Ref → Res (List Ref)
  | 0, _, acc => .ok acc
  | i + 1, prev, acc => do
    let p ← prevLevel cmp w key i prev
    findPrevs cmp w key i p (p :: acc)

/-- skiplist.go:171-174: the loop of `randomLevel`. -/
def levelLoop : Nat → BitVec 64 → BitVec 64 → BitVec 64 → Nat → Res Nat
  | 0, _, _, _, _ => .outOfFuel
  | f + 1, k, levelN, total, level =>
    if total > k then levelLoop f k (levelN >>> 1) (total - levelN >>> 1) (level + 1) else .ok level

/-- skiplist.go:165-176 `randomLevel`; `draw` is the result of `Uint64()`, the remainder by 0 panics. -/
def randomLevel (f : Nat) (maxLevel : Nat) (draw : BitVec 64) : Res Nat :=
  let total := (1 : BitVec 64) <<< maxLevel - 1
  if total = 0 then .panic
  else
    let k := draw % total
    let levelN := if maxLevel = 0 then 0 else (1 : BitVec 64) <<< (maxLevel - 1)
    levelLoop f k levelN (total - levelN) 1

/-- skiplist.go:107-110: the loop that links the new element `e` in, levels `i ..`, `n` of them. -/
def link (e : Nat) (prevs : List Ref) : Nat → Nat → SL K V → Res (SL K V)
  | 0, _, w => .ok w
  | n + 1, i, w => do
    let p ← Res.ofOption prevs[i]?
    let v ← nextAt w p i
    let w ← setNext w (.elem e) i v
    let w ← setNext w p i (some e)
    link e prevs n (i + 1) w

/-- skiplist.go:86-113 `Insert`; `draw` is the random number drawn if the key is new. -/
def Insert (cmp : K → K → Int) (key : K) (value : V) (draw : BitVec 64) (w : SL K V) : Res (SL K V) := do
  let prevs ← findPrevs cmp w key w.maxLevel .head []
  let p0 ← Res.ofOption prevs[0]?
  let n0 ← nextAt w p0 0
  let same ← match n0 with
    | none => .ok none
    | some a => do
      let e ← Res.ofOption w.elems[a]?
      .ok (if cmp e.key key = 0 then some (a, e) else none)
  match same with
  | some (a, e) => .ok { w with elems := w.elems.set a { e with value := value } }
  | none => do
    let level ← randomLevel 65 w.maxLevel draw
    let e := w.elems.length
    let w1 := { w with elems := w.elems ++ [⟨key, value, List.replicate level none⟩] }
    let w2 ← link e prevs level 0 w1
    .ok { w2 with len := w2.len + 1 }

/-- skiplist.go:123-132: the loop of `Get` along a level: the value, or the node to go down from. -/
def getWalk (cmp : K → K → Int) (w : SL K V) (key : K) (i : Nat) : Nat → Ref → Option Nat → Res (Sum V Ref)
  | 0, _, _ => .outOfFuel
  | _ + 1, pre, none => .ok (.inr pre)
  | f + 1, pre, some a => do
    let e ← Res.ofOption w.elems[a]?
    if cmp e.key key = 0 then .ok (.inl e.value)
    else if cmp e.key key > 0 then .ok (.inr pre)
    else do
      let n ← nextAt w (.elem a) i
      getWalk cmp w key i f (.elem a) n

/-- skiplist.go:121-133: the levels `i-1 .. 0`. -/
def getLoop (cmp : K → K → Int) (w : SL K V) (key : K) : Nat → Ref → Res (Option V)
  | 0, _ => .ok none
  | i + 1, pre => do
    let n ← nextAt w pre i
    let r ← getWalk cmp w key i (budget w) pre n
    match r with
    | .inl v => .ok (some v)
    | .inr pre => getLoop cmp w key i pre

/-- skiplist.go:116-135 `Get`; `none` is the error. -/
def Get (cmp : K → K → Int) (key : K) (w : SL K V) : Res (Option V) := getLoop cmp w key w.maxLevel .head

/-- skiplist.go:151-153: the loop that unlinks `e`, levels `i ..`, `n` of them. -/
def unlink (e : Nat) (prevs : List Ref) : Nat → Nat → SL K V → Res (SL K V)
  | 0, _, w => .ok w
  | n + 1, i, w => do
    let v ← nextAt w (.elem e) i
    let p ← Res.ofOption prevs[i]?
    let w ← setNext w p i v
    unlink e prevs n (i + 1) w

/-- skiplist.go:138-156 `Remove`. -/
def Remove (cmp : K → K → Int) (key : K) (w : SL K V) : Res (Bool × SL K V) := do
  let prevs ← findPrevs cmp w key w.maxLevel .head []
  let p0 ← Res.ofOption prevs[0]?
  let n0 ← nextAt w p0 0
  match n0 with
  | none => .ok (false, w)
  | some a => do
    let e ← Res.ofOption w.elems[a]?
    if cmp e.key key ≠ 0 then .ok (false, w)
    else do
      let w ← unlink a prevs e.next.length 0 w
      .ok (true, { w with len := w.len - 1 })

/-- skiplist.go:159-163 `Len`. -/
def Len (w : SL K V) : Int := w.len

/-- skiplist.go:200-204: the loop of `Traversal`; the visitor keeps a state. -/
def travLoop {σ : Type} (visit : σ → K → V → σ × Bool) (w : SL K V) : Nat → Option Nat → σ → Res σ
  | 0, _, _ => .outOfFuel
  | _ + 1, none, s => .ok s
  | f + 1, some a, s => do
    let e ← Res.ofOption w.elems[a]?
    if (visit s e.key e.value).2 then do
      let n ← nextAt w (.elem a) 0
      travLoop visit w f n (visit s e.key e.value).1
    else .ok (visit s e.key e.value).1

/-- skiplist.go:196-205 `Traversal`. -/
def Traversal {σ : Type} (visit : σ → K → V → σ × Bool) (w : SL K V) (s : σ) : Res σ := do
  let n ← nextAt w .head 0
  travLoop visit w (budget w) n s

/-- skiplist.go:208-215 `Keys`. -/
def Keys (w : SL K V) : Res (List K) := Traversal (fun (s : List K) k _ => (s ++ [k], true)) w []

/-- The calls of skiplist.go:86-162; `draw` is the random number `Insert` draws (165-175). -/
inductive Op (K V : Type)
  | insert (k : K) (v : V) (draw : BitVec 64)
  | get (k : K)
  | remove (k : K)
  | len

/-- What they return; `val none` is `ErrorNotFound`. -/
inductive Out (V : Type)
  | unit
  | val (v : Option V)
  | bool (b : Bool)
  | int (n : Int)

/-- Each call as modelled above. -/
def step (cmp : K → K → Int) (op : Op K V) (w : SL K V) : Res (Out V × SL K V) :=
  match op with
  | .insert k v draw => do let w ← Insert cmp k v draw w; .ok (.unit, w)
  | .get k => do let v ← Get cmp k w; .ok (.val v, w)
  | .remove k => do let (b, w) ← Remove cmp k w; .ok (.bool b, w)
  | .len => .ok (.int (Len w), w)

/-- A program. -/
def run (cmp : K → K → Int) : List (Op K V) → SL K V → Res (List (Out V) × SL K V)
  | [], w => .ok ([], w)
  | op :: ops, w => do
    let (o, w) ← step cmp op w
    let (os, w) ← run cmp ops w
    .ok (o :: os, w)

end GoSTL.Skiplist
