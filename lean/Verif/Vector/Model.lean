import Verif.GoSlice.Mem
/-!
# Model of `ds/vector/vector.go`

A `Vector` object is the slice header `v.data`; its elements live in the memory shared by all vectors. Every method takes
and returns memory and header. `extra` is the spare room the runtime gives a reallocated array (arbitrary in every call).
`Data` is in `Vector/Data.lean`. Not modelled: `String` (`fmt.Sprintf` of the slice).
-/
namespace GoSTL.Vector
open GoSTL.GoSlice

variable {T : Type} (zero : T)

/-- vector.go:29-37 `New` with `WithCapacity(capacity)` (0 by default); a negative capacity panics in `make`. -/
def new (m : Mem T) (capacity : Int) : Res (Mem T × Slice) := make zero m 0 capacity

/-- The element-wise copy loops (vector.go:42-44, 145-147, 158-160; array.go:20-22): indices `i .. i+n-1`. -/
def copyLoop (src dst : Slice) : Nat → Int → Mem T → Res (Mem T)
  | 0, _, m => .ok m
  | n + 1, i, m => do
    let x ← read m src i
    let m ← write m dst i x
    copyLoop src dst n (i + 1) m

/-- vector.go:40-46 `NewFromVector`. -/
def newFromVector (m : Mem T) (other : Slice) : Res (Mem T × Slice) := do
  let (m, data) ← make zero m other.len other.cap
  let m ← copyLoop other data other.len 0 m
  .ok (m, data)

/-- vector.go:49-51 `Size`. -/
abbrev size (s : Slice) : Int := s.len
/-- vector.go:54-56 `Capacity`. -/
abbrev capacity (s : Slice) : Int := s.cap
/-- vector.go:59-64 `Empty`. -/
def empty (s : Slice) : Bool := if s.len = 0 then true else false

/-- vector.go:67-69 `PushBack`. -/
def pushBack (m : Mem T) (s : Slice) (val : T) (extra : Nat) : Mem T × Slice := append zero m s [val] extra

/-- vector.go:72-77 `SetAt`. -/
def setAt (m : Mem T) (s : Slice) (pos : Int) (val : T) : Res (Mem T) :=
  if pos < 0 ∨ pos ≥ size s then .ok m else write m s pos val

/-- vector.go:85-87, the shifting loop of `InsertAt`: `n` rounds with `i` counting down. -/
def shiftLoop (s : Slice) : Nat → Int → Mem T → Res (Mem T)
  | 0, _, m => .ok m
  | n + 1, i, m => do
    let x ← read m s (i - 1)
    let m ← write m s i x
    shiftLoop s n (i - 1) m

/-- vector.go:80-89 `InsertAt`. -/
def insertAt (m : Mem T) (s : Slice) (pos : Int) (val : T) (extra : Nat) : Res (Mem T × Slice) :=
  if pos < 0 ∨ pos > size s then .ok (m, s) else do
  let (m, s) := append zero m s [val] extra
  let m ← shiftLoop s ((s.len : Int) - 1 - pos).toNat (s.len - 1) m
  let m ← write m s pos val
  .ok (m, s)

/-- vector.go:97-109 `EraseIndexRange`; the values appended are read before they are written, as `append` does for
overlapping slices. -/
def eraseIndexRange (m : Mem T) (s : Slice) (first last : Int) (extra : Nat) : Res (Mem T × Slice) :=
  if first > last then .ok (m, s) else
  if first < 0 ∨ last > size s then .ok (m, s) else do
  let left ← reslice s 0 first
  let right ← reslice s last s.len
  .ok (append zero m left (contents m right) extra)

/-- vector.go:92-94 `EraseAt`. -/
def eraseAt (m : Mem T) (s : Slice) (pos : Int) (extra : Nat) : Res (Mem T × Slice) := eraseIndexRange zero m s pos (pos + 1) extra

/-- vector.go:112-117 `At`. -/
def at_ (m : Mem T) (s : Slice) (pos : Int) : Res T :=
  if pos < 0 ∨ pos ≥ size s then .panic else read m s pos

/-- vector.go:120-122 `Front`. -/
def front (m : Mem T) (s : Slice) : Res T := at_ m s 0
/-- vector.go:125-127 `Back`. -/
def back (m : Mem T) (s : Slice) : Res T := at_ m s (size s - 1)

/-- vector.go:130-137 `PopBack`. -/
def popBack (m : Mem T) (s : Slice) : Res (T × Slice) :=
  if empty s then .panic else do
  let val ← back m s
  let s ← reslice s 0 (s.len - 1)
  .ok (val, s)

/-- vector.go:140-149 `Reserve`. -/
def reserve (m : Mem T) (s : Slice) (capacity : Int) : Res (Mem T × Slice) :=
  if s.cap ≥ capacity then .ok (m, s) else do
  let (m, data) ← make zero m (size s) capacity
  let m ← copyLoop s data s.len 0 m
  .ok (m, data)

/-- vector.go:152-162 `ShrinkToFit`. -/
def shrinkToFit (m : Mem T) (s : Slice) : Res (Mem T × Slice) :=
  if s.len = s.cap then .ok (m, s) else do
  let (m, data) ← make zero m (size s) (size s)
  let m ← copyLoop s data s.len 0 m
  .ok (m, data)

/-- vector.go:165-167 `Clear`. -/
def clear (s : Slice) : Res Slice := reslice s 0 0

/-- vector.go:222-227 `Resize`: only ever shrinks. -/
def resize (s : Slice) (n : Int) : Res Slice := if n ≥ size s then .ok s else reslice s 0 n

/-! ## All calls as one step -/

/-- The method calls on a vector. The calls taking an iterator (vector.go:200-219 `Insert`, `Erase`, `EraseRange`) use the
iterator's position only. -/
inductive Op (T : Type)
  | pushBack (val : T) (extra : Nat)
  | setAt (pos : Int) (val : T)
  | insertAt (pos : Int) (val : T) (extra : Nat)
  | eraseAt (pos : Int) (extra : Nat)
  | eraseIndexRange (first last : Int) (extra : Nat)
  | insert (pos : Int) (val : T) (extra : Nat)
  | erase (pos : Int) (extra : Nat)
  | eraseRange (first last : Int) (extra : Nat)
  | at (pos : Int)
  | front
  | back
  | popBack
  | reserve (capacity : Int)
  | shrinkToFit
  | clear
  | resize (n : Int)
  | size
  | empty

/-- What a call returns. -/
inductive Out (T : Type)
  | unit
  | val (x : T)
  | int (n : Int)
  | bool (b : Bool)

/-- One call on the vector `s`. -/
def step (op : Op T) (m : Mem T) (s : Slice) : Res (Out T × Mem T × Slice) :=
  match op with
  | .pushBack v e => let (m, s) := pushBack zero m s v e; .ok (.unit, m, s)
  | .setAt p v => do let m ← setAt m s p v; .ok (.unit, m, s)
  | .insertAt p v e => do let (m, s) ← insertAt zero m s p v e; .ok (.unit, m, s)
  | .eraseAt p e => do let (m, s) ← eraseAt zero m s p e; .ok (.unit, m, s)
  | .eraseIndexRange a b e => do let (m, s) ← eraseIndexRange zero m s a b e; .ok (.unit, m, s)
  | .insert p v e => do let (m, s) ← insertAt zero m s p v e; .ok (.int p, m, s)
  | .erase p e => do let (m, s) ← eraseAt zero m s p e; .ok (.int p, m, s)
  | .eraseRange a b e => do let (m, s) ← eraseIndexRange zero m s a b e; .ok (.int a, m, s)
  | .at p => do let x ← at_ m s p; .ok (.val x, m, s)
  | .front => do let x ← front m s; .ok (.val x, m, s)
  | .back => do let x ← back m s; .ok (.val x, m, s)
  | .popBack => do let (x, s) ← popBack m s; .ok (.val x, m, s)
  | .reserve c => do let (m, s) ← reserve zero m s c; .ok (.unit, m, s)
  | .shrinkToFit => do let (m, s) ← shrinkToFit zero m s; .ok (.unit, m, s)
  | .clear => do let s ← clear s; .ok (.unit, m, s)
  | .resize n => do let s ← resize s n; .ok (.unit, m, s)
  | .size => .ok (.int (size s), m, s)
  | .empty => .ok (.bool (empty s), m, s)

/-- A program state with several vectors: the memory and the header of each vector object. -/
structure World (T : Type) where
  mem : Mem T
  vecs : List Slice

/-- Calls: constructors and methods. -/
inductive Call (T : Type)
  | new (capacity : Int)
  | newFromVector (i : Nat)
  | on (i : Nat) (op : Op T)

/-- One call on the whole state; calling a method on a vector that does not exist is a nil dereference. -/
def wstep (c : Call T) (w : World T) : Res (Out T × World T) :=
  match c with
  | .new k => do let (m, s) ← new zero w.mem k; .ok (.unit, { mem := m, vecs := w.vecs ++ [s] })
  | .newFromVector i =>
    match w.vecs[i]? with
    | none => .panic
    | some o => do let (m, s) ← newFromVector zero w.mem o; .ok (.unit, { mem := m, vecs := w.vecs ++ [s] })
  | .on i op =>
    match w.vecs[i]? with
    | none => .panic
    | some v => do let (o, m, s) ← step zero op w.mem v; .ok (o, { mem := m, vecs := w.vecs.set i s })

/-- A history of calls. -/
def wrun : List (Call T) → World T → Res (List (Out T) × World T)
  | [], w => .ok ([], w)
  | c :: cs, w => do
    let (o, w) ← wstep zero c w
    let (os, w) ← wrun cs w
    .ok (o :: os, w)

end GoSTL.Vector
