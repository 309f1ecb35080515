import Verif.Vector.Proofs
/-!
# Model of `ds/array/array.go`, and what arrays are supposed to be

An `Array` object is the slice header `a.values`; the elements live in the memory shared by all arrays (`GoSlice.Mem`).
`Data` is in `Array/Data.lean`. Not modelled: `String` (`fmt.Sprintf` of the slice).
-/
namespace GoSTL.Arr
open GoSTL.GoSlice

variable {T : Type} (zero : T)

/-- array.go:13-15 `New`; a negative size panics in `make`. -/
def new (m : Mem T) (size : Int) : Res (Mem T × Slice) := make zero m size size

/-- array.go:18-24 `NewFromArray`. -/
def newFromArray (m : Mem T) (other : Slice) : Res (Mem T × Slice) := do
  let (m, data) ← make zero m other.len other.len
  let m ← Vector.copyLoop other data other.len 0 m
  .ok (m, data)

/-- array.go:28-30, the loop of `Fill`: `n` rounds from index `i`. -/
def fillLoop (s : Slice) (val : T) : Nat → Int → Mem T → Res (Mem T)
  | 0, _, m => .ok m
  | n + 1, i, m => do
    let m ← write m s i val
    fillLoop s val n (i + 1) m

/-- array.go:27-31 `Fill`. -/
def fill (m : Mem T) (s : Slice) (val : T) : Res (Mem T) := fillLoop s val s.len 0 m

/-- array.go:34-39 `Set`. -/
def set (m : Mem T) (s : Slice) (pos : Int) (val : T) : Res (Mem T) :=
  if pos < 0 ∨ pos ≥ (s.len : Int) then .ok m else write m s pos val

/-- array.go:42-47 `At`. -/
def at_ (m : Mem T) (s : Slice) (pos : Int) : Res T :=
  if pos < 0 ∨ pos ≥ (s.len : Int) then .panic else read m s pos

/-- array.go:50-52 `Front`. -/
def front (m : Mem T) (s : Slice) : Res T := at_ m s 0
/-- array.go:55-57 `Back`. -/
def back (m : Mem T) (s : Slice) : Res T := at_ m s ((s.len : Int) - 1)
/-- array.go:60-62 `Size`. -/
abbrev size (s : Slice) : Int := s.len
/-- array.go:65-67 `Empty`. -/
def empty (s : Slice) : Bool := decide (s.len = 0)

/-- The program state: memory and the header of every array object. -/
structure World (T : Type) where
  mem : Mem T
  arrs : List Slice

/-- All calls; arrays are named by their number of creation. -/
inductive Call (T : Type)
  | new (size : Int)
  | newFromArray (i : Nat)
  | fill (i : Nat) (val : T)
  | set (i : Nat) (pos : Int) (val : T)
  | at (i : Nat) (pos : Int)
  | front (i : Nat)
  | back (i : Nat)
  | size (i : Nat)
  | empty (i : Nat)
  | swapArray (i j : Nat)

/-- What a call returns. -/
inductive Out (T : Type)
  | unit
  | val (x : T)
  | int (n : Int)
  | bool (b : Bool)

/-- The header of array `i`; a missing array is a nil dereference. -/
def hdr (w : World T) (i : Nat) : Res Slice := Res.ofOption w.arrs[i]?

/-- One call. `SwapArray` (array.go:70-75) exchanges the two headers when the sizes agree. -/
def step (c : Call T) (w : World T) : Res (Out T × World T) :=
  match c with
  | .new n => do let (m, s) ← new zero w.mem n; .ok (.unit, { mem := m, arrs := w.arrs ++ [s] })
  | .newFromArray i => do
    let o ← hdr w i
    let (m, s) ← newFromArray zero w.mem o
    .ok (.unit, { mem := m, arrs := w.arrs ++ [s] })
  | .fill i v => do let s ← hdr w i; let m ← fill w.mem s v; .ok (.unit, { w with mem := m })
  | .set i p v => do let s ← hdr w i; let m ← set w.mem s p v; .ok (.unit, { w with mem := m })
  | .at i p => do let s ← hdr w i; let x ← at_ w.mem s p; .ok (.val x, w)
  | .front i => do let s ← hdr w i; let x ← front w.mem s; .ok (.val x, w)
  | .back i => do let s ← hdr w i; let x ← back w.mem s; .ok (.val x, w)
  | .size i => do let s ← hdr w i; .ok (.int (size s), w)
  | .empty i => do let s ← hdr w i; .ok (.bool (empty s), w)
  | .swapArray i j => do
    let a ← hdr w i
    let o ← hdr w j
    if size a ≠ size o then .ok (.unit, w) else .ok (.unit, { w with arrs := (w.arrs.set i o).set j a })

/-- A history of calls. -/
def run : List (Call T) → World T → Res (List (Out T) × World T)
  | [], w => .ok ([], w)
  | c :: cs, w => do
    let (o, w) ← step zero c w
    let (os, w) ← run cs w
    .ok (o :: os, w)

/-! ## Specification: independent plain sequences -/

/-- One call on plain sequences. -/
def specStep (c : Call T) (ls : List (List T)) : Res (Out T × List (List T)) :=
  match c with
  | .new n => if n < 0 then .panic else .ok (.unit, ls ++ [List.replicate n.toNat zero])
  | .newFromArray i => do let l ← Res.ofOption ls[i]?; .ok (.unit, ls ++ [l])
  | .fill i v => do let l ← Res.ofOption ls[i]?; .ok (.unit, ls.set i (List.replicate l.length v))
  | .set i p v => do
    let l ← Res.ofOption ls[i]?
    .ok (.unit, if 0 ≤ p ∧ p < l.length then ls.set i (l.set p.toNat v) else ls)
  | .at i p => do
    let l ← Res.ofOption ls[i]?
    if 0 ≤ p then do let x ← Res.ofOption l[p.toNat]?; .ok (.val x, ls) else .panic
  | .front i => do let l ← Res.ofOption ls[i]?; let x ← Res.ofOption l.head?; .ok (.val x, ls)
  | .back i => do let l ← Res.ofOption ls[i]?; let x ← Res.ofOption l.getLast?; .ok (.val x, ls)
  | .size i => do let l ← Res.ofOption ls[i]?; .ok (.int l.length, ls)
  | .empty i => do let l ← Res.ofOption ls[i]?; .ok (.bool l.isEmpty, ls)
  | .swapArray i j => do
    let a ← Res.ofOption ls[i]?
    let b ← Res.ofOption ls[j]?
    .ok (.unit, if a.length = b.length then (ls.set i b).set j a else ls)

/-- A history on plain sequences. -/
def specRun : List (Call T) → List (List T) → Res (List (Out T) × List (List T))
  | [], ls => .ok ([], ls)
  | c :: cs, ls => do
    let (o, ls) ← specStep zero c ls
    let (os, ls) ← specRun cs ls
    .ok (o :: os, ls)

end GoSTL.Arr
