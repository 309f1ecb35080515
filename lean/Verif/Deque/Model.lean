import Verif.Deque.Segment
/-!
# Model of `ds/deque/deque.go` and `ds/deque/pool.go`

Segments are heap objects named by numbers (`heap`); the ring `segs` holds pointers to them (`none` is nil), and so does the
pool. `len(d.segs) = cap(d.segs)` always, because `d.segs` only ever comes from `make` with one size. Parameters
(`Cfg`): the segment capacity (128 in the code, deque.go:10), the zero value, and `scale12 n`, the value of
`int(float64(n)*1.2)` (deque.go:365); of the latter the theorems assume only `n ≤ scale12 n`. Not modelled: `String`.
-/
namespace GoSTL.Deque

/-- Parameters, see above. -/
structure Cfg (T : Type) where
  segCap : Nat
  zero : T
  scale12 : Int → Int

/-- deque.go:19-25, with the pool of pool.go:4-6 and the heap of segments. `work` is not in the code: it counts the table
slots allocated so far by `expand`, `shrinkIfNeeded` and `shrinkToSize` (and so bounds the pointers copied); nothing reads it. -/
structure Deq (T : Type) where
  heap : List (Seg T)
  pool : List Nat
  segs : List (Option Nat)
  begin_ : Nat
  end_ : Nat
  size : Int
  work : Nat

variable {T : Type}

/-- deque.go:28-34 `New`. -/
def new : Deq T := { heap := [], pool := [], segs := [], begin_ := 0, end_ := 0, size := 0, work := 0 }

/-- Dereferencing a segment pointer. -/
def load (d : Deq T) (id : Nat) : Res (Seg T) := idx d.heap id
/-- Updating a segment in place. -/
def store (d : Deq T) (id : Nat) (s : Seg T) : Deq T := { d with heap := d.heap.set id s }

/-- deque.go:37-39 `Size`. -/
abbrev size (d : Deq T) : Int := d.size
/-- deque.go:42-44 `Empty`. -/
def empty (d : Deq T) : Bool := decide (d.size = 0)

/-- deque.go:46-54 `segUsed`. -/
def segUsed (d : Deq T) : Int :=
  if d.size = 0 then 0 else
  if d.end_ > d.begin_ then (d.end_ : Int) - d.begin_ else (d.segs.length : Int) - d.begin_ + d.end_

/-- deque.go:378-380 `nextIndex`. -/
def nextIndex (d : Deq T) (index : Nat) : Res Nat := modG (index + 1) d.segs.length
/-- deque.go:382-384 `preIndex`. -/
def preIndex (d : Deq T) (index : Nat) : Res Nat := modG (index + d.segs.length - 1) d.segs.length

/-- pool.go:12-19 `get`. -/
def poolGet (cfg : Cfg T) (d : Deq T) : Nat × Deq T :=
  match d.pool.getLast? with
  | none => (d.heap.length, { d with heap := d.heap ++ [Seg.new cfg.zero cfg.segCap] })
  | some id => (id, { d with pool := d.pool.dropLast })

/-- pool.go:25-31 `shrinkToSize`; a negative size would panic in `make`. -/
def shrinkPool (d : Deq T) (size : Int) : Res (Deq T) :=
  if (d.pool.length : Int) > size then (if size < 0 then .panic else .ok { d with pool := d.pool.take size.toNat, work := d.work + size.toNat }) else .ok d

/-- deque.go:280-287 `putToPool`, pool.go:21-23 `put`. -/
def putToPool (d : Deq T) (id : Nat) : Res (Deq T) := do
  let s ← load d id
  let d := store d id s.clear
  let d := { d with pool := d.pool ++ [id] }
  if ((d.pool.length * 6 / 5 : Nat) : Int) > segUsed d then shrinkPool d (segUsed d / 5) else .ok d

/-- deque.go:321-326 `firstSegment`. -/
def firstSegment (d : Deq T) : Res (Option Nat) := if d.segs.length = 0 then .ok none else idx d.segs d.begin_
/-- deque.go:328-333 `lastSegment`. -/
def lastSegment (d : Deq T) : Res (Option Nat) :=
  if d.segs.length = 0 then .ok none else do
  let i ← preIndex d d.end_
  idx d.segs i
/-- deque.go:335-337 `segmentAt`. -/
def segmentAt (d : Deq T) (seg : Int) : Res (Option Nat) :=
  if d.segs.length = 0 then .panic else
  let k := Int.tmod (seg + d.begin_) d.segs.length
  if k < 0 then .panic else idx d.segs k.toNat

/-- The copy loops of deque.go:353-355 and 368-370: `n` rounds from `i`, source index `(b+i) % md`. -/
def copySegs (src : List (Option Nat)) (b md : Nat) : Nat → Nat → List (Option Nat) → Res (List (Option Nat))
  | 0, _, dst => .ok dst
  | n + 1, i, dst => do
    let k ← modG (b + i) md
    let x ← idx src k
    let dst ← upd dst i x
    copySegs src b md n (i + 1) dst

/-- deque.go:347-361 `expand`. -/
def expand (d : Deq T) : Res (Deq T) := do
  let newCapacity := segUsed d * 2
  let newCapacity := if newCapacity = 0 then 1 else newCapacity
  if newCapacity < 0 then .panic else do
  let seg ← copySegs d.segs d.begin_ (segUsed d).toNat (segUsed d).toNat 0 (List.replicate newCapacity.toNat none)
  .ok { d with begin_ := 0, end_ := (segUsed d).toNat, segs := seg, work := d.work + newCapacity.toNat }

/-- deque.go:364-376 `shrinkIfNeeded`. -/
def shrinkIfNeeded (cfg : Cfg T) (d : Deq T) : Res (Deq T) :=
  if cfg.scale12 (segUsed d * 2) < d.segs.length then do
    let newCapacity := d.segs.length / 2
    let seg ← copySegs d.segs d.begin_ d.segs.length (segUsed d).toNat 0 (List.replicate newCapacity none)
    .ok { d with begin_ := 0, end_ := (segUsed d).toNat, segs := seg, work := d.work + newCapacity }
  else .ok d

/-- The growth check (deque.go:60-62, 69-71, 96-98, 103-105, 135-137, 293-295, 309-311). -/
def growIfFull (d : Deq T) : Res (Deq T) := if segUsed d ≥ d.segs.length then expand d else .ok d

/-- Adding an empty segment at the front (deque.go:297-299, 106-107); returns its pointer. -/
def addFirst (cfg : Cfg T) (d : Deq T) : Res (Nat × Deq T) := do
  let b ← preIndex d d.begin_
  let d := { d with begin_ := b }
  let (id, d) := poolGet cfg d
  let segs ← upd d.segs d.begin_ (some id)
  .ok (id, { d with segs := segs })

/-- Adding an empty segment at the back (deque.go:313-315, 138-139); returns its pointer. -/
def addLast (cfg : Cfg T) (d : Deq T) : Res (Nat × Deq T) := do
  let (id, d) := poolGet cfg d
  let segs ← upd d.segs d.end_ (some id)
  let d := { d with segs := segs }
  let e ← nextIndex d d.end_
  .ok (id, { d with end_ := e })

/-- The test `seg == nil || seg.full()` of deque.go:290, 296, 306, 312. -/
def nilOrFull (d : Deq T) (o : Option Nat) : Res Bool :=
  match o with
  | none => .ok true
  | some id => do let s ← load d id; .ok s.full

/-- deque.go:289-303 `firstAvailableSegment`. -/
def firstAvailableSegment (cfg : Cfg T) (d : Deq T) : Res (Option Nat × Deq T) := do
  let f ← firstSegment d
  let nf ← nilOrFull d f
  if nf = false then .ok (f, d) else do
  let d ← growIfFull d
  let f ← firstSegment d
  let nf ← nilOrFull d f
  if nf then do
    let (id, d) ← addFirst cfg d
    .ok (some id, d)
  else .ok (f, d)

/-- deque.go:305-319 `lastAvailableSegment`. -/
def lastAvailableSegment (cfg : Cfg T) (d : Deq T) : Res (Option Nat × Deq T) := do
  let l ← lastSegment d
  let nf ← nilOrFull d l
  if nf = false then .ok (l, d) else do
  let d ← growIfFull d
  let l ← lastSegment d
  let nf ← nilOrFull d l
  if nf then do
    let (id, d) ← addLast cfg d
    .ok (some id, d)
  else .ok (l, d)

/-- deque.go:57-63 `PushFront`. -/
def pushFront (cfg : Cfg T) (d : Deq T) (value : T) : Res (Deq T) := do
  let (o, d) ← firstAvailableSegment cfg d
  let id ← Res.ofOption o
  let s ← load d id
  let s ← s.pushFront value
  let d := store d id s
  growIfFull { d with size := d.size + 1 }

/-- deque.go:66-72 `PushBack`. -/
def pushBack (cfg : Cfg T) (d : Deq T) (value : T) : Res (Deq T) := do
  let (o, d) ← lastAvailableSegment cfg d
  let id ← Res.ofOption o
  let s ← load d id
  let s ← s.pushBack value
  let d := store d id s
  growIfFull { d with size := d.size + 1 }

/-- deque.go:339-345 `pos` (for a non-negative position). -/
def pos (cfg : Cfg T) (d : Deq T) (position : Int) : Res (Int × Int) := do
  let f ← firstSegment d
  let id ← Res.ofOption f
  let s ← load d id
  if position ≤ s.size - 1 then .ok (0, position) else
  if cfg.segCap = 0 then .panic else
  .ok (Int.tdiv (position - s.size) cfg.segCap + 1, Int.tmod (position - s.size) cfg.segCap)

/-- The loops of deque.go:123-127 and 234-238: `n` rounds of `segmentAt(i).pushBack(segmentAt(i+1).popFront())`. -/
def fwdLoop : Nat → Int → Deq T → Res (Deq T)
  | 0, _, d => .ok d
  | n + 1, i, d => do
    let cur ← segmentAt d i
    let next ← segmentAt d (i + 1)
    let nid ← Res.ofOption next
    let s ← load d nid
    let (x, s) ← s.popFront
    let d := store d nid s
    let cid ← Res.ofOption cur
    let s ← load d cid
    let s ← s.pushBack x
    fwdLoop n (i + 1) (store d cid s)

/-- The loops of deque.go:141-145 and 223-227: `n` rounds of `segmentAt(i).pushFront(segmentAt(i-1).popBack())`, `i`
counting down. -/
def bwdLoop : Nat → Int → Deq T → Res (Deq T)
  | 0, _, d => .ok d
  | n + 1, i, d => do
    let cur ← segmentAt d i
    let pre ← segmentAt d (i - 1)
    let pid ← Res.ofOption pre
    let s ← load d pid
    let (x, s) ← s.popBack
    let d := store d pid s
    let cid ← Res.ofOption cur
    let s ← load d cid
    let s ← s.pushFront x
    bwdLoop n (i - 1) (store d cid s)

/-- `d.segmentAt(seg).insert(pos, value)` (deque.go:128, 146). -/
def insertSeg (d : Deq T) (seg pos : Int) (value : T) : Res (Deq T) := do
  let o ← segmentAt d seg
  let id ← Res.ofOption o
  let s ← load d id
  let s ← s.insert pos value
  .ok (store d id s)

/-- deque.go:101-129 `moveFrontInsert`. -/
def moveFrontInsert (cfg : Cfg T) (d : Deq T) (seg pos : Int) (value : T) : Res (Deq T) := do
  let f ← firstSegment d
  let fid ← Res.ofOption f
  let fs ← load d fid
  let (d, seg, pos) ←
    if fs.full then do
      let d ← growIfFull d
      let (_, d) ← addFirst cfg d
      if pos = 0 then .ok (d, seg, (cfg.segCap : Int) - 1) else .ok (d, seg + 1, pos - 1)
    else
      if pos = 0 then .ok (d, seg - 1, (cfg.segCap : Int) - 1)
      else if seg ≠ 0 then .ok (d, seg, pos - 1) else .ok (d, seg, pos)
  let d ← fwdLoop seg.toNat 0 d
  insertSeg d seg pos value

/-- deque.go:132-147 `moveBackInsert`. -/
def moveBackInsert (cfg : Cfg T) (d : Deq T) (seg pos : Int) (value : T) : Res (Deq T) := do
  let l ← lastSegment d
  let lid ← Res.ofOption l
  let ls ← load d lid
  let d ←
    if ls.full then do
      let d ← growIfFull d
      let (_, d) ← addLast cfg d
      .ok d
    else .ok d
  let d ← bwdLoop (segUsed d - 1 - seg).toNat (segUsed d - 1) d
  insertSeg d seg pos value

/-- deque.go:75-99 `Insert`. -/
def insert (cfg : Cfg T) (d : Deq T) (p : Int) (value : T) : Res (Deq T) :=
  if p < 0 ∨ p > d.size then .ok d else
  if p = 0 then pushFront cfg d value else
  if p = d.size then pushBack cfg d value else do
  let (seg, q) ← pos cfg d p
  let d ← if seg < segUsed d - seg then moveFrontInsert cfg d seg q value else moveBackInsert cfg d seg q value
  growIfFull { d with size := d.size + 1 }

/-- deque.go:150-152 `Front`. -/
def front (d : Deq T) : Res T := do
  let f ← firstSegment d
  let id ← Res.ofOption f
  let s ← load d id
  s.front

/-- deque.go:155-157 `Back`. -/
def back (d : Deq T) : Res T := do
  let f ← lastSegment d
  let id ← Res.ofOption f
  let s ← load d id
  s.back

/-- deque.go:160-166 `At`. -/
def at_ (cfg : Cfg T) (d : Deq T) (p : Int) : Res T :=
  if p < 0 ∨ p ≥ d.size then .panic else do
  let (seg, q) ← pos cfg d p
  let o ← segmentAt d seg
  let id ← Res.ofOption o
  let s ← load d id
  s.at_ q

/-- deque.go:169-176 `Set`; the Boolean says whether `ErrOutOfRange` is returned. -/
def set (cfg : Cfg T) (d : Deq T) (p : Int) (val : T) : Res (Bool × Deq T) :=
  if p < 0 ∨ p ≥ d.size then .ok (true, d) else do
  let (seg, q) ← pos cfg d p
  let o ← segmentAt d seg
  let id ← Res.ofOption o
  let s ← load d id
  let s ← s.set q val
  .ok (false, store d id s)

/-- Dropping the last segment (deque.go:204-206, 240-242; `seg` is `preIndex(end)`). -/
def dropLastSeg (d : Deq T) (id : Nat) (seg : Nat) : Res (Deq T) := do
  let d ← putToPool d id
  let segs ← upd d.segs seg none
  .ok { d with segs := segs, end_ := seg }

/-- Dropping the first segment (deque.go:186-188, 229-231). -/
def dropFirst (d : Deq T) (id : Nat) : Res (Deq T) := do
  let d ← putToPool d id
  let segs ← upd d.segs d.begin_ none
  let d := { d with segs := segs }
  let b ← nextIndex d d.begin_
  .ok { d with begin_ := b }

/-- deque.go:179-193 `PopFront`. -/
def popFront (cfg : Cfg T) (d : Deq T) : Res (T × Deq T) :=
  if d.size = 0 then .panic else do
  let o ← idx d.segs d.begin_
  let id ← Res.ofOption o
  let s ← load d id
  let (v, s) ← s.popFront
  let d := store d id s
  let d ← if s.size = 0 then dropFirst d id else .ok d
  let d ← shrinkIfNeeded cfg { d with size := d.size - 1 }
  .ok (v, d)

/-- deque.go:196-213 `PopBack`. -/
def popBack (cfg : Cfg T) (d : Deq T) : Res (T × Deq T) :=
  if d.size = 0 then .panic else do
  let seg ← preIndex d d.end_
  let o ← idx d.segs seg
  let id ← Res.ofOption o
  let s ← load d id
  let (v, s) ← s.popBack
  let d := store d id s
  let d ← if s.size = 0 then dropLastSeg d id seg else .ok d
  let d ← shrinkIfNeeded cfg { d with size := d.size - 1 }
  .ok (v, d)

/-- deque.go:222-246, the part of `EraseAt` after the erasure in segment `seg`: shift elements from the nearer side and drop
an emptied end segment. -/
def eraseShift (cfg : Cfg T) (d : Deq T) (seg : Int) : Res (Deq T) :=
  if seg < d.size - seg - 1 then do
    let d ← bwdLoop seg.toNat seg d
    let f ← firstSegment d
    let fid ← Res.ofOption f
    let fs ← load d fid
    if fs.empty then do
      let d ← dropFirst d fid
      shrinkIfNeeded cfg d
    else .ok d
  else do
    let d ← fwdLoop (segUsed d - 1 - seg).toNat seg d
    let l ← lastSegment d
    let lid ← Res.ofOption l
    let ls ← load d lid
    if ls.empty then do
      let i ← preIndex d d.end_
      let d ← dropLastSeg d lid i
      shrinkIfNeeded cfg d
    else .ok d

/-- deque.go:216-248 `EraseAt`. -/
def eraseAt (cfg : Cfg T) (d : Deq T) (p : Int) : Res (Deq T) :=
  if p < 0 ∨ p ≥ d.size then .ok d else do
  let (seg, q) ← pos cfg d p
  let o ← segmentAt d seg
  let id ← Res.ofOption o
  let s ← load d id
  let s ← s.eraseAt q
  let d ← eraseShift cfg (store d id s) seg
  .ok { d with size := d.size - 1 }

/-- deque.go:258-260, moving the back part: `n` rounds from `p`. -/
def moveDown (cfg : Cfg T) (num : Int) : Nat → Int → Deq T → Res (Deq T)
  | 0, _, d => .ok d
  | n + 1, p, d => do
    let x ← at_ cfg d (p + num)
    let (_, d) ← set cfg d p x
    moveDown cfg num n (p + 1) d

/-- deque.go:266-268, moving the front part: `n` rounds from `p` downwards. -/
def moveUp (cfg : Cfg T) (num : Int) : Nat → Int → Deq T → Res (Deq T)
  | 0, _, d => .ok d
  | n + 1, p, d => do
    let x ← at_ cfg d (p - num)
    let (_, d) ← set cfg d p x
    moveUp cfg num n (p - 1) d

/-- deque.go:261-263. -/
def popBackN (cfg : Cfg T) : Nat → Deq T → Res (Deq T)
  | 0, d => .ok d
  | n + 1, d => do let (_, d) ← popBack cfg d; popBackN cfg n d

/-- deque.go:269-271. -/
def popFrontN (cfg : Cfg T) : Nat → Deq T → Res (Deq T)
  | 0, d => .ok d
  | n + 1, d => do let (_, d) ← popFront cfg d; popFrontN cfg n d

/-- deque.go:251-273 `EraseRange`. -/
def eraseRange (cfg : Cfg T) (d : Deq T) (firstPos lastPos : Int) : Res (Deq T) :=
  if firstPos < 0 ∨ firstPos ≥ lastPos ∨ lastPos > d.size then .ok d else
  let num := lastPos - firstPos
  if d.size - firstPos < lastPos then do
    let d ← moveDown cfg num (d.size - num - firstPos).toNat firstPos d
    popBackN cfg num.toNat d
  else do
    let d ← moveUp cfg num (lastPos - num).toNat (lastPos - 1) d
    popFrontN cfg num.toNat d

/-- deque.go:276-278 `Clear`. -/
def clear (cfg : Cfg T) (d : Deq T) : Res (Deq T) := eraseRange cfg d 0 d.size

/-! ## All calls as one step -/

/-- The calls of deque.go:37-278; `clear` is `Clear` (276-278). -/
inductive Op (T : Type)
  | pushFront (v : T)
  | pushBack (v : T)
  | insert (p : Int) (v : T)
  | popFront
  | popBack
  | eraseAt (p : Int)
  | eraseRange (a b : Int)
  | set (p : Int) (v : T)
  | clear
  | at (p : Int)
  | front
  | back
  | size
  | empty

/-- What a call returns; `err` is the error result of `Set` (`true` for `ErrOutOfRange`). -/
inductive Out (T : Type)
  | unit
  | val (x : T)
  | int (n : Int)
  | bool (b : Bool)
  | err (b : Bool)

/-- Each call as modelled above. -/
def step (cfg : Cfg T) (op : Op T) (d : Deq T) : Res (Out T × Deq T) :=
  match op with
  | .pushFront v => do let d ← pushFront cfg d v; .ok (.unit, d)
  | .pushBack v => do let d ← pushBack cfg d v; .ok (.unit, d)
  | .insert p v => do let d ← insert cfg d p v; .ok (.unit, d)
  | .popFront => do let (x, d) ← popFront cfg d; .ok (.val x, d)
  | .popBack => do let (x, d) ← popBack cfg d; .ok (.val x, d)
  | .eraseAt p => do let d ← eraseAt cfg d p; .ok (.unit, d)
  | .eraseRange a b => do let d ← eraseRange cfg d a b; .ok (.unit, d)
  | .set p v => do let (e, d) ← set cfg d p v; .ok (.err e, d)
  | .clear => do let d ← clear cfg d; .ok (.unit, d)
  | .at p => do let x ← at_ cfg d p; .ok (.val x, d)
  | .front => do let x ← front d; .ok (.val x, d)
  | .back => do let x ← back d; .ok (.val x, d)
  | .size => .ok (.int (size d), d)
  | .empty => .ok (.bool (empty d), d)

/-- A history of calls. -/
def run (cfg : Cfg T) : List (Op T) → Deq T → Res (List (Out T) × Deq T)
  | [], d => .ok ([], d)
  | op :: ops, d => do
    let (o, d) ← step cfg op d
    let (os, d) ← run cfg ops d
    .ok (o :: os, d)

end GoSTL.Deque
