import Verif.Deque.Memory
import Verif.Basic.Int64
/-!
# C106: the deque with Go's `int`

The functions of `Deque/Segment` and `Deque/Model` once more, with the wrapping arithmetic of `int`. Indices that come from `%` are natural numbers;
loop counters that run between two compared `int`s cannot wrap. `poolGet`, `shrinkPool`, `firstSegment` and `nilOrFull` compute nothing.
-/
namespace GoSTL.Deque

/-- Go `a % c`, used as an index: a negative result panics when it is used. -/
def modM (a : Int) (c : Nat) : Res Nat := if c = 0 then .panic else if a.tmod c < 0 then .panic else .ok (a.tmod c).toNat

namespace Seg
variable {T : Type}

/-- segment.go:105-107 `nextIndex`. -/
def nextIndexM (s : Seg T) (index : Nat) : Res Nat := modM (int64 (index + 1)) s.capacity
/-- segment.go:109-111 `preIndex`. -/
def preIndexM (s : Seg T) (index : Nat) : Res Nat := modM (int64 (int64 (index - 1) + s.capacity)) s.capacity

/-- segment.go:17-21 `pushBack`. -/
def pushBackM (s : Seg T) (value : T) : Res (Seg T) := do
  let data ← upd s.data s.end_ value
  let s := { s with data := data }
  let e ← s.nextIndexM s.end_
  .ok { s with end_ := e, nSize := int64 (s.nSize + 1) }

/-- segment.go:23-27 `pushFront`. -/
def pushFrontM (s : Seg T) (val : T) : Res (Seg T) := do
  let b ← s.preIndexM s.begin_
  let data ← upd s.data b val
  .ok { s with begin_ := b, data := data, nSize := int64 (s.nSize + 1) }

/-- segment.go:33-36, the loop moving the front part: `n` rounds. -/
def insFrontLoopM : Nat → Nat → Seg T → Res (Nat × Seg T)
  | 0, i, s => .ok (i, s)
  | n + 1, i, s => do
    let j ← s.nextIndexM i
    let x ← idx s.data j
    let data ← upd s.data i x
    let s := { s with data := data }
    let j ← s.nextIndexM i
    insFrontLoopM n j s

/-- segment.go:42-45, the loop moving the back part: `n` rounds. -/
def insBackLoopM : Nat → Nat → Seg T → Res (Nat × Seg T)
  | 0, i, s => .ok (i, s)
  | n + 1, i, s => do
    let j ← s.preIndexM i
    let x ← idx s.data j
    let data ← upd s.data i x
    let s := { s with data := data }
    let j ← s.preIndexM i
    insBackLoopM n j s

/-- segment.go:29-50 `insert`. -/
def insertM (s : Seg T) (position : Int) (value : T) : Res (Seg T) :=
  if position < int64 (s.nSize - position) then do
    let i ← s.preIndexM s.begin_
    let (i, s) ← insFrontLoopM position.toNat i s
    let data ← upd s.data i value
    let s := { s with data := data }
    let b ← s.preIndexM s.begin_
    .ok { s with begin_ := b, nSize := int64 (s.nSize + 1) }
  else do
    let i := s.end_
    let (i, s) ← insBackLoopM (int64 (s.nSize - position)).toNat i s
    let data ← upd s.data i value
    let s := { s with data := data }
    let e ← s.nextIndexM s.end_
    .ok { s with end_ := e, nSize := int64 (s.nSize + 1) }

/-- segment.go:52-58 `popBack`. -/
def popBackM (s : Seg T) : Res (T × Seg T) := do
  let e ← s.preIndexM s.end_
  let val ← idx s.data e
  .ok (val, { s with end_ := e, nSize := int64 (s.nSize - 1) })

/-- segment.go:60-66 `popFront`. -/
def popFrontM (s : Seg T) : Res (T × Seg T) := do
  let val ← idx s.data s.begin_
  let b ← s.nextIndexM s.begin_
  .ok (val, { s with begin_ := b, nSize := int64 (s.nSize - 1) })

/-- segment.go:70-74, the loop of `eraseAt` moving the front part; `i` rounds remain. -/
def eraseFrontLoopM : Nat → Seg T → Res (Seg T)
  | 0, s => .ok s
  | i + 1, s => do
    let index ← modM (int64 ((i + 1 : Nat) + s.begin_)) s.capacity
    let prI ← modM (int64 (int64 ((i + 1 : Nat) - 1) + s.begin_)) s.capacity
    let x ← idx s.data prI
    let data ← upd s.data index x
    eraseFrontLoopM i { s with data := data }

/-- segment.go:78-82, the loop of `eraseAt` moving the back part: `n` rounds from `i`. -/
def eraseBackLoopM : Nat → Nat → Seg T → Res (Seg T)
  | 0, _, s => .ok s
  | n + 1, i, s => do
    let index ← modM (int64 (i + s.begin_)) s.capacity
    let neI ← modM (int64 (int64 (i + 1) + s.begin_)) s.capacity
    let x ← idx s.data neI
    let data ← upd s.data index x
    eraseBackLoopM n (i + 1) { s with data := data }

/-- segment.go:68-87 `eraseAt` (the position is never negative). -/
def eraseAtM (s : Seg T) (position : Int) : Res (Seg T) :=
  if position < int64 (s.nSize - position) then do
    let s ← eraseFrontLoopM position.toNat s
    let b ← s.nextIndexM s.begin_
    .ok { s with begin_ := b, nSize := int64 (s.nSize - 1) }
  else do
    let s ← eraseBackLoopM (int64 (s.nSize - position)).toNat position.toNat s
    let e ← s.preIndexM s.end_
    .ok { s with end_ := e, nSize := int64 (s.nSize - 1) }

/-- segment.go:113-119 `at`. -/
def at_M (s : Seg T) (position : Int) : Res T :=
  if position < 0 ∨ position ≥ s.nSize then .panic else do
  let i ← modM (int64 (position + s.begin_)) s.capacity
  idx s.data i

/-- segment.go:121-126 `set`. -/
def setM (s : Seg T) (position : Int) (val : T) : Res (Seg T) :=
  if position < 0 ∨ position ≥ (s.data.length : Int) then .ok s else do
  let i ← modM (int64 (position + s.begin_)) s.capacity
  let data ← upd s.data i val
  .ok { s with data := data }

/-- segment.go:128-130 `back`. -/
def backM (s : Seg T) : Res T := s.at_M (int64 (s.nSize - 1))
/-- segment.go:132-134 `front`. -/
def frontM (s : Seg T) : Res T := s.at_M 0
end Seg

variable {T : Type}

/-- deque.go:46-54 `segUsed`. -/
def segUsedM (d : Deq T) : Int :=
  if d.size = 0 then 0 else
  if d.end_ > d.begin_ then int64 ((d.end_ : Int) - d.begin_) else int64 (int64 ((d.segs.length : Int) - d.begin_) + d.end_)

/-- deque.go:378-380 `nextIndex`. -/
def nextIndexM (d : Deq T) (index : Nat) : Res Nat := modM (int64 (index + 1)) d.segs.length
/-- deque.go:382-384 `preIndex`. -/
def preIndexM (d : Deq T) (index : Nat) : Res Nat := modM (int64 (int64 (index - 1) + d.segs.length)) d.segs.length

/-- deque.go:280-287 `putToPool`, pool.go:21-23 `put`. -/
def putToPoolM (d : Deq T) (id : Nat) : Res (Deq T) := do
  let s ← load d id
  let d := store d id s.clear
  let d := { d with pool := d.pool ++ [id] }
  if (int64 (d.pool.length * 6)).tdiv 5 > segUsedM d then shrinkPool d ((segUsedM d).tdiv 5) else .ok d

/-- deque.go:328-333 `lastSegment`. -/
def lastSegmentM (d : Deq T) : Res (Option Nat) :=
  if d.segs.length = 0 then .ok none else do
  let i ← preIndexM d d.end_
  idx d.segs i
/-- deque.go:335-337 `segmentAt`. -/
def segmentAtM (d : Deq T) (seg : Int) : Res (Option Nat) :=
  if d.segs.length = 0 then .panic else
  let k := Int.tmod (int64 (seg + d.begin_)) d.segs.length
  if k < 0 then .panic else idx d.segs k.toNat

/-- The copy loops of deque.go:353-355 and 368-370: `n` rounds from `i`, source index `(b+i) % md`. -/
def copySegsM (src : List (Option Nat)) (b md : Nat) : Nat → Nat → List (Option Nat) → Res (List (Option Nat))
  | 0, _, dst => .ok dst
  | n + 1, i, dst => do
    let k ← modM (int64 (b + i)) md
    let x ← idx src k
    let dst ← upd dst i x
    copySegsM src b md n (i + 1) dst

/-- deque.go:347-361 `expand`. -/
def expandM (d : Deq T) : Res (Deq T) := do
  let newCapacity := int64 (segUsedM d * 2)
  let newCapacity := if newCapacity = 0 then 1 else newCapacity
  if newCapacity < 0 then .panic else do
  let seg ← copySegsM d.segs d.begin_ (segUsedM d).toNat (segUsedM d).toNat 0 (List.replicate newCapacity.toNat none)
  .ok { d with begin_ := 0, end_ := (segUsedM d).toNat, segs := seg, work := d.work + newCapacity.toNat }

/-- deque.go:364-376 `shrinkIfNeeded`. -/
def shrinkIfNeededM (cfg : Cfg T) (d : Deq T) : Res (Deq T) :=
  if cfg.scale12 (int64 (segUsedM d * 2)) < d.segs.length then do
    let newCapacity := d.segs.length / 2
    let seg ← copySegsM d.segs d.begin_ d.segs.length (segUsedM d).toNat 0 (List.replicate newCapacity none)
    .ok { d with begin_ := 0, end_ := (segUsedM d).toNat, segs := seg, work := d.work + newCapacity }
  else .ok d

/-- The growth check (deque.go:60-62, 69-71, 96-98, 103-105, 135-137, 293-295, 309-311). -/
def growIfFullM (d : Deq T) : Res (Deq T) := if segUsedM d ≥ d.segs.length then expandM d else .ok d

/-- Adding an empty segment at the front (deque.go:297-299, 106-107); returns its pointer. -/
def addFirstM (cfg : Cfg T) (d : Deq T) : Res (Nat × Deq T) := do
  let b ← preIndexM d d.begin_
  let d := { d with begin_ := b }
  let (id, d) := poolGet cfg d
  let segs ← upd d.segs d.begin_ (some id)
  .ok (id, { d with segs := segs })

/-- Adding an empty segment at the back (deque.go:313-315, 138-139); returns its pointer. -/
def addLastM (cfg : Cfg T) (d : Deq T) : Res (Nat × Deq T) := do
  let (id, d) := poolGet cfg d
  let segs ← upd d.segs d.end_ (some id)
  let d := { d with segs := segs }
  let e ← nextIndexM d d.end_
  .ok (id, { d with end_ := e })

/-- deque.go:289-303 `firstAvailableSegment`. -/
def firstAvailableSegmentM (cfg : Cfg T) (d : Deq T) : Res (Option Nat × Deq T) := do
  let f ← firstSegment d
  let nf ← nilOrFull d f
  if nf = false then .ok (f, d) else do
  let d ← growIfFullM d
  let f ← firstSegment d
  let nf ← nilOrFull d f
  if nf then do
    let (id, d) ← addFirstM cfg d
    .ok (some id, d)
  else .ok (f, d)

/-- deque.go:305-319 `lastAvailableSegment`. -/
def lastAvailableSegmentM (cfg : Cfg T) (d : Deq T) : Res (Option Nat × Deq T) := do
  let l ← lastSegmentM d
  let nf ← nilOrFull d l
  if nf = false then .ok (l, d) else do
  let d ← growIfFullM d
  let l ← lastSegmentM d
  let nf ← nilOrFull d l
  if nf then do
    let (id, d) ← addLastM cfg d
    .ok (some id, d)
  else .ok (l, d)

/-- deque.go:57-63 `PushFront`. -/
def pushFrontM (cfg : Cfg T) (d : Deq T) (value : T) : Res (Deq T) := do
  let (o, d) ← firstAvailableSegmentM cfg d
  let id ← Res.ofOption o
  let s ← load d id
  let s ← s.pushFrontM value
  let d := store d id s
  growIfFullM { d with size := int64 (d.size + 1) }

/-- deque.go:66-72 `PushBack`. -/
def pushBackM (cfg : Cfg T) (d : Deq T) (value : T) : Res (Deq T) := do
  let (o, d) ← lastAvailableSegmentM cfg d
  let id ← Res.ofOption o
  let s ← load d id
  let s ← s.pushBackM value
  let d := store d id s
  growIfFullM { d with size := int64 (d.size + 1) }

/-- deque.go:339-345 `pos` (for a non-negative position). -/
def posM (cfg : Cfg T) (d : Deq T) (position : Int) : Res (Int × Int) := do
  let f ← firstSegment d
  let id ← Res.ofOption f
  let s ← load d id
  if position ≤ int64 (s.size - 1) then .ok (0, position) else
  if cfg.segCap = 0 then .panic else
  .ok (int64 (Int.tdiv (int64 (position - s.size)) cfg.segCap + 1), Int.tmod (int64 (position - s.size)) cfg.segCap)

/-- The loops of deque.go:123-127 and 234-238: `n` rounds of `segmentAt(i).pushBack(segmentAt(i+1).popFront())`. -/
def fwdLoopM : Nat → Int → Deq T → Res (Deq T)
  | 0, _, d => .ok d
  | n + 1, i, d => do
    let cur ← segmentAtM d i
    let next ← segmentAtM d (int64 (i + 1))
    let nid ← Res.ofOption next
    let s ← load d nid
    let (x, s) ← s.popFrontM
    let d := store d nid s
    let cid ← Res.ofOption cur
    let s ← load d cid
    let s ← s.pushBackM x
    fwdLoopM n (int64 (i + 1)) (store d cid s)

/-- The loops of deque.go:141-145 and 223-227: `n` rounds of `segmentAt(i).pushFront(segmentAt(i-1).popBack())`, `i`
counting down. -/
def bwdLoopM : Nat → Int → Deq T → Res (Deq T)
  | 0, _, d => .ok d
  | n + 1, i, d => do
    let cur ← segmentAtM d i
    let pre ← segmentAtM d (int64 (i - 1))
    let pid ← Res.ofOption pre
    let s ← load d pid
    let (x, s) ← s.popBackM
    let d := store d pid s
    let cid ← Res.ofOption cur
    let s ← load d cid
    let s ← s.pushFrontM x
    bwdLoopM n (int64 (i - 1)) (store d cid s)

/-- `d.segmentAt(seg).insert(pos, value)` (deque.go:128, 146). -/
def insertSegM (d : Deq T) (seg pos : Int) (value : T) : Res (Deq T) := do
  let o ← segmentAtM d seg
  let id ← Res.ofOption o
  let s ← load d id
  let s ← s.insertM pos value
  .ok (store d id s)

/-- deque.go:101-129 `moveFrontInsert`. -/
def moveFrontInsertM (cfg : Cfg T) (d : Deq T) (seg pos : Int) (value : T) : Res (Deq T) := do
  let f ← firstSegment d
  let fid ← Res.ofOption f
  let fs ← load d fid
  let (d, seg, pos) ←
    if fs.full then do
      let d ← growIfFullM d
      let (_, d) ← addFirstM cfg d
      if pos = 0 then .ok (d, seg, (cfg.segCap : Int) - 1) else .ok (d, int64 (seg + 1), int64 (pos - 1))
    else
      if pos = 0 then .ok (d, int64 (seg - 1), (cfg.segCap : Int) - 1)
      else if seg ≠ 0 then .ok (d, seg, int64 (pos - 1)) else .ok (d, seg, pos)
  let d ← fwdLoopM seg.toNat 0 d
  insertSegM d seg pos value

/-- deque.go:132-147 `moveBackInsert`. -/
def moveBackInsertM (cfg : Cfg T) (d : Deq T) (seg pos : Int) (value : T) : Res (Deq T) := do
  let l ← lastSegmentM d
  let lid ← Res.ofOption l
  let ls ← load d lid
  let d ←
    if ls.full then do
      let d ← growIfFullM d
      let (_, d) ← addLastM cfg d
      .ok d
    else .ok d
  let d ← bwdLoopM (int64 (segUsedM d - 1) - seg).toNat (int64 (segUsedM d - 1)) d
  insertSegM d seg pos value

/-- deque.go:75-99 `Insert`. -/
def insertM (cfg : Cfg T) (d : Deq T) (p : Int) (value : T) : Res (Deq T) :=
  if p < 0 ∨ p > d.size then .ok d else
  if p = 0 then pushFrontM cfg d value else
  if p = d.size then pushBackM cfg d value else do
  let (seg, q) ← posM cfg d p
  let d ← if seg < int64 (segUsedM d - seg) then moveFrontInsertM cfg d seg q value else moveBackInsertM cfg d seg q value
  growIfFullM { d with size := int64 (d.size + 1) }

/-- deque.go:150-152 `Front`. -/
def frontM (d : Deq T) : Res T := do
  let f ← firstSegment d
  let id ← Res.ofOption f
  let s ← load d id
  s.frontM

/-- deque.go:155-157 `Back`. -/
def backM (d : Deq T) : Res T := do
  let f ← lastSegmentM d
  let id ← Res.ofOption f
  let s ← load d id
  s.backM

/-- deque.go:160-166 `At`. -/
def at_M (cfg : Cfg T) (d : Deq T) (p : Int) : Res T :=
  if p < 0 ∨ p ≥ d.size then .panic else do
  let (seg, q) ← posM cfg d p
  let o ← segmentAtM d seg
  let id ← Res.ofOption o
  let s ← load d id
  s.at_M q

/-- deque.go:169-176 `Set`; the Boolean says whether `ErrOutOfRange` is returned. -/
def setM (cfg : Cfg T) (d : Deq T) (p : Int) (val : T) : Res (Bool × Deq T) :=
  if p < 0 ∨ p ≥ d.size then .ok (true, d) else do
  let (seg, q) ← posM cfg d p
  let o ← segmentAtM d seg
  let id ← Res.ofOption o
  let s ← load d id
  let s ← s.setM q val
  .ok (false, store d id s)

/-- Dropping the last segment (deque.go:204-206, 240-242; `seg` is `preIndex(end)`). -/
def dropLastSegM (d : Deq T) (id : Nat) (seg : Nat) : Res (Deq T) := do
  let d ← putToPoolM d id
  let segs ← upd d.segs seg none
  .ok { d with segs := segs, end_ := seg }

/-- Dropping the first segment (deque.go:186-188, 229-231). -/
def dropFirstM (d : Deq T) (id : Nat) : Res (Deq T) := do
  let d ← putToPoolM d id
  let segs ← upd d.segs d.begin_ none
  let d := { d with segs := segs }
  let b ← nextIndexM d d.begin_
  .ok { d with begin_ := b }

/-- deque.go:179-193 `PopFront`. -/
def popFrontM (cfg : Cfg T) (d : Deq T) : Res (T × Deq T) :=
  if d.size = 0 then .panic else do
  let o ← idx d.segs d.begin_
  let id ← Res.ofOption o
  let s ← load d id
  let (v, s) ← s.popFrontM
  let d := store d id s
  let d ← if s.size = 0 then dropFirstM d id else .ok d
  let d ← shrinkIfNeededM cfg { d with size := int64 (d.size - 1) }
  .ok (v, d)

/-- deque.go:196-213 `PopBack`. -/
def popBackM (cfg : Cfg T) (d : Deq T) : Res (T × Deq T) :=
  if d.size = 0 then .panic else do
  let seg ← preIndexM d d.end_
  let o ← idx d.segs seg
  let id ← Res.ofOption o
  let s ← load d id
  let (v, s) ← s.popBackM
  let d := store d id s
  let d ← if s.size = 0 then dropLastSegM d id seg else .ok d
  let d ← shrinkIfNeededM cfg { d with size := int64 (d.size - 1) }
  .ok (v, d)

/-- deque.go:222-246, the part of `EraseAt` after the erasure in segment `seg`: shift elements from the nearer side and drop
an emptied end segment. -/
def eraseShiftM (cfg : Cfg T) (d : Deq T) (seg : Int) : Res (Deq T) :=
  if seg < int64 (int64 (d.size - seg) - 1) then do
    let d ← bwdLoopM seg.toNat seg d
    let f ← firstSegment d
    let fid ← Res.ofOption f
    let fs ← load d fid
    if fs.empty then do
      let d ← dropFirstM d fid
      shrinkIfNeededM cfg d
    else .ok d
  else do
    let d ← fwdLoopM (int64 (segUsedM d - 1) - seg).toNat seg d
    let l ← lastSegmentM d
    let lid ← Res.ofOption l
    let ls ← load d lid
    if ls.empty then do
      let i ← preIndexM d d.end_
      let d ← dropLastSegM d lid i
      shrinkIfNeededM cfg d
    else .ok d

/-- deque.go:216-248 `EraseAt`. -/
def eraseAtM (cfg : Cfg T) (d : Deq T) (p : Int) : Res (Deq T) :=
  if p < 0 ∨ p ≥ d.size then .ok d else do
  let (seg, q) ← posM cfg d p
  let o ← segmentAtM d seg
  let id ← Res.ofOption o
  let s ← load d id
  let s ← s.eraseAtM q
  let d ← eraseShiftM cfg (store d id s) seg
  .ok { d with size := int64 (d.size - 1) }

/-- deque.go:258-260, moving the back part: `n` rounds from `p`. -/
def moveDownM (cfg : Cfg T) (num : Int) : Nat → Int → Deq T → Res (Deq T)
  | 0, _, d => .ok d
  | n + 1, p, d => do
    let x ← at_M cfg d (int64 (p + num))
    let (_, d) ← setM cfg d p x
    moveDownM cfg num n (int64 (p + 1)) d

/-- deque.go:266-268, moving the front part: `n` rounds from `p` downwards. -/
def moveUpM (cfg : Cfg T) (num : Int) : Nat → Int → Deq T → Res (Deq T)
  | 0, _, d => .ok d
  | n + 1, p, d => do
    let x ← at_M cfg d (int64 (p - num))
    let (_, d) ← setM cfg d p x
    moveUpM cfg num n (int64 (p - 1)) d

/-- deque.go:261-263. -/
def popBackNM (cfg : Cfg T) : Nat → Deq T → Res (Deq T)
  | 0, d => .ok d
  | n + 1, d => do let (_, d) ← popBackM cfg d; popBackNM cfg n d

/-- deque.go:269-271. -/
def popFrontNM (cfg : Cfg T) : Nat → Deq T → Res (Deq T)
  | 0, d => .ok d
  | n + 1, d => do let (_, d) ← popFrontM cfg d; popFrontNM cfg n d

/-- deque.go:251-273 `EraseRange`. -/
def eraseRangeM (cfg : Cfg T) (d : Deq T) (firstPos lastPos : Int) : Res (Deq T) :=
  if firstPos < 0 ∨ firstPos ≥ lastPos ∨ lastPos > d.size then .ok d else
  let num := int64 (lastPos - firstPos)
  if int64 (d.size - firstPos) < lastPos then do
    let d ← moveDownM cfg num (d.size - num - firstPos).toNat firstPos d
    popBackNM cfg num.toNat d
  else do
    let d ← moveUpM cfg num (lastPos - num).toNat (int64 (lastPos - 1)) d
    popFrontNM cfg num.toNat d

/-- deque.go:276-278 `Clear`. -/
def clearM (cfg : Cfg T) (d : Deq T) : Res (Deq T) := eraseRangeM cfg d 0 d.size

/-- Each call as modelled above. -/
def stepM (cfg : Cfg T) (op : Op T) (d : Deq T) : Res (Out T × Deq T) :=
  match op with
  | .pushFront v => do let d ← pushFrontM cfg d v; .ok (.unit, d)
  | .pushBack v => do let d ← pushBackM cfg d v; .ok (.unit, d)
  | .insert p v => do let d ← insertM cfg d p v; .ok (.unit, d)
  | .popFront => do let (x, d) ← popFrontM cfg d; .ok (.val x, d)
  | .popBack => do let (x, d) ← popBackM cfg d; .ok (.val x, d)
  | .eraseAt p => do let d ← eraseAtM cfg d p; .ok (.unit, d)
  | .eraseRange a b => do let d ← eraseRangeM cfg d a b; .ok (.unit, d)
  | .set p v => do let (e, d) ← setM cfg d p v; .ok (.err e, d)
  | .clear => do let d ← clearM cfg d; .ok (.unit, d)
  | .at p => do let x ← at_M cfg d p; .ok (.val x, d)
  | .front => do let x ← frontM d; .ok (.val x, d)
  | .back => do let x ← backM d; .ok (.val x, d)
  | .size => .ok (.int (size d), d)
  | .empty => .ok (.bool (empty d), d)

/-- A history of calls. -/
def runM (cfg : Cfg T) : List (Op T) → Deq T → Res (List (Out T) × Deq T)
  | [], d => .ok ([], d)
  | op :: ops, d => do
    let (o, d) ← stepM cfg op d
    let (os, d) ← runM cfg ops d
    .ok (o :: os, d)

end GoSTL.Deque
