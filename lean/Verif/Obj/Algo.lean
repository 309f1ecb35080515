import Verif.Obj.Iter
import Verif.Algo.Model
/-!
# `algorithm/sort` and `algorithm/op.go` on iterator objects

The same functions as in `Algo/Model`, with every `Clone`, `IteratorAt`, `Next` and `Prev` of the code as an operation on iterator objects. Budgets as there.
-/
namespace GoSTL.Obj
open GoSTL.Seq

variable {T : Type}

/-- algorithm/sort/sort.go:71-76 `swapValue`; algorithm/op.go:8-13 `Swap`. -/
def swapValue (a b : Han) : OProg T Unit := do
  let valA ← valueO a
  let valB ← valueO b
  setValueO a valB
  setValueO b valA

/-- algorithm/sort/sort.go:21-23, 60-62, 63-65, 66-68, nth_element.go:24-26. -/
def swapIfGreater (cmp : T → T → Int) (a b : Han) : OProg T Unit := do
  let x ← valueO a
  let y ← valueO b
  if cmp x y > 0 then swapValue a b else pure ()

/-- algorithm/sort/sort.go:59-69 `doPivot`. -/
def doPivot (cmp : T → T → Int) (first mid last : Han) : OProg T Unit := do
  swapIfGreater cmp first mid
  swapIfGreater cmp first last
  swapIfGreater cmp mid last

/-- algorithm/sort/sort.go:36-49, nth_element.go:36-49: the partition loop moves `left` and `right`. -/
def partitionLoop (cmp : T → T → Int) (base left right : Han) : Nat → OProg T Unit
  | 0 => fuelO
  | f + 1 => do
    let l ← position left
    let r ← position right
    if l ≤ r then do
      let x ← valueO left
      let b ← valueO base
      if cmp x b ≤ 0 then do
        let _ ← nextO left
        partitionLoop cmp base left right f
      else do
        let y ← valueO right
        let b ← valueO base
        if cmp y b > 0 then do
          let _ ← prevO right
          partitionLoop cmp base left right f
        else do
          swapValue left right
          let _ ← nextO left
          let _ ← prevO right
          partitionLoop cmp base left right f
    else pure ()

/-- algorithm/sort/sort.go:14-57 `quickSort`. -/
def quickSort (cmp : T → T → Int) : Nat → Han → Han → OProg T Unit
  | 0, _, _ => fuelO
  | f + 1, first, last => do
    let a ← position first
    let b ← position last
    if a ≥ b then pure () else do
    let b ← position last
    let a ← position first
    let len := b - a + 1
    if len < 3 then swapIfGreater cmp first last
    else do
      let a ← position first
      let mid ← iteratorAt first (a + len / 2)
      doPivot cmp first mid last
      let b ← position last
      let t ← iteratorAt first (b - 1)
      swapValue mid t
      if len = 3 then pure () else do
      let b ← position last
      let base ← iteratorAt first (b - 1)
      let a ← position first
      let left ← iteratorAt first (a + 1)
      let b ← position last
      let right ← iteratorAt first (b - 2)
      partitionLoop cmp base left right (len.toNat + 1)
      let _ ← nextO right
      let m ← position right
      swapValue base right
      let e ← iteratorAt first (m - 1)
      quickSort cmp f first e
      let s ← iteratorAt first m
      let s ← nextO s
      quickSort cmp f s last

/-- algorithm/sort/sort.go:9-12 `Sort`. -/
def sort (cmp : T → T → Int) (first last : Han) : OProg T Unit := do
  let b ← position last
  let a ← position first
  let n := b - a
  let a ← position first
  let e ← iteratorAt first (a + n - 1)
  quickSort cmp (n.toNat + 1) first e

/-- algorithm/sort/nth_element.go:17-63 `nthElement`. -/
def nthElementRec (cmp : T → T → Int) : Nat → Han → Han → Int → OProg T Unit
  | 0, _, _, _ => fuelO
  | f + 1, first, last, n => do
    let a ← position first
    let b ← position last
    if a + 1 ≥ b then pure () else do
    let b ← position last
    let a ← position first
    let len := b - a + 1
    if len < 3 then swapIfGreater cmp first last
    else do
      let a ← position first
      let mid ← iteratorAt first (a + len / 2)
      doPivot cmp first mid last
      let b ← position last
      let t ← iteratorAt first (b - 1)
      swapValue mid t
      if len = 3 then pure () else do
      let b ← position last
      let base ← iteratorAt first (b - 1)
      let a ← position first
      let left ← iteratorAt first (a + 1)
      let b ← position last
      let right ← iteratorAt first (b - 2)
      partitionLoop cmp base left right (len.toNat + 1)
      let _ ← nextO right
      let m ← position right
      swapValue base right
      let a ← position first
      if n ≤ m - a then do
        let e ← iteratorAt first m
        nthElementRec cmp f first e n
      else do
        let s ← iteratorAt first m
        let s ← nextO s
        let a ← position first
        nthElementRec cmp f s last (n - (m - a + 1))

/-- algorithm/sort/nth_element.go:9-15 `NthElement`. -/
def nthElement (cmp : T → T → Int) (first last : Han) (n : Int) : OProg T Unit := do
  let a ← position first
  let b ← position last
  if a < 0 ∨ b - a < n then pure () else do
  let b ← position last
  let a ← position first
  let len := b - a
  let e ← iteratorAt last (a + len - 1)
  nthElementRec cmp (len.toNat + 2) first e n

/-- algorithm/sort/search.go:18-31, the loop of `binarySearch`; `left` and `right` are variables that hold iterators. -/
def binarySearchLoop (cmp : T → T → Int) (val : T) : Nat → Han → Han → OProg T Bool
  | 0, _, _ => fuelO
  | f + 1, left, right => do
    let l ← position left
    let r ← position right
    if l ≤ r then do
      let mid ← iteratorAt right ((l + r) / 2)
      let x ← valueO mid
      if cmp val x = 0 then pure true
      else if cmp val x < 0 then do
        let right ← prevO mid
        binarySearchLoop cmp val f left right
      else do
        let left ← nextO mid
        binarySearchLoop cmp val f left right
    else pure false

/-- algorithm/sort/search.go:9-33 `BinarySearch`. -/
def binarySearch (cmp : T → T → Int) (first last : Han) (val : T) : OProg T Bool := do
  let v ← isValidO first
  let a ← position first
  let b ← position last
  if v = false ∨ a ≥ b then pure false else do
  let left ← clone first
  let right ← clone last
  let right ← prevO right
  binarySearchLoop cmp val ((b - a).toNat + 1) left right

/-- algorithm/sort/search.go:50-60, 79-89, the loop of `lowerBound` and `upperBound`; returns `pos`. -/
def boundLoop (below : T → Bool) : Nat → Han → Han → Int → OProg T Int
  | 0, _, _, _ => fuelO
  | f + 1, left, right, pos => do
    let l ← position left
    let r ← position right
    if l ≤ r then do
      let mid ← iteratorAt left ((l + r) / 2)
      let x ← valueO mid
      if below x then do
        let pos ← position mid
        let right ← prevO mid
        boundLoop below f left right pos
      else do
        let left ← nextO mid
        boundLoop below f left right pos
    else pure pos

/-- algorithm/sort/search.go:36-62 `LowerBound`: the returned iterator. -/
def lowerBound (cmp : T → T → Int) (first last : Han) (val : T) : OProg T Han := do
  let v ← isValidO first
  let a ← position first
  let b ← position last
  if v = false ∨ a ≥ b then clone last else do
  let left ← clone first
  let right ← clone last
  let right ← prevO right
  let x ← valueO right
  if cmp val x > 0 then clone last
  else do
    let pos ← boundLoop (fun x => decide (cmp val x ≤ 0)) ((b - a).toNat + 1) left right 0
    iteratorAt first pos

/-- algorithm/sort/search.go:65-91 `UpperBound`: the returned iterator. -/
def upperBound (cmp : T → T → Int) (first last : Han) (val : T) : OProg T Han := do
  let v ← isValidO first
  let a ← position first
  let b ← position last
  if v = false ∨ a ≥ b then clone last else do
  let left ← clone first
  let right ← clone last
  let right ← prevO right
  let x ← valueO right
  if cmp val x ≥ 0 then clone last
  else do
    let pos ← boundLoop (fun x => decide (cmp val x < 0)) ((b - a).toNat + 1) left right 0
    iteratorAt first pos

/-- algorithm/sort/next_permutation.go:16-19, the first loop (`pre` is always `cur - 1`). -/
def npDescend (cmp : T → T → Int) (first : Han) : Nat → Int → OProg T Int
  | 0, _ => fuelO
  | f + 1, cur => do
    let a ← position first
    if cur > a then do
      let i ← iteratorAt first (cur - 1)
      let x ← valueO i
      let j ← iteratorAt first cur
      let y ← valueO j
      if cmp x y ≥ 0 then npDescend cmp first f (cur - 1) else pure cur
    else pure cur

/-- algorithm/sort/next_permutation.go:23-25, the second loop. -/
def npFind (cmp : T → T → Int) (first : Han) (pre : Int) : Nat → Int → OProg T Int
  | 0, _ => fuelO
  | f + 1, cur => do
    let i ← iteratorAt first cur
    let x ← valueO i
    let j ← iteratorAt first pre
    let y ← valueO j
    if cmp x y ≤ 0 then npFind cmp first pre f (cur - 1) else pure cur

/-- algorithm/sort/next_permutation.go:31-37 `reverse`, which moves the iterators it is given. -/
def npReverse (s e : Han) : Nat → OProg T Unit
  | 0 => fuelO
  | f + 1 => do
    let a ← position s
    let b ← position e
    if a < b then do
      swapValue s e
      let _ ← nextO s
      let _ ← prevO e
      npReverse s e f
    else pure ()

/-- algorithm/sort/next_permutation.go:9-29 `NextPermutation`. -/
def nextPermutation (cmp : T → T → Int) (first last : Han) : OProg T Bool := do
  let b ← position last
  let a ← position first
  let len := b - a
  let a ← position first
  let endPos := a + len - 1
  let endIter ← iteratorAt first endPos
  let cur ← npDescend cmp first (len.toNat + 1) endPos
  let pre := cur - 1
  let a ← position first
  if cur ≤ a then pure false else do
  let cur ← npFind cmp first pre (len.toNat + 1) endPos
  let i ← iteratorAt first cur
  let j ← iteratorAt first pre
  swapValue i j
  let s ← iteratorAt first (pre + 1)
  npReverse s endIter (len.toNat + 1)
  pure true

/-- algorithm/op.go:19-26, the loop of `Reverse`. -/
def reverseLoop (left right : Han) : Nat → OProg T Unit
  | 0 => fuelO
  | f + 1 => do
    let e ← equalO left right
    if e = true then pure () else do
    swapValue left right
    let _ ← nextO left
    let e ← equalO left right
    if e = true then pure () else do
    let _ ← prevO right
    reverseLoop left right f

/-- algorithm/op.go:16-27 `Reverse`. -/
def reverse (fuel : Nat) (first last : Han) : OProg T Unit := do
  let left ← clone first
  let right ← clone last
  let right ← prevO right
  reverseLoop left right fuel

/-- algorithm/sort/stable_sort.go:30-40, the first loop of `merge`: moves `first` and `second`; returns `pos` and the buffer. -/
def mergeLoop (cmp : T → T → Int) (mid last first second : Han) : Nat → Nat → List T → OProg T (Nat × List T)
  | 0, _, _ => fuelO
  | f + 1, pos, tmp => do
    let a ← position first
    let m ← position mid
    let b ← position second
    let e ← position last
    if a < m ∧ b < e then do
      let x ← valueO first
      let y ← valueO second
      if cmp x y ≤ 0 then do
        let x ← valueO first
        if pos < tmp.length then do
          let _ ← nextO first
          mergeLoop cmp mid last first second f (pos + 1) (tmp.set pos x)
        else panicO
      else do
        let y ← valueO second
        if pos < tmp.length then do
          let _ ← nextO second
          mergeLoop cmp mid last first second f (pos + 1) (tmp.set pos y)
        else panicO
    else pure (pos, tmp)

/-- algorithm/sort/stable_sort.go:41-48, the draining loops of `merge`. -/
def drainLoop (stop it : Han) : Nat → Nat → List T → OProg T (Nat × List T)
  | 0, _, _ => fuelO
  | f + 1, pos, tmp => do
    let a ← position it
    let s ← position stop
    if a < s then do
      let x ← valueO it
      if pos < tmp.length then do
        let _ ← nextO it
        drainLoop stop it f (pos + 1) (tmp.set pos x)
      else panicO
    else pure (pos, tmp)

/-- algorithm/sort/stable_sort.go:51-54, copying the buffer back. -/
def copyBack (tmp : List T) (it : Han) : Nat → Nat → OProg T Unit
  | 0, _ => pure ()
  | k + 1, idx => do
    match tmp[idx]? with
    | none => panicO
    | some x => do
      setValueO it x
      let _ ← nextO it
      copyBack tmp it k (idx + 1)

/-- algorithm/sort/stable_sort.go:25-55 `merge`; returns the buffer. -/
def merge (cmp : T → T → Int) (first mid last : Han) (tmp : List T) : OProg T (List T) := do
  let b ← position last
  let a ← position first
  let fuel := (b - a).toNat + 1
  let firstIter ← clone first
  let secondIter ← clone mid
  let (pos, tmp) ← mergeLoop cmp mid last firstIter secondIter fuel 0 tmp
  let (pos, tmp) ← drainLoop mid firstIter fuel pos tmp
  let (pos, tmp) ← drainLoop last secondIter fuel pos tmp
  let iter ← clone first
  copyBack tmp iter pos 0
  pure tmp

/-- algorithm/sort/stable_sort.go:15-23 `mergeSort`; returns the buffer. -/
def mergeSort (cmp : T → T → Int) : Nat → Han → Han → List T → OProg T (List T)
  | 0, _, _, _ => fuelO
  | f + 1, first, last, tmp => do
    let a ← position first
    let b ← position last
    if a + 1 = b then pure tmp else do
    let a ← position first
    let b ← position last
    let mid ← iteratorAt first ((a + b) / 2)
    let tmp ← mergeSort cmp f first mid tmp
    let tmp ← mergeSort cmp f mid last tmp
    merge cmp first mid last tmp

/-- algorithm/sort/stable_sort.go:9-13 `Stable`. -/
def stable (zero : T) (cmp : T → T → Int) (fuel : Nat) (first last : Han) : OProg T Unit := do
  let b ← position last
  let a ← position first
  if b - a < 0 then panicO else do
  let _ ← mergeSort cmp fuel first last (List.replicate (b - a).toNat zero)
  pure ()

end GoSTL.Obj
