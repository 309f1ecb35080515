import Verif.Seq.Prog
/-!
# Model of `algorithm/sort` and of the mutating part of `algorithm`

Every function is a program over the random-access iterator interface (`Seq.Prog`); an iterator of the container is its
position. `int` is unbounded here (`Algo/Machine` has the wrap-around). Recursions and loops whose termination is part of what is to be shown carry a
budget. `a >> 1` is floor division by two.
-/
namespace GoSTL.Algo
open GoSTL.Seq

variable {T : Type}

/-- algorithm/sort/sort.go:71-76 `swapValue`; algorithm/op.go:8-13 `Swap`. -/
def swapValue (a b : Int) : Prog T Unit := do
  let valA ← value a
  let valB ← value b
  setValue a valB
  setValue b valA

/-- The compare-and-exchange statement `if cmp(a.Value(), b.Value()) > 0 { swapValue(a, b) }`
(algorithm/sort/sort.go:21-23, 60-62, 63-65, 66-68 and nth_element.go:24-26). -/
def swapIfGreater (cmp : T → T → Int) (a b : Int) : Prog T Unit := do
  let x ← value a
  let y ← value b
  if cmp x y > 0 then swapValue a b else pure ()

/-- algorithm/sort/sort.go:59-69 `doPivot`. -/
def doPivot (cmp : T → T → Int) (first mid last : Int) : Prog T Unit := do
  swapIfGreater cmp first mid
  swapIfGreater cmp first last
  swapIfGreater cmp mid last

/-- algorithm/sort/sort.go:36-52 (and, identically, nth_element.go:37-53): the partition loop; returns the final
position of `rightIter`. -/
def partitionLoop (cmp : T → T → Int) (base : Int) : Nat → Int → Int → Prog T Int
  | 0, _, _ => .outOfFuel
  | f + 1, left, right =>
    if left ≤ right then do
      let x ← value left
      let b ← value base
      if cmp x b ≤ 0 then do
        let left ← next left
        partitionLoop cmp base f left right
      else do
        let y ← value right
        let b ← value base
        if cmp y b > 0 then do
          let right ← prev right
          partitionLoop cmp base f left right
        else do
          swapValue left right
          let left ← next left
          let right ← prev right
          partitionLoop cmp base f left right
    else pure right

/-- algorithm/sort/sort.go:14-57 `quickSort` (recursion with budget). `first` and `last` are inclusive positions. -/
def quickSort (cmp : T → T → Int) : Nat → Int → Int → Prog T Unit
  | 0, _, _ => .outOfFuel
  | f + 1, first, last =>
    if first ≥ last then pure () else do
    let len := last - first + 1
    if len < 3 then swapIfGreater cmp first last
    else do
      let mid := first + len / 2
      doPivot cmp first mid last
      swapValue mid (last - 1)
      if len = 3 then pure () else do
      let base := last - 1
      let right ← partitionLoop cmp base (len.toNat + 1) (first + 1) (last - 2)
      let m ← next right
      swapValue base m
      quickSort cmp f first (m - 1)
      let first' ← next m
      quickSort cmp f first' last

/-- algorithm/sort/sort.go:9-12 `Sort`. -/
def sort (cmp : T → T → Int) (first last : Int) : Prog T Unit :=
  quickSort cmp ((last - first).toNat + 1) first (first + (last - first) - 1)

/-- algorithm/sort/nth_element.go:17-63 `nthElement` (recursion with budget). -/
def nthElementRec (cmp : T → T → Int) : Nat → Int → Int → Int → Prog T Unit
  | 0, _, _, _ => .outOfFuel
  | f + 1, first, last, n =>
    if first + 1 ≥ last then pure () else do
    let len := last - first + 1
    if len < 3 then swapIfGreater cmp first last
    else do
      let mid := first + len / 2
      doPivot cmp first mid last
      swapValue mid (last - 1)
      if len = 3 then pure () else do
      let base := last - 1
      let right ← partitionLoop cmp base (len.toNat + 1) (first + 1) (last - 2)
      let m ← next right
      swapValue base m
      if n ≤ m - first then nthElementRec cmp f first m n
      else do
        let first' ← next m
        nthElementRec cmp f first' last (n - (m - first + 1))

/-- algorithm/sort/nth_element.go:9-15 `NthElement`. -/
def nthElement (cmp : T → T → Int) (first last n : Int) : Prog T Unit :=
  if first < 0 ∨ last - first < n then pure ()
  else nthElementRec cmp ((last - first).toNat + 2) first (first + (last - first) - 1) n

/-- algorithm/sort/search.go:18-31, the loop of `binarySearch`. -/
def binarySearchLoop (cmp : T → T → Int) (val : T) : Nat → Int → Int → Prog T Bool
  | 0, _, _ => .outOfFuel
  | f + 1, left, right =>
    if left ≤ right then do
      let mid := (left + right) / 2
      let x ← value mid
      if cmp val x = 0 then pure true
      else if cmp val x < 0 then do
        let right ← prev mid
        binarySearchLoop cmp val f left right
      else do
        let left ← next mid
        binarySearchLoop cmp val f left right
    else pure false

/-- algorithm/sort/search.go:9-33 `BinarySearch`. -/
def binarySearch (cmp : T → T → Int) (first last : Int) (val : T) : Prog T Bool := do
  let v ← isValid first
  if v = false ∨ first ≥ last then pure false else do
  let right ← prev last
  binarySearchLoop cmp val ((last - first).toNat + 1) first right

/-- algorithm/sort/search.go:51-60 / 80-89, the loop of `lowerBound` and `upperBound`; `below` is the test
`cmp(val, x) <= 0` respectively `cmp(val, x) < 0`. -/
def boundLoop (below : T → Bool) : Nat → Int → Int → Int → Prog T Int
  | 0, _, _, _ => .outOfFuel
  | f + 1, left, right, pos =>
    if left ≤ right then do
      let mid := (left + right) / 2
      let x ← value mid
      if below x then do
        let right ← prev mid
        boundLoop below f left right mid
      else do
        let left ← next mid
        boundLoop below f left right pos
    else pure pos

/-- algorithm/sort/search.go:36-62 `LowerBound`: the returned position. -/
def lowerBound (cmp : T → T → Int) (first last : Int) (val : T) : Prog T Int := do
  let v ← isValid first
  if v = false ∨ first ≥ last then pure last else do
  let right ← prev last
  let x ← value right
  if cmp val x > 0 then pure last
  else boundLoop (fun x => decide (cmp val x ≤ 0)) ((last - first).toNat + 1) first right 0

/-- algorithm/sort/search.go:65-91 `UpperBound`: the returned position. -/
def upperBound (cmp : T → T → Int) (first last : Int) (val : T) : Prog T Int := do
  let v ← isValid first
  if v = false ∨ first ≥ last then pure last else do
  let right ← prev last
  let x ← value right
  if cmp val x ≥ 0 then pure last
  else boundLoop (fun x => decide (cmp val x < 0)) ((last - first).toNat + 1) first right 0

/-- algorithm/sort/next_permutation.go:16-19, the first loop: the final `cur` (`pre` is always `cur - 1`). -/
def npDescend (cmp : T → T → Int) (first : Int) : Nat → Int → Prog T Int
  | 0, _ => .outOfFuel
  | f + 1, cur =>
    if cur > first then do
      let x ← value (cur - 1)
      let y ← value cur
      if cmp x y ≥ 0 then npDescend cmp first f (cur - 1) else pure cur
    else pure cur

/-- algorithm/sort/next_permutation.go:23-25, the second loop: the final `cur`. -/
def npFind (cmp : T → T → Int) (pre : Int) : Nat → Int → Prog T Int
  | 0, _ => .outOfFuel
  | f + 1, cur => do
    let x ← value cur
    let y ← value pre
    if cmp x y ≤ 0 then npFind cmp pre f (cur - 1) else pure cur

/-- algorithm/sort/next_permutation.go:31-37 `reverse`. -/
def npReverse : Nat → Int → Int → Prog T Unit
  | 0, _, _ => .outOfFuel
  | f + 1, s, e =>
    if s < e then do
      swapValue s e
      let s ← next s
      let e ← prev e
      npReverse f s e
    else pure ()

/-- algorithm/sort/next_permutation.go:9-29 `NextPermutation`. -/
def nextPermutation (cmp : T → T → Int) (first last : Int) : Prog T Bool := do
  let len := last - first
  let endPos := first + len - 1
  let cur ← npDescend cmp first (len.toNat + 1) endPos
  let pre := cur - 1
  if cur ≤ first then pure false else do
  let cur ← npFind cmp pre (len.toNat + 1) endPos
  swapValue cur pre
  npReverse (len.toNat + 1) (pre + 1) endPos
  pure true

/-- algorithm/op.go:19-26, the loop of `Reverse`. -/
def reverseLoop : Nat → Int → Int → Prog T Unit
  | 0, _, _ => .outOfFuel
  | f + 1, left, right =>
    if left ≠ right then do
      swapValue left right
      let left ← next left
      if left = right then pure () else do
      let right ← prev right
      reverseLoop f left right
    else pure ()

/-- algorithm/op.go:16-27 `Reverse` on random-access iterators (budget: see C24). -/
def reverse (fuel : Nat) (first last : Int) : Prog T Unit := do
  let right ← prev last
  reverseLoop fuel first right

/-! ## Stable sort -/

/-- algorithm/sort/stable_sort.go:30-40, the first loop of `merge`: fills `tempSlice[pos..]`; returns the two iterators,
`pos` and the buffer. Writing past the end of the buffer panics. -/
def mergeLoop (cmp : T → T → Int) (mid last : Int) :
    Nat → Int → Int → Nat → List T → Prog T (Int × Int × Nat × List T)
  | 0, _, _, _, _ => .outOfFuel
  | f + 1, a, b, pos, tmp =>
    if a < mid ∧ b < last then do
      let x ← value a
      let y ← value b
      if cmp x y ≤ 0 then do
        let x ← value a
        if pos < tmp.length then do
          let a ← next a
          mergeLoop cmp mid last f a b (pos + 1) (tmp.set pos x)
        else .panic
      else do
        let y ← value b
        if pos < tmp.length then do
          let b ← next b
          mergeLoop cmp mid last f a b (pos + 1) (tmp.set pos y)
        else .panic
    else pure (a, b, pos, tmp)

/-- algorithm/sort/stable_sort.go:41-48, the two draining loops of `merge`. -/
def drainLoop (stop : Int) : Nat → Int → Nat → List T → Prog T (Nat × List T)
  | 0, _, _, _ => .outOfFuel
  | f + 1, a, pos, tmp =>
    if a < stop then do
      let x ← value a
      if pos < tmp.length then do
        let a ← next a
        drainLoop stop f a (pos + 1) (tmp.set pos x)
      else .panic
    else pure (pos, tmp)

/-- algorithm/sort/stable_sort.go:50-54, copying the buffer back: `idx` from `i` to `pos`. -/
def copyBack (tmp : List T) : Nat → Nat → Int → Prog T Unit
  | 0, _, _ => pure ()
  | k + 1, idx, it => do
    match tmp[idx]? with
    | none => .panic
    | some x => do
      setValue it x
      let it ← next it
      copyBack tmp k (idx + 1) it

/-- algorithm/sort/stable_sort.go:25-55 `merge`; returns the buffer. -/
def merge (cmp : T → T → Int) (first mid last : Int) (tmp : List T) : Prog T (List T) := do
  let fuel := (last - first).toNat + 1
  let (a, b, pos, tmp) ← mergeLoop cmp mid last fuel first mid 0 tmp
  let (pos, tmp) ← drainLoop mid fuel a pos tmp
  let (pos, tmp) ← drainLoop last fuel b pos tmp
  copyBack tmp pos 0 first
  pure tmp

/-- algorithm/sort/stable_sort.go:15-23 `mergeSort` (recursion with budget); returns the buffer. -/
def mergeSort (cmp : T → T → Int) : Nat → Int → Int → List T → Prog T (List T)
  | 0, _, _, _ => .outOfFuel
  | f + 1, first, last, tmp =>
    if first + 1 = last then pure tmp else do
    let mid := (first + last) / 2
    let tmp ← mergeSort cmp f first mid tmp
    let tmp ← mergeSort cmp f mid last tmp
    merge cmp first mid last tmp

/-- algorithm/sort/stable_sort.go:9-13 `Stable`: `make` panics for a negative length; `zero` is the zero value the
buffer is filled with. -/
def stable (zero : T) (cmp : T → T → Int) (fuel : Nat) (first last : Int) : Prog T Unit := do
  if last - first < 0 then .panic else do
  let _ ← mergeSort cmp fuel first last (List.replicate (last - first).toNat zero)
  pure ()

end GoSTL.Algo
