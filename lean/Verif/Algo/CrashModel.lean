import Verif.Algo.Model
/-!
# Model of `algorithm/sort` with the comparator calls as effects

In `Verif/Algo/Model.lean` the comparator is a mathematical function. A Go comparator is a closure: it may keep state, answer the same
question differently the next time, and panic at any call (for example on a nil element). Here a call of the comparator is an effect of
the program (`CProg.cmp`), answered by a comparator with a state of any type (`CmpFn`), and a run that the comparator ends by a
panic yields the container as that panic leaves it (`Out.crashed`). `handle_sort` and the like show that with a comparator that is a
function these are the programs of `Verif/Algo/Model.lean`.
-/
namespace GoSTL.Algo
open GoSTL.Seq

/-- A program over a random-access container of `T` that also calls a comparator. -/
inductive CProg (T : Type) (α : Type) : Type where
  | ret (a : α)
  | get (i : Int) (k : T → CProg T α)
  | set (i : Int) (v : T) (k : CProg T α)
  | size (k : Int → CProg T α)
  | cmp (x y : T) (k : Int → CProg T α)
  | panic
  | outOfFuel

namespace CProg
variable {T α β : Type}

/-- One program after the other. -/
def bind : CProg T α → (α → CProg T β) → CProg T β
  | ret a, f => f a
  | get i k, f => get i fun x => (k x).bind f
  | set i v k, f => set i v (k.bind f)
  | size k, f => size fun n => (k n).bind f
  | cmp x y k, f => cmp x y fun r => (k r).bind f
  | panic, _ => panic
  | outOfFuel, _ => outOfFuel

instance : Monad (CProg T) where
  pure := ret
  bind := bind

/-- A program without comparator calls. -/
def lift : Prog T α → CProg T α
  | .ret a => ret a
  | .get i k => get i fun x => lift (k x)
  | .set i v k => set i v (lift k)
  | .size k => size fun n => lift (k n)
  | .panic => panic
  | .outOfFuel => outOfFuel

/-- The program in which every comparator call is answered by the function `f`. -/
def handle (f : T → T → Int) : CProg T α → Prog T α
  | ret a => .ret a
  | get i k => .get i fun x => handle f (k x)
  | set i v k => .set i v (handle f k)
  | size k => .size fun n => handle f (k n)
  | cmp x y k => handle f (k (f x y))
  | panic => .panic
  | outOfFuel => .outOfFuel

end CProg

/-- A Go comparator (utils/comparator/comparator.go:5-14), as anything a closure may do between two calls: it has a state, and at each
call it answers a number, or panics (`none`). -/
abbrev CmpFn (σ T : Type) := σ → T → T → Option (Int × σ)

/-- How a call ends: it returns; the comparator panics, leaving the container as it is then; the code itself panics; a step budget of the
model is used up. -/
inductive Out (σ C α : Type) : Type where
  | done (a : α) (c : C) (s : σ)
  | crashed (c : C)
  | panicked
  | outOfFuel

variable {C T α β σ : Type}

/-- Running a program on a container with a comparator. -/
def runC (ops : Ops C T) (ask : CmpFn σ T) : CProg T α → σ → C → Out σ C α
  | .ret a, s, c => .done a c s
  | .get i k, s, c =>
    match ops.get c i with
    | .ok x => runC ops ask (k x) s c
    | .panic => .panicked
    | .outOfFuel => .outOfFuel
  | .set i v k, s, c =>
    match ops.set c i v with
    | .ok c => runC ops ask k s c
    | .panic => .panicked
    | .outOfFuel => .outOfFuel
  | .size k, s, c => runC ops ask (k (ops.size c)) s c
  | .cmp x y k, s, c =>
    match ask s x y with
    | some (r, s) => runC ops ask (k r) s c
    | none => .crashed c
  | .panic, _, _ => .panicked
  | .outOfFuel, _, _ => .outOfFuel

/-- One call of the comparator. -/
def callCmp (x y : T) : CProg T Int := .cmp x y .ret

/-- algorithm/sort/sort.go:71-76 `swapValue`. -/
def swapC (a b : Int) : CProg T Unit := .lift (swapValue a b)

/-- `Value` of an iterator, see `Seq.value`. -/
def valueC (i : Int) : CProg T T := .lift (value i)

/-- `Next` of an iterator, see `Seq.next`. -/
def nextC (i : Int) : CProg T Int := .lift (next i)

/-- `Prev` of an iterator, see `Seq.prev`. -/
def prevC (i : Int) : CProg T Int := .lift (prev i)

/-- The statement `if cmp(a.Value(), b.Value()) > 0 { swapValue(a, b) }` (algorithm/sort/sort.go:21-23, 60-62, 63-65, 66-68 and
nth_element.go:24-26). -/
def swapIfGreaterC (a b : Int) : CProg T Unit := do
  let x ← valueC a
  let y ← valueC b
  let r ← callCmp x y
  if r > 0 then swapC a b else pure ()

/-- algorithm/sort/sort.go:59-69 `doPivot`. -/
def doPivotC (first mid last : Int) : CProg T Unit := do
  swapIfGreaterC first mid
  swapIfGreaterC first last
  swapIfGreaterC mid last

/-- algorithm/sort/sort.go:36-52 and nth_element.go:37-53, the partition loop; returns the final position of `rightIter`. -/
def partitionLoopC (base : Int) : Nat → Int → Int → CProg T Int
  | 0, _, _ => .outOfFuel
  | f + 1, left, right =>
    if left ≤ right then do
      let x ← valueC left
      let b ← valueC base
      let leftCmp ← callCmp x b
      if leftCmp ≤ 0 then do
        let left ← nextC left
        partitionLoopC base f left right
      else do
        let y ← valueC right
        let b ← valueC base
        let rightCmp ← callCmp y b
        if rightCmp > 0 then do
          let right ← prevC right
          partitionLoopC base f left right
        else do
          swapC left right
          let left ← nextC left
          let right ← prevC right
          partitionLoopC base f left right
    else pure right

/-- algorithm/sort/sort.go:14-57 `quickSort` (recursion with budget). -/
def quickSortC : Nat → Int → Int → CProg T Unit
  | 0, _, _ => .outOfFuel
  | f + 1, first, last =>
    if first ≥ last then pure () else do
    let len := last - first + 1
    if len < 3 then swapIfGreaterC first last
    else do
      let mid := first + len / 2
      doPivotC first mid last
      swapC mid (last - 1)
      if len = 3 then pure () else do
      let base := last - 1
      let right ← partitionLoopC base (len.toNat + 1) (first + 1) (last - 2)
      let m ← nextC right
      swapC base m
      quickSortC f first (m - 1)
      let first' ← nextC m
      quickSortC f first' last

/-- algorithm/sort/sort.go:9-12 `Sort`. -/
def sortC (first last : Int) : CProg T Unit :=
  quickSortC ((last - first).toNat + 1) first (first + (last - first) - 1)

/-- algorithm/sort/nth_element.go:17-63 `nthElement` (recursion with budget). -/
def nthElementRecC : Nat → Int → Int → Int → CProg T Unit
  | 0, _, _, _ => .outOfFuel
  | f + 1, first, last, n =>
    if first + 1 ≥ last then pure () else do
    let len := last - first + 1
    if len < 3 then swapIfGreaterC first last
    else do
      let mid := first + len / 2
      doPivotC first mid last
      swapC mid (last - 1)
      if len = 3 then pure () else do
      let base := last - 1
      let right ← partitionLoopC base (len.toNat + 1) (first + 1) (last - 2)
      let m ← nextC right
      swapC base m
      if n ≤ m - first then nthElementRecC f first m n
      else do
        let first' ← nextC m
        nthElementRecC f first' last (n - (m - first + 1))

/-- algorithm/sort/nth_element.go:9-15 `NthElement`. -/
def nthElementC (first last n : Int) : CProg T Unit :=
  if first < 0 ∨ last - first < n then pure ()
  else nthElementRecC ((last - first).toNat + 2) first (first + (last - first) - 1) n

/-- algorithm/sort/search.go:18-31, the loop of `binarySearch`; one comparator call per round. -/
def binarySearchLoopC (val : T) : Nat → Int → Int → CProg T Bool
  | 0, _, _ => .outOfFuel
  | f + 1, left, right =>
    if left ≤ right then do
      let mid := (left + right) / 2
      let x ← valueC mid
      let cmpRet ← callCmp val x
      if cmpRet = 0 then pure true
      else if cmpRet < 0 then do
        let right ← prevC mid
        binarySearchLoopC val f left right
      else do
        let left ← nextC mid
        binarySearchLoopC val f left right
    else pure false

/-- algorithm/sort/search.go:9-33 `BinarySearch`. -/
def binarySearchC (first last : Int) (val : T) : CProg T Bool := do
  let v ← .lift (isValid first)
  if v = false ∨ first ≥ last then pure false else do
  let right ← prevC last
  binarySearchLoopC val ((last - first).toNat + 1) first right

/-- algorithm/sort/search.go:51-60 / 80-89, the loop of `lowerBound` and `upperBound`; `below` is the test on the answer,
`cmp(val, x) <= 0` respectively `cmp(val, x) < 0`. -/
def boundLoopC (below : Int → Bool) (val : T) : Nat → Int → Int → Int → CProg T Int
  | 0, _, _, _ => .outOfFuel
  | f + 1, left, right, pos =>
    if left ≤ right then do
      let mid := (left + right) / 2
      let x ← valueC mid
      let r ← callCmp val x
      if below r then do
        let right ← prevC mid
        boundLoopC below val f left right mid
      else do
        let left ← nextC mid
        boundLoopC below val f left right pos
    else pure pos

/-- algorithm/sort/search.go:36-62 `LowerBound`: the returned position. -/
def lowerBoundC (first last : Int) (val : T) : CProg T Int := do
  let v ← .lift (isValid first)
  if v = false ∨ first ≥ last then pure last else do
  let right ← prevC last
  let x ← valueC right
  let r ← callCmp val x
  if r > 0 then pure last
  else boundLoopC (fun r => decide (r ≤ 0)) val ((last - first).toNat + 1) first right 0

/-- algorithm/sort/search.go:65-91 `UpperBound`: the returned position. -/
def upperBoundC (first last : Int) (val : T) : CProg T Int := do
  let v ← .lift (isValid first)
  if v = false ∨ first ≥ last then pure last else do
  let right ← prevC last
  let x ← valueC right
  let r ← callCmp val x
  if r ≥ 0 then pure last
  else boundLoopC (fun r => decide (r < 0)) val ((last - first).toNat + 1) first right 0

/-- algorithm/sort/next_permutation.go:16-19, the first loop. -/
def npDescendC (first : Int) : Nat → Int → CProg T Int
  | 0, _ => .outOfFuel
  | f + 1, cur =>
    if cur > first then do
      let x ← valueC (cur - 1)
      let y ← valueC cur
      let r ← callCmp x y
      if r ≥ 0 then npDescendC first f (cur - 1) else pure cur
    else pure cur

/-- algorithm/sort/next_permutation.go:23-25, the second loop. -/
def npFindC (pre : Int) : Nat → Int → CProg T Int
  | 0, _ => .outOfFuel
  | f + 1, cur => do
    let x ← valueC cur
    let y ← valueC pre
    let r ← callCmp x y
    if r ≤ 0 then npFindC pre f (cur - 1) else pure cur

/-- algorithm/sort/next_permutation.go:9-29 `NextPermutation`. -/
def nextPermutationC (first last : Int) : CProg T Bool := do
  let len := last - first
  let endPos := first + len - 1
  let cur ← npDescendC first (len.toNat + 1) endPos
  let pre := cur - 1
  if cur ≤ first then pure false else do
  let cur ← npFindC pre (len.toNat + 1) endPos
  swapC cur pre
  .lift (npReverse (len.toNat + 1) (pre + 1) endPos)
  pure true

/-- algorithm/sort/stable_sort.go:30-40, the first loop of `merge`. -/
def mergeLoopC (mid last : Int) : Nat → Int → Int → Nat → List T → CProg T (Int × Int × Nat × List T)
  | 0, _, _, _, _ => .outOfFuel
  | f + 1, a, b, pos, tmp =>
    if a < mid ∧ b < last then do
      let x ← valueC a
      let y ← valueC b
      let r ← callCmp x y
      if r ≤ 0 then do
        let x ← valueC a
        if pos < tmp.length then do
          let a ← nextC a
          mergeLoopC mid last f a b (pos + 1) (tmp.set pos x)
        else .panic
      else do
        let y ← valueC b
        if pos < tmp.length then do
          let b ← nextC b
          mergeLoopC mid last f a b (pos + 1) (tmp.set pos y)
        else .panic
    else pure (a, b, pos, tmp)

/-- algorithm/sort/stable_sort.go:41-54, `merge` after its comparisons: the two draining loops and the copy back. -/
def mergeRest (first mid last : Int) (fuel : Nat) (r : Int × Int × Nat × List T) : Prog T (List T) := do
  let (pos, tmp) ← drainLoop mid fuel r.1 r.2.2.1 r.2.2.2
  let (pos, tmp) ← drainLoop last fuel r.2.1 pos tmp
  copyBack tmp pos 0 first
  pure tmp

/-- algorithm/sort/stable_sort.go:25-55 `merge`; returns the buffer. -/
def mergeC (first mid last : Int) (tmp : List T) : CProg T (List T) := do
  let fuel := (last - first).toNat + 1
  let r ← mergeLoopC mid last fuel first mid 0 tmp
  .lift (mergeRest first mid last fuel r)

/-- algorithm/sort/stable_sort.go:15-23 `mergeSort` (recursion with budget); returns the buffer. -/
def mergeSortC : Nat → Int → Int → List T → CProg T (List T)
  | 0, _, _, _ => .outOfFuel
  | f + 1, first, last, tmp =>
    if first + 1 = last then pure tmp else do
    let mid := (first + last) / 2
    let tmp ← mergeSortC f first mid tmp
    let tmp ← mergeSortC f mid last tmp
    mergeC first mid last tmp

/-- algorithm/sort/stable_sort.go:9-13 `Stable`: `make` panics for a negative length; `zero` fills the buffer. -/
def stableC (zero : T) (fuel : Nat) (first last : Int) : CProg T Unit := do
  if last - first < 0 then .panic else do
  let _ ← mergeSortC fuel first last (List.replicate (last - first).toNat zero)
  pure ()

/-! ## With a comparator that is a function these are the programs of `Verif/Algo/Model.lean` -/

@[simp] theorem handle_bind (f : T → T → Int) (p : CProg T α) (k : α → CProg T β) :
    (p >>= k).handle f = p.handle f >>= fun a => (k a).handle f := by
  show (p.bind k).handle f = (p.handle f).bind _
  induction p with
  | ret a => rfl
  | get i k ih => simp only [CProg.bind, CProg.handle, Prog.bind, ih]
  | set i v k ih => simp only [CProg.bind, CProg.handle, Prog.bind, ih]
  | size k ih => simp only [CProg.bind, CProg.handle, Prog.bind, ih]
  | cmp x y k ih => simp only [CProg.bind, CProg.handle, ih]
  | panic => rfl
  | outOfFuel => rfl

@[simp] theorem handle_lift (f : T → T → Int) (p : Prog T α) : (CProg.lift p).handle f = p := by
  induction p with
  | ret a => rfl
  | get i k ih => simp only [CProg.lift, CProg.handle, ih]
  | set i v k ih => simp only [CProg.lift, CProg.handle, ih]
  | size k ih => simp only [CProg.lift, CProg.handle, ih]
  | panic => rfl
  | outOfFuel => rfl

@[simp] theorem handle_pure (f : T → T → Int) (a : α) : (pure a : CProg T α).handle f = pure a := rfl
@[simp] theorem handle_panic (f : T → T → Int) : (CProg.panic : CProg T α).handle f = .panic := rfl
@[simp] theorem handle_outOfFuel (f : T → T → Int) : (CProg.outOfFuel : CProg T α).handle f = .outOfFuel := rfl
@[simp] theorem handle_callCmp (f : T → T → Int) (x y : T) : (callCmp x y).handle f = pure (f x y) := rfl
@[simp] theorem handle_valueC (f : T → T → Int) (i : Int) : (valueC i).handle f = value i := handle_lift f _
@[simp] theorem handle_nextC (f : T → T → Int) (i : Int) : (nextC i).handle f = next i := handle_lift f _
@[simp] theorem handle_prevC (f : T → T → Int) (i : Int) : (prevC i).handle f = prev i := handle_lift f _
@[simp] theorem handle_swapC (f : T → T → Int) (i j : Int) : (swapC i j).handle f = swapValue i j := handle_lift f _
@[simp] theorem handle_ite (f : T → T → Int) (P : Prop) [Decidable P] (p q : CProg T α) :
    (if P then p else q).handle f = if P then p.handle f else q.handle f := by split <;> rfl

@[simp] theorem Prog.pure_bind' (a : α) (k : α → Prog T β) : (pure a >>= k : Prog T β) = k a := rfl

theorem Prog.bind_assoc' {γ : Type} (p : Prog T α) (k : α → Prog T β) (k' : β → Prog T γ) :
    (p >>= k >>= k' : Prog T γ) = p >>= fun a => k a >>= k' := by
  show (p.bind k).bind k' = p.bind _
  induction p with
  | ret a => rfl
  | get i k ih => simp only [Prog.bind, ih]
  | set i v k ih => simp only [Prog.bind, ih]
  | size k ih => simp only [Prog.bind, ih]
  | panic => rfl
  | outOfFuel => rfl

@[simp] theorem handle_swapIfGreater (f : T → T → Int) (a b : Int) :
    (swapIfGreaterC a b).handle f = swapIfGreater f a b := by
  simp [swapIfGreaterC, swapIfGreater]

@[simp] theorem handle_doPivot (f : T → T → Int) (a b c : Int) : (doPivotC a b c).handle f = doPivot f a b c := by
  simp [doPivotC, doPivot]

@[simp] theorem handle_partitionLoop (f : T → T → Int) (base : Int) (n : Nat) (a b : Int) :
    (partitionLoopC base n a b).handle f = partitionLoop f base n a b := by
  induction n generalizing a b with
  | zero => rfl
  | succ n ih => simp [partitionLoopC, partitionLoop, ih]

theorem handle_quickSort (f : T → T → Int) (n : Nat) (a b : Int) :
    (quickSortC n a b).handle f = quickSort f n a b := by
  induction n generalizing a b with
  | zero => rfl
  | succ n ih => simp [quickSortC, quickSort, ih]

theorem handle_sort (f : T → T → Int) (a b : Int) : (sortC a b).handle f = sort f a b := handle_quickSort f _ _ _

theorem handle_nthElementRec (f : T → T → Int) (n : Nat) (a b i : Int) :
    (nthElementRecC n a b i).handle f = nthElementRec f n a b i := by
  induction n generalizing a b i with
  | zero => rfl
  | succ n ih => simp [nthElementRecC, nthElementRec, ih]

theorem handle_nthElement (f : T → T → Int) (a b i : Int) : (nthElementC a b i).handle f = nthElement f a b i := by
  simp [nthElementC, nthElement, handle_nthElementRec]

theorem handle_binarySearchLoop (f : T → T → Int) (v : T) (n : Nat) (a b : Int) :
    (binarySearchLoopC v n a b).handle f = binarySearchLoop f v n a b := by
  induction n generalizing a b with
  | zero => rfl
  | succ n ih => simp [binarySearchLoopC, binarySearchLoop, ih]

theorem handle_binarySearch (f : T → T → Int) (a b : Int) (v : T) :
    (binarySearchC a b v).handle f = binarySearch f a b v := by
  simp [binarySearchC, binarySearch, handle_binarySearchLoop]

theorem handle_boundLoop (f : T → T → Int) (below : Int → Bool) (v : T) (n : Nat) (a b p : Int) :
    (boundLoopC below v n a b p).handle f = boundLoop (fun x => below (f v x)) n a b p := by
  induction n generalizing a b p with
  | zero => rfl
  | succ n ih => simp [boundLoopC, boundLoop, ih]

theorem handle_lowerBound (f : T → T → Int) (a b : Int) (v : T) : (lowerBoundC a b v).handle f = lowerBound f a b v := by
  simp [lowerBoundC, lowerBound, handle_boundLoop]

theorem handle_upperBound (f : T → T → Int) (a b : Int) (v : T) : (upperBoundC a b v).handle f = upperBound f a b v := by
  simp [upperBoundC, upperBound, handle_boundLoop]

theorem handle_npDescend (f : T → T → Int) (first : Int) (n : Nat) (c : Int) :
    (npDescendC first n c).handle f = npDescend f first n c := by
  induction n generalizing c with
  | zero => rfl
  | succ n ih => simp [npDescendC, npDescend, ih]

theorem handle_npFind (f : T → T → Int) (pre : Int) (n : Nat) (c : Int) :
    (npFindC pre n c).handle f = npFind f pre n c := by
  induction n generalizing c with
  | zero => rfl
  | succ n ih => simp [npFindC, npFind, ih]

theorem handle_nextPermutation (f : T → T → Int) (a b : Int) :
    (nextPermutationC a b).handle f = nextPermutation f a b := by
  simp [nextPermutationC, nextPermutation, handle_npDescend, handle_npFind]

theorem handle_mergeLoop (f : T → T → Int) (mid last : Int) (n : Nat) (a b : Int) (pos : Nat) (tmp : List T) :
    (mergeLoopC mid last n a b pos tmp).handle f = mergeLoop f mid last n a b pos tmp := by
  induction n generalizing a b pos tmp with
  | zero => rfl
  | succ n ih => simp [mergeLoopC, mergeLoop, ih]

theorem handle_merge (f : T → T → Int) (a b c : Int) (tmp : List T) : (mergeC a b c tmp).handle f = merge f a b c tmp := by
  simp [mergeC, merge, mergeRest, handle_mergeLoop]

theorem handle_mergeSort (f : T → T → Int) (n : Nat) (a b : Int) (tmp : List T) :
    (mergeSortC n a b tmp).handle f = mergeSort f n a b tmp := by
  induction n generalizing a b tmp with
  | zero => rfl
  | succ n ih => simp [mergeSortC, mergeSort, ih, handle_merge]

theorem handle_stable (f : T → T → Int) (zero : T) (n : Nat) (a b : Int) :
    (stableC zero n a b).handle f = stable zero f n a b := by
  simp [stableC, stable, handle_mergeSort]

/-- A comparator that, when it answers, answers the function `f`. -/
def CmpFn.Answers (ask : CmpFn σ T) (f : T → T → Int) : Prop := ∀ s x y r s', ask s x y = some (r, s') → r = f x y

/-- What a run has in common with the run for the function the comparator computes. -/
def Agrees (o : Out σ C α) (r : Res (α × C)) : Prop :=
  match o with
  | .done a c _ => r = .ok (a, c)
  | .crashed _ => True
  | .panicked => r = .panic
  | .outOfFuel => r = .outOfFuel

/-- A comparator that answers a function or panics: the call ends as for the function, or with the comparator's panic. -/
theorem runC_agrees (ops : Ops C T) {ask : CmpFn σ T} {f : T → T → Int} (ha : ask.Answers f) (p : CProg T α) (s : σ) (c : C) :
    Agrees (runC ops ask p s c) (run ops (p.handle f) c) := by
  induction p generalizing s c with
  | ret a => rfl
  | get i k ih =>
    simp only [runC, CProg.handle, run]
    cases ops.get c i with
    | ok x => exact ih x s c
    | panic => rfl
    | outOfFuel => rfl
  | set i v k ih =>
    simp only [runC, CProg.handle, run]
    cases ops.set c i v with
    | ok c => exact ih s c
    | panic => rfl
    | outOfFuel => rfl
  | size k ih => exact ih _ s c
  | cmp x y k ih =>
    simp only [runC, CProg.handle]
    cases e : ask s x y with
    | none => trivial
    | some q =>
      obtain ⟨r, s'⟩ := q
      rw [← ha s x y r s' e]
      exact ih r s' c
  | panic => rfl
  | outOfFuel => rfl

end GoSTL.Algo
