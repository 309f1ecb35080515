import Verif.Algo.Model
import Verif.Basic.Int64
/-!
# C106: the algorithms with Go's `int`

`Algo/Model` computes with unbounded integers. Here are the same functions with the arithmetic of `int`: every sum and difference is taken modulo 2^64. On containers with
fewer than 2^62 elements they do the same, so everything proved about the former holds of the latter.
-/
namespace GoSTL.Machine
open GoSTL.Seq GoSTL.Algo

variable {T α β : Type}

/-! ## Model -/

/-- `Next` (vector/iterator.go:39-44 and the same code in array, slice, deque): `iter.position++`. -/
def nextM (pos : Int) : Prog T Int := do
  let n ← csize
  pure (if pos < n then int64 (pos + 1) else pos)

/-- `Prev` (vector/iterator.go:47-52 and the same code in array, slice, deque): `iter.position--`. -/
def prevM (pos : Int) : Prog T Int := pure (if pos ≥ 0 then int64 (pos - 1) else pos)

/-- algorithm/sort/sort.go:36-52, nth_element.go:37-53. -/
def partitionLoopM (cmp : T → T → Int) (base : Int) : Nat → Int → Int → Prog T Int
  | 0, _, _ => .outOfFuel
  | f + 1, left, right =>
    if left ≤ right then do
      let x ← value left
      let b ← value base
      if cmp x b ≤ 0 then do
        let left ← nextM left
        partitionLoopM cmp base f left right
      else do
        let y ← value right
        let b ← value base
        if cmp y b > 0 then do
          let right ← prevM right
          partitionLoopM cmp base f left right
        else do
          swapValue left right
          let left ← nextM left
          let right ← prevM right
          partitionLoopM cmp base f left right
    else pure right

/-- algorithm/sort/sort.go:14-57 `quickSort`. Go's division truncates. -/
def quickSortM (cmp : T → T → Int) : Nat → Int → Int → Prog T Unit
  | 0, _, _ => .outOfFuel
  | f + 1, first, last =>
    if first ≥ last then pure () else do
    let len := int64 (int64 (last - first) + 1)
    if len < 3 then swapIfGreater cmp first last
    else do
      let mid := int64 (first + len.tdiv 2)
      doPivot cmp first mid last
      swapValue mid (int64 (last - 1))
      if len = 3 then pure () else do
      let base := int64 (last - 1)
      let right ← partitionLoopM cmp base (len.toNat + 1) (int64 (first + 1)) (int64 (last - 2))
      let m ← nextM right
      swapValue base m
      quickSortM cmp f first (int64 (m - 1))
      let first' ← nextM m
      quickSortM cmp f first' last

/-- algorithm/sort/sort.go:9-12 `Sort`. -/
def sortM (cmp : T → T → Int) (first last : Int) : Prog T Unit :=
  let n := int64 (last - first)
  quickSortM cmp (n.toNat + 1) first (int64 (int64 (first + n) - 1))

/-- algorithm/sort/nth_element.go:17-63 `nthElement`. -/
def nthElementRecM (cmp : T → T → Int) : Nat → Int → Int → Int → Prog T Unit
  | 0, _, _, _ => .outOfFuel
  | f + 1, first, last, n =>
    if int64 (first + 1) ≥ last then pure () else do
    let len := int64 (int64 (last - first) + 1)
    if len < 3 then swapIfGreater cmp first last
    else do
      let mid := int64 (first + len.tdiv 2)
      doPivot cmp first mid last
      swapValue mid (int64 (last - 1))
      if len = 3 then pure () else do
      let base := int64 (last - 1)
      let right ← partitionLoopM cmp base (len.toNat + 1) (int64 (first + 1)) (int64 (last - 2))
      let m ← nextM right
      swapValue base m
      if n ≤ int64 (m - first) then nthElementRecM cmp f first m n
      else do
        let first' ← nextM m
        nthElementRecM cmp f first' last (int64 (n - int64 (int64 (m - first) + 1)))

/-- algorithm/sort/nth_element.go:9-15 `NthElement`. -/
def nthElementM (cmp : T → T → Int) (first last n : Int) : Prog T Unit :=
  if first < 0 ∨ int64 (last - first) < n then pure ()
  else
    let len := int64 (last - first)
    nthElementRecM cmp (len.toNat + 2) first (int64 (int64 (first + len) - 1)) n

/-- algorithm/sort/search.go:18-31. `>> 1` rounds down. -/
def binarySearchLoopM (cmp : T → T → Int) (val : T) : Nat → Int → Int → Prog T Bool
  | 0, _, _ => .outOfFuel
  | f + 1, left, right =>
    if left ≤ right then do
      let mid := int64 (left + right) / 2
      let x ← value mid
      if cmp val x = 0 then pure true
      else if cmp val x < 0 then do
        let right ← prevM mid
        binarySearchLoopM cmp val f left right
      else do
        let left ← nextM mid
        binarySearchLoopM cmp val f left right
    else pure false

/-- algorithm/sort/search.go:9-33 `BinarySearch`. -/
def binarySearchM (cmp : T → T → Int) (first last : Int) (val : T) : Prog T Bool := do
  let v ← isValid first
  if v = false ∨ first ≥ last then pure false else do
  let right ← prevM last
  binarySearchLoopM cmp val ((last - first).toNat + 1) first right

/-- algorithm/sort/search.go:51-60 / 80-89. -/
def boundLoopM (below : T → Bool) : Nat → Int → Int → Int → Prog T Int
  | 0, _, _, _ => .outOfFuel
  | f + 1, left, right, pos =>
    if left ≤ right then do
      let mid := int64 (left + right) / 2
      let x ← value mid
      if below x then do
        let right ← prevM mid
        boundLoopM below f left right mid
      else do
        let left ← nextM mid
        boundLoopM below f left right pos
    else pure pos

/-- algorithm/sort/search.go:36-62 `LowerBound`. -/
def lowerBoundM (cmp : T → T → Int) (first last : Int) (val : T) : Prog T Int := do
  let v ← isValid first
  if v = false ∨ first ≥ last then pure last else do
  let right ← prevM last
  let x ← value right
  if cmp val x > 0 then pure last
  else boundLoopM (fun x => decide (cmp val x ≤ 0)) ((last - first).toNat + 1) first right 0

/-- algorithm/sort/search.go:65-91 `UpperBound`. -/
def upperBoundM (cmp : T → T → Int) (first last : Int) (val : T) : Prog T Int := do
  let v ← isValid first
  if v = false ∨ first ≥ last then pure last else do
  let right ← prevM last
  let x ← value right
  if cmp val x ≥ 0 then pure last
  else boundLoopM (fun x => decide (cmp val x < 0)) ((last - first).toNat + 1) first right 0

/-- algorithm/sort/next_permutation.go:16-19; `pre` is `cur - 1` all along. -/
def npDescendM (cmp : T → T → Int) (first : Int) : Nat → Int → Prog T Int
  | 0, _ => .outOfFuel
  | f + 1, cur =>
    if cur > first then do
      let x ← value (int64 (cur - 1))
      let y ← value cur
      if cmp x y ≥ 0 then npDescendM cmp first f (int64 (cur - 1)) else pure cur
    else pure cur

/-- algorithm/sort/next_permutation.go:23-25. -/
def npFindM (cmp : T → T → Int) (pre : Int) : Nat → Int → Prog T Int
  | 0, _ => .outOfFuel
  | f + 1, cur => do
    let x ← value cur
    let y ← value pre
    if cmp x y ≤ 0 then npFindM cmp pre f (int64 (cur - 1)) else pure cur

/-- algorithm/sort/next_permutation.go:31-37 `reverse`. -/
def npReverseM : Nat → Int → Int → Prog T Unit
  | 0, _, _ => .outOfFuel
  | f + 1, s, e =>
    if s < e then do
      swapValue s e
      let s ← nextM s
      let e ← prevM e
      npReverseM f s e
    else pure ()

/-- algorithm/sort/next_permutation.go:9-29 `NextPermutation`. -/
def nextPermutationM (cmp : T → T → Int) (first last : Int) : Prog T Bool := do
  let len := int64 (last - first)
  let endPos := int64 (int64 (first + len) - 1)
  let cur ← npDescendM cmp first (len.toNat + 1) endPos
  let pre := int64 (cur - 1)
  if cur ≤ first then pure false else do
  let cur ← npFindM cmp pre (len.toNat + 1) endPos
  swapValue cur pre
  npReverseM (len.toNat + 1) (int64 (pre + 1)) endPos
  pure true

/-- algorithm/op.go:19-26. -/
def reverseLoopM : Nat → Int → Int → Prog T Unit
  | 0, _, _ => .outOfFuel
  | f + 1, left, right =>
    if left ≠ right then do
      swapValue left right
      let left ← nextM left
      if left = right then pure () else do
      let right ← prevM right
      reverseLoopM f left right
    else pure ()

/-- algorithm/op.go:16-27 `Reverse`. -/
def reverseM (fuel : Nat) (first last : Int) : Prog T Unit := do
  let right ← prevM last
  reverseLoopM fuel first right

/-- algorithm/sort/stable_sort.go:30-40. `pos`, an index of the buffer, is at most its length. -/
def mergeLoopM (cmp : T → T → Int) (mid last : Int) :
    Nat → Int → Int → Nat → List T → Prog T (Int × Int × Nat × List T)
  | 0, _, _, _, _ => .outOfFuel
  | f + 1, a, b, pos, tmp =>
    if a < mid ∧ b < last then do
      let x ← value a
      let y ← value b
      if cmp x y ≤ 0 then do
        let x ← value a
        if pos < tmp.length then do
          let a ← nextM a
          mergeLoopM cmp mid last f a b (pos + 1) (tmp.set pos x)
        else .panic
      else do
        let y ← value b
        if pos < tmp.length then do
          let b ← nextM b
          mergeLoopM cmp mid last f a b (pos + 1) (tmp.set pos y)
        else .panic
    else pure (a, b, pos, tmp)

/-- algorithm/sort/stable_sort.go:41-48. -/
def drainLoopM (stop : Int) : Nat → Int → Nat → List T → Prog T (Nat × List T)
  | 0, _, _, _ => .outOfFuel
  | f + 1, a, pos, tmp =>
    if a < stop then do
      let x ← value a
      if pos < tmp.length then do
        let a ← nextM a
        drainLoopM stop f a (pos + 1) (tmp.set pos x)
      else .panic
    else pure (pos, tmp)

/-- algorithm/sort/stable_sort.go:50-54. -/
def copyBackM (tmp : List T) : Nat → Nat → Int → Prog T Unit
  | 0, _, _ => pure ()
  | k + 1, idx, it => do
    match tmp[idx]? with
    | none => .panic
    | some x => do
      setValue it x
      let it ← nextM it
      copyBackM tmp k (idx + 1) it

/-- algorithm/sort/stable_sort.go:25-55 `merge`. -/
def mergeM (cmp : T → T → Int) (first mid last : Int) (tmp : List T) : Prog T (List T) := do
  let fuel := (last - first).toNat + 1
  let (a, b, pos, tmp) ← mergeLoopM cmp mid last fuel first mid 0 tmp
  let (pos, tmp) ← drainLoopM mid fuel a pos tmp
  let (pos, tmp) ← drainLoopM last fuel b pos tmp
  copyBackM tmp pos 0 first
  pure tmp

/-- algorithm/sort/stable_sort.go:15-23 `mergeSort`. -/
def mergeSortM (cmp : T → T → Int) : Nat → Int → Int → List T → Prog T (List T)
  | 0, _, _, _ => .outOfFuel
  | f + 1, first, last, tmp =>
    if int64 (first + 1) = last then pure tmp else do
    let mid := int64 (first + last) / 2
    let tmp ← mergeSortM cmp f first mid tmp
    let tmp ← mergeSortM cmp f mid last tmp
    mergeM cmp first mid last tmp

/-- algorithm/sort/stable_sort.go:9-13 `Stable`. -/
def stableM (zero : T) (cmp : T → T → Int) (fuel : Nat) (first last : Int) : Prog T Unit := do
  if int64 (last - first) < 0 then .panic else do
  let _ ← mergeSortM cmp fuel first last (List.replicate (int64 (last - first)).toNat zero)
  pure ()

/-! ## Proof -/

/-- `P` holds of all results the program can have on containers of size at most `N`. -/
def All (N : Int) (P : α → Prop) : Prog T α → Prop
  | .ret a => P a
  | .get _ k => ∀ x, All N P (k x)
  | .set _ _ k => All N P k
  | .size k => ∀ n, n ≤ N → All N P (k n)
  | .panic => True
  | .outOfFuel => True

/-- The programs do the same on containers of size at most `N`. -/
inductive Same (N : Int) : Prog T α → Prog T α → Prop
  | ret (a) : Same N (.ret a) (.ret a)
  | get (i) {k k'} (h : ∀ x, Same N (k x) (k' x)) : Same N (.get i k) (.get i k')
  | set (i v) {k k'} (h : Same N k k') : Same N (.set i v k) (.set i v k')
  | size {k k'} (h : ∀ n, n ≤ N → Same N (k n) (k' n)) : Same N (.size k) (.size k')
  | panic : Same N .panic .panic
  | outOfFuel : Same N .outOfFuel .outOfFuel

variable {N : Int}

theorem Same.refl : ∀ p : Prog T α, Same N p p
  | .ret a => .ret a
  | .get i k => .get i fun x => Same.refl (k x)
  | .set i v k => .set i v (Same.refl k)
  | .size k => .size fun n _ => Same.refl (k n)
  | .panic => .panic
  | .outOfFuel => .outOfFuel

theorem Same.bind {p q : Prog T α} (h : Same N p q) {P : α → Prop} (ha : All N P q) {f g : α → Prog T β} (hf : ∀ a, P a → Same N (f a) (g a)) : Same N (p >>= f) (q >>= g) := by
  show Same N (p.bind f) (q.bind g)
  induction h with
  | ret a => exact hf a ha
  | get i _ ih => exact .get i fun x => ih x (ha x)
  | set i v _ ih => exact .set i v (ih ha)
  | size _ ih => exact .size fun n hn => ih n hn (ha n hn)
  | panic => exact .panic
  | outOfFuel => exact .outOfFuel

theorem all_true : ∀ p : Prog T α, All N (fun _ => True) p
  | .ret _ => trivial
  | .get _ k => fun x => all_true (k x)
  | .set _ _ k => all_true k
  | .size k => fun n _ => all_true (k n)
  | .panic => trivial
  | .outOfFuel => trivial

theorem All.bind {P : α → Prop} {Q : β → Prop} {f : α → Prog T β} {p : Prog T α} (h : All N P p) (hf : ∀ a, P a → All N Q (f a)) : All N Q (p >>= f) := by
  show All N Q (p.bind f)
  induction p with
  | ret a => exact hf a h
  | get i k ih => exact fun x => ih x (h x)
  | set i v k ih => exact ih h
  | size k ih => exact fun n hn => ih n (h n hn)
  | panic => trivial
  | outOfFuel => trivial

theorem Same.all {P : α → Prop} {p q : Prog T α} (h : Same N p q) (hq : All N P q) : All N P p := by
  induction h with
  | ret a => exact hq
  | get i _ ih => exact fun x => ih x (hq x)
  | set i v _ ih => exact ih hq
  | size _ ih => exact fun n hn => ih n hn (hq n hn)
  | panic => trivial
  | outOfFuel => trivial

/-- The same program first, then programs that do the same. -/
theorem Same.then (p : Prog T α) {f g : α → Prog T β} (hf : ∀ a, Same N (f a) (g a)) : Same N (p >>= f) (p >>= g) := (Same.refl p).bind (all_true p) fun a _ => hf a

theorem All.then (p : Prog T α) {Q : β → Prop} {f : α → Prog T β} (hf : ∀ a, All N Q (f a)) : All N Q (p >>= f) := (all_true p).bind fun a _ => hf a

variable {C : Type} {ops : Ops C T} {Inv : C → Prop} {abs : C → List T}

theorem setAt_length (l : List T) (i : Int) (v : T) : (setAt l i v).length = l.length := by
  unfold setAt; split <;> simp

theorem Same.run {p q : Prog T α} (h : Same N p q) (hl : Lawful ops Inv abs) : ∀ {c : C}, Inv c → ((abs c).length : Int) ≤ N → run ops p c = run ops q c := by
  induction h with
  | ret a => intros; rfl
  | get i h ih =>
    intro c hc hn
    simp only [Seq.run]
    cases ops.get c i with
    | ok x => exact ih x hc hn
    | panic => rfl
    | outOfFuel => rfl
  | set i v h ih =>
    intro c hc hn
    obtain ⟨c', e, h1, h2⟩ := hl.set c i v hc
    simp only [Seq.run, e, Res.ok_bind]
    exact ih h1 (by rw [h2, setAt_length]; exact hn)
  | size h ih =>
    intro c hc hn
    simp only [Seq.run]
    exact ih _ (by rw [hl.size c hc]; exact hn) hc hn
  | panic => intros; rfl
  | outOfFuel => intros; rfl

/-! ### Steps -/

/-- Sizes are below 2^62. -/
def Small (N : Int) : Prop := N < 2 ^ 62

theorem same_next {p : Int} (hN : Small N) (h : -2 ^ 62 ≤ p) : Same N (nextM p : Prog T Int) (next p) := by
  refine .size fun n hn => ?_
  show Same N (Prog.ret _) (Prog.ret _)
  simp only [Small] at hN
  by_cases c : p < n
  · rw [if_pos c, if_pos c, int64_id (by constructor <;> omega)]; exact .ret _
  · rw [if_neg c, if_neg c]; exact .ret _

theorem all_next (p : Int) : All N (fun q => (q = p ∨ q = p + 1) ∧ (p ≤ N → q ≤ N)) (next p : Prog T Int) := by
  intro n hn
  change ((if p < n then p + 1 else p) = p ∨ (if p < n then p + 1 else p) = p + 1) ∧ (p ≤ N → (if p < n then p + 1 else p) ≤ N)
  split
  · exact ⟨.inr rfl, fun _ => by omega⟩
  · exact ⟨.inl rfl, fun h => h⟩

/-- `Next`, then something. -/
theorem Same.next_then {p : Int} (hN : Small N) (h : -2 ^ 62 ≤ p) {f g : Int → Prog T β} (hf : ∀ q, q = p ∨ q = p + 1 → (p ≤ N → q ≤ N) → Same N (f q) (g q)) :
    Same N (nextM p >>= f) (next p >>= g) := (same_next hN h).bind (all_next p) fun q hq => hf q hq.1 hq.2

theorem All.next_then {p : Int} {Q : β → Prop} {f : Int → Prog T β} (hf : ∀ q, q = p ∨ q = p + 1 → (p ≤ N → q ≤ N) → All N Q (f q)) :
    All N Q (next p >>= f) := (all_next p).bind fun q hq => hf q hq.1 hq.2

theorem prevM_eq {p : Int} (h : p < 2 ^ 63) : (prevM p : Prog T Int) = prev p := by
  unfold prevM prev
  by_cases c : p ≥ 0
  · rw [if_pos c, if_pos c, int64_id (by constructor <;> omega)]
  · rw [if_neg c, if_neg c]

theorem Same.prev_then {p : Int} (h : p < 2 ^ 63) {f g : Int → Prog T β} (hf : Same N (f (if p ≥ 0 then p - 1 else p)) (g (if p ≥ 0 then p - 1 else p))) :
    Same N (prevM p >>= f) (prev p >>= g) := by
  rw [prevM_eq h]; exact hf

theorem All.prev_then {p : Int} {Q : β → Prop} {f : Int → Prog T β} (hf : All N Q (f (if p ≥ 0 then p - 1 else p))) : All N Q (prev p >>= f) := hf

/-! ### Sort and NthElement -/

variable (cmp : T → T → Int)

theorem same_partition (hN : Small N) (base : Int) : ∀ (f : Nat) (left right : Int), 0 ≤ left → right ≤ N → Same N (partitionLoopM cmp base f left right) (partitionLoop cmp base f left right)
  | 0, _, _, _, _ => .outOfFuel
  | f + 1, left, right, h1, h2 => by
    simp only [partitionLoopM, partitionLoop]
    simp only [Small] at hN
    split
    · refine Same.then _ fun x => Same.then _ fun b => ?_
      split
      · exact Same.next_then hN (by omega) fun q h3 h4 => same_partition hN base f q right (by omega) h2
      · refine Same.then _ fun y => Same.then _ fun b => ?_
        split
        · refine Same.prev_then (by omega) (same_partition hN base f left _ h1 ?_)
          split <;> omega
        · refine Same.then _ fun _ => Same.next_then hN (by omega) fun q h3 h4 => Same.prev_then (by omega) (same_partition hN base f q _ (by omega) ?_)
          split <;> omega
    · exact .refl _

theorem all_partition (base lo hi : Int) (hlo : 0 ≤ lo) : ∀ (f : Nat) (left right : Int), lo ≤ left → lo - 1 ≤ right → right ≤ hi →
    All N (fun r => lo - 1 ≤ r ∧ r ≤ hi) (partitionLoop cmp base f left right)
  | 0, _, _, _, _, _ => trivial
  | f + 1, left, right, h1, h2, h3 => by
    simp only [partitionLoop]
    split
    · refine All.then _ fun x => All.then _ fun b => ?_
      split
      · exact All.next_then fun q h4 h5 => all_partition base lo hi hlo f q right (by omega) h2 h3
      · refine All.then _ fun y => All.then _ fun b => ?_
        split
        · refine All.prev_then (all_partition base lo hi hlo f left _ h1 ?_ ?_) <;> split <;> omega
        · refine All.then _ fun _ => All.next_then fun q h4 h5 => All.prev_then (all_partition base lo hi hlo f q _ (by omega) ?_ ?_) <;> split <;> omega
    · exact ⟨h2, h3⟩

theorem same_quickSort (hN : Small N) : ∀ (f : Nat) (first last : Int), 0 ≤ first → first ≤ N → -1 ≤ last → last ≤ N → Same N (quickSortM cmp f first last) (quickSort cmp f first last)
  | 0, _, _, _, _, _, _ => .outOfFuel
  | f + 1, first, last, h1, h2, h3, h4 => by
    simp only [quickSortM, quickSort]
    simp only [Small] at hN
    split
    · exact .refl _
    · rename_i hlt
      have e1 : int64 (last - first) = last - first := int64_id (by constructor <;> omega)
      have e2 : int64 (last - first + 1) = last - first + 1 := int64_id (by constructor <;> omega)
      have e3 : (last - first + 1).tdiv 2 = (last - first + 1) / 2 := Int.tdiv_eq_ediv_of_nonneg (by omega)
      have e4 : int64 (first + (last - first + 1) / 2) = first + (last - first + 1) / 2 := int64_id (by constructor <;> omega)
      have e5 : int64 (last - 1) = last - 1 := int64_id (by constructor <;> omega)
      have e6 : int64 (last - 2) = last - 2 := int64_id (by constructor <;> omega)
      have e7 : int64 (first + 1) = first + 1 := int64_id (by constructor <;> omega)
      simp only [e1, e2, e3, e4, e5, e6, e7]
      split
      · exact .refl _
      · refine Same.then _ fun _ => Same.then _ fun _ => ?_
        split
        · exact .refl _
        · refine (same_partition cmp hN _ _ _ _ (by omega) (by omega)).bind (all_partition cmp _ (first + 1) (last - 2) (by omega) _ _ _ (by omega) (by omega) (by omega)) fun r hr => ?_
          refine Same.next_then hN (by omega) fun m hm _ => Same.then _ fun _ => ?_
          rw [int64_id (x := m - 1) (by constructor <;> omega)]
          refine (same_quickSort hN f first (m - 1) h1 h2 (by omega) (by omega)).bind (all_true _) fun _ _ => ?_
          exact Same.next_then hN (by omega) fun q hq hq' => same_quickSort hN f q last (by omega) (hq' (by omega)) h3 h4

theorem same_sort (hN : Small N) {first last : Int} (h1 : 0 ≤ first) (h2 : first ≤ N) (h3 : 0 ≤ last) (h4 : last ≤ N) : Same N (sortM cmp first last) (sort cmp first last) := by
  simp only [Small] at hN
  simp only [sortM, sort]
  rw [int64_id (x := last - first) (by constructor <;> omega), int64_id (x := first + (last - first)) (by constructor <;> omega), int64_id (x := first + (last - first) - 1) (by constructor <;> omega)]
  exact same_quickSort cmp hN _ _ _ h1 h2 (by omega) (by omega)

theorem same_nthElementRec (hN : Small N) : ∀ (f : Nat) (first last n : Int), 0 ≤ first → first ≤ N → -1 ≤ last → last ≤ N → n < 2 ^ 63 →
    Same N (nthElementRecM cmp f first last n) (nthElementRec cmp f first last n)
  | 0, _, _, _, _, _, _, _, _ => .outOfFuel
  | f + 1, first, last, n, h1, h2, h3, h4, hn => by
    simp only [nthElementRecM, nthElementRec]
    simp only [Small] at hN
    have e7 : int64 (first + 1) = first + 1 := int64_id (by constructor <;> omega)
    rw [e7]
    split
    · exact .refl _
    · rename_i hlt
      have e1 : int64 (last - first) = last - first := int64_id (by constructor <;> omega)
      have e2 : int64 (last - first + 1) = last - first + 1 := int64_id (by constructor <;> omega)
      have e3 : (last - first + 1).tdiv 2 = (last - first + 1) / 2 := Int.tdiv_eq_ediv_of_nonneg (by omega)
      have e4 : int64 (first + (last - first + 1) / 2) = first + (last - first + 1) / 2 := int64_id (by constructor <;> omega)
      have e5 : int64 (last - 1) = last - 1 := int64_id (by constructor <;> omega)
      have e6 : int64 (last - 2) = last - 2 := int64_id (by constructor <;> omega)
      simp only [e1, e2, e3, e4, e5, e6]
      split
      · exact .refl _
      · refine Same.then _ fun _ => Same.then _ fun _ => ?_
        split
        · exact .refl _
        · refine (same_partition cmp hN _ _ _ _ (by omega) (by omega)).bind (all_partition cmp _ (first + 1) (last - 2) (by omega) _ _ _ (by omega) (by omega) (by omega)) fun r hr => ?_
          refine Same.next_then hN (by omega) fun m hm _ => Same.then _ fun _ => ?_
          rw [int64_id (x := m - first) (by constructor <;> omega)]
          split
          · exact same_nthElementRec hN f first m n h1 h2 (by omega) (by omega) hn
          · rw [int64_id (x := m - first + 1) (by constructor <;> omega), int64_id (x := n - (m - first + 1)) (by constructor <;> omega)]
            exact Same.next_then hN (by omega) fun q hq hq' => same_nthElementRec hN f q last _ (by omega) (hq' (by omega)) h3 h4 (by omega)

theorem same_nthElement (hN : Small N) {first last n : Int} (h1 : 0 ≤ first) (h2 : first ≤ N) (h3 : 0 ≤ last) (h4 : last ≤ N) (hn : n < 2 ^ 63) :
    Same N (nthElementM cmp first last n) (nthElement cmp first last n) := by
  simp only [Small] at hN
  simp only [nthElementM, nthElement]
  rw [int64_id (x := last - first) (by constructor <;> omega), int64_id (x := first + (last - first)) (by constructor <;> omega), int64_id (x := first + (last - first) - 1) (by constructor <;> omega)]
  split
  · exact .refl _
  · exact same_nthElementRec cmp hN _ _ _ _ h1 h2 (by omega) (by omega) hn

/-! ### Searching -/

theorem same_binarySearchLoop (hN : Small N) (val : T) : ∀ (f : Nat) (left right : Int), 0 ≤ left → right ≤ N → Same N (binarySearchLoopM cmp val f left right) (binarySearchLoop cmp val f left right)
  | 0, _, _, _, _ => .outOfFuel
  | f + 1, left, right, h1, h2 => by
    simp only [binarySearchLoopM, binarySearchLoop]
    simp only [Small] at hN
    split
    · rw [int64_id (x := left + right) (by constructor <;> omega)]
      refine Same.then _ fun x => ?_
      split
      · exact .refl _
      · split
        · refine Same.prev_then (by omega) (same_binarySearchLoop hN val f left _ h1 ?_)
          split <;> omega
        · exact Same.next_then hN (by omega) fun q h3 h4 => same_binarySearchLoop hN val f q right (by omega) h2
    · exact .refl _

theorem same_boundLoop (hN : Small N) (below : T → Bool) : ∀ (f : Nat) (left right pos : Int), 0 ≤ left → right ≤ N → Same N (boundLoopM below f left right pos) (boundLoop below f left right pos)
  | 0, _, _, _, _, _ => .outOfFuel
  | f + 1, left, right, pos, h1, h2 => by
    simp only [boundLoopM, boundLoop]
    simp only [Small] at hN
    split
    · rw [int64_id (x := left + right) (by constructor <;> omega)]
      refine Same.then _ fun x => ?_
      split
      · refine Same.prev_then (by omega) (same_boundLoop hN below f left _ _ h1 ?_)
        split <;> omega
      · exact Same.next_then hN (by omega) fun q h3 h4 => same_boundLoop hN below f q right _ (by omega) h2
    · exact .refl _

theorem same_binarySearch (hN : Small N) {first last : Int} (h1 : 0 ≤ first) (h4 : last ≤ N) (val : T) : Same N (binarySearchM cmp first last val) (binarySearch cmp first last val) := by
  simp only [Small] at hN
  refine Same.then _ fun v => ?_
  split
  · exact .refl _
  · refine Same.prev_then (by omega) (same_binarySearchLoop cmp hN val _ _ _ h1 ?_)
    split <;> omega

theorem same_lowerBound (hN : Small N) {first last : Int} (h1 : 0 ≤ first) (h4 : last ≤ N) (val : T) : Same N (lowerBoundM cmp first last val) (lowerBound cmp first last val) := by
  simp only [Small] at hN
  refine Same.then _ fun v => ?_
  split
  · exact .refl _
  · refine Same.prev_then (by omega) (Same.then _ fun x => ?_)
    split
    · exact .refl _
    · refine same_boundLoop hN _ _ _ _ _ h1 ?_
      split <;> omega

theorem same_upperBound (hN : Small N) {first last : Int} (h1 : 0 ≤ first) (h4 : last ≤ N) (val : T) : Same N (upperBoundM cmp first last val) (upperBound cmp first last val) := by
  simp only [Small] at hN
  refine Same.then _ fun v => ?_
  split
  · exact .refl _
  · refine Same.prev_then (by omega) (Same.then _ fun x => ?_)
    split
    · exact .refl _
    · refine same_boundLoop hN _ _ _ _ _ h1 ?_
      split <;> omega

/-! ### Permutations and Reverse -/

theorem same_npDescend (first : Int) (h1 : 0 ≤ first) : ∀ (f : Nat) (cur : Int), cur < 2 ^ 62 → Same N (npDescendM cmp first f cur) (npDescend cmp first f cur)
  | 0, _, _ => .outOfFuel
  | f + 1, cur, h => by
    simp only [npDescendM, npDescend]
    split
    · rw [int64_id (x := cur - 1) (by constructor <;> omega)]
      refine Same.then _ fun x => Same.then _ fun y => ?_
      split
      · exact same_npDescend first h1 f _ (by omega)
      · exact .refl _
    · exact .refl _

theorem all_npDescend (first lo hi : Int) (hl : lo ≤ first) : ∀ (f : Nat) (cur : Int), lo ≤ cur → cur ≤ hi → All N (fun r => lo ≤ r ∧ r ≤ hi) (npDescend cmp first f cur)
  | 0, _, _, _ => trivial
  | f + 1, cur, h1, h2 => by
    simp only [npDescend]
    split
    · refine All.then _ fun x => All.then _ fun y => ?_
      split
      · exact all_npDescend first lo hi hl f _ (by omega) (by omega)
      · exact ⟨h1, h2⟩
    · exact ⟨h1, h2⟩

theorem same_npFind (pre : Int) : ∀ (f : Nat) (cur : Int), -2 ^ 63 + f ≤ cur → cur < 2 ^ 62 → Same N (npFindM cmp pre f cur) (npFind cmp pre f cur)
  | 0, _, _, _ => .outOfFuel
  | f + 1, cur, h1, h2 => by
    simp only [npFindM, npFind]
    refine Same.then _ fun x => Same.then _ fun y => ?_
    split
    · rw [int64_id (x := cur - 1) (by constructor <;> omega)]
      exact same_npFind pre f _ (by omega) (by omega)
    · exact .refl _

theorem same_npReverse (hN : Small N) : ∀ (f : Nat) (s e : Int), -2 ^ 62 ≤ s → e ≤ N → Same N (npReverseM f s e : Prog T Unit) (npReverse f s e)
  | 0, _, _, _, _ => .outOfFuel
  | f + 1, s, e, h1, h2 => by
    simp only [npReverseM, npReverse]
    simp only [Small] at hN
    split
    · refine Same.then _ fun _ => Same.next_then hN h1 fun q h3 h4 => Same.prev_then (by omega) (same_npReverse hN f q _ (by omega) ?_)
      split <;> omega
    · exact .refl _

theorem same_nextPermutation (hN : Small N) {first last : Int} (h1 : 0 ≤ first) (h2 : first ≤ N) (h3 : 0 ≤ last) (h4 : last ≤ N) :
    Same N (nextPermutationM cmp first last) (nextPermutation cmp first last) := by
  simp only [Small] at hN
  simp only [nextPermutationM, nextPermutation]
  rw [int64_id (x := last - first) (by constructor <;> omega), int64_id (x := first + (last - first)) (by constructor <;> omega), int64_id (x := first + (last - first) - 1) (by constructor <;> omega)]
  refine (same_npDescend cmp first h1 _ _ (by omega)).bind (all_npDescend cmp first (-1) (last - 1) (by omega) _ _ (by omega) (by omega)) fun cur hc => ?_
  rw [int64_id (x := cur - 1) (by constructor <;> omega)]
  split
  · exact .refl _
  · rw [int64_id (x := cur - 1 + 1) (by constructor <;> omega)]
    refine (same_npFind cmp _ _ _ (by omega) (by omega)).bind (all_true _) fun _ _ => Same.then _ fun _ => ?_
    exact (same_npReverse hN _ _ _ (by omega) (by omega)).bind (all_true _) fun _ _ => .refl _

theorem same_reverseLoop (hN : Small N) : ∀ (f : Nat) (left right : Int), -2 ^ 62 ≤ left → right ≤ N → Same N (reverseLoopM f left right : Prog T Unit) (reverseLoop f left right)
  | 0, _, _, _, _ => .outOfFuel
  | f + 1, left, right, h1, h2 => by
    simp only [reverseLoopM, reverseLoop]
    simp only [Small] at hN
    split
    · refine Same.then _ fun _ => Same.next_then hN h1 fun q h3 h4 => ?_
      split
      · exact .refl _
      · refine Same.prev_then (by omega) (same_reverseLoop hN f q _ (by omega) ?_)
        split <;> omega
    · exact .refl _

theorem same_reverse (hN : Small N) (fuel : Nat) {first last : Int} (h1 : 0 ≤ first) (h4 : last ≤ N) : Same N (reverseM fuel first last : Prog T Unit) (reverse fuel first last) := by
  simp only [Small] at hN
  refine Same.prev_then (by omega) (same_reverseLoop hN fuel first _ (by omega) ?_)
  split <;> omega

/-! ### Stable -/

theorem same_mergeLoop (hN : Small N) (mid last : Int) : ∀ (f : Nat) (a b : Int) (pos : Nat) (tmp : List T), 0 ≤ a → 0 ≤ b →
    Same N (mergeLoopM cmp mid last f a b pos tmp) (mergeLoop cmp mid last f a b pos tmp)
  | 0, _, _, _, _, _, _ => .outOfFuel
  | f + 1, a, b, pos, tmp, h1, h2 => by
    simp only [mergeLoopM, mergeLoop]
    split
    · refine Same.then _ fun x => Same.then _ fun y => ?_
      split
      · refine Same.then _ fun x => ?_
        split
        · exact Same.next_then hN (by omega) fun q h3 _ => same_mergeLoop hN mid last f q b _ _ (by omega) h2
        · exact .panic
      · refine Same.then _ fun x => ?_
        split
        · exact Same.next_then hN (by omega) fun q h3 _ => same_mergeLoop hN mid last f a q _ _ h1 (by omega)
        · exact .panic
    · exact .refl _

theorem all_mergeLoop (mid last : Int) : ∀ (f : Nat) (a b : Int) (pos : Nat) (tmp : List T), 0 ≤ a → 0 ≤ b →
    All N (fun r => 0 ≤ r.1 ∧ 0 ≤ r.2.1) (mergeLoop cmp mid last f a b pos tmp)
  | 0, _, _, _, _, _, _ => trivial
  | f + 1, a, b, pos, tmp, h1, h2 => by
    simp only [mergeLoop]
    split
    · refine All.then _ fun x => All.then _ fun y => ?_
      split
      · refine All.then _ fun x => ?_
        split
        · exact All.next_then fun q h3 _ => all_mergeLoop mid last f q b _ _ (by omega) h2
        · trivial
      · refine All.then _ fun x => ?_
        split
        · exact All.next_then fun q h3 _ => all_mergeLoop mid last f a q _ _ h1 (by omega)
        · trivial
    · exact ⟨h1, h2⟩

theorem same_drainLoop (hN : Small N) (stop : Int) : ∀ (f : Nat) (a : Int) (pos : Nat) (tmp : List T), 0 ≤ a → Same N (drainLoopM stop f a pos tmp) (drainLoop stop f a pos tmp)
  | 0, _, _, _, _ => .outOfFuel
  | f + 1, a, pos, tmp, h1 => by
    simp only [drainLoopM, drainLoop]
    split
    · refine Same.then _ fun x => ?_
      split
      · exact Same.next_then hN (by omega) fun q h3 _ => same_drainLoop hN stop f q _ _ (by omega)
      · exact .panic
    · exact .refl _

theorem same_copyBack (hN : Small N) (tmp : List T) : ∀ (k idx : Nat) (it : Int), 0 ≤ it → Same N (copyBackM tmp k idx it) (copyBack tmp k idx it)
  | 0, _, _, _ => .refl _
  | k + 1, idx, it, h => by
    simp only [copyBackM, copyBack]
    cases tmp[idx]? with
    | none => exact .panic
    | some x => exact Same.then _ fun _ => Same.next_then hN (by omega) fun q h3 _ => same_copyBack hN tmp k _ q (by omega)

theorem same_merge (hN : Small N) {first mid last : Int} (h1 : 0 ≤ first) (h2 : 0 ≤ mid) (tmp : List T) : Same N (mergeM cmp first mid last tmp) (merge cmp first mid last tmp) := by
  refine (same_mergeLoop cmp hN mid last _ _ _ _ _ h1 h2).bind (all_mergeLoop cmp mid last _ _ _ _ _ h1 h2) fun r hr => ?_
  refine (same_drainLoop hN mid _ _ _ _ hr.1).bind (all_true _) fun r1 _ => ?_
  refine (same_drainLoop hN last _ _ _ _ hr.2).bind (all_true _) fun r2 _ => ?_
  exact (same_copyBack hN _ _ _ _ h1).bind (all_true _) fun _ _ => .refl _

theorem same_mergeSort (hN : Small N) : ∀ (f : Nat) (first last : Int) (tmp : List T), 0 ≤ first → first ≤ N → 0 ≤ last → last ≤ N →
    Same N (mergeSortM cmp f first last tmp) (mergeSort cmp f first last tmp)
  | 0, _, _, _, _, _, _, _ => .outOfFuel
  | f + 1, first, last, tmp, h1, h2, h3, h4 => by
    simp only [mergeSortM, mergeSort]
    simp only [Small] at hN
    rw [int64_id (x := first + 1) (by constructor <;> omega), int64_id (x := first + last) (by constructor <;> omega)]
    split
    · exact .refl _
    · refine (same_mergeSort hN f _ _ _ h1 h2 (by omega) (by omega)).bind (all_true _) fun t _ => ?_
      refine (same_mergeSort hN f _ _ _ (by omega) (by omega) h3 h4).bind (all_true _) fun t _ => ?_
      exact same_merge cmp hN h1 (by omega) t

theorem same_stable (hN : Small N) (zero : T) (fuel : Nat) {first last : Int} (h1 : 0 ≤ first) (h2 : first ≤ N) (h3 : 0 ≤ last) (h4 : last ≤ N) :
    Same N (stableM zero cmp fuel first last) (stable zero cmp fuel first last) := by
  simp only [Small] at hN
  simp only [stableM, stable]
  rw [int64_id (x := last - first) (by constructor <;> omega)]
  split
  · exact .panic
  · exact (same_mergeSort cmp hN fuel _ _ _ h1 h2 h3 h4).bind (all_true _) fun _ _ => .refl _

end GoSTL.Machine
