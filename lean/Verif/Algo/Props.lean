import Verif.Algo.Sort
import Verif.Algo.Stable
import Verif.Algo.Search
import Verif.Algo.Perm
import Verif.Algo.ConstOp
/-!
# C18–C25: the algorithms on every random-access container

Throughout, `c` is a container of any type whose `Size`/`At`/`Set` calls act like those of a list (`Lawful`; instances:
plain lists `listOps_lawful`, and vector, array, slice wrapper and deque in their own files), `abs c = P ++ M ++ S` is
what it holds, and the range passed to the algorithm is the part `M`: `first` is at position `P.length`, `last` at
position `P.length + M.length`.
-/
namespace GoSTL.Algo
open GoSTL.Seq

variable {C T : Type} {cmp : T → T → Int} {ops : Ops C T} {Inv : C → Prop} {abs : C → List T}

/-- Sorted by `cmp`. -/
def Sorted (cmp : T → T → Int) (l : List T) : Prop := l.Pairwise (fun x y => cmp x y ≤ 0)

/-- **C18** `Sort` ends without panic, with the range sorted, a permutation of what it was, and everything else in place. -/
theorem C18_sort_sorts (hcmp : LawfulCmp cmp) (hl : Lawful ops Inv abs) {c : C} (hc : Inv c) (P M S : List T)
    (hM : abs c = P ++ M ++ S) :
    ∃ c' M', run ops (sort cmp P.length (P.length + M.length)) c = .ok ((), c') ∧ Inv c' ∧ abs c' = P ++ M' ++ S ∧
      M'.Perm M ∧ Sorted cmp M' := by
  obtain ⟨l', e, s, so⟩ := run_sort hcmp (P ++ M ++ S) (first := P.length) (last := P.length + M.length) (by omega)
    (by simp; omega)
  obtain ⟨M', rfl, hp⟩ := s.segment
  rw [← hM] at e
  obtain ⟨c', e', h1, h2⟩ := run_lawful_ok hl hc e
  refine ⟨c', M', e', h1, h2, hp, ?_⟩
  have hs : SegAt (P ++ M' ++ S) P.length M' := ⟨P, S, rfl, rfl⟩
  refine hs.sorted' ?_
  rw [hp.length_eq]; exact so

example : ∃ c' M', run listOps (sort intCmp 1 6) [9, 5, 3, 4, 1, 2, 0] = .ok ((), c') ∧ True ∧ c' = [9] ++ M' ++ [0] ∧
    M'.Perm [5, 3, 4, 1, 2] ∧ Sorted intCmp M' :=
  C18_sort_sorts intCmp_lawful listOps_lawful trivial [9] [5, 3, 4, 1, 2] [0] rfl

example : run listOps (sort intCmp 1 6) [9, 5, 3, 4, 1, 2, 0] = .ok ((), [9, 1, 2, 3, 4, 5, 0]) := by rfl

/-- **C19 (partial)** On a non-empty range `Stable` ends without panic and leaves a stable sort: a sorted permutation in
which the elements equal to any `z` are in their original order. Missing: the empty range, on which it is false, see
`C19_stable_empty_diverges`. -/
theorem C19_stable_sorts_partial (hcmp : LawfulCmp cmp) (hl : Lawful ops Inv abs) {c : C} (hc : Inv c) (P M S : List T)
    (hM : abs c = P ++ M ++ S) (hne : M ≠ []) (zero : T) (fuel : Nat) (hf : M.length ≤ fuel) :
    ∃ c' M', run ops (stable zero cmp fuel P.length (P.length + M.length)) c = .ok ((), c') ∧ Inv c' ∧
      abs c' = P ++ M' ++ S ∧ M'.Perm M ∧ Sorted cmp M' ∧
      ∀ z, M'.filter (fun x => cmp z x = 0) = M.filter (fun x => cmp z x = 0) := by
  have h1 : 1 ≤ M.length := by cases M <;> simp_all
  obtain ⟨tmp', M', t, ⟨hp, hs, hst⟩, r⟩ := run_mergeSort hcmp fuel P M S (List.replicate M.length zero) P.length
    (P.length + M.length) rfl rfl h1 hf (by simp)
  have e : run listOps (stable zero cmp fuel P.length (P.length + M.length)) (P ++ M ++ S) = .ok ((), P ++ M' ++ S) := by
    have e1 : ((P.length : Int) + M.length - P.length).toNat = M.length := by omega
    unfold stable
    rw [if_neg (by omega), e1, run_bind_ok r]; rfl
  rw [← hM] at e
  obtain ⟨c', e', g1, g2⟩ := run_lawful_ok hl hc e
  exact ⟨c', M', e', g1, g2, hp, hs, hst⟩

/-- **C19 is false for empty ranges**: `Stable(first, first, cmp)` recurses forever, on any container. -/
theorem C19_stable_empty_diverges (ops : Ops C T) (cmp : T → T → Int) (c : C) (zero : T) (a : Int) :
    ∀ fuel, run ops (stable zero cmp fuel a a) c = .outOfFuel := by
  intro fuel
  unfold stable
  rw [if_neg (by omega), run_bind, run_mergeSort_empty]; rfl

example : run listOps (stable 0 intCmp 5 1 6) [9, 5, 3, 4, 1, 2, 0] = .ok ((), [9, 1, 2, 3, 4, 5, 0]) := by rfl

/-- **C20** On a sorted range `BinarySearch` decides whether an element equal to `val` is present; the container is
unchanged. -/
theorem C20_binarySearch_decides (hcmp : LawfulCmp cmp) (hl : Lawful ops Inv abs) {c : C} (hc : Inv c) (P M S : List T)
    (hM : abs c = P ++ M ++ S) (hs : Sorted cmp M) (val : T) :
    ∃ b c', run ops (binarySearch cmp P.length (P.length + M.length) val) c = .ok (b, c') ∧ Inv c' ∧ abs c' = abs c ∧
      (b = true ↔ ∃ x ∈ M, cmp val x = 0) := by
  obtain ⟨b, e, hb⟩ := run_binarySearch hcmp val (l := P ++ M ++ S) ⟨P, S, rfl, rfl⟩ hs
  rw [← hM] at e
  obtain ⟨c', e', g1, g2⟩ := run_lawful_ok hl hc e
  exact ⟨b, c', e', g1, g2, hb⟩

/-- **C21** On a sorted range `LowerBound` returns the position of the first element `≥ val`: everything before it in the
range is `< val`, everything from it on is `≥ val`; it is `last` when there is none. -/
theorem C21_lowerBound (hcmp : LawfulCmp cmp) (hl : Lawful ops Inv abs) {c : C} (hc : Inv c) (P M S : List T)
    (hM : abs c = P ++ M ++ S) (hs : Sorted cmp M) (val : T) :
    ∃ A B c', M = A ++ B ∧ (∀ x ∈ A, cmp x val < 0) ∧ (∀ x ∈ B, 0 ≤ cmp x val) ∧
      run ops (lowerBound cmp P.length (P.length + M.length) val) c = .ok ((P.length + A.length : Int), c') ∧ Inv c' ∧
      abs c' = abs c := by
  obtain ⟨A, B, e1, h1, h2, e⟩ := run_lowerBound hcmp val (l := P ++ M ++ S) ⟨P, S, rfl, rfl⟩ hs
  rw [← hM] at e
  obtain ⟨c', e', g1, g2⟩ := run_lawful_ok hl hc e
  exact ⟨A, B, c', e1, h1, h2, e', g1, g2⟩

/-- **C21** On a sorted range `UpperBound` returns the position of the first element `> val`. -/
theorem C21_upperBound (hcmp : LawfulCmp cmp) (hl : Lawful ops Inv abs) {c : C} (hc : Inv c) (P M S : List T)
    (hM : abs c = P ++ M ++ S) (hs : Sorted cmp M) (val : T) :
    ∃ A B c', M = A ++ B ∧ (∀ x ∈ A, cmp x val ≤ 0) ∧ (∀ x ∈ B, 0 < cmp x val) ∧
      run ops (upperBound cmp P.length (P.length + M.length) val) c = .ok ((P.length + A.length : Int), c') ∧ Inv c' ∧
      abs c' = abs c := by
  obtain ⟨A, B, e1, h1, h2, e⟩ := run_upperBound hcmp val (l := P ++ M ++ S) ⟨P, S, rfl, rfl⟩ hs
  rw [← hM] at e
  obtain ⟨c', e', g1, g2⟩ := run_lawful_ok hl hc e
  exact ⟨A, B, c', e1, h1, h2, e', g1, g2⟩

example : Sorted intCmp [1, 3, 3, 7] := by simp [Sorted, intCmp]
example : run listOps (binarySearch intCmp 1 5 3) [9, 1, 3, 3, 7, 0] = .ok (true, [9, 1, 3, 3, 7, 0]) := by rfl
example : run listOps (binarySearch intCmp 1 5 4) [9, 1, 3, 3, 7, 0] = .ok (false, [9, 1, 3, 3, 7, 0]) := by rfl
example : run listOps (lowerBound intCmp 1 5 3) [9, 1, 3, 3, 7, 0] = .ok (2, [9, 1, 3, 3, 7, 0]) := by rfl
example : run listOps (upperBound intCmp 1 5 3) [9, 1, 3, 3, 7, 0] = .ok (4, [9, 1, 3, 3, 7, 0]) := by rfl
example : run listOps (upperBound intCmp 1 5 8) [9, 1, 3, 3, 7, 0] = .ok (5, [9, 1, 3, 3, 7, 0]) := by rfl

/-- **C22 (partial)** `NthElement(first, last, n)` with `0 ≤ n < len` ends without panic, permutes the range and touches
nothing outside. The range then splits as `A ++ W ++ B` with everything in `A` below everything in `W ++ B`, everything
in `A ++ W` below everything in `B`, position `n` inside `W`, and `W` sorted or of length at most two. So the element at
position `n` is the one sorting would put there except that, when `W` has two elements, they may be exchanged.
Missing: the exact n-th element, which is false, see `C22_nthElement_wrong`. -/
theorem C22_nthElement_partial (hcmp : LawfulCmp cmp) (hl : Lawful ops Inv abs) {c : C} (hc : Inv c) (P M S : List T)
    (hM : abs c = P ++ M ++ S) (n : Nat) (hn : n < M.length) :
    ∃ c' A W B, run ops (nthElement cmp P.length (P.length + M.length) n) c = .ok ((), c') ∧ Inv c' ∧
      abs c' = P ++ (A ++ W ++ B) ++ S ∧ (A ++ W ++ B).Perm M ∧ A.length ≤ n ∧ n < A.length + W.length ∧
      (W.length ≤ 2 ∨ Sorted cmp W) ∧ (∀ a ∈ A, ∀ x ∈ W ++ B, cmp a x ≤ 0) ∧ (∀ x ∈ A ++ W, ∀ b ∈ B, cmp x b ≤ 0) := by
  have elast : (P.length : Int) + (P.length + M.length - P.length) - 1 = P.length + M.length - 1 := by omega
  obtain ⟨l', a, b, e, s, g1, g2, g3, g4, g5⟩ := run_nthElementRec hcmp (((P.length : Int) + M.length - P.length).toNat + 2)
    (P ++ M ++ S) P.length (P.length + M.length - 1) n (by omega) (by simp; omega) (by push_cast; omega) (by omega)
  obtain ⟨M', rfl, hp⟩ := s.segment
  have hlen : M'.length = M.length := hp.length_eq
  have g1 := g1 (by omega)
  obtain ⟨g3a, g3b⟩ := g3 (by omega) (by omega)
  obtain ⟨g5, cut1, cut2⟩ := g5 (by omega)
  have e' : run listOps (nthElement cmp P.length (P.length + M.length) n) (P ++ M ++ S) = .ok ((), P ++ M' ++ S) := by
    unfold nthElement
    rw [if_neg (by omega), elast, e]
  rw [← hM] at e'
  obtain ⟨c', e'', q1, q2⟩ := run_lawful_ok hl hc e'
  have hs : SegAt (P ++ M' ++ S) P.length M' := ⟨P, S, rfl, rfl⟩
  let i := (a - P.length).toNat
  let j := (b + 1 - P.length).toNat
  have hi : (i : Int) = a - P.length := by show ((a - P.length).toNat : Int) = _; omega
  have hj : (j : Int) = b + 1 - P.length := by show ((b + 1 - P.length).toNat : Int) = _; omega
  let A := M'.take i
  let W := (M'.drop i).take (j - i)
  let B := M'.drop j
  have hA : A.length = i := by show (M'.take i).length = i; rw [List.length_take]; omega
  have hW : W.length = j - i := by show ((M'.drop i).take (j - i)).length = _; simp; omega
  have hB : B.length = M.length - j := by show (M'.drop j).length = _; simp; omega
  have hWB : W ++ B = M'.drop i := by
    show (M'.drop i).take (j - i) ++ M'.drop j = _
    have : M'.drop j = (M'.drop i).drop (j - i) := by rw [List.drop_drop]; congr 1; omega
    rw [this, List.take_append_drop]
  have eM : A ++ W ++ B = M' := by rw [List.append_assoc, hWB]; exact List.take_append_drop _ _
  have sAW : SegAt (P ++ M' ++ S) P.length (A ++ W) := by rw [← eM] at hs ⊢; exact hs.left
  have sA : SegAt (P ++ M' ++ S) P.length A := sAW.left
  have sWB : SegAt (P ++ M' ++ S) a (W ++ B) := by
    rw [← eM] at hs ⊢; rw [List.append_assoc A W B] at hs; have := hs.right
    rw [hA, hi] at this
    have e : (P.length : Int) + (a - P.length) = a := by omega
    rw [e] at this; simpa using this
  have sB : SegAt (P ++ M' ++ S) (b + 1) B := by
    have := sWB.right
    have e : a + (W.length : Int) = b + 1 := by rw [hW]; omega
    rw [e] at this; exact this
  have sW := sWB.left
  have mem : ∀ {a : Int} {X : List T} (_ : SegAt (P ++ M' ++ S) a X) {x : T}, x ∈ X →
      ∃ k : Int, a ≤ k ∧ k < a + X.length ∧ at? (P ++ M' ++ S) k = some x := by
    intro a X hX x hx
    obtain ⟨k, hk, rfl⟩ := List.getElem_of_mem hx
    exact ⟨a + k, by omega, by omega, hX.get hk⟩
  refine ⟨c', A, W, B, e'', q1, by rw [eM]; exact q2, by rw [eM]; exact hp, by omega, by omega, ?_, ?_, ?_⟩
  · rcases g4 with g4 | g4
    · exact .inl (by omega)
    · refine .inr (sW.sorted' ?_)
      have e : a + (W.length : Int) - 1 = b := by rw [hW]; omega
      rw [e]; exact g4
  · intro x hx y hy
    obtain ⟨k, k1, k2, ex⟩ := mem sA hx
    obtain ⟨k', k1', k2', ey⟩ := mem sWB hy
    have : (W ++ B).length = W.length + B.length := by simp
    exact cut1 k k' x y k1 (by omega) (by omega) (by omega) ex ey
  · intro x hx y hy
    obtain ⟨k, k1, k2, ex⟩ := mem sAW hx
    obtain ⟨k', k1', k2', ey⟩ := mem sB hy
    have : (A ++ W).length = A.length + W.length := by simp
    exact cut2 k k' x y k1 (by omega) (by omega) (by omega) ex ey

/-- **C22 is false**: asked for the smallest element of `[2, 1]`, `NthElement` leaves `2` in front; and of any two
elements in the wrong order it never exchanges them. -/
theorem C22_nthElement_wrong (ops : Ops C T) (cmp : T → T → Int) (c : C) (a n : Int) (h0 : 0 ≤ a) (hn : n ≤ 2) :
    run ops (nthElement cmp a (a + 2) n) c = .ok ((), c) := by
  unfold nthElement
  rw [if_neg (by omega)]
  have e : (a + 2 - a).toNat + 2 = 3 + 1 := by omega
  rw [e, nthElementRec, if_pos (by omega)]; rfl

example : run listOps (nthElement intCmp 0 2 0) [2, 1] = .ok ((), [2, 1]) := C22_nthElement_wrong _ _ _ 0 0 (by omega) (by omega)

/-- **C23** `NextPermutation` returns true and rearranges the range into the least rearrangement above the current one, or
returns false and changes nothing, the range being the greatest rearrangement. (Order: lexicographic by `cmp`.) -/
theorem C23_nextPermutation (hcmp : LawfulCmp cmp) (hl : Lawful ops Inv abs) {c : C} (hc : Inv c) (P M S : List T)
    (hM : abs c = P ++ M ++ S) :
    ∃ b c' M', run ops (nextPermutation cmp P.length (P.length + M.length)) c = .ok (b, c') ∧ Inv c' ∧
      abs c' = P ++ M' ++ S ∧ M'.Perm M ∧
      (b = true → lexLt cmp M M' ∧ ∀ N : List T, N.Perm M → lexLt cmp M N → ¬ lexLt cmp N M') ∧
      (b = false → M' = M ∧ ∀ N : List T, N.Perm M → ¬ lexLt cmp M N) := by
  obtain ⟨b, M', e, h1, h2, h3⟩ := run_nextPermutation hcmp P M S
  rw [← hM] at e
  obtain ⟨c', e', q1, q2⟩ := run_lawful_ok hl hc e
  exact ⟨b, c', M', e', q1, q2, h1, h2, h3⟩

example : run listOps (nextPermutation intCmp 1 5) [9, 1, 3, 3, 2, 0] = .ok (true, [9, 2, 1, 3, 3, 0]) := by rfl
example : run listOps (nextPermutation intCmp 1 5) [9, 3, 3, 2, 1, 0] = .ok (false, [9, 3, 3, 2, 1, 0]) := by rfl

/-- **C24 (partial)** On a non-empty range `Reverse` ends without panic, reverses the range and touches nothing else.
Missing: the empty range, on which it is false, see `C24_reverse_empty_panics`. -/
theorem C24_reverse_partial (hl : Lawful ops Inv abs) {c : C} (hc : Inv c) (P M S : List T) (hM : abs c = P ++ M ++ S)
    (hne : M ≠ []) (fuel : Nat) (hf : M.length ≤ fuel) :
    ∃ c', run ops (reverse fuel P.length (P.length + M.length)) c = .ok ((), c') ∧ Inv c' ∧ abs c' = P ++ M.reverse ++ S := by
  have h1 : 1 ≤ M.length := by cases M <;> simp_all
  have e : run listOps (reverse fuel P.length (P.length + M.length)) (P ++ M ++ S) = .ok ((), P ++ M.reverse ++ S) := by
    unfold reverse
    rw [run_bind_ok (run_prev_ge (by omega)), run_reverseLoop fuel P M S _ _ rfl rfl h1 hf]
  rw [← hM] at e
  exact run_lawful_ok hl hc e

/-- **C24 is false for empty ranges**: `Reverse(first, first)` panics at every position of every container (after
exchanging elements around the position, when there are any). -/
theorem C24_reverse_empty_panics (hl : Lawful ops Inv abs) {c : C} (hc : Inv c) (p : Nat) (fuel : Nat) (hf : p + 1 ≤ fuel) :
    run ops (reverse fuel p p) c = .panic := by
  apply run_lawful_panic hl hc
  unfold reverse
  rw [run_bind_ok (run_prev_ge (by omega))]
  exact run_reverseLoop_crossed fuel _ _ _ (by omega) (by omega) (by omega) (by omega)

example : run listOps (reverse 5 1 5) [9, 1, 2, 3, 4, 0] = .ok ((), [9, 4, 3, 2, 1, 0]) := by rfl

/-! ## C25, on a random-access container -/

section ConstOps
variable (hl : Lawful ops Inv abs) {c : C} (hc : Inv c) (P M S : List T) (hM : abs c = P ++ M ++ S) (fuel : Nat)
  (hf : M.length + 1 ≤ fuel)
include hl hc hM hf

/-- **C25** `Count` is the number of elements equal to `val`. -/
theorem C25_count (cmp : T → T → Int) (val : T) :
    count (posIter ops c) cmp fuel P.length ((P.length + M.length : Nat) : Int) val =
      .ok (M.countP fun x => cmp x val = 0) := by
  have h := posIter_range hl c hc M P S hM
  unfold count
  rw [countLoop_spec h val fuel 0 (by rw [entriesAt_length]; exact hf)]
  have : (entriesAt P.length M).countP (fun e => decide (cmp e.2 val = 0)) =
      ((entriesAt P.length M).map Prod.snd).countP (fun x => decide (cmp x val = 0)) := by
    rw [List.countP_map]; rfl
  rw [this, entriesAt_values]; simp

/-- **C25** `Find` returns the position of the first element equal to `val`, or `last`. -/
theorem C25_find (cmp : T → T → Int) (val : T) :
    ∃ r, find (posIter ops c) cmp ((P.length + M.length : Nat) : Int) val fuel P.length = .ok r ∧
      FirstWith (entriesAt P.length M) ((P.length + M.length : Nat) : Int) (fun e => cmp e.2 val = 0) r :=
  find_spec (posIter_range hl c hc M P S hM) val fuel (by rw [entriesAt_length]; exact hf)

/-- **C25** `MaxElement` returns the first position of a greatest element, or `last` for an empty range. -/
theorem C25_maxElement (hcmp : LawfulCmp cmp) :
    ∃ r, maxElement (posIter ops c) cmp fuel P.length ((P.length + M.length : Nat) : Int) = .ok r ∧
      ((M = [] ∧ r = (P.length : Int)) ∨ FirstBest (fun x y => cmp x y < 0) (entriesAt P.length M) r) := by
  obtain ⟨r, e, h⟩ := maxElement_spec hcmp (posIter_range hl c hc M P S hM) fuel (by rw [entriesAt_length]; exact hf)
  refine ⟨r, e, h.imp (fun ⟨h1, h2⟩ => ?_) id⟩
  have : M = [] := by rw [← entriesAt_values M P.length, h1]; rfl
  subst this; exact ⟨rfl, by simpa using h2⟩

/-- **C25** `MinElement` returns the first position of a least element, or `last` for an empty range. -/
theorem C25_minElement (hcmp : LawfulCmp cmp) :
    ∃ r, minElement (posIter ops c) cmp fuel P.length ((P.length + M.length : Nat) : Int) = .ok r ∧
      ((M = [] ∧ r = (P.length : Int)) ∨ FirstBest (fun x y => cmp y x < 0) (entriesAt P.length M) r) := by
  obtain ⟨r, e, h⟩ := minElement_spec hcmp (posIter_range hl c hc M P S hM) fuel (by rw [entriesAt_length]; exact hf)
  refine ⟨r, e, h.imp (fun ⟨h1, h2⟩ => ?_) id⟩
  have : M = [] := by rw [← entriesAt_values M P.length, h1]; rfl
  subst this; exact ⟨rfl, by simpa using h2⟩

/-- **C25** `CountIf`, `FindIf`, `AnyOf`, `AllOf`, `NoneOf` meet their definitions (the visitor sees the iterator). -/
theorem C25_visitors (f : Int → Bool) :
    countIf (posIter ops c) fuel P.length ((P.length + M.length : Nat) : Int) f =
        .ok ((entriesAt P.length M).countP fun e => f e.1) ∧
    (∃ r, findIf (posIter ops c) f ((P.length + M.length : Nat) : Int) fuel P.length = .ok r ∧
      FirstWith (entriesAt P.length M) ((P.length + M.length : Nat) : Int) (fun e => f e.1 = true) r) ∧
    anyOf (posIter ops c) f ((P.length + M.length : Nat) : Int) fuel P.length =
        .ok ((entriesAt P.length M).any fun e => f e.1) ∧
    allOf (posIter ops c) f ((P.length + M.length : Nat) : Int) fuel P.length =
        .ok ((entriesAt P.length M).all fun e => f e.1) ∧
    noneOf (posIter ops c) f ((P.length + M.length : Nat) : Int) fuel P.length =
        .ok (!(entriesAt P.length M).any fun e => f e.1) := by
  have h := posIter_range hl c hc M P S hM
  have hf' : (entriesAt (P.length : Int) M).length + 1 ≤ fuel := by rw [entriesAt_length]; exact hf
  refine ⟨?_, findIf_spec h f fuel hf', anyOf_spec h f fuel hf', allOf_spec h f fuel hf', ?_⟩
  · unfold countIf; rw [countIfLoop_spec h f fuel 0 hf', Nat.zero_add]
  · unfold noneOf; rw [anyOf_spec h f fuel hf']; rfl

end ConstOps

example : count (posIter listOps [9, 3, 1, 3, 0]) intCmp 9 1 4 3 = .ok 2 :=
  C25_count (c := [9, 3, 1, 3, 0]) listOps_lawful trivial [9] [3, 1, 3] [0] rfl 9 (by simp) intCmp 3
example : find (posIter listOps [9, 3, 1, 3, 0]) intCmp 4 3 9 1 = .ok 1 := by rfl
example : maxElement (posIter listOps [9, 3, 1, 3, 0]) intCmp 9 1 4 = .ok 1 := by rfl
example : minElement (posIter listOps [9, 3, 1, 3, 0]) intCmp 9 1 4 = .ok 2 := by rfl

/-! ### Each theorem on the range `1 … 5` of a concrete container -/

example := C19_stable_sorts_partial (ops := listOps) (cmp := fun a b => intCmp (a / 10) (b / 10)) ⟨fun _ _ => intCmp_lawful.swap _ _, fun _ _ _ => intCmp_lawful.trans _ _ _⟩ listOps_lawful (c := [99, 23, 11, 21, 12, 0]) trivial [99] [23, 11, 21, 12] [0] rfl (by simp) 0 4 (by simp)
example : run listOps (stable 0 (fun a b => intCmp (a / 10) (b / 10)) 4 1 5) [99, 23, 11, 21, 12, 0] = .ok ((), [99, 11, 12, 23, 21, 0]) := by rfl
example : ∀ fuel, run listOps (stable 0 intCmp fuel 2 2) [5, 4, 3, 2] = .outOfFuel := C19_stable_empty_diverges listOps intCmp [5, 4, 3, 2] 0 2
example : ∃ b c', run listOps (binarySearch intCmp 1 5 3) [9, 1, 3, 3, 7, 0] = .ok (b, c') ∧ True ∧ c' = [9, 1, 3, 3, 7, 0] ∧ (b = true ↔ ∃ x ∈ [1, 3, 3, 7], intCmp 3 x = 0) :=
  C20_binarySearch_decides intCmp_lawful listOps_lawful (c := [9, 1, 3, 3, 7, 0]) trivial [9] [1, 3, 3, 7] [0] rfl (by simp [Sorted, intCmp]) 3
example := C21_lowerBound intCmp_lawful listOps_lawful (c := [9, 1, 3, 3, 7, 0]) trivial [9] [1, 3, 3, 7] [0] rfl (by simp [Sorted, intCmp]) 3
example := C21_upperBound intCmp_lawful listOps_lawful (c := [9, 1, 3, 3, 7, 0]) trivial [9] [1, 3, 3, 7] [0] rfl (by simp [Sorted, intCmp]) 3
example : ∃ c' A W B, run listOps (nthElement intCmp 1 5 2) [9, 7, 3, 1, 3, 0] = .ok ((), c') ∧ True ∧ c' = [9] ++ (A ++ W ++ B) ++ [0] ∧ (A ++ W ++ B).Perm [7, 3, 1, 3] ∧
    A.length ≤ 2 ∧ 2 < A.length + W.length ∧ (W.length ≤ 2 ∨ Sorted intCmp W) ∧ (∀ a ∈ A, ∀ x ∈ W ++ B, intCmp a x ≤ 0) ∧ (∀ x ∈ A ++ W, ∀ b ∈ B, intCmp x b ≤ 0) :=
  C22_nthElement_partial intCmp_lawful listOps_lawful (c := [9, 7, 3, 1, 3, 0]) trivial [9] [7, 3, 1, 3] [0] rfl 2 (by simp)
example := C23_nextPermutation intCmp_lawful listOps_lawful (c := [9, 1, 3, 3, 2, 0]) trivial [9] [1, 3, 3, 2] [0] rfl
example : ∃ c', run listOps (reverse 4 1 5) [9, 1, 2, 3, 4, 0] = .ok ((), c') ∧ True ∧ c' = [9, 4, 3, 2, 1, 0] :=
  C24_reverse_partial listOps_lawful (c := [9, 1, 2, 3, 4, 0]) trivial [9] [1, 2, 3, 4] [0] rfl (by simp) 4 (by simp)
example : run listOps (reverse 9 3 3) [9, 1, 2, 3, 4, 0] = .panic := C24_reverse_empty_panics listOps_lawful (c := [9, 1, 2, 3, 4, 0]) trivial 3 9 (by omega)
example := C25_find (c := [9, 3, 1, 3, 0]) listOps_lawful trivial [9] [3, 1, 3] [0] rfl 9 (by simp) intCmp 1
example := C25_maxElement (c := [9, 3, 1, 3, 0]) listOps_lawful trivial [9] [3, 1, 3] [0] rfl 9 (by simp) intCmp_lawful
example := C25_minElement (c := [9, 3, 1, 3, 0]) listOps_lawful trivial [9] [3, 1, 3] [0] rfl 9 (by simp) intCmp_lawful
example : countIf (posIter listOps [9, 3, 1, 3, 0]) 9 1 4 (fun i => decide (2 ≤ i)) = .ok 2 :=
  (C25_visitors (c := [9, 3, 1, 3, 0]) listOps_lawful trivial [9] [3, 1, 3] [0] rfl 9 (by simp) fun i => decide (2 ≤ i)).1

end GoSTL.Algo
