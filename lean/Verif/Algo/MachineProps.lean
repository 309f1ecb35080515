import Verif.Algo.Props
import Verif.Algo.Machine
/-!
# C106: what the algorithms do with Go's `int`
-/
namespace GoSTL.Machine
open GoSTL.Seq GoSTL.Algo

variable {C T : Type} {ops : Ops C T} {Inv : C → Prop} {abs : C → List T} {cmp : T → T → Int}

/-- **C106** With machine integers, on a container of fewer than 2^62 elements, each algorithm does to every range what it does with unbounded integers: whatever is
proved of the latter holds of the former. The comparator is arbitrary. -/
theorem C106_same (hl : Lawful ops Inv abs) {c : C} (hc : Inv c) (hN : ((abs c).length : Int) < 2 ^ 62) {first last : Int}
    (h1 : 0 ≤ first) (h2 : first ≤ (abs c).length) (h3 : 0 ≤ last) (h4 : last ≤ (abs c).length) :
    run ops (sortM cmp first last) c = run ops (sort cmp first last) c ∧
    (∀ n, Fits64 n → run ops (nthElementM cmp first last n) c = run ops (nthElement cmp first last n) c) ∧
    (∀ v, run ops (binarySearchM cmp first last v) c = run ops (binarySearch cmp first last v) c) ∧
    (∀ v, run ops (lowerBoundM cmp first last v) c = run ops (lowerBound cmp first last v) c) ∧
    (∀ v, run ops (upperBoundM cmp first last v) c = run ops (upperBound cmp first last v) c) ∧
    run ops (nextPermutationM cmp first last) c = run ops (nextPermutation cmp first last) c ∧
    (∀ f, run ops (reverseM f first last) c = run ops (reverse f first last) c) ∧
    (∀ z f, run ops (stableM z cmp f first last) c = run ops (stable z cmp f first last) c) :=
  ⟨(same_sort cmp hN h1 h2 h3 h4).run hl hc (Int.le_refl _),
   fun _ hn => (same_nthElement cmp hN h1 h2 h3 h4 hn.2).run hl hc (Int.le_refl _),
   fun v => (same_binarySearch cmp hN h1 h4 v).run hl hc (Int.le_refl _),
   fun v => (same_lowerBound cmp hN h1 h4 v).run hl hc (Int.le_refl _),
   fun v => (same_upperBound cmp hN h1 h4 v).run hl hc (Int.le_refl _),
   (same_nextPermutation cmp hN h1 h2 h3 h4).run hl hc (Int.le_refl _),
   fun f => (same_reverse hN f h1 h4).run hl hc (Int.le_refl _),
   fun z f => (same_stable cmp hN z f h1 h2 h3 h4).run hl hc (Int.le_refl _)⟩

/-- **C106** `Sort` with machine integers sorts: what C18 says. -/
theorem C106_sort (hcmp : LawfulCmp cmp) (hl : Lawful ops Inv abs) {c : C} (hc : Inv c) (P M S : List T) (hM : abs c = P ++ M ++ S)
    (hN : ((abs c).length : Int) < 2 ^ 62) :
    ∃ c' M', run ops (sortM cmp P.length (P.length + M.length)) c = .ok ((), c') ∧ Inv c' ∧ abs c' = P ++ M' ++ S ∧ M'.Perm M ∧ Sorted cmp M' := by
  have hn : (abs c).length = P.length + M.length + S.length := by rw [hM]; simp; omega
  obtain ⟨e, _⟩ := C106_same (cmp := cmp) hl hc hN (first := P.length) (last := P.length + M.length) (by omega) (by omega) (by omega) (by omega)
  rw [e]
  exact C18_sort_sorts hcmp hl hc P M S hM

/-- **C106** `Stable` with machine integers sorts and keeps the order of equal elements: what C19 says. -/
theorem C106_stable (hcmp : LawfulCmp cmp) (hl : Lawful ops Inv abs) {c : C} (hc : Inv c) (P M S : List T) (hM : abs c = P ++ M ++ S)
    (hN : ((abs c).length : Int) < 2 ^ 62) (hne : M ≠ []) (zero : T) (fuel : Nat) (hf : M.length ≤ fuel) :
    ∃ c' M', run ops (stableM zero cmp fuel P.length (P.length + M.length)) c = .ok ((), c') ∧ Inv c' ∧
      abs c' = P ++ M' ++ S ∧ M'.Perm M ∧ Sorted cmp M' ∧
      ∀ z, M'.filter (fun x => cmp z x = 0) = M.filter (fun x => cmp z x = 0) := by
  have hn : (abs c).length = P.length + M.length + S.length := by rw [hM]; simp; omega
  obtain ⟨_, _, _, _, _, _, _, e⟩ := C106_same (cmp := cmp) hl hc hN (first := P.length) (last := P.length + M.length) (by omega) (by omega) (by omega) (by omega)
  rw [e]
  exact C19_stable_sorts_partial hcmp hl hc P M S hM hne zero fuel hf

/-- **C106** `BinarySearch` with machine integers decides membership: what C20 says. -/
theorem C106_binarySearch (hcmp : LawfulCmp cmp) (hl : Lawful ops Inv abs) {c : C} (hc : Inv c) (P M S : List T) (hM : abs c = P ++ M ++ S)
    (hN : ((abs c).length : Int) < 2 ^ 62) (hs : Sorted cmp M) (val : T) :
    ∃ b c', run ops (binarySearchM cmp P.length (P.length + M.length) val) c = .ok (b, c') ∧ Inv c' ∧ abs c' = abs c ∧
      (b = true ↔ ∃ x ∈ M, cmp val x = 0) := by
  have hn : (abs c).length = P.length + M.length + S.length := by rw [hM]; simp; omega
  obtain ⟨_, _, e, _⟩ := C106_same (cmp := cmp) hl hc hN (first := P.length) (last := P.length + M.length) (by omega) (by omega) (by omega) (by omega)
  rw [e]
  exact C20_binarySearch_decides hcmp hl hc P M S hM hs val

/-- **C106** `LowerBound` and `UpperBound` with machine integers: what C21 says. -/
theorem C106_bounds (hcmp : LawfulCmp cmp) (hl : Lawful ops Inv abs) {c : C} (hc : Inv c) (P M S : List T) (hM : abs c = P ++ M ++ S)
    (hN : ((abs c).length : Int) < 2 ^ 62) (hs : Sorted cmp M) (val : T) :
    (∃ A B c', M = A ++ B ∧ (∀ x ∈ A, cmp x val < 0) ∧ (∀ x ∈ B, 0 ≤ cmp x val) ∧
      run ops (lowerBoundM cmp P.length (P.length + M.length) val) c = .ok ((P.length + A.length : Int), c') ∧ Inv c' ∧ abs c' = abs c) ∧
    ∃ A B c', M = A ++ B ∧ (∀ x ∈ A, cmp x val ≤ 0) ∧ (∀ x ∈ B, 0 < cmp x val) ∧
      run ops (upperBoundM cmp P.length (P.length + M.length) val) c = .ok ((P.length + A.length : Int), c') ∧ Inv c' ∧ abs c' = abs c := by
  have hn : (abs c).length = P.length + M.length + S.length := by rw [hM]; simp; omega
  obtain ⟨_, _, _, e1, e2, _⟩ := C106_same (cmp := cmp) hl hc hN (first := P.length) (last := P.length + M.length) (by omega) (by omega) (by omega) (by omega)
  rw [e1, e2]
  exact ⟨C21_lowerBound hcmp hl hc P M S hM hs val, C21_upperBound hcmp hl hc P M S hM hs val⟩

/-- **C106** `NextPermutation` with machine integers: what C23 says. -/
theorem C106_nextPermutation (hcmp : LawfulCmp cmp) (hl : Lawful ops Inv abs) {c : C} (hc : Inv c) (P M S : List T) (hM : abs c = P ++ M ++ S)
    (hN : ((abs c).length : Int) < 2 ^ 62) :
    ∃ b c' M', run ops (nextPermutationM cmp P.length (P.length + M.length)) c = .ok (b, c') ∧ Inv c' ∧
      abs c' = P ++ M' ++ S ∧ M'.Perm M ∧
      (b = true → lexLt cmp M M' ∧ ∀ N : List T, N.Perm M → lexLt cmp M N → ¬ lexLt cmp N M') ∧
      (b = false → M' = M ∧ ∀ N : List T, N.Perm M → ¬ lexLt cmp M N) := by
  have hn : (abs c).length = P.length + M.length + S.length := by rw [hM]; simp; omega
  obtain ⟨_, _, _, _, _, e, _⟩ := C106_same (cmp := cmp) hl hc hN (first := P.length) (last := P.length + M.length) (by omega) (by omega) (by omega) (by omega)
  rw [e]
  exact C23_nextPermutation hcmp hl hc P M S hM

/-- **C106** `Reverse` with machine integers: what C24 says. -/
theorem C106_reverse (hl : Lawful ops Inv abs) {c : C} (hc : Inv c) (P M S : List T) (hM : abs c = P ++ M ++ S)
    (hN : ((abs c).length : Int) < 2 ^ 62) (hne : M ≠ []) (fuel : Nat) (hf : M.length ≤ fuel) :
    ∃ c', run ops (reverseM fuel P.length (P.length + M.length)) c = .ok ((), c') ∧ Inv c' ∧ abs c' = P ++ M.reverse ++ S := by
  have hn : (abs c).length = P.length + M.length + S.length := by rw [hM]; simp; omega
  have e := (same_reverse (T := T) hN fuel (first := P.length) (last := P.length + M.length) (by omega) (by omega)).run hl hc (Int.le_refl _)
  rw [e]
  exact C24_reverse_partial hl hc P M S hM hne fuel hf

/-- **C106, the bound is tight** Searching past position 2^62 (a container of `struct{}` can be that long) panics, although the element is there: the sum of the two ends
of the range wraps around, and the middle is negative. -/
theorem C106_binarySearch_overflows (hl : Lawful ops Inv abs) {c : C} (hc : Inv c) (hN : (2 : Int) ^ 62 < (abs c).length) (val : T) :
    run ops (binarySearchM cmp (2 ^ 62) (2 ^ 62 + 1) val) c = .panic := by
  apply run_lawful_panic hl hc
  have e1 : int64 (2 ^ 62 + 2 ^ 62) / 2 = -2 ^ 62 := by decide
  have e2 : ((2 : Int) ^ 62 + 1 - 2 ^ 62).toNat + 1 = 1 + 1 := by decide
  have e3 : int64 (2 ^ 62 + 1 - 1) = 2 ^ 62 := by decide
  have hv : run listOps (isValid (2 ^ 62)) (abs c) = .ok (true, abs c) := by
    show Res.ok (decide ((2 : Int) ^ 62 ≥ 0) && decide ((2 : Int) ^ 62 < (abs c).length), abs c) = _
    rw [decide_eq_true (by omega), decide_eq_true hN]; rfl
  have hp : run listOps (prevM (2 ^ 62 + 1)) (abs c) = .ok (2 ^ 62, abs c) := by
    show Res.ok (if (2 : Int) ^ 62 + 1 ≥ 0 then int64 (2 ^ 62 + 1 - 1) else 2 ^ 62 + 1, abs c) = _
    rw [if_pos (by omega), e3]
  unfold binarySearchM
  rw [run_bind_ok hv, if_neg (by decide), run_bind_ok hp, e2]
  simp only [binarySearchLoopM, e1]
  rw [if_pos (Int.le_refl _)]
  show (Res.ofOption (at? (abs c) (-2 ^ 62)) >>= _) = _
  have : at? (abs c) (-2 ^ 62) = none := by simp only [at?]; rw [if_neg (by omega)]
  rw [this]; rfl

/-! ## Non-vacuity -/

example : run listOps (sortM intCmp 1 6) [9, 5, 3, 4, 1, 2, 0] = .ok ((), [9, 1, 2, 3, 4, 5, 0]) := by rfl
example := C106_sort (ops := listOps) intCmp_lawful listOps_lawful (c := [9, 5, 3, 4, 1, 2, 0]) trivial [9] [5, 3, 4, 1, 2] [0] rfl (by decide)
example : run listOps (nthElementM intCmp 0 5 2) [5, 3, 4, 1, 2] = .ok ((), [1, 2, 3, 4, 5]) := by rfl
example : run listOps (binarySearchM intCmp 0 3 5) [1, 5, 7] = .ok (true, [1, 5, 7]) := by rfl
example : run listOps (lowerBoundM intCmp 0 3 5) [1, 5, 7] = .ok (1, [1, 5, 7]) := by rfl
example : run listOps (nextPermutationM intCmp 0 3) [1, 3, 2] = .ok (true, [2, 1, 3]) := by rfl
example : run listOps (stableM 0 intCmp 5 0 4) [3, 1, 2, 0] = .ok ((), [0, 1, 2, 3]) := by rfl

end GoSTL.Machine
