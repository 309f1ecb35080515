import Verif.Heap.Props
/-!
# C63: the heap operations move along one path of the tree
-/
namespace GoSTL.Heap
open GoSTL.Seq GoSTL.Algo
variable {T : Type}

theorem lessAt_ne (cmp : T → T → Int) (h : List T) (i j : Int) : lessAt cmp h i j ≠ .outOfFuel := by
  simp only [lessAt]
  cases at? h i <;> cases at? h j <;> simp

theorem swapAt_ne (h : List T) (i j : Int) : swapAt h i j ≠ .outOfFuel := by
  simp only [swapAt]
  cases at? h i <;> cases at? h j <;> simp

theorem upLoop_budget (cmp : T → T → Int) : ∀ (f g : Nat) (h : List T) (j : Int), 0 ≤ j → j + 1 < 2 ^ f → j + 1 < 2 ^ g →
    upLoop cmp f h j = upLoop cmp g h j ∧ upLoop cmp f h j ≠ .outOfFuel := by
  intro f
  induction f with
  | zero => intro g h j h0 h1 _; simp at h1; omega
  | succ f ih =>
    intro g h j h0 h1 h2
    obtain ⟨g, rfl⟩ : ∃ k, g = k + 1 := by
      cases g with
      | zero => simp at h2; omega
      | succ g => exact ⟨g, rfl⟩
    rw [Int.pow_succ] at h1 h2
    unfold upLoop
    by_cases c : (j - 1).tdiv 2 = j
    · simp only [c, if_true]; simp
    · have hj : 0 < j := by
        by_contra q
        have : j = 0 := by omega
        subst this; exact c rfl
      simp only
      rw [tdiv_par hj] at c ⊢
      simp only [if_neg c]
      cases e : lessAt cmp h j (par j) with
      | ok b =>
        cases b with
        | false => simp
        | true =>
          simp only [Res.ok_bind, Bool.not_true, Bool.false_eq_true, if_false]
          cases e' : swapAt h (par j) j with
          | ok h' => exact ih g h' (par j) (by simp only [par]; omega) (by simp only [par]; omega) (by simp only [par]; omega)
          | panic => simp
          | outOfFuel => exact absurd e' (swapAt_ne _ _ _)
      | panic => simp
      | outOfFuel => exact absurd e (lessAt_ne _ _ _ _)

theorem child_range {cmp : T → T → Int} {h : List T} {n j1 j : Int} (e : child cmp h n j1 = .ok j) : j1 ≤ j := by
  unfold child at e
  split at e
  · cases e' : lessAt cmp h (j1 + 1) j1 with
    | ok b => rw [e'] at e; cases b <;> simp at e <;> omega
    | panic => rw [e'] at e; cases e
    | outOfFuel => rw [e'] at e; cases e
  · cases e; omega

theorem child_ne (cmp : T → T → Int) (h : List T) (n j1 : Int) : child cmp h n j1 ≠ .outOfFuel := by
  unfold child
  split
  · cases e' : lessAt cmp h (j1 + 1) j1 with
    | ok b => simp
    | panic => simp
    | outOfFuel => exact absurd e' (lessAt_ne _ _ _ _)
  · simp

theorem downLoop_budget (cmp : T → T → Int) (n : Int) : ∀ (f g : Nat) (h : List T) (i : Int), 0 ≤ i → 0 < f → 0 < g → n < (i + 1) * 2 ^ f → n < (i + 1) * 2 ^ g →
    downLoop cmp n f h i = downLoop cmp n g h i ∧ downLoop cmp n f h i ≠ .outOfFuel := by
  intro f
  induction f with
  | zero => intro g h i _ h1; omega
  | succ f ih =>
    intro g h i h0 _ hg h1 h2
    obtain ⟨g, rfl⟩ : ∃ k, g = k + 1 := ⟨g - 1, by omega⟩
    unfold downLoop
    by_cases c : 2 * i + 1 ≥ n ∨ 2 * i + 1 < 0
    · simp only [c, if_true]; simp
    · simp only [if_neg c]
      have pos : ∀ (k : Nat) (j : Int), 2 * i + 1 ≤ j → n < (i + 1) * 2 ^ (k + 1) → 0 < k ∧ n < (j + 1) * 2 ^ k := by
        intro k j hj hn
        refine ⟨?_, ?_⟩
        · rcases Nat.eq_zero_or_pos k with rfl | hk
          · simp at hn; omega
          · exact hk
        · rw [Int.pow_succ] at hn
          have hp : (0 : Int) < 2 ^ k := Int.pow_pos (by decide)
          have : (i + 1) * (2 ^ k * 2) ≤ (j + 1) * 2 ^ k := by
            have e : (i + 1) * (2 ^ k * 2) = (2 * i + 2) * 2 ^ k := by
              rw [Int.mul_comm (2 ^ k) 2, ← Int.mul_assoc]; congr 1; omega
            rw [e]
            exact Int.mul_le_mul_of_nonneg_right (by omega) (by omega)
          omega
      cases e : child cmp h n (2 * i + 1) with
      | ok j =>
        have hj := child_range e
        simp only [Res.ok_bind]
        cases e1 : lessAt cmp h j i with
        | ok b =>
          cases b with
          | false => simp
          | true =>
            simp only [Res.ok_bind, Bool.not_true, Bool.false_eq_true, if_false]
            cases e' : swapAt h i j with
            | ok h' => exact ih g h' j (by omega) (pos f j hj h1).1 (pos g j hj h2).1 (pos f j hj h1).2 (pos g j hj h2).2
            | panic => simp
            | outOfFuel => exact absurd e' (swapAt_ne _ _ _)
        | panic => simp
        | outOfFuel => exact absurd e1 (lessAt_ne _ _ _ _)
      | panic => simp
      | outOfFuel => exact absurd e (child_ne _ _ _ _)

/-- **C63** On a heap slice of `n` elements the upward loop (one `Less` and at most one `Swap` per
round) and the downward loop (at most two `Less` and one `Swap` per round) make at most `log2 n + 1` rounds, for every comparator and every content: with that
budget, or any larger one, they return what they return without a limit. `Push` and `Pop` call one of them once, `Remove` and `Fix` each at most once. -/
theorem C63_heap_logarithmic (cmp : T → T → Int) (h : List T) {N : Nat} (hN : Nat.log2 h.length < N) :
    (∀ j : Int, 0 ≤ j → j < h.length → up cmp h j = upLoop cmp N h j ∧ upLoop cmp N h j ≠ .outOfFuel) ∧
    (∀ i n : Int, 0 ≤ i → n ≤ h.length →
      down cmp h i n = (downLoop cmp n N h i >>= fun r => .ok (decide (r.1 > i), r.2)) ∧ downLoop cmp n N h i ≠ .outOfFuel) := by
  have h1 : (h.length : Int) < 2 ^ N := by
    have a := Nat.lt_log2_self (n := h.length)
    have b : 2 ^ (Nat.log2 h.length + 1) ≤ 2 ^ N := Nat.pow_le_pow_right (by omega) (by omega)
    have : h.length < 2 ^ N := by omega
    exact_mod_cast this
  have h2 : (h.length : Int) < 2 ^ (h.length + 1) := by
    have : h.length < 2 ^ (h.length + 1) := Nat.lt_trans (Nat.lt_succ_self _) Nat.lt_two_pow_self
    exact_mod_cast this
  have h3 : (1 : Int) ≤ 2 ^ N := by omega
  have h4 : (1 : Int) ≤ 2 ^ (h.length + 1) := by omega
  constructor
  · intro j hj hjl
    have := upLoop_budget cmp N (h.length + 1) h j hj (by omega) (by omega)
    exact ⟨this.1.symm, this.2⟩
  · intro i n hi hn
    have m : ∀ p : Int, 1 ≤ p → (h.length : Int) < p → n < (i + 1) * p := by
      intro p hp hlt
      have : 1 * p ≤ (i + 1) * p := Int.mul_le_mul_of_nonneg_right (by omega) (by omega)
      omega
    have := downLoop_budget cmp n N (h.length + 1) h i hi (by omega) (by omega) (m _ h3 h1) (m _ h4 h2)
    refine ⟨?_, this.2⟩
    simp only [down]
    rw [this.1]

/-- Seven elements: three rounds are enough, and needed. -/
example : Nat.log2 ([9, 2, 3, 4, 5, 6, 7] : List Int).length < 3 := by decide
example : downLoop intCmp 7 3 [9, 2, 3, 4, 5, 6, 7] 0 = .ok (3, [2, 4, 3, 9, 5, 6, 7]) ∧ downLoop intCmp 7 2 [9, 2, 3, 4, 5, 6, 7] 0 = .outOfFuel := ⟨rfl, rfl⟩

example : down intCmp [9, 2, 3, 4, 5, 6, 7] 0 7 = (downLoop intCmp 7 3 [9, 2, 3, 4, 5, 6, 7] 0 >>= fun r => .ok (decide (r.1 > 0), r.2)) :=
  ((C63_heap_logarithmic intCmp [9, 2, 3, 4, 5, 6, 7] (N := 3) (by decide)).2 0 7 (by decide) (by decide)).1

end GoSTL.Heap
