import Verif.Algo.AnyCmp
import Verif.Algo.Cost
import Mathlib.Tactic.Linarith
import Mathlib.Tactic.Ring
/-!
# C76: how often `Sort` and `NthElement` touch the container
-/
namespace GoSTL.Seq

instance {T : Type} : LawfulMonad (Prog T) := LawfulMonad.mk'
  (id_map := by
    intro α x
    show x.bind (fun a => .ret a) = x
    induction x with
    | ret a => rfl
    | get i k ih => exact congrArg _ (funext ih)
    | set i v k ih => exact congrArg _ ih
    | size k ih => exact congrArg _ (funext ih)
    | panic => rfl
    | outOfFuel => rfl)
  (pure_bind := fun _ _ => rfl)
  (bind_assoc := by
    intro α β γ x f g
    show (x.bind f).bind g = x.bind fun a => (f a).bind g
    induction x with
    | ret a => rfl
    | get i k ih => exact congrArg _ (funext ih)
    | set i v k ih => exact congrArg _ ih
    | size k ih => exact congrArg _ (funext ih)
    | panic => rfl
    | outOfFuel => rfl)

end GoSTL.Seq

namespace GoSTL.Algo
open GoSTL.Seq
variable {C T : Type} {ops : Ops C T} {Inv : C → Prop} {abs : C → List T}

theorem acc_swapValue {l : List T} {i j : Int} (hi : 0 ≤ i ∧ i < l.length) (hj : 0 ≤ j ∧ j < l.length) :
    accesses listOps (swapValue i j) l = 4 := by
  obtain ⟨x, hx⟩ := at?_ge hi
  obtain ⟨y, hy⟩ := at?_ge hj
  unfold swapValue
  rw [accesses_bind_ok (run_value hx), accesses_bind_ok (run_value hy), acc_value, acc_value,
    accesses_bind_ok (run_setValue _ _ _), acc_setValue, acc_setValue]

theorem acc_swapIfGreater (cmp : T → T → Int) {l : List T} {i j : Int} (hi : 0 ≤ i ∧ i < l.length) (hj : 0 ≤ j ∧ j < l.length) :
    2 ≤ accesses listOps (swapIfGreater cmp i j) l ∧ accesses listOps (swapIfGreater cmp i j) l ≤ 6 := by
  obtain ⟨x, hx⟩ := at?_ge hi
  obtain ⟨y, hy⟩ := at?_ge hj
  unfold swapIfGreater
  rw [accesses_bind_ok (run_value hx), accesses_bind_ok (run_value hy), acc_value, acc_value]
  split
  · rw [acc_swapValue hi hj]; omega
  · rw [acc_pure]; omega

theorem acc_doPivot (cmp : T → T → Int) {l : List T} {first mid last : Int} (h0 : 0 ≤ first) (h1 : first < mid)
    (h2 : mid < last) (h3 : last < l.length) :
    6 ≤ accesses listOps (doPivot cmp first mid last) l ∧ accesses listOps (doPivot cmp first mid last) l ≤ 18 := by
  obtain ⟨l1, e1, s1⟩ := run_swapIfGreater_any cmp (l := l) (i := first) (j := mid) (by omega) (by omega)
  have t1 : Swaps first last l l1 := .of_or s1 (by omega) (by omega) (by omega) (by omega)
  have n1 := t1.length
  obtain ⟨l2, e2, s2⟩ := run_swapIfGreater_any cmp (l := l1) (i := first) (j := last) (by omega) (by omega)
  have t2 : Swaps first last l1 l2 := .of_or s2 (by omega) (by omega) (by omega) (by omega)
  have n2 := t2.length
  have b1 := acc_swapIfGreater cmp (l := l) (i := first) (j := mid) (by omega) (by omega)
  have b2 := acc_swapIfGreater cmp (l := l1) (i := first) (j := last) (by omega) (by omega)
  have b3 := acc_swapIfGreater cmp (l := l2) (i := mid) (j := last) (by omega) (by omega)
  unfold doPivot
  rw [accesses_bind_ok e1, accesses_bind_ok e2]
  omega

theorem acc_partitionLoop (cmp : T → T → Int) (base : Int) :
    ∀ (f : Nat) (l : List T) (left right : Int), base < l.length → 0 ≤ left → left ≤ right + 1 → right < base →
      (accesses listOps (partitionLoop cmp base f left right) l : Int) ≤ 4 * (right - left + 1) + 4 := by
  intro f
  induction f with
  | zero =>
    intro l left right _ _ _ _
    have : accesses listOps (partitionLoop cmp base 0 left right) l = 0 := rfl
    omega
  | succ f ih =>
    intro l left right hb h0 h1 h2
    unfold partitionLoop
    by_cases c : left ≤ right
    · rw [if_pos c]
      obtain ⟨x, hx⟩ := at?_ge (l := l) (i := left) (by omega)
      obtain ⟨b, hb'⟩ := at?_ge (l := l) (i := base) (by omega)
      obtain ⟨y, hy⟩ := at?_ge (l := l) (i := right) (by omega)
      rw [accesses_bind_ok (run_value hx), accesses_bind_ok (run_value hb'), acc_value, acc_value]
      by_cases c1 : cmp x b ≤ 0
      · rw [if_pos c1, accesses_bind_ok (run_next_lt (by omega)), acc_next]
        have := ih l (left + 1) right hb (by omega) (by omega) h2
        push_cast; omega
      · rw [if_neg c1, accesses_bind_ok (run_value hy), accesses_bind_ok (run_value hb'), acc_value, acc_value]
        by_cases c2 : cmp y b > 0
        · rw [if_pos c2, accesses_bind_ok (run_prev_ge (by omega)), acc_prev]
          have := ih l left (right - 1) hb (by omega) (by omega) (by omega)
          push_cast; omega
        · rw [if_neg c2]
          have hlr : left ≠ right := by
            rintro rfl
            rw [hx] at hy; cases hy; omega
          rw [accesses_bind_ok (run_swapValue (by omega) (by omega)), acc_swapValue (by omega) (by omega),
            accesses_bind_ok (run_next_lt (by rw [lswap_length]; omega)), acc_next, accesses_bind_ok (run_prev_ge (by omega)), acc_prev]
          have := ih (lswap l left right) (left + 1) (right - 1) (by rw [lswap_length]; omega) (by omega) (by omega) (by omega)
          push_cast; omega
    · rw [if_neg c, acc_pure]; push_cast; omega

/-- The loop of a partition none of whose elements is greater than the pivot goes over all of them. -/
theorem partitionLoop_all (cmp : T → T → Int) (base : Int) (P : T → Prop) (hP : ∀ x y, P x → P y → cmp x y = 0) :
    ∀ (f : Nat) (l : List T) (left right : Int), base < l.length → 0 ≤ left → left ≤ right + 1 → right < base →
      right - left + 2 ≤ f → AllIn l left base P →
      run listOps (partitionLoop cmp base f left right) l = .ok (right, l) ∧
      (accesses listOps (partitionLoop cmp base f left right) l : Int) = 2 * (right - left + 1) := by
  intro f
  induction f with
  | zero => intro l left right _ _ _ _ hf; simp at hf; omega
  | succ f ih =>
    intro l left right hb h0 h1 h2 hf hA
    push_cast at hf
    unfold partitionLoop
    by_cases c : left ≤ right
    · rw [if_pos c]
      obtain ⟨x, hx⟩ := at?_ge (l := l) (i := left) (by omega)
      obtain ⟨b, hb'⟩ := at?_ge (l := l) (i := base) (by omega)
      have c1 : cmp x b ≤ 0 := by
        rw [hP x b (hA left x (by omega) (by omega) hx) (hA base b (by omega) (by omega) hb')]
      obtain ⟨q1, q2⟩ := ih l (left + 1) right hb (by omega) (by omega) h2 (by omega)
        (fun k z k1 k2 hz => hA k z (by omega) k2 hz)
      constructor
      · rw [run_bind_ok (run_value hx), run_bind_ok (run_value hb'), if_pos c1, run_bind_ok (run_next_lt (by omega))]
        exact q1
      · rw [accesses_bind_ok (run_value hx), accesses_bind_ok (run_value hb'), acc_value, acc_value,
          if_pos c1, accesses_bind_ok (run_next_lt (by omega)), acc_next]
        push_cast; omega
    · rw [if_neg c, acc_pure]
      exact ⟨rfl, by push_cast; omega⟩

theorem acc_partitionStep (cmp : T → T → Int) {l : List T} {first last : Int} (h0 : 0 ≤ first) (h1 : first + 3 ≤ last)
    (h2 : last < l.length) : (accesses listOps (partitionStep cmp first last) l : Int) ≤ 4 * (last - first + 1) + 18 := by
  obtain ⟨l1, e1, s1⟩ := run_doPivot_any cmp (l := l) (first := first)
    (mid := first + (last - first + 1) / 2) (last := last) h0 (by omega) (by omega) h2
  have a1 := acc_doPivot cmp (l := l) (first := first)
    (mid := first + (last - first + 1) / 2) (last := last) h0 (by omega) (by omega) h2
  have len1 := s1.length
  have hi : 0 ≤ first + (last - first + 1) / 2 ∧ first + (last - first + 1) / 2 < (l1.length : Int) := by omega
  have hj : 0 ≤ last - 1 ∧ last - 1 < (l1.length : Int) := by omega
  have e2 := run_swapValue hi hj
  have a2 := acc_swapValue hi hj
  have s2 : Swaps first last l1 (lswap l1 (first + (last - first + 1) / 2) (last - 1)) :=
    .one (by omega) (by omega) (by omega) (by omega)
  have len2 := s2.length
  obtain ⟨pv, hpv⟩ := at?_ge (l := lswap l1 (first + (last - first + 1) / 2) (last - 1)) (i := last - 1) (by omega)
  obtain ⟨r, l3, e3, s3, r1, r2, -, -⟩ := run_partitionLoop cmp (last - 1) pv ((last - first + 1).toNat + 1) _ (first + 1)
    (last - 2) hpv (by omega) (by omega) (by omega) (by push_cast; omega)
  have a3 := acc_partitionLoop cmp (last - 1) ((last - first + 1).toNat + 1)
    (lswap l1 (first + (last - first + 1) / 2) (last - 1)) (first + 1)
    (last - 2) (by omega) (by omega) (by omega) (by omega)
  have len3 := s3.length
  have hi' : 0 ≤ last - 1 ∧ last - 1 < (l3.length : Int) := by omega
  have hj' : 0 ≤ r + 1 ∧ r + 1 < (l3.length : Int) := by omega
  have a4 := acc_swapValue hi' hj'
  unfold partitionStep
  simp only
  rw [accesses_bind_ok e1, accesses_bind_ok e2, accesses_bind_ok e3, accesses_bind_ok (run_next_lt (by omega)),
    accesses_bind_ok (run_swapValue hi' hj'), acc_pure, acc_next, a2, a4]
  push_cast; omega

/-- The partition of a range of equal elements puts the pivot next to the end. -/
theorem partitionStep_all (cmp : T → T → Int) (P : T → Prop) (hP : ∀ x y, P x → P y → cmp x y = 0) {l : List T}
    {first last : Int} (h0 : 0 ≤ first) (h1 : first + 3 ≤ last) (h2 : last < l.length) (hA : AllIn l first last P) :
    ∃ l', run listOps (partitionStep cmp first last) l = .ok (last - 1, l') ∧ Swaps first last l l' ∧
      2 * (last - first + 1) + 8 ≤ (accesses listOps (partitionStep cmp first last) l : Int) := by
  obtain ⟨l1, e1, s1⟩ := run_doPivot_any cmp (l := l) (first := first)
    (mid := first + (last - first + 1) / 2) (last := last) h0 (by omega) (by omega) h2
  have a1 := acc_doPivot cmp (l := l) (first := first)
    (mid := first + (last - first + 1) / 2) (last := last) h0 (by omega) (by omega) h2
  have len1 := s1.length
  have hi : 0 ≤ first + (last - first + 1) / 2 ∧ first + (last - first + 1) / 2 < (l1.length : Int) := by omega
  have hj : 0 ≤ last - 1 ∧ last - 1 < (l1.length : Int) := by omega
  have e2 := run_swapValue hi hj
  have a2 := acc_swapValue hi hj
  have s2 : Swaps first last l1 (lswap l1 (first + (last - first + 1) / 2) (last - 1)) :=
    .one (by omega) (by omega) (by omega) (by omega)
  have len2 := s2.length
  have hA2 := hA.swaps (s1.trans s2) (.inl ⟨by omega, by omega⟩)
  obtain ⟨e3, a3⟩ := partitionLoop_all cmp (last - 1) P hP ((last - first + 1).toNat + 1)
    (lswap l1 (first + (last - first + 1) / 2) (last - 1)) (first + 1)
    (last - 2) (by omega) (by omega) (by omega) (by omega) (by push_cast; omega)
    (fun k z k1 k2 hz => hA2 k z (by omega) (by omega) hz)
  have en : last - 2 + 1 = last - 1 := by omega
  have hi' : 0 ≤ last - 1 ∧ last - 1 < ((lswap l1 (first + (last - first + 1) / 2) (last - 1)).length : Int) := by omega
  have hn : last - 2 < ((lswap l1 (first + (last - first + 1) / 2) (last - 1)).length : Int) := by omega
  have e5 := run_next_lt hn
  rw [en] at e5
  refine ⟨_, ?_, (s1.trans s2).step (i := last - 1) (j := last - 1) (by omega) (by omega) (by omega) (by omega), ?_⟩
  · unfold partitionStep
    simp only
    rw [run_bind_ok e1, run_bind_ok e2, run_bind_ok e3, run_bind_ok e5, run_bind_ok (run_swapValue hi' hi')]
    rfl
  · unfold partitionStep
    simp only
    rw [accesses_bind_ok e1, accesses_bind_ok e2, accesses_bind_ok e3, accesses_bind_ok e5,
      accesses_bind_ok (run_swapValue hi' hi'), acc_pure, acc_next, a2, acc_swapValue hi' hi']
    push_cast; omega

theorem acc_quickSort_big (cmp : T → T → Int) {f : Nat} {first last m : Int} (h0 : 0 ≤ first) (h1 : first + 3 ≤ last) {l l1 l2 : List T}
    (h2 : last < l.length)
    (e1 : run listOps (partitionStep cmp first last) l = .ok (m, l1)) (hm : m < l2.length)
    (e2 : run listOps (quickSort cmp f first (m - 1)) l1 = .ok ((), l2)) :
    accesses listOps (quickSort cmp (f + 1) first last) l = accesses listOps (partitionStep cmp first last) l +
      accesses listOps (quickSort cmp f first (m - 1)) l1 + accesses listOps (quickSort cmp f (m + 1) last) l2 := by
  have key : accesses listOps (quickSort cmp (f + 1) first last) l = accesses listOps (do
      let m ← partitionStep cmp first last
      quickSort cmp f first (m - 1)
      let first' ← next m
      quickSort cmp f first' last) l := by
    rw [quickSort, if_neg (by omega)]
    simp only
    rw [if_neg (by omega), if_neg (by omega)]
    simp only [partitionStep, bind_assoc, pure_bind]
  rw [key, accesses_bind_ok e1, accesses_bind_ok e2, accesses_bind_ok (run_next_lt hm), acc_next]
  omega

theorem quad_step (a b n : Int) (ha : 0 ≤ a) (hb : 0 ≤ b) (hn : a + b + 1 = n) (h4 : 4 ≤ n) :
    4 * n + 18 + 5 * (a * a) + 5 * (b * b) ≤ 5 * (n * n) := by
  subst hn
  nlinarith [mul_nonneg ha hb]

theorem quad_one (j k : Int) (hj : 0 ≤ j) (hk : j ≤ k - 1) (h4 : 4 ≤ k) : 4 * k + 18 + 5 * (j * j) ≤ 5 * (k * k) := by
  have h1 : j * j ≤ (k - 1) * (k - 1) := mul_self_le_mul_self hj hk
  have h2 : (k - 1) * (k - 1) = k * k - 2 * k + 1 := by ring
  omega

theorem acc_quickSort (cmp : T → T → Int) : ∀ (f : Nat) (l : List T) (first last : Int), 0 ≤ first →
    last < l.length → last - first + 2 ≤ f → 1 ≤ f → first ≤ last + 1 →
    (accesses listOps (quickSort cmp f first last) l : Int) ≤ 5 * ((last - first + 1) * (last - first + 1)) := by
  intro f
  induction f with
  | zero => intro l first last _ _ _ h; omega
  | succ f ih =>
    intro l first last h0 h1 hf _ hle
    push_cast at hf
    by_cases c1 : first ≥ last
    · rw [quickSort, if_pos c1, acc_pure]
      have := mul_self_nonneg (last - first + 1)
      push_cast; omega
    by_cases c2 : last - first + 1 < 3
    · have := acc_swapIfGreater cmp (l := l) (i := first) (j := last) (by omega) (by omega)
      rw [quickSort, if_neg c1]; simp only; rw [if_pos c2]
      have e : last - first + 1 = 2 := by omega
      rw [e]; omega
    by_cases c3 : last - first + 1 = 3
    · obtain ⟨l', e, s⟩ := run_doPivot_any cmp (l := l) (first := first)
        (mid := first + (last - first + 1) / 2) (last := last) h0 (by omega) (by omega) h1
      have a := acc_doPivot cmp (l := l) (first := first)
        (mid := first + (last - first + 1) / 2) (last := last) h0 (by omega) (by omega) h1
      have len1 := s.length
      rw [quickSort, if_neg c1]; simp only
      rw [if_neg c2, accesses_bind_ok e, accesses_bind_ok (run_swapValue (by omega) (by omega)),
        acc_swapValue (by omega) (by omega), if_pos c3, acc_pure]
      generalize accesses listOps (doPivot cmp first (first + (last - first + 1) / 2) last) l = A at a
      rw [c3]; omega
    · obtain ⟨m, l1, e1, s1, m1, m2⟩ := run_partitionStep_any cmp h0 (by omega) h1
      have len1 := s1.length
      obtain ⟨l2, e2, s2⟩ := run_quickSort_any cmp f l1 first (m - 1) h0 (by omega) (by omega) (by omega)
      have len2 := s2.length
      rw [acc_quickSort_big cmp h0 (by omega) h1 e1 (by omega) e2]
      have a0 := acc_partitionStep cmp h0 (by omega) h1
      have a1 := ih l1 first (m - 1) h0 (by omega) (by omega) (by omega) (by omega)
      have a2 := ih l2 (m + 1) last (by omega) (by omega) (by omega) (by omega) (by omega)
      have q := quad_step (m - 1 - first + 1) (last - (m + 1) + 1) (last - first + 1) (by omega) (by omega) (by omega) (by omega)
      push_cast
      omega

/-- On a range of equal elements every call leaves a range that is only two elements shorter. -/
theorem acc_quickSort_all (cmp : T → T → Int) (P : T → Prop) (hP : ∀ x y, P x → P y → cmp x y = 0) :
    ∀ (f : Nat) (l : List T) (first last : Int), 0 ≤ first →
    last < l.length → last - first + 2 ≤ f → 1 ≤ f → first < last → AllIn l first last P →
    (last - first + 1) * (last - first + 1) ≤ 2 * (accesses listOps (quickSort cmp f first last) l : Int) := by
  intro f
  induction f with
  | zero => intro l first last _ _ _ h; omega
  | succ f ih =>
    intro l first last h0 h1 hf _ hlt hA
    push_cast at hf
    by_cases c2 : last - first + 1 < 3
    · have := acc_swapIfGreater cmp (l := l) (i := first) (j := last) (by omega) (by omega)
      rw [quickSort, if_neg (by omega)]; simp only; rw [if_pos c2]
      have e : last - first + 1 = 2 := by omega
      rw [e]; omega
    by_cases c3 : last - first + 1 = 3
    · obtain ⟨l', e, s⟩ := run_doPivot_any cmp (l := l) (first := first)
        (mid := first + (last - first + 1) / 2) (last := last) h0 (by omega) (by omega) h1
      have a := acc_doPivot cmp (l := l) (first := first)
        (mid := first + (last - first + 1) / 2) (last := last) h0 (by omega) (by omega) h1
      have len1 := s.length
      rw [quickSort, if_neg (by omega)]; simp only
      rw [if_neg c2, accesses_bind_ok e, accesses_bind_ok (run_swapValue (by omega) (by omega)),
        acc_swapValue (by omega) (by omega), if_pos c3, acc_pure]
      generalize accesses listOps (doPivot cmp first (first + (last - first + 1) / 2) last) l = A at a
      rw [c3]; omega
    · obtain ⟨l1, e1, s1, a0⟩ := partitionStep_all cmp P hP h0 (by omega) h1 hA
      have len1 := s1.length
      obtain ⟨l2, e2, s2⟩ := run_quickSort_any cmp f l1 first (last - 1 - 1) h0 (by omega) (by omega) (by omega)
      have len2 := s2.length
      rw [acc_quickSort_big cmp h0 (by omega) h1 e1 (by omega) e2]
      have hA1 := hA.swaps s1 (.inl ⟨by omega, by omega⟩)
      have a1 := ih l1 first (last - 1 - 1) h0 (by omega) (by omega) (by omega) (by omega)
        (fun k z k1 k2 hz => hA1 k z k1 (by omega) hz)
      generalize hn : last - first + 1 = n at *
      have en : last - 1 - 1 - first + 1 = n - 2 := by omega
      rw [en] at a1
      push_cast
      nlinarith

/-- **C76** `Sort` makes at most `5·n²` reads and writes on a range of `n` elements, on every container, for every content
and every comparator. The full claim, a bound of order `n·log n`, is false: `C76_sort_violated`. -/
theorem C76_sort_quadratic_partial (hl : Lawful ops Inv abs) {c : C} (hc : Inv c) (P M S : List T) (hM : abs c = P ++ M ++ S)
    (cmp : T → T → Int) :
    accesses ops (sort cmp P.length (P.length + M.length)) c ≤ 5 * M.length ^ 2 := by
  rw [accesses_lawful hl _ _ hc, hM]
  have elast : (P.length : Int) + (P.length + M.length - P.length) - 1 = P.length + M.length - 1 := by omega
  have := acc_quickSort cmp (((P.length : Int) + M.length - P.length).toNat + 1) (P ++ M ++ S) P.length
    (P.length + M.length - 1) (by omega) (by simp; omega) (by push_cast; omega) (by omega) (by omega)
  unfold sort
  rw [elast]
  have e : (P.length : Int) + M.length - 1 - P.length + 1 = M.length := by omega
  rw [e] at this
  rw [Nat.pow_two]
  exact_mod_cast this

/-- **C76** `Sort` is not `O(n log n)`: on every range of `n ≥ 2` elements that all compare equal it makes at least `n²/2`
reads and writes. -/
theorem C76_sort_violated (hl : Lawful ops Inv abs) {c : C} (hc : Inv c) (P M S : List T) (hM : abs c = P ++ M ++ S)
    (cmp : T → T → Int) (heq : ∀ x ∈ M, ∀ y ∈ M, cmp x y = 0) (h2 : 2 ≤ M.length) :
    M.length ^ 2 ≤ 2 * accesses ops (sort cmp P.length (P.length + M.length)) c := by
  rw [accesses_lawful hl _ _ hc, hM]
  have elast : (P.length : Int) + (P.length + M.length - P.length) - 1 = P.length + M.length - 1 := by omega
  have hA : AllIn (P ++ M ++ S) P.length (P.length + M.length - 1) (· ∈ M) := by
    intro k x k1 k2 hx
    obtain ⟨j, rfl⟩ : ∃ j : Nat, k = P.length + j := ⟨(k - P.length).toNat, by omega⟩
    rw [at?_segment (by omega)] at hx
    cases hx
    exact List.getElem_mem _
  have := acc_quickSort_all cmp (· ∈ M) (fun x y hx hy => heq x hx y hy) (((P.length : Int) + M.length - P.length).toNat + 1) (P ++ M ++ S) P.length
    (P.length + M.length - 1) (by omega) (by simp; omega) (by push_cast; omega) (by omega) (by omega) hA
  unfold sort
  rw [elast]
  have e : (P.length : Int) + M.length - 1 - P.length + 1 = M.length := by omega
  rw [e] at this
  rw [Nat.pow_two]
  exact_mod_cast this

example : accesses listOps (sort intCmp 1 7) [9, 5, 3, 4, 1, 2, 0, 8] = 64 ∧ 5 * 6 ^ 2 = 180 := ⟨by decide, rfl⟩
example : accesses listOps (sort intCmp 1 7) [9, 5, 5, 5, 5, 5, 5, 8] = 38 ∧ 6 ^ 2 ≤ 2 * 38 := ⟨by decide, by decide⟩

/-! ## NthElement -/

theorem acc_nthElementRec_big (cmp : T → T → Int) {f : Nat} {first last m n : Int} (h1 : first + 3 ≤ last) {l l1 : List T}
    (e1 : run listOps (partitionStep cmp first last) l = .ok (m, l1)) (hm : m < l1.length) :
    accesses listOps (nthElementRec cmp (f + 1) first last n) l = accesses listOps (partitionStep cmp first last) l +
      (if n ≤ m - first then accesses listOps (nthElementRec cmp f first m n) l1
       else accesses listOps (nthElementRec cmp f (m + 1) last (n - (m - first + 1))) l1) := by
  have key : accesses listOps (nthElementRec cmp (f + 1) first last n) l = accesses listOps (do
      let m ← partitionStep cmp first last
      if n ≤ m - first then nthElementRec cmp f first m n
      else do
        let first' ← next m
        nthElementRec cmp f first' last (n - (m - first + 1))) l := by
    rw [nthElementRec, if_neg (by omega)]
    simp only
    rw [if_neg (by omega), if_neg (by omega)]
    simp only [partitionStep, bind_assoc, pure_bind]
  rw [key, accesses_bind_ok e1]
  split
  · rfl
  · rw [accesses_bind_ok (run_next_lt hm), acc_next]; omega

theorem acc_nthElementRec (cmp : T → T → Int) : ∀ (f : Nat) (l : List T) (first last n : Int), 0 ≤ first →
    last < l.length → last - first + 2 ≤ f → 1 ≤ f → first ≤ last + 1 →
    (accesses listOps (nthElementRec cmp f first last n) l : Int) ≤ 5 * ((last - first + 1) * (last - first + 1)) := by
  intro f
  induction f with
  | zero => intro l first last n _ _ _ h; omega
  | succ f ih =>
    intro l first last n h0 h1 hf _ hle
    push_cast at hf
    by_cases c1 : first + 1 ≥ last
    · rw [nthElementRec, if_pos c1, acc_pure]
      have := mul_self_nonneg (last - first + 1)
      push_cast; omega
    by_cases c3 : last - first + 1 = 3
    · obtain ⟨l', e, s⟩ := run_doPivot_any cmp (l := l) (first := first)
        (mid := first + (last - first + 1) / 2) (last := last) h0 (by omega) (by omega) h1
      have a := acc_doPivot cmp (l := l) (first := first)
        (mid := first + (last - first + 1) / 2) (last := last) h0 (by omega) (by omega) h1
      have len1 := s.length
      rw [nthElementRec, if_neg c1]; simp only
      rw [if_neg (by omega), accesses_bind_ok e, accesses_bind_ok (run_swapValue (by omega) (by omega)),
        acc_swapValue (by omega) (by omega), if_pos c3, acc_pure]
      generalize accesses listOps (doPivot cmp first (first + (last - first + 1) / 2) last) l = A at a
      rw [c3]; omega
    · obtain ⟨m, l1, e1, s1, m1, m2⟩ := run_partitionStep_any cmp h0 (by omega) h1
      have len1 := s1.length
      rw [acc_nthElementRec_big cmp (by omega) e1 (by omega)]
      have a0 := acc_partitionStep cmp h0 (by omega) h1
      generalize hn : last - first + 1 = k at *
      split
      · have a1 := ih l1 first m n h0 (by omega) (by omega) (by omega) (by omega)
        generalize hj : m - first + 1 = j at *
        have := quad_one j k (by omega) (by omega) (by omega)
        push_cast
        omega
      · have a1 := ih l1 (m + 1) last (n - (m - first + 1)) (by omega) (by omega) (by omega) (by omega) (by omega)
        generalize hj : last - (m + 1) + 1 = j at *
        have := quad_one j k (by omega) (by omega) (by omega)
        push_cast
        omega

theorem acc_nthElementRec_all (cmp : T → T → Int) (P : T → Prop) (hP : ∀ x y, P x → P y → cmp x y = 0) :
    ∀ (f : Nat) (l : List T) (first last : Int), 0 ≤ first →
    last < l.length → last - first + 2 ≤ f → 1 ≤ f → first + 2 ≤ last → AllIn l first last P →
    (last - first + 1) * (last - first + 1) ≤ (accesses listOps (nthElementRec cmp f first last 0) l : Int) := by
  intro f
  induction f with
  | zero => intro l first last _ _ _ h; omega
  | succ f ih =>
    intro l first last h0 h1 hf _ hlt hA
    push_cast at hf
    by_cases c3 : last - first + 1 = 3
    · obtain ⟨l', e, s⟩ := run_doPivot_any cmp (l := l) (first := first)
        (mid := first + (last - first + 1) / 2) (last := last) h0 (by omega) (by omega) h1
      have a := acc_doPivot cmp (l := l) (first := first)
        (mid := first + (last - first + 1) / 2) (last := last) h0 (by omega) (by omega) h1
      have len1 := s.length
      rw [nthElementRec, if_neg (by omega)]; simp only
      rw [if_neg (by omega), accesses_bind_ok e, accesses_bind_ok (run_swapValue (by omega) (by omega)),
        acc_swapValue (by omega) (by omega), if_pos c3, acc_pure]
      generalize accesses listOps (doPivot cmp first (first + (last - first + 1) / 2) last) l = A at a
      rw [c3]; omega
    · obtain ⟨l1, e1, s1, a0⟩ := partitionStep_all cmp P hP h0 (by omega) h1 hA
      have len1 := s1.length
      rw [acc_nthElementRec_big cmp (by omega) e1 (by omega), if_pos (by omega)]
      have hA1 := hA.swaps s1 (.inl ⟨by omega, by omega⟩)
      have a1 := ih l1 first (last - 1) h0 (by omega) (by omega) (by omega) (by omega)
        (fun k z k1 k2 hz => hA1 k z k1 (by omega) hz)
      generalize hn : last - first + 1 = n at *
      have en : last - 1 - first + 1 = n - 1 := by omega
      rw [en] at a1
      push_cast
      nlinarith

/-- **C76** `NthElement` makes at most `5·n²` reads and writes on a range of `n` elements, for every content, position and
comparator. The full claim, a bound of order `n`, is false: `C76_nthElement_violated`. -/
theorem C76_nthElement_quadratic_partial (hl : Lawful ops Inv abs) {c : C} (hc : Inv c) (P M S : List T) (hM : abs c = P ++ M ++ S)
    (cmp : T → T → Int) (n : Int) :
    accesses ops (nthElement cmp P.length (P.length + M.length) n) c ≤ 5 * M.length ^ 2 := by
  rw [accesses_lawful hl _ _ hc, hM]
  have elast : (P.length : Int) + (P.length + M.length - P.length) - 1 = P.length + M.length - 1 := by omega
  have := acc_nthElementRec cmp (((P.length : Int) + M.length - P.length).toNat + 2) (P ++ M ++ S) P.length
    (P.length + M.length - 1) n (by omega) (by simp; omega) (by push_cast; omega) (by omega) (by omega)
  unfold nthElement
  split
  · rw [acc_pure]; omega
  · rw [elast]
    have e : (P.length : Int) + M.length - 1 - P.length + 1 = M.length := by omega
    rw [e] at this
    rw [Nat.pow_two]
    exact_mod_cast this

/-- **C76** `NthElement` is not linear: asked for the first position of `n ≥ 3` elements that all compare equal it makes
at least `n²` reads and writes. -/
theorem C76_nthElement_violated (hl : Lawful ops Inv abs) {c : C} (hc : Inv c) (P M S : List T) (hM : abs c = P ++ M ++ S)
    (cmp : T → T → Int) (heq : ∀ x ∈ M, ∀ y ∈ M, cmp x y = 0) (h2 : 3 ≤ M.length) :
    M.length ^ 2 ≤ accesses ops (nthElement cmp P.length (P.length + M.length) 0) c := by
  rw [accesses_lawful hl _ _ hc, hM]
  have elast : (P.length : Int) + (P.length + M.length - P.length) - 1 = P.length + M.length - 1 := by omega
  have hA : AllIn (P ++ M ++ S) P.length (P.length + M.length - 1) (· ∈ M) := by
    intro k x k1 k2 hx
    obtain ⟨j, rfl⟩ : ∃ j : Nat, k = P.length + j := ⟨(k - P.length).toNat, by omega⟩
    rw [at?_segment (by omega)] at hx
    cases hx
    exact List.getElem_mem _
  have := acc_nthElementRec_all cmp (· ∈ M) (fun x y hx hy => heq x hx y hy) (((P.length : Int) + M.length - P.length).toNat + 2) (P ++ M ++ S) P.length
    (P.length + M.length - 1) (by omega) (by simp; omega) (by push_cast; omega) (by omega) (by omega) hA
  unfold nthElement
  rw [if_neg (by omega), elast]
  have e : (P.length : Int) + M.length - 1 - P.length + 1 = M.length := by omega
  rw [e] at this
  rw [Nat.pow_two]
  exact_mod_cast this

example : accesses listOps (nthElement intCmp 1 7 0) [9, 5, 5, 5, 5, 5, 5, 8] = 64 ∧ 6 ^ 2 ≤ 64 := ⟨by decide, by decide⟩

/-- `C76_sort_quadratic_partial`, `C76_sort_violated`, `C76_nthElement_quadratic_partial` and `C76_nthElement_violated` on ranges of a slice. -/
example := C76_sort_quadratic_partial listOps_lawful (c := [9, 5, 3, 4, 1, 2, 0, 8]) trivial [9] [5, 3, 4, 1, 2, 0] [8] rfl intCmp
/-- `C76_sort_violated`: six equal elements. -/
example : 36 ≤ 2 * accesses listOps (sort intCmp 1 7) [9, 5, 5, 5, 5, 5, 5, 8] :=
  C76_sort_violated listOps_lawful (c := [9, 5, 5, 5, 5, 5, 5, 8]) trivial [9] [5, 5, 5, 5, 5, 5] [8] rfl intCmp (by simp [intCmp]) (by decide)
/-- `C76_nthElement_quadratic_partial`. -/
example := C76_nthElement_quadratic_partial listOps_lawful (c := [9, 5, 3, 4, 1, 2, 0, 8]) trivial [9] [5, 3, 4, 1, 2, 0] [8] rfl intCmp 3
/-- `C76_nthElement_violated`. -/
example : 36 ≤ accesses listOps (nthElement intCmp 1 7 0) [9, 5, 5, 5, 5, 5, 5, 8] :=
  C76_nthElement_violated listOps_lawful (c := [9, 5, 5, 5, 5, 5, 5, 8]) trivial [9] [5, 5, 5, 5, 5, 5] [8] rfl intCmp (by simp [intCmp]) (by decide)

end GoSTL.Algo
