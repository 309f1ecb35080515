import Mathlib.Data.List.Permutation
import Mathlib.Data.List.GetD
import Mathlib.Data.Finset.Card
import Mathlib.Algebra.BigOperators.Group.Finset.Basic
import Mathlib.Algebra.BigOperators.Ring.Finset
import Mathlib.Algebra.Order.BigOperators.Group.Finset
import Mathlib.Analysis.SpecialFunctions.Log.Basic
import Mathlib.Analysis.Complex.ExponentialBounds
import Mathlib.Logic.Equiv.Basic
import Mathlib.Tactic.Linarith
import Mathlib.Tactic.Ring
import Mathlib.Tactic.FieldSimp
/-!
# C110: counting arrangements
-/
namespace GoSTL.Algo.Avg
open Finset

/-- The arrangements of `0, …, n-1`. -/
def A (n : Nat) : Finset (List Nat) := (List.range n).permutations.toFinset

theorem mem_A {n : Nat} {l : List Nat} : l ∈ A n ↔ l.Perm (List.range n) := by simp [A]

theorem card_A (n : Nat) : (A n).card = n.factorial := by
  unfold A
  rw [List.toFinset_card_of_nodup (List.nodup_permutations _ List.nodup_range), List.length_permutations, List.length_range]

theorem A_len {n : Nat} {l : List Nat} (h : l ∈ A n) : l.length = n := by rw [(mem_A.1 h).length_eq, List.length_range]
theorem A_nodup {n : Nat} {l : List Nat} (h : l ∈ A n) : l.Nodup := (mem_A.1 h).nodup_iff.2 List.nodup_range
theorem A_mem {n : Nat} {l : List Nat} (h : l ∈ A n) {x : Nat} : x ∈ l ↔ x < n := by rw [(mem_A.1 h).mem_iff, List.mem_range]

theorem A_of {n : Nat} {l : List Nat} (h : l.Nodup) (hl : l.length = n) (hm : ∀ x ∈ l, x < n) : l ∈ A n := by
  rw [mem_A]
  exact (h.subperm fun x hx => List.mem_range.2 (hm x hx)).perm_of_length_le (by simp [hl])

theorem A_map {n : Nat} {l : List Nat} (h : l ∈ A n) {σ : Nat → Nat} (h1 : ∀ x, x < n → σ x < n) (h2 : ∀ x y, x < n → y < n → σ x = σ y → x = y) : l.map σ ∈ A n := by
  refine A_of ?_ (by simp [A_len h]) ?_
  · exact (A_nodup h).map_on fun x hx y hy e => h2 x y ((A_mem h).1 hx) ((A_mem h).1 hy) e
  · intro x hx
    obtain ⟨y, hy, rfl⟩ := List.mem_map.1 hx
    exact h1 y ((A_mem h).1 hy)

/-- The renaming that takes the arrangement `a` to the arrangement `a'`. -/
def rel (a a' : List Nat) (x : Nat) : Nat := a'.getD (a.idxOf x) 0

theorem rel_lt {k x : Nat} {a a' : List Nat} (ha : a ∈ A k) (ha' : a' ∈ A k) (hx : x < k) : rel a a' x < k := by
  have h : a.idxOf x < a'.length := by rw [A_len ha', ← A_len ha, List.idxOf_lt_length_iff, A_mem ha]; exact hx
  unfold rel
  rw [List.getD_eq_getElem _ _ h]
  exact (A_mem ha').1 (List.getElem_mem _)

theorem rel_inj {k x y : Nat} {a a' : List Nat} (ha : a ∈ A k) (ha' : a' ∈ A k) (hx : x < k) (hy : y < k) (e : rel a a' x = rel a a' y) : x = y := by
  have h1 : a.idxOf x < a'.length := by rw [A_len ha', ← A_len ha, List.idxOf_lt_length_iff, A_mem ha]; exact hx
  have h2 : a.idxOf y < a'.length := by rw [A_len ha', ← A_len ha, List.idxOf_lt_length_iff, A_mem ha]; exact hy
  unfold rel at e
  rw [List.getD_eq_getElem _ _ h1, List.getD_eq_getElem _ _ h2, (A_nodup ha').getElem_inj_iff] at e
  exact (List.idxOf_inj ((A_mem ha).2 hx)).1 e

theorem rel_map {k : Nat} {a a' : List Nat} (ha : a ∈ A k) (ha' : a' ∈ A k) : a.map (rel a a') = a' := by
  apply List.ext_getElem
  · simp [A_len ha, A_len ha']
  · intro i h1 h2
    rw [List.getElem_map]
    unfold rel
    rw [(A_nodup ha).idxOf_getElem, List.getD_eq_getElem _ _ h2]

/-- If a map has fibres of the same size over all elements of `Y`, the sum over its values is an average. -/
theorem fibre_sum {X Y : Type} [DecidableEq Y] (s : Finset X) (t : Finset Y) (F : X → Y) (hF : ∀ x ∈ s, F x ∈ t)
    (hc : ∀ a ∈ t, ∀ b ∈ t, (s.filter fun x => F x = a).card ≤ (s.filter fun x => F x = b).card) (h : Y → ℝ) :
    (t.card : ℝ) * ∑ x ∈ s, h (F x) = s.card * ∑ y ∈ t, h y := by
  rcases t.eq_empty_or_nonempty with rfl | ⟨y0, h0⟩
  · have : s = ∅ := by
      rw [Finset.eq_empty_iff_forall_notMem]; intro x hx; simpa using hF x hx
    simp [this]
  · have hk : ∀ a ∈ t, (s.filter fun x => F x = a).card = (s.filter fun x => F x = y0).card := fun a ha => le_antisymm (hc a ha y0 h0) (hc y0 h0 a ha)
    have e1 : ∑ x ∈ s, h (F x) = ∑ y ∈ t, ((s.filter fun x => F x = y0).card : ℝ) * h y := by
      rw [← Finset.sum_fiberwise_of_maps_to hF]
      refine Finset.sum_congr rfl fun y hy => ?_
      rw [Finset.sum_congr rfl (g := fun _ => h y) (by intro x hx; rw [(Finset.mem_filter.1 hx).2]), Finset.sum_const, hk y hy, nsmul_eq_mul]
    have e2 : s.card = t.card * (s.filter fun x => F x = y0).card := by
      rw [Finset.card_eq_sum_card_fiberwise hF, Finset.sum_congr rfl hk, Finset.sum_const, smul_eq_mul]
    rw [e1, ← Finset.mul_sum, e2]; push_cast; ring

/-! ## The middle one of three -/

/-- The middle one of three numbers. -/
def med (x y z : Nat) : Nat := max (min x y) (min (max x y) z)

/-- Triples of different numbers below `n`. -/
def D (n : Nat) : Finset (Nat × Nat × Nat) := (range n ×ˢ range n ×ˢ range n).filter fun t => t.1 ≠ t.2.1 ∧ t.1 ≠ t.2.2 ∧ t.2.1 ≠ t.2.2

theorem sum_between (n : Nat) (F : Nat → ℝ) : ∑ y ∈ range n, ∑ x ∈ range n, ∑ z ∈ range n, (if x < y ∧ y < z then F y else 0) = ∑ y ∈ range n, (y : ℝ) * (n - 1 - y) * F y := by
  refine Finset.sum_congr rfl fun y hy => ?_
  have hy' := Finset.mem_range.1 hy
  have e1 : ∀ x ∈ range n, ∑ z ∈ range n, (if x < y ∧ y < z then F y else 0) = if x < y then ((n : ℝ) - 1 - y) * F y else 0 := by
    intro x _
    by_cases c : x < y
    · simp only [c, true_and, if_true]
      rw [← Finset.sum_filter, Finset.sum_const, nsmul_eq_mul]
      have : (range n).filter (fun z => y < z) = Finset.Ico (y + 1) n := by ext z; simp; omega
      rw [this, Nat.card_Ico, Nat.cast_sub (by omega)]
      push_cast; ring
    · simp [c]
  rw [Finset.sum_congr rfl e1, ← Finset.sum_filter, Finset.sum_const, nsmul_eq_mul]
  have : (range n).filter (fun x => x < y) = range y := by ext z; simp; omega
  rw [this, card_range]
  ring

theorem six (F : Nat → ℝ) (x y z : Nat) : (if x ≠ y ∧ x ≠ z ∧ y ≠ z then F (med x y z) else 0) =
    (if x < y ∧ y < z then F y else 0) + (if z < y ∧ y < x then F y else 0) + (if x < z ∧ z < y then F z else 0) + (if y < z ∧ z < x then F z else 0) +
    (if y < x ∧ x < z then F x else 0) + (if z < x ∧ x < y then F x else 0) := by
  by_cases c : x ≠ y ∧ x ≠ z ∧ y ≠ z
  · rw [if_pos c]
    have hm : (x < y ∧ y < z ∨ z < y ∧ y < x) ∧ med x y z = y ∨ (x < z ∧ z < y ∨ y < z ∧ z < x) ∧ med x y z = z ∨ (y < x ∧ x < z ∨ z < x ∧ x < y) ∧ med x y z = x := by
      unfold med; omega
    rcases hm with ⟨h, e⟩ | ⟨h, e⟩ | ⟨h, e⟩ <;> rw [e] <;> split_ifs <;> first | omega | simp
  · rw [if_neg c]
    rw [if_neg (by omega), if_neg (by omega), if_neg (by omega), if_neg (by omega), if_neg (by omega), if_neg (by omega)]; simp

theorem sum_D (n : Nat) (F : Nat → ℝ) : ∑ t ∈ D n, F (med t.1 t.2.1 t.2.2) = 6 * ∑ y ∈ range n, (y : ℝ) * (n - 1 - y) * F y := by
  unfold D
  rw [Finset.sum_filter, Finset.sum_product]
  simp only [Finset.sum_product, six]
  simp only [Finset.sum_add_distrib]
  have c1 : ∑ x ∈ range n, ∑ y ∈ range n, ∑ z ∈ range n, (if x < y ∧ y < z then F y else 0) = ∑ y ∈ range n, (y : ℝ) * (n - 1 - y) * F y := by
    rw [Finset.sum_comm]; exact sum_between n F
  have c2 : ∑ x ∈ range n, ∑ y ∈ range n, ∑ z ∈ range n, (if z < y ∧ y < x then F y else 0) = ∑ y ∈ range n, (y : ℝ) * (n - 1 - y) * F y := by
    rw [Finset.sum_comm, ← sum_between n F]
    exact Finset.sum_congr rfl fun y _ => Finset.sum_comm
  have c3 : ∑ x ∈ range n, ∑ y ∈ range n, ∑ z ∈ range n, (if x < z ∧ z < y then F z else 0) = ∑ y ∈ range n, (y : ℝ) * (n - 1 - y) * F y := by
    rw [← c1]
    exact Finset.sum_congr rfl fun y _ => Finset.sum_comm
  have c4 : ∑ x ∈ range n, ∑ y ∈ range n, ∑ z ∈ range n, (if y < z ∧ z < x then F z else 0) = ∑ y ∈ range n, (y : ℝ) * (n - 1 - y) * F y := by
    rw [← c2]
    exact Finset.sum_congr rfl fun y _ => Finset.sum_comm
  have c5 : ∑ x ∈ range n, ∑ y ∈ range n, ∑ z ∈ range n, (if y < x ∧ x < z then F x else 0) = ∑ y ∈ range n, (y : ℝ) * (n - 1 - y) * F y := sum_between n F
  have c6 : ∑ x ∈ range n, ∑ y ∈ range n, ∑ z ∈ range n, (if z < x ∧ x < y then F x else 0) = ∑ y ∈ range n, (y : ℝ) * (n - 1 - y) * F y := by
    rw [← c5]
    exact Finset.sum_congr rfl fun y _ => Finset.sum_comm
  rw [c1, c2, c3, c4, c5, c6]; ring

theorem sum_2 (m : ℝ) (n : Nat) : ∑ y ∈ range n, (y : ℝ) * (m - y) = m * (n * (n - 1) / 2) - n * (n - 1) * (2 * n - 1) / 6 := by
  induction n with
  | zero => simp
  | succ n ih => rw [Finset.sum_range_succ, ih]; push_cast; ring

theorem sum_4 (m : ℝ) (n : Nat) : ∑ y ∈ range n, (y : ℝ) * (m - y) * (y * (m - y)) =
    m ^ 2 * (n * (n - 1) * (2 * n - 1) / 6) - 2 * m * ((n * (n - 1) / 2) ^ 2) + n * (n - 1) * (2 * n - 1) * (3 * (n - 1) ^ 2 + 3 * (n - 1) - 1) / 30 := by
  induction n with
  | zero => simp
  | succ n ih => rw [Finset.sum_range_succ, ih]; push_cast; ring

theorem card_D (n : Nat) : ((D n).card : ℝ) = n * (n - 1) * (n - 2) := by
  have := sum_D n fun _ => 1
  simp only [mul_one, Finset.sum_const, nsmul_eq_mul] at this
  rw [this, sum_2]; ring

/-- The middle one of three different numbers below `n` has, on average, a quadratic product of distances to the ends. -/
theorem sum_D_quad (n : Nat) : ∑ t ∈ D n, ((med t.1 t.2.1 t.2.2 : ℕ) : ℝ) * (n - 1 - (med t.1 t.2.1 t.2.2 : ℕ)) = (D n).card * (((n : ℝ) - 1) ^ 2 + 1) / 5 := by
  rw [sum_D n fun y => (y : ℝ) * (n - 1 - y), sum_4, card_D]; ring

/-! ## Entropy -/

theorem xlog {a n : ℝ} (ha : 0 < a) (hn : 0 < n) : a * Real.log a ≤ a * Real.log n - a * (n - a) / n := by
  have h1 := Real.log_le_sub_one_of_pos (div_pos ha hn)
  rw [Real.log_div ha.ne' hn.ne'] at h1
  have h2 := mul_le_mul_of_nonneg_left h1 ha.le
  have h3 : a * (n - a) / n = -(a * (a / n - 1)) := by field_simp; ring
  rw [h3]; linarith

theorem entropy {a b n : ℝ} (ha : 0 < a) (hb : 0 < b) (hn : a + b ≤ n) (h1 : 1 ≤ n) : a * Real.log a + b * Real.log b ≤ n * Real.log n - 2 * (a * b) / n := by
  have x := xlog ha (by linarith : 0 < n)
  have y := xlog hb (by linarith : 0 < n)
  have l := Real.log_nonneg h1
  have e : a * (n - a) / n + b * (n - b) / n ≥ 2 * (a * b) / n := by
    rw [← add_div, ge_iff_le]
    apply div_le_div_of_nonneg_right _ (by linarith)
    nlinarith
  nlinarith

end GoSTL.Algo.Avg
