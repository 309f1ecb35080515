import Verif.Skiplist.Random
import Mathlib.Algebra.Order.Field.Rat
import Mathlib.Algebra.BigOperators.Field
import Mathlib.Algebra.BigOperators.Intervals
import Mathlib.Algebra.Order.BigOperators.Group.Finset
import Mathlib.Data.Nat.Cast.Order.Field
import Mathlib.Tactic.FieldSimp
import Mathlib.Tactic.NormNum
import Mathlib.Tactic.Positivity
import Mathlib.Tactic.GCongr
/-!
# C80, C81: the levels of a skip list and the average number of comparator calls
-/
namespace GoSTL.Skiplist
open Finset

/-! ## C80 -/

theorem levelOf_mod {n : Nat} (h1 : 1 ≤ n) (h2 : n ≤ 64) {d d' : BitVec 64} (h : d.toNat % (2 ^ n - 1) = d'.toNat % (2 ^ n - 1)) : levelOf n d = levelOf n d' := by
  obtain ⟨_, a1, a2, a3⟩ := levelOf_spec h1 h2 d
  obtain ⟨_, b1, b2, b3⟩ := levelOf_spec h1 h2 d'
  rw [h] at a3
  by_contra c
  rcases Nat.lt_or_gt_of_ne c with c | c
  · have := (b3 (levelOf n d) (by omega)).1 c
    have := (a3 (levelOf n d) (by omega)).2 this
    omega
  · have := (a3 (levelOf n d') (by omega)).1 c
    have := (b3 (levelOf n d') (by omega)).2 this
    omega

/-! ## Averages over all draws of a history -/

/-- The number of ways to draw `N` numbers such that number `j` lies in `P` and those in `J` lie in `Q`. -/
theorem card_cylinder {N : Nat} {α : Type} [Fintype α] [DecidableEq α] (P Q : Finset α) (j : Fin N) (J : List (Fin N)) (hj : j ∉ J) (hJ : J.Nodup) (b : Nat) (hb : J.length + 1 + b = N) :
    (univ.filter (fun d : Fin N → α => d j ∈ P ∧ ∀ x ∈ J, d x ∈ Q)).card = P.card * Q.card ^ J.length * Fintype.card α ^ b := by
  have e : univ.filter (fun d : Fin N → α => d j ∈ P ∧ ∀ x ∈ J, d x ∈ Q) = Fintype.piFinset (fun x => if x = j then P else if x ∈ J then Q else univ) := by
    ext d
    simp only [mem_filter, mem_univ, true_and, Fintype.mem_piFinset]
    constructor
    · rintro ⟨h1, h2⟩ x
      by_cases c : x = j
      · rw [if_pos c, c]; exact h1
      · rw [if_neg c]
        by_cases c' : x ∈ J
        · rw [if_pos c']; exact h2 x c'
        · rw [if_neg c']; exact mem_univ _
    · intro h
      refine ⟨?_, ?_⟩
      · have := h j; rw [if_pos rfl] at this; exact this
      · intro x hx
        have := h x
        rw [if_neg (fun c : x = j => hj (c ▸ hx)), if_pos hx] at this
        exact this
  rw [e, Fintype.card_piFinset]
  have e2 : ∀ x : Fin N, (if x = j then P else if x ∈ J then Q else univ).card = if x = j then P.card else if x ∈ J.toFinset then Q.card else Fintype.card α := by
    intro x
    by_cases c : x = j
    · simp [c]
    · by_cases c' : x ∈ J
      · simp [c, c']
      · simp [c, c']
  rw [prod_congr rfl (fun x _ => e2 x), prod_ite, prod_const, prod_ite, prod_const, prod_const]
  have c1 : (univ.filter (fun x : Fin N => x = j)).card = 1 := by rw [filter_eq' univ j, if_pos (mem_univ _), card_singleton]
  have c2 : ((univ.filter (fun x : Fin N => ¬ x = j)).filter (fun x => x ∈ J.toFinset)) = J.toFinset := by
    ext x
    simp only [mem_filter, mem_univ, true_and, List.mem_toFinset]
    exact ⟨fun h => h.2, fun h => ⟨fun c => hj (c ▸ h), h⟩⟩
  have c3 : ((univ.filter (fun x : Fin N => ¬ x = j)).filter (fun x => x ∉ J.toFinset)).card = b := by
    have h1 := card_filter_add_card_filter_not (s := univ.filter (fun x : Fin N => ¬ x = j)) (fun x => x ∈ J.toFinset)
    have h2 := card_filter_add_card_filter_not (s := (univ : Finset (Fin N))) (fun x => x = j)
    rw [c2, List.toFinset_card_of_nodup hJ] at h1
    rw [c1, card_univ, Fintype.card_fin] at h2
    omega
  rw [c1, c2, List.toFinset_card_of_nodup hJ, c3, pow_one, mul_assoc]

section
variable {N : Nat} (n : Nat)

/-- Heights of the elements inserted by the calls in `J`. -/
abbrev heights (n : Nat) (J : List (Fin N)) (d : Fin N → BitVec 64) : List Nat := J.map (fun j => levelOf n (d j))

theorem sum_climbs_cons (i : Nat) (j : Fin N) (J : List (Fin N)) (hj : j ∉ J) (hJ : J.Nodup) (b : Nat) (hb : J.length + 1 + b = N) :
    ∑ d : Fin N → BitVec 64, climbs i (heights n (j :: J) d) = exactly n i * upto n i ^ J.length * (2 ^ 64) ^ b + ∑ d : Fin N → BitVec 64, climbs i (heights n J d) := by
  simp only [heights, List.map_cons, climbs, sum_add_distrib]
  apply congrArg (· + _)
  rw [← card_bv]
  have := card_cylinder (univ.filter (fun d : BitVec 64 => levelOf n d = i + 1)) (univ.filter (fun d : BitVec 64 => levelOf n d ≤ i + 1)) j J hj hJ b hb
  rw [exactly, upto, ← this, card_filter]
  apply sum_congr rfl
  intro d _
  simp only [mem_filter, mem_univ, true_and, List.forall_mem_map]

theorem sum_climbs (i : Nat) : ∀ (J : List (Fin N)), J.Nodup → ∀ b, J.length + b = N →
    (∑ d : Fin N → BitVec 64, climbs i (heights n J d)) * above n (i + 1) + exactly n i * upto n i ^ J.length * (2 ^ 64) ^ b = exactly n i * (2 ^ 64) ^ N := by
  intro J
  induction J with
  | nil =>
    intro _ b hb
    simp only [heights, List.map_nil, climbs, sum_const_zero, List.length_nil] at hb ⊢
    rw [show b = N by omega]; ring
  | cons j J ih =>
    intro hJ b hb
    rw [List.nodup_cons] at hJ
    rw [List.length_cons] at hb
    rw [sum_climbs_cons n i j J hJ.1 hJ.2 b (by omega), ← ih hJ.2 (b + 1) (by omega), List.length_cons]
    have := upto_add n i
    generalize (2 ^ 64 : Nat) = M at *
    subst this
    ring

theorem sum_climbs_top {i : Nat} (h0 : above n (i + 1) = 0) : ∀ (J : List (Fin N)), J.Nodup → J.length ≤ N →
    (∑ d : Fin N → BitVec 64, climbs i (heights n J d)) * 2 ^ 64 = J.length * exactly n i * (2 ^ 64) ^ N := by
  intro J
  induction J with
  | nil => intro _ _; simp [heights, climbs]
  | cons j J ih =>
    intro hJ hb
    rw [List.nodup_cons] at hJ
    rw [List.length_cons] at hb
    rw [sum_climbs_cons n i j J hJ.1 hJ.2 (N - 1 - J.length) (by omega), Nat.add_mul, ih hJ.2 (by omega), List.length_cons]
    have := upto_add n i
    rw [h0, Nat.add_zero] at this
    rw [this]
    have e : (2 ^ 64 : Nat) ^ N = (2 ^ 64) ^ J.length * (2 ^ 64) ^ (N - 1 - J.length) * 2 ^ 64 := by
      rw [← pow_add, ← pow_succ, show J.length + (N - 1 - J.length) + 1 = N by omega]
    generalize hx : (2 ^ 64 : Nat) ^ J.length = x at *
    generalize hy : (2 ^ 64 : Nat) ^ (N - 1 - J.length) = y at *
    rw [e]
    ring

/-- On a level below the top, fewer than `1 + 1 / (2^(n-1-i) - 1)` steps on average. -/
theorem avg_climbs {n : Nat} (h1 : 1 ≤ n) (h2 : n ≤ 64) {i : Nat} (hi : i + 1 < n) (J : List (Fin N)) (hJ : J.Nodup) :
    (∑ d : Fin N → BitVec 64, (climbs i (heights n J d) : ℚ)) ≤ (1 + 2 / 2 ^ (n - 1 - i)) * (2 ^ 64) ^ N := by
  have hlen : J.length ≤ N := by
    have := hJ.length_le_card
    rwa [Fintype.card_fin] at this
  have h := sum_climbs n i J hJ (N - J.length) (by omega)
  obtain ⟨r1, r2⟩ := above_ratio h1 h2 hi
  have hp : 2 ^ 1 ≤ 2 ^ (n - 1 - i) := Nat.pow_le_pow_right (by omega) (by omega)
  have hle : (∑ d : Fin N → BitVec 64, climbs i (heights n J d)) * above n (i + 1) ≤ exactly n i * (2 ^ 64) ^ N := by
    rw [← h]; exact Nat.le_add_right _ _
  rw [← Nat.cast_sum]
  generalize (∑ d : Fin N → BitVec 64, climbs i (heights n J d)) = S at *
  generalize above n (i + 1) = u at *
  generalize exactly n i = s at *
  have hW : (0 : ℚ) < (2 ^ 64) ^ N := by positivity
  have hle' : (S : ℚ) * u ≤ s * (2 ^ 64) ^ N := by exact_mod_cast hle
  have hu : (0 : ℚ) < u := by exact_mod_cast r2
  generalize hPdef : 2 ^ (n - 1 - i) = P at *
  have hPq : (2 : ℚ) ^ (n - 1 - i) = P := by rw [← hPdef]; push_cast; rfl
  rw [hPq]
  obtain ⟨m, rfl⟩ : ∃ m, P = m + 1 := ⟨P - 1, by omega⟩
  rw [Nat.add_sub_cancel] at r1
  have r1' : (m : ℚ) * s ≤ (m + 1) * u := by exact_mod_cast r1
  have hm : (1 : ℚ) ≤ m := by exact_mod_cast (show 1 ≤ m by omega)
  generalize ((2 : ℚ) ^ 64) ^ N = W at *
  -- s / u ≤ (m + 1) / m ≤ 1 + 2 / (m + 1)
  have k1 : (S : ℚ) * m ≤ (m + 1) * W := by
    have a1 : (S : ℚ) * u * m ≤ s * W * m := mul_le_mul_of_nonneg_right hle' (by linarith)
    have a2 : m * s * W ≤ (m + 1) * u * W := mul_le_mul_of_nonneg_right r1' hW.le
    have a3 : (S : ℚ) * m * u ≤ (m + 1) * W * u := by linarith
    exact le_of_mul_le_mul_right a3 hu
  have k2 : (S : ℚ) ≤ (m + 1) / m * W := by
    rw [div_mul_eq_mul_div, le_div_iff₀ (by linarith)]; exact k1
  have k3 : ((m : ℚ) + 1) / m ≤ 1 + 2 / ((m : ℚ) + 1) := by
    have : (1 : ℚ) + 2 / ((m : ℚ) + 1) = (m + 3) / (m + 1) := by
      have : (m : ℚ) + 1 ≠ 0 := by linarith
      field_simp; ring
    rw [this, div_le_div_iff₀ (by linarith) (by linarith)]
    nlinarith
  push_cast
  calc (S : ℚ) ≤ (m + 1) / m * W := k2
    _ ≤ _ := mul_le_mul_of_nonneg_right k3 hW.le

theorem geom_le (n : Nat) : ∑ i ∈ range n, (2 : ℚ) / 2 ^ (n - i) ≤ 2 := by
  have : ∀ n : Nat, ∑ i ∈ range n, (2 : ℚ) / 2 ^ (n - i) = 2 - 2 / 2 ^ n := by
    intro n
    induction n with
    | zero => norm_num
    | succ n ih =>
      rw [sum_range_succ]
      have : ∀ i ∈ range n, (2 : ℚ) / 2 ^ (n + 1 - i) = 2 / 2 ^ (n - i) / 2 := by
        intro i hi
        rw [mem_range] at hi
        rw [show n + 1 - i = n - i + 1 by omega, pow_succ]
        field_simp
      rw [sum_congr rfl this, ← sum_div, ih, show n + 1 - n = 1 by omega, pow_succ]
      have : (2 : ℚ) ^ n ≠ 0 := by positivity
      field_simp
      ring
  rw [this]
  have : (0 : ℚ) ≤ 2 / 2 ^ n := by positivity
  linarith

/-- Average of the bound on comparator calls. -/
theorem avg_climbSum {n : Nat} (h1 : 1 ≤ n) (h2 : n ≤ 64) (J : List (Fin N)) (hJ : J.Nodup) :
    (∑ d : Fin N → BitVec 64, (climbSum n (heights n J d) : ℚ)) ≤ (2 * n + 1 + J.length * (1 / (2 ^ n - 1) + 1 / 2 ^ 64)) * (2 ^ 64) ^ N := by
  have hlen : J.length ≤ N := by
    have := hJ.length_le_card
    rwa [Fintype.card_fin] at this
  have hW : (0 : ℚ) < (2 ^ 64) ^ N := by positivity
  have hcard : (∑ _d : Fin N → BitVec 64, (1 : ℚ)) = (2 ^ 64) ^ N := by
    rw [sum_const, card_univ, Fintype.card_fun, card_bv, Fintype.card_fin, nsmul_eq_mul, mul_one]
    push_cast; rfl
  have hsum : ∀ d : Fin N → BitVec 64, (climbSum n (heights n J d) : ℚ) = ∑ i ∈ range n, ((climbs i (heights n J d) : ℚ) + 1) := by
    intro d
    have : ∀ k, (climbSum k (heights n J d) : ℚ) = ∑ i ∈ range k, ((climbs i (heights n J d) : ℚ) + 1) := by
      intro k
      induction k with
      | zero => simp [climbSum]
      | succ k ih => rw [climbSum_succ, sum_range_succ, ← ih]; push_cast; ring
    exact this n
  rw [sum_congr rfl (fun d _ => hsum d), sum_comm]
  simp only [sum_add_distrib, hcard]
  obtain ⟨p, rfl⟩ : ∃ p, n = p + 1 := ⟨n - 1, by omega⟩
  rw [sum_range_succ]
  have low : ∑ i ∈ range p, ∑ d : Fin N → BitVec 64, (climbs i (heights (p + 1) J d) : ℚ) ≤ (p + 2) * (2 ^ 64) ^ N := by
    calc _ ≤ ∑ i ∈ range p, (1 + 2 / 2 ^ (p - i)) * ((2 : ℚ) ^ 64) ^ N := by
          apply sum_le_sum
          intro i hi
          rw [mem_range] at hi
          have := avg_climbs (N := N) h1 h2 (i := i) (by omega) J hJ
          rw [show p + 1 - 1 - i = p - i by omega] at this
          exact this
      _ = (∑ i ∈ range p, (1 + 2 / (2 : ℚ) ^ (p - i))) * ((2 : ℚ) ^ 64) ^ N := by rw [sum_mul]
      _ ≤ _ := by
          apply mul_le_mul_of_nonneg_right _ hW.le
          rw [sum_add_distrib]
          have := geom_le p
          simp only [sum_const, card_range, nsmul_eq_mul, mul_one]
          linarith
  have top : ∑ d : Fin N → BitVec 64, (climbs p (heights (p + 1) J d) : ℚ) ≤ J.length * (1 / (2 ^ (p + 1) - 1) + 1 / 2 ^ 64) * (2 ^ 64) ^ N := by
    have h := sum_climbs_top (N := N) (p + 1) (i := p) (above_top h1 h2) J hJ hlen
    have hx := (exactly_top h1 h2).1
    rw [Nat.add_sub_cancel] at hx
    have h' : (∑ d : Fin N → BitVec 64, (climbs p (heights (p + 1) J d) : ℚ)) * 2 ^ 64 = J.length * exactly (p + 1) p * (2 ^ 64) ^ N := by
      rw [← Nat.cast_sum]; exact_mod_cast h
    have hpow : (2 : ℚ) ≤ 2 ^ (p + 1) := by
      rw [pow_succ]
      have : (1 : ℚ) ≤ 2 ^ p := one_le_pow₀ (by norm_num)
      linarith
    have hx' : (exactly (p + 1) p : ℚ) ≤ (1 / (2 ^ (p + 1) - 1) + 1 / 2 ^ 64) * 2 ^ 64 := by
      have a : ((2 ^ 64 / (2 ^ (p + 1) - 1) : Nat) : ℚ) ≤ ((2 ^ 64 : Nat) : ℚ) / ((2 ^ (p + 1) - 1 : Nat) : ℚ) := Nat.cast_div_le
      have b : ((2 ^ (p + 1) - 1 : Nat) : ℚ) = 2 ^ (p + 1) - 1 := by
        rw [Nat.cast_sub Nat.one_le_two_pow]; push_cast; rfl
      rw [b] at a
      have c : (exactly (p + 1) p : ℚ) ≤ ((2 ^ 64 / (2 ^ (p + 1) - 1) : Nat) : ℚ) + 1 := by exact_mod_cast hx
      have d : (1 / ((2 : ℚ) ^ (p + 1) - 1) + 1 / 2 ^ 64) * 2 ^ 64 = 2 ^ 64 / (2 ^ (p + 1) - 1) + 1 := by
        rw [add_mul]; congr 1
        · ring
        · norm_num
      rw [d]
      push_cast at a
      linarith
    have hM : (0 : ℚ) < 2 ^ 64 := by positivity
    generalize ((2 : ℚ) ^ 64) ^ N = W at *
    generalize (∑ d : Fin N → BitVec 64, (climbs p (heights (p + 1) J d) : ℚ)) = S at *
    generalize ((2 : ℚ) ^ 64) = M at *
    have hl : (0 : ℚ) ≤ J.length := by positivity
    apply le_of_mul_le_mul_right _ hM
    rw [h']
    calc (J.length : ℚ) * exactly (p + 1) p * W ≤ J.length * ((1 / (2 ^ (p + 1) - 1) + 1 / M) * M) * W := by gcongr
      _ = _ := by ring
  simp only [sum_const, card_range, nsmul_eq_mul]
  push_cast
  generalize ((2 : ℚ) ^ 64) ^ N = W at *
  generalize (J.length : ℚ) * (1 / (2 ^ (p + 1) - 1) + 1 / 2 ^ 64) = X at *
  nlinarith

end

end GoSTL.Skiplist
