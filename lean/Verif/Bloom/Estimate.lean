import Verif.Bloom.Exact
import Mathlib.Analysis.SpecialFunctions.Log.Basic
import Mathlib.Analysis.SpecialFunctions.Pow.Real
/-!
# C73: `EstimateParameters` and `NewWithEstimates`

Simplification: here the `float64` arithmetic of bloom.go:83-87 is taken to be exact real arithmetic (`Bloom/Float.lean` has the roundings), and the conversion to `uint64` is that of
a number in range (the theorems that go on to use the filter ask for this). For `n = 0` the code divides by zero (0/0 in `float64`), which
real arithmetic does not show: all theorems are about `n ≥ 1`.
-/
namespace GoSTL.Bloom
open Bitmap (Byte)

/-- bloom.go:84, the first result of `EstimateParameters`. -/
noncomputable def estimateM (n : Nat) (p : ℝ) : Nat := ⌈-1 * (n : ℝ) * Real.log p / (Real.log 2 * Real.log 2)⌉₊

/-- bloom.go:85, the second result of `EstimateParameters`. -/
noncomputable def estimateK (n : Nat) (p : ℝ) : Nat := ⌈Real.log 2 * (estimateM n p : ℝ) / (n : ℝ)⌉₊

/-- bloom.go:59-62 `NewWithEstimates`. -/
noncomputable def newWithEstimates (n : Nat) (p : ℝ) : BloomFilter := new (estimateM n p) (estimateK n p)

theorem log2_pos : 0 < Real.log 2 := Real.log_pos (by norm_num)

theorem le_estimateM (n : Nat) (p : ℝ) : (n : ℝ) * -Real.log p ≤ estimateM n p * (Real.log 2 * Real.log 2) := by
  have h := Nat.le_ceil (-1 * (n : ℝ) * Real.log p / (Real.log 2 * Real.log 2))
  rw [div_le_iff₀ (mul_pos log2_pos log2_pos)] at h
  simp only [estimateM]
  linarith

theorem le_estimateK {n : Nat} (hn : 1 ≤ n) (p : ℝ) : Real.log 2 * estimateM n p ≤ estimateK n p * n := by
  have h := Nat.le_ceil (Real.log 2 * (estimateM n p : ℝ) / (n : ℝ))
  rw [div_le_iff₀ (by exact_mod_cast hn)] at h
  exact h

/-- The number of functions is at least the binary logarithm of `1/p`. -/
theorem log_le_estimateK {n : Nat} (hn : 1 ≤ n) (p : ℝ) : -Real.log p ≤ estimateK n p * Real.log 2 := by
  have h1 := le_estimateM n p
  have h2 := le_estimateK hn p
  have hn' : (0 : ℝ) < n := by exact_mod_cast hn
  have h3 : (n : ℝ) * -Real.log p ≤ n * (estimateK n p * Real.log 2) := by
    calc (n : ℝ) * -Real.log p ≤ estimateM n p * (Real.log 2 * Real.log 2) := h1
      _ = Real.log 2 * estimateM n p * Real.log 2 := by ring
      _ ≤ estimateK n p * n * Real.log 2 := mul_le_mul_of_nonneg_right h2 log2_pos.le
      _ = n * (estimateK n p * Real.log 2) := by ring
  exact le_of_mul_le_mul_left h3 hn'

/-- **C73**, the part that holds: for every capacity `n ≥ 1` and every error rate strictly between 0 and 1 the estimated filter has at least
one bit and one function; with as many functions, values of which each meets a set bit with probability at most 1/2 pass with probability
at most `p`; there are at least `n · log2(1/p) / ln 2` bits; a smaller error rate never gives fewer bits. Missing: rounding of `float64` (see `C73_float`), and
the distribution of the bits. False: see `C73_violated`. -/
theorem C73_parameters_partial {n : Nat} (hn : 1 ≤ n) {p : ℝ} (h0 : 0 < p) (h1 : p < 1) :
    1 ≤ estimateM n p ∧ 1 ≤ estimateK n p ∧ (1 / 2 : ℝ) ^ estimateK n p ≤ p ∧
      (n : ℝ) * (Real.log (1 / p) / Real.log 2) ≤ estimateM n p * Real.log 2 ∧
      ∀ q : ℝ, p ≤ q → estimateM n q ≤ estimateM n p := by
  have hlog : Real.log p < 0 := Real.log_neg h0 h1
  have hn' : (0 : ℝ) < n := by exact_mod_cast hn
  have hM : 1 ≤ estimateM n p := by
    rw [Nat.one_le_iff_ne_zero, ← Nat.pos_iff_ne_zero, estimateM, Nat.ceil_pos]
    apply div_pos _ (mul_pos log2_pos log2_pos)
    nlinarith
  have hM' : (1 : ℝ) ≤ estimateM n p := by exact_mod_cast hM
  refine ⟨hM, ?_, ?_, ?_, ?_⟩
  · rw [Nat.one_le_iff_ne_zero, ← Nat.pos_iff_ne_zero, estimateK, Nat.ceil_pos]
    apply div_pos _ hn'
    exact mul_pos log2_pos (by linarith)
  · have h := log_le_estimateK hn p
    rw [← Real.log_le_log_iff (by positivity) h0, Real.log_pow, Real.log_div (by norm_num) (by norm_num), Real.log_one]
    linarith
  · have h := le_estimateM n p
    rw [Real.log_div (by norm_num) h0.ne', Real.log_one, zero_sub, ← mul_div_assoc, div_le_iff₀ log2_pos]
    linarith
  · intro q hq
    apply Nat.ceil_mono
    apply div_le_div_of_nonneg_right _ (mul_pos log2_pos log2_pos).le
    have := Real.log_le_log h0 hq
    nlinarith

/-- **C73** A filter made for `n` values and error rate `p` has no false negatives, whatever is added. -/
theorem C73_no_false_negatives {H : List Byte → List Byte} (hH : GoodHash H) {n : Nat} (hn : 1 ≤ n) {p : ℝ} (h0 : 0 < p) (h1 : p < 1)
    (hm : estimateM n p ≤ 2 ^ 64 - 8) (hk : estimateK n p < 2 ^ 63) (vs : List (List Byte)) :
    ∃ bf, addAll H vs (newWithEstimates n p) = .ok bf ∧ ∀ v ∈ vs, contains H bf v = .ok true := by
  obtain ⟨bf, _, e, _, h, _⟩ := C31_no_false_negatives hH (C73_parameters_partial hn h0 h1).1 hm hk vs []
  exact ⟨bf, e, h⟩

/-- **C73** is false of the code for error rates below 1/256: the estimate asks for more than 8 functions, but a filter with 8 functions gives
the same answers, so that a value whose 8 words meet set bits passes, however small `p` is. -/
theorem C73_violated {H : List Byte → List Byte} (hH : GoodHash H) (h8 : ∀ d, (words (H d)).length ≤ 8) {n : Nat} (hn : 1 ≤ n) {p : ℝ} (h0 : 0 < p)
    (h1 : p < 1 / 256) (hm : estimateM n p ≤ 2 ^ 64 - 8) (hk : estimateK n p < 2 ^ 63) (vs : List (List Byte)) :
    8 < estimateK n p ∧ ∃ bf bf8, addAll H vs (newWithEstimates n p) = .ok bf ∧ addAll H vs (new (estimateM n p) 8) = .ok bf8 ∧
      ∀ v, contains H bf v = contains H bf8 v := by
  have hpar := C73_parameters_partial hn h0 (by linarith : p < 1)
  have hlt : 8 < estimateK n p := by
    by_contra hcon
    have h2 : (1 / 2 : ℝ) ^ 8 ≤ (1 / 2 : ℝ) ^ estimateK n p :=
      pow_le_pow_of_le_one (by norm_num) (by norm_num) (by omega)
    have h3 := hpar.2.2.1
    norm_num at h2
    linarith
  obtain ⟨bf, bf8, e, e8, _, h⟩ := C72_more_functions_do_nothing hH h8 hpar.1 hm hk hlt.le vs
  exact ⟨hlt, bf, bf8, e, e8, h⟩

/-- **C73** With error rate 1 the filter has no bits and no functions, and `Contains` says true for everything. -/
theorem C73_rate_one {H : List Byte → List Byte} (hH : GoodHash H) (n : Nat) (v : List Byte) :
    estimateM n 1 = 0 ∧ estimateK n 1 = 0 ∧ contains H (newWithEstimates n 1) v = .ok true := by
  have hM : estimateM n 1 = 0 := by simp [estimateM]
  have hK : estimateK n 1 = 0 := by simp [estimateK, hM]
  refine ⟨hM, hK, ?_⟩
  rw [newWithEstimates, hM, hK]
  obtain ⟨xs, e, hl, -⟩ := gen_spec hH (salt ++ v) 0
  have : xs = [] := List.eq_nil_of_length_eq_zero hl
  subst this
  have : toInt (new 0 0).k = ((0 : Nat) : Int) := rfl
  simp only [contains, this, e, Res.ok_bind, containsLoop]

/-! ## Non-vacuity: 100 values with error rate 1/2 to the 10th -/

theorem est_example : estimateM 100 ((1 / 2) ^ 10) ≤ 2 ^ 64 - 8 ∧ estimateK 100 ((1 / 2) ^ 10) < 2 ^ 63 := by
  have hl : Real.log ((1 / 2 : ℝ) ^ 10) = -(10 * Real.log 2) := by
    rw [Real.log_pow, Real.log_div (by norm_num) (by norm_num), Real.log_one]
    push_cast; ring
  have hpos := log2_pos
  have hge : (1 / 2 : ℝ) ≤ Real.log 2 := by
    have := Real.one_sub_inv_le_log_of_pos (show (0 : ℝ) < 2 by norm_num)
    norm_num at this ⊢
    linarith
  have hle : Real.log 2 ≤ 1 := by
    have := Real.log_le_sub_one_of_pos (show (0 : ℝ) < 2 by norm_num)
    linarith
  have hM : estimateM 100 ((1 / 2) ^ 10) ≤ 2000 := by
    apply Nat.ceil_le.2
    rw [hl, div_le_iff₀ (mul_pos hpos hpos)]
    push_cast
    nlinarith
  have hM' : (estimateM 100 ((1 / 2) ^ 10) : ℝ) ≤ 2000 := by exact_mod_cast hM
  constructor
  · omega
  · apply lt_of_le_of_lt (b := 20) _ (by norm_num)
    apply Nat.ceil_le.2
    rw [div_le_iff₀ (by norm_num)]
    push_cast
    have h0 : (0 : ℝ) ≤ estimateM 100 ((1 / 2) ^ 10) := Nat.cast_nonneg _
    nlinarith

example : ∃ bf, addAll exHash [[1], [2, 3]] (newWithEstimates 100 ((1 / 2) ^ 10)) = .ok bf ∧ contains exHash bf [2, 3] = .ok true := by
  obtain ⟨bf, e, h⟩ := C73_no_false_negatives exHash_good (n := 100) (by norm_num) (p := (1 / 2) ^ 10) (by norm_num) (by norm_num)
    est_example.1 est_example.2 [[1], [2, 3]]
  exact ⟨bf, e, h _ (by simp)⟩

example : 8 < estimateK 100 ((1 / 2) ^ 10) :=
  (C73_violated exHash_good (fun d => (exHash_words d).le) (by norm_num) (by norm_num) (by norm_num) est_example.1 est_example.2 []).1

/-- `C73_parameters_partial` for 100 values and a rate of `2 ^ -10`: at least ten functions. -/
example : 10 ≤ estimateK 100 ((1 / 2) ^ 10) := by
  have h := (C73_parameters_partial (n := 100) (by norm_num) (p := (1 / 2) ^ 10) (by norm_num) (by norm_num)).2.2.1
  by_contra hc
  have h2 : (1 / 2 : ℝ) ^ 10 < (1 / 2) ^ estimateK 100 ((1 / 2) ^ 10) := pow_lt_pow_right_of_lt_one₀ (by norm_num) (by norm_num) (by omega)
  linarith
/-- `C73_rate_one`: such a filter claims to contain everything. -/
example : contains exHash (newWithEstimates 100 1) [1, 2] = .ok true := (C73_rate_one exHash_good 100 [1, 2]).2.2

end GoSTL.Bloom
