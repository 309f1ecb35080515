import Verif.Bloom.Ideal
import Mathlib.Data.Int.Log
import Mathlib.Algebra.Order.Round
/-!
# C73, C79 with floating-point arithmetic

`EstimateParameters` computes in `float64`. Here every operation may be off: `FloatOps` is any arithmetic whose results are within a
relative error `u` of the exact ones, for numbers that neither overflow nor underflow. For `float64` with rounding to nearest `u = 2^-53`
for the conversions, constants, products and quotients; for `math.Log` we assume an error below one unit in the last place, `u = 2^-52`. The
theorems hold for all such arithmetics with `u ≤ 2^-40`. `math.Ceil` is exact; the conversion to `uint64` is that of a number in range.
-/
namespace GoSTL.Bloom
open Bitmap (Byte)

/-- Floating-point arithmetic with relative error at most `u` in the range where numbers are normal (more than enough of it). -/
structure FloatOps where
  u : ℝ
  rnd : ℝ → ℝ
  log : ℝ → ℝ
  u_nonneg : 0 ≤ u
  u_le : u ≤ 1 / 2 ^ 40
  rnd_err : ∀ x, 1 / 2 ^ 200 ≤ |x| → |x| ≤ 2 ^ 200 → |rnd x - x| ≤ u * |x|
  log_err : ∀ x, 0 < x → 1 / 2 ^ 200 ≤ |Real.log x| → |Real.log x| ≤ 2 ^ 200 → |log x - Real.log x| ≤ u * |Real.log x|

variable (F : FloatOps)

/-- bloom.go:84, `m` of `EstimateParameters`, every operation rounded. `math.Ln2 * math.Ln2` is a constant expression: exact, then rounded. -/
noncomputable def floatM (n : Nat) (p : ℝ) : Nat :=
  ⌈F.rnd (F.rnd (F.rnd (-1 * F.rnd n) * F.log p) / F.rnd (Real.log 2 * Real.log 2))⌉₊

/-- bloom.go:85, `k` of `EstimateParameters`, every operation rounded. -/
noncomputable def floatK (n : Nat) (p : ℝ) : Nat := ⌈F.rnd (F.rnd (F.rnd (Real.log 2) * F.rnd (floatM F n p)) / F.rnd n)⌉₊

/-- The arguments of `EstimateParameters`: a positive `uint64` and a `float64` strictly between 0 and 1 (the smallest is `2^-1074`, the
largest `1 - 2^-53`). -/
structure Args (n : Nat) (p : ℝ) : Prop where
  pos : 1 ≤ n
  word : n < 2 ^ 64
  small : 1 / 2 ^ 1074 ≤ p
  large : p ≤ 1 - 1 / 2 ^ 53

/-! ## Relative errors -/

/-- `y` is `x` up to a relative error of `c`. -/
def Near (c x y : ℝ) : Prop := ∃ t, y = x * t ∧ 1 - c ≤ t ∧ t ≤ 1 + c

theorem near_of_abs {c x y : ℝ} (hc : 0 ≤ c) (h : |y - x| ≤ c * |x|) : Near c x y := by
  by_cases hx : x = 0
  · subst hx
    simp at h
    exact ⟨1, by simp [h], by linarith, by linarith⟩
  · have ha : 0 < |x| := abs_pos.2 hx
    have e : |y / x - 1| ≤ c := by
      have : y / x - 1 = (y - x) / x := by field_simp
      rw [this, abs_div, div_le_iff₀ ha]; exact h
    obtain ⟨e1, e2⟩ := abs_le.1 e
    exact ⟨y / x, by field_simp, by linarith, by linarith⟩

theorem near_refl (x : ℝ) {c : ℝ} (hc : 0 ≤ c) : Near c x x := ⟨1, by ring, by linarith, by linarith⟩

theorem prod_bounds {a b s t : ℝ} (ha : 0 ≤ a) (ha1 : a ≤ 1) (hb : 0 ≤ b) (hb1 : b ≤ 1) (s1 : 1 - a ≤ s) (s2 : s ≤ 1 + a) (t1 : 1 - b ≤ t) (t2 : t ≤ 1 + b) :
    1 - (a + b + a * b) ≤ s * t ∧ s * t ≤ 1 + (a + b + a * b) := by
  have h1 : (1 - a) * (1 - b) ≤ s * t := mul_le_mul s1 t1 (by linarith) (by linarith)
  have h2 : s * t ≤ (1 + a) * (1 + b) := mul_le_mul s2 t2 (by linarith) (by linarith)
  constructor <;> nlinarith [mul_nonneg ha hb]

theorem Near.mono {a b x y : ℝ} (h : Near a x y) (hab : a ≤ b) : Near b x y := by
  obtain ⟨t, e, h1, h2⟩ := h
  exact ⟨t, e, by linarith, by linarith⟩

theorem Near.trans {a b x y z : ℝ} (h : Near a x y) (h' : Near b y z) (ha : 0 ≤ a) (ha1 : a ≤ 1) (hb : 0 ≤ b) (hb1 : b ≤ 1) : Near (a + b + a * b) x z := by
  obtain ⟨s, rfl, s1, s2⟩ := h
  obtain ⟨t, rfl, t1, t2⟩ := h'
  obtain ⟨h1, h2⟩ := prod_bounds ha ha1 hb hb1 s1 s2 t1 t2
  exact ⟨s * t, by ring, h1, h2⟩

theorem Near.mul {a b x x' y y' : ℝ} (h : Near a x x') (h' : Near b y y') (ha : 0 ≤ a) (ha1 : a ≤ 1) (hb : 0 ≤ b) (hb1 : b ≤ 1) :
    Near (a + b + a * b) (x * y) (x' * y') := by
  obtain ⟨s, rfl, s1, s2⟩ := h
  obtain ⟨t, rfl, t1, t2⟩ := h'
  obtain ⟨h1, h2⟩ := prod_bounds ha ha1 hb hb1 s1 s2 t1 t2
  exact ⟨s * t, by ring, h1, h2⟩

theorem Near.inv {b y y' : ℝ} (h : Near b y y') (hb : 0 ≤ b) (hb1 : b ≤ 1 / 2) : Near (2 * b) y⁻¹ y'⁻¹ := by
  obtain ⟨t, rfl, t1, t2⟩ := h
  have ht : 0 < t := by linarith
  refine ⟨1 / t, by rw [mul_inv, one_div], ?_, ?_⟩
  · rw [le_div_iff₀ ht]; nlinarith
  · rw [div_le_iff₀ ht]; nlinarith

theorem Near.sign {c x y : ℝ} (h : Near c x y) (hc : c < 1) (hx : 0 < x) : 0 < y := by
  obtain ⟨t, rfl, h1, -⟩ := h
  exact mul_pos hx (by linarith)

theorem Near.bounds {c x y : ℝ} (h : Near c x y) (hx : 0 ≤ x) : (1 - c) * x ≤ y ∧ y ≤ (1 + c) * x := by
  obtain ⟨t, rfl, h1, h2⟩ := h
  constructor <;> nlinarith

/-! The same with multiples of `u`. -/

variable {F}

theorem FloatOps.tiny (F : FloatOps) {a : ℝ} (ha : a ≤ 1000) : a * F.u ≤ 1 / 1000000 := by
  have h1 := F.u_le
  have h2 := F.u_nonneg
  have : a * F.u ≤ 1000 * F.u := mul_le_mul_of_nonneg_right ha h2
  norm_num at h1
  linarith

theorem combine {a b : ℝ} (ha : 0 ≤ a) (ha1 : a ≤ 100) (hb : 0 ≤ b) (hb1 : b ≤ 100) : a * F.u + b * F.u + a * F.u * (b * F.u) ≤ (a + b + 1) * F.u := by
  have h1 : a * F.u ≤ 1 / 1000000 := F.tiny (by linarith)
  have h2 : 0 ≤ b * F.u := mul_nonneg hb F.u_nonneg
  have h3 : a * F.u * (b * F.u) ≤ 1 / 1000000 * (b * F.u) := mul_le_mul_of_nonneg_right h1 h2
  have h4 : b * F.u ≤ 100 * F.u := mul_le_mul_of_nonneg_right hb1 F.u_nonneg
  have := F.u_nonneg
  linarith

theorem Near.transU {a b x y z : ℝ} (h : Near (a * F.u) x y) (h' : Near (b * F.u) y z) (ha : 0 ≤ a) (ha1 : a ≤ 100) (hb : 0 ≤ b) (hb1 : b ≤ 100) :
    Near ((a + b + 1) * F.u) x z :=
  (h.trans h' (mul_nonneg ha F.u_nonneg) (by linarith [F.tiny (a := a) (by linarith)]) (mul_nonneg hb F.u_nonneg) (by linarith [F.tiny (a := b) (by linarith)])).mono
    (combine ha ha1 hb hb1)

theorem Near.mulU {a b x x' y y' : ℝ} (h : Near (a * F.u) x x') (h' : Near (b * F.u) y y') (ha : 0 ≤ a) (ha1 : a ≤ 100) (hb : 0 ≤ b) (hb1 : b ≤ 100) :
    Near ((a + b + 1) * F.u) (x * y) (x' * y') :=
  (h.mul h' (mul_nonneg ha F.u_nonneg) (by linarith [F.tiny (a := a) (by linarith)]) (mul_nonneg hb F.u_nonneg) (by linarith [F.tiny (a := b) (by linarith)])).mono
    (combine ha ha1 hb hb1)

theorem Near.invU {b y y' : ℝ} (h : Near (b * F.u) y y') (hb : 0 ≤ b) (hb1 : b ≤ 100) : Near (2 * b * F.u) y⁻¹ y'⁻¹ := by
  have := h.inv (mul_nonneg hb F.u_nonneg) (by linarith [F.tiny (a := b) (by linarith)])
  rwa [← mul_assoc] at this

/-- A size that every intermediate result has. -/
def Mid (x : ℝ) : Prop := 1 / 2 ^ 150 ≤ |x| ∧ |x| ≤ 2 ^ 150

theorem Near.rndU {a x y : ℝ} (h : Near (a * F.u) x y) (ha : 0 ≤ a) (ha1 : a ≤ 100) (hx : Mid x) : Near ((a + 2) * F.u) x (F.rnd y) := by
  have hr : Near (1 * F.u) y (F.rnd y) := by
    obtain ⟨t, rfl, t1, t2⟩ := h
    have h3 := F.tiny (a := a) (by linarith)
    have ht : |t| = t := abs_of_nonneg (by linarith)
    rw [one_mul]
    refine near_of_abs F.u_nonneg (F.rnd_err _ ?_ ?_)
    · rw [abs_mul, ht]
      have : 1 / 2 ^ 150 * (1 / 2) ≤ |x| * t := mul_le_mul hx.1 (by linarith) (by norm_num) (abs_nonneg x)
      refine le_trans ?_ this
      norm_num
    · rw [abs_mul, ht]
      have : |x| * t ≤ 2 ^ 150 * 2 := mul_le_mul hx.2 (by linarith) (by linarith) (by norm_num)
      refine this.trans ?_
      norm_num
  have := h.transU hr ha ha1 (by norm_num) (by norm_num)
  rwa [show a + 1 + 1 = a + 2 by ring] at this

theorem rnd_near {x : ℝ} (hx : Mid x) : Near (2 * F.u) x (F.rnd x) := by
  have := (near_refl x (c := 0 * F.u) (by simp)).rndU (F := F) (by norm_num) (by norm_num) hx
  simpa using this

/-! ## The arguments -/

theorem Mid.of {x : ℝ} (h1 : 1 / 2 ^ 150 ≤ x) (h2 : x ≤ 2 ^ 150) : Mid x := by
  have : 0 ≤ x := le_trans (by positivity) h1
  rw [Mid, abs_of_nonneg this]; exact ⟨h1, h2⟩

theorem Mid.neg {x : ℝ} (h : Mid x) : Mid (-x) := by rw [Mid, abs_neg]; exact h

variable {n : Nat} {p : ℝ}

theorem Args.zero_lt (h : Args n p) : 0 < p := lt_of_lt_of_le (by positivity) h.small
theorem Args.lt_one (h : Args n p) : p < 1 := lt_of_le_of_lt h.large (by norm_num)

theorem Args.n_bounds (h : Args n p) : (1 : ℝ) ≤ n ∧ (n : ℝ) ≤ 2 ^ 64 := by
  constructor
  · exact_mod_cast h.pos
  · exact_mod_cast h.word.le

theorem Args.log_bounds (h : Args n p) : 1 / 2 ^ 53 ≤ -Real.log p ∧ -Real.log p ≤ 745 := by
  constructor
  · have := Real.log_le_sub_one_of_pos h.zero_lt
    have := h.large
    linarith
  · have h1 := Real.log_le_log (by positivity) h.small
    rw [Real.log_div (by norm_num) (by positivity), Real.log_one, Real.log_pow] at h1
    have := log2_bounds.2
    push_cast at h1
    linarith

theorem log_near (h : Args n p) : Near (1 * F.u) (Real.log p) (F.log p) := by
  obtain ⟨h1, h2⟩ := h.log_bounds
  have e : |Real.log p| = -Real.log p := abs_of_nonpos (by linarith [show (0 : ℝ) < 1 / 2 ^ 53 by positivity])
  rw [one_mul]
  refine near_of_abs F.u_nonneg (F.log_err p h.zero_lt ?_ ?_)
  · rw [e]; refine le_trans ?_ h1; norm_num
  · rw [e]; refine h2.trans ?_; norm_num

/-- The exact value whose ceiling is the number of bits. -/
noncomputable def exactM (n : Nat) (p : ℝ) : ℝ := n * -Real.log p / (Real.log 2 * Real.log 2)

theorem exactM_bounds (h : Args n p) : 1 / 2 ^ 53 ≤ exactM n p ∧ exactM n p ≤ 2 ^ 80 := by
  obtain ⟨h1, h2⟩ := h.log_bounds
  obtain ⟨n1, n2⟩ := h.n_bounds
  obtain ⟨l1, l2⟩ := log2_bounds
  have hd : 0 < Real.log 2 * Real.log 2 := by nlinarith
  have hx : 1 * (1 / 2 ^ 53) ≤ (n : ℝ) * -Real.log p := mul_le_mul n1 h1 (by positivity) (by linarith)
  have hy : (n : ℝ) * -Real.log p ≤ 2 ^ 64 * 745 := mul_le_mul n2 h2 (le_trans (by positivity) h1) (by norm_num)
  unfold exactM
  constructor
  · rw [le_div_iff₀ hd]
    have : Real.log 2 * Real.log 2 ≤ 1 := by nlinarith
    nlinarith
  · rw [div_le_iff₀ hd]
    have : 0.48 ≤ Real.log 2 * Real.log 2 := by nlinarith
    have : (2 : ℝ) ^ 80 * 0.48 ≤ 2 ^ 80 * (Real.log 2 * Real.log 2) := mul_le_mul_of_nonneg_left this (by norm_num)
    refine hy.trans (le_trans ?_ this)
    norm_num

/-- The number before the ceiling of bloom.go:84 is the exact one up to `15 u`. -/
theorem floatM_near (h : Args n p) :
    Near (15 * F.u) (exactM n p) (F.rnd (F.rnd (F.rnd (-1 * F.rnd n) * F.log p) / F.rnd (Real.log 2 * Real.log 2))) := by
  obtain ⟨h1, h2⟩ := h.log_bounds
  obtain ⟨n1, n2⟩ := h.n_bounds
  obtain ⟨l1, l2⟩ := log2_bounds
  have hn : Mid (n : ℝ) := .of (le_trans (by norm_num) n1) (n2.trans (by norm_num))
  have e1 : Near (2 * F.u) (n : ℝ) (F.rnd n) := rnd_near hn
  have e2 : Near (2 * F.u) (-(n : ℝ)) (-1 * F.rnd n) := by
    obtain ⟨t, e, t1, t2⟩ := e1
    exact ⟨t, by rw [e]; ring, t1, t2⟩
  have e3 := e2.rndU (F := F) (by norm_num) (by norm_num) hn.neg
  have e4 := e3.mulU (log_near h) (by norm_num) (by norm_num) (by norm_num) (by norm_num)
  have hx : 1 * (1 / 2 ^ 53) ≤ (n : ℝ) * -Real.log p := mul_le_mul n1 h1 (by positivity) (by linarith)
  have hy : (n : ℝ) * -Real.log p ≤ 2 ^ 64 * 745 := mul_le_mul n2 h2 (le_trans (by positivity) h1) (by norm_num)
  have ee : -(n : ℝ) * Real.log p = n * -Real.log p := by ring
  rw [ee] at e4
  have e5 := e4.rndU (F := F) (by norm_num) (by norm_num) (.of (le_trans (by norm_num) hx) (hy.trans (by norm_num)))
  have e6 : Near (2 * F.u) (Real.log 2 * Real.log 2) (F.rnd (Real.log 2 * Real.log 2)) :=
    rnd_near (.of (le_trans (by norm_num) (show (0.4 : ℝ) ≤ Real.log 2 * Real.log 2 by nlinarith)) (le_trans (show Real.log 2 * Real.log 2 ≤ 1 by nlinarith) (by norm_num)))
  have e7 := e5.mulU (e6.invU (F := F) (by norm_num) (by norm_num)) (by norm_num) (by norm_num) (by norm_num) (by norm_num)
  obtain ⟨m1, m2⟩ := exactM_bounds h
  have e8 := e7.rndU (F := F) (by norm_num) (by norm_num) (by
    rw [← div_eq_mul_inv]
    exact .of (le_trans (by norm_num) m1) (m2.trans (by norm_num)))
  rw [← div_eq_mul_inv, ← div_eq_mul_inv] at e8
  exact e8.mono (by have := F.u_nonneg; linarith)

theorem floatM_bounds (h : Args n p) :
    1 ≤ floatM F n p ∧ (1 - 15 * F.u) * exactM n p ≤ floatM F n p ∧ (floatM F n p : ℝ) < (1 + 15 * F.u) * exactM n p + 1 := by
  have e := floatM_near (F := F) h
  have hs := F.tiny (a := 15) (by norm_num)
  have hX : 0 < exactM n p := lt_of_lt_of_le (by positivity) (exactM_bounds h).1
  have hp := e.sign (by linarith) hX
  obtain ⟨h1, h2⟩ := e.bounds hX.le
  unfold floatM
  refine ⟨Nat.ceil_pos.2 hp, h1.trans (Nat.le_ceil _), ?_⟩
  have := Nat.ceil_lt_add_one hp.le
  linarith

theorem floatK_near (h : Args n p) :
    Near (14 * F.u) (Real.log 2 * floatM F n p / n) (F.rnd (F.rnd (F.rnd (Real.log 2) * F.rnd (floatM F n p)) / F.rnd n)) := by
  obtain ⟨n1, n2⟩ := h.n_bounds
  obtain ⟨l1, l2⟩ := log2_bounds
  obtain ⟨x1, x2⟩ := exactM_bounds h
  obtain ⟨m1, -, m3⟩ := floatM_bounds (F := F) h
  have hs := F.tiny (a := 15) (by norm_num)
  have m1' : (1 : ℝ) ≤ floatM F n p := by exact_mod_cast m1
  have m2' : (floatM F n p : ℝ) ≤ 2 ^ 82 := by
    have : (1 + 15 * F.u) * exactM n p ≤ 2 * 2 ^ 80 := mul_le_mul (by linarith) x2 (le_trans (by positivity) x1) (by norm_num)
    refine le_trans m3.le (le_trans (add_le_add_left this 1) ?_)
    norm_num
  generalize floatM F n p = m at *
  have hn : Mid (n : ℝ) := .of (le_trans (by norm_num) n1) (n2.trans (by norm_num))
  have hm : Mid (m : ℝ) := .of (le_trans (by norm_num) m1') (m2'.trans (by norm_num))
  have hl : Mid (Real.log 2) := .of (le_trans (by norm_num) l1.le) (l2.le.trans (by norm_num))
  have a1 : 0.6931 * 1 ≤ Real.log 2 * m := mul_le_mul l1.le m1' (by norm_num) (by linarith)
  have a2 : Real.log 2 * m ≤ 0.6932 * 2 ^ 82 := mul_le_mul l2.le m2' (by linarith) (by norm_num)
  have hp : Mid (Real.log 2 * m) := .of (le_trans (by norm_num) a1) (a2.trans (by norm_num))
  have hq : Mid (Real.log 2 * m / n) := by
    refine .of ?_ ?_
    · rw [le_div_iff₀ (by linarith)]
      have : 1 / 2 ^ 150 * (n : ℝ) ≤ 1 / 2 ^ 150 * 2 ^ 64 := mul_le_mul_of_nonneg_left n2 (by positivity)
      refine this.trans (le_trans ?_ a1)
      norm_num
    · rw [div_le_iff₀ (by linarith)]
      have : (2 : ℝ) ^ 150 * 1 ≤ 2 ^ 150 * n := mul_le_mul_of_nonneg_left n1 (by positivity)
      refine a2.trans (le_trans ?_ this)
      norm_num
  have e1 := ((rnd_near (F := F) hl).mulU (rnd_near (F := F) hm) (by norm_num) (by norm_num) (by norm_num) (by norm_num)).rndU (F := F) (by norm_num) (by norm_num) hp
  have e2 := (rnd_near (F := F) hn).invU (F := F) (by norm_num) (by norm_num)
  have e3 := e1.mulU e2 (by norm_num) (by norm_num) (by norm_num) (by norm_num)
  rw [← div_eq_mul_inv, ← div_eq_mul_inv] at e3
  have e4 := e3.rndU (F := F) (by norm_num) (by norm_num) hq
  exact e4.mono (by have := F.u_nonneg; linarith)

theorem floatK_bounds (h : Args n p) :
    1 ≤ floatK F n p ∧ (1 - 14 * F.u) * (Real.log 2 * floatM F n p / n) ≤ floatK F n p ∧
      (floatK F n p : ℝ) < (1 + 14 * F.u) * (Real.log 2 * floatM F n p / n) + 1 := by
  have e := floatK_near (F := F) h
  have hs := F.tiny (a := 14) (by norm_num)
  have n1 := h.n_bounds.1
  have l0 := log2_pos
  have m1' : (1 : ℝ) ≤ floatM F n p := by exact_mod_cast (floatM_bounds (F := F) h).1
  have hX : 0 < Real.log 2 * floatM F n p / n := by apply div_pos <;> nlinarith
  have hp := e.sign (by linarith) hX
  obtain ⟨h1, h2⟩ := e.bounds hX.le
  unfold floatK
  refine ⟨Nat.ceil_pos.2 hp, h1.trans (Nat.le_ceil _), ?_⟩
  have := Nat.ceil_lt_add_one hp.le
  linarith

theorem floatK_log (h : Args n p) : (1 - 30 * F.u) * -Real.log p ≤ floatK F n p * Real.log 2 := by
  obtain ⟨-, hm, -⟩ := floatM_bounds (F := F) h
  obtain ⟨-, hk, -⟩ := floatK_bounds (F := F) h
  have n1 := h.n_bounds.1
  have l0 := log2_pos
  have u0 := F.u_nonneg
  have hs := F.tiny (a := 15) (by norm_num)
  have hl : 0 ≤ -Real.log p := le_trans (by positivity) h.log_bounds.1
  generalize floatM F n p = m at *
  generalize floatK F n p = k at *
  unfold exactM at hm
  have h1 : (1 - 15 * F.u) * (n * -Real.log p) ≤ m * (Real.log 2 * Real.log 2) := by
    rw [← mul_div_assoc, div_le_iff₀ (by positivity)] at hm; exact hm
  have h2 : (1 - 14 * F.u) * (Real.log 2 * m) ≤ k * n := by
    rw [← mul_div_assoc, div_le_iff₀ (by linarith)] at hk; exact hk
  have h3 : n * ((1 - 14 * F.u) * (1 - 15 * F.u) * -Real.log p) ≤ n * (k * Real.log 2) := by
    calc n * ((1 - 14 * F.u) * (1 - 15 * F.u) * -Real.log p) = (1 - 14 * F.u) * ((1 - 15 * F.u) * (n * -Real.log p)) := by ring
      _ ≤ (1 - 14 * F.u) * (m * (Real.log 2 * Real.log 2)) := mul_le_mul_of_nonneg_left h1 (by linarith)
      _ = ((1 - 14 * F.u) * (Real.log 2 * m)) * Real.log 2 := by ring
      _ ≤ (k * n) * Real.log 2 := mul_le_mul_of_nonneg_right h2 l0.le
      _ = n * (k * Real.log 2) := by ring
  have h4 := le_of_mul_le_mul_left h3 (by linarith : (0 : ℝ) < n)
  refine le_trans (mul_le_mul_of_nonneg_right ?_ hl) h4
  nlinarith [mul_nonneg u0 u0]

/-- **C73** with floating-point arithmetic: whatever the roundings, for every `uint64` capacity `n ≥ 1` and every `float64` rate `p` between 0
and 1 the parameters are those of exact arithmetic up to `15 u` and 1, there is at least one bit and one function, and with as many functions values of
which each meets a set bit with probability at most 1/2 pass with probability at most `p` to the power `1 - 30 u`. -/
theorem C73_float (F : FloatOps) (h : Args n p) :
    1 ≤ floatM F n p ∧ 1 ≤ floatK F n p ∧
      (1 - 15 * F.u) * (n * Real.log (1 / p) / (Real.log 2 * Real.log 2)) ≤ floatM F n p ∧
      (floatM F n p : ℝ) < (1 + 15 * F.u) * (n * Real.log (1 / p) / (Real.log 2 * Real.log 2)) + 1 ∧
      (1 - 15 * F.u) * (Real.log 2 * floatM F n p / n) ≤ floatK F n p ∧ (floatK F n p : ℝ) < (1 + 15 * F.u) * (Real.log 2 * floatM F n p / n) + 1 ∧
      (1 / 2 : ℝ) ^ floatK F n p ≤ p ^ (1 - 30 * F.u) := by
  have e : Real.log (1 / p) = -Real.log p := by rw [Real.log_div (by norm_num) h.zero_lt.ne', Real.log_one, zero_sub]
  rw [e]
  obtain ⟨m1, m2, m3⟩ := floatM_bounds (F := F) h
  obtain ⟨k1, k2, k3⟩ := floatK_bounds (F := F) h
  have l0 := log2_pos
  have u0 := F.u_nonneg
  have hY : 0 ≤ Real.log 2 * floatM F n p / n := by positivity
  have hY2 : 0 ≤ F.u * (Real.log 2 * floatM F n p / n) := mul_nonneg u0 hY
  refine ⟨m1, k1, m2, m3, by linarith, by linarith, ?_⟩
  have hk := floatK_log (F := F) h
  rw [Real.rpow_def_of_pos h.zero_lt, ← Real.exp_log (show (0 : ℝ) < (1 / 2) ^ floatK F n p by positivity), Real.log_pow,
    Real.log_div (by norm_num) (by norm_num), Real.log_one]
  refine Real.exp_le_exp.2 ?_
  linarith

/-- **C73** A filter with the parameters of floating-point arithmetic has no false negatives. -/
theorem C73_float_no_false_negatives (F : FloatOps) {H : List Byte → List Byte} (hH : GoodHash H) (h : Args n p)
    (hm : floatM F n p ≤ 2 ^ 64 - 8) (hk : floatK F n p < 2 ^ 63) (vs : List (List Byte)) :
    ∃ bf, addAll H vs (new (floatM F n p) (floatK F n p)) = .ok bf ∧ ∀ v ∈ vs, contains H bf v = .ok true := by
  obtain ⟨bf, _, e, _, h, _⟩ := C31_no_false_negatives hH (C73_float F h).1 hm hk vs []
  exact ⟨bf, e, h⟩

/-- **C73** is false with floating-point arithmetic, too: for rates of at most 1/257 more than 8 functions are asked for, and a filter with 8 functions gives the
same answers. -/
theorem C73_float_violated (F : FloatOps) {H : List Byte → List Byte} (hH : GoodHash H) (h8 : ∀ d, (words (H d)).length ≤ 8) (h : Args n p)
    (h1 : p ≤ 1 / 257) (hm : floatM F n p ≤ 2 ^ 64 - 8) (hk : floatK F n p < 2 ^ 63) (vs : List (List Byte)) :
    8 < floatK F n p ∧ ∃ bf bf8, addAll H vs (new (floatM F n p) (floatK F n p)) = .ok bf ∧ addAll H vs (new (floatM F n p) 8) = .ok bf8 ∧
      ∀ v, contains H bf v = contains H bf8 v := by
  have hlt : 8 < floatK F n p := by
    obtain ⟨l1, l2⟩ := log2_bounds
    have hl := floatK_log (F := F) h
    have hs := F.tiny (a := 30) (by norm_num)
    have a := Real.log_le_log h.zero_lt h1
    have b : Real.log (1 / 257 : ℝ) = -(8 * Real.log 2) - Real.log (257 / 256) := by
      rw [Real.log_div (by norm_num) (by norm_num), Real.log_div (by norm_num) (by norm_num), Real.log_one, show (256 : ℝ) = 2 ^ 8 by norm_num, Real.log_pow]
      push_cast; ring
    have c := Real.one_sub_inv_le_log_of_pos (show (0 : ℝ) < 257 / 256 by norm_num)
    norm_num at c
    have d : (1 - 30 * F.u) * (8 * Real.log 2 + 1 / 257) ≤ (1 - 30 * F.u) * -Real.log p := mul_le_mul_of_nonneg_left (by linarith) (by linarith)
    have e : (8 : ℝ) * Real.log 2 < floatK F n p * Real.log 2 := by nlinarith
    have f := lt_of_mul_lt_mul_right e (by linarith)
    exact_mod_cast f
  obtain ⟨bf, bf8, e, e8, _, h⟩ := C72_more_functions_do_nothing hH h8 (C73_float F h).1 hm hk hlt.le vs
  exact ⟨hlt, bf, bf8, e, e8, h⟩

/-- **C79** with floating-point arithmetic, the part that holds: for `n ≥ 10` values, a rate `p` of at most 1/2 and at most `n` functions, the false positive
rate after `n` additions, averaged over hash functions, is at most `4 p`. -/
theorem C79_float_within_factor_partial (F : FloatOps) (h : Args n p) (hn : 10 ≤ n) (h1 : p ≤ 1 / 2) (hk : floatK F n p ≤ n) :
    errorRate (floatM F n p) (floatK F n p) n ≤ 4 * p := by
  obtain ⟨l1, l2⟩ := log2_bounds
  obtain ⟨-, m2, m3⟩ := floatM_bounds (F := F) h
  obtain ⟨-, k2, k3⟩ := floatK_bounds (F := F) h
  have n1 : (10 : ℝ) ≤ n := by exact_mod_cast hn
  have u0 := F.u_nonneg
  have hs := F.tiny (a := 15) (by norm_num)
  obtain ⟨-, hl2⟩ := h.log_bounds
  have hl1 : Real.log 2 ≤ -Real.log p := by
    have := Real.log_le_log h.zero_lt h1
    rw [Real.log_div (by norm_num) (by norm_num), Real.log_one, zero_sub] at this
    linarith
  have hn0 : (0 : ℝ) < n := by linarith
  obtain ⟨y, hy⟩ : ∃ y : ℝ, Real.log 2 * floatM F n p = y * n := ⟨Real.log 2 * floatM F n p / n, by field_simp⟩
  have hyd : Real.log 2 * floatM F n p / n = y := by rw [hy]; field_simp
  rw [hyd] at k2 k3
  have hyl : (1 - 15 * F.u) * -Real.log p ≤ y * Real.log 2 := by
    unfold exactM at m2
    rw [← mul_div_assoc, div_le_iff₀ (by nlinarith)] at m2
    have : n * ((1 - 15 * F.u) * -Real.log p) ≤ n * (y * Real.log 2) := by nlinarith
    exact le_of_mul_le_mul_left this hn0
  have hyu : y ≤ 1200 := by
    have a : (floatM F n p : ℝ) * (Real.log 2 * Real.log 2) ≤ (1 + 15 * F.u) * (n * -Real.log p) + Real.log 2 * Real.log 2 := by
      unfold exactM at m3
      have := mul_le_mul_of_nonneg_right m3.le (show 0 ≤ Real.log 2 * Real.log 2 by nlinarith)
      refine this.trans (le_of_eq ?_)
      field_simp
    have b : (1 + 15 * F.u) * (n * -Real.log p) ≤ 1.01 * (n * 745) :=
      mul_le_mul (by linarith) (mul_le_mul_of_nonneg_left hl2 hn0.le) (by apply mul_nonneg <;> linarith) (by norm_num)
    have c : y * n * Real.log 2 ≤ 760 * n := by
      rw [← hy]; nlinarith
    have d : y * Real.log 2 * n ≤ 760 * n := by linarith
    have d := le_of_mul_le_mul_right d hn0
    by_contra hc
    nlinarith
  have hy0 : 0.99 ≤ y := by
    by_contra hc
    nlinarith
  have hu1 : 15 * F.u * -Real.log p ≤ 1 / 1000000 * 745 := mul_le_mul hs hl2 (by linarith) (by norm_num)
  have hu2 : 15 * F.u * y ≤ 1 / 1000000 * 1200 := mul_le_mul hs hyu (by linarith) (by norm_num)
  have hu3 : 0 ≤ F.u * y := mul_nonneg u0 (by linarith)
  exact rate_le_four hn h.zero_lt hk hy hy0 (by linarith) (by linarith) (by linarith)

/-- **C79** with floating-point arithmetic: what is left of small error rates. -/
theorem C79_float_eight_functions (F : FloatOps) (h : Args n p) : (8 / (9 + 2.1 * Real.log (1 / p))) ^ 8 ≤ errorRate (floatM F n p) 8 n := by
  obtain ⟨l1, l2⟩ := log2_bounds
  obtain ⟨m1, -, m3⟩ := floatM_bounds (F := F) h
  have hlog : Real.log (1 / p) = -Real.log p := by rw [Real.log_div (by norm_num) h.zero_lt.ne', Real.log_one, zero_sub]
  have hneg : Real.log p < 0 := Real.log_neg h.zero_lt h.lt_one
  have n1 := h.n_bounds.1
  have hs := F.tiny (a := 15) (by norm_num)
  rw [hlog]
  refine eight_general h.pos m1 hneg ?_
  unfold exactM at m3
  have e : (1 + 15 * F.u) * (n * -Real.log p / (Real.log 2 * Real.log 2)) ≤ n * (2.1 * -Real.log p) := by
    rw [← mul_div_assoc, div_le_iff₀ (by nlinarith)]
    have a : (1.0001 : ℝ) ≤ 2.1 * (Real.log 2 * Real.log 2) := by nlinarith
    have b : 0 ≤ (n : ℝ) * -Real.log p := by nlinarith
    have c : (1 + 15 * F.u) * (n * -Real.log p) ≤ 1.0001 * (n * -Real.log p) := mul_le_mul_of_nonneg_right (by linarith) b
    have d := mul_le_mul_of_nonneg_right a b
    linarith
  nlinarith

theorem args_ex : Args 100 (1 / 2) :=
  ⟨by norm_num, by norm_num, one_div_le_one_div_of_le (by norm_num) (le_self_pow₀ (by norm_num) (by norm_num)), by norm_num⟩

/-- **C79** fails with floating-point arithmetic, too: asked for 100 values and the rate 1/2 the code makes 145 bits and 2 functions, and the rate is more than 1/2. -/
theorem C79_float_violated (F : FloatOps) : floatM F 100 (1 / 2) = 145 ∧ floatK F 100 (1 / 2) = 2 ∧
    1 / 2 < errorRate (floatM F 100 (1 / 2)) (floatK F 100 (1 / 2)) 100 := by
  obtain ⟨l1, l2⟩ := log2_bounds
  have h := args_ex
  obtain ⟨-, m2, m3⟩ := floatM_bounds (F := F) h
  obtain ⟨-, k2, k3⟩ := floatK_bounds (F := F) h
  have hs := F.tiny (a := 15) (by norm_num)
  have u0 := F.u_nonneg
  have e : exactM 100 (1 / 2) = 100 / Real.log 2 := by
    unfold exactM
    rw [Real.log_div (by norm_num) (by norm_num), Real.log_one]
    push_cast
    field_simp
    ring
  rw [e] at m2 m3
  have x1 : 144.2 ≤ 100 / Real.log 2 := by rw [le_div_iff₀ (by linarith)]; linarith
  have x2 : 100 / Real.log 2 ≤ 144.3 := by rw [div_le_iff₀ (by linarith)]; linarith
  have hm : floatM F 100 (1 / 2) = 145 := by
    have a : (144 : ℝ) < floatM F 100 (1 / 2) := by nlinarith
    have b : (floatM F 100 (1 / 2) : ℝ) < 146 := by nlinarith
    have a : 144 < floatM F 100 (1 / 2) := by exact_mod_cast a
    have b : floatM F 100 (1 / 2) < 146 := by exact_mod_cast b
    omega
  rw [hm] at k2 k3
  push_cast at k2 k3
  have hk : floatK F 100 (1 / 2) = 2 := by
    have a : (1 : ℝ) < floatK F 100 (1 / 2) := by
      refine lt_of_lt_of_le ?_ k2
      nlinarith
    have b : (floatK F 100 (1 / 2) : ℝ) < 3 := by
      refine lt_of_lt_of_le k3 ?_
      nlinarith
    have a : 1 < floatK F 100 (1 / 2) := by exact_mod_cast a
    have b : floatK F 100 (1 / 2) < 3 := by exact_mod_cast b
    omega
  refine ⟨hm, hk, ?_⟩
  rw [hm, hk]
  refine lt_of_lt_of_le ?_ (C79_rate_ge (by norm_num) 2 100)
  norm_num

/-! ## Non-vacuity: binary floating point with 53 digits -/

/-- Rounding to the nearest number with 53 binary digits, for all exponents. -/
noncomputable def round53 (x : ℝ) : ℝ := round (x / 2 ^ (Int.log 2 |x| - 52)) * 2 ^ (Int.log 2 |x| - 52)

theorem round53_err (x : ℝ) : |round53 x - x| ≤ 1 / 2 ^ 53 * |x| := by
  by_cases hx : x = 0
  · subst hx; simp [round53]
  have hp : (0 : ℝ) < 2 ^ (Int.log 2 |x| - 52) := by positivity
  have h1 := abs_sub_round (x / 2 ^ (Int.log 2 |x| - 52))
  have h2 : (2 : ℝ) ^ Int.log 2 |x| ≤ |x| := Int.zpow_log_le_self (by norm_num) (abs_pos.2 hx)
  have e : round53 x - x = -(x / 2 ^ (Int.log 2 |x| - 52) - round (x / 2 ^ (Int.log 2 |x| - 52))) * 2 ^ (Int.log 2 |x| - 52) := by
    unfold round53; field_simp; ring
  rw [e, abs_mul, abs_neg, abs_of_pos hp]
  have h3 := mul_le_mul_of_nonneg_right h1 hp.le
  refine h3.trans ?_
  rw [zpow_sub₀ (by norm_num)]
  have : (1 / 2 : ℝ) * (2 ^ Int.log 2 |x| / 2 ^ (52 : ℤ)) = 1 / 2 ^ 53 * 2 ^ Int.log 2 |x| := by
    norm_num; ring
  rw [this]
  exact mul_le_mul_of_nonneg_left h2 (by positivity)

/-- Such an arithmetic. -/
noncomputable def double : FloatOps where
  u := 1 / 2 ^ 53
  rnd := round53
  log := fun x => round53 (Real.log x)
  u_nonneg := by positivity
  u_le := by norm_num
  rnd_err := fun x _ _ => round53_err x
  log_err := fun x _ _ _ => round53_err _

example : (1 / 2 : ℝ) ^ floatK double 100 (1 / 2) ≤ (1 / 2) ^ (1 - 30 * double.u) := (C73_float double args_ex).2.2.2.2.2.2
example : floatM double 100 (1 / 2) = 145 ∧ floatK double 100 (1 / 2) = 2 := ⟨(C79_float_violated double).1, (C79_float_violated double).2.1⟩
example : ∃ bf, addAll exHash [[1], [2, 3]] (new (floatM double 100 (1 / 2)) (floatK double 100 (1 / 2))) = .ok bf ∧ contains exHash bf [2, 3] = .ok true := by
  have h := C79_float_violated double
  obtain ⟨bf, e, h⟩ := C73_float_no_false_negatives double exHash_good args_ex (by rw [h.1]; norm_num) (by rw [h.2.1]; norm_num) [[1], [2, 3]]
  exact ⟨bf, e, h _ (by simp)⟩
example : errorRate (floatM double 100 (1 / 2)) (floatK double 100 (1 / 2)) 100 ≤ 4 * (1 / 2) :=
  C79_float_within_factor_partial double args_ex (by norm_num) le_rfl (by rw [(C79_float_violated double).2.1]; norm_num)
example := C79_float_eight_functions double args_ex

/-- 100 values and the rate 2^-10: the hypotheses of `C73_float_violated` are met. -/
example : 8 < floatK double 100 ((1 / 2) ^ 10) := by
  have h : Args 100 ((1 / 2) ^ 10) := ⟨by norm_num, by norm_num, by
    rw [one_div_pow]
    exact one_div_le_one_div_of_le (by norm_num) (pow_le_pow_right₀ (by norm_num) (by norm_num)), by norm_num⟩
  obtain ⟨l1, l2⟩ := log2_bounds
  have hs := double.tiny (a := 15) (by norm_num)
  have u0 := double.u_nonneg
  have e : exactM 100 ((1 / 2) ^ 10) = 1000 / Real.log 2 := by
    unfold exactM
    rw [Real.log_pow, Real.log_div (by norm_num) (by norm_num), Real.log_one]
    push_cast
    field_simp
    ring
  have x2 : 1000 / Real.log 2 ≤ 1443 := by rw [div_le_iff₀ (by linarith)]; linarith
  have hm := (floatM_bounds (F := double) h).2.2
  rw [e] at hm
  have hm' : (floatM double 100 ((1 / 2) ^ 10) : ℝ) < 1500 := by nlinarith
  have hk := (floatK_bounds (F := double) h).2.2
  have hk' : (floatK double 100 ((1 / 2) ^ 10) : ℝ) < 1000 := by
    push_cast at hk
    have h5 : Real.log 2 * (floatM double 100 ((1 / 2) ^ 10) : ℝ) / 100 ≤ 15 := by
      rw [div_le_iff₀ (by norm_num)]
      have := mul_le_mul l2.le hm'.le (by positivity) (by norm_num)
      linarith
    have h6 : (1 + 14 * double.u) * (Real.log 2 * (floatM double 100 ((1 / 2) ^ 10) : ℝ) / 100) ≤ 2 * 15 := mul_le_mul (by linarith) h5 (by positivity) (by norm_num)
    linarith
  have a : floatM double 100 ((1 / 2) ^ 10) < 1500 := by exact_mod_cast hm'
  have b : floatK double 100 ((1 / 2) ^ 10) < 1000 := by exact_mod_cast hk'
  exact (C73_float_violated double exHash_good (fun d => (exHash_words d).le) h (by norm_num) (by omega) (by omega) []).1

end GoSTL.Bloom
