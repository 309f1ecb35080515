import Verif.Deque.Props
import Mathlib.Tactic.Linarith
import Mathlib.Tactic.Ring
/-!
# The value of `int(float64(n)*1.2)` (deque.go:365)

The shrink rule of the deque multiplies in `float64`. Here that product is computed as IEEE 754 prescribes (binary64, round to
nearest, ties to even), and shown to be `n*6/5` rounded down for every `n` below 2^49, which is the value `goCfg` uses.
-/
namespace GoSTL.Deque

/-- The significand of the `float64` constant 1.2 (deque.go:365), which is `c12 / 2^52` (bit pattern 0x3FF3333333333333). -/
def c12 : Nat := 0x13333333333333

/-- It is the `float64` nearest to 6/5: the error is a fifth of a unit in the last place. -/
theorem c12_nearest : (2 ^ 52 ≤ c12 ∧ c12 < 2 ^ 53) ∧ 5 * c12 + 1 = 6 * 2 ^ 52 := by decide

/-- IEEE 754 rounding of a natural number to 53 significant bits, to nearest, ties to even. -/
def rne53 (p : Nat) : Nat :=
  let s := Nat.log2 p - 52
  let q := p / 2 ^ s
  let r := p % 2 ^ s
  (if 2 * r < 2 ^ s then q else if 2 * r > 2 ^ s then q + 1 else if q % 2 = 0 then q else q + 1) * 2 ^ s

/-- deque.go:365 `int(float64(n)*1.2)`: `float64(n)` (exact below 2^53, otherwise rounded), the product with `c12 / 2^52`
rounded to 53 bits, and the integer part. The exponent range is not limited (it is never reached by an `int`). -/
def floatScale (n : Nat) : Nat := rne53 (rne53 n * c12) / 2 ^ 52

theorem rne53_exact {p : Nat} (h : p < 2 ^ 53) : rne53 p = p := by
  have : Nat.log2 p - 52 = 0 := by
    rcases Nat.eq_zero_or_pos p with rfl | hp
    · rfl
    · have := (Nat.log2_lt (by omega)).2 h; omega
  unfold rne53
  simp only [this]
  simp [Nat.mod_one]

/-- Rounding never crosses a multiple of the spacing, and moves by at most half the spacing. -/
theorem rne53_bounds (p : Nat) : rne53 p + p % 2 ^ (Nat.log2 p - 52) ≥ p ∧ 2 * rne53 p ≤ 2 * p + 2 ^ (Nat.log2 p - 52) ∧
    (2 * (p % 2 ^ (Nat.log2 p - 52)) > 2 ^ (Nat.log2 p - 52) →
      rne53 p + p % 2 ^ (Nat.log2 p - 52) = p + 2 ^ (Nat.log2 p - 52)) := by
  unfold rne53
  dsimp only
  generalize Nat.log2 p - 52 = s
  have hd := Nat.div_add_mod p (2 ^ s)
  have hm := Nat.mod_lt p (Nat.two_pow_pos s)
  generalize 2 ^ s = S at *
  generalize hq : p / S = q at *
  generalize p % S = r at *
  have e1 : q * S = S * q := Nat.mul_comm _ _
  have e2 : (q + 1) * S = S * q + S := by rw [Nat.add_mul, e1]; simp
  split
  · rw [e1]; omega
  · split
    · rw [e2]; omega
    · split
      · rw [e1]; omega
      · rw [e2]; omega

/-- Rounding does not fall below a multiple of the spacing. -/
theorem rne53_ge {p M : Nat} (hM : 2 ^ (Nat.log2 p - 52) ∣ M) (h : M ≤ p) : M ≤ rne53 p := by
  have h1 := (rne53_bounds p).1
  have hd := Nat.div_add_mod p (2 ^ (Nat.log2 p - 52))
  have hp := Nat.two_pow_pos (Nat.log2 p - 52)
  generalize 2 ^ (Nat.log2 p - 52) = S at *
  obtain ⟨k, rfl⟩ := hM
  have : k ≤ p / S := (Nat.le_div_iff_mul_le hp).2 (by rw [Nat.mul_comm]; exact h)
  have : S * k ≤ S * (p / S) := Nat.mul_le_mul_left _ this
  omega

/-- `int(float64(n)*1.2)` is `n*6/5` rounded down, for every `n` below 2^49 (so for every deque that fits in memory): the
rounding errors of the constant and of the product never show. -/
theorem floatScale_eq {n : Nat} (h : n < 2 ^ 49) : floatScale n = n * 6 / 5 := by
  unfold floatScale
  rw [rne53_exact (Nat.lt_of_lt_of_le h (by decide))]
  rcases Nat.eq_zero_or_pos n with rfl | hn
  · rfl
  have hc := c12_nearest.2
  have hp0 : n * c12 ≠ 0 := by
    have : 0 < c12 := by decide
    exact Nat.mul_ne_zero (by omega) (by omega)
  have h5 : 5 * (n * c12) + n = 6 * n * 2 ^ 52 := by
    have : n * (5 * c12 + 1) = n * (6 * 2 ^ 52) := by rw [hc]
    linarith [this]
  generalize hp : n * c12 = p at *
  have hlog : 2 ^ Nat.log2 p ≤ p := Nat.log2_self_le hp0
  have hlog2 : p < 2 ^ (Nat.log2 p + 1) := Nat.lt_log2_self
  have hL : Nat.log2 p < 102 := (Nat.log2_lt hp0).2 (by omega)
  have hL2 : 52 ≤ Nat.log2 p := (Nat.le_log2 hp0).2 (by omega)
  obtain ⟨s, hs⟩ : ∃ s, Nat.log2 p = s + 52 := ⟨Nat.log2 p - 52, by omega⟩
  have hs' : Nat.log2 p - 52 = s := by omega
  have hs48 : s ≤ 49 := by omega
  have hS : 2 ^ s ≤ 2 ^ 49 := Nat.pow_le_pow_right (by omega) hs48
  have hdvd : 2 ^ s ∣ 2 ^ 52 := Nat.pow_dvd_pow 2 (by omega)
  have hb := rne53_bounds p
  rw [hs'] at hb
  have hpw : (2 : Nat) ^ (Nat.log2 p + 1) = 2 ^ s * 2 ^ 53 := by rw [hs, ← Nat.pow_add]
  rw [hpw] at hlog2
  -- m ≤ value
  have hlow : n * 6 / 5 * 2 ^ 52 ≤ rne53 p := by
    by_cases ht : n * 6 % 5 = 0
    · -- n is a multiple of five: the product is just below an integer and is rounded to it
      obtain ⟨a, rfl⟩ : ∃ a, n = 5 * a := ⟨n / 5, by omega⟩
      have e1 : p + a = 6 * a * 2 ^ 52 := by omega
      have e2 : 5 * a * 6 / 5 = 6 * a := by omega
      rw [e2]
      have hM : 2 ^ s ∣ 6 * a * 2 ^ 52 := Dvd.dvd.mul_left hdvd _
      obtain ⟨k, hk⟩ := hM
      rw [hk] at e1 ⊢
      have ha : 2 * a < 2 ^ s := by
        rw [← hk] at e1
        omega
      have hk0 : 0 < k := by
        rcases Nat.eq_zero_or_pos k with rfl | h
        · omega
        · exact h
      have hmod : p % 2 ^ s = 2 ^ s - a := by
        have : p = (2 ^ s - a) + 2 ^ s * (k - 1) := by
          obtain ⟨j, rfl⟩ : ∃ j, k = j + 1 := ⟨k - 1, by omega⟩
          rw [Nat.mul_add, Nat.mul_one] at e1
          simp only [Nat.add_sub_cancel]
          omega
        rw [this, Nat.add_mul_mod_self_left]
        exact Nat.mod_eq_of_lt (by omega)
      have := hb.2.2 (by rw [hmod]; omega)
      rw [hmod] at this
      omega
    · refine rne53_ge (by rw [hs']; exact Dvd.dvd.mul_left hdvd _) ?_
      omega
  have hhigh : rne53 p < (n * 6 / 5 + 1) * 2 ^ 52 := by
    have := hb.2.1
    omega
  have := Nat.div_lt_of_lt_mul (k := n * 6 / 5 + 1) (n := 2 ^ 52) (m := rne53 p) (by rw [Nat.mul_comm]; exact hhigh)
  have h2 := (Nat.le_div_iff_mul_le (k := 2 ^ 52) (by decide : 0 < 2 ^ 52) (x := n * 6 / 5) (y := rne53 p)).2 hlow
  omega

/-- **C77**, **C74**, **C01** The shrink rule of `goCfg` is the one of the code, computed in `float64`. -/
theorem goCfg_scale12_float {T : Type} (zero : T) {n : Nat} (h : n < 2 ^ 49) : (goCfg zero).scale12 n = (floatScale n : Nat) := by
  rw [floatScale_eq h]
  show (n : Int) * 6 / 5 = _
  omega

/-- Values: for multiples of five the exact product with `c12` is just below the integer, the rounded product is the integer. -/
example : (List.range 16).map floatScale = [0, 1, 2, 3, 4, 6, 7, 8, 9, 10, 12, 13, 14, 15, 16, 18] := by decide

/-- `goCfg_scale12_float` at 1000. -/
example : (goCfg (0 : Int)).scale12 1000 = 1200 := by
  rw [show (1000 : Int) = ((1000 : Nat) : Int) from rfl, goCfg_scale12_float 0 (n := 1000) (by decide), floatScale_eq (by decide)]; decide

end GoSTL.Deque
