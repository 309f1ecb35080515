/-!
# Go's `int`

On 64-bit platforms `int` is a 64-bit two's complement number, and arithmetic wraps around. An `int` is modelled by the integer it stands for.
-/
namespace GoSTL

/-- The `int` that arithmetic yields when the exact result is `x`: the number congruent to `x` modulo 2^64 that fits. -/
def int64 (x : Int) : Int := x.bmod (2 ^ 64)

/-- `x` fits into an `int`. -/
abbrev Fits64 (x : Int) : Prop := -2 ^ 63 ≤ x ∧ x < 2 ^ 63

theorem int64_fits (x : Int) : Fits64 (int64 x) := by
  simp only [Fits64, int64, Int.bmod]
  omega

theorem int64_id {x : Int} (h : Fits64 x) : int64 x = x := by
  simp only [Fits64] at h
  simp only [int64, Int.bmod]
  omega

/-- A result that is too large by less than 2^64 becomes negative. -/
theorem int64_over {x : Int} (h1 : 2 ^ 63 ≤ x) (h2 : x < 2 ^ 64) : int64 x = x - 2 ^ 64 := by
  simp only [int64, Int.bmod]
  omega

/-- A result that is too small by less than 2^64 becomes too large. -/
theorem int64_under {x : Int} (h1 : x < -2 ^ 63) (h2 : -2 ^ 64 ≤ x) : int64 x = x + 2 ^ 64 := by
  simp only [int64, Int.bmod]
  omega

end GoSTL
