/-!
# What a consistent comparator is

`utils/comparator/comparator.go:23-28` asks a comparator to return a negative, zero or positive number. All ordered
containers and sorting algorithms take one. `LawfulCmp` is the contract they rely on: the sign is antisymmetric and
`≤` is transitive (a total preorder; different values may compare equal).
-/
namespace GoSTL

/-- What utils/comparator/comparator.go:23-28 asks of a comparator: a total preorder. -/
structure LawfulCmp {α : Type u} (cmp : α → α → Int) : Prop where
  /-- `cmp(a,b)` is negative exactly when `cmp(b,a)` is positive. -/
  swap : ∀ a b, cmp a b < 0 ↔ 0 < cmp b a
  /-- `a ≤ b` and `b ≤ c` give `a ≤ c`. -/
  trans : ∀ a b c, cmp a b ≤ 0 → cmp b c ≤ 0 → cmp a c ≤ 0

namespace LawfulCmp
variable {α : Type u} {cmp : α → α → Int} (h : LawfulCmp cmp)
include h

theorem refl (a : α) : cmp a a = 0 := by
  have := h.swap a a
  omega

theorem eq_symm {a b : α} : cmp a b = 0 ↔ cmp b a = 0 := by
  have := h.swap a b
  have := h.swap b a
  omega

theorem le_iff_ge {a b : α} : cmp a b ≤ 0 ↔ 0 ≤ cmp b a := by
  have := h.swap a b
  have := h.swap b a
  omega

theorem total (a b : α) : cmp a b ≤ 0 ∨ cmp b a ≤ 0 := by
  have := h.swap a b
  have := h.swap b a
  omega

theorem lt_of_lt_of_le {a b c : α} (h1 : cmp a b < 0) (h2 : cmp b c ≤ 0) : cmp a c < 0 := by
  by_cases hc : cmp a c < 0
  · exact hc
  · have h3 : cmp c a ≤ 0 := by rw [h.le_iff_ge]; omega
    have h4 := h.trans b c a h2 h3
    have := h.swap a b
    omega

theorem lt_of_le_of_lt {a b c : α} (h1 : cmp a b ≤ 0) (h2 : cmp b c < 0) : cmp a c < 0 := by
  by_cases hc : cmp a c < 0
  · exact hc
  · have h3 : cmp c a ≤ 0 := by rw [h.le_iff_ge]; omega
    have h4 := h.trans c a b h3 h1
    have := h.swap b c
    omega

theorem lt_trans {a b c : α} (h1 : cmp a b < 0) (h2 : cmp b c < 0) : cmp a c < 0 :=
  h.lt_of_lt_of_le h1 (by omega)

theorem eq_trans {a b c : α} (h1 : cmp a b = 0) (h2 : cmp b c = 0) : cmp a c = 0 := by
  have h3 := h.trans a b c (by omega) (by omega)
  have h4 := h.trans c b a (by have := h.eq_symm.1 h2; omega) (by have := h.eq_symm.1 h1; omega)
  have := h.swap a c
  have := h.swap c a
  omega

/-- Comparing with an equal element gives the same sign. -/
theorem congr_left {a b c : α} (h1 : cmp a b = 0) :
    (cmp a c < 0 ↔ cmp b c < 0) ∧ (cmp a c = 0 ↔ cmp b c = 0) ∧ (0 < cmp a c ↔ 0 < cmp b c) := by
  have h1' := h.eq_symm.1 h1
  have lt : cmp a c < 0 ↔ cmp b c < 0 :=
    ⟨fun x => h.lt_of_le_of_lt (by omega) x, fun x => h.lt_of_le_of_lt (by omega) x⟩
  have eq : cmp a c = 0 ↔ cmp b c = 0 := ⟨fun x => h.eq_trans h1' x, fun x => h.eq_trans h1 x⟩
  refine ⟨lt, eq, ?_⟩
  omega

theorem congr_right {a b c : α} (h1 : cmp b c = 0) :
    (cmp a b < 0 ↔ cmp a c < 0) ∧ (cmp a b = 0 ↔ cmp a c = 0) ∧ (0 < cmp a b ↔ 0 < cmp a c) := by
  have := h.congr_left (c := a) h1
  have h1 := h.swap a b
  have h2 := h.swap b a
  have h3 := h.swap a c
  have h4 := h.swap c a
  omega

/-- The reversed comparator is consistent too. -/
theorem reverse : LawfulCmp (fun a b => - cmp a b) where
  swap := fun a b => by have := h.swap b a; omega
  trans := fun a b c h1 h2 => by
    have h1' : cmp b a ≤ 0 := by rw [h.le_iff_ge]; omega
    have h2' : cmp c b ≤ 0 := by rw [h.le_iff_ge]; omega
    have := h.trans c b a h2' h1'
    rw [h.le_iff_ge] at this
    omega

end LawfulCmp

/-- The usual three-way comparison of integers, used as a concrete comparator in examples. -/
def intCmp (a b : Int) : Int := if a = b then 0 else if a < b then -1 else 1

theorem intCmp_lawful : LawfulCmp intCmp where
  swap := fun a b => by unfold intCmp; repeat' split
                        all_goals omega
  trans := fun a b c => by unfold intCmp; repeat' split
                           all_goals omega

end GoSTL
