import Verif.Basic.Res
/-!
# More budget never changes a result
-/
namespace GoSTL.Res

/-- `b` is what `a` becomes with more budget. -/
def FLe {α : Type u} (a b : Res α) : Prop := a = .outOfFuel ∨ a = b

theorem FLe.refl {α : Type u} (a : Res α) : FLe a a := .inr rfl
theorem FLe.out {α : Type u} (b : Res α) : FLe .outOfFuel b := .inl rfl

theorem FLe.bind {α β : Type u} {a b : Res α} {f g : α → Res β} (h : FLe a b) (hf : ∀ x, FLe (f x) (g x)) : FLe (a >>= f) (b >>= g) := by
  rcases h with rfl | rfl
  · exact .inl rfl
  · cases a with
    | ok x => exact hf x
    | panic => exact .inr rfl
    | outOfFuel => exact .inl rfl

theorem FLe.ite {α : Type u} {p : Prop} [Decidable p] {a b c d : Res α} (h1 : FLe a b) (h2 : FLe c d) : FLe (if p then a else c) (if p then b else d) := by
  split <;> assumption

theorem FLe.eq_ok {α : Type u} {a b : Res α} (h : FLe a b) {x : α} (ha : a = .ok x) : b = .ok x := by
  rcases h with h | h
  · rw [h] at ha; cases ha
  · rw [← h, ha]

theorem FLe.eq_of_ne {α : Type u} {a b : Res α} (h : FLe a b) (ha : a ≠ .outOfFuel) : a = b := by
  rcases h with h | h
  · exact absurd h ha
  · exact h

end GoSTL.Res
