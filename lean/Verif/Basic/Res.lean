/-!
# Results of Go code

A Go function either returns normally, panics (explicit `panic`, nil dereference, index out of range, ...), or —
when a loop is modelled with a step budget — exhausts that budget. `outOfFuel` never stands for a behaviour of the
program: theorems about terminating code show that it is not reached for large enough budgets, theorems about
non-terminating code show that it is reached for every budget.
-/
namespace GoSTL

/-- How a Go call ends: with a result, with a panic, or not within the step budget of the model. -/
inductive Res (α : Type u) where
  | ok (a : α)
  | panic
  | outOfFuel
  deriving DecidableEq, Repr

namespace Res

/-- One thing after the other. -/
def bind {α : Type u} {β : Type v} : Res α → (α → Res β) → Res β
  | ok a, f => f a
  | panic, _ => panic
  | outOfFuel, _ => outOfFuel

instance : Monad Res where
  pure := ok
  bind := bind

@[simp] theorem pure_eq {α : Type u} (a : α) : (pure a : Res α) = ok a := rfl
@[simp] theorem ok_bind {α β : Type u} (a : α) (f : α → Res β) : ((ok a : Res α) >>= f) = f a := rfl
@[simp] theorem panic_bind {α β : Type u} (f : α → Res β) : ((panic : Res α) >>= f) = panic := rfl
@[simp] theorem outOfFuel_bind {α β : Type u} (f : α → Res β) : ((outOfFuel : Res α) >>= f) = outOfFuel := rfl
@[simp] theorem map_ok {α β : Type u} (f : α → β) (a : α) : f <$> (ok a : Res α) = ok (f a) := rfl
@[simp] theorem map_panic {α β : Type u} (f : α → β) : f <$> (panic : Res α) = panic := rfl

theorem bind_eq_ok {α β : Type u} {x : Res α} {f : α → Res β} {b : β} :
    (x >>= f) = ok b ↔ ∃ a, x = ok a ∧ f a = ok b := by
  cases x <;> simp [Bind.bind, Res.bind]

instance : LawfulMonad Res := LawfulMonad.mk'
  (id_map := fun x => by cases x <;> rfl)
  (pure_bind := fun _ _ => rfl)
  (bind_assoc := fun x _ _ => by cases x <;> rfl)

/-- Turn an optional value (a nil pointer, a missing slice element) into a result that panics on `none`. -/
def ofOption {α : Type u} : Option α → Res α
  | some a => ok a
  | none => panic

@[simp] theorem ofOption_some {α : Type u} (a : α) : ofOption (some a) = ok a := rfl
@[simp] theorem ofOption_none {α : Type u} : ofOption (none : Option α) = panic := rfl

end Res
end GoSTL
