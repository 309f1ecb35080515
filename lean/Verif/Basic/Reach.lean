/-!
# What a garbage collector sees

Objects refer to each other by pointers; an object is kept alive by `r` if a chain of pointers leads from `r` to it.
-/
namespace GoSTL

/-- There is a chain of pointers from `r` to `x`. -/
inductive Alive {α : Type} (points : α → α → Prop) (r : α) : α → Prop
  | root : Alive points r r
  | step {x y : α} : Alive points r x → points x y → Alive points r y

/-- What is closed under pointers and contains the root contains everything alive. -/
theorem Alive.closed {α : Type} {points : α → α → Prop} {r : α} {P : α → Prop} (h0 : P r) (hs : ∀ x y, P x → points x y → P y) {x : α} (h : Alive points r x) :
    P x := by
  induction h with
  | root => exact h0
  | step _ hp ih => exact hs _ _ ih hp

theorem Alive.trans {α : Type} {points : α → α → Prop} {r x y : α} (h : Alive points r x) (h' : Alive points x y) : Alive points r y := by
  induction h' with
  | root => exact h
  | step _ hp ih => exact .step ih hp

end GoSTL
