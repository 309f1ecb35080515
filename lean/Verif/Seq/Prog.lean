import Verif.Basic.Res
/-!
# Random-access containers and programs over them

The sorting and searching algorithms only touch a container through the `RandomAccessIterator` interface
(utils/iterator/iterator.go:54-60), whose implementations (ds/vector/iterator.go, ds/array/iterator.go,
ds/slice/iterator.go, ds/deque/iterator.go) are all the same code on top of `Size`/`Len`, `At` and `Set`/`SetAt`.
An algorithm is therefore a program whose only effects are these three calls (`Prog`). It can be run on any container
that offers the three calls (`Ops`), in particular on plain lists (`listOps`); a container is *lawful* when its three
calls act on it like on a list. `run_lawful` transports everything proved about a program on lists to every lawful
container.
-/
namespace GoSTL.Seq

/-- A program over a random-access container of `T`. -/
inductive Prog (T : Type) (α : Type) : Type where
  | ret (a : α)
  | get (i : Int) (k : T → Prog T α)
  | set (i : Int) (v : T) (k : Prog T α)
  | size (k : Int → Prog T α)
  | panic
  | outOfFuel

namespace Prog
variable {T α β : Type}

/-- One program after the other. -/
def bind : Prog T α → (α → Prog T β) → Prog T β
  | ret a, f => f a
  | get i k, f => get i fun x => (k x).bind f
  | set i v k, f => set i v (k.bind f)
  | size k, f => size fun n => (k n).bind f
  | panic, _ => panic
  | outOfFuel, _ => outOfFuel

instance : Monad (Prog T) where
  pure := ret
  bind := bind

/-- A Go panic or a budget overrun inside a program. -/
def ofRes : Res α → Prog T α
  | .ok a => ret a
  | .panic => panic
  | .outOfFuel => outOfFuel

end Prog

/-- The three container calls the iterators use. -/
structure Ops (C T : Type) where
  size : C → Int
  get : C → Int → Res T
  set : C → Int → T → Res C

variable {C T α β : Type}

/-- Running a program on a container. -/
def run (ops : Ops C T) : Prog T α → C → Res (α × C)
  | .ret a, c => .ok (a, c)
  | .get i k, c => do
    let x ← ops.get c i
    run ops (k x) c
  | .set i v k, c => do
    let c ← ops.set c i v
    run ops k c
  | .size k, c => run ops (k (ops.size c)) c
  | .panic, _ => .panic
  | .outOfFuel, _ => .outOfFuel

@[simp] theorem run_pure (ops : Ops C T) (a : α) (c : C) : run ops (pure a) c = .ok (a, c) := rfl
@[simp] theorem run_ret (ops : Ops C T) (a : α) (c : C) : run ops (.ret a) c = .ok (a, c) := rfl

theorem run_bind (ops : Ops C T) (p : Prog T α) (f : α → Prog T β) (c : C) :
    run ops (p >>= f) c = (run ops p c >>= fun r => run ops (f r.1) r.2) := by
  show run ops (p.bind f) c = _
  induction p generalizing c with
  | ret a => rfl
  | get i k ih =>
    simp only [Prog.bind, run]
    cases ops.get c i with
    | ok x => simp [ih]
    | panic => rfl
    | outOfFuel => rfl
  | set i v k ih =>
    simp only [Prog.bind, run]
    cases ops.set c i v with
    | ok x => simp [ih]
    | panic => rfl
    | outOfFuel => rfl
  | size k ih => simp only [Prog.bind, run, ih]
  | panic => rfl
  | outOfFuel => rfl

theorem run_bind_ok {ops : Ops C T} {p : Prog T α} {f : α → Prog T β} {c c' : C} {a : α}
    (h : run ops p c = .ok (a, c')) : run ops (p >>= f) c = run ops (f a) c' := by
  rw [run_bind, h]; rfl

/-! ## Plain lists -/

/-- Element at an integer position. -/
def at? (l : List T) (i : Int) : Option T := if 0 ≤ i then l[i.toNat]? else none

/-- Replace the element at an integer position (no effect outside). -/
def setAt (l : List T) (i : Int) (v : T) : List T := if 0 ≤ i then l.set i.toNat v else l

/-- The three calls on a plain list: reading outside panics, writing outside does nothing. -/
def listOps : Ops (List T) T where
  size l := l.length
  get l i := Res.ofOption (at? l i)
  set l i v := .ok (setAt l i v)

/-- A container whose three calls act on the list `abs c` it represents, while its invariant holds. -/
structure Lawful (ops : Ops C T) (Inv : C → Prop) (abs : C → List T) : Prop where
  size : ∀ c, Inv c → ops.size c = (abs c).length
  get : ∀ c i, Inv c → ops.get c i = Res.ofOption (at? (abs c) i)
  set : ∀ c i v, Inv c → ∃ c', ops.set c i v = .ok c' ∧ Inv c' ∧ abs c' = setAt (abs c) i v

/-- How a result on a container relates to a result on the represented list. -/
def Rel (Inv : C → Prop) (abs : C → List T) : Res (α × C) → Res (α × List T) → Prop
  | .ok (a, c), .ok (b, l) => a = b ∧ Inv c ∧ abs c = l
  | .panic, .panic => True
  | .outOfFuel, .outOfFuel => True
  | _, _ => False

/-- Every program behaves on a lawful container as on the list it represents. -/
theorem run_lawful {ops : Ops C T} {Inv : C → Prop} {abs : C → List T} (hl : Lawful ops Inv abs) (p : Prog T α) (c : C)
    (hc : Inv c) : Rel Inv abs (run ops p c) (run listOps p (abs c)) := by
  induction p generalizing c with
  | ret a => exact ⟨rfl, hc, rfl⟩
  | get i k ih =>
    simp only [run, listOps, hl.get c i hc]
    cases at? (abs c) i with
    | none => trivial
    | some x => exact ih x c hc
  | set i v k ih =>
    obtain ⟨c', e, h1, h2⟩ := hl.set c i v hc
    simp only [run, e, Res.ok_bind, listOps, ← h2]
    exact ih c' h1
  | size k ih =>
    simp only [run, hl.size c hc, listOps]
    exact ih _ c hc
  | panic => trivial
  | outOfFuel => trivial

theorem run_lawful_ok {ops : Ops C T} {Inv : C → Prop} {abs : C → List T} (hl : Lawful ops Inv abs) {p : Prog T α} {c : C}
    (hc : Inv c) {a : α} {l : List T} (h : run listOps p (abs c) = .ok (a, l)) :
    ∃ c', run ops p c = .ok (a, c') ∧ Inv c' ∧ abs c' = l := by
  have := run_lawful hl p c hc
  rw [h] at this
  cases hr : run ops p c with
  | ok r =>
    obtain ⟨b, c'⟩ := r
    rw [hr] at this
    obtain ⟨rfl, h1, h2⟩ := this
    exact ⟨c', rfl, h1, h2⟩
  | panic => rw [hr] at this; exact this.elim
  | outOfFuel => rw [hr] at this; exact this.elim

theorem run_lawful_panic {ops : Ops C T} {Inv : C → Prop} {abs : C → List T} (hl : Lawful ops Inv abs) {p : Prog T α} {c : C}
    (hc : Inv c) (h : run listOps p (abs c) = .panic) : run ops p c = .panic := by
  have := run_lawful hl p c hc
  rw [h] at this
  cases hr : run ops p c <;> rw [hr] at this <;> first | rfl | exact this.elim

theorem run_lawful_fuel {ops : Ops C T} {Inv : C → Prop} {abs : C → List T} (hl : Lawful ops Inv abs) {p : Prog T α} {c : C}
    (hc : Inv c) (h : run listOps p (abs c) = .outOfFuel) : run ops p c = .outOfFuel := by
  have := run_lawful hl p c hc
  rw [h] at this
  cases hr : run ops p c <;> rw [hr] at this <;> first | rfl | exact this.elim

/-- Plain lists are lawful. -/
theorem listOps_lawful : Lawful (listOps : Ops (List T) T) (fun _ => True) id where
  size _ _ := rfl
  get _ _ _ := rfl
  set _ _ _ _ := ⟨_, rfl, trivial, rfl⟩

/-! ## The iterators -/

/-- `Value` (vector/iterator.go:28-31, array/iterator.go:28-30, slice/iterator.go:28-30, deque/iterator.go:27-29). -/
def value (pos : Int) : Prog T T := .get pos .ret

/-- `SetValue` (vector/iterator.go:34-36, array/iterator.go:33-35, slice/iterator.go:33-35, deque/iterator.go:32-34). -/
def setValue (pos : Int) (v : T) : Prog T Unit := .set pos v (.ret ())

/-- `Size` of the container, as used by `IsValid` and `Next`. -/
def csize : Prog T Int := .size .ret

/-- `IsValid` (vector/iterator.go:20-25 and the same code in array, slice, deque). -/
def isValid (pos : Int) : Prog T Bool := do
  let n ← csize
  pure (decide (pos ≥ 0) && decide (pos < n))

/-- `Next` (vector/iterator.go:39-44 and the same code in array, slice, deque): the new position. -/
def next (pos : Int) : Prog T Int := do
  let n ← csize
  pure (if pos < n then pos + 1 else pos)

/-- `Prev` (vector/iterator.go:47-52 and the same code in array, slice, deque): the new position. -/
def prev (pos : Int) : Prog T Int := pure (if pos ≥ 0 then pos - 1 else pos)

end GoSTL.Seq
