import Verif.Seq.Prog
import Mathlib.Logic.Function.Basic
/-!
# Iterators as objects

In Go an iterator is a pointer to a cursor: `Next` and `Prev` move the object they are called on and return it, `Clone` and `IteratorAt` make new objects.
In `Seq` and `Algo` an iterator is a value, its position. Here the algorithms of `algorithm` and `algorithm/sort` are modelled once more, on iterator
objects, so that it can be said which object a call moves, and which object it returns.

`Cur` is the memory that holds the cursors; a handle (a Go pointer to an iterator) is a number. All iterators of a call belong to one container.
-/
namespace GoSTL.Obj
open GoSTL.Seq

/-- The iterator objects made so far: their number, and where each one stands. -/
structure Cur (I : Type) where
  n : Nat
  pos : Nat → I

/-- A handle. -/
scoped macro "Han" : term => `(Nat)

namespace Cur
variable {I : Type}

/-- Make an iterator object. -/
def push (cs : Cur I) (p : I) : Cur I := ⟨cs.n + 1, Function.update cs.pos cs.n p⟩

/-- Move an iterator object. -/
def move (cs : Cur I) (h : Han) (p : I) : Cur I := ⟨cs.n, Function.update cs.pos h p⟩

/-- The objects that exist in `cs` still stand in `cs'` where they stood, and none is gone. -/
def Keeps (cs cs' : Cur I) : Prop := cs.n ≤ cs'.n ∧ ∀ h < cs.n, cs'.pos h = cs.pos h

theorem Keeps.refl (cs : Cur I) : cs.Keeps cs := ⟨Nat.le_refl _, fun _ _ => rfl⟩
theorem Keeps.trans {a b c : Cur I} (h : a.Keeps b) (h' : b.Keeps c) : a.Keeps c :=
  ⟨Nat.le_trans h.1 h'.1, fun x hx => (h'.2 x (Nat.lt_of_lt_of_le hx h.1)).trans (h.2 x hx)⟩
theorem Keeps.push (cs : Cur I) (p : I) : cs.Keeps (cs.push p) := ⟨Nat.le_succ _, fun h hh => by simp [Cur.push, Function.update_of_ne (Nat.ne_of_lt hh)]⟩

end Cur

/-- A program over a random-access container whose iterators are objects. -/
abbrev OProg (T α : Type) := StateT (Cur Int) (Prog T) α

variable {T α β γ : Type}

/-- `Position` (vector/iterator.go:64-66, array/iterator.go:63-65, slice/iterator.go:62-64, deque/iterator.go:63-65). -/
def position (h : Han) : OProg T Int := fun cs => .ret (cs.pos h, cs)

/-- `IteratorAt` (vector/iterator.go:59-61, array/iterator.go:58-60, slice/iterator.go:57-59, deque/iterator.go:58-60): a new object on the same container. -/
def iteratorAt (_ : Han) (p : Int) : OProg T Han := fun cs => .ret (cs.n, cs.push p)

/-- `Clone` (vector/iterator.go:54-56, array/iterator.go:53-55, slice/iterator.go:52-54, deque/iterator.go:53-55): a new object at the same position. -/
def clone (h : Han) : OProg T Han := fun cs => .ret (cs.n, cs.push (cs.pos h))

/-- `Value`. -/
def valueO (h : Han) : OProg T T := fun cs => (value (cs.pos h)).bind fun x => .ret (x, cs)

/-- `SetValue`. -/
def setValueO (h : Han) (v : T) : OProg T Unit := fun cs => (setValue (cs.pos h) v).bind fun _ => .ret ((), cs)

/-- `IsValid`. -/
def isValidO (h : Han) : OProg T Bool := fun cs => (isValid (cs.pos h)).bind fun b => .ret (b, cs)

/-- `Next` moves the object and returns it (vector/iterator.go:39-44 and the same code in array, slice, deque). -/
def nextO (h : Han) : OProg T Han := fun cs => (next (cs.pos h)).bind fun p => .ret (h, cs.move h p)

/-- `Prev` moves the object and returns it (vector/iterator.go:47-52 and the same code in array, slice, deque). -/
def prevO (h : Han) : OProg T Han := fun cs => (prev (cs.pos h)).bind fun p => .ret (h, cs.move h p)

/-- `Equal` of two iterators of the same container (vector/iterator.go:69-78 and the same code in array, slice, deque): they stand at the same position. -/
def equalO (h h' : Han) : OProg T Bool := fun cs => .ret (decide (cs.pos h' = cs.pos h), cs)

/-- A Go panic. -/
def panicO : OProg T α := fun _ => .panic

/-- The budget is used up. -/
def fuelO : OProg T α := fun _ => .outOfFuel

/-! ## Two programs that do the same to the container -/

/-- `p` and `q` make the same calls to the container, and if they return then with related values. -/
inductive Sim (R : α → β → Prop) : Prog T α → Prog T β → Prop
  | ret {a b} : R a b → Sim R (.ret a) (.ret b)
  | get {i k k'} : (∀ x, Sim R (k x) (k' x)) → Sim R (.get i k) (.get i k')
  | set {i v k k'} : Sim R k k' → Sim R (.set i v k) (.set i v k')
  | size {k k'} : (∀ n, Sim R (k n) (k' n)) → Sim R (.size k) (.size k')
  | panic : Sim R .panic .panic
  | outOfFuel : Sim R .outOfFuel .outOfFuel

theorem Sim.mono {R R' : α → β → Prop} (h : ∀ a b, R a b → R' a b) {p : Prog T α} {q : Prog T β} (s : Sim R p q) : Sim R' p q := by
  induction s with
  | ret r => exact .ret (h _ _ r)
  | get _ ih => exact .get ih
  | set _ ih => exact .set ih
  | size _ ih => exact .size ih
  | panic => exact .panic
  | outOfFuel => exact .outOfFuel

theorem Sim.bind {δ : Type} {R : α → β → Prop} {R' : γ → δ → Prop} {p : Prog T α} {q : Prog T β} (s : Sim R p q) {f : α → Prog T γ} {g : β → Prog T δ}
    (h : ∀ a b, R a b → Sim R' (f a) (g b)) : Sim R' (p.bind f) (q.bind g) := by
  induction s with
  | ret r => exact h _ _ r
  | get _ ih => exact .get ih
  | set _ ih => exact .set ih
  | size _ ih => exact .size ih
  | panic => exact .panic
  | outOfFuel => exact .outOfFuel

/-- Something silent follows on the left. -/
theorem Sim.tail {R : α → β → Prop} {R' : γ → β → Prop} {p : Prog T α} {q : Prog T β} (s : Sim R p q) {f : α → Prog T γ}
    (h : ∀ a b, R a b → Sim R' (f a) (.ret b)) : Sim R' (p.bind f) q := by
  induction s with
  | ret r => exact h _ _ r
  | get _ ih => exact .get ih
  | set _ ih => exact .set ih
  | size _ ih => exact .size ih
  | panic => exact .panic
  | outOfFuel => exact .outOfFuel

/-- How the outcomes of two such programs are related. -/
def SimRes {C : Type} (R : α → β → Prop) : Res (α × C) → Res (β × C) → Prop
  | .ok (a, c), .ok (b, c') => R a b ∧ c = c'
  | .panic, .panic => True
  | .outOfFuel, .outOfFuel => True
  | _, _ => False

theorem Sim.run {C : Type} {R : α → β → Prop} {p : Prog T α} {q : Prog T β} (s : Sim R p q) (ops : Ops C T) (c : C) :
    SimRes R (Seq.run ops p c) (Seq.run ops q c) := by
  induction s generalizing c with
  | ret r => exact ⟨r, rfl⟩
  | @get i k k' _ ih =>
    simp only [Seq.run]
    cases ops.get c i with
    | ok x => exact ih x c
    | panic => trivial
    | outOfFuel => trivial
  | @set i v k k' _ ih =>
    simp only [Seq.run]
    cases ops.set c i v with
    | ok c => exact ih c
    | panic => trivial
    | outOfFuel => trivial
  | size _ ih => exact ih _ c
  | panic => trivial
  | outOfFuel => trivial

/-- `p`, started with the cursors `cs`, makes the calls that `q` makes; afterwards `R`. -/
def SimS (R : α → Cur Int → β → Prop) (p : OProg T α) (cs : Cur Int) (q : Prog T β) : Prop := Sim (fun r b => R r.1 r.2 b) (p cs) q

variable {δ : Type} {R : α → Cur Int → β → Prop} {R' : γ → Cur Int → δ → Prop} {cs : Cur Int}

theorem SimS.mono {R R' : α → Cur Int → β → Prop} {p : OProg T α} {q : Prog T β} (s : SimS R p cs q) (h : ∀ a cs' b, R a cs' b → R' a cs' b) : SimS R' p cs q :=
  Sim.mono (fun _ _ r => h _ _ _ r) s

theorem SimS.bind {p : OProg T α} {q : Prog T β} {f : α → OProg T γ} {g : β → Prog T δ} (s : SimS R p cs q)
    (h : ∀ a cs' b, R a cs' b → SimS R' (f a) cs' (g b)) : SimS R' (p >>= f) cs (q >>= g) :=
  Sim.bind s fun _ _ r => h _ _ _ r

theorem SimS.tail {R' : γ → Cur Int → β → Prop} {p : OProg T α} {q : Prog T β} {f : α → OProg T γ} (s : SimS R p cs q)
    (h : ∀ a cs' b, R a cs' b → SimS R' (f a) cs' (.ret b)) : SimS R' (p >>= f) cs q :=
  Sim.tail s fun _ _ r => h _ _ _ r

theorem SimS.pure {a : γ} {b : δ} (h : R' a cs b) : SimS R' (pure a : OProg T γ) cs (pure b) := .ret h
theorem SimS.fuel : SimS R' (fuelO : OProg T γ) cs (.outOfFuel : Prog T δ) := Sim.outOfFuel
theorem SimS.panic : SimS R' (panicO : OProg T γ) cs (.panic : Prog T δ) := Sim.panic

theorem SimS.position {h : Han} {f : Int → OProg T γ} {q : Prog T δ} (s : SimS R' (f (cs.pos h)) cs q) : SimS R' (position h >>= f) cs q := s
theorem SimS.posIs {h : Han} {p : Int} (e : cs.pos h = p) {f : Int → OProg T γ} {q : Prog T δ} (s : SimS R' (f p) cs q) : SimS R' (Obj.position h >>= f) cs q := by
  subst e; exact s
theorem SimS.iteratorAt {h : Han} {p : Int} {f : Han → OProg T γ} {q : Prog T δ} (s : SimS R' (f cs.n) (cs.push p) q) : SimS R' (iteratorAt h p >>= f) cs q := s
theorem SimS.clone {h : Han} {f : Han → OProg T γ} {q : Prog T δ} (s : SimS R' (f cs.n) (cs.push (cs.pos h)) q) : SimS R' (clone h >>= f) cs q := s
theorem SimS.equal {h h' : Han} {f : Bool → OProg T γ} {q : Prog T δ} (s : SimS R' (f (decide (cs.pos h' = cs.pos h))) cs q) : SimS R' (equalO h h' >>= f) cs q := s
theorem SimS.value {h : Han} {p : Int} (e : cs.pos h = p) {f : T → OProg T γ} {g : T → Prog T δ} (s : ∀ x, SimS R' (f x) cs (g x)) :
    SimS R' (valueO h >>= f) cs (value p >>= g) := by subst e; exact .get s
theorem SimS.setValue {h : Han} {p : Int} (e : cs.pos h = p) {v : T} {f : Unit → OProg T γ} {g : Unit → Prog T δ} (s : SimS R' (f ()) cs (g ())) :
    SimS R' (setValueO h v >>= f) cs (setValue p v >>= g) := by subst e; exact .set s
theorem SimS.isValid {h : Han} {p : Int} (e : cs.pos h = p) {f : Bool → OProg T γ} {g : Bool → Prog T δ} (s : ∀ b, SimS R' (f b) cs (g b)) :
    SimS R' (isValidO h >>= f) cs (isValid p >>= g) := by subst e; exact .size fun _ => s _
theorem SimS.next {h : Han} {p : Int} (e : cs.pos h = p) {f : Han → OProg T γ} {g : Int → Prog T δ} (s : ∀ p', SimS R' (f h) (cs.move h p') (g p')) :
    SimS R' (nextO h >>= f) cs (next p >>= g) := by subst e; exact .size fun _ => s _
theorem SimS.prev {h : Han} {p : Int} (e : cs.pos h = p) {f : Han → OProg T γ} {g : Int → Prog T δ} (s : ∀ p', SimS R' (f h) (cs.move h p') (g p')) :
    SimS R' (prevO h >>= f) cs (prev p >>= g) := by subst e; exact s _

/-- What a successful run shows. -/
theorem SimS.run_ok {C : Type} {p : OProg T α} {q : Prog T β} (s : SimS R p cs q) {ops : Ops C T} {c c' : C} {b : β} (h : Seq.run ops q c = .ok (b, c')) :
    ∃ a cs', Seq.run ops (p cs) c = .ok ((a, cs'), c') ∧ R a cs' b := by
  have := Sim.run s ops c
  rw [h] at this
  generalize Seq.run ops (p cs) c = r at this
  match r, this with
  | .ok ((a, cs'), c''), ⟨h1, h2⟩ => exact ⟨a, cs', by rw [h2], h1⟩

theorem SimS.run_panic {C : Type} {p : OProg T α} {q : Prog T β} (s : SimS R p cs q) {ops : Ops C T} {c : C} (h : Seq.run ops q c = .panic) :
    Seq.run ops (p cs) c = .panic := by
  have := Sim.run s ops c
  rw [h] at this
  generalize Seq.run ops (p cs) c = r at this
  match r, this with
  | .panic, _ => rfl

theorem SimS.run_fuel {C : Type} {p : OProg T α} {q : Prog T β} (s : SimS R p cs q) {ops : Ops C T} {c : C} (h : Seq.run ops q c = .outOfFuel) :
    Seq.run ops (p cs) c = .outOfFuel := by
  have := Sim.run s ops c
  rw [h] at this
  generalize Seq.run ops (p cs) c = r at this
  match r, this with
  | .outOfFuel, _ => rfl

end GoSTL.Obj
