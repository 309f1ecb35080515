import Verif.Basic.Res
import Verif.Comparator.Model
/-!
# Model of `ds/pair/pair.go`: pairs of `any` values

The components of a `Pair` are interface values, so `Equal` is Go's `==` on interfaces: the dynamic types are compared first, then, if that type is
comparable, the values; comparing two values of one uncomparable type (a slice, a map, a function, or a struct or array containing one) panics.
-/
namespace GoSTL.Pair
open GoSTL.Comparator (Fmt f32 f64)

deriving instance DecidableEq for Fmt

/-- Go types, as far as `==` is concerned. `id` is the identity of the type (two defined types are different even if their values look the same).
* `word`: booleans, integers, strings, pointers, channels: `==` compares the representation.
* `flt`: `float32` and `float64`. A complex number is a `pair` of two of them.
* `ref`: slices, maps, functions: not comparable.
* `any`: an interface type (as a field of a struct, or an element of an array).
* `unit` and `pair`: structs and arrays, field by field. -/
inductive Ty where
  | word (id : Nat)
  | flt (id : Nat) (F : Fmt)
  | ref (id : Nat)
  | any (id : Nat)
  | unit (id : Nat)
  | pair (id : Nat) (a b : Ty)
  deriving DecidableEq

/-- Go values. `word` carries the representation (for a string its bytes), `flt` the IEEE 754 bits, `ref` an address; `inil` is a nil interface and
`ibox t v` an interface that holds the value `v` of the dynamic type `t`. -/
inductive Val where
  | word (bits : List Nat)
  | flt (bits : Nat)
  | ref (addr : Nat)
  | inil
  | ibox (t : Ty) (v : Val)
  | unit
  | pair (a b : Val)
  deriving DecidableEq

/-- Go specification, "Comparison operators": which types are comparable. Whether an interface holds a comparable value is seen only at run time. -/
def Ty.comparable : Ty → Bool
  | .word _ => true
  | .flt _ _ => true
  | .ref _ => false
  | .any _ => true
  | .unit _ => true
  | .pair _ a b => a.comparable && b.comparable

/-- Go specification, "Comparison operators": `v == w` for two values of type `t`. The fields of structs and the elements of arrays are compared in order up to
the first difference. -/
def eqVal : Ty → Val → Val → Res Bool
  | .word _, .word x, .word y => .ok (decide (x = y))
  | .flt _ F, .flt x, .flt y => .ok (F.eq x y)
  | .ref _, .ref _, .ref _ => .panic
  | .any _, .inil, .inil => .ok true
  | .any _, .ibox t v, .ibox u w => if t = u then (if t.comparable then eqVal t v w else .panic) else .ok false
  | .unit _, .unit, .unit => .ok true
  | .pair _ a b, .pair x1 x2, .pair y1 y2 => do
    let r ← eqVal a x1 y1
    if r then eqVal b x2 y2 else pure false
  | _, _, _ => .ok false

/-- The type `any`. -/
def anyTy : Ty := .any 0

/-- pair.go:3-6 `Pair`: two values of type `any`. -/
structure Pair where
  front : Val
  back : Val
  deriving DecidableEq

/-- pair.go:8-10 `MakePair`. -/
def makePair (front back : Val) : Pair := { front := front, back := back }

/-- pair.go:12-15 `New`: overwrites both components. -/
def new (p : Pair) (front back : Val) : Pair :=
  let p := { p with front := front }
  { p with back := back }

/-- pair.go:17-19 `Equal`: `&&` does not evaluate the second comparison if the first is false. -/
def equal (p q : Pair) : Res Bool := do
  let r ← eqVal anyTy p.front q.front
  if r then eqVal anyTy p.back q.back else pure false

/-- pair.go:21-23 `Fronts`. -/
def fronts (p : Pair) : Val := p.front

/-- pair.go:25-27 `Backs`. -/
def backs (p : Pair) : Val := p.back

end GoSTL.Pair
