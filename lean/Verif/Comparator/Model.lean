import Verif.Basic.Cmp
/-!
# Model of `utils/comparator/comparator.go`

Integers are Lean's fixed-width machine integers. A Go string is its list of bytes. A floating-point number is its IEEE 754 bit pattern, with
the comparison rules of IEEE 754 (`Fmt`). As pinned, the file uses `math.IsNaN` without importing `math`, so it does not compile; the model is of
the file with the import.
-/
namespace GoSTL.Comparator

/-- comparator.go:30-38 `OrderedTypeCmp`, and 52-60 `IntComparator`, 67-75 `UintComparator`, 82-90, 97-105, 112-120, 127-135, 142-150, 157-165, 172-180,
187-195 (the other integers), 234-242 `StringComparator`, 249-257 `UintptrComparator`: they all have this body. -/
def threeWay {α : Type} (eq lt : α → α → Bool) (a b : α) : Int :=
  if eq a b then 0 else if lt a b then -1 else 1

/-- The body on a type with a decidable equality and order. -/
def ordCmp {α : Type} [DecidableEq α] [LT α] [DecidableLT α] (a b : α) : Int :=
  threeWay (fun a b => decide (a = b)) (fun a b => decide (a < b)) a b

/-- comparator.go:52-195, 249-257. `int`, `uint` and `uintptr` have 64 bits. -/
def intComparator (a b : Int64) : Int := ordCmp a b
/-- comparator.go:67-75 `UintComparator`. -/
def uintComparator (a b : UInt64) : Int := ordCmp a b
/-- comparator.go:82-90 `Int8Comparator`. -/
def int8Comparator (a b : Int8) : Int := ordCmp a b
/-- comparator.go:97-105 `Uint8Comparator`. -/
def uint8Comparator (a b : UInt8) : Int := ordCmp a b
/-- comparator.go:112-120 `Int16Comparator`. -/
def int16Comparator (a b : Int16) : Int := ordCmp a b
/-- comparator.go:127-135 `Uint16Comparator`. -/
def uint16Comparator (a b : UInt16) : Int := ordCmp a b
/-- comparator.go:142-150 `Int32Comparator`. -/
def int32Comparator (a b : Int32) : Int := ordCmp a b
/-- comparator.go:157-165 `Uint32Comparator`. -/
def uint32Comparator (a b : UInt32) : Int := ordCmp a b
/-- comparator.go:172-180 `Int64Comparator`. -/
def int64Comparator (a b : Int64) : Int := ordCmp a b
/-- comparator.go:187-195 `Uint64Comparator`. -/
def uint64Comparator (a b : UInt64) : Int := ordCmp a b
/-- comparator.go:249-257 `UintptrComparator`. -/
def uintptrComparator (a b : UInt64) : Int := ordCmp a b

/-- Go's `<` of strings: the first different byte decides; a proper prefix is smaller. -/
def strLt : List UInt8 → List UInt8 → Bool
  | _, [] => false
  | [], _ :: _ => true
  | a :: as, b :: bs => decide (a < b) || (decide (a = b) && strLt as bs)

/-- comparator.go:234-242 `StringComparator`. -/
def stringComparator (a b : List UInt8) : Int := threeWay (fun a b => decide (a = b)) strLt a b

/-- comparator.go:264-272 `BoolComparator`. -/
def boolComparator (a b : Bool) : Int := if a = b then 0 else if !a && b then -1 else 1

/-! ## Floating-point numbers -/

/-- An IEEE 754 binary format: the sign is bit number `sign`; the other bits, read as a number, are the magnitude, which is ordered like the absolute
value; magnitudes above that of infinity are NaNs. -/
structure Fmt where
  sign : Nat
  inf : Nat

/-- `float32` -/
def f32 : Fmt := { sign := 31, inf := 0x7f800000 }
/-- `float64` -/
def f64 : Fmt := { sign := 63, inf := 0x7ff0000000000000 }

namespace Fmt
variable (F : Fmt)

/-- The magnitude of a bit pattern. -/
def mag (x : Nat) : Nat := x % 2 ^ F.sign
/-- The sign of a bit pattern. -/
def neg (x : Nat) : Bool := x.testBit F.sign
/-- `math.IsNaN` -/
def isNaN (x : Nat) : Bool := decide (F.inf < F.mag x)
/-- Position in the order of the numbers that are not NaN; both zeros have position 0. -/
def key (x : Nat) : Int := if F.neg x then -(F.mag x : Int) else F.mag x
/-- Go's `==`: false if one is NaN. -/
def eq (x y : Nat) : Bool := !F.isNaN x && !F.isNaN y && decide (F.key x = F.key y)
/-- Go's `<`: false if one is NaN. -/
def lt (x y : Nat) : Bool := !F.isNaN x && !F.isNaN y && decide (F.key x < F.key y)

end Fmt

/-- comparator.go:202-211 `Float32Comparator` and 218-227 `Float64Comparator`. -/
def floatComparator (F : Fmt) (a b : Nat) : Int :=
  if F.eq a b || (F.isNaN a && F.isNaN b) then 0 else if F.lt a b || F.isNaN a then -1 else 1

/-- comparator.go:30-38 `OrderedTypeCmp` on floating-point numbers. -/
def orderedFloatCmp (F : Fmt) (a b : Nat) : Int := threeWay F.eq F.lt a b

/-- A complex number: real and imaginary part. -/
abbrev Cx := Nat × Nat

/-- Go's `==` of complex numbers. -/
def cxEq (F : Fmt) (a b : Cx) : Bool := F.eq a.1 b.1 && F.eq a.2 b.2

/-- comparator.go:279-290 `Complex64Comparator`: line 283 compares `real(a)` with `real(a)`. -/
def complex64Comparator (a b : Cx) : Int :=
  if cxEq f32 a b then 0
  else if f32.lt a.1 a.1 then -1
  else if f32.eq a.1 b.1 && f32.lt a.2 b.2 then -1
  else 1

/-- comparator.go:297-308 `Complex128Comparator`. -/
def complex128Comparator (a b : Cx) : Int :=
  if cxEq f64 a b then 0
  else if f64.lt a.1 b.1 then -1
  else if f64.eq a.1 b.1 && f64.lt a.2 b.2 then -1
  else 1

/-- Go's unary minus on `int` (64 bits): the smallest number has no opposite. -/
def goNeg (x : Int) : Int := if x = -(2 ^ 63) then x else -x

/-- comparator.go:41-45 `Reverse`. -/
def reverse {α : Type} (cmp : α → α → Int) : α → α → Int := fun a b => goNeg (cmp a b)

end GoSTL.Comparator
