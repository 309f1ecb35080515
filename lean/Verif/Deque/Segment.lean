import Verif.Basic.Res
import Verif.Seq.Prog
import Mathlib.Tactic.Common
/-!
# Model of `ds/deque/segment.go` and its meaning

A segment is a ring of fixed capacity. Ring indices are natural numbers (they are always results of `%`); positions and
sizes are integers as in Go. `SegRep K s l` says that segment `s` of capacity `K` holds the list `l`.
-/
namespace GoSTL.Deque

/-- Go slice read `l[i]`. -/
def idx {α : Type} (l : List α) (i : Nat) : Res α := Res.ofOption l[i]?
/-- Go slice write `l[i] = v`. -/
def upd {α : Type} (l : List α) (i : Nat) (v : α) : Res (List α) := if i < l.length then .ok (l.set i v) else .panic
/-- Go `a % c` for non-negative `a`. -/
def modG (a c : Nat) : Res Nat := if c = 0 then .panic else .ok (a % c)

/-- segment.go:4-9. -/
structure Seg (T : Type) where
  data : List T
  begin_ : Nat
  end_ : Nat
  nSize : Int

namespace Seg
variable {T : Type}

/-- segment.go:11-15 `newSegment`. -/
def new (zero : T) (capacity : Nat) : Seg T := { data := List.replicate capacity zero, begin_ := 0, end_ := 0, nSize := 0 }
/-- segment.go:89-91 `size`. -/
abbrev size (s : Seg T) : Int := s.nSize
/-- segment.go:93-95 `capacity`. -/
abbrev capacity (s : Seg T) : Nat := s.data.length
/-- segment.go:97-99 `full`. -/
def full (s : Seg T) : Bool := decide (s.nSize = (s.data.length : Int))
/-- segment.go:101-103 `empty`. -/
def empty (s : Seg T) : Bool := decide (s.nSize = 0)
/-- segment.go:105-107 `nextIndex`. -/
def nextIndex (s : Seg T) (index : Nat) : Res Nat := modG (index + 1) s.capacity
/-- segment.go:109-111 `preIndex` (`index - 1 + capacity`, written without negative intermediate). -/
def preIndex (s : Seg T) (index : Nat) : Res Nat := modG (index + s.capacity - 1) s.capacity

/-- segment.go:17-21 `pushBack`. -/
def pushBack (s : Seg T) (value : T) : Res (Seg T) := do
  let data ← upd s.data s.end_ value
  let s := { s with data := data }
  let e ← s.nextIndex s.end_
  .ok { s with end_ := e, nSize := s.nSize + 1 }

/-- segment.go:23-27 `pushFront`. -/
def pushFront (s : Seg T) (val : T) : Res (Seg T) := do
  let b ← s.preIndex s.begin_
  let data ← upd s.data b val
  .ok { s with begin_ := b, data := data, nSize := s.nSize + 1 }

/-- segment.go:33-36, the loop moving the front part: `n` rounds. -/
def insFrontLoop : Nat → Nat → Seg T → Res (Nat × Seg T)
  | 0, i, s => .ok (i, s)
  | n + 1, i, s => do
    let j ← s.nextIndex i
    let x ← idx s.data j
    let data ← upd s.data i x
    let s := { s with data := data }
    let j ← s.nextIndex i
    insFrontLoop n j s

/-- segment.go:42-45, the loop moving the back part: `n` rounds. -/
def insBackLoop : Nat → Nat → Seg T → Res (Nat × Seg T)
  | 0, i, s => .ok (i, s)
  | n + 1, i, s => do
    let j ← s.preIndex i
    let x ← idx s.data j
    let data ← upd s.data i x
    let s := { s with data := data }
    let j ← s.preIndex i
    insBackLoop n j s

/-- segment.go:29-50 `insert`. -/
def insert (s : Seg T) (position : Int) (value : T) : Res (Seg T) :=
  if position < s.nSize - position then do
    let i ← s.preIndex s.begin_
    let (i, s) ← insFrontLoop position.toNat i s
    let data ← upd s.data i value
    let s := { s with data := data }
    let b ← s.preIndex s.begin_
    .ok { s with begin_ := b, nSize := s.nSize + 1 }
  else do
    let i := s.end_
    let (i, s) ← insBackLoop (s.nSize - position).toNat i s
    let data ← upd s.data i value
    let s := { s with data := data }
    let e ← s.nextIndex s.end_
    .ok { s with end_ := e, nSize := s.nSize + 1 }

/-- segment.go:52-58 `popBack`. -/
def popBack (s : Seg T) : Res (T × Seg T) := do
  let e ← s.preIndex s.end_
  let val ← idx s.data e
  .ok (val, { s with end_ := e, nSize := s.nSize - 1 })

/-- segment.go:60-66 `popFront`. -/
def popFront (s : Seg T) : Res (T × Seg T) := do
  let val ← idx s.data s.begin_
  let b ← s.nextIndex s.begin_
  .ok (val, { s with begin_ := b, nSize := s.nSize - 1 })

/-- segment.go:70-74, the loop of `eraseAt` moving the front part; `i` rounds remain. -/
def eraseFrontLoop : Nat → Seg T → Res (Seg T)
  | 0, s => .ok s
  | i + 1, s => do
    let index ← modG (i + 1 + s.begin_) s.capacity
    let preIndex ← modG (i + s.begin_) s.capacity
    let x ← idx s.data preIndex
    let data ← upd s.data index x
    eraseFrontLoop i { s with data := data }

/-- segment.go:78-82, the loop of `eraseAt` moving the back part: `n` rounds from `i`. -/
def eraseBackLoop : Nat → Nat → Seg T → Res (Seg T)
  | 0, _, s => .ok s
  | n + 1, i, s => do
    let index ← modG (i + s.begin_) s.capacity
    let nextIndex ← modG (i + 1 + s.begin_) s.capacity
    let x ← idx s.data nextIndex
    let data ← upd s.data index x
    eraseBackLoop n (i + 1) { s with data := data }

/-- segment.go:68-87 `eraseAt` (the position is never negative). -/
def eraseAt (s : Seg T) (position : Int) : Res (Seg T) :=
  if position < s.nSize - position then do
    let s ← eraseFrontLoop position.toNat s
    let b ← s.nextIndex s.begin_
    .ok { s with begin_ := b, nSize := s.nSize - 1 }
  else do
    let s ← eraseBackLoop (s.nSize - position).toNat position.toNat s
    let e ← s.preIndex s.end_
    .ok { s with end_ := e, nSize := s.nSize - 1 }

/-- segment.go:113-119 `at`. -/
def at_ (s : Seg T) (position : Int) : Res T :=
  if position < 0 ∨ position ≥ s.nSize then .panic else do
  let i ← modG (position.toNat + s.begin_) s.capacity
  idx s.data i

/-- segment.go:121-126 `set`. -/
def set (s : Seg T) (position : Int) (val : T) : Res (Seg T) :=
  if position < 0 ∨ position ≥ (s.data.length : Int) then .ok s else do
  let i ← modG (position.toNat + s.begin_) s.capacity
  let data ← upd s.data i val
  .ok { s with data := data }

/-- segment.go:128-130 `back`. -/
def back (s : Seg T) : Res T := s.at_ (s.nSize - 1)
/-- segment.go:132-134 `front`. -/
def front (s : Seg T) : Res T := s.at_ 0
/-- segment.go:136-145 `clear`; the loop there has an empty body and is left out (indices stay below the capacity, so it ends). -/
def clear (s : Seg T) : Seg T := { s with begin_ := 0, end_ := 0, nSize := 0 }

end Seg

/-! ## Meaning -/

/-- Position `i` of a ring of capacity `K` starting at `b`. -/
def ring (K b i : Nat) : Nat := if b + i < K then b + i else b + i - K

theorem modG_ring {K a : Nat} (hK : 0 < K) (h : a < 2 * K) : modG a K = .ok (if a < K then a else a - K) := by
  unfold modG
  rw [if_neg (by omega)]
  split
  · next c => rw [Nat.mod_eq_of_lt c]
  · next c => rw [Nat.mod_eq_sub_mod (by omega), Nat.mod_eq_of_lt (by omega)]

/-- Segment `s` of capacity `K` holds the list `l`. -/
structure SegRep {T : Type} (K : Nat) (s : Seg T) (l : List T) : Prop where
  pos : 0 < K
  len : s.data.length = K
  size : s.nSize = l.length
  le : l.length ≤ K
  beg : s.begin_ < K
  end_ : s.end_ = ring K s.begin_ l.length
  vals : ∀ i, i < l.length → s.data[ring K s.begin_ i]? = l[i]?

end GoSTL.Deque
