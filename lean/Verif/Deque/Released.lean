import Verif.Deque.Props
/-!
# C93 for deques: what the segments keep
-/
namespace GoSTL.Deque

variable {T : Type}

/-- The deque keeps `x` alive: `x` is stored in a segment that its table or its pool points to. -/
def Retains (d : Deq T) (x : T) : Prop := ∃ id s, (some id ∈ d.segs ∨ id ∈ d.pool) ∧ d.heap[id]? = some s ∧ x ∈ s.data

/-- **C93 violated** Popping does not clear the slot: after `PushBack(a)`, `PushBack(b)`, `PopFront()` the deque holds `b`
alone and still keeps `a` alive, and likewise with `PopBack` and `b`. -/
theorem C93_deque_violated (zero a b : T) :
    (∃ d, run (goCfg zero) [.pushBack a, .pushBack b, .popFront] new = .ok ([.unit, .unit, .val a], d) ∧ d.size = 1 ∧ Retains d a) ∧
    (∃ d, run (goCfg zero) [.pushBack a, .pushBack b, .popBack] new = .ok ([.unit, .unit, .val b], d) ∧ d.size = 1 ∧ Retains d b) := by
  constructor <;> simp [Retains, run, step, pushBack, popFront, popBack, lastAvailableSegment, lastSegment, nilOrFull, growIfFull, expand, segUsed, copySegs, addLast, poolGet, upd, nextIndex, preIndex,
    modG, Seg.new, Seg.pushBack, Seg.popFront, Seg.popBack, Seg.full, Seg.nextIndex, Seg.preIndex, Seg.capacity, Seg.size, load, store, idx, goCfg, new, Res.ofOption, shrinkIfNeeded]

set_option maxRecDepth 40000 in
/-- Non-vacuity: with 5 and 6, the popped 5 is kept although it is not an element any more. -/
example : ∃ d : Deq Nat, size d = 1 ∧ at_ (goCfg 0) d 0 = .ok 6 ∧ Retains d 5 := by
  obtain ⟨d, e, h1, h2⟩ := (C93_deque_violated 0 5 6).1
  refine ⟨d, h1, ?_, h2⟩
  have h0 : ∃ d : Deq Nat, run (goCfg 0) [.pushBack 5, .pushBack 6, .popFront] new = .ok ([.unit, .unit, .val 5], d) ∧ at_ (goCfg 0) d 0 = .ok 6 := ⟨_, rfl, rfl⟩
  obtain ⟨d', e', h'⟩ := h0
  rw [e] at e'; cases e'; exact h'

end GoSTL.Deque
