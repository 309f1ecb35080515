import Verif.Vector.Proofs
import Verif.Seq.Iter
/-!
# Model of `ds/slice/slice_wrapper.go` and `ds/slice/iterator.go`: C16, C17

A `SliceWrapper` object is the header of the wrapped slice. The wrapped slice stays shared with its owner: writing through
the wrapper writes the owner's backing array, which is what makes in-place algorithms useful.
-/
namespace GoSTL.SliceWrap
open GoSTL.GoSlice

variable {T : Type}

/-- slice_wrapper.go:9-13 `NewSliceWrapper`. -/
def new (slice : Slice) : Slice := slice
/-- slice_wrapper.go:16-18 `Attach`. -/
def attach (_ newSlice : Slice) : Slice := newSlice
/-- slice_wrapper.go:21-23 `Len`. -/
abbrev len (s : Slice) : Int := s.len
/-- slice_wrapper.go:26-31 `At`. -/
def at_ (m : Mem T) (s : Slice) (position : Int) : Res T :=
  if position < 0 ∨ position ≥ len s then .panic else read m s position
/-- slice_wrapper.go:34-39 `Set`. -/
def set (m : Mem T) (s : Slice) (position : Int) (val : T) : Res (Mem T) :=
  if position < 0 ∨ position ≥ len s then .ok m else write m s position val
/-- slice_wrapper.go:54-58 `First` (and 42-44 `Begin`): the position. -/
def firstPos : Int := 0
/-- slice_wrapper.go:47-51 `End`: the position. -/
def endPos (s : Slice) : Int := len s
/-- slice_wrapper.go:61-65 `Last`: the position is `s.Len()`, the same as `End`. -/
def lastPos (s : Slice) : Int := len s

/-- The calls the iterator makes (slice/iterator.go). -/
def ops : Seq.Ops (Mem T × Slice) T where
  size c := len c.2
  get c i := at_ c.1 c.2 i
  set c i v := do let m ← set c.1 c.2 i v; .ok (m, c.2)

theorem at_spec {m : Mem T} {s : Slice} (h : WF m s) (p : Int) : at_ m s p = Res.ofOption (Seq.at? (contents m s) p) :=
  Vector.at_spec h p

/-- A slice wrapper is a lawful random-access container: all algorithm theorems (C18–C25) and C16 apply to it. -/
theorem ops_lawful : Seq.Lawful (ops : Seq.Ops (Mem T × Slice) T) (fun c => WF c.1 c.2) (fun c => contents c.1 c.2) where
  size c h := by simp [ops, h.contents_length]
  get c i h := at_spec h i
  set c i v h := by
    by_cases hc : 0 ≤ i ∧ i < c.2.len
    · have e0 : set c.1 c.2 i v = write c.1 c.2 i v := if_neg (by unfold len; omega)
      obtain ⟨m', e1, w1, c1, -, -⟩ := write_spec h hc.1 hc.2 v
      refine ⟨(m', c.2), by simp [ops, e0, e1], w1, ?_⟩
      simp [Seq.setAt, hc.1, c1]
    · have e0 : set c.1 c.2 i v = .ok c.1 := if_pos (by unfold len; omega)
      refine ⟨c, by simp [ops, e0], h, ?_⟩
      have hl := h.contents_length
      unfold Seq.setAt
      split
      · rw [List.set_eq_of_length_le (by omega)]
      · rfl

/-- Writing through the wrapper is writing the owner's slice: another slice `t` over the same backing array sees the new
value at the same cell, and slices over other arrays see nothing. -/
theorem set_shared {m : Mem T} {s t : Slice} (hs : WF m s) (ht : WF m t) {p : Int} (h0 : 0 ≤ p) (h1 : p < s.len) (v : T) :
    ∃ m', set m s p v = .ok m' ∧
      (t.arr ≠ s.arr → contents m' t = contents m t) ∧
      (∀ q : Nat, t.arr = s.arr → t.off + q = s.off + p.toNat → q < t.len → at_ m' t q = .ok v) := by
  have e0 : set m s p v = write m s p v := if_neg (by unfold len; omega)
  have hw : write m s p v = .ok (m.set s.arr ((backing m s).set (s.off + p.toNat) v)) := by
    simp only [write]; rw [if_pos ⟨h0, h1⟩]
  have hb : ∀ t' : Slice, t'.arr = s.arr → backing (m.set s.arr ((backing m s).set (s.off + p.toNat) v)) t' =
      (backing m s).set (s.off + p.toNat) v := by
    intro t' ha
    have := backing_set_self (s := t') (by rw [ha]; exact hs.arr) ((backing m s).set (s.off + p.toNat) v)
    rwa [ha] at this
  refine ⟨_, by rw [e0, hw], fun hne => ?_, fun q ha hq hl => ?_⟩
  · simp only [contents, backing_set_other (Ne.symm hne)]
  · have e1 : at_ (m.set s.arr ((backing m s).set (s.off + p.toNat) v)) t q =
        read (m.set s.arr ((backing m s).set (s.off + p.toNat) v)) t q := if_neg (by unfold len; omega)
    rw [e1, GoSlice.read, if_pos (by omega), hb t ha, Int.toNat_natCast, hq, List.getElem?_set_self]
    · rfl
    · have := hs.fits; have := hs.le; omega

/-- **C16** for slice wrappers: the loop from `Begin` collects the elements and ends at `End`; going back from the last
position (`Len-1`) collects the reverse. -/
theorem C16_slice {m : Mem T} {s : Slice} (hw : WF m s) (fuel : Nat) (hf : s.len + 1 ≤ fuel) :
    (∃ c', Seq.run ops (Seq.collect Seq.next fuel firstPos) (m, s) = .ok ((contents m s, endPos s), c')) ∧
    (∃ c', Seq.run ops (Seq.collect Seq.prev fuel (len s - 1)) (m, s) = .ok (((contents m s).reverse, -1), c')) := by
  have hl := hw.contents_length
  obtain ⟨c1, e1, -, -⟩ := Seq.C16_forward ops_lawful (c := (m, s)) hw fuel (by simp only; omega)
  obtain ⟨c2, e2, -, -⟩ := Seq.C16_backward ops_lawful (c := (m, s)) hw fuel (by simp only; omega)
  refine ⟨⟨c1, ?_⟩, ⟨c2, ?_⟩⟩
  · simp only [hl] at e1; exact e1
  · simp only [hl] at e2; exact e2

/-- **C16** for wrappers just made, or attached to another slice `t` whatever slice `s` they wrapped before: `Len`, `At` and the loop from
`Begin` show the elements of `t`, and nothing is copied. -/
theorem C16_slice_attach {m : Mem T} (s : Slice) {t : Slice} (ht : WF m t) (fuel : Nat) (hf : t.len + 1 ≤ fuel) (w : Slice)
    (hw : w = new t ∨ w = attach s t) :
    len w = (contents m t).length ∧ (∀ p, at_ m w p = Res.ofOption (Seq.at? (contents m t) p)) ∧
    (∃ c', Seq.run ops (Seq.collect Seq.next fuel firstPos) (m, w) = .ok ((contents m t, endPos w), c')) := by
  have e : w = t := by rcases hw with e | e <;> exact e
  subst e
  exact ⟨by simp [len, ht.contents_length], at_spec ht, (C16_slice ht fuel hf).1⟩

/-- What C17 asks: `Last()` of a non-empty wrapper is a valid iterator to the final element. -/
def LastIsLast (m : Mem T) (s : Slice) : Prop :=
  (∃ c', Seq.run ops (Seq.isValid (lastPos s)) (m, s) = .ok (true, c')) ∧
  (∃ x c', (contents m s).getLast? = some x ∧ Seq.run ops (Seq.value (lastPos s)) (m, s) = .ok (x, c'))

/-- **C17 is false**, for every non-empty (indeed every) slice: `Last()` returns an invalid iterator whose `Value` panics. -/
theorem C17_last_is_invalid {m : Mem T} {s : Slice} (h : WF m s) :
    Seq.run ops (Seq.isValid (lastPos s)) (m, s) = .ok (false, (m, s)) ∧
    Seq.run ops (Seq.value (lastPos s)) (m, s) = .panic ∧ ¬ LastIsLast m s := by
  have a : Seq.run ops (Seq.isValid (lastPos s)) (m, s) = .ok (false, (m, s)) := by
    show Res.ok ((decide (lastPos s ≥ 0) && decide (lastPos s < len s)), (m, s)) = _
    simp [lastPos]
  refine ⟨a, ?_, fun hh => ?_⟩
  · have e : at_ m s (lastPos s) = .panic := if_pos (by unfold lastPos; omega)
    show (at_ m s (lastPos s) >>= _) = _
    rw [e]; rfl
  · obtain ⟨c', e⟩ := hh.1
    rw [a] at e; cases e

/-- **C17, partial**: one `Prev` from `Last()` reaches the final element. Missing: `Last()` itself, which is false
(`C17_last_is_invalid`). -/
theorem C17_last_prev_partial {m : Mem T} {s : Slice} (h : WF m s) (x : T) (hx : (contents m s).getLast? = some x) :
    ∃ c', Seq.run ops (do let p ← Seq.prev (lastPos s); Seq.value p) (m, s) = .ok (x, c') := by
  have hl := h.contents_length
  have hpos : 0 < s.len := by
    rw [← hl]; cases hc : contents m s with
    | nil => rw [hc] at hx; cases hx
    | cons a b => simp
  have hp : Seq.run ops (Seq.prev (lastPos s)) (m, s) = .ok ((s.len : Int) - 1, (m, s)) := by
    show Res.ok ((if lastPos s ≥ 0 then lastPos s - 1 else lastPos s), (m, s)) = _
    rw [if_pos (by simp [lastPos])]; rfl
  refine ⟨(m, s), ?_⟩
  rw [Seq.run_bind_ok hp]
  show (at_ m s ((s.len : Int) - 1) >>= _) = _
  rw [at_spec h]
  have : Seq.at? (contents m s) ((s.len : Int) - 1) = some x := by
    rw [Seq.at?, if_pos (by omega), ← hx, List.getLast?_eq_getElem?, hl]
    congr 1; omega
  rw [this]; rfl

/-- Non-vacuity: a window of length 2 into an array of four, shared with the owner. -/
example : WF ([[5, 6, 7, 8]] : Mem Nat) ⟨0, 1, 2, 3⟩ ∧ contents ([[5, 6, 7, 8]] : Mem Nat) ⟨0, 1, 2, 3⟩ = [6, 7] :=
  ⟨⟨by simp, by simp [backing], by simp⟩, rfl⟩

theorem demo_wf : WF ([[5, 6, 7, 8]] : Mem Nat) ⟨0, 1, 2, 3⟩ := ⟨by simp, by simp [backing], by simp⟩

/-- `C16_slice_attach`: a wrapper of the empty slice attached to `6, 7` inside `5, 6, 7, 8`. -/
example : len (attach ⟨0, 0, 0, 0⟩ ⟨0, 1, 2, 3⟩) = 2 := (C16_slice_attach ⟨0, 0, 0, 0⟩ demo_wf 3 (by simp) _ (.inr rfl)).1

/-- `C16_slice`: both directions on the slice `6, 7` inside `5, 6, 7, 8`. -/
example : ∃ c', Seq.run ops (Seq.collect Seq.next 3 0) (([[5, 6, 7, 8]] : Mem Nat), ⟨0, 1, 2, 3⟩) = .ok (([6, 7], 2), c') := (C16_slice demo_wf 3 (by simp)).1
example : ∃ c', Seq.run ops (Seq.collect Seq.prev 3 1) (([[5, 6, 7, 8]] : Mem Nat), ⟨0, 1, 2, 3⟩) = .ok (([7, 6], -1), c') := (C16_slice demo_wf 3 (by simp)).2
/-- `C17_last_is_invalid`, `C17_last_prev_partial`: `Last()` is no position of it, the one before holds 7. -/
example : Seq.run ops (Seq.value 2) (([[5, 6, 7, 8]] : Mem Nat), ⟨0, 1, 2, 3⟩) = .panic := (C17_last_is_invalid demo_wf).2.1
example : ∃ c', Seq.run ops (do let p ← Seq.prev 2; Seq.value p) (([[5, 6, 7, 8]] : Mem Nat), ⟨0, 1, 2, 3⟩) = .ok (7, c') := C17_last_prev_partial demo_wf 7 rfl

end GoSTL.SliceWrap
