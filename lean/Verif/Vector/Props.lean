import Verif.Vector.Proofs
import Verif.Seq.Iter
/-!
# C12–C14: vectors
-/
namespace GoSTL.Vector
open GoSTL.GoSlice

variable {T : Type} {zero : T}

/-- The program state before any call. -/
def start : World T := { mem := [], vecs := [] }

theorem start_inv : WInv (start : World T) := ⟨fun i s h => by simp [start] at h, fun i j s t _ h => by simp [start] at h⟩

/-- **C12** For every history of calls on any number of vectors, with any growth of the backing arrays: every result is
the one plain sequences give, the vectors show what the sequences hold, and a call panics exactly when the specification
says so (`At`/`Front`/`Back`/`PopBack` without element, negative `Resize`, negative capacity). -/
theorem C12_vector_is_sequence (zero : T) (cs : List (Call T)) :
    match specRun cs [] with
    | .ok (os, ls) => ∃ w, wrun zero cs start = .ok (os, w) ∧ shows w = ls
    | .panic => wrun zero cs start = .panic
    | .outOfFuel => False := by
  have h := wrun_refines (zero := zero) cs start_inv
  have e : shows (start : World T) = [] := rfl
  rw [e] at h
  cases hs : specRun cs [] with
  | ok r => rw [hs] at h; obtain ⟨w, h1, -, h2⟩ := h; exact ⟨w, h1, h2⟩
  | panic => rw [hs] at h; exact h
  | outOfFuel => rw [hs] at h; exact h

/-- States reached by some history. -/
def Reachable (zero : T) (w : World T) : Prop := ∃ cs os, wrun zero cs start = .ok (os, w)

theorem Reachable.inv {w : World T} (h : Reachable zero w) : WInv w := by
  obtain ⟨cs, os, e⟩ := h
  have h := wrun_refines (zero := zero) cs start_inv
  cases hs : specRun cs (shows (start : World T)) with
  | ok r =>
    rw [hs] at h; obtain ⟨w', h1, h2, -⟩ := h
    rw [e] at h1; cases h1; exact h2
  | panic => rw [hs] at h; simp only at h; rw [e] at h; cases h
  | outOfFuel => rw [hs] at h; exact h.elim

/-- **C13** No call on one vector is visible through another: whatever is done to vector `i`, vector `j ≠ i` still shows
the same elements. This includes vectors made from one another by `NewFromVector`. -/
theorem C13_vectors_independent {w w' : World T} (h : Reachable zero w) {i j : Nat} (hij : i ≠ j) {op : Op T} {o : Out T}
    (e : wstep zero (.on i op) w = .ok (o, w')) : (shows w')[j]? = (shows w)[j]? := by
  have hr := wstep_refines (zero := zero) h.inv (.on i op)
  cases hs : specCall (.on i op) (shows w) with
  | ok r =>
    obtain ⟨o', ls⟩ := r
    rw [hs] at hr
    obtain ⟨w1, e1, -, e2⟩ := hr
    rw [e] at e1; cases e1
    rw [e2]
    simp only [specCall] at hs
    cases hi : (shows w)[i]? with
    | none => rw [hi] at hs; cases hs
    | some l =>
      rw [hi] at hs
      simp only at hs
      rw [Res.bind_eq_ok] at hs
      obtain ⟨⟨o2, l'⟩, -, h2⟩ := hs
      simp only [Res.ok.injEq, Prod.mk.injEq] at h2
      rw [← h2.2, List.getElem?_set_ne hij]
  | panic => rw [hs] at hr; simp only at hr; rw [e] at hr; cases hr
  | outOfFuel => rw [hs] at hr; exact hr.elim

/-- **C13** `NewFromVector` makes a vector with the same elements and leaves all others as they were; `Reserve` and
`ShrinkToFit` keep the elements. -/
theorem C13_copy_same {w : World T} (h : Reachable zero w) {i : Nat} {l : List T} (hl : (shows w)[i]? = some l) :
    (∃ w', wstep zero (.newFromVector i) w = .ok (.unit, w') ∧ shows w' = shows w ++ [l]) ∧
    (∀ c, ∃ w', wstep zero (.on i (.reserve c)) w = .ok (.unit, w') ∧ shows w' = shows w) ∧
    (∃ w', wstep zero (.on i .shrinkToFit) w = .ok (.unit, w') ∧ shows w' = shows w) := by
  have hset : (shows w).set i l = shows w := by
    apply List.ext_getElem?
    intro j
    rw [List.getElem?_set]
    split
    · next c => subst c; rw [hl]; split
                · rfl
                · next c => rw [List.getElem?_eq_none (by omega)] at hl; cases hl
    · rfl
  refine ⟨?_, fun c => ?_, ?_⟩
  · have hr := wstep_refines (zero := zero) h.inv (.newFromVector i)
    simp only [specCall, hl] at hr
    obtain ⟨w', e, -, e2⟩ := hr; exact ⟨w', e, e2⟩
  · have hr := wstep_refines (zero := zero) h.inv (.on i (.reserve c))
    simp only [specCall, hl, specStep, Res.ok_bind, hset] at hr
    obtain ⟨w', e, -, e2⟩ := hr; exact ⟨w', e, e2⟩
  · have hr := wstep_refines (zero := zero) h.inv (.on i .shrinkToFit)
    simp only [specCall, hl, specStep, Res.ok_bind, hset] at hr
    obtain ⟨w', e, -, e2⟩ := hr; exact ⟨w', e, e2⟩

/-- Calls that must not change the capacity. -/
def keepsCapacity : Op T → Bool
  | .pushBack .. | .insertAt .. | .insert .. | .reserve _ | .shrinkToFit => false
  | _ => true

/-- **C14** In every reachable state `Size ≤ Capacity` for every vector. After a call on it: `Reserve(c)` gives capacity
`≥ c`, never less than before; `ShrinkToFit` gives capacity `= Size`; erasing, popping, clearing, resizing and reading keep the capacity; a
`PushBack` that fits keeps it too. -/
theorem C14_capacity {w : World T} (h : Reachable zero w) {i : Nat} {s : Slice} (hs : w.vecs[i]? = some s) :
    s.len ≤ s.cap ∧
    (∀ op o m' s', step zero op w.mem s = .ok (o, m', s') →
      s'.len ≤ s'.cap ∧
      (keepsCapacity op = true → s'.cap = s.cap) ∧
      (∀ c, op = .reserve c → c ≤ s'.cap ∧ s.cap ≤ s'.cap) ∧
      (op = .shrinkToFit → s'.cap = s'.len) ∧
      (∀ v e, op = .pushBack v e → s.len < s.cap → s'.cap = s.cap)) := by
  have hw := h.inv.wf i s hs
  have hle := hw.le
  refine ⟨hle, fun op o m' s' e => ⟨?_, ?_, ?_, ?_, ?_⟩⟩
  · have hr := step_refines (zero := zero) hw op
    cases hsp : specStep op (contents w.mem s) with
    | ok r =>
      rw [hsp] at hr; obtain ⟨m1, s1, e1, d⟩ := hr
      rw [e] at e1; cases e1; exact d.wf.le
    | panic => rw [hsp] at hr; simp only [Refines] at hr; rw [e] at hr; cases hr
    | outOfFuel => rw [hsp] at hr; exact hr.elim
  · intro hk
    have pre : ∀ {k : Int} {s1}, reslice s 0 k = .ok s1 → s1.cap = s.cap := by
      intro k s1 h1; unfold reslice at h1; split at h1
      · cases h1; simp
      · cases h1
    cases op <;> simp only [keepsCapacity, Bool.false_eq_true, Bool.true_eq_false, reduceCtorEq] at hk
    case setAt p v =>
      simp only [step] at e; rw [Res.bind_eq_ok] at e; obtain ⟨_, _, e⟩ := e; cases e; rfl
    case eraseAt p ex =>
      obtain ⟨m1, s1, e1, -, e2⟩ := eraseIndexRange_spec (zero := zero) hw p (p + 1) ex
      simp only [step, eraseAt, e1] at e; cases e; exact e2
    case erase p ex =>
      obtain ⟨m1, s1, e1, -, e2⟩ := eraseIndexRange_spec (zero := zero) hw p (p + 1) ex
      simp only [step, eraseAt, e1] at e; cases e; exact e2
    case eraseIndexRange a b ex =>
      obtain ⟨m1, s1, e1, -, e2⟩ := eraseIndexRange_spec (zero := zero) hw a b ex
      simp only [step, e1] at e; cases e; exact e2
    case eraseRange a b ex =>
      obtain ⟨m1, s1, e1, -, e2⟩ := eraseIndexRange_spec (zero := zero) hw a b ex
      simp only [step, e1] at e; cases e; exact e2
    case «at» p => simp only [step] at e; rw [Res.bind_eq_ok] at e; obtain ⟨_, _, e⟩ := e; cases e; rfl
    case front => simp only [step] at e; rw [Res.bind_eq_ok] at e; obtain ⟨_, _, e⟩ := e; cases e; rfl
    case back => simp only [step] at e; rw [Res.bind_eq_ok] at e; obtain ⟨_, _, e⟩ := e; cases e; rfl
    case popBack =>
      simp only [step] at e; rw [Res.bind_eq_ok] at e; obtain ⟨⟨x, s1⟩, e1, e⟩ := e; cases e
      unfold popBack at e1
      split at e1
      · cases e1
      · rw [Res.bind_eq_ok] at e1; obtain ⟨y, -, e1⟩ := e1
        rw [Res.bind_eq_ok] at e1; obtain ⟨s2, e2, e1⟩ := e1
        cases e1; exact pre e2
    case clear => simp only [step] at e; rw [Res.bind_eq_ok] at e; obtain ⟨s1, e1, e⟩ := e; cases e; exact pre e1
    case resize n =>
      simp only [step] at e; rw [Res.bind_eq_ok] at e; obtain ⟨s1, e1, e⟩ := e; cases e
      unfold resize at e1; split at e1
      · cases e1; rfl
      · exact pre e1
    case size => simp only [step] at e; cases e; rfl
    case empty => simp only [step] at e; cases e; rfl
  · rintro c rfl
    simp only [step] at e; rw [Res.bind_eq_ok] at e; obtain ⟨⟨m1, s1⟩, e1, e⟩ := e; cases e
    unfold reserve at e1
    split at e1
    · next hc => cases e1; simp only; omega
    · next hc =>
      obtain ⟨m2, s2, e2, -, -, -, -, k2, -⟩ := fresh_copy (zero := zero) hw (cap := c) (by omega)
      simp only [size] at e1
      rw [e2] at e1; cases e1; rw [k2]; omega
  · rintro rfl
    simp only [step] at e; rw [Res.bind_eq_ok] at e; obtain ⟨⟨m1, s1⟩, e1, e⟩ := e; cases e
    unfold shrinkToFit at e1
    split at e1
    · next hc => cases e1; simp only; omega
    · next hc =>
      obtain ⟨m2, s2, e2, -, -, -, -, k2, l2⟩ := fresh_copy (zero := zero) hw (cap := s.len) (by omega)
      simp only [size] at e1
      rw [e2] at e1; cases e1; rw [k2, l2]; simp
  · rintro v ex rfl hlt
    obtain ⟨m1, s1, e1, -, -, -, -, -, k1, -⟩ := append_spec zero hw [v] ex
    simp only [step, pushBack, e1] at e; cases e
    exact (k1 (by simp; omega)).1

/-! ## Vectors as random-access containers -/

/-- The calls the vector's iterator makes (vector/iterator.go), for one vector. -/
def ops : Seq.Ops (Mem T × Slice) T where
  size c := size c.2
  get c i := at_ c.1 c.2 i
  set c i v := do let m ← setAt c.1 c.2 i v; .ok (m, c.2)

/-- A vector is a lawful random-access container: all algorithm theorems (C18–C25) and C16 apply to it. -/
theorem ops_lawful : Seq.Lawful (ops : Seq.Ops (Mem T × Slice) T) (fun c => WF c.1 c.2) (fun c => contents c.1 c.2) where
  size c h := by simp [ops, h.contents_length]
  get c i h := at_spec h i
  set c i v h := by
    by_cases hc : 0 ≤ i ∧ i < c.2.len
    · have e0 : setAt c.1 c.2 i v = write c.1 c.2 i v := if_neg (by unfold size; omega)
      obtain ⟨m', e1, w1, c1, -, -⟩ := write_spec h hc.1 hc.2 v
      refine ⟨(m', c.2), by simp [ops, e0, e1], w1, ?_⟩
      simp [Seq.setAt, hc.1, c1]
    · have e0 : setAt c.1 c.2 i v = .ok c.1 := if_pos (by unfold size; omega)
      refine ⟨c, by simp [ops, e0], h, ?_⟩
      have hl := h.contents_length
      unfold Seq.setAt
      split
      · rw [List.set_eq_of_length_le (by omega)]
      · rfl

/-- vector.go:180-192: `Begin`/`First`, `End`, `Last` positions. -/
def beginPos : Int := 0
/-- vector.go:180-182 `End`. -/
def endPos (s : Slice) : Int := size s
/-- vector.go:190-192 `Last`. -/
def lastPos (s : Slice) : Int := size s - 1

/-- **C16** for vectors: the loop from `Begin` collects the elements, the loop from `Last` collects the reverse. -/
theorem C16_vector {w : World T} (h : Reachable zero w) {i : Nat} {s : Slice} (hs : w.vecs[i]? = some s) (fuel : Nat)
    (hf : s.len + 1 ≤ fuel) :
    (∃ c', Seq.run ops (Seq.collect Seq.next fuel beginPos) (w.mem, s) = .ok ((contents w.mem s, endPos s), c')) ∧
    (∃ c', Seq.run ops (Seq.collect Seq.prev fuel (lastPos s)) (w.mem, s) = .ok (((contents w.mem s).reverse, -1), c')) := by
  have hw := h.inv.wf i s hs
  have hl := hw.contents_length
  obtain ⟨c1, e1, -, -⟩ := Seq.C16_forward ops_lawful (c := (w.mem, s)) hw fuel (by simp only; omega)
  obtain ⟨c2, e2, -, -⟩ := Seq.C16_backward ops_lawful (c := (w.mem, s)) hw fuel (by simp only; omega)
  refine ⟨⟨c1, ?_⟩, ⟨c2, ?_⟩⟩
  · simp only [hl] at e1; exact e1
  · simp only [hl] at e2; exact e2

/-! ## Non-vacuity -/

/-- A history with growth, a copy, and changes on both sides. -/
def demo : List (Call Nat) :=
  [.new 1, .on 0 (.pushBack 1 0), .on 0 (.pushBack 2 3), .newFromVector 0, .on 0 (.insertAt 1 9 0), .on 1 (.setAt 0 7),
   .on 0 (.eraseAt 0 0), .on 1 .popBack, .on 0 (.reserve 20), .on 0 .shrinkToFit, .on 0 (.at 1)]

example : ∃ os ls, specRun demo [] = .ok (os, ls) ∧ ls = [[9, 2], [7]] := ⟨_, _, rfl, rfl⟩
theorem demo_vectors : ∃ w, Reachable 0 w ∧ shows w = [[9, 2], [7]] := by
  have h := C12_vector_is_sequence 0 demo
  have e : ∃ os, specRun demo [] = .ok (os, [[9, 2], [7]]) := ⟨_, rfl⟩
  obtain ⟨os, e⟩ := e
  rw [e] at h
  obtain ⟨w, h1, h2⟩ := h
  exact ⟨w, ⟨demo, os, h1⟩, h2⟩

/-- `C13_vectors_independent`: whatever is done to vector 0, vector 1 stays `[7]`. -/
example : ∃ w : World Nat, shows w = [[9, 2], [7]] ∧ ∀ op o w', wstep 0 (.on 0 op) w = .ok (o, w') → (shows w')[1]? = some [7] := by
  obtain ⟨w, h, e⟩ := demo_vectors
  exact ⟨w, e, fun op o w' e' => by rw [C13_vectors_independent h (by decide) e', e]; rfl⟩

/-- `C13_copy_same`. -/
example : ∃ w w' : World Nat, shows w = [[9, 2], [7]] ∧ wstep 0 (.newFromVector 0) w = .ok (.unit, w') ∧ shows w' = [[9, 2], [7], [9, 2]] := by
  obtain ⟨w, h, e⟩ := demo_vectors
  obtain ⟨⟨w', e1, e2⟩, -⟩ := C13_copy_same h (i := 0) (l := [9, 2]) (by rw [e]; rfl)
  exact ⟨w, w', e, e1, by rw [e2, e]; rfl⟩

/-- `C14_capacity`: `Reserve(50)` makes room for 50; `C16_vector`: the iterators list vector 0 both ways. -/
example : ∃ (w : World Nat) (s : Slice), shows w = [[9, 2], [7]] ∧ w.vecs[0]? = some s ∧
    (∀ o m' s', step 0 (.reserve 50) w.mem s = .ok (o, m', s') → (50 : Int) ≤ s'.cap) ∧
    ∃ c', Seq.run ops (Seq.collect Seq.prev 9 (lastPos s)) (w.mem, s) = .ok (([2, 9], -1), c') := by
  obtain ⟨w, h, e⟩ := demo_vectors
  have hl : w.vecs.length = 2 := by have := congrArg List.length e; simpa [shows] using this
  have hs : w.vecs[0]? = some w.vecs[0] := List.getElem?_eq_getElem (by omega)
  have hc : contents w.mem w.vecs[0] = [9, 2] := by
    have := congrArg (·[0]?) e
    simpa [shows, hs] using this
  have hlen : w.vecs[0].len = 2 := by rw [← (h.inv.wf 0 _ hs).contents_length, hc]; rfl
  obtain ⟨h1, h2⟩ := C14_capacity h hs
  obtain ⟨-, c', e2⟩ := C16_vector h hs 9 (by omega)
  exact ⟨w, _, e, hs, fun o m' s' e' => ((h2 _ o m' s' e').2.2.1 50 rfl).1, c', by rw [hc] at e2; exact e2⟩

end GoSTL.Vector
