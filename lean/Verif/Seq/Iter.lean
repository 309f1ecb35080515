import Verif.Algo.Swap
/-!
# C16: walking a random-access container with its iterators
-/
namespace GoSTL.Seq
open GoSTL.Algo

variable {C T : Type}

/-- The client loop `for it := start; it.IsValid(); it.Step() { collect it.Value() }`: the collected values and the final
position. -/
def collect (stp : Int → Prog T Int) : Nat → Int → Prog T (List T × Int)
  | 0, _ => .outOfFuel
  | f + 1, pos => do
    let v ← isValid pos
    if v then do
      let x ← value pos
      let pos ← stp pos
      let (xs, p) ← collect stp f pos
      pure (x :: xs, p)
    else pure ([], pos)

theorem run_isValid_false {l : List T} {i : Int} (h : ¬ (0 ≤ i ∧ i < l.length)) :
    run listOps (isValid i) l = .ok (false, l) := by
  rw [run_isValid]
  have : (decide (i ≥ 0) && decide (i < (l.length : Int))) = false := by
    by_cases c : 0 ≤ i <;> simp [c]; omega
  rw [this]

theorem run_isValid_true' {l : List T} {i : Int} (h : 0 ≤ i ∧ i < l.length) :
    run listOps (isValid i) l = .ok (true, l) := by
  rw [run_isValid]; simp [h]

theorem run_collect_next (l : List T) : ∀ (f : Nat) (k : Nat), k ≤ l.length → l.length - k + 1 ≤ f →
    run listOps (collect next f k) l = .ok ((l.drop k, (l.length : Int)), l) := by
  intro f
  induction f with
  | zero => intro k _ h; omega
  | succ f ih =>
    intro k hk hf
    unfold collect
    by_cases c : k < l.length
    · have hx : at? l (k : Int) = some l[k] := by simp [at?, c]
      rw [run_bind_ok (run_isValid_true' (by omega))]
      simp only [if_true]
      rw [run_bind_ok (run_value hx), run_bind_ok (run_next_lt (by omega))]
      have := ih (k + 1) (by omega) (by omega)
      push_cast at this
      rw [run_bind_ok this]
      simp only [run_pure]
      rw [List.drop_eq_getElem_cons c]
    · rw [run_bind_ok (run_isValid_false (by omega))]
      have : k = l.length := by omega
      subst this
      simp

theorem run_collect_prev (l : List T) : ∀ (f : Nat) (k : Nat), k ≤ l.length → k + 1 ≤ f →
    run listOps (collect prev f ((k : Int) - 1)) l = .ok (((l.take k).reverse, -1), l) := by
  intro f
  induction f with
  | zero => intro k _ h; omega
  | succ f ih =>
    intro k hk hf
    unfold collect
    cases k with
    | zero =>
      rw [run_bind_ok (run_isValid_false (by omega))]
      simp
    | succ k =>
      have e : ((k + 1 : Nat) : Int) - 1 = k := by omega
      rw [e]
      have hx : at? l (k : Int) = some l[k] := by simp [at?]
      rw [run_bind_ok (run_isValid_true' (by omega))]
      simp only [if_true]
      rw [run_bind_ok (run_value hx), run_bind_ok (run_prev_ge (by omega)), run_bind_ok (ih k (by omega) (by omega))]
      simp only [run_pure]
      have hk' : l[k]? = some l[k] := List.getElem?_eq_getElem (by omega)
      rw [List.take_add_one, hk', List.reverse_append]
      rfl

variable {ops : Ops C T} {Inv : C → Prop} {abs : C → List T}

/-- **C16** Walking forward from `Begin` (position 0) visits exactly the elements in order and ends, invalid, at
`End` (position `Size`). -/
theorem C16_forward (hl : Lawful ops Inv abs) {c : C} (hc : Inv c) (fuel : Nat) (hf : (abs c).length + 1 ≤ fuel) :
    ∃ c', run ops (collect next fuel 0) c = .ok ((abs c, ((abs c).length : Int)), c') ∧ Inv c' ∧ abs c' = abs c := by
  refine run_lawful_ok hl hc ?_
  have := run_collect_next (abs c) fuel 0 (by omega) (by omega)
  simpa using this

/-- **C16** Walking backward from `Last` (position `Size-1`) visits exactly the reverse and ends, invalid, at `-1`. -/
theorem C16_backward (hl : Lawful ops Inv abs) {c : C} (hc : Inv c) (fuel : Nat) (hf : (abs c).length + 1 ≤ fuel) :
    ∃ c', run ops (collect prev fuel ((abs c).length - 1)) c = .ok (((abs c).reverse, -1), c') ∧ Inv c' ∧ abs c' = abs c := by
  refine run_lawful_ok hl hc ?_
  have := run_collect_prev (abs c) fuel (abs c).length (by omega) (by omega)
  simpa using this

/-- **C16** `Next` and `Prev` never leave `[-1, Size]`, `Next` stays at `Size`, `Prev` stays at `-1`, and inside they
move by one; `IsValid` says exactly whether there is an element; `Value` returns it and panics otherwise. -/
theorem C16_bounds (hl : Lawful ops Inv abs) {c : C} (hc : Inv c) (pos : Int) :
    (∃ c', run ops (next pos) c = .ok (if pos < (abs c).length then pos + 1 else pos, c') ∧ abs c' = abs c) ∧
    (∃ c', run ops (prev pos) c = .ok (if 0 ≤ pos then pos - 1 else pos, c') ∧ abs c' = abs c) ∧
    (∃ c' b, run ops (isValid pos) c = .ok (b, c') ∧ abs c' = abs c ∧ (b = true ↔ ∃ x, at? (abs c) pos = some x)) ∧
    (∀ x, at? (abs c) pos = some x → ∃ c', run ops (value pos) c = .ok (x, c') ∧ abs c' = abs c) ∧
    (at? (abs c) pos = none → run ops (value pos) c = .panic) := by
  refine ⟨?_, ?_, ?_, ?_, ?_⟩
  · obtain ⟨c', e, -, h⟩ := run_lawful_ok hl hc (run_next (abs c) pos); exact ⟨c', e, h⟩
  · obtain ⟨c', e, -, h⟩ := run_lawful_ok hl hc (run_prev (abs c) pos); exact ⟨c', e, h⟩
  · obtain ⟨c', e, -, h⟩ := run_lawful_ok hl hc (run_isValid (abs c) pos)
    refine ⟨c', _, e, h, ?_⟩
    rw [at?_some]; simp
  · intro x hx
    obtain ⟨c', e, -, h⟩ := run_lawful_ok hl hc (run_value hx); exact ⟨c', e, h⟩
  · intro hn
    apply run_lawful_panic hl hc
    apply run_value_panic
    intro hh
    obtain ⟨x, hx⟩ := at?_ge hh
    rw [hn] at hx; cases hx

example : ∃ c', run listOps (collect next 4 0) [7, 8, 9] = .ok (([7, 8, 9], 3), c') ∧ True ∧ c' = [7, 8, 9] := C16_forward listOps_lawful (c := [7, 8, 9]) trivial 4 (by simp)
example : ∃ c', run listOps (collect prev 4 2) [7, 8, 9] = .ok (([9, 8, 7], -1), c') ∧ True ∧ c' = [7, 8, 9] := C16_backward listOps_lawful (c := [7, 8, 9]) trivial 4 (by simp)
example := C16_bounds listOps_lawful (c := [7, 8, 9]) trivial 3

end GoSTL.Seq
