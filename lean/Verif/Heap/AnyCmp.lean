import Verif.Heap.Props
import Verif.Algo.AnyCmp
/-!
# C71: heaps and priority queues with a comparator that is not an order
-/
namespace GoSTL.Heap
open GoSTL.Seq GoSTL.Algo
variable {T : Type}

theorem lessAt_any (cmp : T → T → Int) {h : List T} {i j : Int} (hi : 0 ≤ i ∧ i < h.length) (hj : 0 ≤ j ∧ j < h.length) :
    ∃ b, lessAt cmp h i j = .ok b := by
  obtain ⟨x, hx⟩ := at?_ge hi
  obtain ⟨y, hy⟩ := at?_ge hj
  exact ⟨_, by simp only [lessAt, hx, hy, Res.ofOption, Res.ok_bind]; rfl⟩

theorem child_any (cmp : T → T → Int) {h : List T} {n j1 : Int} (h0 : 0 ≤ j1) (h1 : j1 < n) (hn : n ≤ h.length) :
    ∃ j, child cmp h n j1 = .ok j ∧ j1 ≤ j ∧ j < n := by
  unfold child
  split
  · obtain ⟨b, e⟩ := lessAt_any cmp (h := h) (i := j1 + 1) (j := j1) (by omega) (by omega)
    rw [e, Res.ok_bind]
    exact ⟨_, rfl, by split <;> omega, by split <;> omega⟩
  · exact ⟨j1, rfl, by omega, h1⟩

theorem downLoop_any (cmp : T → T → Int) (n : Int) : ∀ (f : Nat) (h : List T) (i : Int), 0 ≤ i → n ≤ h.length → n - i < f →
    1 ≤ f → ∃ i' h', downLoop cmp n f h i = .ok (i', h') ∧ Moves n h h' ∧ i ≤ i' := by
  intro f
  induction f with
  | zero => intro h i _ _ _ hf; omega
  | succ f ih =>
    intro h i hi hn hf _
    push_cast at hf
    unfold downLoop
    simp only
    split
    · exact ⟨i, h, rfl, .refl _ _, by omega⟩
    · next c =>
      obtain ⟨j, e, j1, j2⟩ := child_any cmp (h := h) (n := n) (j1 := 2 * i + 1) (by omega) (by omega) hn
      obtain ⟨b, e2⟩ := lessAt_any cmp (h := h) (i := j) (j := i) (by omega) (by omega)
      rw [e, Res.ok_bind, e2, Res.ok_bind]
      split
      · exact ⟨i, h, rfl, .refl _ _, by omega⟩
      · have m := Moves.swap (h := h) (i := i) (j := j) (n := n) (by omega) (by omega) hn
        rw [swapAt_ok (by omega) (by omega), Res.ok_bind]
        obtain ⟨i', h', e3, m', k⟩ := ih (lswap h i j) j (by omega) (by rw [m.length]; exact hn) (by omega) (by omega)
        exact ⟨i', h', e3, m.trans m', by omega⟩

theorem down_any (cmp : T → T → Int) {h : List T} {i n : Int} (hi : 0 ≤ i) (hn : n ≤ h.length) :
    ∃ b h', down cmp h i n = .ok (b, h') ∧ Moves n h h' := by
  obtain ⟨i', h', e, m, -⟩ := downLoop_any cmp n (h.length + 1) h i hi hn (by push_cast; omega) (by omega)
  exact ⟨_, h', by unfold down; rw [e, Res.ok_bind], m⟩

theorem upLoop_any (cmp : T → T → Int) (n : Int) : ∀ (f : Nat) (h : List T) (j : Int), 0 ≤ j → j < n → n ≤ h.length → j < f →
    ∃ h', upLoop cmp f h j = .ok h' ∧ Moves n h h' := by
  intro f
  induction f with
  | zero => intro h j h0 _ _ hf; simp at hf; omega
  | succ f ih =>
    intro h j h0 hj hn hf
    push_cast at hf
    unfold upLoop
    simp only
    by_cases hz : j = 0
    · subst hz
      have : ((0 : Int) - 1).tdiv 2 = 0 := by decide
      rw [this, if_pos rfl]
      exact ⟨h, rfl, .refl _ _⟩
    · rw [tdiv_par (by omega)]
      simp only [par]
      rw [if_neg (by omega)]
      obtain ⟨b, e⟩ := lessAt_any cmp (h := h) (i := j) (j := (j - 1) / 2) (by omega) (by omega)
      rw [e, Res.ok_bind]
      split
      · exact ⟨h, rfl, .refl _ _⟩
      · have m := Moves.swap (h := h) (i := (j - 1) / 2) (j := j) (n := n) (by omega) (by omega) hn
        rw [swapAt_ok (by omega) (by omega), Res.ok_bind]
        obtain ⟨h', e', m'⟩ := ih (lswap h ((j - 1) / 2) j) ((j - 1) / 2) (by omega) (by omega) (by rw [m.length]; exact hn)
          (by omega)
        exact ⟨h', e', m.trans m'⟩

theorem up_any (cmp : T → T → Int) {h : List T} {j n : Int} (h0 : 0 ≤ j) (hj : j < n) (hn : n ≤ h.length) :
    ∃ h', up cmp h j = .ok h' ∧ Moves n h h' := by
  exact upLoop_any cmp n (h.length + 1) h j h0 hj hn (by push_cast; omega)

theorem initLoop_any (cmp : T → T → Int) (n : Int) : ∀ (i : Nat) (h : List T), n ≤ h.length →
    ∃ h', initLoop cmp n i h = .ok h' ∧ Moves n h h' := by
  intro i
  induction i with
  | zero => intro h _; exact ⟨h, rfl, .refl _ _⟩
  | succ i ih =>
    intro h hn
    obtain ⟨b, h1, e, m⟩ := down_any cmp (h := h) (i := i) (by omega) hn
    obtain ⟨h2, e2, m2⟩ := ih h1 (by rw [m.length]; exact hn)
    exact ⟨h2, by unfold initLoop; rw [e, Res.ok_bind]; exact e2, m.trans m2⟩

/-- **C71** With any comparator at all, `heap.Init` ends without panic and permutes the slice. -/
theorem C71_init (cmp : T → T → Int) (h : List T) : ∃ h', init cmp h = .ok h' ∧ h'.Perm h := by
  obtain ⟨h', e, m⟩ := initLoop_any cmp h.length (h.length / 2) h (by omega)
  exact ⟨h', e, m.perm⟩

/-- **C71** With any comparator at all, `heap.Push` ends without panic and adds the element. -/
theorem C71_push (cmp : T → T → Int) (h : List T) (x : T) : ∃ h', push cmp h x = .ok h' ∧ h'.Perm (x :: h) := by
  obtain ⟨h', e, m⟩ := up_any cmp (h := h ++ [x]) (j := (h ++ [x]).length - 1) (n := (h ++ [x]).length) (by simp)
    (by omega) (by omega)
  exact ⟨h', e, m.perm.trans (List.perm_append_singleton _ _)⟩

theorem holderPop_moves {h h' : List T} {x : T} {n : Int} (m : Moves n h h') (hn : n = h.length - 1)
    (hx : at? h (h.length - 1) = some x) :
    ∃ h'', holderPop h' = .ok (x, h'') ∧ (x :: h'').Perm h := by
  subst hn
  have hl := m.length
  have e : at? h' (h'.length - 1) = some x := by
    have := m.rest (h.length - 1) (by omega)
    rw [hl, this, hx]
  obtain ⟨e1, e2⟩ := holderPop_spec e
  refine ⟨_, e1, ?_⟩
  have p : h'.Perm (x :: h'.dropLast) := by
    conv => lhs; rw [e2]
    exact List.perm_append_singleton _ _
  exact p.symm.trans m.perm

/-- **C71** With any comparator at all, `heap.Remove(i)` of a position of the slice ends without panic, returns the element
that was there, and removes just it. -/
theorem C71_remove (cmp : T → T → Int) {h : List T} {i : Nat} {x : T} (hx : h[i]? = some x) :
    ∃ h', remove cmp h i = .ok (x, h') ∧ (x :: h').Perm h := by
  have hi : i < h.length := by
    by_contra c
    rw [List.getElem?_eq_none (by omega)] at hx; cases hx
  have hx' : at? h (i : Int) = some x := by rw [at?_nat]; exact hx
  unfold remove
  simp only
  by_cases c : (h.length : Int) - 1 ≠ i
  · rw [if_pos c, swapAt_ok (by omega) (by omega), Res.ok_bind]
    have hlast : at? (lswap h i (h.length - 1)) (((lswap h i (h.length - 1)).length : Int) - 1) = some x := by
      rw [lswap_length, at?_lswap (by omega) (by omega), if_pos rfl, hx']
    have p0 := lswap_perm h i (h.length - 1)
    have l0 := lswap_length h i (h.length - 1)
    obtain ⟨b, h1, e1, m1⟩ := down_any cmp (h := lswap h i (h.length - 1)) (i := i) (n := (h.length : Int) - 1) (by omega)
      (by omega)
    rw [e1, Res.ok_bind]
    simp only
    split
    · obtain ⟨h2, e2, m2⟩ := up_any cmp (h := h1) (j := i) (n := (h.length : Int) - 1) (by omega) (by omega)
        (by rw [m1.length]; omega)
      rw [e2, Res.ok_bind]
      have m := m1.trans m2
      obtain ⟨h3, e3, p3⟩ := holderPop_moves m (by omega) hlast
      exact ⟨h3, e3, p3.trans p0⟩
    · obtain ⟨h3, e3, p3⟩ := holderPop_moves m1 (by omega) hlast
      exact ⟨h3, e3, p3.trans p0⟩
  · rw [if_neg c]
    have : (h.length : Int) - 1 = i := by omega
    exact holderPop_moves (.refl _ _) rfl (by rw [this]; exact hx')

/-- **C71** With any comparator at all, `heap.Fix(i)` of a position of the slice ends without panic and permutes the
slice. -/
theorem C71_fix (cmp : T → T → Int) (h : List T) {i : Nat} (hi : i < h.length) : ∃ h', fix cmp h i = .ok h' ∧ h'.Perm h := by
  obtain ⟨b, h1, e1, m1⟩ := down_any cmp (h := h) (i := i) (n := h.length) (by omega) (by omega)
  unfold fix
  rw [e1, Res.ok_bind]
  simp only
  split
  · obtain ⟨h2, e2, m2⟩ := up_any cmp (h := h1) (j := i) (n := h.length) (by omega) (by omega) (by rw [m1.length])
    exact ⟨h2, e2, (m1.trans m2).perm⟩
  · exact ⟨h1, rfl, m1.perm⟩

theorem pop_any (cmp : T → T → Int) (x : T) (t : List T) : ∃ h', pop cmp (x :: t) = .ok (x, h') ∧ h'.Perm t := by
  have hx' : at? (x :: t) (0 : Int) = some x := rfl
  have hl : (x :: t).length = t.length + 1 := rfl
  unfold pop
  simp only
  rw [swapAt_ok (by omega) (by omega), Res.ok_bind]
  have l0 := lswap_length (x :: t) 0 ((x :: t).length - 1)
  have hlast : at? (lswap (x :: t) 0 ((x :: t).length - 1)) (((lswap (x :: t) 0 ((x :: t).length - 1)).length : Int) - 1) = some x := by
    rw [lswap_length, at?_lswap (by omega) (by omega), if_pos rfl, hx']
  obtain ⟨b, h1, e1, m1⟩ := down_any cmp (h := lswap (x :: t) 0 ((x :: t).length - 1)) (i := 0)
    (n := ((x :: t).length : Int) - 1) (by omega) (by omega)
  rw [e1, Res.ok_bind]
  obtain ⟨h3, e3, p3⟩ := holderPop_moves m1 (by omega) hlast
  exact ⟨h3, e3, (List.perm_cons x).1 (p3.trans (lswap_perm _ _ _))⟩

/-- Nothing is before anything: with this comparator the specification of a priority queue (`SpecRun`) does not
constrain which queued element `Top` and `Pop` return. -/
def noOrder (_ _ : T) : Int := 0

theorem step_any (cmp : T → T → Int) (op : Op T) {h q : List T} (hq : h.Perm q) :
    (step cmp op h = .panic ∧ SpecStep noOrder op q .panic) ∨
    ∃ o h' q', step cmp op h = .ok (o, h') ∧ h'.Perm q' ∧ SpecStep noOrder op q (.ok (o, q')) := by
  cases op with
  | push x =>
    right
    obtain ⟨h', e, hp⟩ := C71_push cmp h x
    exact ⟨_, _, _, by simp only [step, e, Res.ok_bind], hp.trans (hq.cons x), .push⟩
  | pop =>
    cases h with
    | nil => left; rw [List.nil_perm.1 hq]; exact ⟨rfl, .popEmpty⟩
    | cons x t =>
      right
      obtain ⟨h', e, hp⟩ := pop_any cmp x t
      exact ⟨_, _, t, by simp only [step, e, Res.ok_bind], hp, .pop hq.symm (fun y _ => by simp [noOrder])⟩
  | top =>
    cases h with
    | nil => left; rw [List.nil_perm.1 hq]; exact ⟨rfl, .topEmpty⟩
    | cons x t => exact .inr ⟨_, _, q, rfl, hq, .top (hq.subset (by simp)) (fun y _ => by simp [noOrder])⟩
  | empty =>
    right
    refine ⟨_, h, q, rfl, hq, ?_⟩
    have : decide (h.length = 0) = q.isEmpty := by
      rw [hq.length_eq]; cases q <;> simp
    rw [this]; exact .empty
  | size =>
    right
    refine ⟨_, h, q, rfl, hq, ?_⟩
    rw [hq.length_eq]; exact .size
  | clear => exact .inr ⟨_, _, [], rfl, .refl _, .clear⟩

theorem run_any (cmp : T → T → Int) (ops : List (Op T)) : ∀ {h q : List T}, h.Perm q → SpecRun noOrder ops q (outs (run cmp ops h)) := by
  induction ops with
  | nil => intro h q _; exact .nil
  | cons op ops ih =>
    intro h q hq
    rcases step_any cmp op hq with ⟨e, hs⟩ | ⟨o, h', q', e, hp, hs⟩
    · simp only [run, e, Res.panic_bind]; exact .stop hs
    · have := ih hp
      simp only [run, e, Res.ok_bind]
      revert this
      cases hr : run cmp ops h' with
      | ok r => intro this; exact .ok hs this
      | panic => intro this; exact .later hs this
      | outOfFuel => intro this; cases this

/-- **C71** With any comparator at all, every history of calls on a new priority queue loses no element and invents none:
`Pop` and `Top` return a queued element and panic exactly on the empty queue, `Size` and `Empty` are right, and the
content is what was pushed and not yet popped. -/
theorem C71_priorityqueue (cmp : T → T → Int) (ops : List (Op T)) : SpecRun noOrder ops [] (outs (run cmp ops [])) :=
  run_any cmp ops (.refl _)

/-! ## Non-vacuity -/

example : outs (run alwaysBefore [.push 2, .push 1, .push 3, .top, .pop, .pop, .size] []) =
    .ok [.unit, .unit, .unit, .val 3, .val 3, .val 2, .int 1] := by rfl
example : init alwaysBefore [1, 2, 3, 4] = .ok [3, 4, 1, 2] := by rfl

/-! ### The theorems for the comparator that always says "before" -/

example : ∃ h', init alwaysBefore [1, 2, 3, 4] = .ok h' ∧ h'.Perm [1, 2, 3, 4] := C71_init _ _
example : ∃ h', push alwaysBefore [3, 1, 2] 7 = .ok h' ∧ h'.Perm [7, 3, 1, 2] := C71_push _ _ _
example : ∃ h', remove alwaysBefore [3, 1, 2] 1 = .ok (1, h') ∧ (1 :: h').Perm [3, 1, 2] := C71_remove _ (i := 1) rfl
example : ∃ h', fix alwaysBefore [3, 1, 2] 2 = .ok h' ∧ h'.Perm [3, 1, 2] := C71_fix _ _ (i := 2) (by simp)
example : SpecRun noOrder [.push 2, .push 1, .pop] [] (outs (run alwaysBefore [.push 2, .push 1, .pop] [])) := C71_priorityqueue _ _

end GoSTL.Heap
