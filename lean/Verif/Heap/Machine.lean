import Verif.Heap.AnyCmp
import Verif.Basic.Int64
/-!
# C106: the heap functions with Go's `int`

`Heap/Model` computes with unbounded integers. Here are the same functions with the arithmetic of `int`. For every collection, `Len()` being an `int`, and every `int`
given as index they do the same: the test `j1 < 0 // j1 < 0 after int overflow` (heap.go:97) does its work.
-/
namespace GoSTL.Heap.Machine
open GoSTL.Seq GoSTL.Algo
variable {T : Type}

/-- heap.go:82-91 `up`, with a step budget. -/
def upLoopM (cmp : T → T → Int) : Nat → List T → Int → Res (List T)
  | 0, _, _ => .outOfFuel
  | f + 1, h, j => do
    let i := (int64 (j - 1)).tdiv 2
    if i = j then .ok h else do
      let b ← lessAt cmp h j i
      if !b then .ok h else do
        let h ← swapAt h i j
        upLoopM cmp f h i

/-- heap.go:100-103. -/
def childM (cmp : T → T → Int) (h : List T) (n j1 : Int) : Res Int :=
  if int64 (j1 + 1) < n then do
    let b ← lessAt cmp h (int64 (j1 + 1)) j1
    .ok (if b then int64 (j1 + 1) else j1)
  else .ok j1

/-- heap.go:93-111 `down` from position `i`, with a step budget. -/
def downLoopM (cmp : T → T → Int) (n : Int) : Nat → List T → Int → Res (Int × List T)
  | 0, _, _ => .outOfFuel
  | f + 1, h, i => do
    let j1 := int64 (int64 (2 * i) + 1)
    if j1 ≥ n ∨ j1 < 0 then .ok (i, h) else do
      let j ← childM cmp h n j1
      let b ← lessAt cmp h j i
      if !b then .ok (i, h) else do
        let h ← swapAt h i j
        downLoopM cmp n f h j

/-- heap.go:82-91. -/
def upM (cmp : T → T → Int) (h : List T) (j : Int) : Res (List T) := upLoopM cmp (h.length + 1) h j

/-- heap.go:93-111. -/
def downM (cmp : T → T → Int) (h : List T) (i0 n : Int) : Res (Bool × List T) := do
  let (i, h) ← downLoopM cmp n (h.length + 1) h i0
  .ok (decide (i > i0), h)

/-- heap.go:34-40 `Init`: the loop from position `i` down to 0. -/
def initLoopM (cmp : T → T → Int) (n : Int) : Nat → List T → Res (List T)
  | 0, h => .ok h
  | i + 1, h => do
    let (_, h) ← downM cmp h i n
    initLoopM cmp n i h

/-- heap.go:34-40 `Init`: `n/2 - 1` and `i--` cannot wrap. -/
def initM (cmp : T → T → Int) (h : List T) : Res (List T) := initLoopM cmp h.length (h.length / 2) h

/-- heap.go:44-47 `Push`. -/
def pushM (cmp : T → T → Int) (h : List T) (x : T) : Res (List T) :=
  let h := h ++ [x]
  upM cmp h (int64 (h.length - 1))

/-- heap.go:52-57 `Pop`. -/
def popM (cmp : T → T → Int) (h : List T) : Res (T × List T) := do
  let n : Int := int64 (h.length - 1)
  let h ← swapAt h 0 n
  let (_, h) ← downM cmp h 0 n
  holderPop h

/-- heap.go:61-70 `Remove`. -/
def removeM (cmp : T → T → Int) (h : List T) (i : Int) : Res (T × List T) :=
  let n : Int := int64 (h.length - 1)
  if n ≠ i then do
    let h ← swapAt h i n
    let (b, h) ← downM cmp h i n
    if !b then do
      let h ← upM cmp h i
      holderPop h
    else holderPop h
  else holderPop h

/-- heap.go:76-80 `Fix`. -/
def fixM (cmp : T → T → Int) (h : List T) (i : Int) : Res (List T) := do
  let (b, h) ← downM cmp h i h.length
  if !b then upM cmp h i else .ok h

/-- priority_queue.go:98-144. -/
def stepM (cmp : T → T → Int) (op : Op T) (h : List T) : Res (Out T × List T) :=
  match op with
  | .push x => do let h ← pushM cmp h x; .ok (.unit, h)
  | .pop => do let (x, h) ← popM cmp h; .ok (.val x, h)
  | .top => match h with
    | [] => .panic
    | x :: _ => .ok (.val x, h)
  | .empty => .ok (.bool (decide (h.length = 0)), h)
  | .size => .ok (.int h.length, h)
  | .clear => .ok (.unit, [])

/-- A history on a new queue (priority_queue.go:80-95 `New`). -/
def runM (cmp : T → T → Int) : List (Op T) → List T → Res (List (Out T) × List T)
  | [], h => .ok ([], h)
  | op :: ops, h => do
    let (o, h) ← stepM cmp op h
    let (os, h) ← runM cmp ops h
    .ok (o :: os, h)

/-! ## Proof -/

variable (cmp : T → T → Int)

theorem tdiv_two (x : Int) : x.tdiv 2 = if 0 ≤ x then x / 2 else -((-x) / 2) := by
  split
  · rename_i h; exact Int.tdiv_eq_ediv_of_nonneg h
  · rename_i h
    have := Int.neg_tdiv (a := -x) (b := 2)
    rw [Int.neg_neg] at this
    rw [this, Int.tdiv_eq_ediv_of_nonneg (by omega)]

theorem at?_neg {l : List T} {i : Int} (h : i < 0) : at? l i = none := by
  simp only [at?]; rw [if_neg (by omega)]

theorem at?_some {l : List T} {i : Int} {x : T} (h : at? l i = some x) : 0 ≤ i ∧ i < l.length := by
  simp only [at?] at h
  split at h
  · rename_i c
    refine ⟨c, ?_⟩
    have := (List.getElem?_eq_some_iff.1 h).1
    omega
  · cases h

theorem lessAt_dom {h : List T} {i j : Int} {b : Bool} (e : lessAt cmp h i j = .ok b) : (0 ≤ i ∧ i < h.length) ∧ 0 ≤ j ∧ j < h.length := by
  simp only [lessAt] at e
  cases hi : at? h i with
  | none => simp [hi, Res.ofOption] at e
  | some x =>
    cases hj : at? h j with
    | none => simp [hi, hj, Res.ofOption] at e
    | some y => exact ⟨at?_some hi, at?_some hj⟩

theorem lessAt_neg {h : List T} {i j : Int} (hi : i < 0 ∨ j < 0) : lessAt cmp h i j = .panic := by
  cases e : lessAt cmp h i j with
  | ok b => have := lessAt_dom cmp e; omega
  | panic => rfl
  | outOfFuel =>
    simp only [lessAt] at e
    cases hi : at? h i with
    | none => simp [hi, Res.ofOption] at e
    | some x => cases hj : at? h j <;> simp [hi, hj, Res.ofOption] at e

theorem swapAt_length {h h' : List T} {i j : Int} (e : swapAt h i j = .ok h') : h'.length = h.length := by
  simp only [swapAt] at e
  cases hi : at? h i with
  | none => simp [hi, Res.ofOption] at e
  | some x =>
    cases hj : at? h j with
    | none => simp [hi, hj, Res.ofOption] at e
    | some y =>
      simp only [hi, hj, Res.ofOption, Res.ok_bind] at e
      rw [← Res.ok.inj e]; exact lswap_length ..

theorem upLoop_eq : ∀ (f : Nat) (h : List T) (j : Int), Fits64 j → upLoopM cmp f h j = upLoop cmp f h j
  | 0, _, _, _ => rfl
  | f + 1, h, j, hj => by
    by_cases c : j = -2 ^ 63
    · have e1 : int64 (j - 1) = 2 ^ 63 - 1 := by rw [int64_under (by omega) (by omega)]; omega
      simp only [upLoopM, upLoop, e1]
      rw [lessAt_neg cmp (h := h) (i := j) (Or.inl (by omega)), lessAt_neg cmp (h := h) (i := j) (Or.inl (by omega)),
        if_neg (show ¬ Int.tdiv (2 ^ 63 - 1) 2 = j by rw [tdiv_two]; omega), if_neg (show ¬ (j - 1).tdiv 2 = j by rw [tdiv_two]; omega)]
      rfl
    · simp only [Fits64] at hj
      simp only [upLoopM, upLoop, int64_id (x := j - 1) (by constructor <;> omega)]
      have hi : Fits64 ((j - 1).tdiv 2) := by
        rw [tdiv_two]; constructor <;> omega
      split
      · rfl
      · cases lessAt cmp h j ((j - 1).tdiv 2) with
        | panic => rfl
        | outOfFuel => rfl
        | ok b =>
          simp only [Res.ok_bind]
          cases b with
          | false => rfl
          | true =>
            simp only [Bool.not_true, Bool.false_eq_true, if_false]
            cases swapAt h ((j - 1).tdiv 2) j with
            | panic => rfl
            | outOfFuel => rfl
            | ok h' => exact upLoop_eq f h' _ hi

theorem child_eq {h : List T} {n j1 : Int} (h1 : j1 < n) (h2 : 0 ≤ j1) (hn : n < 2 ^ 63) : childM cmp h n j1 = child cmp h n j1 := by
  simp only [childM, child, int64_id (x := j1 + 1) (by constructor <;> omega)]

theorem child_range {h : List T} {n j1 j : Int} (e : child cmp h n j1 = .ok j) (h1 : j1 < n) (h2 : 0 ≤ j1) : 0 ≤ j ∧ j < n := by
  simp only [child] at e
  split at e
  · cases hb : lessAt cmp h (j1 + 1) j1 with
    | panic => simp [hb] at e
    | outOfFuel => simp [hb] at e
    | ok b =>
      simp only [hb, Res.ok_bind] at e
      have := Res.ok.inj e
      cases b <;> simp at this <;> omega
  · have := Res.ok.inj e; omega

theorem downLoop_eq {n : Int} (hn : n < 2 ^ 63) : ∀ (f : Nat) (h : List T) (i : Int), 0 ≤ i → i < 2 ^ 63 → downLoopM cmp n f h i = downLoop cmp n f h i
  | 0, _, _, _, _ => rfl
  | f + 1, h, i, h1, h2 => by
    by_cases c : i < 2 ^ 62
    · simp only [downLoopM, downLoop, int64_id (x := 2 * i) (by constructor <;> omega), int64_id (x := 2 * i + 1) (by constructor <;> omega)]
      split
      · rfl
      · rename_i c2
        rw [child_eq cmp (by omega) (by omega) hn]
        cases e : child cmp h n (2 * i + 1) with
        | panic => rfl
        | outOfFuel => rfl
        | ok j =>
          have hj := child_range cmp e (by omega) (by omega)
          simp only [Res.ok_bind]
          cases lessAt cmp h j i with
          | panic => rfl
          | outOfFuel => rfl
          | ok b =>
            simp only [Res.ok_bind]
            cases b with
            | false => rfl
            | true =>
              simp only [Bool.not_true, Bool.false_eq_true, if_false]
              cases swapAt h i j with
              | panic => rfl
              | outOfFuel => rfl
              | ok h' => exact downLoop_eq hn f h' j (by omega) (by omega)
    · have e1 : int64 (2 * i) = 2 * i - 2 ^ 64 := int64_over (by omega) (by omega)
      simp only [downLoopM, downLoop, e1, int64_id (x := 2 * i - 2 ^ 64 + 1) (by constructor <;> omega)]
      rw [if_pos (by omega), if_pos (by omega)]

theorem up_eq (h : List T) {j : Int} (hj : Fits64 j) : upM cmp h j = up cmp h j := upLoop_eq cmp _ _ _ hj

theorem down_eq (h : List T) {i n : Int} (h1 : 0 ≤ i) (h2 : i < 2 ^ 63) (hn : n < 2 ^ 63) : downM cmp h i n = down cmp h i n := by
  simp only [downM, down, downLoop_eq cmp hn _ _ _ h1 h2]

theorem initLoop_eq {n : Int} (H : ∀ (h : List T) (i : Nat), (i : Int) < n → downM cmp h i n = down cmp h i n) :
    ∀ (k : Nat) (h : List T), (k : Int) ≤ n → initLoopM cmp n k h = initLoop cmp n k h := by
  intro k
  induction k with
  | zero => intro h _; simp only [initLoopM, initLoop]
  | succ k ih =>
    intro h hk
    simp only [initLoopM, initLoop]
    rw [H h k (by omega)]
    rcases down cmp h k n with ⟨b, h'⟩ | _ | _
    · simp only [Res.ok_bind]; exact ih h' (by omega)
    · simp only [Res.panic_bind]
    · simp only [Res.outOfFuel_bind]

/-- `down` from an index that is out of range below: nothing is moved, or it panics. -/
theorem downM_neg (h : List T) {i n : Int} (h1 : i < 0) (h2 : -2 ^ 63 ≤ i) (hn : n ≤ h.length) (hn2 : n < 2 ^ 63) :
    downM cmp h i n = .ok (false, h) ∨ downM cmp h i n = .panic := by
  simp only [downM, downLoopM]
  generalize ej : int64 (int64 (2 * i) + 1) = j1
  by_cases c : j1 ≥ n ∨ j1 < 0
  · left; rw [if_pos c]; simp
  · rw [if_neg c, child_eq cmp (by omega) (by omega) hn2]
    right
    cases e : child cmp h n j1 with
    | panic => rfl
    | ok j => simp only [Res.ok_bind, lessAt_neg cmp (h := h) (i := j) (j := i) (Or.inr h1)]; rfl
    | outOfFuel =>
      exfalso
      simp only [child] at e
      split at e
      · cases hb : lessAt cmp h (j1 + 1) j1 with
        | panic => simp [hb] at e
        | ok b => simp [hb] at e
        | outOfFuel =>
          simp only [lessAt] at hb
          cases hi : at? h (j1 + 1) with
          | none => simp [hi, Res.ofOption] at hb
          | some x => cases hj : at? h j1 <;> simp [hi, hj, Res.ofOption] at hb
      · cases e

theorem up_neg (h : List T) {i : Int} (hi : i < 0) : i = -1 ∨ up cmp h i = .panic := by
  by_cases c : i = -1
  · exact .inl c
  · right
    simp only [up, upLoop]
    rw [if_neg (by rw [tdiv_two]; omega), lessAt_neg cmp (Or.inl hi)]; rfl

/-! ## C106 -/

/-- **C106** `Init` with machine integers. -/
theorem C106_heap_init {h : List T} (hl : (h.length : Int) < 2 ^ 63) : initM cmp h = init cmp h :=
  initLoop_eq cmp (fun h i hi => down_eq cmp h (by omega) (by omega) hl) _ _ (by omega)

/-- **C106** `Push` with machine integers. -/
theorem C106_heap_push {h : List T} (hl : (h.length : Int) + 1 < 2 ^ 63) (x : T) : pushM cmp h x = push cmp h x := by
  simp only [pushM, push, List.length_append, List.length_singleton]
  rw [int64_id (by constructor <;> omega)]
  exact up_eq cmp _ (by constructor <;> omega)

/-- **C106** `Pop` with machine integers. -/
theorem C106_heap_pop {h : List T} (hl : (h.length : Int) < 2 ^ 63) : popM cmp h = pop cmp h := by
  simp only [popM, pop]
  rw [int64_id (by constructor <;> omega)]
  cases swapAt h 0 (h.length - 1) with
  | panic => rfl
  | outOfFuel => rfl
  | ok h' => simp only [Res.ok_bind, down_eq cmp h' (i := 0) (n := h.length - 1) (by omega) (by omega) (by omega)]

/-- **C106** `Remove` with machine integers, whatever the index. -/
theorem C106_heap_remove {h : List T} (hl : (h.length : Int) < 2 ^ 63) {i : Int} (hi : Fits64 i) : removeM cmp h i = remove cmp h i := by
  simp only [removeM, remove]
  rw [int64_id (by constructor <;> omega)]
  split
  · cases e : swapAt h i (h.length - 1) with
    | panic => rfl
    | outOfFuel => rfl
    | ok h' =>
      have hr : 0 ≤ i := by
        simp only [swapAt] at e
        cases hx : at? h i with
        | none => simp [hx, Res.ofOption] at e
        | some x => exact (at?_some hx).1
      simp only [Res.ok_bind, down_eq cmp h' (i := i) (n := h.length - 1) hr hi.2 (by omega), up_eq cmp _ hi]
  · rfl

/-- **C106** `Fix` with machine integers, whatever the index. -/
theorem C106_heap_fix {h : List T} (hl : (h.length : Int) < 2 ^ 63) {i : Int} (hi : Fits64 i) : fixM cmp h i = fix cmp h i := by
  by_cases c : 0 ≤ i
  · simp only [fixM, fix, down_eq cmp h c hi.2 hl, up_eq cmp _ hi]
  · have e : down cmp h i h.length = .ok (false, h) := by
      simp only [down]
      rw [downLoop, if_pos (by omega)]
      simp
    simp only [fixM, fix, e, Res.ok_bind, Bool.not_false, if_true]
    rcases downM_neg cmp h (i := i) (n := h.length) (by omega) hi.1 (by omega) hl with e2 | e2
    · simp only [e2, Res.ok_bind, Bool.not_false, if_true, up_eq cmp _ hi]
    · rw [e2]
      rcases up_neg cmp h (i := i) (by omega) with e3 | e3
      · subst e3
        exfalso
        have : int64 (int64 (2 * -1) + 1) = -1 := by decide
        simp only [downM, downLoopM, this] at e2
        rw [if_pos (by omega)] at e2
        simp at e2
      · rw [e3]; rfl

theorem step_eq (op : Op T) {h : List T} (hl : (h.length : Int) + 1 < 2 ^ 63) : stepM cmp op h = step cmp op h := by
  cases op with
  | push x => simp only [stepM, step, C106_heap_push cmp hl]
  | pop => simp only [stepM, step, C106_heap_pop cmp (h := h) (by omega)]
  | top => cases h <;> rfl
  | empty => rfl
  | size => rfl
  | clear => rfl

theorem step_length (op : Op T) {h h' : List T} {o : Out T} (e : step cmp op h = .ok (o, h')) : h'.length ≤ h.length + 1 := by
  cases op with
  | push x =>
    obtain ⟨h2, e2, hp⟩ := C71_push cmp h x
    simp only [step, e2, Res.ok_bind] at e
    have := (Prod.mk.inj (Res.ok.inj e)).2
    subst this
    rw [hp.length_eq]; simp
  | pop =>
    cases h with
    | nil => cases e
    | cons x t =>
      obtain ⟨h2, e2, hp⟩ := pop_any cmp x t
      simp only [step, e2, Res.ok_bind] at e
      have := (Prod.mk.inj (Res.ok.inj e)).2
      subst this
      rw [hp.length_eq]; simp; omega
  | top =>
    cases h with
    | nil => cases e
    | cons x t => have := (Prod.mk.inj (Res.ok.inj e)).2; subst this; omega
  | empty => have := (Prod.mk.inj (Res.ok.inj e)).2; subst this; omega
  | size => have := (Prod.mk.inj (Res.ok.inj e)).2; subst this; omega
  | clear => have := (Prod.mk.inj (Res.ok.inj e)).2; subst this; simp

theorem run_eq (ops : List (Op T)) : ∀ {h : List T}, (h.length : Int) + ops.length < 2 ^ 63 → runM cmp ops h = run cmp ops h := by
  induction ops with
  | nil => intro h _; rfl
  | cons op ops ih =>
    intro h hl
    simp only [List.length_cons] at hl
    simp only [runM, run]
    rw [step_eq cmp op (by omega)]
    rcases e : step cmp op h with ⟨o, h'⟩ | _ | _
    · have := step_length cmp op e
      simp only [Res.ok_bind]
      rw [ih (by omega)]
    · simp only [Res.panic_bind]
    · simp only [Res.outOfFuel_bind]

/-- **C106** Priority queues with machine integers: what C27 says, for every history of fewer than 2^63 calls. -/
theorem C106_priorityqueue {cmp : T → T → Int} (hc : LawfulCmp cmp) (ops : List (Op T)) (hn : (ops.length : Int) < 2 ^ 63) : SpecRun cmp ops [] (outs (runM cmp ops [])) := by
  rw [run_eq cmp ops (by simpa using hn)]
  exact C27_history hc ops

/-! ## Non-vacuity -/

example : runM intCmp [.push 3, .push 1, .push 2, .pop, .size] [] = .ok ([.unit, .unit, .unit, .val 1, .int 2], [2, 3]) := by rfl

/-- The child of position 2^62 wraps around, and is recognised: nothing is moved. -/
example (h : List Int) : downM intCmp h (2 ^ 62) 5 = .ok (false, h) := by
  have e : int64 (int64 (2 * 2 ^ 62) + 1) = -2 ^ 63 + 1 := by decide
  simp only [downM, downLoopM, e]
  rw [if_pos (by omega)]
  simp

/-- `Fix` at the least index: the child wraps around to a position inside, and the comparison with the index panics. -/
example : fixM intCmp [1, 2, 3] (-2 ^ 63) = .panic := by rfl

end GoSTL.Heap.Machine
