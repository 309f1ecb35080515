import Verif.Seq.Prog
import Verif.Basic.Cmp
/-!
# Model of `algorithm/const_op.go`

The algorithms are generic in a `ConstIterator` (utils/iterator/iterator.go:4-10); while one runs, the container does not
change, so an iterator type is given by its `Equal`, `Next` and `Value`. Iterators are values here: `Clone` is the
identity, and `iter.Next()`, which moves `iter` in place, rebinds it. The visitor `f` is a pure predicate of the iterator:
iterators as mutable objects and visitors that allocate and move their own clones are in `Obj/ConstOp.lean`; visitors that move
the iterator they are given or modify the container are not modelled. Loops carry a budget.
-/
namespace GoSTL.Algo

/-- The three methods of a const iterator, over a fixed container. -/
structure ConstIter (I T : Type) where
  eq : I → I → Bool
  next : I → Res I
  value : I → Res T

variable {I T : Type} (it : ConstIter I T)

/-- algorithm/const_op.go:9-17 `Count` (loop, lines 11-15). -/
def countLoop (cmp : T → T → Int) (last : I) (val : T) : Nat → I → Nat → Res Nat
  | 0, _, _ => .outOfFuel
  | f + 1, iter, count =>
    if it.eq iter last then .ok count else do
    let x ← it.value iter
    let iter' ← it.next iter
    countLoop cmp last val f iter' (if cmp x val = 0 then count + 1 else count)

/-- algorithm/const_op.go:9-17 `Count`. -/
def count (cmp : T → T → Int) (fuel : Nat) (first last : I) (val : T) : Res Nat := countLoop it cmp last val fuel first 0

/-- algorithm/const_op.go:20-28 `CountIf` (loop, lines 22-26). -/
def countIfLoop (f : I → Bool) (last : I) : Nat → I → Nat → Res Nat
  | 0, _, _ => .outOfFuel
  | n + 1, iter, count =>
    if it.eq iter last then .ok count else do
    let count := if f iter then count + 1 else count
    let iter' ← it.next iter
    countIfLoop f last n iter' count

/-- algorithm/const_op.go:20-28 `CountIf`. -/
def countIf (fuel : Nat) (first last : I) (f : I → Bool) : Res Nat := countIfLoop it f last fuel first 0

/-- algorithm/const_op.go:31-38 `Find`. -/
def find (cmp : T → T → Int) (last : I) (val : T) : Nat → I → Res I
  | 0, _ => .outOfFuel
  | n + 1, iter =>
    if it.eq iter last then .ok last else do
    let x ← it.value iter
    if cmp x val = 0 then .ok iter else do
    let iter' ← it.next iter
    find cmp last val n iter'

/-- algorithm/const_op.go:41-48 `FindIf`. -/
def findIf (f : I → Bool) (last : I) : Nat → I → Res I
  | 0, _ => .outOfFuel
  | n + 1, iter =>
    if it.eq iter last then .ok last else
    if f iter then .ok iter else do
    let iter' ← it.next iter
    findIf f last n iter'

/-- algorithm/const_op.go:56-60, 70-74: the loop of `MaxElement` (`better c = c > 0`) and `MinElement`
(`better c = c < 0`). -/
def extremeLoop (better : Int → Bool) (cmp : T → T → Int) (last : I) : Nat → I → I → Res I
  | 0, _, _ => .outOfFuel
  | n + 1, iter, best =>
    if it.eq iter last then .ok best else do
    let x ← it.value iter
    let b ← it.value best
    let best' := if better (cmp x b) then iter else best
    let iter' ← it.next iter
    extremeLoop better cmp last n iter' best'

/-- algorithm/const_op.go:51-62 `MaxElement`. -/
def maxElement (cmp : T → T → Int) (fuel : Nat) (first last : I) : Res I :=
  if it.eq first last then .ok last else extremeLoop it (fun c => decide (c > 0)) cmp last fuel first first

/-- algorithm/const_op.go:65-76 `MinElement`. -/
def minElement (cmp : T → T → Int) (fuel : Nat) (first last : I) : Res I :=
  if it.eq first last then .ok last else extremeLoop it (fun c => decide (c < 0)) cmp last fuel first first

/-- algorithm/const_op.go:79-86 `AnyOf`. -/
def anyOf (f : I → Bool) (last : I) : Nat → I → Res Bool
  | 0, _ => .outOfFuel
  | n + 1, iter =>
    if it.eq iter last then .ok false else
    if f iter then .ok true else do
    let iter' ← it.next iter
    anyOf f last n iter'

/-- algorithm/const_op.go:89-96 `AllOf`. -/
def allOf (f : I → Bool) (last : I) : Nat → I → Res Bool
  | 0, _ => .outOfFuel
  | n + 1, iter =>
    if it.eq iter last then .ok true else
    if !f iter then .ok false else do
    let iter' ← it.next iter
    allOf f last n iter'

/-- algorithm/const_op.go:99-101 `NoneOf`. -/
def noneOf (f : I → Bool) (last : I) (fuel : Nat) (first : I) : Res Bool := do
  let b ← anyOf it f last fuel first
  .ok (!b)

/-! ## Specification

`Range it first last es`: walking from `first` with `Next` reaches an iterator equal to `last` after passing exactly the
iterators and values `es`. -/

/-- Walking from the first to the last passes exactly these iterators and values. -/
inductive Range : I → I → List (I × T) → Prop
  | nil {i last} : it.eq i last = true → Range i last []
  | cons {i i' last x es} : it.eq i last = false → it.value i = .ok x → it.next i = .ok i' → Range i' last es →
      Range i last ((i, x) :: es)

variable {it} {cmp : T → T → Int}

theorem countLoop_spec {first last : I} {es : List (I × T)} (h : Range it first last es) (val : T) :
    ∀ (f : Nat) (n : Nat), es.length + 1 ≤ f →
    countLoop it cmp last val f first n = .ok (n + es.countP (fun e => cmp e.2 val = 0)) := by
  induction h with
  | nil h =>
    intro f n hf
    obtain ⟨f, rfl⟩ : ∃ g, f = g + 1 := ⟨f - 1, by omega⟩
    simp [countLoop, h]
  | cons h hv hn _ ih =>
    intro f n hf
    obtain ⟨f, rfl⟩ : ∃ g, f = g + 1 := ⟨f - 1, by omega⟩
    simp only [countLoop, h, hv, hn, Res.ok_bind, Bool.false_eq_true, if_false]
    rw [ih _ _ (by simpa using hf)]
    rw [List.countP_cons]
    split <;> simp_all <;> omega

theorem countIfLoop_spec {first last : I} {es : List (I × T)} (h : Range it first last es) (p : I → Bool) :
    ∀ (f : Nat) (n : Nat), es.length + 1 ≤ f →
    countIfLoop it p last f first n = .ok (n + es.countP (fun e => p e.1)) := by
  induction h with
  | nil h =>
    intro f n hf
    obtain ⟨f, rfl⟩ : ∃ g, f = g + 1 := ⟨f - 1, by omega⟩
    simp [countIfLoop, h]
  | cons h hv hn _ ih =>
    intro f n hf
    obtain ⟨f, rfl⟩ : ∃ g, f = g + 1 := ⟨f - 1, by omega⟩
    simp only [countIfLoop, h, hn, Res.ok_bind, Bool.false_eq_true, if_false]
    rw [ih _ _ (by simpa using hf)]
    rw [List.countP_cons]
    split <;> simp_all <;> omega

/-- The first iterator of `es` whose entry satisfies `p`, or `last`. -/
def FirstWith (es : List (I × T)) (last : I) (p : I × T → Prop) (r : I) : Prop :=
  (∃ A e B, es = A ++ e :: B ∧ r = e.1 ∧ p e ∧ ∀ a ∈ A, ¬ p a) ∨ (r = last ∧ ∀ e ∈ es, ¬ p e)

theorem FirstWith.here {e : I × T} {es : List (I × T)} {last : I} {p : I × T → Prop} (h : p e) :
    FirstWith (e :: es) last p e.1 := .inl ⟨[], e, es, rfl, rfl, h, by simp⟩

theorem FirstWith.there {e : I × T} {es : List (I × T)} {last r : I} {p : I × T → Prop} (hn : ¬ p e)
    (h : FirstWith es last p r) : FirstWith (e :: es) last p r := by
  rcases h with ⟨A, e', B, rfl, h1, h2, h3⟩ | ⟨h1, h2⟩
  · exact .inl ⟨e :: A, e', B, rfl, h1, h2, by simpa [hn] using h3⟩
  · exact .inr ⟨h1, by simpa [hn] using h2⟩

theorem find_spec {first last : I} {es : List (I × T)} (h : Range it first last es) (val : T) :
    ∀ (f : Nat), es.length + 1 ≤ f →
    ∃ r, find it cmp last val f first = .ok r ∧ FirstWith es last (fun e => cmp e.2 val = 0) r := by
  induction h with
  | nil h =>
    intro f hf
    obtain ⟨f, rfl⟩ : ∃ g, f = g + 1 := ⟨f - 1, by omega⟩
    exact ⟨_, by simp [find, h], .inr ⟨rfl, by simp⟩⟩
  | @cons i i' last x es h hv hn _ ih =>
    intro f hf
    obtain ⟨f, rfl⟩ : ∃ g, f = g + 1 := ⟨f - 1, by omega⟩
    simp only [find, h, hv, hn, Res.ok_bind, Bool.false_eq_true, if_false]
    split
    · next c => exact ⟨_, rfl, .here (e := (i, x)) c⟩
    · next c =>
      obtain ⟨r, e, hr⟩ := ih f (by simpa using hf)
      exact ⟨r, e, hr.there c⟩

theorem findIf_spec {first last : I} {es : List (I × T)} (h : Range it first last es) (p : I → Bool) :
    ∀ (f : Nat), es.length + 1 ≤ f →
    ∃ r, findIf it p last f first = .ok r ∧ FirstWith es last (fun e => p e.1 = true) r := by
  induction h with
  | nil h =>
    intro f hf
    obtain ⟨f, rfl⟩ : ∃ g, f = g + 1 := ⟨f - 1, by omega⟩
    exact ⟨_, by simp [findIf, h], .inr ⟨rfl, by simp⟩⟩
  | @cons i i' last x es h hv hn _ ih =>
    intro f hf
    obtain ⟨f, rfl⟩ : ∃ g, f = g + 1 := ⟨f - 1, by omega⟩
    simp only [findIf, h, hn, Res.ok_bind, Bool.false_eq_true, if_false]
    split
    · next c => exact ⟨_, rfl, .here (e := (i, x)) c⟩
    · next c =>
      obtain ⟨r, e, hr⟩ := ih f (by simpa using hf)
      exact ⟨r, e, hr.there c⟩

theorem anyOf_spec {first last : I} {es : List (I × T)} (h : Range it first last es) (p : I → Bool) :
    ∀ (f : Nat), es.length + 1 ≤ f → anyOf it p last f first = .ok (es.any fun e => p e.1) := by
  induction h with
  | nil h =>
    intro f hf
    obtain ⟨f, rfl⟩ : ∃ g, f = g + 1 := ⟨f - 1, by omega⟩
    simp [anyOf, h]
  | cons h hv hn _ ih =>
    intro f hf
    obtain ⟨f, rfl⟩ : ∃ g, f = g + 1 := ⟨f - 1, by omega⟩
    simp only [anyOf, h, hn, Res.ok_bind, Bool.false_eq_true, if_false, List.any_cons]
    rw [ih _ (by simpa using hf)]
    split <;> simp_all

theorem allOf_spec {first last : I} {es : List (I × T)} (h : Range it first last es) (p : I → Bool) :
    ∀ (f : Nat), es.length + 1 ≤ f → allOf it p last f first = .ok (es.all fun e => p e.1) := by
  induction h with
  | nil h =>
    intro f hf
    obtain ⟨f, rfl⟩ : ∃ g, f = g + 1 := ⟨f - 1, by omega⟩
    simp [allOf, h]
  | cons h hv hn _ ih =>
    intro f hf
    obtain ⟨f, rfl⟩ : ∃ g, f = g + 1 := ⟨f - 1, by omega⟩
    simp only [allOf, h, hn, Res.ok_bind, Bool.false_eq_true, if_false, List.all_cons]
    rw [ih _ (by simpa using hf)]
    split <;> simp_all

/-- `r` is the first iterator among `es` whose value is extremal: strictly better than all before it, at least as good
as all after it (`lt x y` = "`y` is strictly better than `x`"). -/
def FirstBest (lt : T → T → Prop) (es : List (I × T)) (r : I) : Prop :=
  ∃ A e B, es = A ++ e :: B ∧ r = e.1 ∧ (∀ a ∈ A, lt a.2 e.2) ∧ ∀ b ∈ B, ¬ lt e.2 b.2

theorem extremeLoop_spec {better : Int → Bool} (lt : T → T → Prop) (hb : ∀ x b, better (cmp x b) = true ↔ lt b x)
    (htr : ∀ x y z, lt x y → lt y z → lt x z) (hntr : ∀ x y z, ¬ lt x y → lt x z → lt y z)
    {i last : I} {es : List (I × T)} (h : Range it i last es) :
    ∀ (f : Nat) (A : List (I × T)) (e : I × T) (B : List (I × T)), it.value e.1 = .ok e.2 →
      (∀ a ∈ A, lt a.2 e.2) → (∀ b ∈ B, ¬ lt e.2 b.2) → es.length + 1 ≤ f →
      ∃ r, extremeLoop it better cmp last f i e.1 = .ok r ∧ FirstBest lt (A ++ e :: B ++ es) r := by
  induction h with
  | nil h =>
    intro f A e B hv hA hB hf
    obtain ⟨f, rfl⟩ : ∃ g, f = g + 1 := ⟨f - 1, by omega⟩
    exact ⟨e.1, by simp [extremeLoop, h], A, e, B, by simp, rfl, hA, hB⟩
  | @cons i i' last x es h hv hn _ ih =>
    intro f A e B hv' hA hB hf
    obtain ⟨f, rfl⟩ : ∃ g, f = g + 1 := ⟨f - 1, by omega⟩
    simp only [extremeLoop, h, hv, hv', hn, Res.ok_bind, Bool.false_eq_true, if_false]
    by_cases c : better (cmp x e.2) = true
    · rw [if_pos c]
      have c' := (hb _ _).1 c
      obtain ⟨r, e1, h1⟩ := ih f (A ++ e :: B) (i, x) [] hv (by
        intro a ha
        rw [List.mem_append, List.mem_cons] at ha
        rcases ha with ha | rfl | ha
        · exact htr _ _ _ (hA a ha) c'
        · exact c'
        · exact hntr _ _ _ (hB a ha) c') (by simp) (by simpa using hf)
      exact ⟨r, e1, by simpa using h1⟩
    · rw [if_neg c]
      obtain ⟨r, e1, h1⟩ := ih f A e (B ++ [(i, x)]) hv' hA (by
        intro b hb'
        rw [List.mem_append, List.mem_singleton] at hb'
        rcases hb' with hb' | rfl
        · exact hB b hb'
        · exact fun hc => c ((hb _ _).2 hc)) (by simpa using hf)
      exact ⟨r, e1, by simpa using h1⟩

theorem maxElement_spec (hc : LawfulCmp cmp) {first last : I} {es : List (I × T)} (h : Range it first last es) (f : Nat)
    (hf : es.length + 1 ≤ f) :
    ∃ r, maxElement it cmp f first last = .ok r ∧
      ((es = [] ∧ r = last) ∨ FirstBest (fun x y => cmp x y < 0) es r) := by
  unfold maxElement
  cases h with
  | nil h => exact ⟨last, by simp [h], .inl ⟨rfl, rfl⟩⟩
  | @cons i i' last x es h hv hn hr =>
    simp only [h, Bool.false_eq_true, if_false]
    have hb : ∀ x b, (fun c : Int => decide (c > 0)) (cmp x b) = true ↔ cmp b x < 0 := fun x b => by
      have := hc.swap b x; simp [this]
    obtain ⟨f, rfl⟩ : ∃ g, f = g + 1 := ⟨f - 1, by omega⟩
    have hntr : ∀ x y z, ¬ cmp x y < 0 → cmp x z < 0 → cmp y z < 0 := fun x y z h1 h2 =>
      hc.lt_of_le_of_lt (by rw [hc.le_iff_ge]; omega) h2
    obtain ⟨r, e, hr⟩ := extremeLoop_spec (it := it) (cmp := cmp) (better := fun c => decide (c > 0)) (fun x y => cmp x y < 0) hb (fun _ _ _ => hc.lt_trans) hntr hr
      f [] (first, x) [] hv (by simp) (by simp) (by simpa using hf)
    refine ⟨r, ?_, .inr (by simpa using hr)⟩
    simp only [extremeLoop, h, hv, hn, Res.ok_bind, Bool.false_eq_true, if_false]
    rw [if_neg (by simp [hc.refl]), e]

theorem minElement_spec (hc : LawfulCmp cmp) {first last : I} {es : List (I × T)} (h : Range it first last es) (f : Nat)
    (hf : es.length + 1 ≤ f) :
    ∃ r, minElement it cmp f first last = .ok r ∧
      ((es = [] ∧ r = last) ∨ FirstBest (fun x y => cmp y x < 0) es r) := by
  unfold minElement
  cases h with
  | nil h => exact ⟨last, by simp [h], .inl ⟨rfl, rfl⟩⟩
  | @cons i i' last x es h hv hn hr =>
    simp only [h, Bool.false_eq_true, if_false]
    have hb : ∀ x b, (fun c : Int => decide (c < 0)) (cmp x b) = true ↔ cmp x b < 0 := fun x b => by simp
    obtain ⟨f, rfl⟩ : ∃ g, f = g + 1 := ⟨f - 1, by omega⟩
    have hntr : ∀ x y z, ¬ cmp y x < 0 → cmp z x < 0 → cmp z y < 0 := fun x y z h1 h2 =>
      hc.lt_of_lt_of_le h2 (by rw [hc.le_iff_ge]; omega)
    obtain ⟨r, e, hr⟩ := extremeLoop_spec (it := it) (cmp := cmp) (better := fun c => decide (c < 0)) (fun x y => cmp y x < 0) hb (fun _ _ _ h1 h2 => hc.lt_trans h2 h1) hntr hr
      f [] (first, x) [] hv (by simp) (by simp) (by simpa using hf)
    refine ⟨r, ?_, .inr (by simpa using hr)⟩
    simp only [extremeLoop, h, hv, hn, Res.ok_bind, Bool.false_eq_true, if_false]
    rw [if_neg (by simp [hc.refl]), e]

/-! ## Random-access containers offer such ranges -/

open GoSTL.Seq in
/-- The iterators of a random-access container `c`: positions (`Equal` compares positions, e.g. slice/iterator.go:67-76;
vector/array/deque also compare the container, which is the same here). -/
def posIter {C : Type} (ops : Ops C T) (c : C) : ConstIter Int T where
  eq i j := i = j
  next i := .ok (if i < ops.size c then i + 1 else i)
  value i := ops.get c i

/-- The entries of a segment starting at position `a`. -/
def entriesAt (a : Int) : List T → List (Int × T)
  | [] => []
  | x :: M => (a, x) :: entriesAt (a + 1) M

theorem entriesAt_length (M : List T) : ∀ a, (entriesAt a M).length = M.length := by
  induction M with
  | nil => intro a; rfl
  | cons x M ih => intro a; simp [entriesAt, ih]

theorem entriesAt_values (M : List T) : ∀ a, (entriesAt a M).map Prod.snd = M := by
  induction M with
  | nil => intro a; rfl
  | cons x M ih => intro a; simp [entriesAt, ih]

open GoSTL.Seq in
theorem posIter_range {C : Type} {ops : Ops C T} {Inv : C → Prop} {abs : C → List T} (hl : Lawful ops Inv abs) (c : C)
    (hc : Inv c) : ∀ (M P S : List T), abs c = P ++ M ++ S →
    Range (posIter ops c) P.length ((P.length + M.length : Nat) : Int) (entriesAt P.length M) := by
  intro M
  induction M with
  | nil => intro P S h; exact .nil (by simp [posIter])
  | cons x M ih =>
    intro P S h
    refine .cons (i' := (P.length : Int) + 1) (by simp [posIter]; omega) ?_ ?_ ?_
    · simp only [posIter, hl.get c _ hc, h]
      simp [at?]
    · simp only [posIter, hl.size c hc, h]
      rw [if_pos (by simp; omega)]
    · have := ih (P ++ [x]) S (by rw [h]; simp)
      have e : ((P ++ [x]).length : Int) = P.length + 1 := by simp
      rw [e] at this
      have e2 : (P ++ [x]).length + M.length = P.length + (x :: M).length := by simp; omega
      rw [e2] at this
      exact this

end GoSTL.Algo
