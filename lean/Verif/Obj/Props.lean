import Verif.Obj.ConstOp
import Verif.Algo.Props
/-!
# C66 and C67: what algorithms do to the caller's iterators

`cs` are the iterator objects that exist when the algorithm is called, `first` and `last` two of them (handles). `run ops (Obj.sort cmp first last cs) c` runs
the call on the container `c` (any type with `Size`, `At`, `Set`).
-/
namespace GoSTL.Obj
open GoSTL.Seq

variable {C I T : Type} {cmp : T → T → Int} {ops : Ops C T} {Inv : C → Prop} {abs : C → List T}

theorem SimS.keeps {α β : Type} {R : α → Cur Int → β → Prop} {cs : Cur Int} {p : OProg T α} {q : Prog T β} (s : SimS R p cs q) {c c' : C} {a : α} {cs' : Cur Int}
    (h : run ops (p cs) c = .ok ((a, cs'), c')) : ∃ b, run ops q c = .ok (b, c') ∧ R a cs' b := by
  have := Sim.run s ops c
  rw [h] at this
  generalize run ops q c = r at this ⊢
  match r, this with
  | .ok (b, c''), ⟨h1, h2⟩ => exact ⟨b, by rw [h2], h1⟩

/-- `p` leaves every iterator object that exists when it is called where it stands, on every container and whatever its elements. -/
def Stays {α : Type} (cs : Cur Int) (p : OProg T α) : Prop :=
  ∀ (C : Type) (ops : Ops C T) (c c' : C) (a : α) (cs' : Cur Int), run ops (p cs) c = .ok ((a, cs'), c') → cs.Keeps cs'

/-- **C66**: no function of `algorithm/sort` and of algorithm/op.go moves an iterator of its caller: on every container, with every comparator, lawful or not,
after the call every iterator object made before it, `first` and `last` included, stands where it stood. -/
theorem C66_iterators_stay (cmp : T → T → Int) {cs : Cur Int} {first last : Han} (hf : first < cs.n) (hl : last < cs.n) :
    Stays cs (sort cmp first last) ∧ (∀ zero fuel, Stays cs (stable zero cmp fuel first last)) ∧ (∀ n, Stays cs (nthElement cmp first last n)) ∧
    (∀ val, Stays cs (binarySearch cmp first last val)) ∧ (∀ val, Stays cs (lowerBound cmp first last val)) ∧
    (∀ val, Stays cs (upperBound cmp first last val)) ∧ Stays cs (nextPermutation cmp first last) ∧ ∀ fuel, Stays cs (reverse (T := T) fuel first last) := by
  refine ⟨?_, fun z f => ?_, fun n => ?_, fun v => ?_, fun v => ?_, fun v => ?_, ?_, fun f => ?_⟩ <;> intro C ops c c' a cs' h
  · exact ((sort_sim hf hl).keeps h).choose_spec.2
  · exact ((stable_sim hf hl z f).keeps h).choose_spec.2
  · exact ((nthElement_sim hf hl).keeps h).choose_spec.2
  · exact ((binarySearch_sim hf hl).keeps h).choose_spec.2.2
  · exact ((lowerBound_sim hf hl).keeps h).choose_spec.2.2.2.2
  · exact ((upperBound_sim hf hl).keeps h).choose_spec.2.2.2.2
  · exact ((nextPermutation_sim hf hl).keeps h).choose_spec.2.2
  · exact ((reverse_sim hf hl f).keeps h).choose_spec.2

section Objects
variable (hcmp : LawfulCmp cmp) (hl : Lawful ops Inv abs) {c : C} (hc : Inv c) (P M S : List T) (hM : abs c = P ++ M ++ S) {cs : Cur Int} {first last : Han}
  (hfn : first < cs.n) (hln : last < cs.n) (hfp : cs.pos first = P.length) (hlp : cs.pos last = P.length + M.length)
include hl hc hM hfn hln hfp hlp

include hcmp in
/-- C18 of iterator objects: `Sort(first, last, cmp)`. -/
theorem C66_sort : ∃ cs' c' M', run ops (sort cmp first last cs) c = .ok (((), cs'), c') ∧ cs.Keeps cs' ∧ Inv c' ∧ abs c' = P ++ M' ++ S ∧ M'.Perm M ∧
    Algo.Sorted cmp M' := by
  obtain ⟨c', M', e, h⟩ := Algo.C18_sort_sorts hcmp hl hc P M S hM
  rw [← hlp, ← hfp] at e
  obtain ⟨_, cs', e', k⟩ := (sort_sim hfn hln).run_ok e
  exact ⟨cs', c', M', e', k, h⟩

include hcmp in
/-- C19 of iterator objects: `Stable(first, last, cmp)`, for non-empty ranges. -/
theorem C66_stable (hne : M ≠ []) (zero : T) (fuel : Nat) (hf : M.length ≤ fuel) :
    ∃ cs' c' M', run ops (stable zero cmp fuel first last cs) c = .ok (((), cs'), c') ∧ cs.Keeps cs' ∧ Inv c' ∧ abs c' = P ++ M' ++ S ∧ M'.Perm M ∧
      Algo.Sorted cmp M' ∧ ∀ z, M'.filter (fun x => cmp z x = 0) = M.filter (fun x => cmp z x = 0) := by
  obtain ⟨c', M', e, h⟩ := Algo.C19_stable_sorts_partial hcmp hl hc P M S hM hne zero fuel hf
  rw [← hlp, ← hfp] at e
  obtain ⟨_, cs', e', k⟩ := (stable_sim hfn hln zero fuel).run_ok e
  exact ⟨cs', c', M', e', k, h⟩

include hcmp in
/-- C20 of iterator objects. -/
theorem C66_binarySearch (hs : Algo.Sorted cmp M) (val : T) : ∃ b cs' c', run ops (binarySearch cmp first last val cs) c = .ok ((b, cs'), c') ∧ cs.Keeps cs' ∧
    Inv c' ∧ abs c' = abs c ∧ (b = true ↔ ∃ x ∈ M, cmp val x = 0) := by
  obtain ⟨b, c', e, h⟩ := Algo.C20_binarySearch_decides hcmp hl hc P M S hM hs val
  rw [← hlp, ← hfp] at e
  obtain ⟨b', cs', e', rfl, k⟩ := (binarySearch_sim hfn hln).run_ok e
  exact ⟨b', cs', c', e', k, h⟩

include hcmp in
/-- C21 of iterator objects: `LowerBound` returns a new iterator, to the first element that is not less. -/
theorem C66_lowerBound (hs : Algo.Sorted cmp M) (val : T) : ∃ A B r cs' c', M = A ++ B ∧ (∀ x ∈ A, cmp x val < 0) ∧ (∀ x ∈ B, 0 ≤ cmp x val) ∧
    run ops (lowerBound cmp first last val cs) c = .ok ((r, cs'), c') ∧ cs'.pos r = P.length + A.length ∧ cs.n ≤ r ∧ r < cs'.n ∧ cs.Keeps cs' ∧
    Inv c' ∧ abs c' = abs c := by
  obtain ⟨A, B, c', e1, h1, h2, e, h3⟩ := Algo.C21_lowerBound hcmp hl hc P M S hM hs val
  rw [← hlp, ← hfp] at e
  obtain ⟨r, cs', e', k1, k2, k3, k4⟩ := (lowerBound_sim hfn hln).run_ok e
  exact ⟨A, B, r, cs', c', e1, h1, h2, e', by rw [k3, hfp], k1, k2, k4, h3⟩

include hcmp in
/-- C21 of iterator objects: `UpperBound` returns a new iterator, to the first element that is greater. -/
theorem C66_upperBound (hs : Algo.Sorted cmp M) (val : T) : ∃ A B r cs' c', M = A ++ B ∧ (∀ x ∈ A, cmp x val ≤ 0) ∧ (∀ x ∈ B, 0 < cmp x val) ∧
    run ops (upperBound cmp first last val cs) c = .ok ((r, cs'), c') ∧ cs'.pos r = P.length + A.length ∧ cs.n ≤ r ∧ r < cs'.n ∧ cs.Keeps cs' ∧
    Inv c' ∧ abs c' = abs c := by
  obtain ⟨A, B, c', e1, h1, h2, e, h3⟩ := Algo.C21_upperBound hcmp hl hc P M S hM hs val
  rw [← hlp, ← hfp] at e
  obtain ⟨r, cs', e', k1, k2, k3, k4⟩ := (upperBound_sim hfn hln).run_ok e
  exact ⟨A, B, r, cs', c', e1, h1, h2, e', by rw [k3, hfp], k1, k2, k4, h3⟩

include hcmp in
/-- C22 of iterator objects. -/
theorem C66_nthElement (n : Nat) (hn : n < M.length) : ∃ cs' c' A W B, run ops (nthElement cmp first last n cs) c = .ok (((), cs'), c') ∧ cs.Keeps cs' ∧ Inv c' ∧
    abs c' = P ++ (A ++ W ++ B) ++ S ∧ (A ++ W ++ B).Perm M ∧ A.length ≤ n ∧ n < A.length + W.length ∧
    (W.length ≤ 2 ∨ Algo.Sorted cmp W) ∧ (∀ a ∈ A, ∀ x ∈ W ++ B, cmp a x ≤ 0) ∧ (∀ x ∈ A ++ W, ∀ b ∈ B, cmp x b ≤ 0) := by
  obtain ⟨c', A, W, B, e, h⟩ := Algo.C22_nthElement_partial hcmp hl hc P M S hM n hn
  rw [← hlp, ← hfp] at e
  obtain ⟨_, cs', e', k⟩ := (nthElement_sim hfn hln).run_ok e
  exact ⟨cs', c', A, W, B, e', k, h⟩

include hcmp in
/-- C23 of iterator objects. -/
theorem C66_nextPermutation : ∃ b cs' c' M', run ops (nextPermutation cmp first last cs) c = .ok ((b, cs'), c') ∧ cs.Keeps cs' ∧ Inv c' ∧
    abs c' = P ++ M' ++ S ∧ M'.Perm M ∧
    (b = true → Algo.lexLt cmp M M' ∧ ∀ N : List T, N.Perm M → Algo.lexLt cmp M N → ¬ Algo.lexLt cmp N M') ∧
    (b = false → M' = M ∧ ∀ N : List T, N.Perm M → ¬ Algo.lexLt cmp M N) := by
  obtain ⟨b, c', M', e, h⟩ := Algo.C23_nextPermutation hcmp hl hc P M S hM
  rw [← hlp, ← hfp] at e
  obtain ⟨b', cs', e', rfl, k⟩ := (nextPermutation_sim hfn hln).run_ok e
  exact ⟨b', cs', c', M', e', k, h⟩

/-- C24 of iterator objects: `Reverse`, for non-empty ranges. -/
theorem C66_reverse (hne : M ≠ []) (fuel : Nat) (hf : M.length ≤ fuel) :
    ∃ cs' c', run ops (reverse fuel first last cs) c = .ok (((), cs'), c') ∧ cs.Keeps cs' ∧ Inv c' ∧ abs c' = P ++ M.reverse ++ S := by
  obtain ⟨c', e, h⟩ := Algo.C24_reverse_partial hl hc P M S hM hne fuel hf
  rw [← hlp, ← hfp] at e
  obtain ⟨_, cs', e', k⟩ := (reverse_sim hfn hln fuel).run_ok e
  exact ⟨cs', c', e', k, h⟩

end Objects

/-! ## The algorithms that only read -/

section Const
variable {it : Algo.ConstIter I T} {cs : Cur I} {first last : Han} {es : List (I × T)} (h : Algo.Range it (cs.pos first) (cs.pos last) es) (hf : first < cs.n)
  (hl : last < cs.n) {fuel : Nat} (hfuel : es.length + 1 ≤ fuel)

theorem SimC.ok_of {α β : Type} {R : α → Cur I → β → Prop} {r : Res (α × Cur I)} {q : Res β} {b : β} (s : SimC R r q) (e : q = .ok b) :
    ∃ a cs', r = .ok (a, cs') ∧ R a cs' b := by
  subst e
  match r, s with
  | .ok (a, cs'), s => exact ⟨a, cs', rfl, s⟩

include h hf hl hfuel in
/-- **C66** for the functions of algorithm/const_op.go, on iterators of any type (`Range`: `Next` leads from `first` to `last` past the entries `es`):
`Count`, and with visitors that move no iterator but their own clones, `CountIf`, `AnyOf`, `AllOf`, `NoneOf`; results as in C25. -/
theorem C66_const_iterators_stay :
    (∀ cmp val, ∃ cs', count it cmp fuel first last val cs = .ok (es.countP (fun e => cmp e.2 val = 0), cs') ∧ cs.Keeps cs') ∧
    ∀ f p, Polite f p →
      (∃ cs', countIf it fuel first last f cs = .ok (es.countP (fun e => p e.1), cs') ∧ cs.Keeps cs') ∧
      (∃ cs', anyOf it fuel first last f cs = .ok (es.any (fun e => p e.1), cs') ∧ cs.Keeps cs') ∧
      (∃ cs', allOf it fuel first last f cs = .ok (es.all (fun e => p e.1), cs') ∧ cs.Keeps cs') ∧
      (∃ cs', noneOf it fuel first last f cs = .ok (!es.any (fun e => p e.1), cs') ∧ cs.Keeps cs') := by
  have hi : (cs.push (cs.pos first)).pos cs.n = cs.pos first := by simp
  have hj : (cs.push (cs.pos first)).pos last = cs.pos last := Cur.push_old hl
  have hne : last ≠ cs.n := by omega
  refine ⟨fun cmp val => ?_, fun f p hp => ?_⟩
  · obtain ⟨_, cs', e, rfl, k⟩ := (countLoop_sim (it := it) (cmp := cmp) (val := val) hne fuel 0 hi hj).ok_of (Algo.countLoop_spec h val fuel 0 hfuel)
    rw [Nat.zero_add] at e
    exact ⟨cs', e, k.of_push⟩
  have an : ∃ cs', anyOf it fuel first last f cs = .ok (es.any (fun e => p e.1), cs') ∧ cs.Keeps cs' := by
    obtain ⟨_, cs', e, rfl, k⟩ := (anyOfLoop_sim (it := it) hp hne fuel (by simp) (by cn) hi hj).ok_of (Algo.anyOf_spec h p fuel hfuel)
    exact ⟨cs', e, k.of_push⟩
  refine ⟨?_, an, ?_, ?_⟩
  · obtain ⟨_, cs', e, rfl, k⟩ := (countIfLoop_sim (it := it) hp hne fuel 0 (by simp) (by cn) hi hj).ok_of (Algo.countIfLoop_spec h p fuel 0 hfuel)
    rw [Nat.zero_add] at e
    exact ⟨cs', e, k.of_push⟩
  · obtain ⟨_, cs', e, rfl, k⟩ := (allOfLoop_sim (it := it) hp hne fuel (by simp) (by cn) hi hj).ok_of (Algo.allOf_spec h p fuel hfuel)
    exact ⟨cs', e, k.of_push⟩
  · obtain ⟨cs', e, k⟩ := an
    refine ⟨cs', ?_, k⟩
    show (anyOf it fuel first last f cs >>= fun r => Res.ok (!r.1, r.2)) = _
    rw [e]; rfl

theorem entries_ne {it : Algo.ConstIter I T} {i j : I} {es : List (I × T)} (h : Algo.Range it i j es) : ∀ e ∈ es, it.eq e.1 j = false := by
  induction h with
  | nil => simp
  | cons h1 _ _ _ ih => intro e he; rcases List.mem_cons.1 he with rfl | he; exacts [h1, ih e he]

theorem found_at {it : Algo.ConstIter I T} {cs cs' : Cur I} {i : I} {last r : Han} {es : List (I × T)} {q : I} {P : I × T → Prop} (h : Algo.Range it i (cs.pos last) es)
    (hl : last < cs.n) (hr : it.eq (cs.pos last) (cs.pos last) = true) {x : I} (h1 : FoundAt it (cs.push x) cs.n last r cs' q)
    (h2 : Algo.FirstWith es (cs.pos last) P q) :
    cs.Keeps cs' ∧ Algo.FirstWith es (cs.pos last) P (cs'.pos r) ∧ (r = last ∧ (∀ e ∈ es, ¬ P e) ∨ cs.n ≤ r ∧ ∃ e ∈ es, P e) := by
  obtain ⟨k1, k2, k3⟩ := h1
  rw [Cur.push_old hl] at k3
  refine ⟨k1.of_push, by rw [k2]; exact h2, ?_⟩
  rcases k3 with ⟨rfl, e⟩ | ⟨rfl, e⟩ <;> rcases h2 with ⟨A, y, B, rfl, rfl, hy, -⟩ | ⟨rfl, hn⟩
  · have := entries_ne h y (by simp)
    rw [e, hr] at this; cases this
  · exact .inl ⟨rfl, hn⟩
  · exact .inr ⟨Nat.le_refl _, y, by simp, hy⟩
  · rw [hr] at e; cases e

include h hf hl hfuel in
/-- **C66, and C67 as far as it holds**: `Find` and `FindIf` move nothing and return an iterator to the first match, a new object; or, when there is no match, the
object `last` itself. -/
theorem C66_find (hr : it.eq (cs.pos last) (cs.pos last) = true) : (∀ cmp val, ∃ r cs', find it cmp fuel first last val cs = .ok (r, cs') ∧ cs.Keeps cs' ∧
      Algo.FirstWith es (cs.pos last) (fun e => cmp e.2 val = 0) (cs'.pos r) ∧ (r = last ∧ (∀ e ∈ es, ¬ cmp e.2 val = 0) ∨ cs.n ≤ r ∧ ∃ e ∈ es, cmp e.2 val = 0)) ∧
    ∀ f p, Polite f p → ∃ r cs', findIf it fuel first last f cs = .ok (r, cs') ∧ cs.Keeps cs' ∧
      Algo.FirstWith es (cs.pos last) (fun e => p e.1 = true) (cs'.pos r) ∧ (r = last ∧ (∀ e ∈ es, ¬ p e.1 = true) ∨ cs.n ≤ r ∧ ∃ e ∈ es, p e.1 = true) := by
  have hi : (cs.push (cs.pos first)).pos cs.n = cs.pos first := by simp
  have hj : (cs.push (cs.pos first)).pos last = cs.pos last := Cur.push_old hl
  have hne : last ≠ cs.n := by omega
  refine ⟨fun cmp val => ?_, fun f p hp => ?_⟩
  · obtain ⟨q, e, hq⟩ := Algo.find_spec (cmp := cmp) h val fuel hfuel
    obtain ⟨r, cs', e', k⟩ := (findLoop_sim (it := it) (cmp := cmp) (val := val) hne fuel (by cn) hi hj).ok_of e
    exact ⟨r, cs', e', found_at h hl hr k hq⟩
  · obtain ⟨q, e, hq⟩ := Algo.findIf_spec h p fuel hfuel
    obtain ⟨r, cs', e', k⟩ := (findIfLoop_sim (it := it) hp hne fuel (by simp) (by cn) hi hj).ok_of e
    exact ⟨r, cs', e', found_at h hl hr k hq⟩

theorem extreme_sim {it : Algo.ConstIter I T} {cs : Cur I} {first last : Han} {cmp : T → T → Int} {better : Int → Bool} (hf : first < cs.n) (hl : last < cs.n)
    (fuel : Nat) :
    SimC (fun r cs' r' => cs.Keeps cs' ∧ cs'.pos r = r' ∧ (r = first ∨ r = last ∨ cs.n ≤ r)) (extreme it better cmp fuel first last cs)
      (if it.eq (cs.pos first) (cs.pos last) then .ok (cs.pos last) else Algo.extremeLoop it better cmp (cs.pos last) fuel (cs.pos first) (cs.pos first)) := by
  refine .equal rfl rfl ?_
  split
  · exact .pure ⟨.refl _, rfl, .inr (.inl rfl)⟩
  refine .clone ?_
  refine (extremeLoop_sim (it := it) (by omega) fuel (by omega) (by simp) (by cn) (by cn) (by curs) (by curs) (by curs)).mono ?_
  rintro r cs' q ⟨k1, k2, k3, k4⟩
  refine ⟨k1.of_push, k3, ?_⟩
  simp only [Cur.push_n] at k4
  omega

include h hf hl hfuel in
/-- **C66** `MaxElement` and `MinElement` move nothing and return an iterator to the first greatest (least) element, or to `last` for an empty range. -/
theorem C66_extremes {cmp : T → T → Int} (hc : LawfulCmp cmp) : (∃ r cs', maxElement it cmp fuel first last cs = .ok (r, cs') ∧ cs.Keeps cs' ∧
      ((es = [] ∧ cs'.pos r = cs.pos last) ∨ Algo.FirstBest (fun x y => cmp x y < 0) es (cs'.pos r))) ∧
    ∃ r cs', minElement it cmp fuel first last cs = .ok (r, cs') ∧ cs.Keeps cs' ∧
      ((es = [] ∧ cs'.pos r = cs.pos last) ∨ Algo.FirstBest (fun x y => cmp y x < 0) es (cs'.pos r)) := by
  constructor
  · obtain ⟨q, e, hq⟩ := Algo.maxElement_spec hc h fuel hfuel
    obtain ⟨r, cs', e', k, rfl, -⟩ := (extreme_sim (it := it) (cmp := cmp) (better := fun c => decide (c > 0)) hf hl fuel).ok_of e
    exact ⟨r, cs', e', k, hq⟩
  · obtain ⟨q, e, hq⟩ := Algo.minElement_spec hc h fuel hfuel
    obtain ⟨r, cs', e', k, rfl, -⟩ := (extreme_sim (it := it) (cmp := cmp) (better := fun c => decide (c < 0)) hf hl fuel).ok_of e
    exact ⟨r, cs', e', k, hq⟩

end Const

/-! ## C67 -/

theorem extremeLoop_stays {it : Algo.ConstIter I T} {cmp : T → T → Int} {better : Int → Bool} {best iter last : Han} {b : T} (hne : last ≠ iter) (hbi : best ≠ iter)
    {i j : I} {es : List (I × T)} (h : Algo.Range it i j es) (hb : ∀ e ∈ es, better (cmp e.2 b) = false) : ∀ {fuel : Nat} {cs : Cur I}, es.length + 1 ≤ fuel →
    cs.pos iter = i → cs.pos last = j → it.value (cs.pos best) = .ok b → ∃ cs', extremeLoop it better cmp iter last fuel best cs = .ok (best, cs') := by
  induction h with
  | @nil i j h =>
    intro fuel cs hf ei ej ev
    obtain ⟨fuel, rfl⟩ : ∃ n, fuel = n + 1 := ⟨fuel - 1, by omega⟩
    refine ⟨cs, ?_⟩
    show (if it.eq (cs.pos iter) (cs.pos last) = true then (pure best : CProg I Nat) else _) cs = _
    rw [ei, ej, if_pos h]; rfl
  | @cons i i' j x es h hv hn _ ih =>
    intro fuel cs hf ei ej ev
    obtain ⟨fuel, rfl⟩ : ∃ n, fuel = n + 1 := ⟨fuel - 1, by omega⟩
    obtain ⟨cs', e⟩ := ih (fun e he => hb e (by simp [he])) (fuel := fuel) (cs := cs.move iter i') (by simpa using hf) (by simp)
      (by rw [Cur.move_ne hne, ej]) (by rw [Cur.move_ne hbi, ev])
    refine ⟨cs', ?_⟩
    have hbx := hb (i, x) (by simp)
    show (if it.eq (cs.pos iter) (cs.pos last) = true then (pure best : CProg I Nat) else _) cs = _
    rw [ei, ej, if_neg (by simp [h])]
    simp only [bind, StateT.bind, valueC, ei, hv, ev, Res.bind]
    rw [if_neg (by simpa using hbx)]
    simpa [bind, StateT.bind, nextC, ei, hn, Res.bind] using e

/-- **C67 is false**: `Find` and `FindIf` without a match return the object `last` (`C66_find`); and `MaxElement` (`MinElement`) of a range whose first element is a
greatest (least) one returns the object `first` itself, on every container and for every such range. Moving the result then moves the caller's `first`. -/
theorem C67_violated {it : Algo.ConstIter I T} {cs : Cur I} {first last : Han} {x : T} {es : List (I × T)} (hf : first < cs.n) (hl : last < cs.n)
    (h : Algo.Range it (cs.pos first) (cs.pos last) ((cs.pos first, x) :: es)) {cmp : T → T → Int} (hc : LawfulCmp cmp) {fuel : Nat} (hfuel : es.length + 2 ≤ fuel) :
    ((∀ e ∈ es, cmp e.2 x ≤ 0) → ∃ cs', maxElement it cmp fuel first last cs = .ok (first, cs')) ∧
    ((∀ e ∈ es, 0 ≤ cmp e.2 x) → ∃ cs', minElement it cmp fuel first last cs = .ok (first, cs')) := by
  have hi : (cs.push (cs.pos first)).pos cs.n = cs.pos first := by simp
  have hj : (cs.push (cs.pos first)).pos last = cs.pos last := Cur.push_old hl
  have h0 := entries_ne h (cs.pos first, x) (by simp)
  have hv : it.value (cs.pos first) = .ok x := by cases h; assumption
  have key : ∀ better : Int → Bool, (∀ e ∈ (cs.pos first, x) :: es, better (cmp e.2 x) = false) → ∃ cs', extreme it better cmp fuel first last cs = .ok (first, cs') := by
    intro better hb
    obtain ⟨cs', e⟩ := extremeLoop_stays (iter := cs.n) (last := last) (best := first) (by omega) (by omega) h hb (fuel := fuel) (cs := cs.push (cs.pos first)) (by simpa using hfuel) hi hj (by rw [Cur.push_old hf, hv])
    refine ⟨cs', ?_⟩
    show (if it.eq (cs.pos first) (cs.pos last) = true then (pure last : CProg I Nat) else _) cs = _
    rw [if_neg (by simpa using h0)]
    exact e
  constructor <;> intro hm <;> refine key _ fun e he => ?_ <;> rcases List.mem_cons.1 he with rfl | he
  · simp [hc.refl]
  · simpa using hm e he
  · simp [hc.refl]
  · simpa using hm e he

/-- C67 as far as it holds: `LowerBound` and `UpperBound` return new objects, on every container. -/
theorem C67_bounds_partial (cmp : T → T → Int) {cs : Cur Int} {first last : Han} (hf : first < cs.n) (hl : last < cs.n) (val : T) {c c' : C} {r : Han} {cs' : Cur Int} :
    (run ops (lowerBound cmp first last val cs) c = .ok ((r, cs'), c') → cs.n ≤ r) ∧
    (run ops (upperBound cmp first last val cs) c = .ok ((r, cs'), c') → cs.n ≤ r) :=
  ⟨fun h => ((lowerBound_sim hf hl).keeps h).choose_spec.2.1, fun h => ((upperBound_sim hf hl).keeps h).choose_spec.2.1⟩

/-! ## Examples -/

/-- Two iterators, at positions 1 and 6. -/
def exCur : Cur Int := ⟨2, fun h => if h = 0 then 1 else 6⟩

example : ∃ cs' c' M', run listOps (sort intCmp 0 1 exCur) [9, 5, 3, 4, 1, 2, 0] = .ok (((), cs'), c') ∧ exCur.Keeps cs' ∧ True ∧ c' = [9] ++ M' ++ [0] ∧
    M'.Perm [5, 3, 4, 1, 2] ∧ Algo.Sorted intCmp M' :=
  C66_sort intCmp_lawful listOps_lawful (c := [9, 5, 3, 4, 1, 2, 0]) trivial [9] [5, 3, 4, 1, 2] [0] rfl (by decide) (by decide) rfl rfl

example : exCur.Keeps exCur ∧ (∀ val, Stays exCur (lowerBound intCmp 0 1 val)) ∧ Stays exCur (sort intCmp 0 1) :=
  ⟨.refl _, (C66_iterators_stay intCmp (by decide) (by decide)).2.2.2.2.1, (C66_iterators_stay intCmp (by decide) (by decide)).1⟩

/-- A visitor that clones the iterator it is given and moves the clone to see the next element is polite. -/
example (it : Algo.ConstIter I T) (hn : ∀ i, ∃ j, it.next i = .ok j) (p : I → Bool) :
    Polite (fun h => do let c ← cloneC h; nextC it c; fun cs => .ok (p (cs.pos h), cs)) fun i => p i := by
  intro cs h hh
  obtain ⟨j, e⟩ := hn (cs.pos h)
  refine ⟨(cs.push (cs.pos h)).move cs.n j, ?_, (Cur.Keeps.push _ _).move (Nat.le_refl _) _⟩
  show ((do let p ← it.next ((cs.push (cs.pos h)).pos cs.n); .ok ((), (cs.push (cs.pos h)).move cs.n p)) >>= fun r : Unit × Cur I => Res.ok (p (r.2.pos h), r.2)) = _
  rw [Cur.push_new, e]
  show Res.ok (p (((cs.push (cs.pos h)).move cs.n j).pos h), _) = _
  rw [Cur.move_ne (by omega), Cur.push_old hh]

theorem exRange : Algo.Range (Algo.posIter listOps [(9 : Int), 5, 3, 4, 1, 2, 0]) (exCur.pos 0) (exCur.pos 1) [(1, 5), (2, 3), (3, 4), (4, 1), (5, 2)] :=
  Algo.posIter_range listOps_lawful _ trivial [5, 3, 4, 1, 2] [9] [0] rfl

/-- `MaxElement` of `[5, 3, 4, 1, 2]` is the object `first`: a `Next` on the result moves `first` to position 2. -/
example : ∃ cs', maxElement (Algo.posIter listOps [9, 5, 3, 4, 1, 2, 0]) intCmp 9 0 1 exCur = .ok (0, cs') ∧
    ∃ cs'', nextC (Algo.posIter listOps [9, 5, 3, 4, 1, 2, 0]) 0 cs' = .ok ((), cs'') ∧ cs'.pos 0 = 1 ∧ cs''.pos 0 = 2 := by
  obtain ⟨cs', e⟩ := (C67_violated (cs := exCur) (first := 0) (last := 1) (by decide) (by decide) exRange intCmp_lawful (fuel := 9) (by decide)).1
    (by simp [intCmp])
  have k := (C66_extremes exRange (by decide) (by decide) (fuel := 9) (by decide) intCmp_lawful).1
  obtain ⟨r, cs2, e2, k2, -⟩ := k
  rw [e] at e2
  cases e2
  have := k2.2 0 (by decide)
  refine ⟨cs', e, cs'.move 0 2, ?_, this, by simp⟩
  simp only [nextC, Algo.posIter, this]
  rfl

/-- `Find` without a match returns `last`; with one, a new object. -/
example : (∃ cs', find (Algo.posIter listOps [9, 5, 3, 4, 1, 2, 0]) intCmp 9 0 1 7 exCur = .ok (1, cs')) ∧
    ∃ r cs', find (Algo.posIter listOps [9, 5, 3, 4, 1, 2, 0]) intCmp 9 0 1 4 exCur = .ok (r, cs') ∧ 2 ≤ r := by
  have h := (C66_find exRange (by decide) (by decide) (fuel := 9) (by decide) (by decide)).1
  constructor
  · obtain ⟨r, cs', e, -, -, h1⟩ := h intCmp 7
    rcases h1 with ⟨rfl, -⟩ | ⟨-, x, hx, hx'⟩
    · exact ⟨cs', e⟩
    · simp [intCmp] at hx hx'; rcases hx with rfl | rfl | rfl | rfl | rfl <;> simp at hx'
  · obtain ⟨r, cs', e, -, -, h1⟩ := h intCmp 4
    rcases h1 with ⟨-, h1⟩ | ⟨h1, -⟩
    · exact absurd rfl (h1 (3, 4) (by simp))
    · exact ⟨r, cs', e, h1⟩

/-- `C66_stable`, `C66_nthElement`, `C66_nextPermutation` and `C66_reverse` on `[5, 3, 4, 1, 2]` inside `[9, 5, 3, 4, 1, 2, 0]`, with two iterators. -/
example := C66_stable intCmp_lawful listOps_lawful (c := [9, 5, 3, 4, 1, 2, 0]) trivial [9] [5, 3, 4, 1, 2] [0] rfl (cs := exCur) (first := 0) (last := 1)
  (by decide) (by decide) rfl rfl (by decide) 0 5 (by decide)
/-- `C66_nthElement`. -/
example := C66_nthElement intCmp_lawful listOps_lawful (c := [9, 5, 3, 4, 1, 2, 0]) trivial [9] [5, 3, 4, 1, 2] [0] rfl (cs := exCur) (first := 0) (last := 1)
  (by decide) (by decide) rfl rfl 2 (by decide)
/-- `C66_nextPermutation`. -/
example := C66_nextPermutation intCmp_lawful listOps_lawful (c := [9, 5, 3, 4, 1, 2, 0]) trivial [9] [5, 3, 4, 1, 2] [0] rfl (cs := exCur) (first := 0) (last := 1)
  (by decide) (by decide) rfl rfl
/-- `C66_reverse`. -/
example := C66_reverse listOps_lawful (c := [9, 5, 3, 4, 1, 2, 0]) trivial [9] [5, 3, 4, 1, 2] [0] rfl (cs := exCur) (first := 0) (last := 1)
  (by decide) (by decide) rfl rfl (by decide) 5 (by decide)
/-- `C66_binarySearch` on the sorted range `[1, 3, 3, 7, 8]` inside `[9, 1, 3, 3, 7, 8, 0]`. -/
example := C66_binarySearch intCmp_lawful listOps_lawful (c := [9, 1, 3, 3, 7, 8, 0]) trivial [9] [1, 3, 3, 7, 8] [0] rfl (cs := exCur) (first := 0) (last := 1)
  (by decide) (by decide) rfl rfl (by simp [Algo.Sorted, intCmp]) 3
/-- `C66_lowerBound`. -/
example := C66_lowerBound intCmp_lawful listOps_lawful (c := [9, 1, 3, 3, 7, 8, 0]) trivial [9] [1, 3, 3, 7, 8] [0] rfl (cs := exCur) (first := 0) (last := 1)
  (by decide) (by decide) rfl rfl (by simp [Algo.Sorted, intCmp]) 3
/-- `C66_upperBound`. -/
example := C66_upperBound intCmp_lawful listOps_lawful (c := [9, 1, 3, 3, 7, 8, 0]) trivial [9] [1, 3, 3, 7, 8] [0] rfl (cs := exCur) (first := 0) (last := 1)
  (by decide) (by decide) rfl rfl (by simp [Algo.Sorted, intCmp]) 3
/-- `C66_const_iterators_stay` on the same range. -/
example := C66_const_iterators_stay exRange (by decide) (by decide) (fuel := 9) (by decide)
/-- `C67_bounds_partial`: the iterator `LowerBound` returns on `[1, 3, 3, 7, 8]` is a new one (2 or later), neither of the two it was given. -/
example : ∃ r cs' c', run listOps (lowerBound intCmp 0 1 3 exCur) [9, 1, 3, 3, 7, 8, 0] = .ok ((r, cs'), c') ∧ 2 ≤ r := by
  obtain ⟨A, B, r, cs', c', -, -, -, e, -⟩ := C66_lowerBound intCmp_lawful listOps_lawful (c := [9, 1, 3, 3, 7, 8, 0]) trivial [9] [1, 3, 3, 7, 8] [0] rfl
    (cs := exCur) (first := 0) (last := 1) (by decide) (by decide) rfl rfl (by simp [Algo.Sorted, intCmp]) 3
  exact ⟨r, cs', c', e, (C67_bounds_partial intCmp (by decide) (by decide) 3).1 e⟩

end GoSTL.Obj
