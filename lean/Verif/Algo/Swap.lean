import Verif.Algo.Model
import Verif.Basic.Cmp
import Mathlib.Data.List.Perm.Basic
/-!
# Lists under swaps
-/
namespace GoSTL.Algo
open GoSTL.Seq

variable {T : Type}

theorem at?_nat (l : List T) (i : Nat) : at? l (i : Int) = l[i]? := by simp [at?]

theorem at?_some {l : List T} {i : Int} : (∃ x, at? l i = some x) ↔ 0 ≤ i ∧ i < l.length := by
  unfold at?
  split
  · next h =>
    rw [← Option.isSome_iff_exists]
    simp only [isSome_getElem?, h, true_and]
    omega
  · next h => simp; omega

theorem at?_lt {l : List T} {i : Int} {x} (h : at? l i = some x) : 0 ≤ i ∧ i < l.length := at?_some.1 ⟨x, h⟩

theorem at?_ge {l : List T} {i : Int} (h : 0 ≤ i ∧ i < l.length) : ∃ x, at? l i = some x := at?_some.2 h

@[simp] theorem setAt_length (l : List T) (i : Int) (v : T) : (setAt l i v).length = l.length := by
  unfold setAt; split <;> simp

theorem at?_setAt {l : List T} {i j : Int} {v : T} :
    at? (setAt l i v) j = if j = i ∧ 0 ≤ i ∧ i < l.length then some v else at? l j := by
  unfold at? setAt
  by_cases hi : 0 ≤ i
  · simp only [hi, if_true]
    by_cases hj : 0 ≤ j
    · simp only [hj, if_true, List.getElem?_set]
      by_cases e : j = i
      · subst e; simp only [true_and]
        by_cases hl : j < l.length
        · simp [hl]; omega
        · simp only [hl, if_false]
          simp only [if_true]
          rw [if_neg (by omega)]
          symm; rw [List.getElem?_eq_none_iff]; omega
      · rw [if_neg (by omega), if_neg (by simp [e])]
    · simp only [hj, if_false]
      rw [if_neg (by rintro ⟨rfl, -⟩; exact hj hi)]
  · simp [hi]

theorem run_value {l : List T} {i : Int} {x : T} (h : at? l i = some x) : run listOps (value i) l = .ok (x, l) := by
  simp [value, run, listOps, h]

theorem run_value_panic {l : List T} {i : Int} (h : ¬ (0 ≤ i ∧ i < l.length)) : run listOps (value i) l = .panic := by
  cases hx : at? l i with
  | some x => exact absurd (at?_lt hx) h
  | none => simp [value, run, listOps, hx]

theorem run_setValue (l : List T) (i : Int) (x : T) : run listOps (setValue i x) l = .ok ((), setAt l i x) := rfl

theorem run_next (l : List T) (i : Int) : run listOps (next i) l = .ok (if i < l.length then i + 1 else i, l) := rfl

theorem run_next_lt {l : List T} {i : Int} (h : i < l.length) : run listOps (next i) l = .ok (i + 1, l) := by
  rw [run_next, if_pos h]

theorem run_prev (l : List T) (i : Int) : run listOps (prev i) l = .ok (if i ≥ 0 then i - 1 else i, l) := rfl

theorem run_prev_ge {l : List T} {i : Int} (h : 0 ≤ i) : run listOps (prev i) l = .ok (i - 1, l) := by
  rw [run_prev, if_pos h]

theorem run_isValid (l : List T) (i : Int) :
    run listOps (isValid i) l = .ok (decide (i ≥ 0) && decide (i < l.length), l) := rfl

/-- Exchange two positions (no effect if one of them is outside). -/
def lswap (l : List T) (i j : Int) : List T :=
  match at? l i, at? l j with
  | some x, some y => setAt (setAt l i y) j x
  | _, _ => l

@[simp] theorem lswap_length (l : List T) (i j : Int) : (lswap l i j).length = l.length := by
  unfold lswap; split <;> simp

theorem at?_lswap {l : List T} {i j k : Int} (hi : 0 ≤ i ∧ i < l.length) (hj : 0 ≤ j ∧ j < l.length) :
    at? (lswap l i j) k = if k = j then at? l i else if k = i then at? l j else at? l k := by
  obtain ⟨x, hx⟩ := at?_ge hi
  obtain ⟨y, hy⟩ := at?_ge hj
  simp only [lswap, hx, hy]
  rw [at?_setAt, at?_setAt]
  simp only [setAt_length]
  by_cases h1 : k = j
  · subst h1; rw [if_pos ⟨rfl, hj⟩, if_pos rfl]
  · rw [if_neg (fun h => h1 h.1), if_neg h1]
    by_cases h2 : k = i
    · subst h2; rw [if_pos ⟨rfl, hi⟩, if_pos rfl]
    · rw [if_neg (fun h => h2 h.1), if_neg h2]

theorem run_swapValue {l : List T} {i j : Int} (hi : 0 ≤ i ∧ i < l.length) (hj : 0 ≤ j ∧ j < l.length) :
    run listOps (swapValue i j) l = .ok ((), lswap l i j) := by
  obtain ⟨x, hx⟩ := at?_ge hi
  obtain ⟨y, hy⟩ := at?_ge hj
  unfold swapValue
  rw [run_bind_ok (run_value hx), run_bind_ok (run_value hy), run_bind_ok (run_setValue _ _ _), run_setValue]
  simp [lswap, hx, hy]

theorem set_perm_aux (l : List T) (i : Nat) (x y : T) (h : l[i]? = some x) : (x :: l.set i y).Perm (y :: l) := by
  induction l generalizing i with
  | nil => simp at h
  | cons a l ih =>
    cases i with
    | zero =>
      simp at h; subst h
      simp only [List.set_cons_zero]; exact List.Perm.swap _ _ _
    | succ i =>
      simp only [List.getElem?_cons_succ] at h
      simp only [List.set_cons_succ]
      exact (List.Perm.swap _ _ _).trans (((ih i h).cons a).trans (List.Perm.swap _ _ _))

theorem lswap_perm (l : List T) (i j : Int) : (lswap l i j).Perm l := by
  unfold lswap
  split
  · next x y hx hy =>
    have hi := at?_lt hx
    have hj := at?_lt hy
    have e1 : at? (setAt l i y) j = some y := by
      rw [at?_setAt]; split
      · rfl
      · exact hy
    simp only [at?, hi.1, hj.1, if_true] at hx hy e1
    simp only [setAt, hi.1, hj.1, if_true] at e1 ⊢
    have p1 := set_perm_aux _ _ y x e1
    have p2 := set_perm_aux l _ x y hx
    exact (List.perm_cons y).1 (p1.trans p2)
  · exact List.Perm.refl _

/-- `l'` arises from `l` by exchanging positions inside `[lo, hi]`. -/
inductive Swaps (lo hi : Int) (l : List T) : List T → Prop
  | refl : Swaps lo hi l l
  | step {l' i j} : Swaps lo hi l l' → lo ≤ i → i ≤ hi → lo ≤ j → j ≤ hi → Swaps lo hi l (lswap l' i j)

namespace Swaps
variable {lo hi : Int} {l l' l'' : List T}

theorem length (h : Swaps lo hi l l') : l'.length = l.length := by
  induction h with
  | refl => rfl
  | step _ _ _ _ _ ih => simpa using ih

theorem perm (h : Swaps lo hi l l') : l'.Perm l := by
  induction h with
  | refl => exact List.Perm.refl _
  | step _ _ _ _ _ ih => exact (lswap_perm _ _ _).trans ih

theorem trans (h : Swaps lo hi l l') (h' : Swaps lo hi l' l'') : Swaps lo hi l l'' := by
  induction h' with
  | refl => exact h
  | step _ a b c d ih => exact ih.step a b c d

theorem mono {lo' hi' : Int} (h : Swaps lo hi l l') (h1 : lo' ≤ lo) (h2 : hi ≤ hi') : Swaps lo' hi' l l' := by
  induction h with
  | refl => exact .refl
  | step _ a b c d ih => exact ih.step (by omega) (by omega) (by omega) (by omega)

theorem one {i j : Int} (a : lo ≤ i) (b : i ≤ hi) (c : lo ≤ j) (d : j ≤ hi) : Swaps lo hi l (lswap l i j) :=
  .step .refl a b c d

theorem lswap_out {i j k : Int} (h1 : k ≠ i) (h2 : k ≠ j) : at? (lswap l i j) k = at? l k := by
  by_cases hi : 0 ≤ i ∧ i < l.length
  · by_cases hj : 0 ≤ j ∧ j < l.length
    · rw [at?_lswap hi hj, if_neg h2, if_neg h1]
    · have : at? l j = none := by
        cases h : at? l j with
        | none => rfl
        | some x => exact absurd (at?_lt h) hj
      simp [lswap, this]
  · have : at? l i = none := by
      cases h : at? l i with
      | none => rfl
      | some x => exact absurd (at?_lt h) hi
    simp [lswap, this]

/-- Positions outside are untouched. -/
theorem outside (h : Swaps lo hi l l') {k : Int} (hk : k < lo ∨ hi < k) : at? l' k = at? l k := by
  induction h with
  | refl => rfl
  | step _ a b c d ih => rw [lswap_out (by omega) (by omega), ih]

/-- A property of all elements of a superset range `[lo', hi']` survives. -/
theorem all {P : T → Prop} {lo' hi' : Int} (h : Swaps lo hi l l') (h1 : lo' ≤ lo) (h2 : hi ≤ hi')
    (hp : ∀ k x, lo' ≤ k → k ≤ hi' → at? l k = some x → P x) :
    ∀ k x, lo' ≤ k → k ≤ hi' → at? l' k = some x → P x := by
  induction h with
  | refl => exact hp
  | @step l1 i j _ a b c d ih =>
    intro k x hk1 hk2 hx
    by_cases hi : 0 ≤ i ∧ i < l1.length
    · by_cases hj : 0 ≤ j ∧ j < l1.length
      · rw [at?_lswap hi hj] at hx
        split at hx
        · exact ih i x (by omega) (by omega) hx
        · split at hx
          · exact ih j x (by omega) (by omega) hx
          · exact ih k x hk1 hk2 hx
      · have : at? l1 j = none := by
          cases h : at? l1 j with
          | none => rfl
          | some x => exact absurd (at?_lt h) hj
        simp [lswap, this] at hx
        exact ih k x hk1 hk2 hx
    · have : at? l1 i = none := by
        cases h : at? l1 i with
        | none => rfl
        | some x => exact absurd (at?_lt h) hi
      simp [lswap, this] at hx
      exact ih k x hk1 hk2 hx

end Swaps

/-! ## Ranges as list segments -/

theorem getElem?_of_at? {l l' : List T} (h : ∀ k : Int, at? l k = at? l' k) : l = l' := by
  apply List.ext_getElem?
  intro i
  have := h i
  rwa [at?_nat, at?_nat] at this

theorem at?_append {P M : List T} {k : Int} : at? (P ++ M) k = if k < P.length then at? P k else at? M (k - P.length) := by
  unfold at?
  by_cases hk : 0 ≤ k
  · simp only [hk, if_true, List.getElem?_append]
    split
    · rw [if_pos (by omega)]
    · rw [if_neg (by omega), if_pos (by omega)]; congr 1; omega
  · simp only [hk, if_false]
    rw [if_pos (by omega)]

/-- A list that agrees with `P ++ M ++ S` outside the segment `M` and is a permutation of it is `P ++ M' ++ S` with
`M'` a permutation of `M`. -/
theorem segment_of_perm {P M S l' : List T} (hp : l'.Perm (P ++ M ++ S))
    (ho : ∀ k : Int, k < P.length ∨ P.length + M.length ≤ k → at? l' k = at? (P ++ M ++ S) k) :
    ∃ M', l' = P ++ M' ++ S ∧ M'.Perm M := by
  have hl : l'.length = P.length + M.length + S.length := by
    have := hp.length_eq; simp at this; omega
  have e : l' = P ++ (l'.drop P.length).take M.length ++ S := by
    apply List.ext_getElem?
    intro i
    have h := ho i
    rw [at?_nat, at?_nat] at h
    by_cases h1 : i < P.length
    · rw [h (by omega)]
      simp only [List.append_assoc]
      rw [List.getElem?_append_left h1, List.getElem?_append_left h1]
    · by_cases h2 : i < P.length + M.length
      · rw [List.getElem?_append_left (by simp; omega), List.getElem?_append_right (by omega), List.getElem?_take,
          if_pos (by omega), List.getElem?_drop]
        congr 1; omega
      · rw [h (by omega), List.getElem?_append_right (by simp; omega), List.getElem?_append_right (by simp; omega)]
        congr 1; simp; omega
  refine ⟨_, e, ?_⟩
  rw [e] at hp
  exact (List.perm_append_left_iff P).1 ((List.perm_append_right_iff S).1 hp)

theorem Swaps.segment {P M S l' : List T} (h : Swaps P.length (P.length + M.length - 1) (P ++ M ++ S) l') :
    ∃ M', l' = P ++ M' ++ S ∧ M'.Perm M :=
  segment_of_perm h.perm fun k hk => h.outside (by omega)

theorem at?_segment {P M S : List T} {k : Nat} (hk : k < M.length) : at? (P ++ M ++ S) (P.length + k) = some M[k] := by
  rw [at?_append, if_pos (by simp; omega), at?_append, if_neg (by omega)]
  have : (P.length + k - P.length : Int) = k := by omega
  rw [this, at?_nat]; simp [hk]

end GoSTL.Algo
