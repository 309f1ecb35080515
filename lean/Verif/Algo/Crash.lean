import Verif.Algo.CrashModel
import Verif.Algo.AnyCmp
/-!
# C88: a comparator that panics, or changes its mind, at any call

`Safe` is the statement about all comparators at once: it follows the program and asks that, at every comparator call, the container as
it is then is acceptable for a crash and that every answer the comparator may give is coped with.
-/
namespace GoSTL.Algo
open GoSTL.Seq

variable {C T α β σ : Type} {ops : Ops C T} {Inv : C → Prop} {abs : C → List T}

/-- With answers that `A` allows, the program ends without a panic of its own in a state satisfying `Q`, and each of its comparator calls
is made in a state satisfying `E`. -/
def Safe (A : T → T → Int → Prop) : CProg T α → List T → (α → List T → Prop) → (List T → Prop) → Prop
  | .ret a, l, Q, _ => Q a l
  | .get i k, l, Q, E => ∃ x, at? l i = some x ∧ Safe A (k x) l Q E
  | .set i v k, l, Q, E => Safe A k (setAt l i v) Q E
  | .size k, l, Q, E => Safe A (k l.length) l Q E
  | .cmp x y k, l, Q, E => E l ∧ ∀ r, A x y r → Safe A (k r) l Q E
  | .panic, _, _, _ => False
  | .outOfFuel, _, _, _ => False

variable {A : T → T → Int → Prop} {l : List T} {E E' : List T → Prop}

theorem Safe.mono {p : CProg T α} {Q Q' : α → List T → Prop} (h : Safe A p l Q E) (hQ : ∀ a l', Q a l' → Q' a l')
    (hE : ∀ l', E l' → E' l') : Safe A p l Q' E' := by
  induction p generalizing l with
  | ret a => exact hQ _ _ h
  | get i k ih => obtain ⟨x, hx, h⟩ := h; exact ⟨x, hx, ih x h⟩
  | set i v k ih => exact ih h
  | size k ih => exact ih _ h
  | cmp x y k ih => exact ⟨hE _ h.1, fun r hr => ih r (h.2 r hr)⟩
  | panic => exact h
  | outOfFuel => exact h

theorem Safe.bind {p : CProg T α} {k : α → CProg T β} {Q : β → List T → Prop}
    (h : Safe A p l (fun a l' => Safe A (k a) l' Q E) E) : Safe A (p >>= k) l Q E := by
  show Safe A (p.bind k) l Q E
  induction p generalizing l with
  | ret a => exact h
  | get i k ih => obtain ⟨x, hx, h⟩ := h; exact ⟨x, hx, ih x h⟩
  | set i v k ih => exact ih h
  | size k ih => exact ih _ h
  | cmp x y k ih => exact ⟨h.1, fun r hr => ih r (h.2 r hr)⟩
  | panic => exact h
  | outOfFuel => exact h

/-- A part that makes no comparator calls. -/
theorem Safe.lift {p : Prog T α} {Q : α → List T → Prop} {a : α} {l' : List T} (h : run listOps p l = .ok (a, l'))
    (hQ : Q a l') : Safe A (.lift p) l Q E := by
  induction p generalizing l with
  | ret b => cases h; exact hQ
  | get i k ih =>
    simp only [run, listOps] at h
    cases e : at? l i with
    | none => rw [e] at h; cases h
    | some x => rw [e] at h; exact ⟨x, e, ih x h⟩
  | set i v k ih => exact ih h
  | size k ih => exact ih _ h
  | panic => cases h
  | outOfFuel => cases h

theorem Safe.bind_lift {p : Prog T α} {k : α → CProg T β} {Q : β → List T → Prop} {a : α} {l' : List T}
    (h : run listOps p l = .ok (a, l')) (hk : Safe A (k a) l' Q E) : Safe A (.lift p >>= k) l Q E :=
  .bind (.lift h hk)

theorem Safe.bind_cmp {x y : T} {k : Int → CProg T β} {Q : β → List T → Prop} (hE : E l)
    (hk : ∀ r, A x y r → Safe A (k r) l Q E) : Safe A (callCmp x y >>= k) l Q E := ⟨hE, hk⟩

/-- What `Safe` says about runs: with any comparator whose answers are allowed, on any lawful container, the call returns with a
container satisfying `Q`, or the comparator panics and leaves a container satisfying `E`. -/
theorem Safe.run (hl : Lawful ops Inv abs) {ask : CmpFn σ T} (ha : ∀ s x y r s', ask s x y = some (r, s') → A x y r)
    {p : CProg T α} {Q : α → List T → Prop} {c : C} (hc : Inv c) (h : Safe A p (abs c) Q E) (s : σ) :
    ∃ c', Inv c' ∧ ((∃ a s', runC ops ask p s c = .done a c' s' ∧ Q a (abs c')) ∨
      (runC ops ask p s c = .crashed c' ∧ E (abs c'))) := by
  induction p generalizing c s with
  | ret a => exact ⟨c, hc, .inl ⟨a, s, rfl, h⟩⟩
  | get i k ih =>
    obtain ⟨x, hx, h⟩ := h
    have e : ops.get c i = .ok x := by rw [hl.get c i hc, hx]; rfl
    simp only [runC, e]
    exact ih x hc h s
  | set i v k ih =>
    obtain ⟨c', e, h1, h2⟩ := hl.set c i v hc
    simp only [runC, e]
    exact ih h1 (by rw [h2]; exact h) s
  | size k ih =>
    simp only [runC, hl.size c hc]
    exact ih _ hc h s
  | cmp x y k ih =>
    simp only [runC]
    cases e : ask s x y with
    | none => exact ⟨c, hc, .inr ⟨rfl, h.1⟩⟩
    | some q => exact ih q.1 hc (h.2 q.1 (ha s x y q.1 q.2 e)) q.2
  | panic => exact h.elim
  | outOfFuel => exact h.elim

/-- Any answer. -/
def AnyAnswer (_ _ : T) (_ : Int) : Prop := True

/-! ## The quick sort family -/

/-- The range that the call works on is `lo..hi`, the container was `l₀` when it began, and it is `l` now. -/
theorem safe_swapIfGreater {l₀ l : List T} {lo hi i j : Int} (s : Swaps lo hi l₀ l) (hl : 0 ≤ lo) (hh : hi < l₀.length)
    (a : lo ≤ i) (b : i ≤ hi) (c : lo ≤ j) (d : j ≤ hi) :
    Safe AnyAnswer (swapIfGreaterC i j) l (fun _ l' => Swaps lo hi l₀ l') (Swaps lo hi l₀) := by
  have n := s.length
  obtain ⟨x, hx⟩ := at?_ge (l := l) (i := i) (by omega)
  obtain ⟨y, hy⟩ := at?_ge (l := l) (i := j) (by omega)
  unfold swapIfGreaterC
  refine .bind_lift (run_value hx) (.bind_lift (run_value hy) (.bind_cmp s fun r _ => ?_))
  split
  · exact .lift (run_swapValue (by omega) (by omega)) (s.trans (.one a b c d))
  · exact s

theorem Safe.then {p : CProg T α} {k : α → CProg T β} {Q : α → List T → Prop} {Q' : β → List T → Prop}
    (h : Safe A p l Q E) (hk : ∀ a l', Q a l' → Safe A (k a) l' Q' E) : Safe A (p >>= k) l Q' E :=
  .bind (h.mono hk fun _ => id)

theorem safe_swap {l₀ l : List T} {lo hi i j : Int} (s : Swaps lo hi l₀ l) (hl : 0 ≤ lo) (hh : hi < l₀.length)
    (a : lo ≤ i) (b : i ≤ hi) (c : lo ≤ j) (d : j ≤ hi) :
    Safe A (swapC i j) l (fun _ l' => Swaps lo hi l₀ l') E := by
  have n := s.length
  exact .lift (run_swapValue (by omega) (by omega)) (s.trans (.one a b c d))

theorem safe_doPivot {l₀ l : List T} {lo hi first mid last : Int} (s : Swaps lo hi l₀ l) (hl : 0 ≤ lo) (hh : hi < l₀.length)
    (h0 : lo ≤ first) (h1 : first < mid) (h2 : mid < last) (h3 : last ≤ hi) :
    Safe AnyAnswer (doPivotC first mid last) l (fun _ l' => Swaps lo hi l₀ l') (Swaps lo hi l₀) := by
  unfold doPivotC
  refine (safe_swapIfGreater s hl hh (by omega) (by omega) (by omega) (by omega)).then fun _ l1 s1 => ?_
  refine (safe_swapIfGreater s1 hl hh (by omega) (by omega) (by omega) (by omega)).then fun _ l2 s2 => ?_
  exact safe_swapIfGreater s2 hl hh (by omega) (by omega) (by omega) (by omega)

theorem safe_partitionLoop {l₀ : List T} {lo hi base : Int} (hl : 0 ≤ lo) (hh : hi < l₀.length) (hb : lo ≤ base) (hb' : base ≤ hi) :
    ∀ (f : Nat) (l : List T) (left right : Int), Swaps lo hi l₀ l → lo ≤ left → left ≤ right + 2 → right ≤ hi →
      right - left + 2 ≤ f → 1 ≤ f →
    Safe AnyAnswer (partitionLoopC base f left right) l
      (fun r l' => Swaps lo hi l₀ l' ∧ min (left - 1) right ≤ r ∧ r ≤ right) (Swaps lo hi l₀) := by
  intro f
  induction f with
  | zero => intro l left right _ _ _ _ _ hf; omega
  | succ f ih =>
    intro l left right s h1 h2 h3 hf _
    have n := s.length
    push_cast at hf
    unfold partitionLoopC
    split
    · next hle =>
      obtain ⟨x, hx⟩ := at?_ge (l := l) (i := left) (by omega)
      obtain ⟨y, hy⟩ := at?_ge (l := l) (i := right) (by omega)
      obtain ⟨pv, hpv⟩ := at?_ge (l := l) (i := base) (by omega)
      refine .bind_lift (run_value hx) (.bind_lift (run_value hpv) (.bind_cmp s fun r _ => ?_))
      split
      · refine .bind_lift (run_next_lt (by omega)) ?_
        exact (ih l (left + 1) right s (by omega) (by omega) h3 (by omega) (by omega)).mono
          (fun r l' h => ⟨h.1, by omega, h.2.2⟩) fun _ => id
      · refine .bind_lift (run_value hy) (.bind_lift (run_value hpv) (.bind_cmp s fun r _ => ?_))
        split
        · refine .bind_lift (run_prev_ge (by omega)) ?_
          exact (ih l left (right - 1) s (by omega) (by omega) (by omega) (by omega) (by omega)).mono
            (fun r l' h => ⟨h.1, by omega, by omega⟩) fun _ => id
        · refine (safe_swap s hl hh (by omega) (by omega) (by omega) (by omega)).then fun _ l1 s1 => ?_
          have n1 := s1.length
          refine .bind_lift (run_next_lt (by omega)) (.bind_lift (run_prev_ge (by omega)) ?_)
          exact (ih l1 (left + 1) (right - 1) s1 (by omega) (by omega) (by omega) (by omega) (by omega)).mono
            (fun r l' h => ⟨h.1, by omega, by omega⟩) fun _ => id
    · exact ⟨s, by omega, by omega⟩

theorem safe_quickSort {l₀ : List T} {lo hi : Int} (hl : 0 ≤ lo) (hh : hi < l₀.length) : ∀ (f : Nat) (l : List T) (first last : Int),
    Swaps lo hi l₀ l → lo ≤ first → last ≤ hi → last - first + 2 ≤ f → 1 ≤ f →
    Safe AnyAnswer (quickSortC f first last) l (fun _ l' => Swaps lo hi l₀ l') (Swaps lo hi l₀) := by
  intro f
  induction f with
  | zero => intro l first last _ _ _ _ h; omega
  | succ f ih =>
    intro l first last s h0 h1 hf _
    push_cast at hf
    unfold quickSortC
    split
    · exact s
    simp only
    split
    · exact safe_swapIfGreater s hl hh (by omega) (by omega) (by omega) (by omega)
    refine (safe_doPivot s hl hh h0 (by omega) (by omega) h1).then fun _ l1 s1 => ?_
    refine (safe_swap s1 hl hh (by omega) (by omega) (by omega) (by omega)).then fun _ l2 s2 => ?_
    split
    · exact s2
    refine (safe_partitionLoop hl hh (by omega) (by omega) _ l2 (first + 1) (last - 2) s2 (by omega) (by omega) (by omega)
      (by push_cast; omega) (by omega)).then fun r l3 ⟨s3, r1, r2⟩ => ?_
    have n3 := s3.length
    refine .bind_lift (run_next_lt (by omega)) ?_
    refine (safe_swap s3 hl hh (by omega) (by omega) (by omega) (by omega)).then fun _ l4 s4 => ?_
    refine (ih l4 first (r + 1 - 1) s4 h0 (by omega) (by omega) (by omega)).then fun _ l5 s5 => ?_
    have n5 := s5.length
    exact .bind_lift (run_next_lt (by omega)) (ih l5 (r + 1 + 1) last s5 (by omega) h1 (by omega) (by omega))

theorem safe_nthElementRec {l₀ : List T} {lo hi : Int} (hl : 0 ≤ lo) (hh : hi < l₀.length) :
    ∀ (f : Nat) (l : List T) (first last n : Int), Swaps lo hi l₀ l → lo ≤ first → last ≤ hi → last - first + 2 ≤ f → 1 ≤ f →
    Safe AnyAnswer (nthElementRecC f first last n) l (fun _ l' => Swaps lo hi l₀ l') (Swaps lo hi l₀) := by
  intro f
  induction f with
  | zero => intro l first last n _ _ _ _ h; omega
  | succ f ih =>
    intro l first last n s h0 h1 hf _
    push_cast at hf
    unfold nthElementRecC
    split
    · exact s
    simp only
    split
    · exact safe_swapIfGreater s hl hh (by omega) (by omega) (by omega) (by omega)
    refine (safe_doPivot s hl hh h0 (by omega) (by omega) h1).then fun _ l1 s1 => ?_
    refine (safe_swap s1 hl hh (by omega) (by omega) (by omega) (by omega)).then fun _ l2 s2 => ?_
    split
    · exact s2
    refine (safe_partitionLoop hl hh (by omega) (by omega) _ l2 (first + 1) (last - 2) s2 (by omega) (by omega) (by omega)
      (by push_cast; omega) (by omega)).then fun r l3 ⟨s3, r1, r2⟩ => ?_
    have n3 := s3.length
    refine .bind_lift (run_next_lt (by omega)) ?_
    refine (safe_swap s3 hl hh (by omega) (by omega) (by omega) (by omega)).then fun _ l4 s4 => ?_
    split
    · exact ih l4 first (r + 1) n s4 h0 (by omega) (by omega) (by omega)
    · have n4 := s4.length
      exact .bind_lift (run_next_lt (by omega)) (ih l4 (r + 1 + 1) last _ s4 (by omega) h1 (by omega) (by omega))

/-! ## Merge sort -/

theorem safe_mergeLoop (l : List T) (mid last : Int) (hE : E l) :
    ∀ (f : Nat) (X Y : List T) (a b : Int) (pos : Nat) (tmp : List T), SegAt l a X → SegAt l b Y → a + X.length = mid →
      b + Y.length = last → pos + X.length + Y.length ≤ tmp.length → X.length + Y.length + 1 ≤ f →
    Safe AnyAnswer (mergeLoopC mid last f a b pos tmp) l (fun r l' => l' = l ∧ ∃ X' Y',
      SegAt l r.1 X' ∧ SegAt l r.2.1 Y' ∧ r.1 + X'.length = mid ∧ r.2.1 + Y'.length = last ∧
      r.2.2.2.length = tmp.length ∧ r.2.2.1 + X'.length + Y'.length = pos + X.length + Y.length ∧
      (r.2.2.2.take r.2.2.1 ++ (X' ++ Y')).Perm (tmp.take pos ++ (X ++ Y))) E := by
  intro f
  induction f with
  | zero => intro X Y a b pos tmp _ _ _ _ _ hf; omega
  | succ f ih =>
    intro X Y a b pos tmp hX hY ha hb hp hf
    unfold mergeLoopC
    cases X with
    | nil =>
      rw [if_neg (by simp at ha; omega)]
      exact ⟨rfl, [], Y, hX, hY, ha, hb, rfl, rfl, .refl _⟩
    | cons x X =>
      cases Y with
      | nil =>
        rw [if_neg (by simp at hb; omega)]
        exact ⟨rfl, x :: X, [], hX, hY, ha, hb, rfl, rfl, .refl _⟩
      | cons y Y =>
        simp only [List.length_cons] at ha hb hp hf
        have ba := hX.bounds
        have bb := hY.bounds
        simp only [List.length_cons] at ba bb
        push_cast at ha hb ba bb
        rw [if_pos (by omega)]
        refine .bind_lift (run_value hX.head) (.bind_lift (run_value hY.head) (.bind_cmp hE fun r _ => ?_))
        split
        · refine .bind_lift (run_value hX.head) ?_
          rw [if_pos (by omega)]
          refine .bind_lift (run_next_lt (by omega)) ?_
          refine (ih X (y :: Y) (a + 1) b (pos + 1) (tmp.set pos x) hX.tail hY (by omega) (by simp; omega)
              (by simp; omega) (by simp; omega)).mono ?_ fun _ => id
          rintro r l' ⟨e, X', Y', q1, q2, q3, q4, q5, q6, q7⟩
          refine ⟨e, X', Y', q1, q2, q3, q4, by simpa using q5, by simp at q6 ⊢; omega, q7.trans ?_⟩
          rw [take_set_succ _ _ _ (by omega)]
          simp
        · refine .bind_lift (run_value hY.head) ?_
          rw [if_pos (by omega)]
          refine .bind_lift (run_next_lt (by omega)) ?_
          refine (ih (x :: X) Y a (b + 1) (pos + 1) (tmp.set pos y) hX hY.tail (by simp; omega) (by omega)
              (by simp; omega) (by simp; omega)).mono ?_ fun _ => id
          rintro r l' ⟨e, X', Y', q1, q2, q3, q4, q5, q6, q7⟩
          refine ⟨e, X', Y', q1, q2, q3, q4, by simpa using q5, by simp at q6 ⊢; omega, q7.trans ?_⟩
          rw [take_set_succ _ _ _ (by omega), List.append_assoc]
          refine List.Perm.append_left _ ?_
          have : (y :: ((x :: X) ++ Y)).Perm ((x :: X) ++ y :: Y) := List.perm_middle.symm
          simpa using this

theorem safe_merge (P X Y S tmp : List T) (first mid last : Int) (h1 : first = P.length)
    (h2 : mid = P.length + X.length) (h3 : last = P.length + X.length + Y.length) (ht : X.length + Y.length ≤ tmp.length)
    (hE : E (P ++ (X ++ Y) ++ S)) :
    Safe AnyAnswer (mergeC first mid last tmp) (P ++ (X ++ Y) ++ S)
      (fun tmp' l' => tmp'.length = tmp.length ∧ ∃ M', l' = P ++ M' ++ S ∧ M'.Perm (X ++ Y)) E := by
  have hs : SegAt (P ++ (X ++ Y) ++ S) first (X ++ Y) := ⟨P, S, rfl, h1⟩
  have hX := hs.left
  have hY := hs.right
  have em : first + X.length = mid := by omega
  rw [em] at hY
  unfold mergeC
  refine (safe_mergeLoop _ mid last hE ((last - first).toNat + 1) X Y first mid 0 tmp hX hY em (by omega) (by omega)
    (by omega)).then ?_
  rintro ⟨a', b', pos', tmp1⟩ l' ⟨rfl, X', Y', sX, sY, q1, q2, q4, q5, q6⟩
  simp only [Nat.zero_add, List.take_zero, List.nil_append] at sX sY q1 q2 q4 q5 q6
  obtain ⟨tmp2, e2, q7, q8⟩ := run_drainLoop _ mid ((last - first).toNat + 1) X' a' pos' tmp1 sX q1 (by omega) (by omega)
  obtain ⟨tmp3, e3, q9, q10⟩ := run_drainLoop _ last ((last - first).toNat + 1) Y' b' (pos' + X'.length) tmp2 sY q2
    (by omega) (by omega)
  have e4 := run_copyBack tmp3 (pos' + X'.length + Y'.length) 0 P (X ++ Y) S first (by simp; omega) h1 (by omega)
  have e : run listOps (mergeRest first mid last ((last - first).toNat + 1) (a', b', pos', tmp1)) (P ++ (X ++ Y) ++ S) =
      .ok (tmp3, P ++ (tmp3.drop 0).take (pos' + X'.length + Y'.length) ++ S) := by
    unfold mergeRest
    simp only
    rw [run_bind_ok e2]
    simp only
    rw [run_bind_ok e3]
    simp only
    rw [run_bind_ok e4, run_pure]
  refine .lift e ⟨by omega, _, rfl, ?_⟩
  rw [List.drop_zero, q10, q8]
  simpa using q6

/-- The container is `l` except that the range `M` between `P` and `S` may be permuted. -/
def Permuted (P M S l : List T) : Prop := ∃ M', l = P ++ M' ++ S ∧ M'.Perm M

theorem safe_mergeSort : ∀ (f : Nat) (P M S tmp : List T) (first last : Int) (E : List T → Prop), first = P.length →
      last = P.length + M.length → 1 ≤ M.length → M.length ≤ f → M.length ≤ tmp.length →
      (∀ M', M'.Perm M → E (P ++ M' ++ S)) →
    Safe AnyAnswer (mergeSortC f first last tmp) (P ++ M ++ S)
      (fun tmp' l' => tmp'.length = tmp.length ∧ Permuted P M S l') E := by
  intro f
  induction f with
  | zero => intro P M S tmp first last E _ _ h1 h2; omega
  | succ f ih =>
    intro P M S tmp first last E hf hl h1 h2 h3 hE
    unfold mergeSortC
    by_cases c : M.length = 1
    · rw [if_pos (by omega)]
      exact ⟨rfl, M, rfl, .refl _⟩
    · rw [if_neg (by omega)]
      simp only
      generalize hm : (first + last) / 2 = mid
      let k := (mid - first).toNat
      have hk : (k : Int) = mid - first := by show ((mid - first).toNat : Int) = _; omega
      have hk1 : 1 ≤ k := by omega
      have hk2 : k < M.length := by omega
      let X := M.take k
      let Y := M.drop k
      have hX : X.length = k := by simp [X]; omega
      have hY : Y.length = M.length - k := by simp [Y]
      have eM : M = X ++ Y := (List.take_append_drop k M).symm
      have e0 : P ++ M ++ S = P ++ X ++ (Y ++ S) := by rw [eM]; simp
      rw [e0]
      refine (ih P X (Y ++ S) tmp first mid E hf (by omega) (by omega) (by omega) (by omega) fun X' hX' => ?_).then ?_
      · have : P ++ X' ++ (Y ++ S) = P ++ (X' ++ Y) ++ S := by simp
        rw [this]
        exact hE _ (by rw [eM]; exact hX'.append_right Y)
      rintro tmp1 l1 ⟨t1, X', rfl, sX⟩
      have lX : X'.length = X.length := sX.length_eq
      have e1 : P ++ X' ++ (Y ++ S) = (P ++ X') ++ Y ++ S := by simp
      rw [e1]
      refine (ih (P ++ X') Y S tmp1 mid last E (by simp; omega) (by simp; omega) (by omega) (by omega) (by omega)
        fun Y' hY' => ?_).then ?_
      · have : P ++ X' ++ Y' ++ S = P ++ (X' ++ Y') ++ S := by simp
        rw [this]
        exact hE _ (by rw [eM]; exact sX.append hY')
      rintro tmp2 l2 ⟨t2, Y', rfl, sY⟩
      have lY : Y'.length = Y.length := sY.length_eq
      have e2 : P ++ X' ++ Y' ++ S = P ++ (X' ++ Y') ++ S := by simp
      rw [e2]
      refine (safe_merge P X' Y' S tmp2 first mid last hf (by omega) (by omega) (by omega) (hE _ ?_)).mono ?_ fun _ => id
      · rw [eM]; exact sX.append sY
      · rintro tmp3 l3 ⟨t3, M', rfl, sM⟩
        exact ⟨by omega, M', rfl, by rw [eM]; exact sM.trans (sX.append sY)⟩

/-! ## The searches -/

theorem safe_binarySearchLoop (val : T) (l : List T) : ∀ (f : Nat) (left right : Int), 0 ≤ left → right < l.length →
      right - left + 2 ≤ f → 1 ≤ f →
    Safe AnyAnswer (binarySearchLoopC val f left right) l (fun _ l' => l' = l) (· = l) := by
  intro f
  induction f with
  | zero => intro left right _ _ _ hf; omega
  | succ f ih =>
    intro left right c1 c2 hf _
    push_cast at hf
    unfold binarySearchLoopC
    split
    · next hle =>
      simp only
      obtain ⟨x, hx⟩ := at?_ge (l := l) (i := (left + right) / 2) (by omega)
      refine .bind_lift (run_value hx) (.bind_cmp rfl fun r _ => ?_)
      split
      · rfl
      split
      · exact .bind_lift (run_prev_ge (by omega)) (ih _ _ c1 (by omega) (by omega) (by omega))
      · exact .bind_lift (run_next_lt (by omega)) (ih _ _ (by omega) c2 (by omega) (by omega))
    · rfl

theorem safe_boundLoop (below : Int → Bool) (val : T) (l : List T) : ∀ (f : Nat) (left right pos : Int), 0 ≤ left →
      right < l.length → right - left + 2 ≤ f → 1 ≤ f →
    Safe AnyAnswer (boundLoopC below val f left right pos) l (fun _ l' => l' = l) (· = l) := by
  intro f
  induction f with
  | zero => intro left right pos _ _ _ hf; omega
  | succ f ih =>
    intro left right pos c1 c2 hf _
    push_cast at hf
    unfold boundLoopC
    split
    · next hle =>
      simp only
      obtain ⟨x, hx⟩ := at?_ge (l := l) (i := (left + right) / 2) (by omega)
      refine .bind_lift (run_value hx) (.bind_cmp rfl fun r _ => ?_)
      split
      · exact .bind_lift (run_prev_ge (by omega)) (ih _ _ _ c1 (by omega) (by omega) (by omega))
      · exact .bind_lift (run_next_lt (by omega)) (ih _ _ _ (by omega) c2 (by omega) (by omega))
    · rfl

/-! ## The statements -/

/-- The call returned, or the comparator panicked; the container is `c'` then. -/
def EndsIn (o : Out σ C α) (c' : C) : Prop := (∃ a s, o = .done a c' s) ∨ o = .crashed c'

/-- **C88** `Sort` with any comparator whatsoever: whether it returns or the comparator panics, at whichever call, the range holds a
permutation of its elements and nothing outside the range is touched. -/
theorem C88_sort (hl : Lawful ops Inv abs) {c : C} (hc : Inv c) (ask : CmpFn σ T) (s : σ) (P M S : List T)
    (hM : abs c = P ++ M ++ S) :
    ∃ c' M', EndsIn (runC ops ask (sortC P.length (P.length + M.length)) s c) c' ∧ Inv c' ∧ abs c' = P ++ M' ++ S ∧
      M'.Perm M := by
  have h : Safe AnyAnswer (sortC P.length (P.length + M.length)) (P ++ M ++ S)
      (fun _ l' => Swaps P.length (P.length + M.length - 1) (P ++ M ++ S) l')
      (Swaps P.length (P.length + M.length - 1) (P ++ M ++ S)) := by
    unfold sortC
    exact safe_quickSort (by omega) (by simp; omega) _ _ _ _ .refl (by omega) (by omega) (by push_cast; omega) (by omega)
  rw [← hM] at h
  obtain ⟨c', h1, h2⟩ := h.run hl (ask := ask) (fun _ _ _ _ _ _ => trivial) hc s
  have key : Swaps P.length (P.length + M.length - 1) (P ++ M ++ S) (abs c') := by
    rw [← hM]; rcases h2 with ⟨a, s', -, h⟩ | ⟨-, h⟩ <;> exact h
  obtain ⟨M', e, hp⟩ := key.segment
  exact ⟨c', M', h2.imp (fun ⟨a, s', e, _⟩ => ⟨a, s', e⟩) (fun h => h.1), h1, e, hp⟩

/-- **C88** `NthElement` with any comparator and any `n` whatsoever: whether it returns or the comparator panics, at whichever call, the
range holds a permutation of its elements and nothing outside the range is touched. -/
theorem C88_nthElement (hl : Lawful ops Inv abs) {c : C} (hc : Inv c) (ask : CmpFn σ T) (s : σ) (P M S : List T)
    (hM : abs c = P ++ M ++ S) (n : Int) :
    ∃ c' M', EndsIn (runC ops ask (nthElementC P.length (P.length + M.length) n) s c) c' ∧ Inv c' ∧ abs c' = P ++ M' ++ S ∧
      M'.Perm M := by
  have h : Safe AnyAnswer (nthElementC P.length (P.length + M.length) n) (P ++ M ++ S)
      (fun _ l' => Swaps P.length (P.length + M.length - 1) (P ++ M ++ S) l')
      (Swaps P.length (P.length + M.length - 1) (P ++ M ++ S)) := by
    unfold nthElementC
    split
    · exact .refl
    · exact safe_nthElementRec (by omega) (by simp; omega) _ _ _ _ _ .refl (by omega) (by omega) (by push_cast; omega) (by omega)
  rw [← hM] at h
  obtain ⟨c', h1, h2⟩ := h.run hl (ask := ask) (fun _ _ _ _ _ _ => trivial) hc s
  have key : Swaps P.length (P.length + M.length - 1) (P ++ M ++ S) (abs c') := by
    rw [← hM]; rcases h2 with ⟨a, s', -, h⟩ | ⟨-, h⟩ <;> exact h
  obtain ⟨M', e, hp⟩ := key.segment
  exact ⟨c', M', h2.imp (fun ⟨a, s', e, _⟩ => ⟨a, s', e⟩) (fun h => h.1), h1, e, hp⟩

/-- **C88** `Stable` on a non-empty range with any comparator whatsoever: whether it returns or the comparator panics, at whichever call,
the range holds a permutation of its elements and nothing outside the range is touched. -/
theorem C88_stable (hl : Lawful ops Inv abs) {c : C} (hc : Inv c) (ask : CmpFn σ T) (s : σ) (P M S : List T)
    (hM : abs c = P ++ M ++ S) (hne : M ≠ []) (zero : T) (fuel : Nat) (hf : M.length ≤ fuel) :
    ∃ c' M', EndsIn (runC ops ask (stableC zero fuel P.length (P.length + M.length)) s c) c' ∧ Inv c' ∧ abs c' = P ++ M' ++ S ∧
      M'.Perm M := by
  have h1 : 1 ≤ M.length := by cases M <;> simp_all
  have h : Safe AnyAnswer (stableC zero fuel P.length (P.length + M.length)) (P ++ M ++ S)
      (fun _ l' => Permuted P M S l') (Permuted P M S) := by
    have e1 : ((P.length : Int) + M.length - P.length).toNat = M.length := by omega
    unfold stableC
    rw [if_neg (by omega), e1]
    refine (safe_mergeSort fuel P M S (List.replicate M.length zero) P.length (P.length + M.length) _ rfl rfl h1 hf
      (by simp) fun M' hp => ⟨M', rfl, hp⟩).then ?_
    rintro tmp l' ⟨-, h⟩
    exact h
  rw [← hM] at h
  obtain ⟨c', h1, h2⟩ := h.run hl (ask := ask) (fun _ _ _ _ _ _ => trivial) hc s
  have key : Permuted P M S (abs c') := by
    rcases h2 with ⟨a, s', -, h⟩ | ⟨-, h⟩ <;> exact h
  obtain ⟨M', e, hp⟩ := key
  exact ⟨c', M', h2.imp (fun ⟨a, s', e, _⟩ => ⟨a, s', e⟩) (fun h => h.1), h1, e, hp⟩

theorem unchanged_of_safe (hl : Lawful ops Inv abs) {c : C} (hc : Inv c) (ask : CmpFn σ T) (s : σ) {p : CProg T α}
    (h : Safe AnyAnswer p (abs c) (fun _ l' => l' = abs c) (· = abs c)) :
    ∃ c', EndsIn (runC ops ask p s c) c' ∧ Inv c' ∧ abs c' = abs c := by
  obtain ⟨c', h1, h2⟩ := h.run hl (ask := ask) (fun _ _ _ _ _ _ => trivial) hc s
  refine ⟨c', h2.imp (fun ⟨a, s', e, _⟩ => ⟨a, s', e⟩) (fun h => h.1), h1, ?_⟩
  rcases h2 with ⟨a, s', -, h⟩ | ⟨-, h⟩ <;> exact h

/-- **C88** `BinarySearch` with any comparator whatsoever, on any range: it returns or the comparator panics, and the container is as
before. -/
theorem C88_binarySearch (hl : Lawful ops Inv abs) {c : C} (hc : Inv c) (ask : CmpFn σ T) (s : σ) (P M S : List T)
    (hM : abs c = P ++ M ++ S) (val : T) :
    ∃ c', EndsIn (runC ops ask (binarySearchC P.length (P.length + M.length) val) s c) c' ∧ Inv c' ∧ abs c' = abs c := by
  refine unchanged_of_safe hl hc ask s ?_
  have hn : (abs c).length = P.length + M.length + S.length := by rw [hM]; simp; omega
  unfold binarySearchC
  refine .bind_lift (run_isValid _ _) ?_
  split
  · rfl
  · exact .bind_lift (run_prev_ge (by omega)) (safe_binarySearchLoop val _ _ _ _ (by omega) (by omega) (by push_cast; omega) (by omega))

/-- **C88** `LowerBound` with any comparator whatsoever, on any range: it returns or the comparator panics, and the container is as
before. -/
theorem C88_lowerBound (hl : Lawful ops Inv abs) {c : C} (hc : Inv c) (ask : CmpFn σ T) (s : σ) (P M S : List T)
    (hM : abs c = P ++ M ++ S) (val : T) :
    ∃ c', EndsIn (runC ops ask (lowerBoundC P.length (P.length + M.length) val) s c) c' ∧ Inv c' ∧ abs c' = abs c := by
  refine unchanged_of_safe hl hc ask s ?_
  have hn : (abs c).length = P.length + M.length + S.length := by rw [hM]; simp; omega
  unfold lowerBoundC
  refine .bind_lift (run_isValid _ _) ?_
  split
  · rfl
  next hv =>
  have hx : ∃ x, at? (abs c) ((P.length : Int) + M.length - 1) = some x := at?_ge (by omega)
  obtain ⟨x, hx⟩ := hx
  refine .bind_lift (run_prev_ge (by omega)) (.bind_lift (run_value hx) (.bind_cmp rfl fun r _ => ?_))
  split
  · rfl
  · exact safe_boundLoop _ val _ _ _ _ _ (by omega) (by omega) (by push_cast; omega) (by omega)

/-- **C88** `UpperBound` with any comparator whatsoever, on any range: it returns or the comparator panics, and the container is as
before. -/
theorem C88_upperBound (hl : Lawful ops Inv abs) {c : C} (hc : Inv c) (ask : CmpFn σ T) (s : σ) (P M S : List T)
    (hM : abs c = P ++ M ++ S) (val : T) :
    ∃ c', EndsIn (runC ops ask (upperBoundC P.length (P.length + M.length) val) s c) c' ∧ Inv c' ∧ abs c' = abs c := by
  refine unchanged_of_safe hl hc ask s ?_
  have hn : (abs c).length = P.length + M.length + S.length := by rw [hM]; simp; omega
  unfold upperBoundC
  refine .bind_lift (run_isValid _ _) ?_
  split
  · rfl
  next hv =>
  have hx : ∃ x, at? (abs c) ((P.length : Int) + M.length - 1) = some x := at?_ge (by omega)
  obtain ⟨x, hx⟩ := hx
  refine .bind_lift (run_prev_ge (by omega)) (.bind_lift (run_value hx) (.bind_cmp rfl fun r _ => ?_))
  split
  · rfl
  · exact safe_boundLoop _ val _ _ _ _ _ (by omega) (by omega) (by push_cast; omega) (by omega)

/-! ## `NextPermutation` -/

/-- The program writes nothing. -/
def NoSet : CProg T α → Prop
  | .ret _ => True
  | .get _ k => ∀ x, NoSet (k x)
  | .set _ _ _ => False
  | .size k => ∀ n, NoSet (k n)
  | .cmp _ _ k => ∀ r, NoSet (k r)
  | .panic => True
  | .outOfFuel => True

/-- The program calls no comparator. -/
def NoCmp : CProg T α → Prop
  | .ret _ => True
  | .get _ k => ∀ x, NoCmp (k x)
  | .set _ _ k => NoCmp k
  | .size k => ∀ n, NoCmp (k n)
  | .cmp _ _ _ => False
  | .panic => True
  | .outOfFuel => True

/-- The program makes all its comparator calls before its first write. -/
def LateWrites : CProg T α → Prop
  | .ret _ => True
  | .get _ k => ∀ x, LateWrites (k x)
  | .set _ _ k => NoCmp k
  | .size k => ∀ n, LateWrites (k n)
  | .cmp _ _ k => ∀ r, LateWrites (k r)
  | .panic => True
  | .outOfFuel => True

theorem noCmp_lift (p : Prog T α) : NoCmp (.lift p) := by
  induction p with
  | ret a => trivial
  | get i k ih => exact ih
  | set i v k ih => exact ih
  | size k ih => exact ih
  | panic => trivial
  | outOfFuel => trivial

theorem NoCmp.bind {p : CProg T α} {k : α → CProg T β} (h : NoCmp p) (hk : ∀ a, NoCmp (k a)) : NoCmp (p >>= k) := by
  show NoCmp (p.bind k)
  induction p with
  | ret a => exact hk a
  | get i k ih => exact fun x => ih x (h x)
  | set i v k ih => exact ih h
  | size k ih => exact fun x => ih x (h x)
  | cmp x y k ih => exact h.elim
  | panic => trivial
  | outOfFuel => trivial

theorem NoCmp.late {p : CProg T α} (h : NoCmp p) : LateWrites p := by
  induction p with
  | ret a => trivial
  | get i k ih => exact fun x => ih x (h x)
  | set i v k ih => exact h
  | size k ih => exact fun x => ih x (h x)
  | cmp x y k ih => exact h.elim
  | panic => trivial
  | outOfFuel => trivial

theorem NoSet.bind_late {p : CProg T α} {k : α → CProg T β} (h : NoSet p) (hk : ∀ a, LateWrites (k a)) : LateWrites (p >>= k) := by
  show LateWrites (p.bind k)
  induction p with
  | ret a => exact hk a
  | get i k ih => exact fun x => ih x (h x)
  | set i v k ih => exact h.elim
  | size k ih => exact fun x => ih x (h x)
  | cmp x y k ih => exact fun x => ih x (h x)
  | panic => trivial
  | outOfFuel => trivial

theorem NoCmp.no_crash {p : CProg T α} (h : NoCmp p) {ask : CmpFn σ T} {s : σ} {c c' : C} : runC ops ask p s c ≠ .crashed c' := by
  induction p generalizing c with
  | ret a => nofun
  | get i k ih =>
    simp only [runC]
    cases ops.get c i with
    | ok x => exact ih x (h x)
    | panic => nofun
    | outOfFuel => nofun
  | set i v k ih =>
    simp only [runC]
    cases ops.set c i v with
    | ok c => exact ih h
    | panic => nofun
    | outOfFuel => nofun
  | size k ih => exact ih _ (h _)
  | cmp x y k ih => exact h.elim
  | panic => nofun
  | outOfFuel => nofun

theorem LateWrites.unchanged {p : CProg T α} (h : LateWrites p) {ask : CmpFn σ T} {s : σ} {c c' : C}
    (e : runC ops ask p s c = .crashed c') : c' = c := by
  induction p generalizing s c with
  | ret a => cases e
  | get i k ih =>
    simp only [runC] at e
    cases e1 : ops.get c i with
    | ok x => rw [e1] at e; exact ih x (h x) e
    | panic => rw [e1] at e; cases e
    | outOfFuel => rw [e1] at e; cases e
  | set i v k ih =>
    simp only [runC] at e
    cases e1 : ops.set c i v with
    | ok c => rw [e1] at e; exact (NoCmp.no_crash h e).elim
    | panic => rw [e1] at e; cases e
    | outOfFuel => rw [e1] at e; cases e
  | size k ih => exact ih _ (h _) e
  | cmp x y k ih =>
    simp only [runC] at e
    cases e1 : ask s x y with
    | none => rw [e1] at e; cases e; rfl
    | some q => rw [e1] at e; exact ih _ (h _) e
  | panic => cases e
  | outOfFuel => cases e

theorem noSet_npDescend (first : Int) (n : Nat) (c : Int) : NoSet (npDescendC first n c : CProg T Int) := by
  induction n generalizing c with
  | zero => trivial
  | succ n ih =>
    unfold npDescendC
    split
    · intro x y r
      show NoSet (if r ≥ 0 then _ else _)
      split
      · exact ih _
      · trivial
    · trivial

theorem noSet_npFind (pre : Int) (n : Nat) (c : Int) : NoSet (npFindC pre n c : CProg T Int) := by
  induction n generalizing c with
  | zero => trivial
  | succ n ih =>
    unfold npFindC
    intro x y r
    show NoSet (if r ≤ 0 then _ else _)
    split
    · exact ih _
    · trivial

theorem late_nextPermutation (first last : Int) : LateWrites (nextPermutationC first last : CProg T Bool) := by
  unfold nextPermutationC
  refine (noSet_npDescend _ _ _).bind_late fun cur => ?_
  simp only
  split
  · trivial
  refine (noSet_npFind _ _ _).bind_late fun cur' => ?_
  exact NoCmp.late (NoCmp.bind (noCmp_lift _) fun _ => NoCmp.bind (noCmp_lift _) fun _ => (trivial : NoCmp (pure true : CProg T Bool)))

/-- **C88** `NextPermutation` with any comparator whatsoever, on any container and any range: if the comparator panics, the container is
exactly as before the call. -/
theorem C88_nextPermutation_crash (ops : Ops C T) (ask : CmpFn σ T) (s : σ) (c c' : C) (first last : Int)
    (h : runC ops ask (nextPermutationC first last) s c = .crashed c') : c' = c :=
  (late_nextPermutation first last).unchanged h

/-- **C88** The calls with a comparator that panics at some calls and otherwise answers as the function `f` does: when no call of the
comparator panics, the call ends exactly as with `f`. -/
theorem C88_agree (ops : Ops C T) {ask : CmpFn σ T} {f : T → T → Int} (ha : ask.Answers f) (s : σ) (c : C) (first last n : Int)
    (zero val : T) (fuel : Nat) :
    Agrees (runC ops ask (sortC first last) s c) (run ops (sort f first last) c) ∧
    Agrees (runC ops ask (nthElementC first last n) s c) (run ops (nthElement f first last n) c) ∧
    Agrees (runC ops ask (stableC zero fuel first last) s c) (run ops (stable zero f fuel first last) c) ∧
    Agrees (runC ops ask (binarySearchC first last val) s c) (run ops (binarySearch f first last val) c) ∧
    Agrees (runC ops ask (lowerBoundC first last val) s c) (run ops (lowerBound f first last val) c) ∧
    Agrees (runC ops ask (upperBoundC first last val) s c) (run ops (upperBound f first last val) c) ∧
    Agrees (runC ops ask (nextPermutationC first last) s c) (run ops (nextPermutation f first last) c) := by
  rw [← handle_sort, ← handle_nthElement, ← handle_stable, ← handle_binarySearch, ← handle_lowerBound, ← handle_upperBound,
    ← handle_nextPermutation]
  exact ⟨runC_agrees ops ha _ s c, runC_agrees ops ha _ s c, runC_agrees ops ha _ s c, runC_agrees ops ha _ s c,
    runC_agrees ops ha _ s c, runC_agrees ops ha _ s c, runC_agrees ops ha _ s c⟩

/-- A comparator of integers that panics at its `n`-th call (its state is the number of calls left). -/
def fuse : CmpFn Nat Int
  | 0, _, _ => none
  | n + 1, x, y => some (x - y, n)

/-- A comparator whose answers alternate, whatever it is asked. -/
def flip : CmpFn Bool Int := fun s _ _ => some (if s then 1 else -1, !s)

theorem fuse_answers : fuse.Answers (fun x y => x - y) := by
  intro s x y r s' h
  cases s with
  | zero => cases h
  | succ n => cases h; rfl

/-- `C88_sort` where the comparator panics at its sixth call, in the middle of the partition: the elements are all there. -/
example : runC listOps fuse (sortC 1 7) 5 [9, 5, 3, 4, 1, 2, 6, 0] = .crashed [9, 1, 3, 4, 2, 5, 6, 0] := by rfl
example := C88_sort (ops := listOps) listOps_lawful (c := [9, 5, 3, 4, 1, 2, 6, 0]) trivial fuse 5 [9] [5, 3, 4, 1, 2, 6] [0] rfl
/-- With the alternating comparator the calls return. -/
example : ∃ l s, runC listOps flip (sortC 1 7) true [9, 5, 3, 4, 1, 2, 6, 0] = .done () l s := ⟨_, _, rfl⟩
example := C88_nthElement (ops := listOps) listOps_lawful (c := [9, 5, 3, 4, 1, 2, 6, 0]) trivial flip true [9] [5, 3, 4, 1, 2, 6] [0] rfl 2
/-- `C88_stable` where the comparator panics at its fourth call: the first three elements are merged already. -/
example : runC listOps fuse (stableC 0 6 1 7) 3 [9, 5, 3, 4, 1, 2, 6, 0] = .crashed [9, 3, 4, 5, 1, 2, 6, 0] := by rfl
example := C88_stable (ops := listOps) listOps_lawful (c := [9, 5, 3, 4, 1, 2, 6, 0]) trivial fuse 3 [9] [5, 3, 4, 1, 2, 6] [0] rfl (by decide) 0 6 (by decide)
example := C88_binarySearch (ops := listOps) listOps_lawful (c := [9, 1, 2, 3, 0]) trivial fuse 1 [9] [1, 2, 3] [0] rfl 3
example := C88_lowerBound (ops := listOps) listOps_lawful (c := [9, 1, 2, 3, 0]) trivial flip true [9] [1, 2, 3] [0] rfl 3
example := C88_upperBound (ops := listOps) listOps_lawful (c := [9, 1, 2, 3, 0]) trivial fuse 2 [9] [1, 2, 3] [0] rfl 3
/-- `C88_nextPermutation_crash` where the comparator panics in the second loop. -/
example : runC listOps fuse (nextPermutationC 0 4) 3 [1, 4, 3, 2] = .crashed [1, 4, 3, 2] := by rfl
example := C88_nextPermutation_crash listOps fuse 3 [1, 4, 3, 2] [1, 4, 3, 2] 0 4 rfl
/-- `C88_agree`. -/
example := C88_agree (listOps : Ops (List Int) Int) fuse_answers 20 [9, 5, 3, 4, 1, 2, 6, 0] 1 7 2 0 4 6

end GoSTL.Algo
