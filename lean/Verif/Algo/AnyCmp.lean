import Verif.Algo.Props
/-!
# C71: the algorithms with a comparator that is not an order

The comparator here is an arbitrary function of two elements (it is deterministic, but nothing else is assumed: it may be
cyclic, answer `-1` both ways or never `0`, as comparators on floats with NaN or user comparators with a bug do).
-/
namespace GoSTL.Algo
open GoSTL.Seq

variable {C T : Type} {ops : Ops C T} {Inv : C → Prop} {abs : C → List T}

theorem run_swapIfGreater_any (cmp : T → T → Int) {l : List T} {i j : Int} (hi : 0 ≤ i ∧ i < l.length)
    (hj : 0 ≤ j ∧ j < l.length) :
    ∃ l', run listOps (swapIfGreater cmp i j) l = .ok ((), l') ∧ (l' = l ∨ l' = lswap l i j) := by
  obtain ⟨x, hx⟩ := at?_ge hi
  obtain ⟨y, hy⟩ := at?_ge hj
  unfold swapIfGreater
  rw [run_bind_ok (run_value hx), run_bind_ok (run_value hy)]
  split
  · exact ⟨_, run_swapValue hi hj, .inr rfl⟩
  · exact ⟨l, rfl, .inl rfl⟩

theorem run_doPivot_any (cmp : T → T → Int) {l : List T} {first mid last : Int} (h0 : 0 ≤ first) (h1 : first < mid)
    (h2 : mid < last) (h3 : last < l.length) :
    ∃ l', run listOps (doPivot cmp first mid last) l = .ok ((), l') ∧ Swaps first last l l' := by
  obtain ⟨l1, e1, s1⟩ := run_swapIfGreater_any cmp (l := l) (i := first) (j := mid) (by omega) (by omega)
  have t1 : Swaps first last l l1 := .of_or s1 (by omega) (by omega) (by omega) (by omega)
  have n1 := t1.length
  obtain ⟨l2, e2, s2⟩ := run_swapIfGreater_any cmp (l := l1) (i := first) (j := last) (by omega) (by omega)
  have t2 : Swaps first last l1 l2 := .of_or s2 (by omega) (by omega) (by omega) (by omega)
  have n2 := t2.length
  obtain ⟨l3, e3, s3⟩ := run_swapIfGreater_any cmp (l := l2) (i := mid) (j := last) (by omega) (by omega)
  have t3 : Swaps first last l2 l3 := .of_or s3 (by omega) (by omega) (by omega) (by omega)
  refine ⟨l3, ?_, (t1.trans t2).trans t3⟩
  unfold doPivot
  rw [run_bind_ok e1, run_bind_ok e2, e3]

theorem run_partitionStep_any (cmp : T → T → Int) {l : List T} {first last : Int} (h0 : 0 ≤ first)
    (h1 : first + 3 ≤ last) (h2 : last < l.length) :
    ∃ m l', run listOps (partitionStep cmp first last) l = .ok (m, l') ∧ Swaps first last l l' ∧
      first + 1 ≤ m ∧ m ≤ last - 1 := by
  obtain ⟨l1, e1, s1⟩ := run_doPivot_any cmp (l := l) (first := first)
    (mid := first + (last - first + 1) / 2) (last := last) h0 (by omega) (by omega) h2
  have len1 := s1.length
  have hi : 0 ≤ first + (last - first + 1) / 2 ∧ first + (last - first + 1) / 2 < (l1.length : Int) := by omega
  have hj : 0 ≤ last - 1 ∧ last - 1 < (l1.length : Int) := by omega
  have e2 := run_swapValue hi hj
  have s2 : Swaps first last l1 (lswap l1 (first + (last - first + 1) / 2) (last - 1)) :=
    .one (by omega) (by omega) (by omega) (by omega)
  have len2 := s2.length
  obtain ⟨pv, hpv⟩ := at?_ge (l := lswap l1 (first + (last - first + 1) / 2) (last - 1)) (i := last - 1) (by omega)
  obtain ⟨r, l3, e3, s3, r1, r2, -, -⟩ := run_partitionLoop cmp (last - 1) pv ((last - first + 1).toNat + 1) _ (first + 1)
    (last - 2) hpv (by omega) (by omega) (by omega) (by push_cast; omega)
  have len3 := s3.length
  have hi' : 0 ≤ last - 1 ∧ last - 1 < (l3.length : Int) := by omega
  have hj' : 0 ≤ r + 1 ∧ r + 1 < (l3.length : Int) := by omega
  have e4 := run_swapValue hi' hj'
  refine ⟨r + 1, lswap l3 (last - 1) (r + 1), ?_, ?_, by omega, by omega⟩
  · unfold partitionStep
    simp only
    rw [run_bind_ok e1, run_bind_ok e2, run_bind_ok e3, run_bind_ok (run_next_lt (by omega)), run_bind_ok e4]
    rfl
  · exact ((s1.trans s2).trans (s3.mono (by omega) (by omega))).trans
      (.one (by omega) (by omega) (by omega) (by omega))

theorem run_quickSort_any (cmp : T → T → Int) : ∀ (f : Nat) (l : List T) (first last : Int), 0 ≤ first →
    last < l.length → last - first + 2 ≤ f → 1 ≤ f →
    ∃ l', run listOps (quickSort cmp f first last) l = .ok ((), l') ∧ Swaps first last l l' := by
  intro f
  induction f with
  | zero => intro l first last _ _ _ h; omega
  | succ f ih =>
    intro l first last h0 h1 hf _
    push_cast at hf
    by_cases c1 : first ≥ last
    · exact ⟨l, by rw [quickSort, if_pos c1]; rfl, .refl⟩
    by_cases c2 : last - first + 1 < 3
    · obtain ⟨l', e, s⟩ := run_swapIfGreater_any cmp (l := l) (i := first) (j := last) (by omega) (by omega)
      refine ⟨l', ?_, .of_or s (by omega) (by omega) (by omega) (by omega)⟩
      rw [quickSort, if_neg c1]; simp only; rw [if_pos c2, e]
    by_cases c3 : last - first + 1 = 3
    · obtain ⟨l', e, s⟩ := run_doPivot_any cmp (l := l) (first := first)
        (mid := first + (last - first + 1) / 2) (last := last) h0 (by omega) (by omega) h1
      have len1 := s.length
      refine ⟨_, ?_, s.step (i := first + (last - first + 1) / 2) (j := last - 1) (by omega) (by omega) (by omega)
        (by omega)⟩
      rw [quickSort, if_neg c1]; simp only
      rw [if_neg c2, run_bind_ok e, run_bind_ok (run_swapValue (by omega) (by omega)), if_pos c3]; rfl
    · rw [quickSort_big (by omega)]
      obtain ⟨m, l1, e1, s1, m1, m2⟩ := run_partitionStep_any cmp h0 (by omega) h1
      have len1 := s1.length
      obtain ⟨l2, e2, s2⟩ := ih l1 first (m - 1) h0 (by omega) (by omega) (by omega)
      have len2 := s2.length
      obtain ⟨l3, e3, s3⟩ := ih l2 (m + 1) last (by omega) (by omega) (by omega) (by omega)
      refine ⟨l3, ?_, (s1.trans (s2.mono (by omega) (by omega))).trans (s3.mono (by omega) (by omega))⟩
      rw [run_bind_ok e1, run_bind_ok e2, run_bind_ok (run_next_lt (by omega)), e3]

theorem run_nthElementRec_any (cmp : T → T → Int) : ∀ (f : Nat) (l : List T) (first last n : Int), 0 ≤ first →
    last < l.length → last - first + 2 ≤ f → 1 ≤ f →
    ∃ l', run listOps (nthElementRec cmp f first last n) l = .ok ((), l') ∧ Swaps first last l l' := by
  intro f
  induction f with
  | zero => intro l first last n _ _ _ h; omega
  | succ f ih =>
    intro l first last n h0 h1 hf _
    push_cast at hf
    by_cases c1 : first + 1 ≥ last
    · exact ⟨l, by rw [nthElementRec, if_pos c1]; rfl, .refl⟩
    by_cases c3 : last - first + 1 = 3
    · obtain ⟨l', e, s⟩ := run_doPivot_any cmp (l := l) (first := first)
        (mid := first + (last - first + 1) / 2) (last := last) h0 (by omega) (by omega) h1
      have len1 := s.length
      refine ⟨_, ?_, s.step (i := first + (last - first + 1) / 2) (j := last - 1) (by omega) (by omega) (by omega)
        (by omega)⟩
      rw [nthElementRec, if_neg c1]; simp only
      rw [if_neg (by omega), run_bind_ok e, run_bind_ok (run_swapValue (by omega) (by omega)), if_pos c3]; rfl
    · rw [nthElementRec_big (by omega)]
      obtain ⟨m, l1, e1, s1, m1, m2⟩ := run_partitionStep_any cmp h0 (by omega) h1
      have len1 := s1.length
      rw [run_bind_ok e1]
      split
      · obtain ⟨l2, e2, s2⟩ := ih l1 first m n h0 (by omega) (by omega) (by omega)
        exact ⟨l2, e2, s1.trans (s2.mono (by omega) (by omega))⟩
      · rw [run_bind_ok (run_next_lt (by omega))]
        obtain ⟨l2, e2, s2⟩ := ih l1 (m + 1) last (n - (m - first + 1)) (by omega) (by omega) (by omega) (by omega)
        exact ⟨l2, e2, s1.trans (s2.mono (by omega) (by omega))⟩

theorem run_mergeSort_any (cmp : T → T → Int) : ∀ (f : Nat) (P M S tmp : List T) (first last : Int), first = P.length →
      last = P.length + M.length → 1 ≤ M.length → M.length ≤ f → M.length ≤ tmp.length →
    ∃ tmp' M', tmp'.length = tmp.length ∧ M'.Perm M ∧
      run listOps (mergeSort cmp f first last tmp) (P ++ M ++ S) = .ok (tmp', P ++ M' ++ S) := by
  intro f
  induction f with
  | zero => intro P M S tmp first last _ _ h1 h2; omega
  | succ f ih =>
    intro P M S tmp first last hf hl h1 h2 h3
    unfold mergeSort
    by_cases c : M.length = 1
    · rw [if_pos (by omega)]
      exact ⟨tmp, M, rfl, .refl _, rfl⟩
    · rw [if_neg (by omega)]
      simp only
      generalize hm : (first + last) / 2 = mid
      let k := (mid - first).toNat
      have hk : (k : Int) = mid - first := by show ((mid - first).toNat : Int) = _; omega
      have hk1 : 1 ≤ k := by omega
      have hk2 : k < M.length := by omega
      let A := M.take k
      let B := M.drop k
      have hA : A.length = k := by simp [A]; omega
      have hB : B.length = M.length - k := by simp [B]
      have eM : M = A ++ B := (List.take_append_drop k M).symm
      have e0 : P ++ M ++ S = P ++ A ++ (B ++ S) := by rw [eM]; simp
      obtain ⟨tmp1, A', t1, sA, r1⟩ := ih P A (B ++ S) tmp first mid hf (by omega) (by omega) (by omega) (by omega)
      have lA : A'.length = A.length := sA.length_eq
      have e1 : P ++ A' ++ (B ++ S) = (P ++ A') ++ B ++ S := by simp
      obtain ⟨tmp2, B', t2, sB, r2⟩ := ih (P ++ A') B S tmp1 mid last (by simp; omega) (by simp; omega) (by omega) (by omega)
        (by omega)
      have lB : B'.length = B.length := sB.length_eq
      have e2 : P ++ A' ++ B' ++ S = P ++ (A' ++ B') ++ S := by simp
      obtain ⟨tmp3, t3, r3⟩ := run_merge cmp P A' B' S tmp2 first mid last hf (by omega) (by omega) (by omega)
      refine ⟨tmp3, mrg cmp A' B', by omega, ?_, ?_⟩
      · rw [eM]; exact (mrg_perm _ _).trans (sA.append sB)
      · rw [e0, run_bind_ok r1, e1, run_bind_ok r2, e2, r3]

theorem run_binarySearchLoop_any (cmp : T → T → Int) (val : T) (l : List T) (first last : Int) (h0 : 0 ≤ first)
    (h1 : last ≤ l.length) :
    ∀ (f : Nat) (left right : Int), first ≤ left → right < last → left ≤ right + 1 → right - left + 2 ≤ f →
    ∃ b, run listOps (binarySearchLoop cmp val f left right) l = .ok (b, l) ∧
      (b = true → ∃ k x, first ≤ k ∧ k < last ∧ at? l k = some x ∧ cmp val x = 0) := by
  intro f
  induction f with
  | zero => intro left right _ _ _ hf; simp at hf; omega
  | succ f ih =>
    intro left right c1 c2 c3 hf
    push_cast at hf
    unfold binarySearchLoop
    by_cases hle : left ≤ right
    · rw [if_pos hle]
      simp only
      generalize hm : (left + right) / 2 = mid
      obtain ⟨x, hx⟩ := at?_ge (l := l) (i := mid) (by omega)
      rw [run_bind_ok (run_value hx)]
      by_cases e0 : cmp val x = 0
      · rw [if_pos e0]
        exact ⟨true, rfl, fun _ => ⟨mid, x, by omega, by omega, hx, e0⟩⟩
      · rw [if_neg e0]
        split
        · rw [run_bind_ok (run_prev_ge (by omega))]
          exact ih left (mid - 1) c1 (by omega) (by omega) (by omega)
        · rw [run_bind_ok (run_next_lt (by omega))]
          exact ih (mid + 1) right (by omega) c2 (by omega) (by omega)
    · rw [if_neg hle]
      exact ⟨false, rfl, by simp⟩

/-- The loop ends at a position of the range that passes the test, if it starts with one known or with the last position
of the range still inside and passing the test. -/
theorem run_boundLoop_any (below : T → Bool) (l : List T) (first last : Int) (h0 : 0 ≤ first) (h1 : last ≤ l.length)
    (hb : ∀ x, at? l (last - 1) = some x → below x = true) :
    ∀ (f : Nat) (left right pos : Int), first ≤ left → right < last → left ≤ right + 1 → right - left + 2 ≤ f →
      ((∃ x, first ≤ pos ∧ pos < last ∧ at? l pos = some x ∧ below x = true) ∨ (right = last - 1 ∧ left ≤ right)) →
    ∃ r x, run listOps (boundLoop below f left right pos) l = .ok (r, l) ∧ first ≤ r ∧ r < last ∧ at? l r = some x ∧
      below x = true := by
  intro f
  induction f with
  | zero => intro left right pos _ _ _ hf; simp at hf; omega
  | succ f ih =>
    intro left right pos c1 c2 c3 hf hp
    push_cast at hf
    unfold boundLoop
    by_cases hle : left ≤ right
    · rw [if_pos hle]
      simp only
      generalize hm : (left + right) / 2 = mid
      obtain ⟨x, hx⟩ := at?_ge (l := l) (i := mid) (by omega)
      rw [run_bind_ok (run_value hx)]
      by_cases hbx : below x = true
      · rw [if_pos hbx, run_bind_ok (run_prev_ge (by omega))]
        exact ih left (mid - 1) mid c1 (by omega) (by omega) (by omega) (.inl ⟨x, by omega, by omega, hx, hbx⟩)
      · rw [if_neg hbx, run_bind_ok (run_next_lt (by omega))]
        refine ih (mid + 1) right pos (by omega) c2 (by omega) (by omega) (hp.imp id fun ⟨q1, q2⟩ => ⟨q1, ?_⟩)
        by_contra hc
        obtain rfl : mid = last - 1 := by omega
        exact hbx (hb x hx)
    · rw [if_neg hle]
      rcases hp with ⟨x, p1, p2, p3, p4⟩ | hp
      · exact ⟨pos, x, rfl, p1, p2, p3, p4⟩
      · omega

/-- **C71** With any comparator at all, `Sort` ends without panic, leaves a permutation of the range, and touches nothing
outside it. -/
theorem C71_sort (hl : Lawful ops Inv abs) {c : C} (hc : Inv c) (cmp : T → T → Int) (P M S : List T)
    (hM : abs c = P ++ M ++ S) :
    ∃ c' M', run ops (sort cmp P.length (P.length + M.length)) c = .ok ((), c') ∧ Inv c' ∧ abs c' = P ++ M' ++ S ∧
      M'.Perm M := by
  have elast : (P.length : Int) + (P.length + M.length - P.length) - 1 = P.length + M.length - 1 := by omega
  obtain ⟨l', e, s⟩ := run_quickSort_any cmp (((P.length : Int) + M.length - P.length).toNat + 1) (P ++ M ++ S) P.length
    (P.length + M.length - 1) (by omega) (by simp; omega) (by push_cast; omega) (by omega)
  obtain ⟨M', rfl, hp⟩ := s.segment
  have e' : run listOps (sort cmp P.length (P.length + M.length)) (P ++ M ++ S) = .ok ((), P ++ M' ++ S) := by
    unfold sort; rw [elast, e]
  rw [← hM] at e'
  obtain ⟨c', e'', q1, q2⟩ := run_lawful_ok hl hc e'
  exact ⟨c', M', e'', q1, q2, hp⟩

/-- **C71** With any comparator at all, `Stable` on a non-empty range ends without panic, leaves a permutation of the
range, and touches nothing outside it. -/
theorem C71_stable (hl : Lawful ops Inv abs) {c : C} (hc : Inv c) (cmp : T → T → Int) (P M S : List T)
    (hM : abs c = P ++ M ++ S) (hne : M ≠ []) (zero : T) (fuel : Nat) (hf : M.length ≤ fuel) :
    ∃ c' M', run ops (stable zero cmp fuel P.length (P.length + M.length)) c = .ok ((), c') ∧ Inv c' ∧
      abs c' = P ++ M' ++ S ∧ M'.Perm M := by
  have h1 : 1 ≤ M.length := by cases M <;> simp_all
  obtain ⟨tmp', M', t, hp, r⟩ := run_mergeSort_any cmp fuel P M S (List.replicate M.length zero) P.length
    (P.length + M.length) rfl rfl h1 hf (by simp)
  have e : run listOps (stable zero cmp fuel P.length (P.length + M.length)) (P ++ M ++ S) = .ok ((), P ++ M' ++ S) := by
    have e1 : ((P.length : Int) + M.length - P.length).toNat = M.length := by omega
    unfold stable
    rw [if_neg (by omega), e1, run_bind_ok r]; rfl
  rw [← hM] at e
  obtain ⟨c', e', g1, g2⟩ := run_lawful_ok hl hc e
  exact ⟨c', M', e', g1, g2, hp⟩

/-- **C71** With any comparator and any `n` at all, `NthElement` ends without panic, leaves a permutation of the range,
and touches nothing outside it. -/
theorem C71_nthElement (hl : Lawful ops Inv abs) {c : C} (hc : Inv c) (cmp : T → T → Int) (P M S : List T)
    (hM : abs c = P ++ M ++ S) (n : Int) :
    ∃ c' M', run ops (nthElement cmp P.length (P.length + M.length) n) c = .ok ((), c') ∧ Inv c' ∧
      abs c' = P ++ M' ++ S ∧ M'.Perm M := by
  have elast : (P.length : Int) + (P.length + M.length - P.length) - 1 = P.length + M.length - 1 := by omega
  by_cases hn : (P.length : Int) < 0 ∨ (P.length : Int) + M.length - P.length < n
  · refine ⟨c, M, ?_, hc, hM, .refl _⟩
    unfold nthElement; rw [if_pos hn]; rfl
  obtain ⟨l', e, s⟩ := run_nthElementRec_any cmp (((P.length : Int) + M.length - P.length).toNat + 2) (P ++ M ++ S) P.length
    (P.length + M.length - 1) n (by omega) (by simp; omega) (by push_cast; omega) (by omega)
  obtain ⟨M', rfl, hp⟩ := s.segment
  have e' : run listOps (nthElement cmp P.length (P.length + M.length) n) (P ++ M ++ S) = .ok ((), P ++ M' ++ S) := by
    unfold nthElement; rw [if_neg hn, elast, e]
  rw [← hM] at e'
  obtain ⟨c', e'', q1, q2⟩ := run_lawful_ok hl hc e'
  exact ⟨c', M', e'', q1, q2, hp⟩

/-- **C71** With any comparator and on any range, sorted or not, `BinarySearch` ends without panic, changes nothing, and
answers true only if the range has an element the comparator calls equal to `val`. -/
theorem C71_binarySearch (hl : Lawful ops Inv abs) {c : C} (hc : Inv c) (cmp : T → T → Int) (P M S : List T)
    (hM : abs c = P ++ M ++ S) (val : T) :
    ∃ b c', run ops (binarySearch cmp P.length (P.length + M.length) val) c = .ok (b, c') ∧ Inv c' ∧ abs c' = abs c ∧
      (b = true → ∃ x ∈ M, cmp val x = 0) := by
  have key : ∃ b, run listOps (binarySearch cmp P.length (P.length + M.length) val) (P ++ M ++ S) = .ok (b, P ++ M ++ S) ∧
      (b = true → ∃ x ∈ M, cmp val x = 0) := by
    unfold binarySearch
    by_cases h1 : M.length = 0
    · rw [run_bind_ok (run_isValid _ _), if_pos (.inr (by omega))]
      exact ⟨false, rfl, by simp⟩
    · rw [run_bind_ok (run_isValid_true (by simp; omega)), if_neg (by simp; omega), run_bind_ok (run_prev_ge (by omega))]
      obtain ⟨b, e, hb⟩ := run_binarySearchLoop_any cmp val (P ++ M ++ S) P.length (P.length + M.length) (by omega)
        (by simp; omega) (((P.length : Int) + M.length - P.length).toNat + 1) P.length (P.length + M.length - 1) (by omega)
        (by omega) (by omega) (by push_cast; omega)
      refine ⟨b, e, fun h => ?_⟩
      obtain ⟨k, x, k1, k2, hx, hz⟩ := hb h
      have hs : SegAt (P ++ M ++ S) P.length M := ⟨P, S, rfl, rfl⟩
      obtain ⟨y, hy, e2⟩ := hs.mem k1 k2
      rw [hx] at e2; cases e2
      exact ⟨x, hy, hz⟩
  obtain ⟨b, e, hb⟩ := key
  rw [← hM] at e
  obtain ⟨c', e', g1, g2⟩ := run_lawful_ok hl hc e
  exact ⟨b, c', e', g1, g2, hb⟩

/-- The part shared by `LowerBound` and `UpperBound`. -/
theorem bound_any (below : T → Bool) (P M S : List T) (h1 : M ≠ [])
    (hb : ∀ x, at? (P ++ M ++ S) (P.length + M.length - 1) = some x → below x = true) :
    ∃ (k : Nat) (_ : k < M.length), below M[k] = true ∧
      run listOps (boundLoop below (((P.length : Int) + M.length - P.length).toNat + 1) P.length (P.length + M.length - 1) 0)
        (P ++ M ++ S) = .ok ((P.length + k : Int), P ++ M ++ S) := by
  have h1 : 1 ≤ M.length := by cases M <;> simp_all
  obtain ⟨r, x, e, r1, r2, hx, hbx⟩ := run_boundLoop_any below (P ++ M ++ S) P.length (P.length + M.length) (by omega)
    (by simp; omega) hb (((P.length : Int) + M.length - P.length).toNat + 1) P.length (P.length + M.length - 1) 0 (by omega)
    (by omega) (by omega) (by push_cast; omega) (.inr ⟨rfl, by omega⟩)
  have hk : (r - P.length).toNat < M.length := by omega
  have hs : SegAt (P ++ M ++ S) P.length M := ⟨P, S, rfl, rfl⟩
  have er : (P.length : Int) + (r - P.length).toNat = r := by omega
  have := hs.get hk
  rw [er, hx] at this
  cases this
  exact ⟨_, hk, hbx, by rw [er]; exact e⟩

/-- **C71** With any comparator and on any range, sorted or not, `LowerBound` ends without panic, changes nothing, and
returns `last` or the position of an element of the range the comparator does not place before `val`. -/
theorem C71_lowerBound (hl : Lawful ops Inv abs) {c : C} (hc : Inv c) (cmp : T → T → Int) (P M S : List T)
    (hM : abs c = P ++ M ++ S) (val : T) :
    ∃ (k : Nat) (c' : C), run ops (lowerBound cmp P.length (P.length + M.length) val) c = .ok ((P.length + k : Int), c') ∧
      Inv c' ∧ abs c' = abs c ∧ (k = M.length ∨ ∃ h : k < M.length, cmp val M[k] ≤ 0) := by
  have key : ∃ k : Nat, run listOps (lowerBound cmp P.length (P.length + M.length) val) (P ++ M ++ S) =
      .ok ((P.length + k : Int), P ++ M ++ S) ∧ (k = M.length ∨ ∃ h : k < M.length, cmp val M[k] ≤ 0) := by
    unfold lowerBound
    by_cases h1 : M = []
    · subst h1
      rw [run_bind_ok (run_isValid _ _), if_pos (.inr (by simp))]
      exact ⟨0, rfl, .inl rfl⟩
    · have h2 : 1 ≤ M.length := by cases M <;> simp_all
      obtain ⟨x, hx⟩ := at?_ge (l := P ++ M ++ S) (i := P.length + M.length - 1) (by simp; omega)
      rw [run_bind_ok (run_isValid_true (by simp; omega)), if_neg (by simp; omega), run_bind_ok (run_prev_ge (by omega)),
        run_bind_ok (run_value hx)]
      by_cases hc : cmp val x > 0
      · rw [if_pos hc]; exact ⟨M.length, rfl, .inl rfl⟩
      · rw [if_neg hc]
        obtain ⟨k, hk, hb, e⟩ := bound_any (fun x => decide (cmp val x ≤ 0)) P M S h1 (by
          intro y hy; rw [hx] at hy; cases hy; simpa using hc)
        exact ⟨k, e, .inr ⟨hk, by simpa using hb⟩⟩
  obtain ⟨k, e, hk⟩ := key
  rw [← hM] at e
  obtain ⟨c', e', g1, g2⟩ := run_lawful_ok hl hc e
  exact ⟨k, c', e', g1, g2, hk⟩

/-- **C71** With any comparator and on any range, sorted or not, `UpperBound` ends without panic, changes nothing, and
returns `last` or the position of an element of the range the comparator places after `val`. -/
theorem C71_upperBound (hl : Lawful ops Inv abs) {c : C} (hc : Inv c) (cmp : T → T → Int) (P M S : List T)
    (hM : abs c = P ++ M ++ S) (val : T) :
    ∃ (k : Nat) (c' : C), run ops (upperBound cmp P.length (P.length + M.length) val) c = .ok ((P.length + k : Int), c') ∧
      Inv c' ∧ abs c' = abs c ∧ (k = M.length ∨ ∃ h : k < M.length, cmp val M[k] < 0) := by
  have key : ∃ k : Nat, run listOps (upperBound cmp P.length (P.length + M.length) val) (P ++ M ++ S) =
      .ok ((P.length + k : Int), P ++ M ++ S) ∧ (k = M.length ∨ ∃ h : k < M.length, cmp val M[k] < 0) := by
    unfold upperBound
    by_cases h1 : M = []
    · subst h1
      rw [run_bind_ok (run_isValid _ _), if_pos (.inr (by simp))]
      exact ⟨0, rfl, .inl rfl⟩
    · have h2 : 1 ≤ M.length := by cases M <;> simp_all
      obtain ⟨x, hx⟩ := at?_ge (l := P ++ M ++ S) (i := P.length + M.length - 1) (by simp; omega)
      rw [run_bind_ok (run_isValid_true (by simp; omega)), if_neg (by simp; omega), run_bind_ok (run_prev_ge (by omega)),
        run_bind_ok (run_value hx)]
      by_cases hc : cmp val x ≥ 0
      · rw [if_pos hc]; exact ⟨M.length, rfl, .inl rfl⟩
      · rw [if_neg hc]
        obtain ⟨k, hk, hb, e⟩ := bound_any (fun x => decide (cmp val x < 0)) P M S h1 (by
          intro y hy; rw [hx] at hy; cases hy; simpa using hc)
        exact ⟨k, e, .inr ⟨hk, by simpa using hb⟩⟩
  obtain ⟨k, e, hk⟩ := key
  rw [← hM] at e
  obtain ⟨c', e', g1, g2⟩ := run_lawful_ok hl hc e
  exact ⟨k, c', e', g1, g2, hk⟩

/-- A comparator that is no order: everything is before everything, itself included. -/
def alwaysBefore (_ _ : Int) : Int := -1

theorem alwaysBefore_not_lawful : ¬ LawfulCmp alwaysBefore := fun h => by
  have := h.refl 0; simp [alwaysBefore] at this

/-- **C71 is false of `NextPermutation`**: with a comparator that is not an order it leaves the range. On the
range `[1, 2]`, being the whole container, it panics; and on the range `[7, 8]` of `[0, 7, 8]`, with a comparator placing
everything but `0, 7` in order, it exchanges an element of the range with one outside. -/
theorem C71_nextPermutation_wrong :
    run listOps (nextPermutation alwaysBefore 0 2) [1, 2] = .panic ∧
    ∃ cmp : Int → Int → Int,
      run listOps (nextPermutation cmp 1 3) [0, 7, 8] = .ok (true, [7, 0, 8]) := by
  refine ⟨by rfl, fun x y => if x = 0 ∧ y = 7 then 1 else -1, by rfl⟩

example : run listOps (sort alwaysBefore 1 6) [9, 5, 3, 4, 1, 2, 0] = .ok ((), [9, 5, 3, 1, 4, 2, 0]) := by rfl
example : ∃ c' M', run listOps (sort alwaysBefore 1 6) [9, 5, 3, 4, 1, 2, 0] = .ok ((), c') ∧ True ∧ c' = [9] ++ M' ++ [0] ∧
    M'.Perm [5, 3, 4, 1, 2] :=
  C71_sort (ops := listOps) listOps_lawful (c := [9, 5, 3, 4, 1, 2, 0]) trivial alwaysBefore [9] [5, 3, 4, 1, 2] [0] rfl
example : run listOps (stable 0 alwaysBefore 5 1 6) [9, 5, 3, 4, 1, 2, 0] = .ok ((), [9, 5, 3, 4, 1, 2, 0]) := by rfl
example : run listOps (lowerBound alwaysBefore 1 5 3) [9, 1, 3, 3, 7, 0] = .ok (1, [9, 1, 3, 3, 7, 0]) := by rfl

/-- `C71_stable`, `C71_nthElement`, `C71_binarySearch`, `C71_lowerBound` and `C71_upperBound` on `[5, 3, 4, 1, 2]` inside `[9, 5, 3, 4, 1, 2, 0]`,
with the comparator that puts everything before everything. -/
example := C71_stable (ops := listOps) listOps_lawful (c := [9, 5, 3, 4, 1, 2, 0]) trivial alwaysBefore [9] [5, 3, 4, 1, 2] [0] rfl (by decide) 0 5 (by decide)
/-- `C71_nthElement`, with a rank outside the range. -/
example := C71_nthElement (ops := listOps) listOps_lawful (c := [9, 5, 3, 4, 1, 2, 0]) trivial alwaysBefore [9] [5, 3, 4, 1, 2] [0] rfl 17
/-- `C71_binarySearch`. -/
example := C71_binarySearch (ops := listOps) listOps_lawful (c := [9, 5, 3, 4, 1, 2, 0]) trivial alwaysBefore [9] [5, 3, 4, 1, 2] [0] rfl 4
/-- `C71_lowerBound`. -/
example := C71_lowerBound (ops := listOps) listOps_lawful (c := [9, 5, 3, 4, 1, 2, 0]) trivial alwaysBefore [9] [5, 3, 4, 1, 2] [0] rfl 4
/-- `C71_upperBound`. -/
example := C71_upperBound (ops := listOps) listOps_lawful (c := [9, 5, 3, 4, 1, 2, 0]) trivial alwaysBefore [9] [5, 3, 4, 1, 2] [0] rfl 4

end GoSTL.Algo
