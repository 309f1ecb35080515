import Verif.Algo.SortCost
/-!
# C95: how deep `Sort`, `NthElement` and `Stable` recurse

`quickSort`, `nthElement` and `mergeSort` call themselves. The budget of their models is the number of nested calls there is room for: `quickSort cmp d` is the
Go function run on a stack that holds `d` calls of it, and `.outOfFuel` is the stack overflow.
-/
namespace GoSTL.Seq
variable {T : Type}

/-- `q` does what `p` does whenever `p` does not run out of its budget. -/
def PLe {α : Type} (p q : Prog T α) : Prop := ∀ (C : Type) (ops : Ops C T) (c : C), run ops p c = .outOfFuel ∨ run ops q c = run ops p c

theorem PLe.refl {α : Type} (p : Prog T α) : PLe p p := fun _ _ _ => .inr rfl

theorem PLe.trans {α : Type} {p q r : Prog T α} (h1 : PLe p q) (h2 : PLe q r) : PLe p r := fun C ops c => by
  rcases h1 C ops c with h | h
  · exact .inl h
  · rcases h2 C ops c with g | g
    · exact .inl (h ▸ g)
    · exact .inr (g.trans h)

theorem PLe.bind {α β : Type} {p q : Prog T α} {k m : α → Prog T β} (h1 : PLe p q) (h2 : ∀ a, PLe (k a) (m a)) : PLe (p >>= k) (q >>= m) := fun C ops c => by
  rw [run_bind, run_bind]
  rcases h1 C ops c with h | h
  · rw [h]; exact .inl rfl
  · rw [h]
    cases hr : run ops p c with
    | ok r => exact h2 r.1 C ops r.2
    | panic => exact .inr rfl
    | outOfFuel => exact .inl rfl

theorem PLe.eq_ok {α C : Type} {p q : Prog T α} (h : PLe p q) {ops : Ops C T} {c : C} {r : α × C} (e : run ops p c = .ok r) : run ops q c = .ok r := by
  rcases h C ops c with g | g
  · rw [e] at g; cases g
  · rw [g, e]

theorem PLe.of_succ {α : Type} {p : Nat → Prog T α} (h : ∀ n, PLe (p n) (p (n + 1))) {a b : Nat} (hab : a ≤ b) : PLe (p a) (p b) := by
  induction hab with
  | refl => exact .refl _
  | step _ ih => exact ih.trans (h _)

theorem run_bind_fuel {α β C : Type} {ops : Ops C T} {p : Prog T α} {f : α → Prog T β} {c : C} (h : run ops p c = .outOfFuel) :
    run ops (p >>= f) c = .outOfFuel := by
  rw [run_bind, h]; rfl

end GoSTL.Seq

namespace GoSTL.Algo
open GoSTL.Seq
variable {C T : Type} {ops : Ops C T} {Inv : C → Prop} {abs : C → List T}

theorem quickSort_succ (cmp : T → T → Int) : ∀ (f : Nat) (first last : Int), PLe (quickSort cmp f first last) (quickSort cmp (f + 1) first last) := by
  intro f
  induction f with
  | zero => intro first last C ops c; exact .inl rfl
  | succ f ih =>
    intro first last
    rw [quickSort, quickSort]
    simp only
    split
    · exact .refl _
    split
    · exact .refl _
    refine .bind (.refl _) fun _ => .bind (.refl _) fun _ => ?_
    split
    · exact .refl _
    exact .bind (.refl _) fun _ => .bind (.refl _) fun _ => .bind (.refl _) fun _ => .bind (ih _ _) fun _ => .bind (.refl _) fun _ => ih _ _

theorem nthElementRec_succ (cmp : T → T → Int) : ∀ (f : Nat) (first last n : Int),
    PLe (nthElementRec cmp f first last n) (nthElementRec cmp (f + 1) first last n) := by
  intro f
  induction f with
  | zero => intro first last n C ops c; exact .inl rfl
  | succ f ih =>
    intro first last n
    rw [nthElementRec, nthElementRec]
    simp only
    split
    · exact .refl _
    split
    · exact .refl _
    refine .bind (.refl _) fun _ => .bind (.refl _) fun _ => ?_
    split
    · exact .refl _
    refine .bind (.refl _) fun _ => .bind (.refl _) fun _ => .bind (.refl _) fun _ => ?_
    split
    · exact ih _ _ _
    · exact .bind (.refl _) fun _ => ih _ _ _

theorem mergeSort_succ (cmp : T → T → Int) : ∀ (f : Nat) (first last : Int) (tmp : List T),
    PLe (mergeSort cmp f first last tmp) (mergeSort cmp (f + 1) first last tmp) := by
  intro f
  induction f with
  | zero => intro first last tmp C ops c; exact .inl rfl
  | succ f ih =>
    intro first last tmp
    rw [mergeSort, mergeSort]
    simp only
    split
    · exact .refl _
    exact .bind (ih _ _ _) fun _ => .bind (ih _ _ _) fun _ => .refl _

theorem run_quickSort_half (cmp : T → T → Int) : ∀ (f : Nat) (l : List T) (first last : Int), 0 ≤ first →
    last < l.length → last - first ≤ 2 * f → 1 ≤ f →
    ∃ l', run listOps (quickSort cmp f first last) l = .ok ((), l') ∧ Swaps first last l l' := by
  intro f
  induction f with
  | zero => intro l first last _ _ _ h; omega
  | succ f ih =>
    intro l first last h0 h1 hf _
    push_cast at hf
    by_cases c1 : first ≥ last
    · exact ⟨l, by rw [quickSort, if_pos c1]; rfl, .refl⟩
    by_cases c2 : last - first + 1 < 3
    · obtain ⟨l', e, s⟩ := run_swapIfGreater_any cmp (l := l) (i := first) (j := last) (by omega) (by omega)
      refine ⟨l', ?_, .of_or s (by omega) (by omega) (by omega) (by omega)⟩
      rw [quickSort, if_neg c1]; simp only; rw [if_pos c2, e]
    by_cases c3 : last - first + 1 = 3
    · obtain ⟨l', e, s⟩ := run_doPivot_any cmp (l := l) (first := first)
        (mid := first + (last - first + 1) / 2) (last := last) h0 (by omega) (by omega) h1
      have len1 := s.length
      refine ⟨_, ?_, s.step (i := first + (last - first + 1) / 2) (j := last - 1) (by omega) (by omega) (by omega)
        (by omega)⟩
      rw [quickSort, if_neg c1]; simp only
      rw [if_neg c2, run_bind_ok e, run_bind_ok (run_swapValue (by omega) (by omega)), if_pos c3]; rfl
    · rw [quickSort_big (by omega)]
      obtain ⟨m, l1, e1, s1, m1, m2⟩ := run_partitionStep_any cmp h0 (by omega) h1
      have len1 := s1.length
      obtain ⟨l2, e2, s2⟩ := ih l1 first (m - 1) h0 (by omega) (by omega) (by omega)
      have len2 := s2.length
      obtain ⟨l3, e3, s3⟩ := ih l2 (m + 1) last (by omega) (by omega) (by omega) (by omega)
      refine ⟨l3, ?_, (s1.trans (s2.mono (by omega) (by omega))).trans (s3.mono (by omega) (by omega))⟩
      rw [run_bind_ok e1, run_bind_ok e2, run_bind_ok (run_next_lt (by omega)), e3]

theorem run_quickSort_deep (cmp : T → T → Int) (P : T → Prop) (hP : ∀ x y, P x → P y → cmp x y = 0) :
    ∀ (f : Nat) (l : List T) (first last : Int), 0 ≤ first → last < l.length → 2 * (f : Int) + 1 ≤ last - first → AllIn l first last P →
    run listOps (quickSort cmp f first last) l = .outOfFuel := by
  intro f
  induction f with
  | zero => intro l first last _ _ _ _; rfl
  | succ f ih =>
    intro l first last h0 h1 hf hA
    push_cast at hf
    rw [quickSort_big (by omega)]
    obtain ⟨l1, e1, s1, -⟩ := partitionStep_all cmp P hP h0 (by omega) h1 hA
    have len1 := s1.length
    have hA1 := hA.swaps s1 (.inl ⟨by omega, by omega⟩)
    rw [run_bind_ok e1]
    exact run_bind_fuel (ih l1 first (last - 1 - 1) h0 (by omega) (by omega) (fun k z k1 k2 hz => hA1 k z k1 (by omega) hz))

theorem run_nthElementRec_deep (cmp : T → T → Int) (P : T → Prop) (hP : ∀ x y, P x → P y → cmp x y = 0) :
    ∀ (f : Nat) (l : List T) (first last n : Int), 0 ≤ first → last < l.length → (f : Int) + 2 ≤ last - first → f + n ≤ last - first → AllIn l first last P →
    run listOps (nthElementRec cmp f first last n) l = .outOfFuel := by
  intro f
  induction f with
  | zero => intro l first last n _ _ _ _ _; rfl
  | succ f ih =>
    intro l first last n h0 h1 hf hn hA
    push_cast at hf hn
    rw [nthElementRec_big (by omega)]
    obtain ⟨l1, e1, s1, -⟩ := partitionStep_all cmp P hP h0 (by omega) h1 hA
    have len1 := s1.length
    have hA1 := hA.swaps s1 (.inl ⟨by omega, by omega⟩)
    rw [run_bind_ok e1, if_pos (by omega)]
    exact ih l1 first (last - 1) n h0 (by omega) (by omega) (by omega) (fun k z k1 k2 hz => hA1 k z k1 (by omega) hz)

theorem run_nthElementRec_len (cmp : T → T → Int) : ∀ (f : Nat) (l : List T) (first last n : Int), 0 ≤ first →
    last < l.length → last - first ≤ f + 1 → 1 ≤ f →
    ∃ l', run listOps (nthElementRec cmp f first last n) l = .ok ((), l') ∧ Swaps first last l l' := by
  intro f
  induction f with
  | zero => intro l first last n _ _ _ h; omega
  | succ f ih =>
    intro l first last n h0 h1 hf _
    push_cast at hf
    by_cases c1 : first + 1 ≥ last
    · exact ⟨l, by rw [nthElementRec, if_pos c1]; rfl, .refl⟩
    by_cases c3 : last - first + 1 = 3
    · obtain ⟨l', e, s⟩ := run_doPivot_any cmp (l := l) (first := first)
        (mid := first + (last - first + 1) / 2) (last := last) h0 (by omega) (by omega) h1
      have len1 := s.length
      refine ⟨_, ?_, s.step (i := first + (last - first + 1) / 2) (j := last - 1) (by omega) (by omega) (by omega)
        (by omega)⟩
      rw [nthElementRec, if_neg c1]; simp only
      rw [if_neg (by omega), run_bind_ok e, run_bind_ok (run_swapValue (by omega) (by omega)), if_pos c3]; rfl
    · rw [nthElementRec_big (by omega)]
      obtain ⟨m, l1, e1, s1, m1, m2⟩ := run_partitionStep_any cmp h0 (by omega) h1
      have len1 := s1.length
      rw [run_bind_ok e1]
      split
      · obtain ⟨l2, e2, s2⟩ := ih l1 first m n h0 (by omega) (by omega) (by omega)
        exact ⟨l2, e2, s1.trans (s2.mono (by omega) (by omega))⟩
      · rw [run_bind_ok (run_next_lt (by omega))]
        obtain ⟨l2, e2, s2⟩ := ih l1 (m + 1) last (n - (m - first + 1)) (by omega) (by omega) (by omega) (by omega)
        exact ⟨l2, e2, s1.trans (s2.mono (by omega) (by omega))⟩

theorem run_mergeSort_pow (cmp : T → T → Int) : ∀ (f : Nat) (P M S tmp : List T) (first last : Int), first = P.length →
      last = P.length + M.length → 1 ≤ M.length → M.length ≤ 2 ^ f → M.length ≤ tmp.length →
    ∃ tmp' M', tmp'.length = tmp.length ∧ M'.Perm M ∧
      run listOps (mergeSort cmp (f + 1) first last tmp) (P ++ M ++ S) = .ok (tmp', P ++ M' ++ S) := by
  intro f
  induction f with
  | zero =>
    intro P M S tmp first last hf hl h1 h2 h3
    rw [mergeSort, if_pos (by simp at h2; omega)]
    exact ⟨tmp, M, rfl, .refl _, rfl⟩
  | succ f ih =>
    intro P M S tmp first last hf hl h1 h2 h3
    rw [Nat.pow_succ] at h2
    rw [mergeSort]
    by_cases c : M.length = 1
    · rw [if_pos (by omega)]
      exact ⟨tmp, M, rfl, .refl _, rfl⟩
    · rw [if_neg (by omega)]
      simp only
      generalize hm : (first + last) / 2 = mid
      let k := (mid - first).toNat
      have hk : (k : Int) = mid - first := by show ((mid - first).toNat : Int) = _; omega
      have hk1 : 1 ≤ k := by omega
      have hk2 : k < M.length := by omega
      let A := M.take k
      let B := M.drop k
      have hA : A.length = k := by simp [A]; omega
      have hB : B.length = M.length - k := by simp [B]
      have eM : M = A ++ B := (List.take_append_drop k M).symm
      have e0 : P ++ M ++ S = P ++ A ++ (B ++ S) := by rw [eM]; simp
      obtain ⟨tmp1, A', t1, sA, r1⟩ := ih P A (B ++ S) tmp first mid hf (by omega) (by omega) (by omega) (by omega)
      have lA : A'.length = A.length := sA.length_eq
      have e1 : P ++ A' ++ (B ++ S) = (P ++ A') ++ B ++ S := by simp
      obtain ⟨tmp2, B', t2, sB, r2⟩ := ih (P ++ A') B S tmp1 mid last (by simp; omega) (by simp; omega) (by omega) (by omega)
        (by omega)
      have lB : B'.length = B.length := sB.length_eq
      have e2 : P ++ A' ++ B' ++ S = P ++ (A' ++ B') ++ S := by simp
      obtain ⟨tmp3, t3, r3⟩ := run_merge cmp P A' B' S tmp2 first mid last hf (by omega) (by omega) (by omega)
      refine ⟨tmp3, mrg cmp A' B', by omega, ?_, ?_⟩
      · rw [eM]; exact (mrg_perm _ _).trans (sA.append sB)
      · rw [e0, run_bind_ok r1, e1, run_bind_ok r2, e2, r3]

theorem run_mergeSort_deep (cmp : T → T → Int) : ∀ (f : Nat) (P M S tmp : List T) (first last : Int), first = P.length →
      last = P.length + M.length → 2 ^ f < M.length → M.length ≤ tmp.length →
      run listOps (mergeSort cmp (f + 1) first last tmp) (P ++ M ++ S) = .outOfFuel := by
  intro f
  induction f with
  | zero =>
    intro P M S tmp first last hf hl h2 h3
    rw [mergeSort, if_neg (by simp at h2; omega)]
    exact run_bind_fuel rfl
  | succ f ih =>
    intro P M S tmp first last hf hl h2 h3
    have hp : 0 < 2 ^ f := Nat.pow_pos (by omega)
    rw [Nat.pow_succ] at h2
    rw [mergeSort, if_neg (by omega)]
    simp only
    generalize hm : (first + last) / 2 = mid
    let k := (mid - first).toNat
    have hk : (k : Int) = mid - first := by show ((mid - first).toNat : Int) = _; omega
    have hk1 : 1 ≤ k := by omega
    have hk2 : k < M.length := by omega
    let A := M.take k
    let B := M.drop k
    have hA : A.length = k := by simp [A]; omega
    have hB : B.length = M.length - k := by simp [B]
    have eM : M = A ++ B := (List.take_append_drop k M).symm
    have e0 : P ++ M ++ S = P ++ A ++ (B ++ S) := by rw [eM]; simp
    rw [e0]
    by_cases hA2 : 2 ^ f < A.length
    · exact run_bind_fuel (ih P A (B ++ S) tmp first mid hf (by omega) hA2 (by omega))
    · obtain ⟨tmp1, A', t1, sA, r1⟩ := run_mergeSort_pow cmp f P A (B ++ S) tmp first mid hf (by omega) (by omega) (by omega) (by omega)
      have lA : A'.length = A.length := sA.length_eq
      have e1 : P ++ A' ++ (B ++ S) = (P ++ A') ++ B ++ S := by simp
      rw [run_bind_ok r1, e1]
      exact run_bind_fuel (ih (P ++ A') B S tmp1 mid last (by simp; omega) (by simp; omega) (by omega) (by omega))

theorem allIn_segment (P M S : List T) : AllIn (P ++ M ++ S) P.length (P.length + M.length - 1) (· ∈ M) := by
  intro k x k1 k2 hx
  obtain ⟨j, rfl⟩ : ∃ j : Nat, k = P.length + j := ⟨(k - P.length).toNat, by omega⟩
  rw [at?_segment (by omega)] at hx
  cases hx
  exact List.getElem_mem _

/-- **C95** `Sort` never nests more than `n/2` calls on a range of `n ≥ 2` elements (one call on a shorter range), on every container, for every content and
every comparator: with that much room (`n ≤ 2·d + 1`) it does what it does on an unlimited stack, and it returns. The full claim,
a logarithmic depth, is false: `C95_sort_violated`. -/
theorem C95_sort_partial (hl : Lawful ops Inv abs) {c : C} (hc : Inv c) (P M S : List T) (hM : abs c = P ++ M ++ S)
    (cmp : T → T → Int) {d : Nat} (h1 : 1 ≤ d) (hd : M.length ≤ 2 * d + 1) :
    ∃ c', run ops (quickSort cmp d P.length (P.length + M.length - 1)) c = .ok ((), c') ∧
      run ops (sort cmp P.length (P.length + M.length)) c = .ok ((), c') := by
  have elast : (P.length : Int) + (P.length + M.length - P.length) - 1 = P.length + M.length - 1 := by omega
  obtain ⟨l', e, -⟩ := run_quickSort_half cmp (min d (M.length + 1)) (P ++ M ++ S) P.length (P.length + M.length - 1) (by omega) (by simp; omega) (by omega)
    (by omega)
  rw [← hM] at e
  obtain ⟨c', e', -, -⟩ := run_lawful_ok hl hc e
  refine ⟨c', (PLe.of_succ (fun n => quickSort_succ cmp n _ _) (Nat.min_le_left _ _)).eq_ok e', ?_⟩
  rw [sort, elast]
  exact (PLe.of_succ (fun n => quickSort_succ cmp n _ _) (by omega)).eq_ok e'

/-- **C95** The bound of `C95_sort_partial` is met: on every range of elements that all compare equal `Sort` nests `n/2` calls; with less room the stack overflows. -/
theorem C95_sort_violated (hl : Lawful ops Inv abs) {c : C} (hc : Inv c) (P M S : List T) (hM : abs c = P ++ M ++ S)
    (cmp : T → T → Int) (heq : ∀ x ∈ M, ∀ y ∈ M, cmp x y = 0) {d : Nat} (hd : d < M.length / 2) :
    run ops (quickSort cmp d P.length (P.length + M.length - 1)) c = .outOfFuel := by
  refine run_lawful_fuel hl hc ?_
  rw [hM]
  exact run_quickSort_deep cmp (· ∈ M) (fun x y hx hy => heq x hx y hy) d _ _ _ (by omega) (by simp; omega) (by omega) (allIn_segment P M S)

/-- **C95** `NthElement` never nests more than `n - 2` calls on a range of `n ≥ 3` elements (one on a shorter range). The full claim, a logarithmic depth, is false:
`C95_nthElement_violated`. -/
theorem C95_nthElement_partial (hl : Lawful ops Inv abs) {c : C} (hc : Inv c) (P M S : List T) (hM : abs c = P ++ M ++ S)
    (cmp : T → T → Int) {d : Nat} (h1 : 1 ≤ d) (hd : M.length ≤ d + 2) (k : Int) (hk : k ≤ M.length) :
    ∃ c', run ops (nthElementRec cmp d P.length (P.length + M.length - 1) k) c = .ok ((), c') ∧
      run ops (nthElement cmp P.length (P.length + M.length) k) c = .ok ((), c') := by
  have elast : (P.length : Int) + (P.length + M.length - P.length) - 1 = P.length + M.length - 1 := by omega
  obtain ⟨l', e, -⟩ := run_nthElementRec_len cmp (min d (M.length + 2)) (P ++ M ++ S) P.length (P.length + M.length - 1) k (by omega) (by simp; omega)
    (by omega) (by omega)
  rw [← hM] at e
  obtain ⟨c', e', -, -⟩ := run_lawful_ok hl hc e
  refine ⟨c', (PLe.of_succ (fun n => nthElementRec_succ cmp n _ _ _) (Nat.min_le_left _ _)).eq_ok e', ?_⟩
  rw [nthElement, if_neg (by omega), elast]
  exact (PLe.of_succ (fun n => nthElementRec_succ cmp n _ _ _) (by omega)).eq_ok e'

/-- **C95** On elements that all compare equal `NthElement` for position `k` needs room for at least `n - max 2 k` nested calls. -/
theorem C95_nthElement_violated (hl : Lawful ops Inv abs) {c : C} (hc : Inv c) (P M S : List T) (hM : abs c = P ++ M ++ S)
    (cmp : T → T → Int) (heq : ∀ x ∈ M, ∀ y ∈ M, cmp x y = 0) (k : Nat) {d : Nat} (hd : d + max 2 k < M.length) :
    run ops (nthElementRec cmp d P.length (P.length + M.length - 1) k) c = .outOfFuel := by
  refine run_lawful_fuel hl hc ?_
  rw [hM]
  exact run_nthElementRec_deep cmp (· ∈ M) (fun x y hx hy => heq x hx y hy) d _ _ _ _ (by omega) (by simp; omega) (by omega) (by omega) (allIn_segment P M S)

/-- **C95** `Stable` nests exactly `⌈log2 n⌉ + 1` calls on a range of `n ≥ 1` elements, whatever they are: room for `d + 1` calls is enough if and only if
`n ≤ 2^d`, and the stack overflows otherwise. -/
theorem C95_stable (hl : Lawful ops Inv abs) {c : C} (hc : Inv c) (P M S : List T) (hM : abs c = P ++ M ++ S)
    (cmp : T → T → Int) (zero : T) (h1 : 1 ≤ M.length) (d : Nat) :
    (M.length ≤ 2 ^ d → ∃ c', run ops (stable zero cmp (d + 1) P.length (P.length + M.length)) c = .ok ((), c') ∧
      ∀ d', d ≤ d' → run ops (stable zero cmp (d' + 1) P.length (P.length + M.length)) c = .ok ((), c')) ∧
    (2 ^ d < M.length → run ops (stable zero cmp (d + 1) P.length (P.length + M.length)) c = .outOfFuel) := by
  have en : ((P.length : Int) + M.length - P.length).toNat = M.length := by omega
  have st : ∀ f (ops' : Ops (List T) T), run ops' (stable zero cmp f P.length (P.length + M.length)) (P ++ M ++ S) =
      run ops' (mergeSort cmp f P.length (P.length + M.length) (List.replicate M.length zero) >>= fun _ => pure ()) (P ++ M ++ S) := by
    intro f ops'
    rw [stable, if_neg (by omega), en]
  constructor
  · intro h
    obtain ⟨tmp, M', _, _, e⟩ := run_mergeSort_pow cmp d P M S (List.replicate M.length zero) P.length (P.length + M.length) rfl rfl h1 h (by simp)
    have e2 : run listOps (stable zero cmp (d + 1) P.length (P.length + M.length)) (abs c) = .ok ((), P ++ M' ++ S) := by
      rw [hM, st, run_bind_ok e]; rfl
    obtain ⟨c', e', -, -⟩ := run_lawful_ok hl hc e2
    refine ⟨c', e', fun d' hd => ?_⟩
    refine (PLe.of_succ (p := fun f => stable zero cmp f P.length (P.length + M.length)) (fun n => ?_) (Nat.succ_le_succ hd)).eq_ok e'
    simp only [stable]
    split
    · exact .refl _
    · exact .bind (mergeSort_succ cmp _ _ _ _) fun _ => .refl _
  · intro h
    refine run_lawful_fuel hl hc ?_
    rw [hM, st]
    exact run_bind_fuel (run_mergeSort_deep cmp d P M S _ _ _ rfl rfl h (by simp))

/-- `C95_sort_partial` and `C95_sort_violated` on eight equal elements: four nested calls are enough, three are not. -/
example : (∃ l, run listOps (quickSort (fun x y : Int => x - y) 4 0 7) [5, 5, 5, 5, 5, 5, 5, 5] = .ok ((), l)) ∧
    run listOps (quickSort (fun x y : Int => x - y) 3 0 7) [5, 5, 5, 5, 5, 5, 5, 5] = .outOfFuel := by
  obtain ⟨c, h, -⟩ := C95_sort_partial listOps_lawful (c := [5, 5, 5, 5, 5, 5, 5, 5]) trivial [] [5, 5, 5, 5, 5, 5, 5, 5] [] rfl (fun x y : Int => x - y) (d := 4)
    (by decide) (by decide)
  exact ⟨⟨c, h⟩, C95_sort_violated listOps_lawful (c := [5, 5, 5, 5, 5, 5, 5, 5]) trivial [] [5, 5, 5, 5, 5, 5, 5, 5] [] rfl (fun x y : Int => x - y)
    (by decide) (d := 3) (by decide)⟩

/-- `C95_nthElement_partial` and `C95_nthElement_violated` on six equal elements, position 2: four nested calls are enough, three are not. -/
example : (∃ l, run listOps (nthElementRec (fun x y : Int => x - y) 4 0 5 2) [5, 5, 5, 5, 5, 5] = .ok ((), l)) ∧
    run listOps (nthElementRec (fun x y : Int => x - y) 3 0 5 2) [5, 5, 5, 5, 5, 5] = .outOfFuel := by
  obtain ⟨c, h, -⟩ := C95_nthElement_partial listOps_lawful (c := [5, 5, 5, 5, 5, 5]) trivial [] [5, 5, 5, 5, 5, 5] [] rfl (fun x y : Int => x - y) (d := 4)
    (by decide) (by decide) 2 (by decide)
  exact ⟨⟨c, h⟩, C95_nthElement_violated listOps_lawful (c := [5, 5, 5, 5, 5, 5]) trivial [] [5, 5, 5, 5, 5, 5] [] rfl (fun x y : Int => x - y)
    (by decide) 2 (d := 3) (by decide)⟩

/-- `C95_stable` on five elements: room for four nested calls is enough, room for three is not. -/
example : (∃ l, run listOps (stable 0 (fun x y : Int => x - y) 4 0 5) [3, 1, 2, 5, 4] = .ok ((), l)) ∧
    run listOps (stable 0 (fun x y : Int => x - y) 3 0 5) [3, 1, 2, 5, 4] = .outOfFuel := by
  obtain ⟨c, h, -⟩ := (C95_stable listOps_lawful (c := [3, 1, 2, 5, 4]) trivial [] [3, 1, 2, 5, 4] [] rfl (fun x y : Int => x - y) 0 (by decide) 3).1 (by decide)
  exact ⟨⟨c, h⟩, (C95_stable listOps_lawful (c := [3, 1, 2, 5, 4]) trivial [] [3, 1, 2, 5, 4] [] rfl (fun x y : Int => x - y) 0 (by decide) 2).2 (by decide)⟩

end GoSTL.Algo
