import Verif.Algo.Props
/-!
# C63: how often the searching and sorting algorithms touch the container
-/
namespace GoSTL.Seq
variable {C T α β : Type}

/-- The number of `At`/`Set` calls a program makes on a container (`Value` and `SetValue` of its iterators). -/
def accesses (ops : Ops C T) : Prog T α → C → Nat
  | .ret _, _ => 0
  | .get i k, c => match ops.get c i with
    | .ok x => accesses ops (k x) c + 1
    | _ => 1
  | .set i v k, c => match ops.set c i v with
    | .ok c => accesses ops k c + 1
    | _ => 1
  | .size k, c => accesses ops (k (ops.size c)) c
  | .panic, _ => 0
  | .outOfFuel, _ => 0

theorem accesses_bind_ok {ops : Ops C T} {p : Prog T α} {f : α → Prog T β} {c c' : C} {a : α} (h : run ops p c = .ok (a, c')) :
    accesses ops (p >>= f) c = accesses ops p c + accesses ops (f a) c' := by
  show accesses ops (p.bind f) c = _
  induction p generalizing c with
  | ret a => simp only [run] at h; cases h; simp [Prog.bind, accesses]
  | get i k ih =>
    simp only [run] at h
    simp only [Prog.bind, accesses]
    cases e : ops.get c i with
    | ok x =>
      rw [e] at h
      dsimp only
      rw [ih x h]; omega
    | panic => rw [e] at h; cases h
    | outOfFuel => rw [e] at h; cases h
  | set i v k ih =>
    simp only [run] at h
    simp only [Prog.bind, accesses]
    cases e : ops.set c i v with
    | ok x =>
      rw [e] at h
      dsimp only
      rw [ih h]; omega
    | panic => rw [e] at h; cases h
    | outOfFuel => rw [e] at h; cases h
  | size k ih => exact ih _ h
  | panic => cases h
  | outOfFuel => cases h

/-- A program makes the same calls on a lawful container as on the list it represents. -/
theorem accesses_lawful {ops : Ops C T} {Inv : C → Prop} {abs : C → List T} (hl : Lawful ops Inv abs) (p : Prog T α) (c : C)
    (hc : Inv c) : accesses ops p c = accesses listOps p (abs c) := by
  induction p generalizing c with
  | ret a => rfl
  | get i k ih =>
    simp only [accesses, listOps, hl.get c i hc]
    cases at? (abs c) i with
    | none => rfl
    | some x => exact congrArg (· + 1) (ih x c hc)
  | set i v k ih =>
    obtain ⟨c', e, h1, h2⟩ := hl.set c i v hc
    simp only [accesses, e, listOps, ← h2]
    exact congrArg (· + 1) (ih c' h1)
  | size k ih =>
    simp only [accesses, hl.size c hc, listOps]
    exact ih _ c hc
  | panic => rfl
  | outOfFuel => rfl

end GoSTL.Seq

namespace GoSTL.Algo
open GoSTL.Seq
variable {C T : Type} {cmp : T → T → Int} {ops : Ops C T} {Inv : C → Prop} {abs : C → List T}

theorem acc_value {l : List T} (i : Int) : accesses listOps (value i) l = 1 := by
  simp only [value, accesses]; split <;> rfl

theorem acc_setValue {l : List T} (i : Int) (v : T) : accesses listOps (setValue i v) l = 1 := by
  simp only [setValue, accesses]; split <;> rfl

theorem acc_next {l : List T} (i : Int) : accesses listOps (next i) l = 0 := rfl
theorem acc_prev {l : List T} (i : Int) : accesses listOps (prev i) l = 0 := rfl
theorem acc_isValid {l : List T} (i : Int) : accesses listOps (isValid i) l = 0 := rfl
theorem acc_pure {α : Type} {l : List T} (a : α) : accesses listOps (pure a : Prog T α) l = 0 := rfl

theorem acc_binarySearchLoop (cmp : T → T → Int) (val : T) (l : List T) : ∀ (k f : Nat) (left right : Int), 0 ≤ left → right < l.length →
    right - left + 1 < 2 ^ k → accesses listOps (binarySearchLoop cmp val f left right) l ≤ k := by
  intro k
  induction k with
  | zero =>
    intro f left right h0 h1 h2
    cases f with
    | zero => exact Nat.zero_le _
    | succ f =>
      unfold binarySearchLoop
      rw [if_neg (by simp at h2; omega), acc_pure]; exact Nat.le_refl _
  | succ k ih =>
    intro f left right h0 h1 h2
    cases f with
    | zero => exact Nat.zero_le _
    | succ f =>
      unfold binarySearchLoop
      have e2 : (2 : Int) ^ (k + 1) = 2 * 2 ^ k := by rw [Int.pow_succ]; omega
      rw [e2] at h2
      by_cases hle : left ≤ right
      · rw [if_pos hle]
        simp only
        generalize hm : (left + right) / 2 = mid
        obtain ⟨x, hx⟩ := at?_ge (l := l) (i := mid) (by omega)
        rw [accesses_bind_ok (run_value hx), acc_value]
        by_cases e0 : cmp val x = 0
        · rw [if_pos e0, acc_pure]; omega
        · rw [if_neg e0]
          by_cases e1 : cmp val x < 0
          · rw [if_pos e1, accesses_bind_ok (run_prev_ge (by omega)), acc_prev]
            have := ih f left (mid - 1) h0 (by omega) (by omega)
            omega
          · rw [if_neg e1, accesses_bind_ok (run_next_lt (by omega)), acc_next]
            have := ih f (mid + 1) right (by omega) (by omega) (by omega)
            omega
      · rw [if_neg hle, acc_pure]; exact Nat.zero_le _

theorem acc_boundLoop (below : T → Bool) (l : List T) : ∀ (k f : Nat) (left right pos : Int), 0 ≤ left → right < l.length →
    right - left + 1 < 2 ^ k → accesses listOps (boundLoop below f left right pos) l ≤ k := by
  intro k
  induction k with
  | zero =>
    intro f left right pos h0 h1 h2
    cases f with
    | zero => exact Nat.zero_le _
    | succ f =>
      unfold boundLoop
      rw [if_neg (by simp at h2; omega), acc_pure]; exact Nat.le_refl _
  | succ k ih =>
    intro f left right pos h0 h1 h2
    cases f with
    | zero => exact Nat.zero_le _
    | succ f =>
      unfold boundLoop
      have e2 : (2 : Int) ^ (k + 1) = 2 * 2 ^ k := by rw [Int.pow_succ]; omega
      rw [e2] at h2
      by_cases hle : left ≤ right
      · rw [if_pos hle]
        simp only
        generalize hm : (left + right) / 2 = mid
        obtain ⟨x, hx⟩ := at?_ge (l := l) (i := mid) (by omega)
        rw [accesses_bind_ok (run_value hx), acc_value]
        by_cases e1 : below x = true
        · rw [if_pos e1, accesses_bind_ok (run_prev_ge (by omega)), acc_prev]
          have := ih f left (mid - 1) mid h0 (by omega) (by omega)
          omega
        · rw [if_neg e1, accesses_bind_ok (run_next_lt (by omega)), acc_next]
          have := ih f (mid + 1) right pos (by omega) (by omega) (by omega)
          omega
      · rw [if_neg hle, acc_pure]; exact Nat.zero_le _

theorem lt_two_pow_log2 (n : Nat) : (n : Int) < 2 ^ (Nat.log2 n + 1) := by
  have := Nat.lt_log2_self (n := n)
  exact_mod_cast this

theorem acc_guard {α : Type} {l : List T} {first last : Int} (h0 : 0 ≤ first) (h1 : last ≤ l.length) {a : α} {p : Prog T α} {n : Nat}
    (hp : first < last → accesses listOps p l ≤ n) :
    accesses listOps (do let v ← isValid first; if v = false ∨ first ≥ last then pure a else p) l ≤ n := by
  rw [accesses_bind_ok (run_isValid l first), acc_isValid]
  by_cases c : first < last
  · rw [if_neg (by simp; omega)]
    have := hp c; omega
  · rw [if_pos (by right; omega), acc_pure]; omega

/-- **C63** `BinarySearch` reads at most `log2 n + 1` elements of a range of `n` elements, on every container and for every comparator, sorted or not. -/
theorem C63_binarySearch_logarithmic (hl : Lawful ops Inv abs) {c : C} (hc : Inv c) (P M S : List T) (hM : abs c = P ++ M ++ S) (cmp : T → T → Int) (val : T) :
    accesses ops (binarySearch cmp P.length (P.length + M.length) val) c ≤ Nat.log2 M.length + 1 := by
  rw [accesses_lawful hl _ _ hc, hM]
  have e : (P ++ M ++ S).length = P.length + M.length + S.length := by simp; omega
  refine acc_guard (by omega) (by omega) fun hlt => ?_
  rw [accesses_bind_ok (run_prev_ge (by omega)), acc_prev]
  have := acc_binarySearchLoop cmp val (P ++ M ++ S) (Nat.log2 M.length + 1) (((P.length : Int) + M.length - P.length).toNat + 1) P.length
    (P.length + M.length - 1) (by omega) (by omega) (by have := lt_two_pow_log2 M.length; omega)
  omega

/-- Instance: searching `[1 … 7]` inside `[9, 1, …, 7]` reads at most 3 elements, whatever value is looked for and whatever the comparator. -/
example (cmp : Int → Int → Int) (val : Int) : accesses listOps (binarySearch cmp 1 8 val) [9, 1, 2, 3, 4, 5, 6, 7] ≤ 3 :=
  C63_binarySearch_logarithmic listOps_lawful (c := [9, 1, 2, 3, 4, 5, 6, 7]) trivial [9] [1, 2, 3, 4, 5, 6, 7] [] rfl cmp val

/-- **C63** `LowerBound` and `UpperBound` read at most `log2 n + 2` elements of a range of `n` elements. -/
theorem C63_bounds_logarithmic (hl : Lawful ops Inv abs) {c : C} (hc : Inv c) (P M S : List T) (hM : abs c = P ++ M ++ S) (cmp : T → T → Int) (val : T) :
    accesses ops (lowerBound cmp P.length (P.length + M.length) val) c ≤ Nat.log2 M.length + 2 ∧
    accesses ops (upperBound cmp P.length (P.length + M.length) val) c ≤ Nat.log2 M.length + 2 := by
  rw [accesses_lawful hl _ _ hc, accesses_lawful hl _ _ hc, hM]
  have e : (P ++ M ++ S).length = P.length + M.length + S.length := by simp; omega
  have hb : ∀ below : T → Bool, (P.length : Int) < P.length + M.length → accesses listOps (boundLoop below (((P.length : Int) + M.length - P.length).toNat + 1) P.length
    (P.length + M.length - 1) 0) (P ++ M ++ S) ≤ Nat.log2 M.length + 1 := fun below h =>
    acc_boundLoop below _ _ _ _ _ _ (by omega) (by omega) (by have := lt_two_pow_log2 M.length; omega)
  constructor
  · refine acc_guard (by omega) (by omega) fun hlt => ?_
    rw [accesses_bind_ok (run_prev_ge (by omega)), acc_prev]
    obtain ⟨x, hx⟩ := at?_ge (l := P ++ M ++ S) (i := P.length + M.length - 1) (by omega)
    rw [accesses_bind_ok (run_value hx), acc_value]
    split
    · rw [acc_pure]; omega
    · have := hb (fun x => decide (cmp val x ≤ 0)) hlt
      omega
  · refine acc_guard (by omega) (by omega) fun hlt => ?_
    rw [accesses_bind_ok (run_prev_ge (by omega)), acc_prev]
    obtain ⟨x, hx⟩ := at?_ge (l := P ++ M ++ S) (i := P.length + M.length - 1) (by omega)
    rw [accesses_bind_ok (run_value hx), acc_value]
    split
    · rw [acc_pure]; omega
    · have := hb (fun x => decide (cmp val x < 0)) hlt
      omega

/-- Instance: both bounds of `[1 … 7]` inside `[9, 1, …, 7]` read at most 4 elements. -/
example (cmp : Int → Int → Int) (val : Int) : accesses listOps (lowerBound cmp 1 8 val) [9, 1, 2, 3, 4, 5, 6, 7] ≤ 4 ∧
    accesses listOps (upperBound cmp 1 8 val) [9, 1, 2, 3, 4, 5, 6, 7] ≤ 4 :=
  C63_bounds_logarithmic listOps_lawful (c := [9, 1, 2, 3, 4, 5, 6, 7]) trivial [9] [1, 2, 3, 4, 5, 6, 7] [] rfl cmp val

example : accesses listOps (binarySearch intCmp 1 8 6) [9, 1, 2, 3, 4, 5, 6, 7] = 2 ∧
    accesses listOps (binarySearch intCmp 1 8 7) [9, 1, 2, 3, 4, 5, 6, 7] = 3 ∧ Nat.log2 7 + 1 = 3 := ⟨rfl, rfl, by decide⟩
example : accesses listOps (lowerBound intCmp 1 8 7) [9, 1, 2, 3, 4, 5, 6, 7] = 4 ∧ Nat.log2 7 + 2 = 4 := ⟨rfl, by decide⟩

/-! ## Stable sort -/

theorem acc_mergeLoop (cmp : T → T → Int) (l : List T) (mid last : Int) (h1 : mid ≤ l.length) (h2 : last ≤ l.length) :
    ∀ (f : Nat) (a b : Int) (pos : Nat) (tmp : List T) (r : Int × Int × Nat × List T) (l' : List T), 0 ≤ a → 0 ≤ b →
      run listOps (mergeLoop cmp mid last f a b pos tmp) l = .ok (r, l') →
      accesses listOps (mergeLoop cmp mid last f a b pos tmp) l + 3 * pos = 3 * r.2.2.1 := by
  intro f
  induction f with
  | zero => intro a b pos tmp r l' _ _ h; cases h
  | succ f ih =>
    intro a b pos tmp r l' ha hb h
    unfold mergeLoop at h ⊢
    by_cases c : a < mid ∧ b < last
    · rw [if_pos c] at h ⊢
      obtain ⟨x, hx⟩ := at?_ge (l := l) (i := a) (by omega)
      obtain ⟨y, hy⟩ := at?_ge (l := l) (i := b) (by omega)
      rw [run_bind_ok (run_value hx), run_bind_ok (run_value hy)] at h
      rw [accesses_bind_ok (run_value hx), accesses_bind_ok (run_value hy), acc_value, acc_value]
      by_cases e : cmp x y ≤ 0
      · rw [if_pos e, run_bind_ok (run_value hx)] at h
        rw [if_pos e, accesses_bind_ok (run_value hx), acc_value]
        by_cases q : pos < tmp.length
        · rw [if_pos q, run_bind_ok (run_next_lt (by omega))] at h
          rw [if_pos q, accesses_bind_ok (run_next_lt (by omega)), acc_next]
          have := ih (a + 1) b (pos + 1) (tmp.set pos x) r l' (by omega) (by omega) h
          omega
        · rw [if_neg q] at h; cases h
      · rw [if_neg e, run_bind_ok (run_value hy)] at h
        rw [if_neg e, accesses_bind_ok (run_value hy), acc_value]
        by_cases q : pos < tmp.length
        · rw [if_pos q, run_bind_ok (run_next_lt (by omega))] at h
          rw [if_pos q, accesses_bind_ok (run_next_lt (by omega)), acc_next]
          have := ih a (b + 1) (pos + 1) (tmp.set pos y) r l' (by omega) (by omega) h
          omega
        · rw [if_neg q] at h; cases h
    · rw [if_neg c] at h ⊢
      cases h
      rw [acc_pure]; simp only; omega

theorem acc_drainLoop (l : List T) (stop : Int) (h1 : stop ≤ l.length) :
    ∀ (f : Nat) (a : Int) (pos : Nat) (tmp : List T), 0 ≤ a →
      accesses listOps (drainLoop stop f a pos tmp) l ≤ (stop - a).toNat := by
  intro f
  induction f with
  | zero => intro a pos tmp _; exact Nat.zero_le _
  | succ f ih =>
    intro a pos tmp ha
    unfold drainLoop
    by_cases c : a < stop
    · rw [if_pos c]
      obtain ⟨x, hx⟩ := at?_ge (l := l) (i := a) (by omega)
      rw [accesses_bind_ok (run_value hx), acc_value]
      by_cases q : pos < tmp.length
      · rw [if_pos q, accesses_bind_ok (run_next_lt (by omega)), acc_next]
        have := ih (a + 1) (pos + 1) (tmp.set pos x) (by omega)
        omega
      · rw [if_neg q]
        have : accesses listOps (Prog.panic : Prog T (Nat × List T)) l = 0 := rfl
        omega
    · rw [if_neg c, acc_pure]; exact Nat.zero_le _

theorem acc_copyBack (tmp : List T) : ∀ (k idx : Nat) (l : List T) (it : Int), accesses listOps (copyBack tmp k idx it) l ≤ k := by
  intro k
  induction k with
  | zero => intro idx l it; exact Nat.le_refl _
  | succ k ih =>
    intro idx l it
    unfold copyBack
    cases tmp[idx]? with
    | none => exact Nat.zero_le _
    | some x =>
      dsimp only
      rw [accesses_bind_ok (run_setValue _ _ _), acc_setValue, accesses_bind_ok (run_next _ _), acc_next]
      have := ih (idx + 1) (setAt l it x) (if it < (setAt l it x).length then it + 1 else it)
      omega

theorem acc_merge (cmp : T → T → Int) (P A B S tmp : List T) (first mid last : Int) (h1 : first = P.length)
    (h2 : mid = P.length + A.length) (h3 : last = P.length + A.length + B.length) (ht : A.length + B.length ≤ tmp.length) :
    accesses listOps (merge cmp first mid last tmp) (P ++ (A ++ B) ++ S) ≤ 4 * (A.length + B.length) := by
  have hs : SegAt (P ++ (A ++ B) ++ S) first (A ++ B) := ⟨P, S, rfl, h1⟩
  have hA := hs.left
  have hB := hs.right
  have hb := hs.bounds
  rw [List.length_append] at hb
  push_cast at hb
  have em : first + A.length = mid := by omega
  rw [em] at hB
  obtain ⟨a', b', pos', tmp1, A', B', e1, sA, sB, q1, q2, q3, q4, q5, q6⟩ := run_mergeLoop cmp _ mid last
    ((last - first).toNat + 1) A B first mid 0 tmp hA hB em (by omega) (by omega) (by omega)
  obtain ⟨tmp2, e2, q7, q8⟩ := run_drainLoop _ mid ((last - first).toNat + 1) A' a' pos' tmp1 sA q1 (by omega) (by omega)
  obtain ⟨tmp3, e3, q9, q10⟩ := run_drainLoop _ last ((last - first).toNat + 1) B' b' (pos' + A'.length) tmp2 sB q2
    (by omega) (by omega)
  have e4 := run_copyBack tmp3 (pos' + A'.length + B'.length) 0 P (A ++ B) S first (by simp; omega) h1 (by omega)
  have a1 := acc_mergeLoop cmp (P ++ (A ++ B) ++ S) mid last (by omega) (by omega) _ _ _ _ _ _ _ (by omega) (by omega) e1
  have a2 := acc_drainLoop (P ++ (A ++ B) ++ S) mid (by omega) ((last - first).toNat + 1) a' pos' tmp1 sA.bounds.1
  have a3 := acc_drainLoop (P ++ (A ++ B) ++ S) last (by omega) ((last - first).toNat + 1) b' (pos' + A'.length) tmp2 sB.bounds.1
  have a4 := acc_copyBack tmp3 (pos' + A'.length + B'.length) 0 (P ++ (A ++ B) ++ S) first
  unfold merge
  simp only
  rw [accesses_bind_ok e1]
  simp only
  rw [accesses_bind_ok e2]
  simp only
  rw [accesses_bind_ok e3]
  simp only
  rw [accesses_bind_ok e4, acc_pure]
  simp only at a1
  omega

theorem acc_mergeSort (h : LawfulCmp cmp) : ∀ (k f : Nat) (P M S tmp : List T) (first last : Int), first = P.length →
      last = P.length + M.length → 1 ≤ M.length → M.length ≤ f → M.length ≤ tmp.length → M.length ≤ 2 ^ k →
      accesses listOps (mergeSort cmp f first last tmp) (P ++ M ++ S) ≤ 4 * (M.length * k) := by
  intro k
  induction k with
  | zero =>
    intro f P M S tmp first last hf hl h1 h2 h3 h4
    obtain ⟨f, rfl⟩ : ∃ g, f = g + 1 := ⟨f - 1, by omega⟩
    unfold mergeSort
    rw [if_pos (by simp at h4; omega), acc_pure]; exact Nat.zero_le _
  | succ k ih =>
    intro f P M S tmp first last hf hl h1 h2 h3 h4
    obtain ⟨f, rfl⟩ : ∃ g, f = g + 1 := ⟨f - 1, by omega⟩
    unfold mergeSort
    by_cases c : M.length = 1
    · rw [if_pos (by omega), acc_pure]; exact Nat.zero_le _
    · rw [if_neg (by omega)]
      simp only
      generalize hm : (first + last) / 2 = mid
      let k' := (mid - first).toNat
      have hk : (k' : Int) = mid - first := by show ((mid - first).toNat : Int) = _; omega
      have hk1 : 1 ≤ k' := by omega
      have hk2 : k' < M.length := by omega
      let A := M.take k'
      let B := M.drop k'
      have hA : A.length = k' := by simp [A]; omega
      have hB : B.length = M.length - k' := by simp [B]
      have eM : M = A ++ B := (List.take_append_drop k' M).symm
      have e0 : P ++ M ++ S = P ++ A ++ (B ++ S) := by rw [eM]; simp
      have e2 : 2 ^ (k + 1) = 2 * 2 ^ k := by rw [Nat.pow_succ]; omega
      rw [e2] at h4
      obtain ⟨tmp1, A', t1, sA, r1⟩ := run_mergeSort h f P A (B ++ S) tmp first mid hf (by omega) (by omega) (by omega) (by omega)
      have lA : A'.length = A.length := sA.1.length_eq
      have e1 : P ++ A' ++ (B ++ S) = (P ++ A') ++ B ++ S := by simp
      obtain ⟨tmp2, B', t2, sB, r2⟩ := run_mergeSort h f (P ++ A') B S tmp1 mid last (by simp; omega) (by simp; omega) (by omega) (by omega)
        (by omega)
      have lB : B'.length = B.length := sB.1.length_eq
      have e3 : P ++ A' ++ B' ++ S = P ++ (A' ++ B') ++ S := by simp
      have a1 := ih f P A (B ++ S) tmp first mid hf (by omega) (by omega) (by omega) (by omega) (by omega)
      have a2 := ih f (P ++ A') B S tmp1 mid last (by simp; omega) (by simp; omega) (by omega) (by omega) (by omega) (by omega)
      have a3 := acc_merge cmp P A' B' S tmp2 first mid last hf (by omega) (by omega) (by omega)
      rw [e0, accesses_bind_ok r1, e1, accesses_bind_ok r2, e3]
      have e4 : M.length = A.length + B.length := by omega
      rw [lA, lB] at a3
      rw [e4, Nat.mul_succ, Nat.add_mul]
      omega

/-- **C63** `Stable` makes at most `4·n·k` reads and writes on a non-empty range of `n ≤ 2^k` elements: with `k = ⌈log2 n⌉`, `O(n log n)`. -/
theorem C63_stable_nlogn (hcmp : LawfulCmp cmp) (hl : Lawful ops Inv abs) {c : C} (hc : Inv c) (P M S : List T) (hM : abs c = P ++ M ++ S)
    (hne : M ≠ []) (zero : T) (fuel : Nat) (hf : M.length ≤ fuel) (k : Nat) (hk : M.length ≤ 2 ^ k) :
    accesses ops (stable zero cmp fuel P.length (P.length + M.length)) c ≤ 4 * (M.length * k) := by
  have h1 : 1 ≤ M.length := by cases M <;> simp_all
  rw [accesses_lawful hl _ _ hc, hM]
  obtain ⟨tmp', M', t, -, r⟩ := run_mergeSort hcmp fuel P M S (List.replicate M.length zero) P.length
    (P.length + M.length) rfl rfl h1 hf (by simp)
  have a := acc_mergeSort hcmp k fuel P M S (List.replicate M.length zero) P.length
    (P.length + M.length) rfl rfl h1 hf (by simp) hk
  have e1 : ((P.length : Int) + M.length - P.length).toNat = M.length := by omega
  unfold stable
  rw [if_neg (by omega), e1, accesses_bind_ok r, acc_pure]
  exact a

/-- Instance: five elements, `5 ≤ 2 ^ 3`, at most 60 accesses. -/
example : accesses listOps (stable 0 intCmp 5 1 6) [9, 5, 3, 4, 1, 2, 0] ≤ 60 :=
  C63_stable_nlogn intCmp_lawful listOps_lawful (c := [9, 5, 3, 4, 1, 2, 0]) trivial [9] [5, 3, 4, 1, 2] [0] rfl (by decide) 0 5 (by decide) 3 (by decide)

example : accesses listOps (stable 0 intCmp 5 1 6) [9, 5, 3, 4, 1, 2, 0] = 40 ∧ 4 * (5 * 3) = 60 := ⟨by decide, rfl⟩

end GoSTL.Algo
