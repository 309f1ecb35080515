import Verif.Heap.Crash
import Verif.Algo.Calls
/-!
# C112: how often a heap calls the comparator
-/
namespace GoSTL.Heap
open GoSTL.Seq GoSTL.Algo
variable {T σ : Type} {N : Nat}

theorem cost_less (i j : Int) (k : Nat) : Cost N (lessC i j : CProg T Bool) k fun _ k' => k' = k + 1 := by
  unfold lessC valueC
  exact .bind_lift fun x => .bind_lift fun y => .bind_cmp fun r => rfl

theorem cost_child (n j1 : Int) (k : Nat) : Cost N (childC n j1 : CProg T Int) k fun j k' => j1 ≤ j ∧ k' ≤ k + 1 := by
  unfold childC
  split
  · refine (cost_less _ _ _).then ?_
    rintro b k' rfl
    exact ⟨by split <;> omega, Nat.le_refl _⟩
  · exact ⟨Int.le_refl _, by omega⟩

theorem cost_downLoop (n : Nat) : ∀ (f i k : Nat), Cost N (downLoopC n f i : CProg T Int) k fun i' k' =>
    i ≤ i' ∧ k' ≤ k + 2 * Nat.log2 (n / (i + 1)) ∧ (i' ≤ i → k' ≤ k + 2) := by
  intro f
  induction f with
  | zero => intro i k; trivial
  | succ f ih =>
    intro i k
    unfold downLoopC
    simp only
    split
    · exact ⟨by omega, by omega, by omega⟩
    · next hc =>
      have h2 : 2 ≤ n / (i + 1) := by rw [Nat.le_div_iff_mul_le (by omega)]; omega
      have hd : ∀ j, 2 * i + 1 ≤ j → Nat.log2 (n / (j + 1)) + 1 ≤ Nat.log2 (n / (i + 1)) := by
        intro j hj
        rw [log2_half h2, Nat.div_div_eq_div_mul]
        exact Nat.succ_le_succ (log2_mono (Nat.div_le_div_left (by omega) (by omega)))
      refine (cost_child _ _ _).then ?_
      rintro j k1 ⟨hj, hk1⟩
      obtain ⟨j, rfl⟩ : ∃ j' : Nat, j = j' := ⟨j.toNat, by omega⟩
      refine (cost_less _ _ _).then ?_
      rintro b k2 rfl
      have := hd j (by omega)
      split
      · exact ⟨by omega, by omega, by omega⟩
      · refine Cost.bind_lift fun _ => (ih j (k1 + 1)).mono ?_
        rintro i' k' ⟨a1, a2, a3⟩
        exact ⟨by omega, by omega, by omega⟩

theorem cost_down (len n i k : Nat) : Cost N (downC len i n : CProg T Bool) k fun b k' =>
    k' ≤ k + 2 * Nat.log2 (n / (i + 1)) ∧ (b = false → k' ≤ k + 2) := by
  unfold downC
  refine (cost_downLoop n _ i k).then ?_
  rintro i' k' ⟨_, a2, a3⟩
  exact ⟨a2, fun h => a3 (by simpa using h)⟩

theorem cost_upLoop : ∀ (f j k : Nat), Cost N (upLoopC f j : CProg T Unit) k fun _ k' => k' ≤ k + Nat.log2 (j + 1) := by
  intro f
  induction f with
  | zero => intro j k; trivial
  | succ f ih =>
    intro j k
    unfold upLoopC
    simp only
    by_cases hz : j = 0
    · subst hz
      have : ((0 : Nat) - 1 : Int).tdiv 2 = 0 := by decide
      rw [this, if_pos (by rfl)]
      exact Nat.le_add_right _ _
    · have e : ((j : Int) - 1).tdiv 2 = ((j - 1) / 2 : Nat) := by rw [tdiv_par (by omega)]; simp only [par]; omega
      rw [e, if_neg (by omega)]
      refine (cost_less _ _ _).then ?_
      rintro b k' rfl
      have : Nat.log2 (j + 1) = Nat.log2 ((j - 1) / 2 + 1) + 1 := by
        rw [log2_half (by omega)]
        congr 2; omega
      split
      · show k + 1 ≤ _; omega
      · refine Cost.bind_lift fun _ => (ih ((j - 1) / 2) (k + 1)).mono ?_
        intro _ k' h; omega

/-- The sum of the heights of the positions below `m` in a heap of `n` elements. -/
def heights (n : Nat) : Nat → Nat
  | 0 => 0
  | m + 1 => Nat.log2 (n / (m + 1)) + heights n m

theorem heights_stop (n : Nat) : ∀ m, n / 2 ≤ m → heights n m = heights n (n / 2) := by
  intro m h
  induction m with
  | zero => have : n / 2 = 0 := by omega
            rw [this]
  | succ m ih =>
    rcases Nat.lt_or_eq_of_le h with h | h
    · have : n / (m + 1) ≤ 1 := by
        by_contra c
        have : 2 ≤ n / (m + 1) := by omega
        rw [Nat.le_div_iff_mul_le (by omega)] at this
        omega
      have z : Nat.log2 (n / (m + 1)) = 0 := by rw [Nat.log2_def, if_neg (by omega)]
      rw [heights, z, ih (by omega), Nat.zero_add]
    · rw [h]

theorem heights_half (n : Nat) : ∀ m, m ≤ n / 2 → heights n m = m + heights (n / 2) m := by
  intro m h
  induction m with
  | zero => rfl
  | succ m ih =>
    have : 2 ≤ n / (m + 1) := by rw [Nat.le_div_iff_mul_le (by omega)]; omega
    rw [heights, heights, ih (by omega), log2_half this, Nat.div_div_eq_div_mul, Nat.div_div_eq_div_mul, Nat.mul_comm (m + 1) 2]
    omega

theorem heights_le (n : Nat) (hn : 0 < n) : heights n (n / 2) < n := by
  induction n using Nat.strongRecOn with
  | ind n ih =>
    rw [heights_half n _ (Nat.le_refl _)]
    by_cases h : n / 2 = 0
    · rw [h]; simpa [heights] using hn
    · rw [heights_stop (n / 2) (n / 2) (by omega)]
      have := ih (n / 2) (by omega) (by omega)
      omega

theorem cost_initLoop (len n : Nat) : ∀ (i k : Nat), Cost N (initLoopC len n i : CProg T Unit) k fun _ k' => k' ≤ k + 2 * heights n i := by
  intro i
  induction i with
  | zero => intro k; exact Nat.le_refl _
  | succ i ih =>
    intro k
    unfold initLoopC
    refine (cost_down len n i k).then ?_
    rintro b k1 ⟨a1, -⟩
    refine (ih k1).mono ?_
    intro _ k' h
    simp only [heights]
    omega

theorem cost_fix (len n i k : Nat) (hi : i < n) : Cost N (do let b ← downC len i n; if !b then upC len i else pure () : CProg T Unit) k
    fun _ k' => k' ≤ k + 2 * Nat.log2 n := by
  have ad := log2_add (m := n) (d := i + 1) (by omega) (by omega)
  refine (cost_down len n i k).then ?_
  rintro b k1 ⟨a1, a2⟩
  split
  · refine (cost_upLoop _ i k1).mono ?_
    intro _ k' h
    omega
  · show k1 ≤ _; omega

theorem finishPop_done {α : Type} {o : Algo.Out σ (List T) α} {x : T} {h : List T} {s : σ} (e : finishPop o = .done x h s) :
    ∃ a h', o = .done a h' s := by
  cases o with
  | done a h' s' =>
    simp only [finishPop] at e
    cases e1 : holderPop h' with
    | ok q => rw [e1] at e; cases e; exact ⟨a, h', rfl⟩
    | panic => rw [e1] at e; cases e
    | outOfFuel => rw [e1] at e; cases e
  | crashed _ => cases e
  | panicked => cases e
  | outOfFuel => cases e

theorem finishPop_crashed {α : Type} {o : Algo.Out σ (List T) α} {h : List T} (e : finishPop o = .crashed h) : o = .crashed h := by
  cases o with
  | done a h' s' =>
    simp only [finishPop] at e
    cases e1 : holderPop h' with
    | ok q => rw [e1] at e; cases e
    | panic => rw [e1] at e; cases e
    | outOfFuel => rw [e1] at e; cases e
  | crashed _ => cases e; rfl
  | panicked => cases e
  | outOfFuel => cases e

/-- **C112** With every comparator, consistent or not, that does not panic, on every collection of `n` elements: `Init` calls it at most
`2 (n - 1)` times, `Push` at most `log2 (n + 1)` times, `Pop` and `Remove` at most `2 log2 (n - 1)` times, and `Fix` at most `2 log2 n`
times. -/
theorem C112_heap {ask : CmpFn σ T} (ha : ∀ s x y, ask s x y ≠ none) (s : σ) (h : List T) :
    Within (2 * (h.length - 1)) (initC (counted ask) (s, 0) h) ∧
    (∀ x, Within (Nat.log2 (h.length + 1)) (pushC (counted ask) (s, 0) h x)) ∧
    (h ≠ [] → Within (2 * Nat.log2 (h.length - 1)) (popC (counted ask) (s, 0) h)) ∧
    (∀ i : Nat, i < h.length → Within (2 * Nat.log2 (h.length - 1)) (removeC (counted ask) (s, 0) h i) ∧
      Within (2 * Nat.log2 h.length) (fixC (counted ask) (s, 0) h i)) := by
  refine ⟨?_, fun x => ?_, fun hne => ?_, fun i hi => ⟨?_, ?_⟩⟩
  · obtain ⟨h', e, -⟩ := C88_heap_init (counted ask) (s, 0) h
    refine Within.of listOps_lawful ha (c := h) trivial e ((cost_initLoop _ _ _ _).mono ?_)
    intro _ k hk
    rcases Nat.eq_zero_or_pos h.length with hz | hz
    · rw [hz] at hk ⊢; simpa [heights] using hk
    · have := heights_le _ hz; omega
  · obtain ⟨h', e, -⟩ := C88_heap_push_partial (counted ask) (s, 0) h x
    have el : (((h ++ [x]).length : Int) - 1) = h.length := by simp
    unfold pushC at e ⊢
    simp only [el] at e ⊢
    refine Within.of listOps_lawful ha (c := h ++ [x]) trivial e ((cost_upLoop _ _ _).mono ?_)
    intro _ k hk; omega
  · obtain ⟨x, t, rfl⟩ : ∃ x t, h = x :: t := by
      cases h with
      | nil => exact absurd rfl hne
      | cons x t => exact ⟨x, t, rfl⟩
    rcases C88_heap_pop (counted ask) (s, 0) x t with ⟨h', ⟨s', k⟩, e, -⟩ | ⟨h', e, -⟩
    · refine ⟨x, h', s', k, e, ?_⟩
      obtain ⟨a, h1, e1⟩ := finishPop_done e
      have hc : Cost (x :: t).length (popMoves (x :: t).length : CProg T Unit) 0 fun _ k => k ≤ 2 * Nat.log2 ((x :: t).length - 1) := by
        unfold popMoves
        simp only
        refine Cost.bind_lift fun _ => ?_
        have el : (((x :: t).length : Int) - 1) = ((x :: t).length - 1 : Nat) := by simp
        rw [el]
        refine (cost_down _ _ 0 0).then ?_
        rintro b k ⟨a1, -⟩
        show k ≤ _
        simpa using a1
      exact hc.run listOps_lawful (c := x :: t) trivial rfl e1
    · exact absurd (finishPop_crashed e) (runC_total _ (counted_total ha) _ _ _ _)
  · obtain ⟨x, hx⟩ := at?_ge (l := h) (i := i) (by omega)
    have hc : Cost h.length (removeMoves h.length i : CProg T Unit) 0 fun _ k => k ≤ 2 * Nat.log2 (h.length - 1) := by
      unfold removeMoves
      simp only
      split
      · next hn =>
        refine Cost.bind_lift fun _ => ?_
        have el : ((h.length : Int) - 1) = (h.length - 1 : Nat) := by omega
        rw [el]
        refine (cost_fix _ _ _ 0 (by omega)).mono ?_
        intro _ k hk; omega
      · exact Nat.zero_le _
    rcases C88_heap_remove (counted ask) (s, 0) h i x hx with ⟨h', ⟨s', k⟩, e, -⟩ | ⟨h', e, -⟩
    · refine ⟨x, h', s', k, e, ?_⟩
      obtain ⟨a, h1, e1⟩ := finishPop_done e
      exact hc.run listOps_lawful (c := h) trivial rfl e1
    · exact absurd (finishPop_crashed e) (runC_total _ (counted_total ha) _ _ _ _)
  · obtain ⟨h', e, -⟩ := C88_heap_fix (counted ask) (s, 0) h i (by omega)
    refine Within.of listOps_lawful ha (c := h) trivial e ((cost_fix _ _ _ _ hi).mono ?_)
    intro _ k hk; omega

/-- Seven elements in reverse order: `Init` makes 8 calls; the bound is 12. -/
example : ∃ s, initC (counted (fun (_ : Unit) (x y : Int) => some (x - y, ()))) ((), 0) [7, 6, 5, 4, 3, 2, 1] = .done () [1, 3, 2, 4, 6, 7, 5] (s, 8) := ⟨_, by rfl⟩
example := C112_heap (ask := fun (_ : Unit) (x y : Int) => some (x - y, ())) (by simp) () [7, 6, 5, 4, 3, 2, 1]
/-- A comparator whose answers alternate is also called no more often. -/
example := C112_heap (ask := Algo.flip) (by simp [Algo.flip]) true [7, 6, 5, 4, 3, 2, 1]

end GoSTL.Heap
