import Verif.Algo.Avg
/-!
# C110: `Sort` is quick on average
-/
namespace GoSTL.Algo
open GoSTL.Seq
variable {C T : Type} {ops : Ops C T} {Inv : C → Prop} {abs : C → List T}

/-- The elements of a list that all differ, numbered in their order. -/
theorem exists_rank {cmp : T → T → Int} (h : LawfulCmp cmp) (M : List T) (hd : M.Pairwise fun x y => cmp x y ≠ 0) (h0 : M ≠ []) :
    ∃ σ : Nat → T, M.Perm ((List.range M.length).map σ) ∧ ∀ i j, i < M.length → j < M.length → (cmp (σ i) (σ j) > 0 ↔ j < i) := by
  let le : T → T → Bool := fun x y => cmp x y ≤ 0
  have hp : (M.mergeSort le).Perm M := List.mergeSort_perm M le
  have hs : (M.mergeSort le).Pairwise (fun x y => le x y) := List.pairwise_mergeSort
    (fun a b c h1 h2 => by simp only [le, decide_eq_true_eq] at *; exact h.trans _ _ _ h1 h2)
    (fun a b => by simp only [le, Bool.or_eq_true, decide_eq_true_eq]; have := h.swap a b; have := h.swap b a; omega) M
  have hd' : (M.mergeSort le).Pairwise fun x y => cmp x y ≠ 0 := by
    refine (hp.pairwise_iff ?_).2 hd
    intro x y hxy e
    have := h.swap x y; have := h.swap y x
    omega
  generalize hL : M.mergeSort le = L at *
  have len : L.length = M.length := hp.length_eq
  obtain ⟨x0, hx0⟩ := List.exists_mem_of_ne_nil M h0
  have hlt : ∀ i j (hi : i < L.length) (hj : j < L.length), i < j → cmp L[i] L[j] < 0 := by
    intro i j hi hj hij
    have h1 := List.pairwise_iff_getElem.1 hs i j hi hj hij
    have h2 := List.pairwise_iff_getElem.1 hd' i j hi hj hij
    simp only [le, decide_eq_true_eq] at h1
    omega
  refine ⟨fun i => L.getD i x0, hp.symm.trans (.of_eq ?_), ?_⟩
  · apply List.ext_getElem
    · simp [len]
    · intro i h1 h2
      simp only [List.getElem_map, List.getElem_range]
      rw [List.getD_eq_getElem _ _ h1]
  · intro i j hi hj
    beta_reduce
    rw [List.getD_eq_getElem _ _ (by omega), List.getD_eq_getElem _ _ (by omega)]
    rcases Nat.lt_trichotomy i j with c | rfl | c
    · have := hlt i j (by omega) (by omega) c; omega
    · rw [h.refl]; omega
    · have := hlt j i (by omega) (by omega) c
      have := (h.swap L[j] L[i]).1 this
      omega

/-- **C110** `Sort` of `n` elements that all differ makes, on average over the orders in which they may come, at most `10·n·ln n + 26·n` reads and
writes: over all arrangements `M'` of the elements of a range, on any container, the numbers of reads and writes sum to at most `n!` times that. -/
theorem C110_sort_average (hl : Lawful ops Inv abs) {cmp : T → T → Int} (h : LawfulCmp cmp) (P M S : List T) (hd : M.Pairwise fun x y => cmp x y ≠ 0)
    (c : List T → C) (hc : ∀ M' ∈ M.permutations, Inv (c M') ∧ abs (c M') = P ++ M' ++ S) :
    ((M.permutations.map fun M' => (accesses ops (sort cmp P.length (P.length + M.length)) (c M') : ℝ)).sum) ≤
      (M.length.factorial : ℝ) * (10 * M.length * Real.log M.length + 26 * M.length) := by
  by_cases h0 : M = []
  · subst h0
    have := hc [] (by simp)
    simp
    rw [accesses_lawful hl _ _ this.1]
    unfold sort
    rw [qs_one (by omega), acc_pure]
  obtain ⟨σ, hp, hσ⟩ := exists_rank h M hd h0
  have hf := Avg.avg_qc M.length (M.length + 1) (Nat.le_refl _)
  refine le_trans (le_of_eq ?_) hf
  unfold Avg.A
  rw [List.sum_toFinset _ (List.nodup_permutations _ List.nodup_range)]
  have hp' := hp.permutations
  rw [← List.map_permutations] at hp'
  rw [(hp'.map _).sum_eq, List.map_map]
  congr 1
  refine List.map_congr_left fun l hl' => ?_
  have hmem : l.map σ ∈ M.permutations := hp'.mem_iff.2 (List.mem_map.2 ⟨l, hl', rfl⟩)
  have hlA : l ∈ Avg.A M.length := by unfold Avg.A; simpa using hl'
  obtain ⟨c1, c2⟩ := hc _ hmem
  have len := Avg.A_len hlA
  simp only [Function.comp]
  rw [accesses_lawful hl _ _ c1, c2]
  have L := like_quickSort (σ := σ) (P := P) (S := S) (cmp' := cmp) Avg.ncmp_lawful (M.length + 1) l 0 ((l.length : Int) - 1) (by omega) (by omega) (by omega) (by omega) (by
    intro u hu v hv
    unfold Agree
    rw [hσ u v ((Avg.A_mem hlA).1 hu) ((Avg.A_mem hlA).1 hv)]
    unfold Avg.ncmp; omega)
  have a := L.acc
  unfold Avg.qc
  rw [← a]
  unfold sort emb
  have e1 : ((P.length : Int) + M.length - P.length).toNat = M.length := by omega
  have e2 : (P.length : Int) + (P.length + M.length - P.length) - 1 = P.length + ((l.length : Int) - 1) := by omega
  rw [e1, e2, Int.add_zero]

/-- Four elements between two others: the 24 arrangements, each in a slice of its own. -/
example := C110_sort_average listOps_lawful intCmp_lawful [9] [3, 1, 4, 2] [8] (by decide) (fun M' => [9] ++ M' ++ [8]) fun _ _ => ⟨trivial, rfl⟩
/-- One of them. -/
example : accesses listOps (sort intCmp 1 5) ([9] ++ [3, 1, 4, 2] ++ [8]) = 30 := by decide

end GoSTL.Algo
