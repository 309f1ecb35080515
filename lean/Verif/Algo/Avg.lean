import Verif.Algo.AvgSim
import Verif.Algo.AvgCount
/-!
# C110: `Sort` on average
-/
namespace GoSTL.Algo.Avg
open Finset GoSTL.Seq

/-! ## The three sampled elements -/

/-- The elements at three positions. -/
def tri (i j k : Nat) (l : List Nat) : Nat × Nat × Nat := (l.getD i 0, l.getD j 0, l.getD k 0)

theorem getD_lt {n i : Nat} {l : List Nat} (h : l ∈ A n) (hi : i < n) : l.getD i 0 < n := by
  rw [List.getD_eq_getElem _ _ (by rw [A_len h]; exact hi)]
  exact (A_mem h).1 (List.getElem_mem _)

theorem getD_ne {n i j : Nat} {l : List Nat} (h : l ∈ A n) (hi : i < n) (hj : j < n) (hij : i ≠ j) : l.getD i 0 ≠ l.getD j 0 := by
  rw [List.getD_eq_getElem _ _ (by rw [A_len h]; exact hi), List.getD_eq_getElem _ _ (by rw [A_len h]; exact hj)]
  exact fun e => hij ((A_nodup h).getElem_inj_iff.1 e)

theorem tri_mem {n i j k : Nat} {l : List Nat} (h : l ∈ A n) (hi : i < n) (hj : j < n) (hk : k < n) (h1 : i ≠ j) (h2 : i ≠ k) (h3 : j ≠ k) : tri i j k l ∈ D n := by
  unfold D tri
  simp only [Finset.mem_filter, Finset.mem_product, Finset.mem_range]
  exact ⟨⟨getD_lt h hi, getD_lt h hj, getD_lt h hk⟩, getD_ne h hi hj h1, getD_ne h hi hk h2, getD_ne h hj hk h3⟩

theorem tri_fibre {n i j k : Nat} (hi : i < n) (hj : j < n) (hk : k < n) (τ : Equiv.Perm Nat) (hτ : ∀ x, x < n → τ x < n) (x y z : Nat) :
    ((A n).filter fun l => tri i j k l = (x, y, z)).card ≤ ((A n).filter fun l => tri i j k l = (τ x, τ y, τ z)).card := by
  refine Finset.card_le_card_of_injOn (fun l => l.map τ) ?_ ?_
  · intro l hl
    simp only [Finset.coe_filter, Set.mem_ofPred_eq] at hl ⊢
    obtain ⟨h, e⟩ := hl
    refine ⟨A_map h hτ fun a b _ _ e => τ.injective e, ?_⟩
    have key : ∀ i, i < n → (l.map τ).getD i 0 = τ (l.getD i 0) := by
      intro i hi
      rw [List.getD_eq_getElem _ _ (by rw [List.length_map, A_len h]; exact hi), List.getD_eq_getElem _ _ (by rw [A_len h]; exact hi), List.getElem_map]
    unfold tri at e ⊢
    rw [key i hi, key j hj, key k hk]
    simp only [Prod.mk.injEq] at e ⊢
    rw [e.1, e.2.1, e.2.2]; simp
  · intro a _ b _ e
    exact List.map_injective_iff.2 τ.injective e

theorem swap_lt {n a b : Nat} (ha : a < n) (hb : b < n) : ∀ x, x < n → Equiv.swap a b x < n := by
  intro x hx
  rw [Equiv.swap_apply_def]
  split
  · exact hb
  · split
    · exact ha
    · exact hx

theorem tri_fibre_eq {n i j k : Nat} (hi : i < n) (hj : j < n) (hk : k < n) : ∀ a ∈ D n, ∀ b ∈ D n,
    ((A n).filter fun l => tri i j k l = a).card ≤ ((A n).filter fun l => tri i j k l = b).card := by
  rintro ⟨x, y, z⟩ ha ⟨x', y', z'⟩ hb
  unfold D at ha hb
  simp only [Finset.mem_filter, Finset.mem_product, Finset.mem_range] at ha hb
  obtain ⟨⟨hx, hy, hz⟩, d1, d2, d3⟩ := ha
  obtain ⟨⟨hx', hy', hz'⟩, d1', d2', d3'⟩ := hb
  have s1 := tri_fibre hi hj hk (Equiv.swap x x') (swap_lt hx hx') x y z
  rw [Equiv.swap_apply_left] at s1
  have hy1 := swap_lt hx hx' y hy
  have hz1 := swap_lt hx hx' z hz
  have ny : Equiv.swap x x' y ≠ x' := fun e => d1 ((Equiv.swap x x').injective (by rw [Equiv.swap_apply_left, e]))
  have nz : Equiv.swap x x' z ≠ x' := fun e => d2 ((Equiv.swap x x').injective (by rw [Equiv.swap_apply_left, e]))
  have nyz : Equiv.swap x x' y ≠ Equiv.swap x x' z := fun e => d3 ((Equiv.swap x x').injective e)
  generalize Equiv.swap x x' y = y1 at *
  generalize Equiv.swap x x' z = z1 at *
  have s2 := tri_fibre hi hj hk (Equiv.swap y1 y') (swap_lt hy1 hy') x' y1 z1
  rw [Equiv.swap_apply_left, Equiv.swap_apply_of_ne_of_ne ny.symm d1'] at s2
  have hz2 := swap_lt hy1 hy' z1 hz1
  have nz2 : Equiv.swap y1 y' z1 ≠ y' := fun e => nyz ((Equiv.swap y1 y').injective (by rw [Equiv.swap_apply_left, e]))
  have nz3 : Equiv.swap y1 y' z1 ≠ x' := fun e => nz ((Equiv.swap y1 y').injective (by rw [e, Equiv.swap_apply_of_ne_of_ne ny.symm d1']))
  generalize Equiv.swap y1 y' z1 = z2 at *
  have s3 := tri_fibre hi hj hk (Equiv.swap z2 z') (swap_lt hz2 hz') x' y' z2
  rw [Equiv.swap_apply_left, Equiv.swap_apply_of_ne_of_ne nz3.symm d2', Equiv.swap_apply_of_ne_of_ne nz2.symm d3'] at s3
  exact (s1.trans s2).trans s3

theorem tri_sum {n i j k : Nat} (hn : 3 ≤ n) (hi : i < n) (hj : j < n) (hk : k < n) (h1 : i ≠ j) (h2 : i ≠ k) (h3 : j ≠ k) :
    ∑ l ∈ A n, ((med (l.getD i 0) (l.getD j 0) (l.getD k 0) : ℕ) : ℝ) * (n - 1 - (med (l.getD i 0) (l.getD j 0) (l.getD k 0) : ℕ)) = n.factorial * (((n : ℝ) - 1) ^ 2 + 1) / 5 := by
  have key := fibre_sum (A n) (D n) (tri i j k) (fun l h => tri_mem h hi hj hk h1 h2 h3) (tri_fibre_eq hi hj hk)
    fun t => ((med t.1 t.2.1 t.2.2 : ℕ) : ℝ) * (n - 1 - (med t.1 t.2.1 t.2.2 : ℕ))
  rw [sum_D_quad, card_A] at key
  have hD : ((D n).card : ℝ) ≠ 0 := by
    rw [card_D]
    have : (3 : ℝ) ≤ n := by exact_mod_cast hn
    have h1 : (n : ℝ) ≠ 0 := by linarith
    have h2 : (n : ℝ) - 1 ≠ 0 := by linarith
    have h3 : (n : ℝ) - 2 ≠ 0 := by linarith
    positivity
  apply mul_left_cancel₀ hD
  unfold tri at key
  rw [key]; ring

/-! ## The partition -/

/-- The order of the numbers. -/
def ncmp (a b : Nat) : Int := (a : Int) - b

theorem ncmp_lawful : LawfulCmp ncmp := ⟨by unfold ncmp; intros; omega, by unfold ncmp; intros; omega⟩

theorem isPivot_med (x y z : Nat) : IsPivot ncmp x y z (med x y z) := by
  have p1 : [y, x, z].Perm [x, y, z] := .swap ..
  have p2 : [x, z, y].Perm [x, y, z] := (List.Perm.swap ..).cons _
  have p3 : [z, x, y].Perm [x, y, z] := (List.Perm.swap ..).trans p2
  have p4 : [y, z, x].Perm [x, y, z] := ((List.Perm.swap ..).cons _).trans p1
  have p5 : [z, y, x].Perm [x, y, z] := (List.Perm.swap ..).trans p4
  have hm : (x ≤ y ∧ y ≤ z ∨ z ≤ y ∧ y ≤ x) ∧ med x y z = y ∨ (x ≤ z ∧ z ≤ y ∨ y ≤ z ∧ z ≤ x) ∧ med x y z = z ∨ (y ≤ x ∧ x ≤ z ∨ z ≤ x ∧ x ≤ y) ∧ med x y z = x := by
    unfold med; omega
  rcases hm with ⟨h | h, e⟩ | ⟨h | h, e⟩ | ⟨h | h, e⟩ <;> rw [e]
  · exact ⟨x, z, .refl _, by unfold ncmp; omega, by unfold ncmp; omega⟩
  · exact ⟨z, x, p5, by unfold ncmp; omega, by unfold ncmp; omega⟩
  · exact ⟨x, y, p2, by unfold ncmp; omega, by unfold ncmp; omega⟩
  · exact ⟨y, x, p4, by unfold ncmp; omega, by unfold ncmp; omega⟩
  · exact ⟨y, z, p1, by unfold ncmp; omega, by unfold ncmp; omega⟩
  · exact ⟨z, y, p3, by unfold ncmp; omega, by unfold ncmp; omega⟩

theorem isPivot_eq {x y z p : Nat} (h : IsPivot ncmp x y z p) : p = med x y z := by
  obtain ⟨a, c, hp, h1, h2⟩ := h
  obtain ⟨a', c', hp', h1', h2'⟩ := isPivot_med x y z
  unfold ncmp at h1 h2 h1' h2'
  generalize med x y z = q at *
  have e : [a, p, c] = [a', q, c'] := by
    refine (hp.trans hp'.symm).eq_of_pairwise (le := (· ≤ ·)) (fun a b _ _ h h' => Nat.le_antisymm h h') ?_ ?_
    · simp; omega
    · simp; omega
  simp at e
  exact e.2.1

/-- The pivot of the first round. -/
def pv (n : Nat) (l : List Nat) : Nat := med (l.getD 0 0) (l.getD (n / 2) 0) (l.getD (n - 1) 0)

/-- The list after the first partition. -/
def part (n : Nat) (l : List Nat) : List Nat := match run listOps (partitionStep ncmp 0 ((n : Int) - 1)) l with
  | .ok x => x.2
  | _ => []

/-- What is left of the pivot after the first partition. -/
def left (n : Nat) (l : List Nat) : List Nat := (part n l).take (pv n l)
/-- What is right of the pivot, counted from the pivot. -/
def right (n : Nat) (l : List Nat) : List Nat := ((part n l).drop (pv n l + 1)).map (· - (pv n l + 1))

theorem at?_getD {n i : Nat} {l : List Nat} (h : l ∈ A n) (hi : i < n) : at? l (i : Int) = some (l.getD i 0) := by
  have hi' : i < l.length := by rw [A_len h]; exact hi
  rw [at?_nat, List.getElem?_eq_getElem hi', List.getD_eq_getElem _ _ hi']

theorem mid_eq (n : Nat) : (0 : Int) + ((n : Int) - 1 - 0 + 1) / 2 = ((n / 2 : Nat) : Int) := by push_cast; congr 1; omega

theorem split {n : Nat} {l : List Nat} (hn : 4 ≤ n) (h : l ∈ A n) :
    run listOps (partitionStep ncmp 0 ((n : Int) - 1)) l = .ok ((pv n l : Int), part n l) ∧
      part n l = left n l ++ pv n l :: (right n l).map (· + (pv n l + 1)) ∧ left n l ∈ A (pv n l) ∧ right n l ∈ A (n - 1 - pv n l) ∧ 1 ≤ pv n l ∧ pv n l ≤ n - 2 := by
  obtain ⟨m, l', p, e, s, m1, m2, hp, a1, a2, ip, -⟩ := run_partitionStep_pv ncmp_lawful (l := l) (first := 0) (last := (n : Int) - 1) (x0 := l.getD 0 0) (y0 := l.getD (n / 2) 0) (z0 := l.getD (n - 1) 0)
    (by omega) (by omega) (at?_getD (i := 0) h (by omega)) (by rw [mid_eq]; exact at?_getD h (by omega))
    (by rw [show (n : Int) - 1 = ((n - 1 : Nat) : Int) by omega]; exact at?_getD h (by omega))
  have ep : p = pv n l := isPivot_eq ip
  obtain ⟨k, rfl⟩ : ∃ k : Nat, m = k := ⟨m.toNat, by omega⟩
  have hl' : l' ∈ A n := mem_A.2 (s.perm.trans (mem_A.1 h))
  have len := A_len hl'
  have nd := A_nodup hl'
  have hk : k < l'.length := by omega
  rw [at?_nat, List.getElem?_eq_getElem hk] at hp
  have hpk : l'[k] = p := Option.some.inj hp
  have epart : part n l = l' := by unfold part; rw [e]
  have hlt : ∀ x ∈ l'.take k, x < p := by
    intro x hx
    obtain ⟨i, hi, rfl⟩ := List.mem_take_iff_getElem.1 hx
    have h1 := a1 (i : Int) l'[i] (by omega) (by omega) (by rw [at?_nat, List.getElem?_eq_getElem])
    have h2 : l'[i] ≠ l'[k] := fun e => absurd (nd.getElem_inj_iff.1 e) (by omega)
    unfold ncmp at h1
    omega
  have hgt : ∀ x ∈ l'.drop (k + 1), p < x ∧ x < n := by
    intro x hx
    have hx' := (A_mem hl').1 (List.mem_of_mem_drop hx)
    obtain ⟨i, hi, rfl⟩ := List.mem_drop_iff_getElem.1 hx
    have h1 := a2 ((k + 1 + i : Nat) : Int) l'[k + 1 + i] (by omega) (by omega) (by rw [at?_nat, List.getElem?_eq_getElem])
    have h2 : l'[k + 1 + i] ≠ l'[k] := fun e => absurd (nd.getElem_inj_iff.1 e) (by omega)
    unfold ncmp at h1
    omega
  have ndt : (l'.take k).Nodup := nd.sublist (List.take_sublist _ _)
  have ndd : (l'.drop (k + 1)).Nodup := nd.sublist (List.drop_sublist _ _)
  have hpn : p < n := (A_mem hl').1 (hpk ▸ List.getElem_mem _)
  have c1 : k ≤ p := by
    have := (ndt.subperm (l₂ := List.range p) fun x hx => List.mem_range.2 (hlt x hx)).length_le
    simp at this; omega
  have ndr : ((l'.drop (k + 1)).map (· - (p + 1))).Nodup := ndd.map_on fun x hx y hy e => by
    have := hgt x hx; have := hgt y hy; omega
  have hr : ∀ x ∈ (l'.drop (k + 1)).map (· - (p + 1)), x < n - 1 - p := by
    intro x hx
    obtain ⟨y, hy, rfl⟩ := List.mem_map.1 hx
    have := hgt y hy; omega
  have c2 : n - 1 - k ≤ n - 1 - p := by
    have := (ndr.subperm (l₂ := List.range (n - 1 - p)) fun x hx => List.mem_range.2 (hr x hx)).length_le
    simp at this; omega
  have ekp : k = p := by omega
  subst ekp
  unfold left right
  rw [← ep, epart]
  refine ⟨e, ?_, A_of ndt (by simp; omega) hlt, A_of ndr (by simp; omega) hr, by omega, by omega⟩
  have em : ((l'.drop (k + 1)).map (· - (k + 1))).map (· + (k + 1)) = l'.drop (k + 1) := by
    rw [List.map_map]
    conv => rhs; rw [← List.map_id (l'.drop (k + 1))]
    refine List.map_congr_left fun x hx => ?_
    have := hgt x hx
    simp; omega
  rw [em]
  conv => lhs; rw [← List.take_append_drop k l', List.drop_eq_getElem_cons hk, hpk]

/-- If the last element is the greatest, it stays where it is. -/
theorem split_last {n : Nat} {l : List Nat} (hn : 4 ≤ n) (h : l ∈ A n) (hl : l.getD (n - 1) 0 = n - 1) : (part n l).getD (n - 1) 0 = n - 1 := by
  obtain ⟨m, l', p, e, s, m1, m2, hp, a1, a2, ip, c, hc, hu⟩ := run_partitionStep_pv ncmp_lawful (l := l) (first := 0) (last := (n : Int) - 1) (x0 := l.getD 0 0) (y0 := l.getD (n / 2) 0) (z0 := l.getD (n - 1) 0)
    (by omega) (by omega) (at?_getD (i := 0) h (by omega)) (by rw [mid_eq]; exact at?_getD h (by omega))
    (by rw [show (n : Int) - 1 = ((n - 1 : Nat) : Int) by omega]; exact at?_getD h (by omega))
  have hl' : l' ∈ A n := mem_A.2 (s.perm.trans (mem_A.1 h))
  have epart : part n l = l' := by unfold part; rw [e]
  rw [show (n : Int) - 1 = ((n - 1 : Nat) : Int) by omega, at?_getD hl' (by omega)] at hc
  have h1 := hu (l.getD (n - 1) 0) (by simp)
  have h2 := getD_lt hl' (i := n - 1) (by omega)
  rw [epart]
  cases hc
  unfold ncmp at h1
  omega

theorem emb_nil {T T' : Type} (σ : T → T') (M : List T) : emb σ [] [] M = M.map σ := by simp [emb]

/-- A renaming that keeps every number on its side of the pivot does not change what the partition does. -/
theorem part_map {n : Nat} {l : List Nat} (hn : 4 ≤ n) (h : l ∈ A n) {σ : Nat → Nat} (h' : l.map σ ∈ A n)
    (hs : ∀ x, x < n → (x < pv n l ↔ σ x < pv n l) ∧ (pv n l < x ↔ pv n l < σ x)) :
    part n (l.map σ) = (part n l).map σ ∧ pv n (l.map σ) = pv n l := by
  obtain ⟨e, -⟩ := split hn h
  obtain ⟨e', -⟩ := split hn h'
  obtain ⟨a, c, hp, h1, h2⟩ := isPivot_med (l.getD 0 0) (l.getD (n / 2) 0) (l.getD (n - 1) 0)
  have hmem : ∀ u ∈ [l.getD 0 0, l.getD (n / 2) 0, l.getD (n - 1) 0], u < n := by
    intro u hu
    simp only [List.mem_cons, List.not_mem_nil, or_false] at hu
    rcases hu with rfl | rfl | rfl
    · exact getD_lt h (by omega)
    · exact getD_lt h (by omega)
    · exact getD_lt h (by omega)
  have L := like_partitionStep (σ := σ) (P := []) (S := []) (cmp' := ncmp) (M := l) ncmp_lawful (first := 0) (last := (n : Int) - 1)
    (x := l.getD 0 0) (y := l.getD (n / 2) 0) (z := l.getD (n - 1) 0)
    (by omega) (by omega) (at?_getD (i := 0) h (by omega)) (by rw [mid_eq]; exact at?_getD h (by omega))
    (by rw [show (n : Int) - 1 = ((n - 1 : Nat) : Int) by omega]; exact at?_getD h (by omega))
    (by
      intro u v hu hv
      have hu' := hs u (hmem u hu)
      have hv' := hs v (hmem v hv)
      have hu := hp.mem_iff.2 hu
      have hv := hp.mem_iff.2 hv
      unfold pv at hu' hv'
      generalize med (l.getD 0 0) (l.getD (n / 2) 0) (l.getD (n - 1) 0) = q at *
      simp only [List.mem_cons, List.not_mem_nil, or_false] at hu hv
      unfold Agree
      unfold ncmp at *
      rcases hu with rfl | rfl | rfl <;> rcases hv with rfl | rfl | rfl <;> omega)
    (by
      intro p hp u hu
      have ep : p = pv n l := isPivot_eq hp
      subst ep
      have h1 := hs u ((A_mem h).1 hu)
      have h2 := hs (pv n l) (by have := (split hn h).2.2.2.2.2; omega)
      unfold Agree ncmp
      omega)
  have r := L.run
  rw [emb_nil, e] at r
  simp only [List.length_nil, Nat.cast_zero, Int.zero_add] at r
  rw [e'] at r
  have r' := Prod.mk.inj (Res.ok.inj r)
  rw [emb_nil] at r'
  exact ⟨r'.2, Int.ofNat.inj r'.1⟩

/-! ## The two parts are random arrangements -/

theorem left_fibre {n p : Nat} (hn : 4 ≤ n) (hp : p < n) : ∀ a ∈ A p, ∀ b ∈ A p,
    (((A n).filter fun l => pv n l = p).filter fun l => left n l = a).card ≤ (((A n).filter fun l => pv n l = p).filter fun l => left n l = b).card := by
  intro a ha b hb
  let σ : Nat → Nat := fun x => if x < p then rel a b x else x
  have s1 : ∀ x, x < p → σ x = rel a b x ∧ rel a b x < p := fun x hx => ⟨if_pos hx, rel_lt ha hb hx⟩
  have s2 : ∀ x, ¬ x < p → σ x = x := fun x hx => if_neg hx
  have inj : ∀ x y, σ x = σ y → x = y := by
    intro x y e
    by_cases c : x < p <;> by_cases d : y < p
    · rw [(s1 x c).1, (s1 y d).1] at e; exact rel_inj ha hb c d e
    · have := s1 x c; have := s2 y d; omega
    · have := s2 x c; have := s1 y d; omega
    · rw [s2 x c, s2 y d] at e; exact e
  refine Finset.card_le_card_of_injOn (fun l => l.map σ) ?_ fun a _ b _ e => List.map_injective_iff.2 (fun x y e => inj x y e) e
  intro l hl
  simp only [Finset.coe_filter, Set.mem_ofPred_eq, Finset.mem_filter] at hl ⊢
  obtain ⟨⟨h, e1⟩, e2⟩ := hl
  have h' : l.map σ ∈ A n := A_map h (fun x hx => by
    by_cases c : x < p
    · have := s1 x c; omega
    · rw [s2 x c]; exact hx) fun x y _ _ e => inj x y e
  obtain ⟨q1, q2⟩ := part_map hn h h' (fun x hx => by
    rw [e1]
    by_cases c : x < p
    · have := s1 x c; omega
    · rw [s2 x c]; omega)
  refine ⟨⟨h', by rw [q2, e1]⟩, ?_⟩
  have e3 : left n (l.map σ) = (left n l).map σ := by
    unfold left
    rw [q1, q2, List.map_take]
  rw [e3, e2, ← rel_map ha hb]
  exact List.map_congr_left fun x hx => (s1 x ((A_mem ha).1 hx)).1

theorem right_fibre {n p : Nat} (hn : 4 ≤ n) (hp : p < n) : ∀ a ∈ A (n - 1 - p), ∀ b ∈ A (n - 1 - p),
    (((A n).filter fun l => pv n l = p).filter fun l => right n l = a).card ≤ (((A n).filter fun l => pv n l = p).filter fun l => right n l = b).card := by
  intro a ha b hb
  let σ : Nat → Nat := fun x => if p < x ∧ x < n then rel a b (x - (p + 1)) + (p + 1) else x
  have s1 : ∀ x, p < x ∧ x < n → σ x = rel a b (x - (p + 1)) + (p + 1) ∧ rel a b (x - (p + 1)) < n - 1 - p := fun x hx => ⟨if_pos hx, rel_lt ha hb (by omega)⟩
  have s2 : ∀ x, ¬ (p < x ∧ x < n) → σ x = x := fun x hx => if_neg hx
  have inj : ∀ x y, σ x = σ y → x = y := by
    intro x y e
    by_cases c : p < x ∧ x < n <;> by_cases d : p < y ∧ y < n
    · rw [(s1 x c).1, (s1 y d).1] at e
      have := rel_inj ha hb (x := x - (p + 1)) (y := y - (p + 1)) (by omega) (by omega) (by omega)
      omega
    · have := s1 x c; have := s2 y d; omega
    · have := s2 x c; have := s1 y d; omega
    · rw [s2 x c, s2 y d] at e; exact e
  refine Finset.card_le_card_of_injOn (fun l => l.map σ) ?_ fun a _ b _ e => List.map_injective_iff.2 (fun x y e => inj x y e) e
  intro l hl
  simp only [Finset.coe_filter, Set.mem_ofPred_eq, Finset.mem_filter] at hl ⊢
  obtain ⟨⟨h, e1⟩, e2⟩ := hl
  have h' : l.map σ ∈ A n := A_map h (fun x hx => by
    by_cases c : p < x ∧ x < n
    · have := s1 x c; omega
    · rw [s2 x c]; exact hx) fun x y _ _ e => inj x y e
  obtain ⟨q1, q2⟩ := part_map hn h h' (fun x hx => by
    rw [e1]
    by_cases c : p < x ∧ x < n
    · have := s1 x c; omega
    · rw [s2 x c]; omega)
  refine ⟨⟨h', by rw [q2, e1]⟩, ?_⟩
  obtain ⟨-, e4, hl, hr, -⟩ := split hn h
  have e5 : (part n l).drop (pv n l + 1) = (right n l).map (· + (pv n l + 1)) := by
    conv => lhs; rw [e4]
    have := A_len hl
    rw [List.drop_append, List.drop_eq_nil_of_le (by omega), this]
    simp
  unfold right at e2 ⊢
  rw [q1, q2, ← List.map_drop, e5, e1]
  unfold right
  rw [e2, List.map_map, List.map_map, ← rel_map ha hb, rel_map ha hb]
  conv => rhs; rw [← rel_map ha hb]
  refine List.map_congr_left fun x hx => ?_
  have hx' := (A_mem ha).1 hx
  have := s1 (x + (p + 1)) (by omega)
  simp only [Function.comp]
  rw [this.1]
  simp

theorem sum_by_pivot (n : Nat) (f : List Nat → ℝ) (hn : 4 ≤ n) : ∑ l ∈ A n, f l = ∑ p ∈ range n, ∑ l ∈ (A n).filter (fun l => pv n l = p), f l := by
  refine (Finset.sum_fiberwise_of_maps_to (fun l h => ?_) _).symm
  have := split hn h
  rw [Finset.mem_range]; omega

theorem avg_left {n : Nat} (hn : 4 ≤ n) (h : List Nat → ℝ) (B : Nat → ℝ) (hB : ∀ p, p < n → ∑ a ∈ A p, h a ≤ p.factorial * B p) :
    ∑ l ∈ A n, h (left n l) ≤ ∑ l ∈ A n, B (pv n l) := by
  rw [sum_by_pivot n _ hn, sum_by_pivot n _ hn]
  refine Finset.sum_le_sum fun p hp => ?_
  have hp := Finset.mem_range.1 hp
  have key := fibre_sum ((A n).filter fun l => pv n l = p) (A p) (left n) (fun l hl => by
    obtain ⟨h1, h2⟩ := Finset.mem_filter.1 hl
    have := (split hn h1).2.2.1
    rwa [h2] at this) (left_fibre hn hp) h
  rw [Finset.sum_congr rfl (g := fun _ => B p) (s₁ := (A n).filter fun l => pv n l = p) (f := fun l => B (pv n l)) (fun l hl => by rw [(Finset.mem_filter.1 hl).2])]
  rw [Finset.sum_const, nsmul_eq_mul]
  rw [card_A] at key
  have hf : (0 : ℝ) < p.factorial := by exact_mod_cast p.factorial_pos
  refine le_of_mul_le_mul_left ?_ hf
  rw [key]
  have := mul_le_mul_of_nonneg_left (hB p hp) (Nat.cast_nonneg (α := ℝ) ((A n).filter fun l => pv n l = p).card)
  linarith

theorem avg_right {n : Nat} (hn : 4 ≤ n) (h : List Nat → ℝ) (B : Nat → ℝ) (hB : ∀ p, p < n → ∑ a ∈ A p, h a ≤ p.factorial * B p) :
    ∑ l ∈ A n, h (right n l) ≤ ∑ l ∈ A n, B (n - 1 - pv n l) := by
  rw [sum_by_pivot n _ hn, sum_by_pivot n _ hn]
  refine Finset.sum_le_sum fun p hp => ?_
  have hp := Finset.mem_range.1 hp
  have key := fibre_sum ((A n).filter fun l => pv n l = p) (A (n - 1 - p)) (right n) (fun l hl => by
    obtain ⟨h1, h2⟩ := Finset.mem_filter.1 hl
    have := (split hn h1).2.2.2.1
    rwa [h2] at this) (right_fibre hn hp) h
  rw [Finset.sum_congr rfl (g := fun _ => B (n - 1 - p)) (s₁ := (A n).filter fun l => pv n l = p) (f := fun l => B (n - 1 - pv n l)) (fun l hl => by rw [(Finset.mem_filter.1 hl).2])]
  rw [Finset.sum_const, nsmul_eq_mul]
  rw [card_A] at key
  have hf : (0 : ℝ) < (n - 1 - p).factorial := by exact_mod_cast (n - 1 - p).factorial_pos
  refine le_of_mul_le_mul_left ?_ hf
  rw [key]
  have := mul_le_mul_of_nonneg_left (hB (n - 1 - p) (by omega)) (Nat.cast_nonneg (α := ℝ) ((A n).filter fun l => pv n l = p).card)
  linarith

/-! ## The cost -/

/-- Reads and writes of the sort of a whole list of numbers. -/
def qc (f : Nat) (l : List Nat) : Nat := accesses listOps (quickSort ncmp f 0 ((l.length : Int) - 1)) l

theorem qc_step {n f : Nat} {l : List Nat} (hn : 4 ≤ n) (h : l ∈ A n) (hf : n ≤ f) :
    qc (f + 1) l ≤ 4 * n + 18 + qc f (left n l) + qc f (right n l) := by
  obtain ⟨e, ep, hl, hr, p1, p2⟩ := split hn h
  generalize pv n l = p at *
  generalize left n l = a at *
  generalize right n l = b at *
  have len := A_len h
  have la := A_len hl
  have lb := A_len hr
  obtain ⟨a', ea, sa⟩ := run_quickSort_any ncmp f a 0 ((a.length : Int) - 1) (by omega) (by omega) (by omega) (by omega)
  have la' := sa.length
  have L1 := like_quickSort (σ := id) (P := []) (S := p :: b.map (· + (p + 1))) (cmp' := ncmp) ncmp_lawful f a 0 ((a.length : Int) - 1)
    (by omega) (by omega) (by omega) (by omega) fun _ _ _ _ => Iff.rfl
  have L2 := like_quickSort (σ := fun x : Nat => x + (p + 1)) (P := a' ++ [p]) (S := []) (cmp' := ncmp) ncmp_lawful f b 0 ((b.length : Int) - 1)
    (by omega) (by omega) (by omega) (by omega) fun u _ v _ => by unfold Agree ncmp; push_cast; omega
  have E1 : emb id [] (p :: b.map (· + (p + 1))) a = part n l := by rw [ep]; simp [emb]
  have E2 : emb id [] (p :: b.map (· + (p + 1))) a' = emb (fun x : Nat => x + (p + 1)) (a' ++ [p]) [] b := by simp [emb]
  have r1 := L1.run
  have c1 := L1.acc
  have c2 := L2.acc
  rw [ea] at r1
  have r1 : run listOps (quickSort ncmp f (([] : List Nat).length + 0) (([] : List Nat).length + ((a.length : Int) - 1))) (emb id [] (p :: b.map (· + (p + 1))) a) =
    .ok ((), emb id [] (p :: b.map (· + (p + 1))) a') := r1
  rw [E1, E2] at r1
  rw [E1] at c1
  have i1 : ((([] : List Nat).length : Int) + 0) = 0 := by simp
  have i2 : ((([] : List Nat).length : Int) + ((a.length : Int) - 1)) = (p : Int) - 1 := by simp; omega
  have i3 : (((a' ++ [p]).length : Int) + 0) = (p : Int) + 1 := by simp; omega
  have i4 : (((a' ++ [p]).length : Int) + ((b.length : Int) - 1)) = (n : Int) - 1 := by simp; omega
  rw [i1, i2] at r1 c1
  rw [i3, i4] at c2
  have big := acc_quickSort_big ncmp (f := f) (first := 0) (last := (n : Int) - 1) (m := p) (by omega) (by omega) (l := l) (by omega) e
    (l2 := emb (fun x : Nat => x + (p + 1)) (a' ++ [p]) [] b) (by rw [emb_length]; simp; omega) r1
  have st := acc_partitionStep ncmp (l := l) (first := 0) (last := (n : Int) - 1) (by omega) (by omega) (by omega)
  unfold qc
  rw [len, big, c1, c2]
  omega

/-- The average number of reads and writes of `Sort`. -/
theorem avg_qc : ∀ (n f : Nat), n + 1 ≤ f → ∑ l ∈ A n, (qc f l : ℝ) ≤ n.factorial * (10 * n * Real.log n + 26 * n) := by
  intro n
  induction n using Nat.strong_induction_on with
  | _ n ih =>
  intro f hf
  have const : ∀ c : ℝ, (∀ l ∈ A n, (qc f l : ℝ) ≤ c) → ∑ l ∈ A n, (qc f l : ℝ) ≤ n.factorial * c := by
    intro c hc
    have := Finset.sum_le_card_nsmul (A n) (fun l => (qc f l : ℝ)) c hc
    rwa [card_A, nsmul_eq_mul] at this
  have hquad : ∀ l ∈ A n, (qc f l : ℝ) ≤ 5 * (n * n) := by
    intro l hl
    have := acc_quickSort ncmp f l 0 ((l.length : Int) - 1) (by omega) (by omega) (by rw [A_len hl]; omega) (by omega) (by omega)
    have e : ((l.length : Int) - 1 - 0 + 1) = n := by rw [A_len hl]; omega
    rw [e] at this
    unfold qc
    exact_mod_cast this
  have lg : (0.69 : ℝ) < Real.log 2 := by have := Real.log_two_gt_d9; linarith
  rcases Nat.lt_or_ge n 4 with h4 | h4
  · apply const
    intro l hl
    have hq := hquad l hl
    obtain rfl | rfl | rfl | rfl : n = 0 ∨ n = 1 ∨ n = 2 ∨ n = 3 := by omega
    · simpa using hq
    · have : qc f l = 0 := by
        unfold qc
        obtain ⟨g, rfl⟩ : ∃ g, f = g + 1 := ⟨f - 1, by omega⟩
        rw [A_len hl, qs_one (by simp), acc_pure]
      rw [this]; simp
    · push_cast at hq ⊢; linarith
    · have : Real.log 2 ≤ Real.log 3 := Real.log_le_log (by norm_num) (by norm_num)
      push_cast at hq ⊢; linarith
  · obtain ⟨g, rfl⟩ : ∃ g, f = g + 1 := ⟨f - 1, by omega⟩
    have hn : (4 : ℝ) ≤ n := by exact_mod_cast h4
    have s1 : ∑ l ∈ A n, (qc (g + 1) l : ℝ) ≤ ∑ l ∈ A n, ((4 * n + 18 : ℝ) + qc g (left n l) + qc g (right n l)) :=
      Finset.sum_le_sum fun l hl => by exact_mod_cast qc_step h4 hl (by omega)
    rw [Finset.sum_add_distrib, Finset.sum_add_distrib, Finset.sum_const, card_A, nsmul_eq_mul] at s1
    have sl := avg_left h4 (fun l => (qc g l : ℝ)) (fun p => 10 * p * Real.log p + 26 * p) fun p hp => ih p hp g (by omega)
    have sr := avg_right h4 (fun l => (qc g l : ℝ)) (fun p => 10 * p * Real.log p + 26 * p) fun p hp => ih p hp g (by omega)
    have tot : ∑ l ∈ A n, (10 * (pv n l : ℝ) * Real.log (pv n l) + 26 * (pv n l : ℝ)) + ∑ l ∈ A n, (10 * ((n - 1 - pv n l : ℕ) : ℝ) * Real.log ((n - 1 - pv n l : ℕ) : ℝ) + 26 * ((n - 1 - pv n l : ℕ) : ℝ)) ≤
        ∑ l ∈ A n, ((10 * (n * Real.log n) + 26 * (n - 1)) - 20 / n * ((pv n l : ℝ) * (n - 1 - pv n l))) := by
      rw [← Finset.sum_add_distrib]
      refine Finset.sum_le_sum fun l hl => ?_
      obtain ⟨-, -, -, -, p1, p2⟩ := split h4 hl
      have c : ((n - 1 - pv n l : ℕ) : ℝ) = (n : ℝ) - 1 - pv n l := by rw [Nat.cast_sub (by omega), Nat.cast_sub (by omega)]; simp
      have q1 : (1 : ℝ) ≤ pv n l := by exact_mod_cast p1
      have q2 : (1 : ℝ) ≤ ((n - 1 - pv n l : ℕ) : ℝ) := by exact_mod_cast (by omega : 1 ≤ n - 1 - pv n l)
      have en := entropy (a := (pv n l : ℝ)) (b := ((n - 1 - pv n l : ℕ) : ℝ)) (n := n) (by linarith) (by linarith) (by rw [c]; linarith) (by linarith)
      have e2 : 20 / (n : ℝ) * ((pv n l : ℝ) * (n - 1 - pv n l)) = 10 * (2 * ((pv n l : ℝ) * ((n - 1 - pv n l : ℕ) : ℝ)) / n) := by rw [c]; ring
      rw [e2]; rw [c] at en ⊢; linarith
    rw [Finset.sum_sub_distrib, Finset.sum_const, card_A, nsmul_eq_mul, ← Finset.mul_sum] at tot
    have dist : ∑ l ∈ A n, ((pv n l : ℝ) * (n - 1 - pv n l)) = n.factorial * (((n : ℝ) - 1) ^ 2 + 1) / 5 :=
      tri_sum (i := 0) (j := n / 2) (k := n - 1) (by omega) (by omega) (by omega) (by omega) (by omega) (by omega) (by omega)
    rw [dist] at tot
    have hfac : (0 : ℝ) ≤ n.factorial := Nat.cast_nonneg _
    have fin : (4 * n + 18 : ℝ) ≤ 26 + 20 / n * ((((n : ℝ) - 1) ^ 2 + 1) / 5) := by
      rw [div_mul_eq_mul_div, ← sub_le_iff_le_add', le_div_iff₀ (by linarith)]
      nlinarith
    have fin' := mul_le_mul_of_nonneg_left fin hfac
    have e3 : (n.factorial : ℝ) * (26 + 20 / n * ((((n : ℝ) - 1) ^ 2 + 1) / 5)) = n.factorial * 26 + 20 / n * (n.factorial * (((n : ℝ) - 1) ^ 2 + 1) / 5) := by ring
    rw [e3] at fin'
    have e4 : (n.factorial : ℝ) * (10 * n * Real.log n + 26 * n) = n.factorial * (10 * (n * Real.log n) + 26 * (n - 1)) + n.factorial * 26 := by ring
    rw [e4]
    linarith

end GoSTL.Algo.Avg
