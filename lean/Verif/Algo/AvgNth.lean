import Verif.Algo.SortAvg
/-!
# C111: `NthElement` on average

After a step to the left the last element of the remaining range is its greatest. So two kinds of arrangements come up: all, and those with the greatest element at the end.
-/
namespace GoSTL.Algo.Avg
open Finset GoSTL.Seq

/-- The arrangements of `0, …, n-1` that end with `n-1`. -/
def V (n : Nat) : Finset (List Nat) := (A n).filter fun l => l.getD (n - 1) 0 = n - 1

theorem mem_V {n : Nat} {l : List Nat} : l ∈ V n ↔ l ∈ A n ∧ l.getD (n - 1) 0 = n - 1 := by unfold V; rw [Finset.mem_filter]

theorem snoc_mem {n : Nat} {l : List Nat} (h : l ∈ A n) : l ++ [n] ∈ V (n + 1) := by
  refine mem_V.2 ⟨A_of ?_ (by simp [A_len h]) ?_, ?_⟩
  · rw [List.nodup_append]
    exact ⟨A_nodup h, by simp, fun a ha b hb => by have := (A_mem h).1 ha; simp at hb; omega⟩
  · intro x hx
    rw [List.mem_append, A_mem h] at hx
    simp at hx; omega
  · rw [List.getD_append_right _ _ _ _ (by rw [A_len h]; omega), A_len h]; simp

theorem sum_V (n : Nat) (f : List Nat → ℝ) : ∑ l ∈ V (n + 1), f l = ∑ l ∈ A n, f (l ++ [n]) := by
  refine (Finset.sum_bij (fun l _ => l ++ [n]) (fun l h => snoc_mem h) (fun a _ b _ e => List.append_cancel_right e) ?_ fun _ _ => rfl).symm
  intro l hl
  obtain ⟨h, e⟩ := mem_V.1 hl
  have len := A_len h
  have e1 : l = l.take n ++ [n] := by
    apply List.ext_getElem
    · simp; omega
    · intro i h1 h2
      by_cases c : i < n
      · rw [List.getElem_append_left (by simp; omega)]; simp
      · have : i = n := by omega
        subst this
        rw [List.getElem_append_right (by simp)]
        simp only [Nat.add_sub_cancel] at e
        rw [List.getD_eq_getElem _ _ h1] at e
        simp [e]
  refine ⟨l.take n, ?_, e1.symm⟩
  have nd := A_nodup h
  refine A_of (nd.sublist (List.take_sublist _ _)) (by simp; omega) fun x hx => ?_
  have h1 := (A_mem h).1 (List.mem_of_mem_take hx)
  have h2 : x ≠ n := by
    rintro rfl
    rw [e1, List.nodup_append] at nd
    exact nd.2.2 x hx x (by simp) rfl
  omega

theorem card_V (n : Nat) : (V (n + 1)).card = (A n).card := by
  have := sum_V n fun _ => 1
  simp only [Finset.sum_const, nsmul_eq_mul, mul_one] at this
  exact_mod_cast this

/-- A set of arrangements on which the two parts after a partition are random: the left one among all, the right one in `R`. -/
structure Good (n : Nat) (X : Finset (List Nat)) (R : Nat → Finset (List Nat)) : Prop where
  sub : ∀ l ∈ X, l ∈ A n
  rsub : ∀ k, ∀ a ∈ R k, a ∈ A k
  right : ∀ l ∈ X, right n l ∈ R (n - 1 - pv n l)
  mapL : ∀ l ∈ X, ∀ σ : Nat → Nat, l.map σ ∈ A n → (∀ x, ¬ x < pv n l → σ x = x) → l.map σ ∈ X
  mapR : ∀ l ∈ X, ∀ σ : Nat → Nat, l.map σ ∈ A n → ∀ a ∈ R (n - 1 - pv n l), ∀ b ∈ R (n - 1 - pv n l),
    (∀ x, pv n l < x ∧ x < n → σ x = rel a b (x - (pv n l + 1)) + (pv n l + 1)) → l.map σ ∈ X

theorem good_A {n : Nat} (hn : 4 ≤ n) : Good n (A n) A :=
  ⟨fun _ h => h, fun _ _ h => h, fun _ h => (split hn h).2.2.2.1, fun _ _ _ h _ => h, fun _ _ _ h _ _ _ _ _ => h⟩

theorem getD_map {n i : Nat} {l : List Nat} (h : l ∈ A n) (σ : Nat → Nat) (hi : i < n) : (l.map σ).getD i 0 = σ (l.getD i 0) := by
  rw [List.getD_eq_getElem _ _ (by rw [List.length_map, A_len h]; exact hi), List.getD_eq_getElem _ _ (by rw [A_len h]; exact hi), List.getElem_map]

theorem part_drop {n : Nat} {l : List Nat} (hn : 4 ≤ n) (h : l ∈ A n) : (part n l).drop (pv n l + 1) = (right n l).map (· + (pv n l + 1)) := by
  obtain ⟨-, e4, hl, hr, -⟩ := split hn h
  conv => lhs; rw [e4]
  have := A_len hl
  rw [List.drop_append, List.drop_eq_nil_of_le (by omega), this]
  simp

theorem good_V {n : Nat} (hn : 4 ≤ n) : Good n (V n) V := by
  refine ⟨fun _ h => (mem_V.1 h).1, fun _ _ h => (mem_V.1 h).1, ?_, ?_, ?_⟩
  · intro l hl
    obtain ⟨h, e⟩ := mem_V.1 hl
    obtain ⟨-, e4, hL, hr, p1, p2⟩ := split hn h
    have hlast := split_last hn h e
    have la := A_len hL
    have lr := A_len hr
    refine mem_V.2 ⟨hr, ?_⟩
    rw [e4, List.getD_append_right _ _ _ _ (by omega), la] at hlast
    obtain ⟨d, hd⟩ : ∃ d, n - 1 - pv n l = d + 1 := ⟨n - 1 - pv n l - 1, by omega⟩
    rw [hd] at hlast lr ⊢
    simp only [List.getD_cons_succ] at hlast
    rw [getD_map (n := d + 1) (by rw [← hd]; exact hr) _ (by omega)] at hlast
    simp only [Nat.add_sub_cancel]
    omega
  · intro l hl σ h' hσ
    obtain ⟨h, e⟩ := mem_V.1 hl
    obtain ⟨-, -, -, -, p1, p2⟩ := split hn h
    refine mem_V.2 ⟨h', ?_⟩
    rw [getD_map h _ (by omega), e, hσ _ (by omega)]
  · intro l hl σ h' a ha b hb hσ
    obtain ⟨h, e⟩ := mem_V.1 hl
    obtain ⟨-, -, -, -, p1, p2⟩ := split hn h
    obtain ⟨ha1, ha2⟩ := mem_V.1 ha
    obtain ⟨hb1, hb2⟩ := mem_V.1 hb
    refine mem_V.2 ⟨h', ?_⟩
    rw [getD_map h _ (by omega), e, hσ _ (by omega)]
    have : rel a b (n - 1 - (pv n l + 1)) = n - 1 - pv n l - 1 := by
      unfold rel
      have e1 : n - 1 - (pv n l + 1) = n - 1 - pv n l - 1 := by omega
      have la := A_len ha1
      have e2 : a.idxOf (n - 1 - pv n l - 1) = n - 1 - pv n l - 1 := by
        conv => lhs; rw [← ha2, List.getD_eq_getElem a 0 (by omega)]
        exact (A_nodup ha1).idxOf_getElem _ _
      rw [e1, e2, hb2]
    rw [this]; omega

theorem good_left_fibre {n p : Nat} (hn : 4 ≤ n) (hp : p < n) {X : Finset (List Nat)} {R : Nat → Finset (List Nat)} (G : Good n X R) : ∀ a ∈ A p, ∀ b ∈ A p,
    ((X.filter fun l => pv n l = p).filter fun l => left n l = a).card ≤ ((X.filter fun l => pv n l = p).filter fun l => left n l = b).card := by
  intro a ha b hb
  let σ : Nat → Nat := fun x => if x < p then rel a b x else x
  have s1 : ∀ x, x < p → σ x = rel a b x ∧ rel a b x < p := fun x hx => ⟨if_pos hx, rel_lt ha hb hx⟩
  have s2 : ∀ x, ¬ x < p → σ x = x := fun x hx => if_neg hx
  have inj : ∀ x y, σ x = σ y → x = y := by
    intro x y e
    by_cases c : x < p <;> by_cases d : y < p
    · rw [(s1 x c).1, (s1 y d).1] at e; exact rel_inj ha hb c d e
    · have := s1 x c; have := s2 y d; omega
    · have := s2 x c; have := s1 y d; omega
    · rw [s2 x c, s2 y d] at e; exact e
  refine Finset.card_le_card_of_injOn (fun l => l.map σ) ?_ fun a _ b _ e => List.map_injective_iff.2 (fun x y e => inj x y e) e
  intro l hl
  simp only [Finset.coe_filter, Set.mem_ofPred_eq, Finset.mem_filter] at hl ⊢
  obtain ⟨⟨hX, e1⟩, e2⟩ := hl
  have h := G.sub l hX
  have h' : l.map σ ∈ A n := A_map h (fun x hx => by
    by_cases c : x < p
    · have := s1 x c; omega
    · rw [s2 x c]; exact hx) fun x y _ _ e => inj x y e
  obtain ⟨q1, q2⟩ := part_map hn h h' (fun x hx => by
    rw [e1]
    by_cases c : x < p
    · have := s1 x c; omega
    · rw [s2 x c]; omega)
  refine ⟨⟨G.mapL l hX σ h' (by rw [e1]; exact s2), by rw [q2, e1]⟩, ?_⟩
  have e3 : left n (l.map σ) = (left n l).map σ := by
    unfold left
    rw [q1, q2, List.map_take]
  rw [e3, e2, ← rel_map ha hb]
  exact List.map_congr_left fun x hx => (s1 x ((A_mem ha).1 hx)).1

theorem good_right_fibre {n p : Nat} (hn : 4 ≤ n) (hp : p < n) {X : Finset (List Nat)} {R : Nat → Finset (List Nat)} (G : Good n X R) :
    ∀ a ∈ R (n - 1 - p), ∀ b ∈ R (n - 1 - p),
    ((X.filter fun l => pv n l = p).filter fun l => right n l = a).card ≤ ((X.filter fun l => pv n l = p).filter fun l => right n l = b).card := by
  intro a haR b hbR
  have ha := G.rsub _ a haR
  have hb := G.rsub _ b hbR
  let σ : Nat → Nat := fun x => if p < x ∧ x < n then rel a b (x - (p + 1)) + (p + 1) else x
  have s1 : ∀ x, p < x ∧ x < n → σ x = rel a b (x - (p + 1)) + (p + 1) ∧ rel a b (x - (p + 1)) < n - 1 - p := fun x hx => ⟨if_pos hx, rel_lt ha hb (by omega)⟩
  have s2 : ∀ x, ¬ (p < x ∧ x < n) → σ x = x := fun x hx => if_neg hx
  have inj : ∀ x y, σ x = σ y → x = y := by
    intro x y e
    by_cases c : p < x ∧ x < n <;> by_cases d : p < y ∧ y < n
    · rw [(s1 x c).1, (s1 y d).1] at e
      have := rel_inj ha hb (x := x - (p + 1)) (y := y - (p + 1)) (by omega) (by omega) (by omega)
      omega
    · have := s1 x c; have := s2 y d; omega
    · have := s2 x c; have := s1 y d; omega
    · rw [s2 x c, s2 y d] at e; exact e
  refine Finset.card_le_card_of_injOn (fun l => l.map σ) ?_ fun a _ b _ e => List.map_injective_iff.2 (fun x y e => inj x y e) e
  intro l hl
  simp only [Finset.coe_filter, Set.mem_ofPred_eq, Finset.mem_filter] at hl ⊢
  obtain ⟨⟨hX, e1⟩, e2⟩ := hl
  have h := G.sub l hX
  have h' : l.map σ ∈ A n := A_map h (fun x hx => by
    by_cases c : p < x ∧ x < n
    · have := s1 x c; omega
    · rw [s2 x c]; exact hx) fun x y _ _ e => inj x y e
  obtain ⟨q1, q2⟩ := part_map hn h h' (fun x hx => by
    rw [e1]
    by_cases c : p < x ∧ x < n
    · have := s1 x c; omega
    · rw [s2 x c]; omega)
  refine ⟨⟨G.mapR l hX σ h' a (by rw [e1]; exact haR) b (by rw [e1]; exact hbR) (by rw [e1]; exact fun x hx => (s1 x hx).1), by rw [q2, e1]⟩, ?_⟩
  have e5 := part_drop hn h
  rw [right, q1, q2, ← List.map_drop, e5, e1, e2, List.map_map, List.map_map]
  conv => rhs; rw [← rel_map ha hb]
  refine List.map_congr_left fun x hx => ?_
  have hx' := (A_mem ha).1 hx
  have := s1 (x + (p + 1)) (by omega)
  simp only [Function.comp]
  rw [this.1]
  simp

/-- A sum over a random part is at most the sum of the averages. -/
theorem avg_gen {n : Nat} (hn : 4 ≤ n) {X : Finset (List Nat)} (hX : ∀ l ∈ X, l ∈ A n) (F : List Nat → List Nat) (t : Nat → Finset (List Nat))
    (hF : ∀ l ∈ X, F l ∈ t (pv n l))
    (hc : ∀ p, p < n → ∀ a ∈ t p, ∀ b ∈ t p, ((X.filter fun l => pv n l = p).filter fun l => F l = a).card ≤ ((X.filter fun l => pv n l = p).filter fun l => F l = b).card)
    (h : Nat → List Nat → ℝ) (B : Nat → ℝ) (hB : ∀ p, 1 ≤ p → p ≤ n - 2 → ∑ a ∈ t p, h p a ≤ (t p).card * B p) :
    ∑ l ∈ X, h (pv n l) (F l) ≤ ∑ l ∈ X, B (pv n l) := by
  have hpv : ∀ l ∈ X, pv n l ∈ range n := fun l hl => by
    have := split hn (hX l hl)
    rw [Finset.mem_range]; omega
  rw [← Finset.sum_fiberwise_of_maps_to hpv, ← Finset.sum_fiberwise_of_maps_to hpv]
  refine Finset.sum_le_sum fun p hp => ?_
  have hp := Finset.mem_range.1 hp
  rcases (X.filter fun l => pv n l = p).eq_empty_or_nonempty with he | ⟨l0, hl0⟩
  · rw [he]; simp
  obtain ⟨h1, h2⟩ := Finset.mem_filter.1 hl0
  have hs := split hn (hX _ h1)
  have key := fibre_sum (X.filter fun l => pv n l = p) (t p) F (fun l hl => by
    obtain ⟨h1, h2⟩ := Finset.mem_filter.1 hl
    have := hF l h1
    rwa [h2] at this) (hc p hp) (h p)
  rw [Finset.sum_congr rfl (g := fun _ => B p) (s₁ := X.filter fun l => pv n l = p) (f := fun l => B (pv n l)) (fun l hl => by rw [(Finset.mem_filter.1 hl).2])]
  rw [Finset.sum_congr rfl (g := fun l => h p (F l)) (s₁ := X.filter fun l => pv n l = p) (f := fun l => h (pv n l) (F l)) (fun l hl => by rw [(Finset.mem_filter.1 hl).2])]
  rw [Finset.sum_const, nsmul_eq_mul]
  have ht : (0 : ℝ) < (t p).card := by
    have := hF l0 h1
    rw [h2] at this
    exact_mod_cast Finset.card_pos.2 ⟨_, this⟩
  refine le_of_mul_le_mul_left ?_ ht
  rw [key]
  have := mul_le_mul_of_nonneg_left (hB p (by omega) (by omega)) (Nat.cast_nonneg (α := ℝ) (X.filter fun l => pv n l = p).card)
  linarith

/-! ## The greater one of two -/

theorem sum_D_pair (m : Nat) (F : Nat → ℝ) : ∑ t ∈ D m, F (max t.1 t.2.1) = ((m : ℝ) - 2) * (2 * ∑ y ∈ range m, (y : ℝ) * F y) := by
  unfold D
  rw [Finset.sum_filter, Finset.sum_product]
  simp only [Finset.sum_product]
  have e1 : ∀ x ∈ range m, ∀ y ∈ range m, ∑ z ∈ range m, (if x ≠ y ∧ x ≠ z ∧ y ≠ z then F (max x y) else 0) =
      ((m : ℝ) - 2) * ((if x < y then F y else 0) + (if y < x then F x else 0)) := by
    intro x hx y hy
    rcases Nat.lt_trichotomy x y with c | rfl | c
    · have c1 : x ≠ y := by omega
      simp only [ne_eq, c1, not_false_eq_true, true_and]
      rw [← Finset.sum_filter, Finset.sum_const, nsmul_eq_mul]
      have : (range m).filter (fun z => ¬ x = z ∧ ¬ y = z) = ((range m).erase x).erase y := by ext z; simp; omega
      rw [this, Finset.card_erase_of_mem (Finset.mem_erase.2 ⟨fun e => c1 e.symm, hy⟩), Finset.card_erase_of_mem hx, card_range, if_pos c, if_neg (by omega),
        show max x y = y by omega]
      have := Finset.mem_range.1 hx; have := Finset.mem_range.1 hy
      rw [show m - 1 - 1 = m - 2 by omega, Nat.cast_sub (by omega)]; push_cast; ring
    · simp
    · have c1 : x ≠ y := by omega
      simp only [ne_eq, c1, not_false_eq_true, true_and]
      rw [← Finset.sum_filter, Finset.sum_const, nsmul_eq_mul]
      have : (range m).filter (fun z => ¬ x = z ∧ ¬ y = z) = ((range m).erase x).erase y := by ext z; simp; omega
      rw [this, Finset.card_erase_of_mem (Finset.mem_erase.2 ⟨fun e => c1 e.symm, hy⟩), Finset.card_erase_of_mem hx, card_range, if_neg (by omega), if_pos c,
        show max x y = x by omega]
      have := Finset.mem_range.1 hx; have := Finset.mem_range.1 hy
      rw [show m - 1 - 1 = m - 2 by omega, Nat.cast_sub (by omega)]; push_cast; ring
  rw [Finset.sum_congr rfl fun x hx => Finset.sum_congr rfl fun y hy => e1 x hx y hy]
  simp only [← Finset.mul_sum, Finset.sum_add_distrib]
  have e2 : ∑ y ∈ range m, ∑ x ∈ range m, (if x < y then F y else 0) = ∑ y ∈ range m, (y : ℝ) * F y := by
    refine Finset.sum_congr rfl fun y hy => ?_
    have hy' := Finset.mem_range.1 hy
    rw [← Finset.sum_filter, Finset.sum_const, nsmul_eq_mul]
    have : (range m).filter (fun x => x < y) = range y := by ext z; simp; omega
    rw [this, card_range]
  rw [Finset.sum_comm, e2]; ring

theorem sum_3 (m : ℝ) (n : Nat) : ∑ y ∈ range n, (y : ℝ) * (y * (m - y)) = m * (n * (n - 1) * (2 * n - 1) / 6) - (n * (n - 1) / 2) ^ 2 := by
  induction n with
  | zero => simp
  | succ n ih => rw [Finset.sum_range_succ, ih]; push_cast; ring

theorem dist_V {n : Nat} (hn : 4 ≤ n) : ∑ l ∈ V n, ((pv n l : ℝ) * (n - 1 - pv n l)) = (V n).card * (((n : ℝ) - 1) * n / 6) := by
  obtain ⟨m, rfl⟩ : ∃ m, n = m + 1 := ⟨n - 1, by omega⟩
  rw [sum_V, card_V, card_A]
  have hm : (3 : ℝ) ≤ m := by exact_mod_cast (by omega : 3 ≤ m)
  have e : ∀ l ∈ A m, ((pv (m + 1) (l ++ [m]) : ℝ) * ((m + 1 : ℕ) - 1 - pv (m + 1) (l ++ [m]))) =
      (fun t : Nat × Nat × Nat => ((max t.1 t.2.1 : ℕ) : ℝ) * (m - (max t.1 t.2.1 : ℕ))) (tri 0 ((m + 1) / 2) 1 l) := by
    intro l h
    have h1 := getD_lt h (i := 0) (by omega)
    have h2 := getD_lt h (i := (m + 1) / 2) (by omega)
    have : pv (m + 1) (l ++ [m]) = max (l.getD 0 0) (l.getD ((m + 1) / 2) 0) := by
      have len := A_len h
      unfold pv
      rw [List.getD_append _ _ _ _ (by omega), List.getD_append _ _ _ _ (by omega), List.getD_append_right _ _ _ _ (by omega), len]
      simp only [Nat.add_sub_cancel, Nat.sub_self, List.getD_cons_zero]
      unfold med; omega
    simp only [tri, this]
    push_cast; ring
  rw [Finset.sum_congr rfl e]
  have key := fibre_sum (A m) (D m) (tri 0 ((m + 1) / 2) 1) (fun l h => tri_mem h (by omega) (by omega) (by omega) (by omega) (by omega) (by omega))
    (tri_fibre_eq (by omega) (by omega) (by omega)) fun t => ((max t.1 t.2.1 : ℕ) : ℝ) * (m - (max t.1 t.2.1 : ℕ))
  rw [sum_D_pair m fun y => (y : ℝ) * (m - y), sum_3, card_A] at key
  have hD : ((D m).card : ℝ) ≠ 0 := by
    rw [card_D]
    have h1 : (m : ℝ) ≠ 0 := by linarith
    have h2 : (m : ℝ) - 1 ≠ 0 := by linarith
    have h3 : (m : ℝ) - 2 ≠ 0 := by linarith
    positivity
  apply mul_left_cancel₀ hD
  rw [key, card_D]; push_cast; ring

theorem dist_A {n : Nat} (hn : 4 ≤ n) : ∑ l ∈ A n, ((pv n l : ℝ) * (n - 1 - pv n l)) = (A n).card * ((((n : ℝ) - 1) ^ 2 + 1) / 5) := by
  rw [card_A]
  have : ∑ l ∈ A n, ((pv n l : ℝ) * (n - 1 - pv n l)) = n.factorial * (((n : ℝ) - 1) ^ 2 + 1) / 5 :=
    tri_sum (i := 0) (j := n / 2) (k := n - 1) (by omega) (by omega) (by omega) (by omega) (by omega) (by omega) (by omega)
  rw [this]; ring

/-! ## The cost -/

/-- Reads and writes of the search for position `k` in a whole list of numbers. -/
def nc (f : Nat) (k : Int) (l : List Nat) : Nat := accesses listOps (nthElementRec ncmp f 0 ((l.length : Int) - 1) k) l

theorem nc_step {n f : Nat} {k : Int} {l : List Nat} (hn : 4 ≤ n) (h : l ∈ A n) (hf : n ≤ f) :
    nc (f + 1) k l ≤ 4 * n + 18 + (if k ≤ (pv n l : Int) then nc f k (left n l ++ [pv n l]) else nc f (k - ((pv n l : Int) + 1)) (right n l)) := by
  obtain ⟨e, ep, hl, hr, p1, p2⟩ := split hn h
  generalize pv n l = p at *
  generalize left n l = a at *
  generalize right n l = b at *
  have len := A_len h
  have la := A_len hl
  have lb := A_len hr
  have L1 := like_nthElementRec (σ := id) (P := []) (S := b.map (· + (p + 1))) (cmp' := ncmp) ncmp_lawful f (a ++ [p]) 0 (((a ++ [p]).length : Int) - 1) k
    (by omega) (by omega) (by simp; omega) (by omega) fun _ _ _ _ => Iff.rfl
  have L2 := like_nthElementRec (σ := fun x : Nat => x + (p + 1)) (P := a ++ [p]) (S := []) (cmp' := ncmp) ncmp_lawful f b 0 ((b.length : Int) - 1) (k - ((p : Int) + 1))
    (by omega) (by omega) (by omega) (by omega) fun u _ v _ => by unfold Agree ncmp; push_cast; omega
  have E1 : emb id [] (b.map (· + (p + 1))) (a ++ [p]) = part n l := by rw [ep]; simp [emb]
  have E2 : emb (fun x : Nat => x + (p + 1)) (a ++ [p]) [] b = part n l := by rw [ep]; simp [emb]
  have c1 := L1.acc
  have c2 := L2.acc
  rw [E1] at c1
  rw [E2] at c2
  have i1 : ((([] : List Nat).length : Int) + 0) = 0 := by simp
  have i2 : ((([] : List Nat).length : Int) + (((a ++ [p]).length : Int) - 1)) = (p : Int) := by simp; omega
  have i3 : (((a ++ [p]).length : Int) + 0) = (p : Int) + 1 := by simp; omega
  have i4 : (((a ++ [p]).length : Int) + ((b.length : Int) - 1)) = (n : Int) - 1 := by simp; omega
  rw [i1, i2] at c1
  rw [i3, i4] at c2
  have lp : (part n l).length = n := by rw [ep]; simp; omega
  have big := acc_nthElementRec_big ncmp (f := f) (first := 0) (last := (n : Int) - 1) (m := p) (n := k) (by omega) (l := l) e (by omega)
  have st := acc_partitionStep ncmp (l := l) (first := 0) (last := (n : Int) - 1) (by omega) (by omega) (by omega)
  unfold nc
  rw [len, big, ← c1, ← c2]
  simp only [Int.sub_zero]
  split <;> omega

theorem max_le {a b m : ℝ} (ha : 0 ≤ a) (hb : 0 ≤ b) (hm : 0 < m) (e : a + b = m) : a ≤ m - a * b / m ∧ b ≤ m - a * b / m := by
  have h1 : a * b / m ≤ b := by rw [div_le_iff₀ hm]; nlinarith
  have h2 : a * b / m ≤ a := by rw [div_le_iff₀ hm]; nlinarith
  constructor <;> linarith

theorem avg_nc_step {n g : Nat} {k : Int} (hn : 4 ≤ n) (hg : n ≤ g) {X : Finset (List Nat)} {R : Nat → Finset (List Nat)} (G : Good n X R)
    (hL : ∀ p k, 1 ≤ p → p ≤ n - 2 → ∑ a ∈ V (p + 1), (nc g k a : ℝ) ≤ (V (p + 1)).card * (51 * ((p + 1 : ℕ) : ℝ)))
    (hR : ∀ q k, 1 ≤ q → q ≤ n - 2 → ∑ a ∈ R q, (nc g k a : ℝ) ≤ (R q).card * (51 * (q : ℝ)))
    (dist : (X.card : ℝ) * (4 * n + 18) ≤ 51 / ((n : ℝ) - 1) * ∑ l ∈ X, ((pv n l : ℝ) * (n - 1 - pv n l))) :
    ∑ l ∈ X, (nc (g + 1) k l : ℝ) ≤ X.card * (51 * n) := by
  have hn' : (4 : ℝ) ≤ n := by exact_mod_cast hn
  have s1 : ∑ l ∈ X, (nc (g + 1) k l : ℝ) ≤ ∑ l ∈ X, ((4 * n + 18 : ℝ) + (if k ≤ (pv n l : Int) then (nc g k (left n l ++ [pv n l]) : ℝ) else 0) +
      (if k ≤ (pv n l : Int) then 0 else (nc g (k - ((pv n l : Int) + 1)) (right n l) : ℝ))) := by
    refine Finset.sum_le_sum fun l hl => ?_
    have := nc_step (k := k) hn (G.sub l hl) hg
    split
    · next c => rw [if_pos c] at this; rw [add_zero]; exact_mod_cast this
    · next c => rw [if_neg c] at this; rw [add_zero]; exact_mod_cast this
  rw [Finset.sum_add_distrib, Finset.sum_add_distrib, Finset.sum_const, nsmul_eq_mul] at s1
  have sl := avg_gen hn G.sub (left n) A (fun l hl => (split hn (G.sub l hl)).2.2.1) (fun p hp => good_left_fibre hn hp G)
    (fun p a => if k ≤ (p : Int) then (nc g k (a ++ [p]) : ℝ) else 0) (fun p => if k ≤ (p : Int) then 51 * ((p + 1 : ℕ) : ℝ) else 0) (by
      intro p h1 h2
      by_cases c : k ≤ (p : Int)
      · simp only [c, if_true]
        have := hL p k h1 h2
        rwa [sum_V, card_V] at this
      · simp [c])
  have sr := avg_gen hn G.sub (right n) (fun p => R (n - 1 - p)) (fun l hl => G.right l hl) (fun p hp => good_right_fibre hn hp G)
    (fun p b => if k ≤ (p : Int) then 0 else (nc g (k - ((p : Int) + 1)) b : ℝ)) (fun p => if k ≤ (p : Int) then 0 else 51 * ((n - 1 - p : ℕ) : ℝ)) (by
      intro p h1 h2
      by_cases c : k ≤ (p : Int)
      · simp [c]
      · simp only [c, if_false]
        exact hR (n - 1 - p) _ (by omega) (by omega))
  beta_reduce at sl sr
  have tot : ∑ l ∈ X, (if k ≤ (pv n l : Int) then 51 * ((pv n l + 1 : ℕ) : ℝ) else 0) + ∑ l ∈ X, (if k ≤ (pv n l : Int) then 0 else 51 * ((n - 1 - pv n l : ℕ) : ℝ)) ≤
      ∑ l ∈ X, (51 * n - 51 / ((n : ℝ) - 1) * ((pv n l : ℝ) * (n - 1 - pv n l))) := by
    rw [← Finset.sum_add_distrib]
    refine Finset.sum_le_sum fun l hl => ?_
    obtain ⟨-, -, -, -, p1, p2⟩ := split hn (G.sub l hl)
    have c : ((n - 1 - pv n l : ℕ) : ℝ) = (n : ℝ) - 1 - pv n l := by rw [Nat.cast_sub (by omega), Nat.cast_sub (by omega)]; simp
    have q1 : (1 : ℝ) ≤ pv n l := by exact_mod_cast p1
    have q2 : (1 : ℝ) ≤ ((n - 1 - pv n l : ℕ) : ℝ) := by exact_mod_cast (by omega : 1 ≤ n - 1 - pv n l)
    rw [c] at q2
    obtain ⟨x1, x2⟩ := max_le (a := (pv n l : ℝ)) (b := (n : ℝ) - 1 - pv n l) (m := (n : ℝ) - 1) (by linarith) (by linarith) (by linarith) (by ring)
    have e : 51 / ((n : ℝ) - 1) * ((pv n l : ℝ) * (n - 1 - pv n l)) = 51 * ((pv n l : ℝ) * (n - 1 - pv n l) / ((n : ℝ) - 1)) := by ring
    rw [e, c]
    split
    · push_cast; linarith
    · linarith
  rw [Finset.sum_sub_distrib, Finset.sum_const, nsmul_eq_mul, ← Finset.mul_sum] at tot
  linarith

/-- The average number of reads and writes of `NthElement`. -/
theorem avg_nc : ∀ (n f : Nat) (k : Int), n + 1 ≤ f → ∑ l ∈ A n, (nc f k l : ℝ) ≤ (A n).card * (51 * n) ∧ ∑ l ∈ V n, (nc f k l : ℝ) ≤ (V n).card * (51 * n) := by
  intro n
  induction n using Nat.strong_induction_on with
  | _ n ih =>
  intro f k hf
  rcases Nat.lt_or_ge n 4 with h4 | h4
  · have hquad : ∀ l ∈ A n, (nc f k l : ℝ) ≤ 51 * n := by
      intro l hl
      have := acc_nthElementRec ncmp f l 0 ((l.length : Int) - 1) k (by omega) (by omega) (by rw [A_len hl]; omega) (by omega) (by omega)
      have e : ((l.length : Int) - 1 - 0 + 1) = n := by rw [A_len hl]; omega
      rw [e] at this
      have h5 : (nc f k l : ℝ) ≤ 5 * (n * n) := by unfold nc; exact_mod_cast this
      have : (n : ℝ) ≤ 3 := by exact_mod_cast (by omega : n ≤ 3)
      have : (0 : ℝ) ≤ n := Nat.cast_nonneg _
      nlinarith
    have const : ∀ X : Finset (List Nat), (∀ l ∈ X, l ∈ A n) → ∑ l ∈ X, (nc f k l : ℝ) ≤ X.card * (51 * n) := by
      intro X hX
      have := Finset.sum_le_card_nsmul X (fun l => (nc f k l : ℝ)) _ fun l hl => hquad l (hX l hl)
      rwa [nsmul_eq_mul] at this
    exact ⟨const _ fun _ h => h, const _ fun _ h => (mem_V.1 h).1⟩
  · obtain ⟨g, rfl⟩ : ∃ g, f = g + 1 := ⟨f - 1, by omega⟩
    have hn : (4 : ℝ) ≤ n := by exact_mod_cast h4
    constructor
    · refine avg_nc_step h4 (by omega) (good_A h4) (fun p k _ _ => (ih (p + 1) (by omega) g k (by omega)).2) (fun q k _ _ => (ih q (by omega) g k (by omega)).1) ?_
      rw [dist_A h4]
      have hc : (0 : ℝ) ≤ (A n).card := Nat.cast_nonneg _
      have : (4 * n + 18 : ℝ) ≤ 51 / ((n : ℝ) - 1) * ((((n : ℝ) - 1) ^ 2 + 1) / 5) := by
        rw [div_mul_eq_mul_div, le_div_iff₀ (by linarith)]
        nlinarith
      have := mul_le_mul_of_nonneg_left this hc
      linarith
    · refine avg_nc_step h4 (by omega) (good_V h4) (fun p k _ _ => (ih (p + 1) (by omega) g k (by omega)).2) (fun q k _ _ => (ih q (by omega) g k (by omega)).2) ?_
      rw [dist_V h4]
      have hc : (0 : ℝ) ≤ (V n).card := Nat.cast_nonneg _
      have : (4 * n + 18 : ℝ) ≤ 51 / ((n : ℝ) - 1) * (((n : ℝ) - 1) * n / 6) := by
        rw [div_mul_eq_mul_div, le_div_iff₀ (by linarith)]
        nlinarith
      have := mul_le_mul_of_nonneg_left this hc
      linarith

end GoSTL.Algo.Avg

namespace GoSTL.Algo
open GoSTL.Seq
variable {C T : Type} {ops : Ops C T} {Inv : C → Prop} {abs : C → List T}

/-- **C111** `NthElement` of `n` elements that all differ makes, on average over the orders in which they may come, at most `51·n` reads and
writes, whatever position it is asked for: over all arrangements `M'` of the elements of a range, on any container, the numbers of reads and writes sum to at most
`n!` times that. -/
theorem C111_nthElement_average (hl : Lawful ops Inv abs) {cmp : T → T → Int} (h : LawfulCmp cmp) (P M S : List T) (hd : M.Pairwise fun x y => cmp x y ≠ 0)
    (k : Int) (c : List T → C) (hc : ∀ M' ∈ M.permutations, Inv (c M') ∧ abs (c M') = P ++ M' ++ S) :
    ((M.permutations.map fun M' => (accesses ops (nthElement cmp P.length (P.length + M.length) k) (c M') : ℝ)).sum) ≤
      (M.length.factorial : ℝ) * (51 * M.length) := by
  by_cases hk : ((P.length : Int) < 0 ∨ (P.length : Int) + M.length - P.length < k) ∨ M = []
  · have hz : ∀ x ∈ M.permutations.map fun M' => (accesses ops (nthElement cmp P.length (P.length + M.length) k) (c M') : ℝ), x = 0 := by
      intro x hx
      obtain ⟨M', hM', rfl⟩ := List.mem_map.1 hx
      rw [accesses_lawful hl _ _ (hc M' hM').1]
      unfold nthElement
      split
      · rw [acc_pure]; simp
      · next c =>
        rcases hk with hk | rfl
        · exact absurd hk c
        · rw [ns_one (by simp; omega), acc_pure]; simp
    rw [List.sum_eq_zero hz]; positivity
  rw [not_or] at hk
  obtain ⟨hk, h0⟩ := hk
  obtain ⟨σ, hp, hσ⟩ := exists_rank h M hd h0
  have hf := (Avg.avg_nc M.length (M.length + 2) k (by omega)).1
  rw [Avg.card_A] at hf
  refine le_trans (le_of_eq ?_) hf
  unfold Avg.A
  rw [List.sum_toFinset _ (List.nodup_permutations _ List.nodup_range)]
  have hp' := hp.permutations
  rw [← List.map_permutations] at hp'
  rw [(hp'.map _).sum_eq, List.map_map]
  congr 1
  refine List.map_congr_left fun l hl' => ?_
  have hmem : l.map σ ∈ M.permutations := hp'.mem_iff.2 (List.mem_map.2 ⟨l, hl', rfl⟩)
  have hlA : l ∈ Avg.A M.length := by unfold Avg.A; simpa using hl'
  obtain ⟨c1, c2⟩ := hc _ hmem
  have len := Avg.A_len hlA
  simp only [Function.comp]
  rw [accesses_lawful hl _ _ c1, c2]
  have L := like_nthElementRec (σ := σ) (P := P) (S := S) (cmp' := cmp) Avg.ncmp_lawful (M.length + 2) l 0 ((l.length : Int) - 1) k (by omega) (by omega) (by omega) (by omega) (by
    intro u hu v hv
    unfold Agree
    rw [hσ u v ((Avg.A_mem hlA).1 hu) ((Avg.A_mem hlA).1 hv)]
    unfold Avg.ncmp; omega)
  have a := L.acc
  unfold Avg.nc
  rw [← a]
  unfold nthElement emb
  rw [if_neg hk]
  have e1 : ((P.length : Int) + M.length - P.length).toNat = M.length := by omega
  have e2 : (P.length : Int) + (P.length + M.length - P.length) - 1 = P.length + ((l.length : Int) - 1) := by omega
  rw [e1, e2, Int.add_zero]

/-- Five elements between two others: the 120 arrangements, each in a slice of its own, and the smallest looked for. -/
example := C111_nthElement_average listOps_lawful intCmp_lawful [9] [3, 1, 4, 2, 5] [8] (by decide) 0 (fun M' => [9] ++ M' ++ [8]) fun _ _ => ⟨trivial, rfl⟩
/-- One of them. -/
example : accesses listOps (nthElement intCmp 1 6 0) ([9] ++ [3, 1, 4, 2, 5] ++ [8]) = 52 := by decide

end GoSTL.Algo
