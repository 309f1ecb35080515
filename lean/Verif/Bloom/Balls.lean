import Mathlib.Analysis.MeanInequalitiesPow
import Mathlib.Data.Fintype.BigOperators
import Mathlib.Data.Fintype.Pi
import Mathlib.Algebra.BigOperators.Fin
import Mathlib.Data.Fin.Tuple.Basic
import Mathlib.Tactic.FieldSimp
import Mathlib.Tactic.Linarith
import Mathlib.Tactic.Ring
import Mathlib.Tactic.Positivity
import Mathlib.Tactic.GCongr
/-!
# Throwing balls into bins

The counting behind C79: functions `A : ι → β` throw the balls `ι` into the bins `β`; a second function `B` throws `k` more
balls. How often do all balls of `B` land in bins that `A` has hit?
-/
namespace GoSTL.Bloom
open Finset

variable {ι β : Type} [Fintype ι] [DecidableEq ι] [Fintype β] [DecidableEq β]

/-- The bins that are hit. -/
def hits (A : ι → β) : Finset β := univ.image A

/-- The probability that a given bin is hit: `1 - (1 - 1/m)^N`. -/
noncomputable def pHit (m N : Nat) : ℝ := 1 - (1 - 1 / (m : ℝ)) ^ N

theorem one_sub_inv_nonneg {m : Nat} (hm : 0 < m) : (0 : ℝ) ≤ 1 - 1 / (m : ℝ) := by
  have : (1 : ℝ) ≤ m := by exact_mod_cast hm
  have : 1 / (m : ℝ) ≤ 1 := by rw [div_le_one (by linarith)]; exact this
  linarith

theorem pHit_nonneg {m : Nat} (hm : 0 < m) (N : Nat) : 0 ≤ pHit m N := by
  have h1 := one_sub_inv_nonneg hm
  have h2 : 1 - 1 / (m : ℝ) ≤ 1 := by
    have : 0 ≤ 1 / (m : ℝ) := by positivity
    linarith
  have := pow_le_one₀ h1 h2 (n := N)
  unfold pHit; linarith

theorem pHit_le_one {m : Nat} (hm : 0 < m) (N : Nat) : pHit m N ≤ 1 := by
  have := pow_nonneg (one_sub_inv_nonneg hm) N
  unfold pHit; linarith

theorem card_avoid (b : β) : (univ.filter fun A : ι → β => b ∉ hits A).card = (Fintype.card β - 1) ^ Fintype.card ι := by
  have : (univ.filter fun A : ι → β => b ∉ hits A) = Fintype.piFinset fun _ : ι => univ.erase b := by
    ext A
    simp [hits, Fintype.mem_piFinset]
  rw [this, Fintype.card_piFinset]
  simp [Finset.card_univ]

theorem card_pos_of (b : β) : 0 < Fintype.card β := Fintype.card_pos_iff.2 ⟨b⟩

theorem card_avoid_real (b : β) : ((univ.filter fun A : ι → β => b ∉ hits A).card : ℝ) =
    (1 - pHit (Fintype.card β) (Fintype.card ι)) * (Fintype.card β : ℝ) ^ Fintype.card ι := by
  have hm := card_pos_of b
  have hm' : (Fintype.card β : ℝ) ≠ 0 := by exact_mod_cast hm.ne'
  rw [card_avoid, pHit]
  have e : ((Fintype.card β - 1 : Nat) : ℝ) = (1 - 1 / (Fintype.card β : ℝ)) * Fintype.card β := by
    rw [Nat.cast_sub (by omega)]; field_simp; simp
  rw [Nat.cast_pow, e, mul_pow]
  ring

theorem card_hit_real (b : β) : ((univ.filter fun A : ι → β => b ∈ hits A).card : ℝ) =
    pHit (Fintype.card β) (Fintype.card ι) * (Fintype.card β : ℝ) ^ Fintype.card ι := by
  have h := Finset.card_filter_add_card_filter_not (s := (univ : Finset (ι → β))) (fun A => b ∈ hits A)
  have h2 := card_avoid_real (ι := ι) b
  rw [Finset.card_univ, Fintype.card_fun] at h
  have h3 : ((univ.filter fun A : ι → β => b ∈ hits A).card : ℝ) + ((univ.filter fun A : ι → β => b ∉ hits A).card : ℝ) =
      (Fintype.card β : ℝ) ^ Fintype.card ι := by exact_mod_cast h
  linarith

/-! ## Hitting several bins is negatively correlated -/

/-- Throwing again those balls that went into `b`. -/
def rethrow (b : β) (f : ι → β × {x : β // x ≠ b}) : ι → β := fun i => if (f i).1 = b then ((f i).2 : β) else (f i).1

theorem rethrow_ne (b : β) (f : ι → β × {x : β // x ≠ b}) : b ∉ hits (rethrow b f) := by
  simp only [hits, mem_image, mem_univ, true_and, not_exists, rethrow]
  intro i
  split
  · exact (f i).2.2
  · assumption

theorem card_fiber (b : β) {A' : ι → β} (h : b ∉ hits A') :
    (univ.filter fun f : ι → β × {x : β // x ≠ b} => rethrow b f = A').card = Fintype.card β ^ Fintype.card ι := by
  have e : (univ.filter fun f : ι → β × {x : β // x ≠ b} => rethrow b f = A') =
      Fintype.piFinset fun i : ι => univ.filter fun y : β × {x : β // x ≠ b} => (if y.1 = b then (y.2 : β) else y.1) = A' i := by
    ext f
    simp [rethrow, Fintype.mem_piFinset, funext_iff]
  rw [e, Fintype.card_piFinset]
  have h1 : ∀ i : ι, (univ.filter fun y : β × {x : β // x ≠ b} => (if y.1 = b then (y.2 : β) else y.1) = A' i).card =
      Fintype.card β := by
    intro i
    have hi : A' i ≠ b := fun hc => h (by simp [hits]; exact ⟨i, hc⟩)
    have e2 : (univ.filter fun y : β × {x : β // x ≠ b} => (if y.1 = b then (y.2 : β) else y.1) = A' i) =
        (({b} : Finset β) ×ˢ {⟨A' i, hi⟩}) ∪ (({A' i} : Finset β) ×ˢ univ) := by
      ext ⟨a, r⟩
      simp only [mem_filter, mem_univ, true_and, mem_union, mem_product, mem_singleton, and_true, Subtype.ext_iff]
      by_cases c : a = b
      · subst c
        simp only [if_true, true_and]
        constructor
        · exact Or.inl
        · rintro (h | h)
          · exact h
          · exact absurd h.symm hi
      · simp [c]
    rw [e2, card_union_of_disjoint, card_product, card_product]
    · simp only [card_singleton, one_mul, Finset.card_univ, Fintype.card_subtype_compl, Fintype.card_unique]
      have := card_pos_of b
      omega
    · rw [disjoint_left]
      rintro ⟨a, r⟩ h1 h2
      simp only [mem_product, mem_singleton, mem_univ, and_true] at h1 h2
      exact hi (h2.symm.trans h1.1)
  rw [Finset.prod_congr rfl fun i _ => h1 i]
  simp [Finset.card_univ]

/-- Hitting all of `D` makes hitting `b` less likely. -/
theorem card_cover_avoid (b : β) (D : Finset β) (hb : b ∉ D) :
    (univ.filter fun A : ι → β => D ⊆ hits A).card * (Fintype.card β - 1) ^ Fintype.card ι ≤
      Fintype.card β ^ Fintype.card ι * (univ.filter fun A : ι → β => D ⊆ hits A ∧ b ∉ hits A).card := by
  classical
  -- all pairs of a throw and a second throw into the other bins
  have h1 : (univ.filter fun f : ι → β × {x : β // x ≠ b} => D ⊆ hits (fun i => (f i).1)).card =
      (univ.filter fun A : ι → β => D ⊆ hits A).card * (Fintype.card β - 1) ^ Fintype.card ι := by
    have e : (Fintype.card β - 1) ^ Fintype.card ι = Fintype.card (ι → {x : β // x ≠ b}) := by
      rw [Fintype.card_fun]; congr 1
      simp [Fintype.card_subtype_compl]
    rw [e, ← Finset.card_univ, ← card_product]
    refine Finset.card_bij (fun f _ => ((fun i => (f i).1), (fun i => (f i).2))) ?_ ?_ ?_
    · intro f hf
      simpa using hf
    · intro f _ g _ h
      simp only [Prod.mk.injEq, funext_iff] at h
      funext i
      exact Prod.ext (h.1 i) (h.2 i)
    · rintro ⟨A, R⟩ h
      exact ⟨fun i => (A i, R i), by simpa using h, rfl⟩
  -- throwing again keeps `D` hit
  have h2 : (univ.filter fun f : ι → β × {x : β // x ≠ b} => D ⊆ hits (fun i => (f i).1)) ⊆
      univ.filter fun f : ι → β × {x : β // x ≠ b} => D ⊆ hits (rethrow b f) := by
    intro f hf
    simp only [mem_filter, mem_univ, true_and] at hf ⊢
    intro d hd
    have := hf hd
    simp only [hits, mem_image, mem_univ, true_and] at this ⊢
    obtain ⟨i, hi⟩ := this
    refine ⟨i, ?_⟩
    have : (f i).1 ≠ b := fun hc => hb (by rw [← hc, hi]; exact hd)
    unfold rethrow
    rw [if_neg this]; exact hi
  have h3 : (univ.filter fun f : ι → β × {x : β // x ≠ b} => D ⊆ hits (rethrow b f)).card =
      Fintype.card β ^ Fintype.card ι * (univ.filter fun A : ι → β => D ⊆ hits A ∧ b ∉ hits A).card := by
    rw [Finset.card_eq_sum_card_fiberwise (f := rethrow b) (t := univ.filter fun A : ι → β => D ⊆ hits A ∧ b ∉ hits A)]
    · rw [mul_comm, ← smul_eq_mul, ← Finset.sum_const]
      refine Finset.sum_congr rfl fun A' hA' => ?_
      simp only [mem_filter, mem_univ, true_and] at hA'
      rw [← card_fiber b hA'.2]
      congr 1
      ext f
      simp only [mem_filter, mem_univ, true_and, and_iff_right_iff_imp]
      intro hf
      rw [hf]; exact hA'.1
    · intro f hf
      simp only [coe_filter, mem_univ, true_and, Set.mem_setOf_eq] at hf ⊢
      exact ⟨hf, rethrow_ne b f⟩
  calc _ = _ := h1.symm
    _ ≤ _ := card_le_card h2
    _ = _ := h3

/-- All bins of `D` are hit with probability at most `pHit ^ |D|`. -/
theorem card_cover_le (D : Finset β) : ((univ.filter fun A : ι → β => D ⊆ hits A).card : ℝ) ≤
    pHit (Fintype.card β) (Fintype.card ι) ^ D.card * (Fintype.card β : ℝ) ^ Fintype.card ι := by
  induction D using Finset.induction_on with
  | empty => simp [Finset.card_univ]
  | insert b D hb ih =>
    have hm := card_pos_of b
    have hm' : (0 : ℝ) < (Fintype.card β : ℝ) ^ Fintype.card ι := by positivity
    have h := card_cover_avoid (ι := ι) b D hb
    have hp0 := pHit_nonneg hm (Fintype.card ι)
    have e1 : (((Fintype.card β - 1) ^ Fintype.card ι : Nat) : ℝ) = (1 - pHit (Fintype.card β) (Fintype.card ι)) *
        (Fintype.card β : ℝ) ^ Fintype.card ι := by rw [← card_avoid_real (ι := ι) b, card_avoid]
    have h' : ((univ.filter fun A : ι → β => D ⊆ hits A).card : ℝ) * (((Fintype.card β - 1) ^ Fintype.card ι : Nat) : ℝ) ≤
      (Fintype.card β : ℝ) ^ Fintype.card ι * ((univ.filter fun A : ι → β => D ⊆ hits A ∧ b ∉ hits A).card : ℝ) := by exact_mod_cast h
    rw [e1] at h'
    have h2 : ((univ.filter fun A : ι → β => D ⊆ hits A).card : ℝ) * (1 - pHit (Fintype.card β) (Fintype.card ι)) ≤
        ((univ.filter fun A : ι → β => D ⊆ hits A ∧ b ∉ hits A).card : ℝ) := by
      have : (Fintype.card β : ℝ) ^ Fintype.card ι * (((univ.filter fun A : ι → β => D ⊆ hits A).card : ℝ) *
          (1 - pHit (Fintype.card β) (Fintype.card ι))) ≤ (Fintype.card β : ℝ) ^ Fintype.card ι *
          ((univ.filter fun A : ι → β => D ⊆ hits A ∧ b ∉ hits A).card : ℝ) := by linarith
      exact le_of_mul_le_mul_left this hm'
    have h3 : (univ.filter fun A : ι → β => insert b D ⊆ hits A).card + (univ.filter fun A : ι → β => D ⊆ hits A ∧ b ∉ hits A).card =
        (univ.filter fun A : ι → β => D ⊆ hits A).card := by
      rw [← Finset.card_filter_add_card_filter_not (s := univ.filter fun A : ι → β => D ⊆ hits A) (fun A => b ∈ hits A),
        filter_filter, filter_filter]
      congr 2
      ext A
      simp [insert_subset_iff, and_comm]
    have h3' : ((univ.filter fun A : ι → β => insert b D ⊆ hits A).card : ℝ) +
        ((univ.filter fun A : ι → β => D ⊆ hits A ∧ b ∉ hits A).card : ℝ) =
        ((univ.filter fun A : ι → β => D ⊆ hits A).card : ℝ) := by exact_mod_cast h3
    rw [card_insert_of_notMem hb, pow_succ]
    have h4 : ((univ.filter fun A : ι → β => insert b D ⊆ hits A).card : ℝ) ≤
        ((univ.filter fun A : ι → β => D ⊆ hits A).card : ℝ) * pHit (Fintype.card β) (Fintype.card ι) := by linarith
    calc _ ≤ _ := h4
      _ ≤ (pHit (Fintype.card β) (Fintype.card ι) ^ D.card * (Fintype.card β : ℝ) ^ Fintype.card ι) *
          pHit (Fintype.card β) (Fintype.card ι) := mul_le_mul_of_nonneg_right ih hp0
      _ = _ := by ring

/-! ## The second throw -/

/-- The average of `p ^ (number of bins hit)`: the `j`-th ball hits a new bin unless it meets one of at most `j` bins. -/
theorem sum_pow_hits_le {p : ℝ} (h0 : 0 ≤ p) (h1 : p ≤ 1) : ∀ k : Nat,
    ∑ B : Fin k → β, p ^ (hits B).card ≤ ∏ j ∈ range k, ((Fintype.card β : ℝ) * p + (1 - p) * j)
  | 0 => by simp [hits]
  | k + 1 => by
    have ih := sum_pow_hits_le h0 h1 k
    rw [prod_range_succ]
    have e : ∑ B : Fin (k + 1) → β, p ^ (hits B).card = ∑ B : Fin k → β, ∑ b : β, p ^ (insert b (hits B)).card := by
      rw [← Fintype.sum_prod_type' (f := fun (B : Fin k → β) (b : β) => p ^ (insert b (hits B)).card)]
      refine (Fintype.sum_equiv ((Equiv.prodComm _ _).trans (Fin.consEquiv fun _ => β)) _ _ ?_).symm
      rintro ⟨B, b⟩
      congr 2
      ext x
      simp [hits, Fin.exists_fin_succ, eq_comm]
    rw [e]
    have hstep : ∀ B : Fin k → β, ∑ b : β, p ^ (insert b (hits B)).card ≤
        p ^ (hits B).card * ((Fintype.card β : ℝ) * p + (1 - p) * k) := by
      intro B
      have hc : (hits B).card ≤ k := by
        have := Finset.card_image_le (s := (univ : Finset (Fin k))) (f := B)
        simpa [hits] using this
      have e2 : ∀ b : β, p ^ (insert b (hits B)).card = p ^ (hits B).card * (p + if b ∈ hits B then 1 - p else 0) := by
        intro b
        by_cases c : b ∈ hits B
        · rw [insert_eq_of_mem c]; simp [c]
        · rw [card_insert_of_notMem c]; simp [c, pow_succ]
      rw [Finset.sum_congr rfl fun b _ => e2 b, ← Finset.mul_sum]
      refine mul_le_mul_of_nonneg_left ?_ (pow_nonneg h0 _)
      rw [Finset.sum_add_distrib]
      simp only [sum_const, Finset.card_univ, nsmul_eq_mul]
      rw [← Finset.sum_filter]
      simp only [sum_const, nsmul_eq_mul]
      have e3 : (univ.filter fun b => b ∈ hits B) = hits B := by ext; simp
      rw [e3]
      have : ((hits B).card : ℝ) ≤ k := by exact_mod_cast hc
      nlinarith
    calc _ ≤ ∑ B : Fin k → β, p ^ (hits B).card * ((Fintype.card β : ℝ) * p + (1 - p) * k) := Finset.sum_le_sum fun B _ => hstep B
      _ = (∑ B : Fin k → β, p ^ (hits B).card) * ((Fintype.card β : ℝ) * p + (1 - p) * k) := by rw [Finset.sum_mul]
      _ ≤ _ := by
        refine mul_le_mul_of_nonneg_right ih ?_
        have : (0 : ℝ) ≤ k := by positivity
        have : (0 : ℝ) ≤ Fintype.card β := by positivity
        nlinarith [mul_nonneg this h0]

/-- The pairs of throws in which all balls of the second land in bins hit by the first. -/
def covered (ι β : Type) [Fintype ι] [DecidableEq ι] [Fintype β] [DecidableEq β] (k : Nat) : Finset ((ι → β) × (Fin k → β)) :=
  univ.filter fun x => ∀ j, ∃ i, x.1 i = x.2 j

theorem covered_iff {k : Nat} (A : ι → β) (B : Fin k → β) : (A, B) ∈ covered ι β k ↔ hits B ⊆ hits A := by
  simp only [covered, mem_filter, mem_univ, true_and, hits, subset_iff, mem_image]
  constructor
  · rintro h x ⟨j, rfl⟩; exact h j
  · intro h j; exact h ⟨j, rfl⟩

theorem card_covered_eq (k : Nat) : ((covered ι β k).card : ℝ) = ∑ B : Fin k → β, ((univ.filter fun A : ι → β => hits B ⊆ hits A).card : ℝ) := by
  rw [← Nat.cast_sum]
  congr 1
  rw [Finset.card_eq_sum_card_fiberwise (f := Prod.snd) (t := univ) (fun _ _ => by simp)]
  refine Finset.sum_congr rfl fun B _ => ?_
  refine Finset.card_bij (fun x _ => x.1) ?_ ?_ ?_
  · rintro ⟨A, B'⟩ h
    simp only [mem_filter] at h
    obtain ⟨h1, rfl⟩ := h
    simpa using (covered_iff A B').1 h1
  · rintro ⟨A, B1⟩ h1 ⟨A2, B2⟩ h2 e
    simp only [mem_filter] at h1 h2 e
    rw [e, h1.2, h2.2]
  · intro A hA
    simp only [mem_filter, mem_univ, true_and] at hA
    exact ⟨(A, B), by simp only [mem_filter, and_true]; exact (covered_iff A B).2 hA, rfl⟩

theorem card_covered_eq' (k : Nat) : ((covered ι β k).card : ℝ) = ∑ A : ι → β, ((hits A).card : ℝ) ^ k := by
  have : (covered ι β k).card = ∑ A : ι → β, (hits A).card ^ k := by
    rw [Finset.card_eq_sum_card_fiberwise (f := Prod.fst) (t := univ) (fun _ _ => by simp)]
    refine Finset.sum_congr rfl fun A _ => ?_
    have e : (hits A).card ^ k = (Fintype.piFinset fun _ : Fin k => hits A).card := by
      rw [Fintype.card_piFinset]; simp
    rw [e]
    refine Finset.card_bij (fun x _ => x.2) ?_ ?_ ?_
    · rintro ⟨A', B⟩ h
      simp only [mem_filter] at h
      obtain ⟨h1, rfl⟩ := h
      rw [Fintype.mem_piFinset]
      intro j
      exact (covered_iff A' B).1 h1 (by simp [hits])
    · rintro ⟨A1, B1⟩ h1 ⟨A2, B2⟩ h2 e
      simp only [mem_filter] at h1 h2 e
      rw [e, h1.2, h2.2]
    · intro B hB
      rw [Fintype.mem_piFinset] at hB
      refine ⟨(A, B), ?_, rfl⟩
      simp only [mem_filter, and_true]
      rw [covered_iff]
      intro x hx
      simp only [hits, mem_image, mem_univ, true_and] at hx
      obtain ⟨j, rfl⟩ := hx
      exact hB j
  rw [this, Nat.cast_sum]
  simp

/-- Upper bound for the share of covered throws. -/
theorem card_covered_le (hβ : 0 < Fintype.card β) (k : Nat) : ((covered ι β k).card : ℝ) ≤ (Fintype.card β : ℝ) ^ Fintype.card ι *
    ∏ j ∈ range k, ((Fintype.card β : ℝ) * pHit (Fintype.card β) (Fintype.card ι) + (1 - pHit (Fintype.card β) (Fintype.card ι)) * j) := by
  rw [card_covered_eq]
  calc _ ≤ ∑ B : Fin k → β, pHit (Fintype.card β) (Fintype.card ι) ^ (hits B).card * (Fintype.card β : ℝ) ^ Fintype.card ι :=
        Finset.sum_le_sum fun B _ => card_cover_le (hits B)
    _ = (Fintype.card β : ℝ) ^ Fintype.card ι * ∑ B : Fin k → β, pHit (Fintype.card β) (Fintype.card ι) ^ (hits B).card := by
        rw [← Finset.sum_mul, mul_comm]
    _ ≤ _ := mul_le_mul_of_nonneg_left (sum_pow_hits_le (pHit_nonneg hβ _) (pHit_le_one hβ _) k) (by positivity)

theorem sum_hits (hβ : 0 < Fintype.card β) : ∑ A : ι → β, ((hits A).card : ℝ) =
    Fintype.card β * (pHit (Fintype.card β) (Fintype.card ι) * (Fintype.card β : ℝ) ^ Fintype.card ι) := by
  have e : ∀ A : ι → β, ((hits A).card : ℝ) = ∑ b : β, if b ∈ hits A then 1 else 0 := by
    intro A
    rw [← Finset.sum_filter]
    simp
  rw [Finset.sum_congr rfl fun A _ => e A, Finset.sum_comm]
  have e2 : ∀ b : β, ∑ A : ι → β, (if b ∈ hits A then (1 : ℝ) else 0) =
      pHit (Fintype.card β) (Fintype.card ι) * (Fintype.card β : ℝ) ^ Fintype.card ι := by
    intro b
    rw [← Finset.sum_filter, ← card_hit_real (ι := ι) b]
    simp
  rw [Finset.sum_congr rfl fun b _ => e2 b]
  simp [Finset.card_univ]

/-- Lower bound for the share of covered throws. -/
theorem le_card_covered (hβ : 0 < Fintype.card β) (k : Nat) : pHit (Fintype.card β) (Fintype.card ι) ^ k *
    ((Fintype.card β : ℝ) ^ Fintype.card ι * (Fintype.card β : ℝ) ^ k) ≤ ((covered ι β k).card : ℝ) := by
  have hm : (0 : ℝ) < Fintype.card β := by exact_mod_cast hβ
  have hM : (0 : ℝ) < (Fintype.card β : ℝ) ^ Fintype.card ι := by positivity
  have h := Real.pow_arith_mean_le_arith_mean_pow (univ : Finset (ι → β)) (fun _ => 1 / (Fintype.card β : ℝ) ^ Fintype.card ι)
    (fun A => ((hits A).card : ℝ)) (fun _ _ => by positivity) (by simp; field_simp) (fun _ _ => by positivity) k
  rw [← Finset.mul_sum, ← Finset.mul_sum, sum_hits hβ, ← card_covered_eq'] at h
  have e : 1 / (Fintype.card β : ℝ) ^ Fintype.card ι * (Fintype.card β * (pHit (Fintype.card β) (Fintype.card ι) *
      (Fintype.card β : ℝ) ^ Fintype.card ι)) = Fintype.card β * pHit (Fintype.card β) (Fintype.card ι) := by field_simp
  rw [e, mul_pow] at h
  have := mul_le_mul_of_nonneg_left h hM.le
  have e2 : (Fintype.card β : ℝ) ^ Fintype.card ι * (1 / (Fintype.card β : ℝ) ^ Fintype.card ι * ((covered ι β k).card : ℝ)) =
      ((covered ι β k).card : ℝ) := by field_simp
  rw [e2] at this
  linarith

end GoSTL.Bloom
