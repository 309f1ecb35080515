import Verif.Algo.Seg
/-!
# Reversal and the next permutation
-/
namespace GoSTL.Algo
open GoSTL.Seq

variable {T : Type} {cmp : T → T → Int}

/-- A list of at least two elements has a first and a last one. -/
theorem two_ends (M : List T) (h : 2 ≤ M.length) : ∃ x M1 y, M = x :: (M1 ++ [y]) := by
  cases M with
  | nil => simp at h
  | cons x M =>
    rcases List.eq_nil_or_concat M with rfl | ⟨M1, y, rfl⟩
    · simp at h
    · exact ⟨x, M1, y, by simp⟩

theorem run_npReverse : ∀ (f : Nat) (P M S : List T) (s e : Int), s = P.length → e = P.length + M.length - 1 →
      M.length + 1 ≤ f →
    run listOps (npReverse f s e) (P ++ M ++ S) = .ok ((), P ++ M.reverse ++ S) := by
  intro f
  induction f with
  | zero => intro P M S s e _ _ h; omega
  | succ f ih =>
    intro P M S s e hs he hf
    unfold npReverse
    by_cases c : M.length < 2
    · rw [if_neg (by omega)]
      match M, c with
      | [], _ => rfl
      | [x], _ => rfl
    · obtain ⟨x, M1, y, rfl⟩ := two_ends M (by omega)
      simp only [List.length_cons, List.length_append, List.length_nil] at he hf c
      push_cast at he
      have e0 : P ++ x :: (M1 ++ [y]) ++ S = P ++ x :: (M1 ++ y :: S) := by simp
      have e1 : run listOps (swapValue s e) (P ++ x :: (M1 ++ y :: S)) = .ok ((), P ++ y :: (M1 ++ x :: S)) := by
        rw [run_swapValue (by simp; omega) (by simp; omega), lswap_ends _ _ _ _ _ _ _ hs (by omega)]
      rw [if_pos (by omega), e0, run_bind_ok e1, run_bind_ok (run_next_lt (by simp; omega)), run_bind_ok (run_prev_ge (by omega))]
      have e2 : P ++ y :: (M1 ++ x :: S) = (P ++ [y]) ++ M1 ++ (x :: S) := by simp
      rw [e2, ih (P ++ [y]) M1 (x :: S) (s + 1) (e - 1) (by simp; omega) (by simp; omega) (by omega)]
      simp

theorem run_reverseLoop : ∀ (f : Nat) (P M S : List T) (s e : Int), s = P.length → e = P.length + M.length - 1 →
      1 ≤ M.length → M.length ≤ f →
    run listOps (reverseLoop f s e) (P ++ M ++ S) = .ok ((), P ++ M.reverse ++ S) := by
  intro f
  induction f with
  | zero => intro P M S s e _ _ h; omega
  | succ f ih =>
    intro P M S s e hs he h1 hf
    unfold reverseLoop
    by_cases c : M.length < 2
    · rw [if_neg (by omega)]
      match M, c with
      | [], _ => rfl
      | [x], _ => rfl
    · obtain ⟨x, M1, y, rfl⟩ := two_ends M (by omega)
      simp only [List.length_cons, List.length_append, List.length_nil] at he hf c
      push_cast at he
      have e0 : P ++ x :: (M1 ++ [y]) ++ S = P ++ x :: (M1 ++ y :: S) := by simp
      have e1 : run listOps (swapValue s e) (P ++ x :: (M1 ++ y :: S)) = .ok ((), P ++ y :: (M1 ++ x :: S)) := by
        rw [run_swapValue (by simp; omega) (by simp; omega), lswap_ends _ _ _ _ _ _ _ hs (by omega)]
      rw [if_pos (by omega), e0, run_bind_ok e1, run_bind_ok (run_next_lt (by simp; omega))]
      have e2 : P ++ y :: (M1 ++ x :: S) = (P ++ [y]) ++ M1 ++ (x :: S) := by simp
      by_cases c2 : M1.length = 0
      · obtain rfl : M1 = [] := List.length_eq_zero_iff.1 c2
        rw [if_pos (by simp at he; omega)]
        simp
      · rw [if_neg (by omega), run_bind_ok (run_prev_ge (by omega)), e2,
          ih (P ++ [y]) M1 (x :: S) (s + 1) (e - 1) (by simp; omega) (by simp; omega) (by omega) (by omega)]
        simp

theorem run_swapValue_panic {l : List T} {i j : Int} (h : ¬ (0 ≤ i ∧ i < l.length ∧ 0 ≤ j ∧ j < l.length)) :
    run listOps (swapValue i j) l = .panic := by
  unfold swapValue
  by_cases hi : 0 ≤ i ∧ i < l.length
  · obtain ⟨x, hx⟩ := at?_ge hi
    rw [run_bind_ok (run_value hx), run_bind, run_value_panic (by omega)]; rfl
  · rw [run_bind, run_value_panic hi]; rfl

/-- With crossed iterators the loop runs outwards until it falls off the container. -/
theorem run_reverseLoop_crossed : ∀ (f : Nat) (l : List T) (s e : Int), e < s → 0 ≤ s → e + 1 ≥ 0 → e + 2 ≤ f →
    run listOps (reverseLoop f s e) l = .panic := by
  intro f
  induction f with
  | zero => intro l s e h1 h2 h3 h4; simp at h4; omega
  | succ f ih =>
    intro l s e h1 h2 h3 h4
    unfold reverseLoop
    rw [if_pos (by omega)]
    by_cases c : 0 ≤ s ∧ s < l.length ∧ 0 ≤ e ∧ e < l.length
    · rw [run_bind_ok (run_swapValue ⟨c.1, c.2.1⟩ c.2.2), run_bind_ok (run_next_lt (by simp; omega)), if_neg (by omega),
        run_bind_ok (run_prev_ge (by omega))]
      exact ih _ _ _ (by omega) (by omega) (by omega) (by push_cast at h4; omega)
    · rw [run_bind, run_swapValue_panic c]; rfl

/-! ## Lexicographic order -/

/-- Strict lexicographic order by `cmp`. -/
def lexLt (cmp : T → T → Int) : List T → List T → Prop
  | x :: A, y :: B => cmp x y < 0 ∨ (cmp x y = 0 ∧ lexLt cmp A B)
  | [], _ :: _ => True
  | _, [] => False

/-- The same number of elements equal to `z`, for every `z`. -/
def CountEq (cmp : T → T → Int) (A B : List T) : Prop :=
  A.length = B.length ∧ ∀ z, A.countP (fun x => cmp z x = 0) = B.countP (fun x => cmp z x = 0)

theorem CountEq.of_perm {A B : List T} (h : A.Perm B) : CountEq cmp A B := ⟨h.length_eq, fun _ => h.countP_eq _⟩

theorem CountEq.symm {A B : List T} (h : CountEq cmp A B) : CountEq cmp B A := ⟨h.1.symm, fun z => (h.2 z).symm⟩

theorem CountEq.trans {A B C : List T} (h : CountEq cmp A B) (h' : CountEq cmp B C) : CountEq cmp A C :=
  ⟨h.1.trans h'.1, fun z => (h.2 z).trans (h'.2 z)⟩

theorem CountEq.tail (hc : LawfulCmp cmp) {x y : T} {A B : List T} (h : CountEq cmp (x :: A) (y :: B)) (e : cmp x y = 0) :
    CountEq cmp A B := by
  refine ⟨by simpa using h.1, fun z => ?_⟩
  have := h.2 z
  simp only [List.countP_cons] at this
  have q : (cmp z x = 0) ↔ (cmp z y = 0) := (hc.congr_right e).2.1
  by_cases c : cmp z x = 0
  · have := q.1 c; simp_all
  · have : ¬ cmp z y = 0 := fun h => c (q.2 h)
    simp_all

theorem CountEq.mem (hc : LawfulCmp cmp) {x : T} {A B : List T} (h : CountEq cmp A B) (hx : x ∈ A) :
    ∃ y ∈ B, cmp x y = 0 := by
  have h1 : 0 < A.countP (fun z => cmp x z = 0) := List.countP_pos_iff.2 ⟨x, hx, by simp [hc.refl]⟩
  rw [h.2 x, List.countP_pos_iff] at h1
  obtain ⟨y, hy, e⟩ := h1
  exact ⟨y, hy, by simpa using e⟩

/-- A non-increasing list is lexicographically greatest among its rearrangements. -/
theorem desc_greatest (hc : LawfulCmp cmp) : ∀ (D E : List T), D.Pairwise (fun x y => 0 ≤ cmp x y) → CountEq cmp E D →
    ¬ lexLt cmp D E
  | [], E, _, hce => by
    have := hce.1; simp at this; subst this; simp [lexLt]
  | d :: D, [], _, hce => by simp [CountEq] at hce
  | d :: D, e :: E, hp, hce => by
    rw [List.pairwise_cons] at hp
    obtain ⟨y, hy, ey⟩ := hce.mem hc (List.mem_cons_self)
    have hle : 0 ≤ cmp d e := by
      have : 0 ≤ cmp d y := by
        rcases List.mem_cons.1 hy with rfl | hy
        · rw [hc.refl]; omega
        · exact hp.1 y hy
      have q := hc.congr_right (a := d) ey
      omega
    rintro (h | ⟨h, h'⟩)
    · omega
    · exact desc_greatest hc D E hp.2 (hce.tail hc (hc.eq_symm.1 h)) h'

/-- A non-decreasing list is lexicographically least among its rearrangements. -/
theorem asc_least (hc : LawfulCmp cmp) : ∀ (D E : List T), D.Pairwise (fun x y => cmp x y ≤ 0) → CountEq cmp E D →
    ¬ lexLt cmp E D
  | [], E, _, hce => by
    have := hce.1; simp at this; subst this; simp [lexLt]
  | d :: D, [], _, hce => by simp [CountEq] at hce
  | d :: D, e :: E, hp, hce => by
    rw [List.pairwise_cons] at hp
    obtain ⟨y, hy, ey⟩ := hce.mem hc (List.mem_cons_self)
    have hle : cmp d e ≤ 0 := by
      have : cmp d y ≤ 0 := by
        rcases List.mem_cons.1 hy with rfl | hy
        · rw [hc.refl]; omega
        · exact hp.1 y hy
      have q := hc.congr_right (a := d) ey
      omega
    have := hc.swap e d
    rintro (h | ⟨h, h'⟩)
    · omega
    · exact asc_least hc D E hp.2 (hce.tail hc h) h'

/-- The combinatorial step: `A ++ p :: D` with `D` non-increasing and `c` the last element of `D = D1 ++ c :: D2`
above `p` is followed immediately by `A ++ c :: (D1 ++ p :: D2).reverse`. -/
theorem next_perm_least (hc : LawfulCmp cmp) (p c : T) (D1 D2 : List T)
    (hd : (D1 ++ c :: D2).Pairwise (fun x y => 0 ≤ cmp x y)) (h1 : cmp p c < 0) (h2 : ∀ x ∈ D2, cmp x p ≤ 0) :
    ∀ (A N : List T), CountEq cmp N (A ++ p :: (D1 ++ c :: D2)) → lexLt cmp (A ++ p :: (D1 ++ c :: D2)) N →
      ¬ lexLt cmp N (A ++ c :: (D1 ++ p :: D2).reverse)
  | A, [], hce, _ => by simp [CountEq] at hce
  | [], q :: E, hce, hlt => by
    simp only [List.nil_append] at *
    rcases hlt with hlt | ⟨hlt, hlt'⟩
    · -- q is above p, so at least c
      obtain ⟨y, hy, ey⟩ := hce.mem hc (List.mem_cons_self)
      have hpy : cmp p y < 0 := by have := hc.congr_right (a := p) ey; omega
      have hcy : cmp c y ≤ 0 := by
        rw [List.pairwise_append, List.pairwise_cons] at hd
        have := hc.swap p y
        have := hc.refl p
        have := hc.refl c
        rcases List.mem_cons.1 hy with rfl | hy
        · omega
        · rw [List.mem_append, List.mem_cons] at hy
          rcases hy with hy | rfl | hy
          · have := hd.2.2 y hy c (by simp)
            rw [hc.le_iff_ge]; omega
          · omega
          · have := h2 y hy; omega
      have hcq : cmp c q ≤ 0 := by have := hc.congr_right (a := c) ey; omega
      rintro (h | ⟨h, h'⟩)
      · have := hc.swap q c; omega
      · -- q equal to c: the rest must be at least the sorted rest
        have hperm : (p :: (D1 ++ c :: D2)).Perm (c :: (D1 ++ p :: D2).reverse) := by
          have e1 : (p :: (D1 ++ c :: D2)).Perm (p :: c :: (D1 ++ D2)) := List.perm_middle.cons p
          have e2 : (c :: (D1 ++ p :: D2).reverse).Perm (c :: p :: (D1 ++ D2)) :=
            ((List.reverse_perm _).trans List.perm_middle).cons c
          exact e1.trans ((List.Perm.swap _ _ _).trans e2.symm)
        have hce' : CountEq cmp E (D1 ++ p :: D2).reverse := (hce.trans (.of_perm hperm)).tail hc h
        refine asc_least hc _ E ?_ hce' h'
        rw [List.pairwise_reverse]
        rw [List.pairwise_append, List.pairwise_cons] at hd ⊢
        have hle : ∀ x y, 0 ≤ cmp x y → cmp y x ≤ 0 := fun x y h => by rw [hc.le_iff_ge]; omega
        refine ⟨hd.1.imp (fun h => hle _ _ h), ⟨fun x hx => h2 x hx, hd.2.1.2.imp (fun h => hle _ _ h)⟩, ?_⟩
        intro x hx y hy
        rcases List.mem_cons.1 hy with rfl | hy
        · have := hle _ _ (hd.2.2 x hx c (by simp))
          exact hc.trans _ _ _ (by omega : cmp y c ≤ 0) this
        · exact hle _ _ (hd.2.2 x hx y (by simp [hy]))
    · exact absurd hlt' (desc_greatest hc _ E hd (hce.tail hc (hc.eq_symm.1 hlt)))
  | a :: A, q :: E, hce, hlt => by
    rcases hlt with hlt | ⟨hlt, hlt'⟩
    · have := hc.swap a q
      have := hc.eq_symm (a := a) (b := q)
      rintro (h | ⟨h, -⟩) <;> omega
    · have hqa := hc.eq_symm.1 hlt
      rintro (h | ⟨h, h'⟩)
      · omega
      · exact next_perm_least hc p c D1 D2 hd h1 h2 A E (hce.tail hc hqa) hlt' h'

theorem lexLt_append_left (hc : LawfulCmp cmp) {B C : List T} (h : lexLt cmp B C) : ∀ A : List T, lexLt cmp (A ++ B) (A ++ C)
  | [] => h
  | a :: A => .inr ⟨hc.refl a, lexLt_append_left hc h A⟩

/-! ## The loops -/

/-- First loop: splits off the longest non-increasing suffix. -/
theorem run_npDescend (hc : LawfulCmp cmp) (l P S : List T) (first : Int) (hf : first = P.length) :
    ∀ (f : Nat) (A : List T) (x : T) (D : List T) (cur : Int), l = P ++ (A ++ x :: D) ++ S → cur = first + A.length →
      (x :: D).Pairwise (fun x y => 0 ≤ cmp x y) → A.length + 1 ≤ f →
    ∃ A' D', A ++ x :: D = A' ++ D' ∧ D'.Pairwise (fun x y => 0 ≤ cmp x y) ∧
      run listOps (npDescend cmp first f cur) l = .ok (first + A'.length, l) ∧
      (A' = [] ∨ ∃ A'' p d D'', A' = A'' ++ [p] ∧ D' = d :: D'' ∧ cmp p d < 0) := by
  intro f
  induction f with
  | zero => intro A x D cur _ _ _ h; omega
  | succ f ih =>
    intro A x D cur hl hcur hp hfu
    unfold npDescend
    rcases List.eq_nil_or_concat A with rfl | ⟨A1, p, rfl⟩
    · rw [if_neg (by simp at hcur; omega)]
      exact ⟨[], x :: D, rfl, hp, by rw [hcur]; rfl, .inl rfl⟩
    · rw [List.concat_eq_append] at *
      simp at hcur hfu
      rw [if_pos (by omega)]
      have hx : at? l cur = some x := by
        have : l = (P ++ (A1 ++ [p])) ++ x :: (D ++ S) := by rw [hl]; simp
        rw [this]; exact at?_mid _ _ _ _ (by simp; omega)
      have hpp : at? l (cur - 1) = some p := by
        have : l = (P ++ A1) ++ p :: (x :: D ++ S) := by rw [hl]; simp
        rw [this]; exact at?_mid _ _ _ _ (by simp; omega)
      rw [run_bind_ok (run_value hpp), run_bind_ok (run_value hx)]
      by_cases c : cmp p x ≥ 0
      · rw [if_pos c]
        have hp' : (p :: x :: D).Pairwise (fun x y => 0 ≤ cmp x y) := by
          rw [List.pairwise_cons]
          refine ⟨fun y hy => ?_, hp⟩
          rcases List.mem_cons.1 hy with rfl | hy
          · exact c
          · have q := (List.pairwise_cons.1 hp).1 y hy
            have q1 : cmp y x ≤ 0 := by rw [hc.le_iff_ge]; omega
            have q2 : cmp x p ≤ 0 := by rw [hc.le_iff_ge]; omega
            have := hc.trans _ _ _ q1 q2
            rwa [hc.le_iff_ge] at this
        obtain ⟨A', D', e, h1, h2, h3⟩ := ih A1 p (x :: D) (cur - 1) (by rw [hl]; simp) (by omega) hp' (by omega)
        exact ⟨A', D', by rw [← e]; simp, h1, h2, h3⟩
      · rw [if_neg c]
        refine ⟨A1 ++ [p], x :: D, rfl, hp, ?_, .inr ⟨A1, p, x, D, rfl, rfl, by omega⟩⟩
        rw [hcur]; simp

/-- Second loop: the last element of the suffix above the pivot. -/
theorem run_npFind (hc : LawfulCmp cmp) (l Q S : List T) (p : T) (pre : Int) (hp : at? l pre = some p) :
    ∀ (f : Nat) (D D2 : List T) (cur : Int), l = Q ++ (D ++ D2) ++ S → cur = Q.length + D.length - 1 →
      (∃ d ∈ D, cmp p d < 0) → (∀ x ∈ D2, cmp x p ≤ 0) → D.length ≤ f →
    ∃ D1 c D3, D ++ D2 = D1 ++ c :: D3 ∧ cmp p c < 0 ∧ (∀ x ∈ D3, cmp x p ≤ 0) ∧
      run listOps (npFind cmp pre f cur) l = .ok ((Q.length + D1.length : Int), l) := by
  intro f
  induction f with
  | zero => rintro D D2 cur _ _ ⟨d, hd, _⟩ _ h; cases D <;> simp_all
  | succ f ih =>
    intro D D2 cur hl hcur hex h2 hfu
    unfold npFind
    rcases List.eq_nil_or_concat D with rfl | ⟨D1, x, rfl⟩
    · obtain ⟨d, hd, _⟩ := hex; cases hd
    · rw [List.concat_eq_append] at *
      simp at hcur hfu
      have hx : at? l cur = some x := by
        have : l = (Q ++ D1) ++ x :: (D2 ++ S) := by rw [hl]; simp
        rw [this]; exact at?_mid _ _ _ _ (by simp; omega)
      rw [run_bind_ok (run_value hx), run_bind_ok (run_value hp)]
      by_cases c : cmp x p ≤ 0
      · rw [if_pos c]
        obtain ⟨D1', c', D3, e, g1, g2, g3⟩ := ih D1 (x :: D2) (cur - 1) (by rw [hl]; simp) (by omega)
          (by
            obtain ⟨d, hd, e⟩ := hex
            rw [List.mem_append, List.mem_singleton] at hd
            rcases hd with hd | rfl
            · exact ⟨d, hd, e⟩
            · have := hc.swap p d; omega)
          (by
            intro y hy
            rcases List.mem_cons.1 hy with rfl | hy
            · exact c
            · exact h2 y hy) (by omega)
        exact ⟨D1', c', D3, by rw [← e]; simp, g1, g2, g3⟩
      · rw [if_neg c]
        refine ⟨D1, x, D2, by simp, ?_, h2, ?_⟩
        · have := hc.swap p x; omega
        · have : (Q.length + D1.length : Int) = cur := by omega
          rw [this]; rfl

/-- What `NextPermutation` does to the range `M`. -/
theorem run_nextPermutation (hc : LawfulCmp cmp) (P M S : List T) :
    ∃ b M', run listOps (nextPermutation cmp P.length (P.length + M.length)) (P ++ M ++ S) = .ok (b, P ++ M' ++ S) ∧
      M'.Perm M ∧
      (b = true → lexLt cmp M M' ∧ ∀ N : List T, N.Perm M → lexLt cmp M N → ¬ lexLt cmp N M') ∧
      (b = false → M' = M ∧ ∀ N : List T, N.Perm M → ¬ lexLt cmp M N) := by
  unfold nextPermutation
  have elen : (P.length + M.length : Int) - P.length = M.length := by omega
  simp only [elen]
  rcases List.eq_nil_or_concat M with rfl | ⟨A, x, rfl⟩
  · refine ⟨false, [], ?_, .refl _, by simp, fun _ => ⟨rfl, fun N hN => ?_⟩⟩
    · have : run listOps (npDescend cmp (P.length : Int) (([] : List T).length + 1) (P.length + ([] : List T).length - 1)) (P ++ [] ++ S) = .ok ((P.length : Int) - 1, P ++ [] ++ S) := by
        simp only [List.length_nil, npDescend]
        rw [if_neg (by simp; omega)]; simp
      simp only [Int.toNat_natCast]
      rw [run_bind_ok this, if_pos (by omega)]; rfl
    · simp at hN; subst hN; simp [lexLt]
  · rw [List.concat_eq_append]
    obtain ⟨A', D', e, hD, r1, h3⟩ := run_npDescend hc (P ++ (A ++ [x]) ++ S) P S P.length rfl ((A ++ [x]).length + 1) A x []
      (P.length + (A ++ [x]).length - 1) rfl (by simp; omega) (by simp) (by simp)
    simp only [Int.toNat_natCast]
    rw [run_bind_ok r1]
    rcases h3 with rfl | ⟨A'', p, d, D'', rfl, rfl, hpd⟩
    · refine ⟨false, A ++ [x], ?_, .refl _, by simp, fun _ => ⟨rfl, fun N hN => ?_⟩⟩
      · rw [if_pos (by simp)]; rfl
      · rw [e] at hN ⊢
        exact desc_greatest hc _ N hD (.of_perm hN)
    · rw [if_neg (by simp; omega)]
      rw [e]
      have epos : (P.length : Int) + (A'' ++ [p]).length - 1 = P.length + A''.length := by simp; omega
      rw [epos]
      have hp : at? (P ++ (A'' ++ [p] ++ d :: D'') ++ S) (P.length + A''.length) = some p := by
        have : P ++ (A'' ++ [p] ++ d :: D'') ++ S = (P ++ A'') ++ p :: (d :: D'' ++ S) := by simp
        rw [this]; exact at?_mid _ _ _ _ (by simp)
      obtain ⟨D1, c, D3, e3, g1, g2, g3⟩ := run_npFind hc (P ++ (A'' ++ [p] ++ d :: D'') ++ S) (P ++ (A'' ++ [p])) S p _ hp
        ((A'' ++ [p] ++ d :: D'').length + 1) (d :: D'') [] (P.length + (A'' ++ [p] ++ d :: D'').length - 1) (by simp) (by simp; omega)
        ⟨d, by simp, hpd⟩ (by simp) (by simp; omega)
      rw [List.append_nil] at e3
      rw [run_bind_ok g3, e3]
      have e4 : P ++ (A'' ++ [p] ++ (D1 ++ c :: D3)) ++ S = (P ++ A'') ++ p :: (D1 ++ c :: (D3 ++ S)) := by simp
      have e5 : run listOps (swapValue ((P ++ (A'' ++ [p])).length + D1.length) (P.length + A''.length))
          (P ++ (A'' ++ [p] ++ (D1 ++ c :: D3)) ++ S) = .ok ((), (P ++ A'') ++ c :: (D1 ++ p :: (D3 ++ S))) := by
        rw [e4, run_swapValue (by simp; omega) (by simp; omega)]
        have : lswap (P ++ A'' ++ p :: (D1 ++ c :: (D3 ++ S))) (P.length + A''.length) ((P ++ (A'' ++ [p])).length + D1.length)
            = (P ++ A'') ++ c :: (D1 ++ p :: (D3 ++ S)) := lswap_ends _ _ _ _ _ _ _ (by simp) (by simp; omega)
        rw [← this]
        congr 2
        apply getElem?_of_at?
        intro k
        rw [at?_lswap (by simp; omega) (by simp; omega), at?_lswap (by simp; omega) (by simp; omega)]
        split
        · split
          · next h1 h2 => rw [← h1, ← h2]
          · rfl
        · rfl
      rw [run_bind_ok e5]
      have e6 : (P ++ A'') ++ c :: (D1 ++ p :: (D3 ++ S)) = (P ++ A'' ++ [c]) ++ (D1 ++ p :: D3) ++ S := by simp
      rw [e6, run_bind_ok (run_npReverse _ (P ++ A'' ++ [c]) (D1 ++ p :: D3) S _ _ (by simp; omega) (by simp; omega) (by simp; omega)), run_pure]
      have e7 : A'' ++ [p] ++ (D1 ++ c :: D3) = A'' ++ p :: (D1 ++ c :: D3) := by simp
      refine ⟨true, A'' ++ c :: (D1 ++ p :: D3).reverse, by simp, ?_, fun _ => ⟨?_, ?_⟩, by simp⟩
      · rw [e7]
        refine List.Perm.append_left _ ?_
        have e1 : (p :: (D1 ++ c :: D3)).Perm (p :: c :: (D1 ++ D3)) := List.perm_middle.cons p
        have e2 : (c :: (D1 ++ p :: D3).reverse).Perm (c :: p :: (D1 ++ D3)) :=
          ((List.reverse_perm _).trans List.perm_middle).cons c
        exact e2.trans ((List.Perm.swap _ _ _).trans e1.symm)
      · rw [e7]
        exact lexLt_append_left hc (B := p :: _) (C := c :: _) (Or.inl g1) _
      · intro N hN hlt
        rw [e7] at hN hlt
        rw [e3] at hD
        exact next_perm_least hc p c D1 D3 hD g1 g2 A'' N (.of_perm hN) hlt

end GoSTL.Algo
