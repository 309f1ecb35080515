import Verif.Algo.Seg
/-!
# Merge sort
-/
namespace GoSTL.Algo
open GoSTL.Seq

variable {T : Type} {cmp : T → T → Int}

/-- The merge of two lists, taking from the left one on ties. -/
def mrg (cmp : T → T → Int) : List T → List T → List T
  | [], B => B
  | x :: A, [] => x :: A
  | x :: A, y :: B => if cmp x y ≤ 0 then x :: mrg cmp A (y :: B) else y :: mrg cmp (x :: A) B
termination_by A B => A.length + B.length

theorem mrg_nil_left (B : List T) : mrg cmp [] B = B := by unfold mrg; rfl
theorem mrg_nil_right (A : List T) : mrg cmp A [] = A := by cases A <;> (unfold mrg; rfl)
theorem mrg_cons (x y : T) (A B : List T) : mrg cmp (x :: A) (y :: B) =
    if cmp x y ≤ 0 then x :: mrg cmp A (y :: B) else y :: mrg cmp (x :: A) B := by rw [mrg]

theorem mrg_induct {P : List T → List T → Prop} (h1 : ∀ B, P [] B) (h2 : ∀ x A, P (x :: A) [])
    (h3 : ∀ x A y B, P A (y :: B) → P (x :: A) B → P (x :: A) (y :: B)) : ∀ A B, P A B
  | [], B => h1 B
  | x :: A, [] => h2 x A
  | x :: A, y :: B => h3 x A y B (mrg_induct h1 h2 h3 A (y :: B)) (mrg_induct h1 h2 h3 (x :: A) B)
termination_by A B => A.length + B.length

theorem mrg_perm (A B : List T) : (mrg cmp A B).Perm (A ++ B) := by
  induction A, B using mrg_induct with
  | h1 B => rw [mrg_nil_left]; exact .refl _
  | h2 x A => rw [mrg_nil_right]; simp
  | h3 x A y B i1 i2 =>
    rw [mrg_cons]; split
    · exact i1.cons x
    · exact (i2.cons y).trans (List.perm_middle.symm)

theorem mrg_length (A B : List T) : (mrg cmp A B).length = A.length + B.length := by
  simpa using (mrg_perm (cmp := cmp) A B).length_eq

theorem mrg_sorted (h : LawfulCmp cmp) (A B : List T) (ha : A.Pairwise (cmp · · ≤ 0)) (hb : B.Pairwise (cmp · · ≤ 0)) :
    (mrg cmp A B).Pairwise (cmp · · ≤ 0) := by
  induction A, B using mrg_induct with
  | h1 B => rw [mrg_nil_left]; exact hb
  | h2 x A => rw [mrg_nil_right]; exact ha
  | h3 x A y B i1 i2 =>
    rw [List.pairwise_cons] at ha hb
    rw [mrg_cons]; split
    · next c =>
      rw [List.pairwise_cons]
      refine ⟨?_, i1 ha.2 (List.pairwise_cons.2 hb)⟩
      intro z hz
      rw [(mrg_perm _ _).mem_iff, List.mem_append, List.mem_cons] at hz
      rcases hz with hz | rfl | hz
      · exact ha.1 z hz
      · exact c
      · exact h.trans _ _ _ c (hb.1 z hz)
    · next c =>
      have c' : cmp y x ≤ 0 := by have := h.swap y x; omega
      rw [List.pairwise_cons]
      refine ⟨?_, i2 (List.pairwise_cons.2 ha) hb.2⟩
      intro z hz
      rw [(mrg_perm _ _).mem_iff, List.mem_append, List.mem_cons] at hz
      rcases hz with (rfl | hz) | hz
      · exact c'
      · exact h.trans _ _ _ c' (ha.1 z hz)
      · exact hb.1 z hz

/-- Elements equal to `z` keep their order: those of `A` first. -/
theorem mrg_filter (h : LawfulCmp cmp) (z : T) (A B : List T) (ha : A.Pairwise (cmp · · ≤ 0)) :
    (mrg cmp A B).filter (fun x => cmp z x = 0) = (A ++ B).filter (fun x => cmp z x = 0) := by
  induction A, B using mrg_induct with
  | h1 B => rw [mrg_nil_left]; rfl
  | h2 x A => rw [mrg_nil_right]; simp
  | h3 x A y B i1 i2 =>
    rw [mrg_cons]; split
    · simp only [List.cons_append, List.filter_cons]
      rw [i1 (List.pairwise_cons.1 ha).2]
    · next c =>
      rw [List.filter_cons, i2 ha]
      by_cases hy : cmp z y = 0
      · simp only [hy, decide_true, if_true]
        have hn : (x :: A).filter (fun x => decide (cmp z x = 0)) = [] := by
          rw [List.filter_eq_nil_iff]
          intro w hw hc
          simp only [decide_eq_true_eq] at hc
          have h1 : cmp x w ≤ 0 := by
            rcases List.mem_cons.1 hw with rfl | hw
            · rw [h.refl]; omega
            · exact (List.pairwise_cons.1 ha).1 w hw
          have h2 : cmp w y = 0 := h.eq_trans (h.eq_symm.1 hc) hy
          have := h.trans _ _ _ h1 (by omega : cmp w y ≤ 0)
          omega
        rw [List.filter_append, List.filter_append, hn]
        simp [hy]
      · simp [hy, List.filter_append, List.filter_cons]

theorem take_set_succ (tmp : List T) (pos : Nat) (x : T) (h : pos < tmp.length) :
    (tmp.set pos x).take (pos + 1) = tmp.take pos ++ [x] := by
  rw [List.take_add_one, List.take_set_of_le (Nat.le_refl _)]
  simp [h]

theorem run_mergeLoop (cmp : T → T → Int) (l : List T) (mid last : Int) :
    ∀ (f : Nat) (A B : List T) (a b : Int) (pos : Nat) (tmp : List T), SegAt l a A → SegAt l b B → a + A.length = mid →
      b + B.length = last → pos + A.length + B.length ≤ tmp.length → A.length + B.length + 1 ≤ f →
    ∃ a' b' pos' tmp' A' B', run listOps (mergeLoop cmp mid last f a b pos tmp) l = .ok ((a', b', pos', tmp'), l) ∧
      SegAt l a' A' ∧ SegAt l b' B' ∧ a' + A'.length = mid ∧ b' + B'.length = last ∧ (A' = [] ∨ B' = []) ∧
      tmp'.length = tmp.length ∧ pos' + A'.length + B'.length = pos + A.length + B.length ∧
      tmp'.take pos' ++ (A' ++ B') = tmp.take pos ++ mrg cmp A B := by
  intro f
  induction f with
  | zero => intro A B a b pos tmp _ _ _ _ _ hf; omega
  | succ f ih =>
    intro A B a b pos tmp hA hB ha hb hp hf
    unfold mergeLoop
    cases A with
    | nil =>
      rw [if_neg (by simp at ha; omega)]
      exact ⟨a, b, pos, tmp, [], B, rfl, hA, hB, ha, hb, .inl rfl, rfl, rfl, by rw [mrg_nil_left]; rfl⟩
    | cons x A =>
      cases B with
      | nil =>
        rw [if_neg (by simp at hb; omega)]
        exact ⟨a, b, pos, tmp, x :: A, [], rfl, hA, hB, ha, hb, .inr rfl, rfl, rfl, by rw [mrg_nil_right]; simp⟩
      | cons y B =>
        simp only [List.length_cons] at ha hb hp hf
        rw [if_pos (by push_cast at ha hb; omega), run_bind_ok (run_value hA.head), run_bind_ok (run_value hB.head), mrg_cons]
        have ba := hA.bounds
        have bb := hB.bounds
        simp only [List.length_cons] at ba bb
        push_cast at ha hb ba bb
        by_cases c : cmp x y ≤ 0
        · rw [if_pos c, if_pos c, run_bind_ok (run_value hA.head), if_pos (by omega), run_bind_ok (run_next_lt (by omega))]
          obtain ⟨a', b', pos', tmp', A', B', e, sA, sB, q1, q2, q3, q4, q5, q6⟩ :=
            ih A (y :: B) (a + 1) b (pos + 1) (tmp.set pos x) hA.tail hB (by omega) (by simp; omega)
              (by simp; omega) (by simp; omega)
          refine ⟨a', b', pos', tmp', A', B', e, sA, sB, q1, q2, q3, by simpa using q4, by simp at q5 ⊢; omega, ?_⟩
          rw [q6, take_set_succ _ _ _ (by omega)]; simp
        · rw [if_neg c, if_neg c, run_bind_ok (run_value hB.head), if_pos (by omega), run_bind_ok (run_next_lt (by omega))]
          obtain ⟨a', b', pos', tmp', A', B', e, sA, sB, q1, q2, q3, q4, q5, q6⟩ :=
            ih (x :: A) B a (b + 1) (pos + 1) (tmp.set pos y) hA hB.tail (by simp; omega) (by omega)
              (by simp; omega) (by simp; omega)
          refine ⟨a', b', pos', tmp', A', B', e, sA, sB, q1, q2, q3, by simpa using q4, by simp at q5 ⊢; omega, ?_⟩
          rw [q6, take_set_succ _ _ _ (by omega)]; simp

theorem run_drainLoop (l : List T) (stop : Int) :
    ∀ (f : Nat) (A : List T) (a : Int) (pos : Nat) (tmp : List T), SegAt l a A → a + A.length = stop →
      pos + A.length ≤ tmp.length → A.length + 1 ≤ f →
    ∃ tmp', run listOps (drainLoop stop f a pos tmp) l = .ok ((pos + A.length, tmp'), l) ∧
      tmp'.length = tmp.length ∧ tmp'.take (pos + A.length) = tmp.take pos ++ A := by
  intro f
  induction f with
  | zero => intro A a pos tmp _ _ _ hf; omega
  | succ f ih =>
    intro A a pos tmp hA ha hp hf
    unfold drainLoop
    cases A with
    | nil =>
      rw [if_neg (by simp at ha; omega)]
      exact ⟨tmp, rfl, rfl, by simp⟩
    | cons x A =>
      simp only [List.length_cons] at ha hp hf
      have ba := hA.bounds
      simp only [List.length_cons] at ba
      push_cast at ha ba
      rw [if_pos (by omega), run_bind_ok (run_value hA.head), if_pos (by omega), run_bind_ok (run_next_lt (by omega))]
      obtain ⟨tmp', e, q1, q2⟩ := ih A (a + 1) (pos + 1) (tmp.set pos x) hA.tail (by omega) (by simp; omega) (by omega)
      have ee : pos + 1 + A.length = pos + (x :: A).length := by simp; omega
      rw [ee] at e q2
      refine ⟨tmp', e, by simpa using q1, ?_⟩
      rw [q2, take_set_succ _ _ _ (by omega)]; simp

theorem run_copyBack (tmp : List T) : ∀ (k idx : Nat) (P M S : List T) (it : Int), M.length = k → it = P.length →
      idx + k ≤ tmp.length →
    run listOps (copyBack tmp k idx it) (P ++ M ++ S) = .ok ((), P ++ (tmp.drop idx).take k ++ S) := by
  intro k
  induction k with
  | zero => intro idx P M S it hM _ _; simp at hM; subst hM; simp [copyBack]
  | succ k ih =>
    intro idx P M S it hM hit hidx
    cases M with
    | nil => simp at hM
    | cons x M =>
      unfold copyBack
      have hx : tmp[idx]? = some tmp[idx] := by simp
      rw [hx]
      have e1 : run listOps (setValue it tmp[idx]) (P ++ x :: M ++ S) = .ok ((), (P ++ [tmp[idx]]) ++ M ++ S) := by
        rw [run_setValue]
        congr 2
        have := setAt_mid' P (M ++ S) x tmp[idx] it hit
        simpa using this
      dsimp only
      rw [run_bind_ok e1, run_bind_ok (run_next_lt (by simp; omega)), ih (idx + 1) (P ++ [tmp[idx]]) M S (it + 1)
        (by simpa using hM) (by simp; omega) (by omega)]
      congr 2
      have : tmp.drop idx = tmp[idx] :: tmp.drop (idx + 1) := by rw [List.drop_eq_getElem_cons]
      rw [this, List.take_succ_cons]
      simp only [List.append_assoc, List.cons_append, List.nil_append]

theorem run_merge (cmp : T → T → Int) (P A B S tmp : List T) (first mid last : Int) (h1 : first = P.length)
    (h2 : mid = P.length + A.length) (h3 : last = P.length + A.length + B.length) (ht : A.length + B.length ≤ tmp.length) :
    ∃ tmp', tmp'.length = tmp.length ∧
      run listOps (merge cmp first mid last tmp) (P ++ (A ++ B) ++ S) = .ok (tmp', P ++ mrg cmp A B ++ S) := by
  have hs : SegAt (P ++ (A ++ B) ++ S) first (A ++ B) := ⟨P, S, rfl, h1⟩
  have hA := hs.left
  have hB := hs.right
  have em : first + A.length = mid := by omega
  rw [em] at hB
  obtain ⟨a', b', pos', tmp1, A', B', e1, sA, sB, q1, q2, q3, q4, q5, q6⟩ := run_mergeLoop cmp _ mid last
    ((last - first).toNat + 1) A B first mid 0 tmp hA hB em (by omega) (by omega) (by omega)
  simp only [Nat.zero_add, List.take_zero, List.nil_append] at q5 q6
  obtain ⟨tmp2, e2, q7, q8⟩ := run_drainLoop _ mid ((last - first).toNat + 1) A' a' pos' tmp1 sA q1 (by omega) (by omega)
  obtain ⟨tmp3, e3, q9, q10⟩ := run_drainLoop _ last ((last - first).toNat + 1) B' b' (pos' + A'.length) tmp2 sB q2
    (by omega) (by omega)
  have e4 := run_copyBack tmp3 (pos' + A'.length + B'.length) 0 P (A ++ B) S first (by simp; omega) h1 (by omega)
  refine ⟨tmp3, by omega, ?_⟩
  unfold merge
  simp only
  rw [run_bind_ok e1]
  simp only
  rw [run_bind_ok e2]
  simp only
  rw [run_bind_ok e3]
  simp only
  rw [run_bind_ok e4, run_pure]
  congr 2
  rw [List.drop_zero, q10, q8, ← q6]
  simp only [List.append_assoc]

/-- What a stable sort of `M` is. -/
def IsStableSort (cmp : T → T → Int) (M M' : List T) : Prop :=
  M'.Perm M ∧ M'.Pairwise (cmp · · ≤ 0) ∧ ∀ z, M'.filter (fun x => cmp z x = 0) = M.filter (fun x => cmp z x = 0)

theorem run_mergeSort (h : LawfulCmp cmp) : ∀ (f : Nat) (P M S tmp : List T) (first last : Int), first = P.length →
      last = P.length + M.length → 1 ≤ M.length → M.length ≤ f → M.length ≤ tmp.length →
    ∃ tmp' M', tmp'.length = tmp.length ∧ IsStableSort cmp M M' ∧
      run listOps (mergeSort cmp f first last tmp) (P ++ M ++ S) = .ok (tmp', P ++ M' ++ S) := by
  intro f
  induction f with
  | zero => intro P M S tmp first last _ _ h1 h2; omega
  | succ f ih =>
    intro P M S tmp first last hf hl h1 h2 h3
    unfold mergeSort
    by_cases c : M.length = 1
    · rw [if_pos (by omega)]
      refine ⟨tmp, M, rfl, ⟨.refl _, ?_, fun _ => rfl⟩, rfl⟩
      match M, c with
      | [x], _ => simp
    · rw [if_neg (by omega)]
      simp only
      generalize hm : (first + last) / 2 = mid
      let k := (mid - first).toNat
      have hk : (k : Int) = mid - first := by show ((mid - first).toNat : Int) = _; omega
      have hk1 : 1 ≤ k := by omega
      have hk2 : k < M.length := by omega
      let A := M.take k
      let B := M.drop k
      have hA : A.length = k := by simp [A]; omega
      have hB : B.length = M.length - k := by simp [B]
      have eM : M = A ++ B := (List.take_append_drop k M).symm
      have e0 : P ++ M ++ S = P ++ A ++ (B ++ S) := by rw [eM]; simp
      obtain ⟨tmp1, A', t1, sA, r1⟩ := ih P A (B ++ S) tmp first mid hf (by omega) (by omega) (by omega) (by omega)
      have lA : A'.length = A.length := sA.1.length_eq
      have e1 : P ++ A' ++ (B ++ S) = (P ++ A') ++ B ++ S := by simp
      obtain ⟨tmp2, B', t2, sB, r2⟩ := ih (P ++ A') B S tmp1 mid last (by simp; omega) (by simp; omega) (by omega) (by omega)
        (by omega)
      have lB : B'.length = B.length := sB.1.length_eq
      have e2 : P ++ A' ++ B' ++ S = P ++ (A' ++ B') ++ S := by simp
      obtain ⟨tmp3, t3, r3⟩ := run_merge cmp P A' B' S tmp2 first mid last hf (by omega) (by omega) (by omega)
      refine ⟨tmp3, mrg cmp A' B', by omega, ⟨?_, ?_, ?_⟩, ?_⟩
      · rw [eM]; exact (mrg_perm _ _).trans (sA.1.append sB.1)
      · exact mrg_sorted h _ _ sA.2.1 sB.2.1
      · intro z
        rw [mrg_filter h z _ _ sA.2.1, eM, List.filter_append, List.filter_append, sA.2.2 z, sB.2.2 z]
      · rw [e0, run_bind_ok r1, e1, run_bind_ok r2, e2, r3]

theorem run_mergeSort_empty {C : Type} (ops : Ops C T) (cmp : T → T → Int) (c : C) (a : Int) : ∀ (f : Nat) (tmp : List T),
    run ops (mergeSort cmp f a a tmp) c = .outOfFuel := by
  intro f
  induction f with
  | zero => intro tmp; rfl
  | succ f ih =>
    intro tmp
    unfold mergeSort
    rw [if_neg (by omega)]
    have e : (a + a) / 2 = a := by omega
    simp only [e]
    rw [run_bind, ih]; rfl

end GoSTL.Algo
