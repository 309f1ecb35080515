import Verif.Algo.Sort
import Verif.Algo.Seg
/-!
# Binary search, lower/upper bound, nth element
-/
namespace GoSTL.Algo
open GoSTL.Seq

variable {T : Type} {cmp : T → T → Int}

theorem run_binarySearchLoop (cmp : T → T → Int) (val : T) (l : List T) (first last : Int) (h0 : 0 ≤ first)
    (h1 : last ≤ l.length)
    (mono1 : ∀ i j x y, first ≤ i → i < j → j < last → at? l i = some x → at? l j = some y → 0 < cmp val y → 0 < cmp val x)
    (mono2 : ∀ i j x y, first ≤ i → i < j → j < last → at? l i = some x → at? l j = some y → cmp val x < 0 → cmp val y < 0) :
    ∀ (f : Nat) (left right : Int), first ≤ left → right < last → left ≤ right + 1 → right - left + 2 ≤ f →
      AllIn l first (left - 1) (fun x => 0 < cmp val x) → AllIn l (right + 1) (last - 1) (fun x => cmp val x < 0) →
    ∃ b, run listOps (binarySearchLoop cmp val f left right) l = .ok (b, l) ∧
      (b = true ↔ ∃ k x, first ≤ k ∧ k < last ∧ at? l k = some x ∧ cmp val x = 0) := by
  intro f
  induction f with
  | zero => intro left right _ _ _ hf; simp at hf; omega
  | succ f ih =>
    intro left right c1 c2 c3 hf a1 a2
    push_cast at hf
    unfold binarySearchLoop
    by_cases hle : left ≤ right
    · rw [if_pos hle]
      simp only
      generalize hm : (left + right) / 2 = mid
      obtain ⟨x, hx⟩ := at?_ge (l := l) (i := mid) (by omega)
      rw [run_bind_ok (run_value hx)]
      by_cases e0 : cmp val x = 0
      · rw [if_pos e0]
        exact ⟨true, rfl, by simp; exact ⟨mid, by omega, by omega, x, hx, e0⟩⟩
      · rw [if_neg e0]
        by_cases e1 : cmp val x < 0
        · rw [if_pos e1, run_bind_ok (run_prev_ge (by omega))]
          refine ih left (mid - 1) c1 (by omega) (by omega) (by omega) a1 ?_
          intro k y k1 k2 hy
          by_cases q : k = mid
          · subst q; rw [hx] at hy; cases hy; exact e1
          · exact mono2 mid k x y (by omega) (by omega) (by omega) hx hy e1
        · rw [if_neg e1, run_bind_ok (run_next_lt (by omega))]
          refine ih (mid + 1) right (by omega) c2 (by omega) (by omega) ?_ a2
          intro k y k1 k2 hy
          by_cases q : k = mid
          · subst q; rw [hx] at hy; cases hy; beta_reduce; omega
          · exact mono1 k mid y x (by omega) (by omega) (by omega) hy hx (by omega)
    · rw [if_neg hle]
      refine ⟨false, rfl, ?_⟩
      simp only [Bool.false_eq_true, false_iff]
      rintro ⟨k, x, k1, k2, hx, e⟩
      by_cases q : k < left
      · have := a1 k x k1 (by omega) hx; beta_reduce at this; omega
      · have := a2 k x (by omega) (by omega) hx; beta_reduce at this; omega

theorem run_boundLoop (below : T → Bool) (l : List T) (first last : Int) (hfl : first < last) (h0 : 0 ≤ first) (h1 : last ≤ l.length)
    (mono : ∀ i j x y, first ≤ i → i < j → j < last → at? l i = some x → at? l j = some y → below x = true → below y = true)
    (hlast : ∃ z, at? l (last - 1) = some z ∧ below z = true) :
    ∀ (f : Nat) (left right pos : Int), first ≤ left → right < last → left ≤ right + 1 → right - left + 2 ≤ f →
      (right + 1 < last → pos = right + 1) →
      AllIn l first (left - 1) (fun x => below x = false) → AllIn l (right + 1) (last - 1) (fun x => below x = true) →
    ∃ p, run listOps (boundLoop below f left right pos) l = .ok (p, l) ∧ first ≤ p ∧ p < last ∧
      AllIn l first (p - 1) (fun x => below x = false) ∧ AllIn l p (last - 1) (fun x => below x = true) := by
  intro f
  induction f with
  | zero => intro left right pos _ _ _ hf; simp at hf; omega
  | succ f ih =>
    intro left right pos c1 c2 c3 hf hp a1 a2
    push_cast at hf
    unfold boundLoop
    by_cases hle : left ≤ right
    · rw [if_pos hle]
      simp only
      generalize hm : (left + right) / 2 = mid
      obtain ⟨x, hx⟩ := at?_ge (l := l) (i := mid) (by omega)
      rw [run_bind_ok (run_value hx)]
      by_cases e1 : below x = true
      · rw [if_pos e1, run_bind_ok (run_prev_ge (by omega))]
        refine ih left (mid - 1) mid c1 (by omega) (by omega) (by omega) (by omega) a1 ?_
        intro k y k1 k2 hy
        by_cases q : k = mid
        · subst q; rw [hx] at hy; cases hy; exact e1
        · exact mono mid k x y (by omega) (by omega) (by omega) hx hy e1
      · rw [if_neg e1, run_bind_ok (run_next_lt (by omega))]
        refine ih (mid + 1) right pos (by omega) c2 (by omega) (by omega) hp ?_ a2
        intro k y k1 k2 hy
        by_cases q : k = mid
        · subst q; rw [hx] at hy; cases hy; simpa using e1
        · cases hb : below y with
          | false => rfl
          | true => exact absurd (mono k mid y x (by omega) (by omega) (by omega) hy hx hb) e1
    · rw [if_neg hle]
      have hr : right + 1 < last := by
        rcases Int.lt_or_le (right + 1) last with h | h
        · exact h
        · obtain ⟨z, hz, hb⟩ := hlast
          have := at?_lt hz
          have := a1 (last - 1) z (by omega) (by omega) hz
          beta_reduce at this
          rw [hb] at this; cases this
      have := hp hr
      refine ⟨pos, rfl, by omega, by omega, ?_, ?_⟩
      · rw [this]; have e : right + 1 - 1 = left - 1 := by omega
        rw [e]; exact a1
      · rw [this]; exact a2

/-- Positions of a segment. -/
theorem AllIn.of_seg {l M : List T} {a b : Int} {P : T → Prop} (h : SegAt l a M) (hb : b < a + M.length)
    (hp : ∀ x ∈ M, P x) : AllIn l a b P := by
  intro k x k1 k2 hx
  obtain ⟨y, hy, e⟩ := h.mem k1 (by omega)
  rw [e] at hx; cases hx; exact hp _ hy

theorem SegAt.mem_at {l M : List T} {a : Int} {P : T → Prop} (h : SegAt l a M) (hp : AllIn l a (a + M.length - 1) P) :
    ∀ x ∈ M, P x := by
  intro x hx
  obtain ⟨k, hk, rfl⟩ := List.getElem_of_mem hx
  exact hp (a + k) _ (by omega) (by omega) (h.get hk)

theorem SegAt.sorted {l M : List T} {a : Int} (h : SegAt l a M) (hs : M.Pairwise (cmp · · ≤ 0)) :
    SortedIn cmp l a (a + M.length - 1) := by
  intro i j x y h1 h2 h3 hx hy
  have e1 := h.get (k := (i - a).toNat) (by omega)
  have e2 := h.get (k := (j - a).toNat) (by omega)
  have q1 : a + ((i - a).toNat : Int) = i := by omega
  have q2 : a + ((j - a).toNat : Int) = j := by omega
  rw [q1, hx] at e1
  rw [q2, hy] at e2
  cases e1; cases e2
  exact List.pairwise_iff_getElem.1 hs _ _ _ _ (by omega)

theorem SegAt.sorted' {l M : List T} {a : Int} (h : SegAt l a M) (hs : SortedIn cmp l a (a + M.length - 1)) :
    M.Pairwise (cmp · · ≤ 0) := by
  rw [List.pairwise_iff_getElem]
  intro i j hi hj hij
  exact hs (a + i) (a + j) _ _ (by omega) (by omega) (by omega) (h.get hi) (h.get hj)

theorem run_isValid_true {l : List T} {i : Int} (h : 0 ≤ i ∧ i < l.length) : run listOps (isValid i) l = .ok (true, l) := by
  rw [run_isValid]; simp [h]

theorem run_binarySearch (h : LawfulCmp cmp) (val : T) {l M : List T} {first : Int} (hs : SegAt l first M)
    (hM : M.Pairwise (cmp · · ≤ 0)) :
    ∃ b, run listOps (binarySearch cmp first (first + M.length) val) l = .ok (b, l) ∧ (b = true ↔ ∃ x ∈ M, cmp val x = 0) := by
  have hb := hs.bounds
  have so := hs.sorted hM
  unfold binarySearch
  cases hM0 : M with
  | nil =>
    refine ⟨false, ?_, by simp⟩
    rw [run_bind_ok (run_isValid _ _), if_pos (.inr (by simp))]; rfl
  | cons m M0 =>
    have hlen : 1 ≤ M.length := by rw [hM0]; simp
    rw [← hM0, run_bind_ok (run_isValid_true (by omega)), if_neg (by simp; omega), run_bind_ok (run_prev_ge (by omega))]
    obtain ⟨b, e, hbb⟩ := run_binarySearchLoop cmp val l first (first + M.length) hb.1 hb.2
      (fun i j x y h1 h2 h3 hx hy hc => by
        have q := so i j x y h1 h2 (by omega) hx hy
        have := h.swap y val; have := h.swap x val
        have := h.lt_of_le_of_lt q (by omega : cmp y val < 0); omega)
      (fun i j x y h1 h2 h3 hx hy hc => by
        have q := so i j x y h1 h2 (by omega) hx hy
        exact h.lt_of_lt_of_le hc q)
      (((first + M.length) - first).toNat + 1) first (first + M.length - 1) (by omega) (by omega) (by omega)
      (by push_cast; omega) (fun k x _ _ => by omega) (fun k x _ _ => by omega)
    refine ⟨b, e, hbb.trans ⟨?_, ?_⟩⟩
    · rintro ⟨k, x, k1, k2, hx, e⟩
      obtain ⟨y, hy, e'⟩ := hs.mem k1 k2
      rw [e'] at hx; cases hx; exact ⟨_, hy, e⟩
    · rintro ⟨x, hx, e⟩
      obtain ⟨k, hk, rfl⟩ := List.getElem_of_mem hx
      exact ⟨first + k, _, by omega, by omega, hs.get hk, e⟩

theorem split_at_pos {l M : List T} {first p : Int} (hs : SegAt l first M) (h1 : first ≤ p) (h2 : p ≤ first + M.length)
    {P Q : T → Prop} (a1 : AllIn l first (p - 1) P) (a2 : AllIn l p (first + M.length - 1) Q) :
    ∃ A B, M = A ++ B ∧ p = first + A.length ∧ (∀ x ∈ A, P x) ∧ (∀ x ∈ B, Q x) := by
  refine ⟨M.take (p - first).toNat, M.drop (p - first).toNat, (List.take_append_drop _ _).symm, ?_, ?_, ?_⟩
  · simp; omega
  · have hs' := hs
    rw [← List.take_append_drop (p - first).toNat M] at hs'
    refine hs'.left.mem_at ?_
    have : first + ((List.take (p - first).toNat M).length : Int) - 1 = p - 1 := by simp; omega
    rw [this]; exact a1
  · have hs' := hs
    rw [← List.take_append_drop (p - first).toNat M] at hs'
    have hr := hs'.right
    refine hr.mem_at ?_
    have e1 : first + ((List.take (p - first).toNat M).length : Int) = p := by simp; omega
    rw [e1]
    have : p + ((List.drop (p - first).toNat M).length : Int) - 1 = first + M.length - 1 := by simp; omega
    rw [this]; exact a2

theorem getLast_at {l M : List T} {first : Int} (hs : SegAt l first M) (hM : 1 ≤ M.length) :
    ∃ z ∈ M, at? l (first + M.length - 1) = some z ∧ (M.Pairwise (cmp · · ≤ 0) → ∀ x ∈ M, cmp x z ≤ 0 ∨ x = z) := by
  have := hs.get (k := M.length - 1) (by omega)
  have e : first + ((M.length - 1 : Nat) : Int) = first + M.length - 1 := by omega
  rw [e] at this
  refine ⟨_, List.getElem_mem _, this, fun hp x hx => ?_⟩
  obtain ⟨k, hk, rfl⟩ := List.getElem_of_mem hx
  by_cases q : k = M.length - 1
  · subst q; exact .inr rfl
  · exact .inl (List.pairwise_iff_getElem.1 hp _ _ _ _ (by omega))

theorem run_lowerBound (h : LawfulCmp cmp) (val : T) {l M : List T} {first : Int} (hs : SegAt l first M)
    (hM : M.Pairwise (cmp · · ≤ 0)) :
    ∃ A B, M = A ++ B ∧ (∀ x ∈ A, cmp x val < 0) ∧ (∀ x ∈ B, 0 ≤ cmp x val) ∧
      run listOps (lowerBound cmp first (first + M.length) val) l = .ok (first + A.length, l) := by
  have hb := hs.bounds
  have so := hs.sorted hM
  unfold lowerBound
  cases hM0 : M with
  | nil =>
    refine ⟨[], [], rfl, by simp, by simp, ?_⟩
    rw [run_bind_ok (run_isValid _ _), if_pos (.inr (by simp))]; rfl
  | cons m M0 =>
    have hlen : 1 ≤ M.length := by rw [hM0]; simp
    rw [← hM0]
    obtain ⟨z, hz, e, hmax⟩ := getLast_at (cmp := cmp) hs hlen
    have hmax := hmax hM
    have hle : ∀ x ∈ M, cmp x z ≤ 0 := fun x hx => by
      rcases hmax x hx with h' | rfl
      · exact h'
      · rw [h.refl]; omega
    by_cases c : cmp val z > 0
    · refine ⟨M, [], by simp, ?_, by simp, ?_⟩
      · intro x hx
        have := h.swap z val
        exact h.lt_of_le_of_lt (hle x hx) (by omega)
      · rw [run_bind_ok (run_isValid_true (by omega)), if_neg (by simp; omega), run_bind_ok (run_prev_ge (by omega)),
          run_bind_ok (run_value e), if_pos c]; rfl
    · obtain ⟨p, e', p1, p2, a1, a2⟩ := run_boundLoop (fun x => decide (cmp val x ≤ 0)) l first (first + M.length) (by omega) hb.1 hb.2
        (fun i j x y h1 h2 h3 hx hy hc => by
          have q := so i j x y h1 h2 (by omega) hx hy
          simp only [decide_eq_true_eq] at hc ⊢
          exact h.trans _ _ _ hc q)
        ⟨z, e, by simp; omega⟩
        (((first + M.length) - first).toNat + 1) first (first + M.length - 1) 0 (by omega) (by omega) (by omega)
        (by push_cast; omega) (by omega) (fun k x _ _ => by omega) (fun k x _ _ => by omega)
      obtain ⟨A, B, e1, e2, f1, f2⟩ := split_at_pos hs p1 (by omega) a1 a2
      refine ⟨A, B, e1, fun x hx => ?_, fun x hx => ?_, ?_⟩
      · have := f1 x hx; simp at this
        have := h.swap x val; omega
      · have := f2 x hx; simp at this
        have := h.swap x val; omega
      · rw [run_bind_ok (run_isValid_true (by omega)), if_neg (by simp; omega), run_bind_ok (run_prev_ge (by omega)),
          run_bind_ok (run_value e), if_neg c, e', e2]

theorem run_upperBound (h : LawfulCmp cmp) (val : T) {l M : List T} {first : Int} (hs : SegAt l first M)
    (hM : M.Pairwise (cmp · · ≤ 0)) :
    ∃ A B, M = A ++ B ∧ (∀ x ∈ A, cmp x val ≤ 0) ∧ (∀ x ∈ B, 0 < cmp x val) ∧
      run listOps (upperBound cmp first (first + M.length) val) l = .ok (first + A.length, l) := by
  have hb := hs.bounds
  have so := hs.sorted hM
  unfold upperBound
  cases hM0 : M with
  | nil =>
    refine ⟨[], [], rfl, by simp, by simp, ?_⟩
    rw [run_bind_ok (run_isValid _ _), if_pos (.inr (by simp))]; rfl
  | cons m M0 =>
    have hlen : 1 ≤ M.length := by rw [hM0]; simp
    rw [← hM0]
    obtain ⟨z, hz, e, hmax⟩ := getLast_at (cmp := cmp) hs hlen
    have hmax := hmax hM
    have hle : ∀ x ∈ M, cmp x z ≤ 0 := fun x hx => by
      rcases hmax x hx with h' | rfl
      · exact h'
      · rw [h.refl]; omega
    by_cases c : cmp val z ≥ 0
    · refine ⟨M, [], by simp, ?_, by simp, ?_⟩
      · intro x hx
        have := h.le_iff_ge (a := z) (b := val)
        exact h.trans _ _ _ (hle x hx) (by omega)
      · rw [run_bind_ok (run_isValid_true (by omega)), if_neg (by simp; omega), run_bind_ok (run_prev_ge (by omega)),
          run_bind_ok (run_value e), if_pos c]; rfl
    · obtain ⟨p, e', p1, p2, a1, a2⟩ := run_boundLoop (fun x => decide (cmp val x < 0)) l first (first + M.length) (by omega) hb.1 hb.2
        (fun i j x y h1 h2 h3 hx hy hc => by
          have q := so i j x y h1 h2 (by omega) hx hy
          simp only [decide_eq_true_eq] at hc ⊢
          exact h.lt_of_lt_of_le hc q)
        ⟨z, e, by simp; omega⟩
        (((first + M.length) - first).toNat + 1) first (first + M.length - 1) 0 (by omega) (by omega) (by omega)
        (by push_cast; omega) (by omega) (fun k x _ _ => by omega) (fun k x _ _ => by omega)
      obtain ⟨A, B, e1, e2, f1, f2⟩ := split_at_pos hs p1 (by omega) a1 a2
      refine ⟨A, B, e1, fun x hx => ?_, fun x hx => ?_, ?_⟩
      · have := f1 x hx; simp at this
        have := h.swap val x; omega
      · have := f2 x hx; simp at this
        have := h.swap val x; omega
      · rw [run_bind_ok (run_isValid_true (by omega)), if_neg (by simp; omega), run_bind_ok (run_prev_ge (by omega)),
          run_bind_ok (run_value e), if_neg c, e', e2]

/-! ## nth element -/

theorem nthElementRec_big {f : Nat} {first last n : Int} (h1 : first + 3 ≤ last) (l : List T) :
    run listOps (nthElementRec cmp (f + 1) first last n) l = run listOps (do
      let m ← partitionStep cmp first last
      if n ≤ m - first then nthElementRec cmp f first m n
      else do
        let first' ← next m
        nthElementRec cmp f first' last (n - (m - first + 1))) l := by
  rw [nthElementRec, if_neg (by omega)]
  simp only
  rw [if_neg (by omega), if_neg (by omega)]
  simp only [run_bind, partitionStep, bind_assoc, run_pure, Res.ok_bind]

/-- Everything at positions `first..p` is `≤` everything at positions `p+1..last`. -/
def Cut (cmp : T → T → Int) (l : List T) (first p last : Int) : Prop :=
  ∀ i j x y, first ≤ i → i ≤ p → p < j → j ≤ last → at? l i = some x → at? l j = some y → cmp x y ≤ 0

/-- Cuts survive swaps on one side. -/
theorem Cut.swaps {l l' : List T} {first p last lo hi : Int} (h : Cut cmp l first p last) (s : Swaps lo hi l l')
    (hd : (first ≤ lo ∧ hi ≤ p) ∨ (p < lo ∧ hi ≤ last)) : Cut cmp l' first p last := by
  intro i j x y i1 i2 j1 j2 hx hy
  rcases hd with hd | hd
  · rw [s.outside (by omega)] at hy
    have : AllIn l first p (fun x => cmp x y ≤ 0) := fun k z k1 k2 hz => h k j z y k1 k2 j1 j2 hz hy
    exact this.swaps s (.inl hd) i x i1 i2 hx
  · rw [s.outside (by omega)] at hx
    have : AllIn l (p + 1) last (fun y => cmp x y ≤ 0) := fun k z k1 k2 hz => h i k x z i1 i2 (by omega) k2 hx hz
    exact this.swaps s (.inl ⟨by omega, hd.2⟩) j y (by omega) j2 hy

theorem run_nthElementRec (h : LawfulCmp cmp) : ∀ (f : Nat) (l : List T) (first last n : Int), 0 ≤ first → last < l.length →
    last - first + 2 ≤ f → 1 ≤ f →
    ∃ l' a b, run listOps (nthElementRec cmp f first last n) l = .ok ((), l') ∧ Swaps first last l l' ∧ (first ≤ last → first ≤ a) ∧ b ≤ last ∧
      (0 ≤ n → n ≤ last - first → a ≤ first + n ∧ first + n ≤ b) ∧ (b ≤ a + 1 ∨ SortedIn cmp l' a b) ∧
      (first ≤ last → a ≤ b ∧ Cut cmp l' first (a - 1) last ∧ Cut cmp l' first b last) := by
  intro f
  induction f with
  | zero => intro l first last n _ _ _ h; omega
  | succ f ih =>
    intro l first last n h0 h1 hf _
    push_cast at hf
    by_cases c1 : first + 1 ≥ last
    · refine ⟨l, first, last, ?_, .refl, by omega, by omega, by omega, .inl (by omega), fun hh => ⟨hh, ?_, ?_⟩⟩
      · rw [nthElementRec, if_pos c1]; rfl
      · intro i j x y; omega
      · intro i j x y; omega
    by_cases c3 : last - first + 1 = 3
    · obtain ⟨l', a, b, c, e, s, ha, hb, hc, d1, d2⟩ := run_doPivot h (l := l) (first := first)
        (mid := first + (last - first + 1) / 2) (last := last) h0 (by omega) (by omega) h1
      have len1 := s.length
      have hm : first + (last - first + 1) / 2 = last - 1 := by omega
      refine ⟨l', first, last, ?_, s, by omega, by omega, by omega, .inr ?_, fun hh => ⟨hh, ?_, ?_⟩⟩
      · rw [nthElementRec, if_neg c1]; simp only
        rw [if_neg (by omega), run_bind_ok e, run_bind_ok (run_swapValue (by omega) (by omega)), if_pos c3, hm, lswap_self]; rfl
      · rw [hm] at hb
        intro i j x y i1 i2 i3 hx hy
        obtain (⟨rfl, rfl⟩ | ⟨rfl, rfl⟩ | ⟨rfl, rfl⟩) : (i = first ∧ j = last - 1) ∨ (i = first ∧ j = last) ∨
          (i = last - 1 ∧ j = last) := by omega
        · rw [ha] at hx; rw [hb] at hy; cases hx; cases hy; exact d1
        · rw [ha] at hx; rw [hc] at hy; cases hx; cases hy; exact h.trans _ _ _ d1 d2
        · rw [hb] at hx; rw [hc] at hy; cases hx; cases hy; exact d2
      · intro i j x y; omega
      · intro i j x y; omega
    · rw [nthElementRec_big (by omega)]
      obtain ⟨m, l1, pv, e1, s1, m1, m2, hm, a1, a2⟩ := run_partitionStep h h0 (by omega) h1
      have len1 := s1.length
      have cut1 : Cut cmp l1 first m last := fun i j x y i1 i2 j1 j2 hx hy =>
        h.trans _ _ _ (a1 i x i1 i2 hx) (a2 j y (by omega) j2 hy)
      rw [run_bind_ok e1]
      by_cases cn : n ≤ m - first
      · rw [if_pos cn]
        obtain ⟨l2, a, b, e2, s2, g1, g2, g3, g4, g5⟩ := ih l1 first m n h0 (by omega) (by omega) (by omega)
        obtain ⟨g5, g6, g7⟩ := g5 (by omega)
        have cut2 := cut1.swaps s2 (.inl ⟨by omega, by omega⟩)
        refine ⟨l2, a, b, e2, s1.trans (s2.mono (by omega) (by omega)), fun _ => g1 (by omega), by omega, by omega, g4,
          fun hh => ⟨g5, ?_, ?_⟩⟩
        · intro i j x y i1 i2 j1 j2 hx hy
          by_cases q : j ≤ m
          · exact g6 i j x y i1 i2 j1 q hx hy
          · exact cut2 i j x y i1 (by omega) (by omega) j2 hx hy
        · intro i j x y i1 i2 j1 j2 hx hy
          by_cases q : j ≤ m
          · exact g7 i j x y i1 i2 j1 q hx hy
          · exact cut2 i j x y i1 (by omega) (by omega) j2 hx hy
      · rw [if_neg cn, run_bind_ok (run_next_lt (by omega))]
        obtain ⟨l2, a, b, e2, s2, g1, g2, g3, g4, g5⟩ := ih l1 (m + 1) last (n - (m - first + 1)) (by omega) (by omega) (by omega) (by omega)
        obtain ⟨g5, g6, g7⟩ := g5 (by omega)
        have cut2 := cut1.swaps s2 (.inr ⟨by omega, by omega⟩)
        have g1 := g1 (by omega)
        refine ⟨l2, a, b, e2, s1.trans (s2.mono (by omega) (by omega)), by omega, by omega, by omega, g4,
          fun hh => ⟨g5, ?_, ?_⟩⟩
        · intro i j x y i1 i2 j1 j2 hx hy
          by_cases q : i ≤ m
          · exact cut2 i j x y i1 q (by omega) j2 hx hy
          · exact g6 i j x y (by omega) i2 j1 j2 hx hy
        · intro i j x y i1 i2 j1 j2 hx hy
          by_cases q : i ≤ m
          · exact cut2 i j x y i1 q (by omega) j2 hx hy
          · exact g7 i j x y (by omega) i2 j1 j2 hx hy

end GoSTL.Algo
