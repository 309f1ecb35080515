import Verif.Algo.Swap
/-!
# Quick sort: the partition and the recursion
-/
namespace GoSTL.Algo
open GoSTL.Seq

variable {T : Type} {cmp : T → T → Int}

/-- Exchanging, as an equation between positions. -/
theorem run_swapIfGreater (h : LawfulCmp cmp) {l : List T} {i j : Int} {x y : T} (hx : at? l i = some x) (hy : at? l j = some y)
    (hij : i ≠ j) :
    ∃ l' a b, run listOps (swapIfGreater cmp i j) l = .ok ((), l') ∧ at? l' i = some a ∧ at? l' j = some b ∧
      cmp a b ≤ 0 ∧ ((a = x ∧ b = y) ∨ (a = y ∧ b = x)) ∧ (∀ k, k ≠ i → k ≠ j → at? l' k = at? l k) ∧
      (l' = l ∨ l' = lswap l i j) := by
  unfold swapIfGreater
  rw [run_bind_ok (run_value hx), run_bind_ok (run_value hy)]
  split
  · next hc =>
    have hi := at?_lt hx
    have hj := at?_lt hy
    refine ⟨_, y, x, run_swapValue hi hj, ?_, ?_, ?_, .inr ⟨rfl, rfl⟩, ?_, .inr rfl⟩
    · rw [at?_lswap hi hj, if_neg hij, if_pos rfl, hy]
    · rw [at?_lswap hi hj, if_pos rfl, hx]
    · have := h.swap y x; omega
    · intro k h1 h2; rw [at?_lswap hi hj, if_neg h2, if_neg h1]
  · next hc => exact ⟨l, x, y, rfl, hx, hy, by omega, .inl ⟨rfl, rfl⟩, fun _ _ _ => rfl, .inl rfl⟩

theorem Swaps.of_or {lo hi : Int} {l l' : List T} {i j : Int} (h : l' = l ∨ l' = lswap l i j) (a : lo ≤ i) (b : i ≤ hi)
    (c : lo ≤ j) (d : j ≤ hi) : Swaps lo hi l l' := by
  rcases h with rfl | rfl
  · exact .refl
  · exact .one a b c d

theorem run_doPivot (h : LawfulCmp cmp) {l : List T} {first mid last : Int} (h0 : 0 ≤ first) (h1 : first < mid) (h2 : mid < last)
    (h3 : last < l.length) :
    ∃ l' a b c, run listOps (doPivot cmp first mid last) l = .ok ((), l') ∧ Swaps first last l l' ∧
      at? l' first = some a ∧ at? l' mid = some b ∧ at? l' last = some c ∧ cmp a b ≤ 0 ∧ cmp b c ≤ 0 := by
  obtain ⟨x, hx⟩ := at?_ge (l := l) (i := first) (by omega)
  obtain ⟨y, hy⟩ := at?_ge (l := l) (i := mid) (by omega)
  obtain ⟨z, hz⟩ := at?_ge (l := l) (i := last) (by omega)
  obtain ⟨l1, a1, b1, e1, ha1, hb1, c1, -, o1, s1⟩ := run_swapIfGreater h hx hy (by omega)
  have hz1 : at? l1 last = some z := by rw [o1 _ (by omega) (by omega), hz]
  obtain ⟨l2, a2, c2, e2, ha2, hc2, d2, v2, o2, s2⟩ := run_swapIfGreater h ha1 hz1 (by omega)
  have hb2 : at? l2 mid = some b1 := by rw [o2 _ (by omega) (by omega), hb1]
  obtain ⟨l3, b3, c3, e3, hb3, hc3, d3, v3, o3, s3⟩ := run_swapIfGreater h hb2 hc2 (by omega)
  have ha3 : at? l3 first = some a2 := by rw [o3 _ (by omega) (by omega), ha2]
  refine ⟨l3, a2, b3, c3, ?_, ?_, ha3, hb3, hc3, ?_, d3⟩
  · unfold doPivot
    rw [run_bind_ok e1, run_bind_ok e2, e3]
  · exact ((Swaps.of_or s1 (by omega) (by omega) (by omega) (by omega)).trans
      (Swaps.of_or s2 (by omega) (by omega) (by omega) (by omega))).trans
      (Swaps.of_or s3 (by omega) (by omega) (by omega) (by omega))
  · have e : cmp a2 b1 ≤ 0 := by
      rcases v2 with ⟨rfl, rfl⟩ | ⟨rfl, rfl⟩
      · exact c1
      · exact h.trans _ _ _ d2 c1
    rcases v3 with ⟨rfl, rfl⟩ | ⟨rfl, rfl⟩
    · exact e
    · exact d2

/-- All elements at positions `lo..hi` satisfy `P`. -/
def AllIn (l : List T) (lo hi : Int) (P : T → Prop) : Prop := ∀ k x, lo ≤ k → k ≤ hi → at? l k = some x → P x

theorem AllIn.swaps {l l' : List T} {lo hi lo' hi' : Int} {P : T → Prop} (h : AllIn l lo hi P) (s : Swaps lo' hi' l l')
    (hd : (lo ≤ lo' ∧ hi' ≤ hi) ∨ hi < lo' ∨ hi' < lo) : AllIn l' lo hi P := by
  rcases hd with hd | hd
  · exact s.all hd.1 hd.2 h
  · intro k x h1 h2 hx
    rw [s.outside (by omega)] at hx
    exact h k x h1 h2 hx

theorem run_partitionLoop (cmp : T → T → Int) (base : Int) (pv : T) :
    ∀ (f : Nat) (l : List T) (left right : Int), at? l base = some pv → 0 ≤ left → left ≤ right + 1 → right < base →
      right - left + 2 ≤ f →
    ∃ r l', run listOps (partitionLoop cmp base f left right) l = .ok (r, l') ∧ Swaps left right l l' ∧
      left - 1 ≤ r ∧ r ≤ right ∧ AllIn l' left r (fun x => cmp x pv ≤ 0) ∧ AllIn l' (r + 1) right (fun x => cmp x pv > 0) := by
  intro f
  induction f with
  | zero => intro l left right _ _ _ _ hf; simp at hf; omega
  | succ f ih =>
    intro l left right hb hl hlr hrb hf
    have hbl := at?_lt hb
    unfold partitionLoop
    by_cases hle : left ≤ right
    · rw [if_pos hle]
      obtain ⟨x, hx⟩ := at?_ge (l := l) (i := left) (by omega)
      obtain ⟨y, hy⟩ := at?_ge (l := l) (i := right) (by omega)
      rw [run_bind_ok (run_value hx), run_bind_ok (run_value hb)]
      by_cases hxc : cmp x pv ≤ 0
      · rw [if_pos hxc, run_bind_ok (run_next_lt (by omega))]
        obtain ⟨r, l', e, s, r1, r2, a1, a2⟩ := ih l (left + 1) right hb (by omega) (by omega) hrb (by push_cast at hf; omega)
        refine ⟨r, l', e, s.mono (by omega) (by omega), by omega, r2, ?_, a2⟩
        intro k z k1 k2 hz
        by_cases hk : k = left
        · subst hk
          rw [s.outside (by omega), hx] at hz
          cases hz; exact hxc
        · exact a1 k z (by omega) k2 hz
      · rw [if_neg hxc, run_bind_ok (run_value hy), run_bind_ok (run_value hb)]
        by_cases hyc : cmp y pv > 0
        · rw [if_pos hyc, run_bind_ok (run_prev_ge (by omega))]
          obtain ⟨r, l', e, s, r1, r2, a1, a2⟩ := ih l left (right - 1) hb (by omega) (by omega) (by omega) (by push_cast at hf; omega)
          refine ⟨r, l', e, s.mono (by omega) (by omega), by omega, by omega, a1, ?_⟩
          intro k z k1 k2 hz
          by_cases hk : k = right
          · subst hk
            rw [s.outside (by omega), hy] at hz
            cases hz; exact hyc
          · exact a2 k z (by omega) (by omega) hz
        · rw [if_neg hyc]
          have hne : left ≠ right := by rintro rfl; rw [hx] at hy; cases hy; omega
          have hi : 0 ≤ left ∧ left < l.length := by omega
          have hj : 0 ≤ right ∧ right < l.length := by omega
          rw [run_bind_ok (run_swapValue hi hj), run_bind_ok (run_next_lt (by simp; omega)), run_bind_ok (run_prev_ge (by omega))]
          obtain ⟨r, l', e, s, r1, r2, a1, a2⟩ := ih (lswap l left right) (left + 1) (right - 1)
            (by rw [Swaps.lswap_out (by omega) (by omega), hb]) (by omega) (by omega) (by omega) (by push_cast at hf; omega)
          refine ⟨r, l', e, ?_, by omega, by omega, ?_, ?_⟩
          · exact (Swaps.one (by omega) (by omega) (by omega) (by omega)).trans (s.mono (by omega) (by omega))
          · intro k z k1 k2 hz
            by_cases hk : k = left
            · subst hk
              rw [s.outside (by omega), at?_lswap hi hj, if_neg (by omega), if_pos rfl, hy] at hz
              cases hz; omega
            · exact a1 k z (by omega) k2 hz
          · intro k z k1 k2 hz
            by_cases hk : k = right
            · subst hk
              rw [s.outside (by omega), at?_lswap hi hj, if_pos rfl, hx] at hz
              cases hz; omega
            · exact a2 k z (by omega) (by omega) hz
    · rw [if_neg hle]
      exact ⟨right, l, rfl, .refl, by omega, by omega, fun k x h1 h2 => by omega, fun k x h1 h2 => by omega⟩

/-- Sorted at positions `lo..hi`. -/
def SortedIn (cmp : T → T → Int) (l : List T) (lo hi : Int) : Prop :=
  ∀ i j x y, lo ≤ i → i < j → j ≤ hi → at? l i = some x → at? l j = some y → cmp x y ≤ 0

theorem SortedIn.swaps_out {l l' : List T} {lo hi lo' hi' : Int} (h : SortedIn cmp l lo hi) (s : Swaps lo' hi' l l')
    (hd : hi < lo' ∨ hi' < lo) : SortedIn cmp l' lo hi := by
  intro i j x y h1 h2 h3 hx hy
  rw [s.outside (by omega)] at hx hy
  exact h i j x y h1 h2 h3 hx hy

theorem lswap_self (l : List T) (i : Int) : lswap l i i = l := by
  unfold lswap
  split
  · next x y hx hy =>
    rw [hx] at hy; cases hy
    apply getElem?_of_at?
    intro k
    simp only [at?_setAt, setAt_length]
    split
    · next h => rw [h.1, hx]
    · rfl
  · rfl

/-- The part shared by `quickSort` and `nthElement` for ranges of at least four elements: median of three, partition,
pivot into place. -/
def partitionStep (cmp : T → T → Int) (first last : Int) : Prog T Int := do
  let len := last - first + 1
  let mid := first + len / 2
  doPivot cmp first mid last
  swapValue mid (last - 1)
  let base := last - 1
  let right ← partitionLoop cmp base (len.toNat + 1) (first + 1) (last - 2)
  let m ← next right
  swapValue base m
  pure m

theorem run_partitionStep (h : LawfulCmp cmp) {l : List T} {first last : Int} (h0 : 0 ≤ first) (h1 : first + 3 ≤ last)
    (h2 : last < l.length) :
    ∃ m l' pv, run listOps (partitionStep cmp first last) l = .ok (m, l') ∧ Swaps first last l l' ∧
      first + 1 ≤ m ∧ m ≤ last - 1 ∧ at? l' m = some pv ∧ AllIn l' first m (fun x => cmp x pv ≤ 0) ∧
      AllIn l' m last (fun x => cmp pv x ≤ 0) := by
  obtain ⟨l1, a, pv, c, e1, s1, ha, hb, hc, c1, c2⟩ := run_doPivot h (l := l) (first := first)
    (mid := first + (last - first + 1) / 2) (last := last) h0 (by omega) (by omega) h2
  have len1 := s1.length
  have hi : 0 ≤ first + (last - first + 1) / 2 ∧ first + (last - first + 1) / 2 < (l1.length : Int) := by omega
  have hj : 0 ≤ last - 1 ∧ last - 1 < (l1.length : Int) := by omega
  have e2 := run_swapValue hi hj
  let l2 := lswap l1 (first + (last - first + 1) / 2) (last - 1)
  have hb2 : at? l2 (last - 1) = some pv := by
    show at? (lswap l1 _ _) _ = _
    rw [at?_lswap hi hj, if_pos rfl, hb]
  have ha2 : at? l2 first = some a := by
    show at? (lswap l1 _ _) _ = _
    rw [Swaps.lswap_out (by omega) (by omega), ha]
  have hc2 : at? l2 last = some c := by
    show at? (lswap l1 _ _) _ = _
    rw [Swaps.lswap_out (by omega) (by omega), hc]
  have len2 : l2.length = l.length := by show (lswap l1 _ _).length = _; simp [len1]
  obtain ⟨r, l3, e3, s3, r1, r2, a1, a2⟩ := run_partitionLoop cmp (last - 1) pv ((last - first + 1).toNat + 1) l2 (first + 1)
    (last - 2) hb2 (by omega) (by omega) (by omega) (by push_cast; omega)
  have len3 := s3.length
  have hb3 : at? l3 (last - 1) = some pv := by rw [s3.outside (by omega), hb2]
  have ha3 : at? l3 first = some a := by rw [s3.outside (by omega), ha2]
  have hc3 : at? l3 last = some c := by rw [s3.outside (by omega), hc2]
  have hi' : 0 ≤ last - 1 ∧ last - 1 < (l3.length : Int) := by omega
  have hj' : 0 ≤ r + 1 ∧ r + 1 < (l3.length : Int) := by omega
  have e4 := run_swapValue hi' hj'
  refine ⟨r + 1, lswap l3 (last - 1) (r + 1), pv, ?_, ?_, by omega, by omega, ?_, ?_, ?_⟩
  · unfold partitionStep
    simp only
    rw [run_bind_ok e1, run_bind_ok e2, run_bind_ok e3, run_bind_ok (run_next_lt (by omega)), run_bind_ok e4]
    rfl
  · exact ((s1.trans (.one (by omega) (by omega) (by omega) (by omega))).trans (s3.mono (by omega) (by omega))).trans
      (.one (by omega) (by omega) (by omega) (by omega))
  · rw [at?_lswap hi' hj', if_pos rfl, hb3]
  · intro k x k1 k2 hx
    rw [at?_lswap hi' hj'] at hx
    split at hx
    · rw [hb3] at hx; cases hx; rw [h.refl]; omega
    · rw [if_neg (by omega)] at hx
      by_cases hk : k = first
      · subst hk; rw [ha3] at hx; cases hx; exact c1
      · exact a1 k x (by omega) (by omega) hx
  · intro k x k1 k2 hx
    rw [at?_lswap hi' hj'] at hx
    have key : ∀ k', r + 1 ≤ k' → k' ≤ last - 2 → at? l3 k' = some x → cmp pv x ≤ 0 := fun k' h1 h2 h3 => by
      have h4 := a2 k' x h1 h2 h3
      beta_reduce at h4
      have := h.swap pv x; omega
    split at hx
    · rw [hb3] at hx; cases hx; rw [h.refl]; omega
    · split at hx
      · exact key (r + 1) (by omega) (by omega) hx
      · by_cases hk : k = last
        · subst hk; rw [hc3] at hx; cases hx; exact c2
        · exact key k (by omega) (by omega) hx

theorem quickSort_big {f : Nat} {first last : Int} (h1 : first + 3 ≤ last) (l : List T) :
    run listOps (quickSort cmp (f + 1) first last) l = run listOps (do
      let m ← partitionStep cmp first last
      quickSort cmp f first (m - 1)
      let first' ← next m
      quickSort cmp f first' last) l := by
  rw [quickSort, if_neg (by omega)]
  simp only
  rw [if_neg (by omega), if_neg (by omega)]
  simp only [run_bind, partitionStep, bind_assoc, run_pure, Res.ok_bind]

theorem run_quickSort (h : LawfulCmp cmp) : ∀ (f : Nat) (l : List T) (first last : Int), 0 ≤ first → last < l.length →
    last - first + 2 ≤ f → 1 ≤ f →
    ∃ l', run listOps (quickSort cmp f first last) l = .ok ((), l') ∧ Swaps first last l l' ∧ SortedIn cmp l' first last := by
  intro f
  induction f with
  | zero => intro l first last _ _ _ h; omega
  | succ f ih =>
    intro l first last h0 h1 hf _
    by_cases c1 : first ≥ last
    · refine ⟨l, ?_, .refl, fun i j x y _ _ _ => by omega⟩
      rw [quickSort, if_pos c1]; rfl
    by_cases c2 : last - first + 1 < 3
    · obtain ⟨x, hx⟩ := at?_ge (l := l) (i := first) (by omega)
      obtain ⟨y, hy⟩ := at?_ge (l := l) (i := last) (by omega)
      obtain ⟨l', a, b, e, ha, hb, c, -, -, s⟩ := run_swapIfGreater h hx hy (by omega)
      refine ⟨l', ?_, .of_or s (by omega) (by omega) (by omega) (by omega), ?_⟩
      · rw [quickSort, if_neg c1]; simp only; rw [if_pos c2, e]
      · intro i j x' y' i1 i2 i3 hx' hy'
        obtain rfl : i = first := by omega
        obtain rfl : j = last := by omega
        rw [ha] at hx'; rw [hb] at hy'; cases hx'; cases hy'; exact c
    by_cases c3 : last - first + 1 = 3
    · obtain ⟨l', a, b, c, e, s, ha, hb, hc, d1, d2⟩ := run_doPivot h (l := l) (first := first)
        (mid := first + (last - first + 1) / 2) (last := last) h0 (by omega) (by omega) h1
      have len1 := s.length
      have hm : first + (last - first + 1) / 2 = last - 1 := by omega
      refine ⟨l', ?_, s, ?_⟩
      · rw [quickSort, if_neg c1]; simp only
        rw [if_neg c2, run_bind_ok e, run_bind_ok (run_swapValue (by omega) (by omega)), if_pos c3, hm, lswap_self]; rfl
      · rw [hm] at hb
        intro i j x y i1 i2 i3 hx hy
        obtain (⟨rfl, rfl⟩ | ⟨rfl, rfl⟩ | ⟨rfl, rfl⟩) : (i = first ∧ j = last - 1) ∨ (i = first ∧ j = last) ∨
          (i = last - 1 ∧ j = last) := by omega
        · rw [ha] at hx; rw [hb] at hy; cases hx; cases hy; exact d1
        · rw [ha] at hx; rw [hc] at hy; cases hx; cases hy; exact h.trans _ _ _ d1 d2
        · rw [hb] at hx; rw [hc] at hy; cases hx; cases hy; exact d2
    · rw [quickSort_big (by omega)]
      obtain ⟨m, l1, pv, e1, s1, m1, m2, hm, a1, a2⟩ := run_partitionStep h h0 (by omega) h1
      have len1 := s1.length
      obtain ⟨l2, e2, s2, o2⟩ := ih l1 first (m - 1) h0 (by omega) (by push_cast at hf; omega) (by omega)
      have len2 := s2.length
      obtain ⟨l3, e3, s3, o3⟩ := ih l2 (m + 1) last (by omega) (by omega) (by push_cast at hf; omega) (by omega)
      refine ⟨l3, ?_, (s1.trans (s2.mono (by omega) (by omega))).trans (s3.mono (by omega) (by omega)), ?_⟩
      · rw [run_bind_ok e1, run_bind_ok e2, run_bind_ok (run_next_lt (by omega)), e3]
      · have hm3 : at? l3 m = some pv := by rw [s3.outside (by omega), s2.outside (by omega), hm]
        have b1 : AllIn l3 first m (fun x => cmp x pv ≤ 0) :=
          (a1.swaps s2 (by omega)).swaps s3 (by omega)
        have b2 : AllIn l3 m last (fun x => cmp pv x ≤ 0) :=
          (a2.swaps s2 (by omega)).swaps s3 (by omega)
        have o2' := o2.swaps_out s3 (by omega)
        intro i j x y i1 i2 i3 hx hy
        by_cases q1 : j < m
        · exact o2' i j x y i1 i2 (by omega) hx hy
        by_cases q2 : m < i
        · exact o3 i j x y (by omega) i2 i3 hx hy
        exact h.trans _ _ _ (b1 i x i1 (by omega) hx) (b2 j y (by omega) i3 hy)

theorem run_sort (h : LawfulCmp cmp) (l : List T) {first last : Int} (h0 : 0 ≤ first) (h1 : last ≤ l.length) :
    ∃ l', run listOps (sort cmp first last) l = .ok ((), l') ∧ Swaps first (last - 1) l l' ∧ SortedIn cmp l' first (last - 1) := by
  have e : first + (last - first) - 1 = last - 1 := by omega
  unfold sort
  rw [e]
  exact run_quickSort h _ l first (last - 1) h0 (by omega) (by push_cast; omega) (by omega)

end GoSTL.Algo
