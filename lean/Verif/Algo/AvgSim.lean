import Verif.Algo.SortCost
/-!
# C110: the same sort in another place, on other elements

`Sort` on a range does the same, step by step, as on a list of the elements of the range alone, and on elements that are ordered in the same way.
-/
namespace GoSTL.Algo
open GoSTL.Seq
variable {T T' α α' β β' : Type}

/-- The list `M`, its elements renamed, between `P` and `S`. -/
def emb (σ : T → T') (P S : List T') (M : List T) : List T' := P ++ M.map σ ++ S

/-- The second program does on the embedded list what the first does on the list; `r` translates the results. -/
structure Like (E : List T → List T') (r : α → α') (p : Prog T α) (p' : Prog T' α') (M : List T) : Prop where
  run : run listOps p' (E M) = (run listOps p M >>= fun x => .ok (r x.1, E x.2))
  acc : accesses listOps p' (E M) = accesses listOps p M

theorem Like.bind {E : List T → List T'} {r : α → α'} {r' : β → β'} {p : Prog T α} {p' : Prog T' α'} {f : α → Prog T β} {f' : α' → Prog T' β'} {M M1 : List T} {a : α}
    (e : Seq.run listOps p M = .ok (a, M1)) (h : Like E r p p' M) (h' : Like E r' (f a) (f' (r a)) M1) : Like E r' (p >>= f) (p' >>= f') M := by
  have e' : Seq.run listOps p' (E M) = .ok (r a, E M1) := by rw [h.run, e]; rfl
  constructor
  · rw [run_bind_ok e', run_bind_ok e, h'.run]
  · rw [accesses_bind_ok e', accesses_bind_ok e, h.acc, h'.acc]

theorem Like.pure {E : List T → List T'} {r : α → α'} (a : α) (M : List T) : Like E r (Pure.pure a : Prog T α) (Pure.pure (r a) : Prog T' α') M := ⟨rfl, rfl⟩

section
variable {σ : T → T'} {P S : List T'} {cmp : T → T → Int} {cmp' : T' → T' → Int} {M : List T}

theorem emb_at {i : Int} (hi : 0 ≤ i ∧ i < M.length) {x : T} (hx : at? M i = some x) : at? (emb σ P S M) (P.length + i) = some (σ x) := by
  obtain ⟨k, rfl⟩ : ∃ k : Nat, i = k := ⟨i.toNat, by omega⟩
  have hk : k < (M.map σ).length := by simp; omega
  rw [at?_nat, List.getElem?_eq_getElem (by omega)] at hx
  cases hx
  unfold emb
  rw [at?_segment hk]
  simp

theorem at?_map {i : Int} : at? (M.map σ) i = (at? M i).map σ := by
  unfold at?
  split <;> simp

theorem emb_length : (emb σ P S M).length = P.length + M.length + S.length := by simp [emb]; omega

theorem emb_at? (k : Int) : at? (emb σ P S M) k =
    if k < P.length then at? P k else if k < P.length + M.length then (at? M (k - P.length)).map σ else at? S (k - (P.length + M.length)) := by
  unfold emb
  rw [at?_append, List.length_append, List.length_map]
  by_cases c1 : k < P.length
  · rw [if_pos (by push_cast; omega), if_pos c1, at?_append, if_pos c1]
  · rw [if_neg c1]
    by_cases c2 : k < P.length + M.length
    · rw [if_pos (by push_cast; omega), if_pos c2, at?_append, if_neg c1, at?_map]
    · rw [if_neg (by push_cast; omega), if_neg c2]
      push_cast; rfl

theorem emb_lswap {i j : Int} (hi : 0 ≤ i ∧ i < M.length) (hj : 0 ≤ j ∧ j < M.length) :
    lswap (emb σ P S M) (P.length + i) (P.length + j) = emb σ P S (lswap M i j) := by
  apply getElem?_of_at?
  intro k
  rw [at?_lswap (by rw [emb_length]; push_cast; omega) (by rw [emb_length]; push_cast; omega)]
  simp only [emb_at?, lswap_length]
  rw [at?_lswap hi hj]
  by_cases c1 : k = P.length + j
  · subst c1
    rw [if_pos rfl, if_neg (by omega), if_pos (by omega), if_neg (by omega), if_pos (by omega), if_pos (by omega)]
    congr 2; omega
  · rw [if_neg c1]
    by_cases c2 : k = P.length + i
    · subst c2
      rw [if_pos rfl, if_neg (by omega), if_pos (by omega), if_neg (by omega), if_pos (by omega), if_neg (by omega), if_pos (by omega)]
      congr 2; omega
    · rw [if_neg c2]
      by_cases c3 : k < P.length
      · rw [if_pos c3, if_pos c3]
      · rw [if_neg c3, if_neg c3]
        by_cases c4 : k < P.length + M.length
        · rw [if_pos c4, if_pos c4, if_neg (by omega), if_neg (by omega)]
        · rw [if_neg c4, if_neg c4]

theorem like_swapValue {i j : Int} (hi : 0 ≤ i ∧ i < M.length) (hj : 0 ≤ j ∧ j < M.length) :
    Like (emb σ P S) id (swapValue i j) (swapValue (P.length + i) (P.length + j)) M := by
  have hi' : 0 ≤ P.length + i ∧ P.length + i < ((emb σ P S M).length : Int) := by rw [emb_length]; push_cast; omega
  have hj' : 0 ≤ P.length + j ∧ P.length + j < ((emb σ P S M).length : Int) := by rw [emb_length]; push_cast; omega
  constructor
  · rw [run_swapValue hi' hj', run_swapValue hi hj, emb_lswap hi hj]; rfl
  · rw [acc_swapValue hi' hj', acc_swapValue hi hj]

theorem like_value {i : Int} (hi : 0 ≤ i ∧ i < M.length) : Like (emb σ P S) σ (value i) (value (P.length + i)) M := by
  obtain ⟨x, hx⟩ := at?_ge hi
  constructor
  · rw [run_value hx, run_value (emb_at hi hx)]; rfl
  · rw [acc_value, acc_value]

theorem like_next {i : Int} (hi : i < M.length) : Like (emb σ P S) (fun i : Int => P.length + i) (next i) (next (P.length + i)) M := by
  constructor
  · rw [run_next_lt hi, run_next_lt (by rw [emb_length]; push_cast; omega)]
    simp [Int.add_assoc]
  · rw [acc_next, acc_next]

theorem like_prev {i : Int} (hi : 0 ≤ i) : Like (emb σ P S) (fun i : Int => P.length + i) (prev i) (prev (P.length + i)) M := by
  constructor
  · rw [run_prev_ge hi, run_prev_ge (by omega)]
    simp; omega
  · rw [acc_prev, acc_prev]

/-- The comparators give `x` and `y`, and their names, the same order. -/
def Agree (cmp : T → T → Int) (cmp' : T' → T' → Int) (σ : T → T') (x y : T) : Prop := cmp' (σ x) (σ y) > 0 ↔ cmp x y > 0

theorem like_swapIfGreater {i j : Int} (hi : 0 ≤ i ∧ i < M.length) (hj : 0 ≤ j ∧ j < M.length)
    (hA : ∀ x y, at? M i = some x → at? M j = some y → Agree cmp cmp' σ x y) :
    Like (emb σ P S) id (swapIfGreater cmp i j) (swapIfGreater cmp' (P.length + i) (P.length + j)) M := by
  obtain ⟨x, hx⟩ := at?_ge hi
  obtain ⟨y, hy⟩ := at?_ge hj
  have ha : cmp' (σ x) (σ y) > 0 ↔ cmp x y > 0 := hA x y hx hy
  unfold swapIfGreater
  refine .bind (run_value hx) (like_value hi) (.bind (run_value hy) (like_value hj) ?_)
  by_cases c : cmp x y > 0
  · rw [if_pos c, if_pos (ha.2 c)]; exact like_swapValue hi hj
  · rw [if_neg c, if_neg fun h => c (ha.1 h)]; exact .pure (r := id) () M

theorem like_partitionLoop {base : Int} {pv : T} : ∀ (f : Nat) (M : List T) (left right : Int), at? M base = some pv → 0 ≤ left → right < base →
      (∀ x ∈ M, Agree cmp cmp' σ x pv) →
      Like (emb σ P S) (fun i : Int => P.length + i) (partitionLoop cmp base f left right) (partitionLoop cmp' (P.length + base) f (P.length + left) (P.length + right)) M := by
  intro f
  induction f with
  | zero => intro M left right _ _ _ _; exact ⟨rfl, rfl⟩
  | succ f ih =>
    intro M left right hb h0 h1 hA
    have lb := at?_lt hb
    unfold partitionLoop
    by_cases c : left ≤ right
    · rw [if_pos c, if_pos (by omega)]
      obtain ⟨x, hx⟩ := at?_ge (l := M) (i := left) (by omega)
      obtain ⟨y, hy⟩ := at?_ge (l := M) (i := right) (by omega)
      have mem : ∀ {i : Int} {z : T}, at? M i = some z → z ∈ M := by
        intro i z h
        unfold at? at h
        split at h
        · exact List.mem_of_getElem? h
        · cases h
      have ax : cmp' (σ x) (σ pv) > 0 ↔ cmp x pv > 0 := hA x (mem hx)
      have ay : cmp' (σ y) (σ pv) > 0 ↔ cmp y pv > 0 := hA y (mem hy)
      refine .bind (run_value hx) (like_value (by omega)) (.bind (run_value hb) (like_value lb) ?_)
      by_cases c1 : cmp x pv ≤ 0
      · rw [if_pos c1, if_pos (by omega)]
        refine .bind (run_next_lt (by omega)) (like_next (by omega)) ?_
        exact ih M (left + 1) right hb (by omega) h1 hA
      · rw [if_neg c1, if_neg (by omega)]
        refine .bind (run_value hy) (like_value (by omega)) (.bind (run_value hb) (like_value lb) ?_)
        by_cases c2 : cmp y pv > 0
        · rw [if_pos c2, if_pos (ay.2 c2)]
          refine .bind (run_prev_ge (by omega)) (like_prev (by omega)) ?_
          exact ih M left (right - 1) hb h0 (by omega) hA
        · rw [if_neg c2, if_neg fun h => c2 (ay.1 h)]
          have hi : 0 ≤ left ∧ left < (M.length : Int) := by omega
          have hj : 0 ≤ right ∧ right < (M.length : Int) := by omega
          refine .bind (run_swapValue hi hj) (like_swapValue hi hj) ?_
          refine .bind (run_next_lt (by rw [lswap_length]; omega)) (like_next (by rw [lswap_length]; omega)) ?_
          refine .bind (run_prev_ge (by omega)) (like_prev (by omega)) ?_
          refine ih _ (left + 1) (right - 1) ?_ (by omega) (by omega) fun z hz => hA z ((lswap_perm M left right).mem_iff.1 hz)
          rw [Swaps.lswap_out (by omega) (by omega), hb]
    · rw [if_neg c, if_neg (by omega)]
      exact .pure (r := fun i : Int => P.length + i) right M

/-- The pivot: the middle one of the three sampled elements. -/
def IsPivot (cmp : T → T → Int) (x y z pv : T) : Prop := ∃ a c, [a, pv, c].Perm [x, y, z] ∧ cmp a pv ≤ 0 ∧ cmp pv c ≤ 0

theorem run_doPivot_pv (h : LawfulCmp cmp) {l : List T} {first mid last : Int} {x y z : T} (h0 : 0 ≤ first) (h1 : first < mid) (h2 : mid < last)
    (hx : at? l first = some x) (hy : at? l mid = some y) (hz : at? l last = some z) :
    ∃ l' a b c, run listOps (doPivot cmp first mid last) l = .ok ((), l') ∧ Swaps first last l l' ∧ at? l' first = some a ∧ at? l' mid = some b ∧ at? l' last = some c ∧
      [a, b, c].Perm [x, y, z] ∧ cmp a b ≤ 0 ∧ cmp b c ≤ 0 := by
  obtain ⟨l1, a1, b1, e1, ha1, hb1, c1, v1, o1, s1⟩ := run_swapIfGreater h hx hy (by omega)
  have hz1 : at? l1 last = some z := by rw [o1 _ (by omega) (by omega), hz]
  obtain ⟨l2, a2, c2, e2, ha2, hc2, d2, v2, o2, s2⟩ := run_swapIfGreater h ha1 hz1 (by omega)
  have hb2 : at? l2 mid = some b1 := by rw [o2 _ (by omega) (by omega), hb1]
  obtain ⟨l3, b3, c3, e3, hb3, hc3, d3, v3, o3, s3⟩ := run_swapIfGreater h hb2 hc2 (by omega)
  have ha3 : at? l3 first = some a2 := by rw [o3 _ (by omega) (by omega), ha2]
  refine ⟨l3, a2, b3, c3, ?_, ?_, ha3, hb3, hc3, ?_, ?_, d3⟩
  · unfold doPivot
    rw [run_bind_ok e1, run_bind_ok e2, e3]
  · exact ((Swaps.of_or s1 (by omega) (by omega) (by omega) (by omega)).trans
      (Swaps.of_or s2 (by omega) (by omega) (by omega) (by omega))).trans
      (Swaps.of_or s3 (by omega) (by omega) (by omega) (by omega))
  · have p1 : [a1, b1, z].Perm [x, y, z] := by
      rcases v1 with ⟨rfl, rfl⟩ | ⟨rfl, rfl⟩
      · exact .refl _
      · exact .swap ..
    have p2 : [a2, b1, c2].Perm [a1, b1, z] := by
      rcases v2 with ⟨rfl, rfl⟩ | ⟨rfl, rfl⟩
      · exact .refl _
      · exact ((List.Perm.swap _ _ []).cons _ |>.trans (.swap ..)).trans ((List.Perm.swap _ _ []).cons _)
    have p3 : [a2, b3, c3].Perm [a2, b1, c2] := by
      rcases v3 with ⟨rfl, rfl⟩ | ⟨rfl, rfl⟩
      · exact .refl _
      · exact (List.Perm.swap _ _ []).cons _
    exact (p3.trans p2).trans p1
  · have e : cmp a2 b1 ≤ 0 := by
      rcases v2 with ⟨rfl, rfl⟩ | ⟨rfl, rfl⟩
      · exact c1
      · exact h.trans _ _ _ d2 c1
    rcases v3 with ⟨rfl, rfl⟩ | ⟨rfl, rfl⟩
    · exact e
    · exact d2

theorem run_partitionStep_pv (h : LawfulCmp cmp) {l : List T} {first last : Int} {x0 y0 z0 : T} (h0 : 0 ≤ first) (h1 : first + 3 ≤ last)
    (hx0 : at? l first = some x0) (hy0 : at? l (first + (last - first + 1) / 2) = some y0) (hz0 : at? l last = some z0) :
    ∃ m l' pv, run listOps (partitionStep cmp first last) l = .ok (m, l') ∧ Swaps first last l l' ∧
      first + 1 ≤ m ∧ m ≤ last - 1 ∧ at? l' m = some pv ∧ AllIn l' first m (fun x => cmp x pv ≤ 0) ∧
      AllIn l' m last (fun x => cmp pv x ≤ 0) ∧ IsPivot cmp x0 y0 z0 pv ∧
      ∃ c, at? l' last = some c ∧ ∀ u ∈ [x0, y0, z0], cmp u c ≤ 0 := by
  have h2 := (at?_lt hz0).2
  obtain ⟨l1, a, pv, c, e1, s1, ha, hb, hc, hp, c1, c2⟩ := run_doPivot_pv h h0 (by omega) (by omega) hx0 hy0 hz0
  have len1 := s1.length
  have hi : 0 ≤ first + (last - first + 1) / 2 ∧ first + (last - first + 1) / 2 < (l1.length : Int) := by omega
  have hj : 0 ≤ last - 1 ∧ last - 1 < (l1.length : Int) := by omega
  have e2 := run_swapValue hi hj
  let l2 := lswap l1 (first + (last - first + 1) / 2) (last - 1)
  have hb2 : at? l2 (last - 1) = some pv := by
    show at? (lswap l1 _ _) _ = _
    rw [at?_lswap hi hj, if_pos rfl, hb]
  have ha2 : at? l2 first = some a := by
    show at? (lswap l1 _ _) _ = _
    rw [Swaps.lswap_out (by omega) (by omega), ha]
  have hc2 : at? l2 last = some c := by
    show at? (lswap l1 _ _) _ = _
    rw [Swaps.lswap_out (by omega) (by omega), hc]
  have len2 : l2.length = l.length := by show (lswap l1 _ _).length = _; simp [len1]
  obtain ⟨r, l3, e3, s3, r1, r2, a1, a2⟩ := run_partitionLoop cmp (last - 1) pv ((last - first + 1).toNat + 1) l2 (first + 1)
    (last - 2) hb2 (by omega) (by omega) (by omega) (by push_cast; omega)
  have len3 := s3.length
  have hb3 : at? l3 (last - 1) = some pv := by rw [s3.outside (by omega), hb2]
  have ha3 : at? l3 first = some a := by rw [s3.outside (by omega), ha2]
  have hc3 : at? l3 last = some c := by rw [s3.outside (by omega), hc2]
  have hi' : 0 ≤ last - 1 ∧ last - 1 < (l3.length : Int) := by omega
  have hj' : 0 ≤ r + 1 ∧ r + 1 < (l3.length : Int) := by omega
  have e4 := run_swapValue hi' hj'
  refine ⟨r + 1, lswap l3 (last - 1) (r + 1), pv, ?_, ?_, by omega, by omega, ?_, ?_, ?_, ⟨a, c, hp, c1, c2⟩, c, ?_, ?_⟩
  · unfold partitionStep
    simp only
    rw [run_bind_ok e1, run_bind_ok e2, run_bind_ok e3, run_bind_ok (run_next_lt (by omega)), run_bind_ok e4]
    rfl
  · exact ((s1.trans (.one (by omega) (by omega) (by omega) (by omega))).trans (s3.mono (by omega) (by omega))).trans
      (.one (by omega) (by omega) (by omega) (by omega))
  · rw [at?_lswap hi' hj', if_pos rfl, hb3]
  · intro k x k1 k2 hx
    rw [at?_lswap hi' hj'] at hx
    split at hx
    · rw [hb3] at hx; cases hx; rw [h.refl]
    · rw [if_neg (by omega)] at hx
      by_cases hk : k = first
      · subst hk; rw [ha3] at hx; cases hx; exact c1
      · exact a1 k x (by omega) (by omega) hx
  · intro k x k1 k2 hx
    rw [at?_lswap hi' hj'] at hx
    have key : ∀ k', r + 1 ≤ k' → k' ≤ last - 2 → at? l3 k' = some x → cmp pv x ≤ 0 := fun k' h1 h2 h3 => by
      have h4 := a2 k' x h1 h2 h3
      beta_reduce at h4
      have := h.swap pv x; omega
    split at hx
    · rw [hb3] at hx; cases hx; rw [h.refl]
    · split at hx
      · exact key (r + 1) (by omega) (by omega) hx
      · by_cases hk : k = last
        · subst hk; rw [hc3] at hx; cases hx; exact c2
        · exact key k (by omega) (by omega) hx
  · rw [Swaps.lswap_out (by omega) (by omega), hc3]
  · intro u hu
    have hu := hp.mem_iff.2 hu
    simp only [List.mem_cons, List.not_mem_nil, or_false] at hu
    rcases hu with rfl | rfl | rfl
    · exact h.trans _ _ _ c1 c2
    · exact c2
    · rw [h.refl]

theorem like_doPivot (h : LawfulCmp cmp) {first mid last : Int} {x y z : T} (h0 : 0 ≤ first) (h1 : first < mid) (h2 : mid < last)
    (hx : at? M first = some x) (hy : at? M mid = some y) (hz : at? M last = some z)
    (hA : ∀ u v, u ∈ [x, y, z] → v ∈ [x, y, z] → Agree cmp cmp' σ u v) :
    Like (emb σ P S) id (doPivot cmp first mid last) (doPivot cmp' (P.length + first) (P.length + mid) (P.length + last)) M := by
  have h3 := at?_lt hz
  obtain ⟨l1, a1, b1, e1, ha1, hb1, c1, v1, o1, s1⟩ := run_swapIfGreater h hx hy (by omega)
  have hz1 : at? l1 last = some z := by rw [o1 _ (by omega) (by omega), hz]
  obtain ⟨l2, a2, c2, e2, ha2, hc2, d2, v2, o2, s2⟩ := run_swapIfGreater h ha1 hz1 (by omega)
  have hb2 : at? l2 mid = some b1 := by rw [o2 _ (by omega) (by omega), hb1]
  have m1 : a1 ∈ [x, y, z] ∧ b1 ∈ [x, y, z] := by rcases v1 with ⟨rfl, rfl⟩ | ⟨rfl, rfl⟩ <;> simp
  have m2 : c2 ∈ [x, y, z] := by rcases v2 with ⟨rfl, rfl⟩ | ⟨rfl, rfl⟩ <;> simp [m1.1]
  have n1 : l1.length = M.length := by rcases s1 with rfl | rfl <;> simp
  have n2 : l2.length = l1.length := by rcases s2 with rfl | rfl <;> simp
  unfold doPivot
  refine .bind e1 (like_swapIfGreater (by omega) (by omega) ?_) (.bind e2 (like_swapIfGreater (by omega) (by omega) ?_) (like_swapIfGreater (by omega) (by omega) ?_))
  · intro u v hu hv; rw [hx] at hu; rw [hy] at hv; cases hu; cases hv; exact hA _ _ (by simp) (by simp)
  · intro u v hu hv; rw [ha1] at hu; rw [hz1] at hv; cases hu; cases hv; exact hA _ _ m1.1 (by simp)
  · intro u v hu hv; rw [hb2] at hu; rw [hc2] at hv; cases hu; cases hv; exact hA _ _ m1.2 m2

theorem like_partitionStep (h : LawfulCmp cmp) {first last : Int} {x y z : T} (h0 : 0 ≤ first) (h1 : first + 3 ≤ last)
    (hx : at? M first = some x) (hy : at? M (first + (last - first + 1) / 2) = some y) (hz : at? M last = some z)
    (hA : ∀ u v, u ∈ [x, y, z] → v ∈ [x, y, z] → Agree cmp cmp' σ u v) (hB : ∀ pv, IsPivot cmp x y z pv → ∀ u ∈ M, Agree cmp cmp' σ u pv) :
    Like (emb σ P S) (fun i : Int => P.length + i) (partitionStep cmp first last) (partitionStep cmp' (P.length + first) (P.length + last)) M := by
  have h3 := at?_lt hz
  have L1 : Like (emb σ P S) id _ (doPivot cmp' (P.length + first) (P.length + (first + (last - first + 1) / 2)) (P.length + last)) M :=
    like_doPivot (M := M) (P := P) (S := S) h h0 (by omega) (by omega) hx hy hz hA
  obtain ⟨l1, a, pv, c, e1, s1, -, hb, -, hp, hp1, hp2⟩ := run_doPivot_pv h h0 (by omega) (by omega) hx hy hz
  have hpv : IsPivot cmp x y z pv := ⟨a, c, hp, hp1, hp2⟩
  have len1 := s1.length
  have hi : 0 ≤ first + (last - first + 1) / 2 ∧ first + (last - first + 1) / 2 < (l1.length : Int) := by omega
  have hj : 0 ≤ last - 1 ∧ last - 1 < (l1.length : Int) := by omega
  have e2 := run_swapValue hi hj
  have hb2 : at? (lswap l1 (first + (last - first + 1) / 2) (last - 1)) (last - 1) = some pv := by
    rw [at?_lswap hi hj, if_pos rfl, hb]
  have hm : ∀ u ∈ lswap l1 (first + (last - first + 1) / 2) (last - 1), Agree cmp cmp' σ u pv := fun u hu =>
    hB pv hpv u (s1.perm.mem_iff.1 ((lswap_perm _ _ _).mem_iff.1 hu))
  have len2 : (lswap l1 (first + (last - first + 1) / 2) (last - 1)).length = M.length := by rw [lswap_length, len1]
  obtain ⟨r, l3, e3, s3, r1, r2, -, -⟩ := run_partitionLoop cmp (last - 1) pv ((last - first + 1).toNat + 1) _ (first + 1)
    (last - 2) hb2 (by omega) (by omega) (by omega) (by push_cast; omega)
  have L3 := like_partitionLoop (P := P) (S := S) (σ := σ) (cmp := cmp) (cmp' := cmp') ((last - first + 1).toNat + 1) _ (first + 1) (last - 2) hb2 (by omega) (by omega) hm
  have len3 := s3.length
  have hi' : 0 ≤ last - 1 ∧ last - 1 < (l3.length : Int) := by omega
  have hj' : 0 ≤ r + 1 ∧ r + 1 < (l3.length : Int) := by omega
  unfold partitionStep
  simp only
  have q1 : (P.length : Int) + last - (P.length + first) + 1 = last - first + 1 := by omega
  have q2 : (P.length : Int) + first + (last - first + 1) / 2 = P.length + (first + (last - first + 1) / 2) := by omega
  have q3 : (P.length : Int) + last - 1 = P.length + (last - 1) := by omega
  have q4 : (P.length : Int) + last - 2 = P.length + (last - 2) := by omega
  have q5 : (P.length : Int) + first + 1 = P.length + (first + 1) := by omega
  rw [q1, q2, q3, q4, q5]
  refine .bind e1 L1 (.bind e2 (like_swapValue hi hj) (.bind e3 L3 (.bind (run_next_lt (by omega)) (like_next (by omega)) ?_)))
  exact .bind (run_swapValue hi' hj') (like_swapValue hi' hj') (.pure (r := fun i : Int => P.length + i) _ _)

theorem qs_one {f : Nat} {first last : Int} (c : first ≥ last) : quickSort cmp (f + 1) first last = Pure.pure () := by rw [quickSort, if_pos c]

theorem qs_two {f : Nat} {first last : Int} (c : ¬ first ≥ last) (c2 : last - first + 1 < 3) : quickSort cmp (f + 1) first last = swapIfGreater cmp first last := by
  rw [quickSort, if_neg c]; simp only; rw [if_pos c2]

theorem qs_three {f : Nat} {first last : Int} (c : ¬ first ≥ last) (c2 : ¬ last - first + 1 < 3) (c3 : last - first + 1 = 3) : quickSort cmp (f + 1) first last = (do
    doPivot cmp first (first + (last - first + 1) / 2) last
    swapValue (first + (last - first + 1) / 2) (last - 1)
    Pure.pure ()) := by
  rw [quickSort, if_neg c]; simp only; rw [if_neg c2, if_pos c3]

theorem qs_big {f : Nat} {first last : Int} (c : first + 3 ≤ last) : quickSort cmp (f + 1) first last = (do
    let m ← partitionStep cmp first last
    quickSort cmp f first (m - 1)
    let first' ← next m
    quickSort cmp f first' last) := by
  rw [quickSort, if_neg (by omega)]
  simp only
  rw [if_neg (by omega), if_neg (by omega)]
  simp only [partitionStep, bind_assoc, pure_bind]

theorem like_quickSort (h : LawfulCmp cmp) : ∀ (f : Nat) (M : List T) (first last : Int), 0 ≤ first → last < M.length → last - first + 2 ≤ f → 1 ≤ f →
    (∀ u ∈ M, ∀ v ∈ M, Agree cmp cmp' σ u v) →
    Like (emb σ P S) id (quickSort cmp f first last) (quickSort cmp' f (P.length + first) (P.length + last)) M := by
  intro f
  induction f with
  | zero => intro M first last _ _ _ h; omega
  | succ f ih =>
    intro M first last h0 h1 hf _ hA
    push_cast at hf
    have mem : ∀ {i : Int} {z : T}, at? M i = some z → z ∈ M := by
      intro i z h
      unfold at? at h
      split at h
      · exact List.mem_of_getElem? h
      · cases h
    have q1 : (P.length : Int) + last - (P.length + first) + 1 = last - first + 1 := by omega
    have q2 : (P.length : Int) + first + (last - first + 1) / 2 = P.length + (first + (last - first + 1) / 2) := by omega
    have q3 : (P.length : Int) + last - 1 = P.length + (last - 1) := by omega
    by_cases c1 : first ≥ last
    · rw [qs_one c1, qs_one (by omega)]
      exact .pure (r := id) () M
    by_cases c2 : last - first + 1 < 3
    · rw [qs_two c1 c2, qs_two (by omega) (by omega)]
      exact like_swapIfGreater (by omega) (by omega) fun x y hx hy => hA x (mem hx) y (mem hy)
    obtain ⟨x, hx⟩ := at?_ge (l := M) (i := first) (by omega)
    obtain ⟨y, hy⟩ := at?_ge (l := M) (i := first + (last - first + 1) / 2) (by omega)
    obtain ⟨z, hz⟩ := at?_ge (l := M) (i := last) (by omega)
    have m3 : ∀ u, u ∈ [x, y, z] → u ∈ M := by
      intro u hu
      simp only [List.mem_cons, List.not_mem_nil, or_false] at hu
      rcases hu with rfl | rfl | rfl
      · exact mem hx
      · exact mem hy
      · exact mem hz
    by_cases c3 : last - first + 1 = 3
    · obtain ⟨l', e, s⟩ := run_doPivot_any cmp (l := M) (first := first)
        (mid := first + (last - first + 1) / 2) (last := last) h0 (by omega) (by omega) h1
      have len1 := s.length
      rw [qs_three c1 c2 c3, qs_three (by omega) (by omega) (by omega), q1, q2, q3]
      exact .bind e (like_doPivot h h0 (by omega) (by omega) hx hy hz fun u v hu hv => hA u (m3 u hu) v (m3 v hv))
        (.bind (run_swapValue (by omega) (by omega)) (like_swapValue (by omega) (by omega)) (.pure (r := id) () _))
    · rw [qs_big (by omega), qs_big (by omega)]
      obtain ⟨m, l1, e1, s1, m1, m2⟩ := run_partitionStep_any cmp h0 (by omega) h1
      have len1 := s1.length
      obtain ⟨l2, e2, s2⟩ := run_quickSort_any cmp f l1 first (m - 1) h0 (by omega) (by omega) (by omega)
      have len2 := s2.length
      have hA1 : ∀ u ∈ l1, ∀ v ∈ l1, Agree cmp cmp' σ u v := fun u hu v hv => hA u (s1.perm.mem_iff.1 hu) v (s1.perm.mem_iff.1 hv)
      have hA2 : ∀ u ∈ l2, ∀ v ∈ l2, Agree cmp cmp' σ u v := fun u hu v hv => hA1 u (s2.perm.mem_iff.1 hu) v (s2.perm.mem_iff.1 hv)
      refine .bind e1 (like_partitionStep h h0 (by omega) hx hy hz (fun u v hu hv => hA u (m3 u hu) v (m3 v hv)) ?_) ?_
      · rintro pv ⟨a, c, hp, -, -⟩ u hu
        exact hA u hu pv (m3 pv (hp.mem_iff.1 (by simp)))
      · have q5 : (P.length : Int) + m - 1 = P.length + (m - 1) := by omega
        rw [q5]
        refine .bind e2 (ih l1 first (m - 1) h0 (by omega) (by omega) (by omega) hA1) (.bind (run_next_lt (by omega)) (like_next (by omega)) ?_)
        exact ih l2 (m + 1) last (by omega) (by omega) (by omega) (by omega) hA2

theorem ns_one {f : Nat} {first last n : Int} (c : first + 1 ≥ last) : nthElementRec cmp (f + 1) first last n = Pure.pure () := by rw [nthElementRec, if_pos c]

theorem ns_three {f : Nat} {first last n : Int} (c : ¬ first + 1 ≥ last) (c3 : last - first + 1 = 3) : nthElementRec cmp (f + 1) first last n = (do
    doPivot cmp first (first + (last - first + 1) / 2) last
    swapValue (first + (last - first + 1) / 2) (last - 1)
    Pure.pure ()) := by
  rw [nthElementRec, if_neg c]; simp only; rw [if_neg (by omega), if_pos c3]

theorem ns_big {f : Nat} {first last n : Int} (c : first + 3 ≤ last) : nthElementRec cmp (f + 1) first last n = (do
    let m ← partitionStep cmp first last
    if n ≤ m - first then nthElementRec cmp f first m n
    else do
      let first' ← next m
      nthElementRec cmp f first' last (n - (m - first + 1))) := by
  rw [nthElementRec, if_neg (by omega)]
  simp only
  rw [if_neg (by omega), if_neg (by omega)]
  simp only [partitionStep, bind_assoc, pure_bind]

theorem like_nthElementRec (h : LawfulCmp cmp) : ∀ (f : Nat) (M : List T) (first last n : Int), 0 ≤ first → last < M.length → last - first + 2 ≤ f → 1 ≤ f →
    (∀ u ∈ M, ∀ v ∈ M, Agree cmp cmp' σ u v) →
    Like (emb σ P S) id (nthElementRec cmp f first last n) (nthElementRec cmp' f (P.length + first) (P.length + last) n) M := by
  intro f
  induction f with
  | zero => intro M first last n _ _ _ h; omega
  | succ f ih =>
    intro M first last n h0 h1 hf _ hA
    push_cast at hf
    have mem : ∀ {i : Int} {z : T}, at? M i = some z → z ∈ M := by
      intro i z h
      unfold at? at h
      split at h
      · exact List.mem_of_getElem? h
      · cases h
    have q1 : (P.length : Int) + last - (P.length + first) + 1 = last - first + 1 := by omega
    have q2 : (P.length : Int) + first + (last - first + 1) / 2 = P.length + (first + (last - first + 1) / 2) := by omega
    have q3 : (P.length : Int) + last - 1 = P.length + (last - 1) := by omega
    by_cases c1 : first + 1 ≥ last
    · rw [ns_one c1, ns_one (by omega)]
      exact .pure (r := id) () M
    obtain ⟨x, hx⟩ := at?_ge (l := M) (i := first) (by omega)
    obtain ⟨y, hy⟩ := at?_ge (l := M) (i := first + (last - first + 1) / 2) (by omega)
    obtain ⟨z, hz⟩ := at?_ge (l := M) (i := last) (by omega)
    have m3 : ∀ u, u ∈ [x, y, z] → u ∈ M := by
      intro u hu
      simp only [List.mem_cons, List.not_mem_nil, or_false] at hu
      rcases hu with rfl | rfl | rfl
      · exact mem hx
      · exact mem hy
      · exact mem hz
    by_cases c3 : last - first + 1 = 3
    · obtain ⟨l', e, s⟩ := run_doPivot_any cmp (l := M) (first := first)
        (mid := first + (last - first + 1) / 2) (last := last) h0 (by omega) (by omega) h1
      have len1 := s.length
      rw [ns_three c1 c3, ns_three (by omega) (by omega), q1, q2, q3]
      exact .bind e (like_doPivot h h0 (by omega) (by omega) hx hy hz fun u v hu hv => hA u (m3 u hu) v (m3 v hv))
        (.bind (run_swapValue (by omega) (by omega)) (like_swapValue (by omega) (by omega)) (.pure (r := id) () _))
    · rw [ns_big (by omega), ns_big (by omega)]
      obtain ⟨m, l1, e1, s1, m1, m2⟩ := run_partitionStep_any cmp h0 (by omega) h1
      have len1 := s1.length
      have hA1 : ∀ u ∈ l1, ∀ v ∈ l1, Agree cmp cmp' σ u v := fun u hu v hv => hA u (s1.perm.mem_iff.1 hu) v (s1.perm.mem_iff.1 hv)
      refine .bind e1 (like_partitionStep h h0 (by omega) hx hy hz (fun u v hu hv => hA u (m3 u hu) v (m3 v hv)) ?_) ?_
      · rintro pv ⟨a, c, hp, -, -⟩ u hu
        exact hA u hu pv (m3 pv (hp.mem_iff.1 (by simp)))
      · have q5 : (P.length : Int) + m - (P.length + first) = m - first := by omega
        rw [q5]
        by_cases c : n ≤ m - first
        · rw [if_pos c, if_pos c]
          exact ih l1 first m n h0 (by omega) (by omega) (by omega) hA1
        · rw [if_neg c, if_neg c]
          refine .bind (run_next_lt (by omega)) (like_next (by omega)) ?_
          exact ih l1 (m + 1) last _ (by omega) (by omega) (by omega) (by omega) hA1

end
end GoSTL.Algo
