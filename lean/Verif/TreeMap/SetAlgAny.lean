import Verif.TreeMap.AnyCmp
/-!
# C71: set algebra with comparators that are not orders, or not the same

`Intersect`, `Union` and `Diff` compare with the comparator of the receiver; the code asks the caller to use the same one for both sets
(set.go:186, 210, 242). Here nothing is assumed of either comparator.
-/
namespace GoSTL.TreeMap
open GoSTL.RB

variable {K : Type}

/-- Key and successor of the entry an iterator stands at. -/
theorem Holds_at {s : Tree K Bool} {A B i k v} (h : Holds s (A ++ (i, k, v) :: B)) :
    iterKey s (some i) = .ok k ∧ iterNext s (some i) = .ok (hd B) := by
  obtain ⟨n, hn, rfl, rfl⟩ := h.node (i := i) (k := k) (v := v) (by simp)
  exact ⟨by simp [iterKey, hn], h.successor⟩

/-- `r` holds exactly the elements `L`, in some order. -/
def Keeps (r : Tree K Bool) (L : List K) : Prop := ∃ es, Holds r es ∧ (es.map (·.2.1)).Perm L

theorem Keeps.insert (cmp : K → K → Int) {r : Tree K Bool} {L} (h : Keeps r L) (k : K) : ∃ r', r.insert cmp k true = .ok r' ∧ Keeps r' (k :: L) := by
  obtain ⟨es, h1, h2⟩ := h
  obtain ⟨r', A, B, i, e, rfl, h'⟩ := h1.insert_split cmp k true
  refine ⟨r', e, _, h', ?_⟩
  simp only [List.map_append, List.map_cons] at h2 ⊢
  exact List.perm_middle.trans (h2.cons k)

theorem Keeps.perm {r : Tree K Bool} {L L'} (h : Keeps r L) (p : L.Perm L') : Keeps r L' := by
  obtain ⟨es, h1, h2⟩ := h; exact ⟨es, h1, h2.trans p⟩

theorem intersectLoop_any (cmp : K → K → Int) {s o : Tree K Bool} : ∀ (f : Nat) (A1 A2 B1 B2 : List (Id × K × Bool)) (r : Tree K Bool) (L : List K),
    Holds s (A1 ++ A2) → Holds o (B1 ++ B2) → Keeps r L → A2.length + B2.length < f →
    ∃ r' M, intersectLoop cmp s o f (hd A2) (hd B2) r = .ok r' ∧ Keeps r' (L ++ M) ∧ M.Sublist (A2.map (·.2.1)) ∧
      ∀ x ∈ M, ∃ y ∈ B2.map (·.2.1), cmp x y = 0 := by
  intro f
  induction f with
  | zero => intro _ _ _ _ _ _ _ _ _ h; omega
  | succ f ih =>
    intro A1 A2 B1 B2 r L h1 h2 h3 hf
    cases A2 with
    | nil => exact ⟨r, [], by simp [intersectLoop], by simpa using h3, List.Sublist.refl _, by simp⟩
    | cons a A2 =>
      cases B2 with
      | nil => exact ⟨r, [], by simp [intersectLoop], by simpa using h3, List.nil_sublist _, by simp⟩
      | cons b B2 =>
        obtain ⟨ia, ka, va⟩ := a
        obtain ⟨ib, kb, vb⟩ := b
        have ga := Holds_at h1
        have gb := Holds_at h2
        simp only [List.length_cons] at hf
        simp only [hd_cons, intersectLoop, ga.1, gb.1, Res.ok_bind]
        by_cases hz : cmp ka kb = 0
        · obtain ⟨r1, e1, h4⟩ := h3.insert cmp ka
          obtain ⟨r', M, e, h5, h6, h7⟩ := ih (A1 ++ [(ia, ka, va)]) A2 (B1 ++ [(ib, kb, vb)]) B2 r1 (ka :: L)
            (by simpa using h1) (by simpa using h2) h4 (by omega)
          simp only [hz, if_true, e1, ga.2, gb.2, Res.ok_bind]
          refine ⟨r', ka :: M, e, h5.perm (by simpa using List.perm_middle.symm), by simpa using h6, ?_⟩
          intro x hx
          rcases List.mem_cons.1 hx with rfl | hx
          · exact ⟨kb, by simp, hz⟩
          · obtain ⟨y, hy, h⟩ := h7 x hx; exact ⟨y, by simp only [List.map_cons, List.mem_cons]; exact .inr hy, h⟩
        · by_cases hl : cmp ka kb < 0
          · obtain ⟨r', M, e, h5, h6, h7⟩ := ih (A1 ++ [(ia, ka, va)]) A2 B1 ((ib, kb, vb) :: B2) r L
              (by simpa using h1) h2 h3 (by simp only [List.length_cons]; omega)
            simp only [hz, hl, if_true, if_false, ga.2, Res.ok_bind]
            exact ⟨r', M, e, h5, h6.cons _, h7⟩
          · obtain ⟨r', M, e, h5, h6, h7⟩ := ih A1 ((ia, ka, va) :: A2) (B1 ++ [(ib, kb, vb)]) B2 r L
              h1 (by simpa using h2) h3 (by simp only [List.length_cons]; omega)
            simp only [hz, hl, if_false, gb.2, Res.ok_bind]
            exact ⟨r', M, e, h5, h6, fun x hx => by
              obtain ⟨y, hy, h⟩ := h7 x hx; exact ⟨y, by simp only [List.map_cons, List.mem_cons]; exact .inr hy, h⟩⟩

theorem drainLoop_any (cmp : K → K → Int) {s : Tree K Bool} : ∀ (f : Nat) (A1 A2 : List (Id × K × Bool)) (r : Tree K Bool) (L : List K),
    Holds s (A1 ++ A2) → Keeps r L → A2.length < f →
    ∃ r', drainLoop cmp s f (hd A2) r = .ok r' ∧ Keeps r' (L ++ A2.map (·.2.1)) := by
  intro f
  induction f with
  | zero => intro _ _ _ _ _ _ h; omega
  | succ f ih =>
    intro A1 A2 r L h1 h3 hf
    cases A2 with
    | nil => exact ⟨r, by simp [drainLoop], by simpa using h3⟩
    | cons a A2 =>
      obtain ⟨ia, ka, va⟩ := a
      have ga := Holds_at h1
      obtain ⟨r1, e1, h4⟩ := h3.insert cmp ka
      obtain ⟨r', e, h5⟩ := ih (A1 ++ [(ia, ka, va)]) A2 r1 (ka :: L) (by simpa using h1) h4 (by simpa using hf)
      refine ⟨r', by simp only [hd_cons, drainLoop, ga.1, ga.2, e1, Res.ok_bind]; exact e, h5.perm ?_⟩
      simpa using List.perm_middle.symm

theorem unionLoop_any (cmp : K → K → Int) {s o : Tree K Bool} : ∀ (f : Nat) (A1 A2 B1 B2 : List (Id × K × Bool)) (r : Tree K Bool) (L : List K),
    Holds s (A1 ++ A2) → Holds o (B1 ++ B2) → Keeps r L → A2.length + B2.length < f →
    ∃ r' C1 C2 D1 D2 M N, unionLoop cmp s o f (hd A2) (hd B2) r = .ok (hd C2, hd D2, r') ∧ Keeps r' (L ++ M ++ N) ∧
      A2 = C1 ++ C2 ∧ B2 = D1 ++ D2 ∧ M = C1.map (·.2.1) ∧ N.Sublist (D1.map (·.2.1)) ∧
      ∀ y ∈ D1.map (·.2.1), y ∈ N ∨ ∃ x ∈ A2.map (·.2.1), cmp x y = 0 := by
  intro f
  induction f with
  | zero => intro _ _ _ _ _ _ _ _ _ h; omega
  | succ f ih =>
    intro A1 A2 B1 B2 r L h1 h2 h3 hf
    cases A2 with
    | nil => exact ⟨r, [], [], [], B2, [], [], by simp [unionLoop], by simpa using h3, rfl, rfl, rfl, List.Sublist.refl _, by simp⟩
    | cons a A2 =>
      cases B2 with
      | nil => exact ⟨r, [], a :: A2, [], [], [], [], by simp [unionLoop], by simpa using h3, rfl, rfl, rfl, List.Sublist.refl _, by simp⟩
      | cons b B2 =>
        obtain ⟨ia, ka, va⟩ := a
        obtain ⟨ib, kb, vb⟩ := b
        have ga := Holds_at h1
        have gb := Holds_at h2
        simp only [List.length_cons] at hf
        simp only [hd_cons, unionLoop, ga.1, gb.1, Res.ok_bind]
        by_cases hz : cmp ka kb = 0
        · obtain ⟨r1, e1, h4⟩ := h3.insert cmp ka
          obtain ⟨r', C1, C2, D1, D2, M, N, e, h5, rfl, rfl, rfl, h6, h7⟩ := ih (A1 ++ [(ia, ka, va)]) A2 (B1 ++ [(ib, kb, vb)]) B2 r1 (ka :: L)
            (by simpa using h1) (by simpa using h2) h4 (by omega)
          simp only [hz, if_true, e1, ga.2, gb.2, Res.ok_bind]
          refine ⟨r', (ia, ka, va) :: C1, C2, (ib, kb, vb) :: D1, D2, _, N, e, h5.perm ?_, rfl, rfl, rfl, h6.cons _, ?_⟩
          · simpa using List.perm_middle.symm
          · intro y hy
            rcases List.mem_cons.1 hy with rfl | hy
            · exact .inr ⟨ka, by simp, hz⟩
            · rcases h7 y hy with h | ⟨x, hx, h⟩
              · exact .inl h
              · exact .inr ⟨x, by simp only [List.map_cons, List.mem_cons]; exact .inr hx, h⟩
        · by_cases hl : cmp ka kb < 0
          · obtain ⟨r1, e1, h4⟩ := h3.insert cmp ka
            obtain ⟨r', C1, C2, D1, D2, M, N, e, h5, rfl, h8, rfl, h6, h7⟩ := ih (A1 ++ [(ia, ka, va)]) A2 B1 ((ib, kb, vb) :: B2) r1 (ka :: L)
              (by simpa using h1) h2 h4 (by simp only [List.length_cons]; omega)
            simp only [hz, hl, if_true, if_false, e1, ga.2, Res.ok_bind]
            refine ⟨r', (ia, ka, va) :: C1, C2, D1, D2, _, N, e, h5.perm ?_, rfl, h8, rfl, h6, ?_⟩
            · simpa using List.perm_middle.symm
            · intro y hy
              rcases h7 y hy with h | ⟨x, hx, h⟩
              · exact .inl h
              · exact .inr ⟨x, by simp only [List.map_cons, List.mem_cons]; exact .inr hx, h⟩
          · obtain ⟨r1, e1, h4⟩ := h3.insert cmp kb
            obtain ⟨r', C1, C2, D1, D2, M, N, e, h5, h8, rfl, rfl, h6, h7⟩ := ih A1 ((ia, ka, va) :: A2) (B1 ++ [(ib, kb, vb)]) B2 r1 (kb :: L)
              h1 (by simpa using h2) h4 (by simp only [List.length_cons]; omega)
            simp only [hz, hl, if_false, e1, gb.2, Res.ok_bind]
            refine ⟨r', C1, C2, (ib, kb, vb) :: D1, D2, _, kb :: N, e, h5.perm ?_, h8, rfl, rfl, by simpa using h6, ?_⟩
            · simpa using (List.perm_middle (l₁ := L ++ C1.map (·.2.1)) (l₂ := N) (a := kb)).symm
            · intro y hy
              rcases List.mem_cons.1 hy with rfl | hy
              · exact .inl (by simp)
              · rcases h7 y hy with h | h
                · exact .inl (by simp [h])
                · exact .inr h

theorem diffLoop_any (cmp : K → K → Int) {s o : Tree K Bool} : ∀ (f : Nat) (A1 A2 B1 B2 : List (Id × K × Bool)) (r : Tree K Bool) (L : List K),
    Holds s (A1 ++ A2) → Holds o (B1 ++ B2) → Keeps r L → A2.length + B2.length < f →
    ∃ r' C1 C2 M, diffLoop cmp s o f (hd A2) (hd B2) r = .ok (hd C2, r') ∧ Keeps r' (L ++ M) ∧
      A2 = C1 ++ C2 ∧ M.Sublist (C1.map (·.2.1)) ∧ ∀ x ∈ C1.map (·.2.1), x ∈ M ∨ ∃ y ∈ B2.map (·.2.1), cmp x y = 0 := by
  intro f
  induction f with
  | zero => intro _ _ _ _ _ _ _ _ _ h; omega
  | succ f ih =>
    intro A1 A2 B1 B2 r L h1 h2 h3 hf
    cases A2 with
    | nil => exact ⟨r, [], [], [], by simp [diffLoop], by simpa using h3, rfl, List.Sublist.refl _, by simp⟩
    | cons a A2 =>
      cases B2 with
      | nil => exact ⟨r, [], a :: A2, [], by simp [diffLoop], by simpa using h3, rfl, List.Sublist.refl _, by simp⟩
      | cons b B2 =>
        obtain ⟨ia, ka, va⟩ := a
        obtain ⟨ib, kb, vb⟩ := b
        have ga := Holds_at h1
        have gb := Holds_at h2
        simp only [List.length_cons] at hf
        simp only [hd_cons, diffLoop, ga.1, gb.1, Res.ok_bind]
        by_cases hz : cmp ka kb = 0
        · obtain ⟨r', C1, C2, M, e, h5, rfl, h6, h7⟩ := ih (A1 ++ [(ia, ka, va)]) A2 (B1 ++ [(ib, kb, vb)]) B2 r L
            (by simpa using h1) (by simpa using h2) h3 (by omega)
          simp only [hz, if_true, ga.2, gb.2, Res.ok_bind]
          refine ⟨r', (ia, ka, va) :: C1, C2, M, e, h5, rfl, h6.cons _, ?_⟩
          intro x hx
          rcases List.mem_cons.1 hx with rfl | hx
          · exact .inr ⟨kb, by simp, hz⟩
          · rcases h7 x hx with h | ⟨y, hy, h⟩
            · exact .inl h
            · exact .inr ⟨y, by simp only [List.map_cons, List.mem_cons]; exact .inr hy, h⟩
        · by_cases hl : cmp ka kb < 0
          · obtain ⟨r1, e1, h4⟩ := h3.insert cmp ka
            obtain ⟨r', C1, C2, M, e, h5, rfl, h6, h7⟩ := ih (A1 ++ [(ia, ka, va)]) A2 B1 ((ib, kb, vb) :: B2) r1 (ka :: L)
              (by simpa using h1) h2 h4 (by simp only [List.length_cons]; omega)
            simp only [hz, hl, if_true, if_false, e1, ga.2, Res.ok_bind]
            refine ⟨r', (ia, ka, va) :: C1, C2, ka :: M, e, h5.perm ?_, rfl, by simpa using h6, ?_⟩
            · simpa using List.perm_middle.symm
            · intro x hx
              rcases List.mem_cons.1 hx with rfl | hx
              · exact .inl (by simp)
              · rcases h7 x hx with h | h
                · exact .inl (by simp [h])
                · exact .inr h
          · obtain ⟨r', C1, C2, M, e, h5, h8, h6, h7⟩ := ih A1 ((ia, ka, va) :: A2) (B1 ++ [(ib, kb, vb)]) B2 r L
              h1 (by simpa using h2) h3 (by simp only [List.length_cons]; omega)
            simp only [hz, hl, if_false, gb.2, Res.ok_bind]
            refine ⟨r', C1, C2, M, e, h5, h8, h6, fun x hx => ?_⟩
            rcases h7 x hx with h | ⟨y, hy, h⟩
            · exact .inl h
            · exact .inr ⟨y, by simp only [List.map_cons, List.mem_cons]; exact .inr hy, h⟩

theorem Keeps.listing {r : Tree K Bool} {L : List K} (h : Keeps r L) :
    ∃ R, iterList r = .ok R ∧ (R.map (·.1)).Perm L ∧ size r = L.length ∧ r.isRbTree = .ok true := by
  obtain ⟨es, h1, h2⟩ := h
  have hk : HoldsAny r (es.map (·.2)) := ⟨es, h1, rfl⟩
  refine ⟨_, hk.kv.iterList, by simpa [Function.comp_def] using h2, ?_, h1.isRbTree⟩
  rw [hk.kv.size, ← h2.length_eq]; simp

/-- **C71** Set algebra between any two sets, whatever comparators they were built with, and whatever function the receiver's comparator is: the three methods
return without panic, the result is a well-formed set of its own that can be listed and counted, and
* `Intersect` holds only elements of the receiver, each at most as often as there, and only those with an equal one in the other set;
* `Union` holds every element of the receiver, plus elements of the other set; one that is missing has an equal one in the receiver;
* `Diff` holds only elements of the receiver; one that is missing has an equal one in the other set.
(Equal: the receiver's comparator answers 0. For a proper common order see `C45_set_algebra`.) -/
theorem C71_set_algebra (cmp cmp1 cmp2 : K → K → Int) (cs ds : List (TCall K Bool)) {s o : Tree K Bool} {A B : List (K × Bool)}
    (hs : callsTree cmp1 cs Tree.new = .ok s) (ho : callsTree cmp2 ds Tree.new = .ok o) (hA : iterList s = .ok A) (hB : iterList o = .ok B) :
    (∃ r R M, intersect cmp s o = .ok r ∧ iterList r = .ok R ∧ (R.map (·.1)).Perm M ∧ size r = M.length ∧ r.isRbTree = .ok true ∧
      M.Sublist (A.map (·.1)) ∧ ∀ x ∈ M, ∃ y ∈ B.map (·.1), cmp x y = 0) ∧
    (∃ r R N, union cmp s o = .ok r ∧ iterList r = .ok R ∧ (R.map (·.1)).Perm (A.map (·.1) ++ N) ∧ size r = (A.map (·.1) ++ N).length ∧ r.isRbTree = .ok true ∧
      N.Sublist (B.map (·.1)) ∧ ∀ y ∈ B.map (·.1), y ∈ N ∨ ∃ x ∈ A.map (·.1), cmp x y = 0) ∧
    (∃ r R M, diff cmp s o = .ok r ∧ iterList r = .ok R ∧ (R.map (·.1)).Perm M ∧ size r = M.length ∧ r.isRbTree = .ok true ∧
      M.Sublist (A.map (·.1)) ∧ ∀ x ∈ A.map (·.1), x ∈ M ∨ ∃ y ∈ B.map (·.1), cmp x y = 0) := by
  obtain ⟨s', A', e1, h1, -⟩ := callsTree_any (V := Bool) cmp1 cs (s := Tree.new) ⟨[], Holds.new, rfl⟩
  rw [hs] at e1; cases e1
  obtain ⟨o', B', e2, h2, -⟩ := callsTree_any (V := Bool) cmp2 ds (s := Tree.new) ⟨[], Holds.new, rfl⟩
  rw [ho] at e2; cases e2
  have := h1.kv.iterList
  rw [hA] at this; cases this
  have := h2.kv.iterList
  rw [hB] at this; cases this
  obtain ⟨xs, h1, rfl⟩ := h1
  obtain ⟨ys, h2, rfl⟩ := h2
  have l1 : xs.length < s.fuel := by have := h1.length_le; simp only [Tree.fuel]; omega
  have l2 : ys.length < o.fuel := by have := h2.length_le; simp only [Tree.fuel]; omega
  have hm : ∀ l : List (Id × K × Bool), (l.map (·.2)).map (·.1) = l.map (·.2.1) := by intro l; simp [Function.comp_def]
  have h0 : Keeps (Tree.new : Tree K Bool) [] := ⟨[], Holds.new, List.Perm.nil⟩
  rw [hm, hm]
  refine ⟨?_, ?_, ?_⟩
  · obtain ⟨r, M, e, k1, k2, k3⟩ := intersectLoop_any cmp (s.fuel + o.fuel) [] xs [] ys Tree.new [] h1 h2 h0 (by omega)
    obtain ⟨R, g1, g2, g3, g4⟩ := k1.listing
    exact ⟨r, R, M, by simp only [TreeMap.intersect, h1.first, h2.first, Res.ok_bind]; exact e, g1, g2, g3, g4, k2, k3⟩
  · obtain ⟨r, C1, C2, D1, D2, M, N, e, k1, rfl, rfl, rfl, k2, k3⟩ := unionLoop_any cmp (s.fuel + o.fuel) [] xs [] ys Tree.new [] h1 h2 h0 (by omega)
    obtain ⟨r1, e1, k4⟩ := drainLoop_any cmp s.fuel C1 C2 r _ h1 k1 (by simp at l1; omega)
    obtain ⟨r2, e2, k5⟩ := drainLoop_any cmp o.fuel D1 D2 r1 _ h2 k4 (by simp at l2; omega)
    have k6 : Keeps r2 ((C1 ++ C2).map (·.2.1) ++ (N ++ D2.map (·.2.1))) := k5.perm (by
      simp only [List.nil_append, List.map_append, List.append_assoc]
      refine List.Perm.append_left _ ?_
      rw [← List.append_assoc, ← List.append_assoc]
      exact List.Perm.append_right _ List.perm_append_comm)
    obtain ⟨R, g1, g2, g3, g4⟩ := k6.listing
    refine ⟨r2, R, N ++ D2.map (·.2.1), ?_, g1, g2, g3, g4, ?_, ?_⟩
    · simp only [TreeMap.union, h1.first, h2.first, Res.ok_bind, e, e1, e2]
    · rw [List.map_append]; exact k2.append (List.Sublist.refl _)
    · intro y hy
      rw [List.map_append, List.mem_append] at hy
      rcases hy with hy | hy
      · rcases k3 y hy with h | h
        · exact .inl (by simp [h])
        · exact .inr h
      · exact .inl (List.mem_append_right _ hy)
  · obtain ⟨r, C1, C2, M, e, k1, rfl, k2, k3⟩ := diffLoop_any cmp (s.fuel + o.fuel) [] xs [] ys Tree.new [] h1 h2 h0 (by omega)
    obtain ⟨r1, e1, k4⟩ := drainLoop_any cmp s.fuel C1 C2 r _ h1 k1 (by simp at l1; omega)
    obtain ⟨R, g1, g2, g3, g4⟩ := k4.listing
    refine ⟨r1, R, M ++ C2.map (·.2.1), ?_, g1, g2, g3, g4, ?_, ?_⟩
    · simp only [TreeMap.diff, h1.first, h2.first, Res.ok_bind, e, e1]
    · rw [List.map_append]; exact k2.append (List.Sublist.refl _)
    · intro x hx
      rw [List.map_append, List.mem_append] at hx
      rcases hx with hx | hx
      · rcases k3 x hx with h | h
        · exact .inl (by simp [h])
        · exact .inr h
      · exact .inl (List.mem_append_right _ hx)

/-- The price of two different orders: the set {1, 2} in increasing order and the set {3, 2, 1} in decreasing order have no common element according to
`Intersect`; with the same order they have two (`C45_set_algebra`). The operands meet the hypotheses of `C71_set_algebra`. -/
theorem C71_set_algebra_two_orders : ∃ s o r : Tree Int Bool,
    callsTree intCmp [.insertMulti 1 true, .insertMulti 2 true] Tree.new = .ok s ∧
    callsTree (fun x y => intCmp y x) [.insertMulti 1 true, .insertMulti 2 true, .insertMulti 3 true] Tree.new = .ok o ∧
    iterList s = .ok [(1, true), (2, true)] ∧ iterList o = .ok [(3, true), (2, true), (1, true)] ∧
    intersect intCmp s o = .ok r ∧ iterList r = .ok [] :=
  ⟨_, _, _, rfl, rfl, rfl, rfl, rfl, rfl⟩

end GoSTL.TreeMap
