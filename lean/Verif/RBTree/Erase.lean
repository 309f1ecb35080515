import Verif.RBTree.Nav
/-!
# `Delete`
-/
namespace GoSTL.RB
open T
variable {K V : Type}

theorem spliceOut_heap {s : Tree K V} {c : Ctx K V} {l r x : T K V} {y b k v}
    (hs : Reps s (plug c (.node l y b k v r))) (hx : (x = l ∧ r = .leaf) ∨ (x = r ∧ l = .leaf)) :
    ∃ s', s.spliceOut y x.rootId (parentId c) = .ok s' ∧ s'.size = s.size ∧ s'.next = s.next ∧
      (s'.root = if c = [] then x.rootId else s.root) ∧
      (∀ j, x.rootId = some j → s'.heap j = (s.heap j).map fun n => { n with parent := parentId c }) ∧
      (∀ f c', c = f :: c' → s'.heap f.id = (s.heap f.id).map fun n => f.sel n x.rootId) ∧
      (∀ j, x.rootId ≠ some j → parentId c ≠ some j → s'.heap j = s.heap j) := by
  obtain ⟨h1, h2, h3, h4, h5⟩ := hs.split
  have xm : ∀ j ∈ x.ids, j ∈ (T.node l y b k v r).ids := by
    intro j hj; rcases hx with ⟨rfl, -⟩ | ⟨rfl, -⟩ <;> simp [hj]
  have hxc : ∀ j, x.rootId = some j → parentId c ≠ some j := by
    intro j h h'; exact h5 j (xm j (rootId_mem h)) j (parentId_mem h') rfl
  rcases c with _ | ⟨f, c⟩
  · cases hxr : x.rootId with
    | none => simp [Tree.spliceOut]
    | some j => simp [Tree.spliceOut, Tree.setParent]; grind
  · cases f with
    | L i bi ki vi r' =>
      obtain ⟨h2, -, -⟩ := h2
      simp only [parentId_cons, Frame.id_L, rootId_node] at hxc h2
      cases hxr : x.rootId with
      | none => simp [Tree.spliceOut, Tree.node, h2, Frame.sel, Tree.setLeft]; grind
      | some j =>
        have hji := hxc j hxr
        have n1 : i ≠ j := by simpa using hji
        simp [Tree.spliceOut, Tree.node, h2, Frame.sel, Tree.setLeft, Tree.setParent, n1, n1.symm]; grind
    | R l' i bi ki vi =>
      obtain ⟨h2, -, -⟩ := h2
      have hly : l'.rootId ≠ some y := by
        intro h'; exact h5 y (by simp) y (by simp [rootId_mem h']) rfl
      simp only [parentId_cons, Frame.id_R, rootId_node] at hxc h2
      cases hxr : x.rootId with
      | none => simp [Tree.spliceOut, Tree.node, h2, Frame.sel, Tree.setRight, hly]; grind
      | some j =>
        have hji := hxc j hxr
        have n1 : i ≠ j := by simpa using hji
        simp [Tree.spliceOut, Tree.node, h2, Frame.sel, Tree.setRight, Tree.setParent, n1, n1.symm, hly]; grind

theorem spliceOut_spec {s : Tree K V} {c : Ctx K V} {l r x : T K V} {y b k v}
    (hs : Reps s (plug c (.node l y b k v r))) (hx : (x = l ∧ r = .leaf) ∨ (x = r ∧ l = .leaf)) :
    ∃ s', s.spliceOut y x.rootId (parentId c) = .ok s' ∧ Reps s' (plug c x) ∧ s'.heap y = s.heap y ∧
      s'.size = s.size ∧ s'.next = s.next := by
  obtain ⟨s', e, g1, g2, g3, g4, g5, g6⟩ := spliceOut_heap hs hx
  obtain ⟨h1, h2, h3, h4, h5⟩ := hs.split
  have xm : ∀ j ∈ x.ids, j ∈ (T.node l y b k v r).ids := by
    intro j hj; rcases hx with ⟨rfl, -⟩ | ⟨rfl, -⟩ <;> simp [hj]
  have xn : x.ids.Nodup := by
    rcases hx with ⟨rfl, -⟩ | ⟨rfl, -⟩ <;>
      (simp only [T.ids, List.nodup_append, List.nodup_cons] at h3; grind)
  have xr : Rep s.heap (some y) x := by
    rcases hx with ⟨rfl, -⟩ | ⟨rfl, -⟩
    · exact h1.2.1
    · exact h1.2.2
  have yx : y ∉ x.ids := by
    rcases hx with ⟨rfl, -⟩ | ⟨rfl, -⟩ <;>
      (simp only [T.ids, List.nodup_append, List.nodup_cons, List.mem_cons] at h3; grind)
  refine ⟨s', e, hs.replace g3 ?_ ?_ xn xm g2, ?_, g1, g2⟩
  · refine xr.reparent xn g4 fun j hj hr => g6 j hr ?_
    intro h; exact h5 j (xm j hj) j (parentId_mem h) rfl
  · refine h2.rehole h4 ?_ ?_
    · intro f c' hc; rw [g5 f c' hc]; cases f <;> rfl
    · intro j hj hp; exact g6 j (fun h => h5 j (xm j (rootId_mem h)) j hj rfl) hp
  · exact g6 y (fun h => yx (rootId_mem h)) (fun h => h5 y (by simp) y (parentId_mem h) rfl)

/-- The black-height bookkeeping of the removal followed by the fix-up. -/
theorem removeFix_spec {B : Nat} {s : Tree K V} {c : Ctx K V} {x : T K V} {b : Bool} {n : Nat}
    (hs : Reps s (plug c x)) (hx : BH x n) (nx : NoRR x) (hc : CtxOK c (if b then n + 1 else n))
    (hb : b = false → headBlack c = true) (hB : c.length < B) :
    ∃ s' t', (if b then Tree.deleteFixup B s x.rootId (parentId c) else pure s) = .ok s' ∧ Reps s' t' ∧
      t'.entries = (plug c x).entries ∧ RBT t' ∧ s'.size = s.size ∧ s'.next = s.next := by
  cases b with
  | true => exact deleteFixup_spec hs hx nx hc hB
  | false =>
    have hh := hb rfl
    have := plug_ok hc hx nx (.inr (.inl hh))
    refine ⟨s, _, rfl, hs, rfl, ⟨this.2.2 ?_, this.1, this.2.1⟩, rfl, rfl⟩
    rintro rfl; simp at hh

theorem minimumLoop_sub (s : Tree K V) (fuel : Nat) : ∀ (c : Ctx K V) (l r : T K V) (i b k v),
    (T.node l i b k v r).height < fuel → Reps s (plug c (.node l i b k v r)) →
    ∃ d i' b' k' v' r', s.minimumLoop fuel i = .ok i' ∧ T.node l i b k v r = plug d (.node .leaf i' b' k' v' r') ∧
      leftEntries d = [] := by
  induction fuel with
  | zero => intro c l r i b k v h; omega
  | succ fuel ih =>
    intro c l r i b k v hh hs
    cases l with
    | leaf => exact ⟨[], i, b, k, v, r, by simp [Tree.minimumLoop, hs.node_eq], rfl, rfl⟩
    | node ll li lb lk lv lr =>
      obtain ⟨d, i', b', k', v', r', h1, h2, h3⟩ := ih (.L i b k v r :: c) ll lr li lb lk lv
        (by simp at hh ⊢; omega) hs
      refine ⟨d ++ [.L i b k v r], i', b', k', v', r', by simp [Tree.minimumLoop, hs.node_eq, h1], ?_, ?_⟩
      · rw [plug_append, ← h2]; rfl
      · clear h2
        induction d with
        | nil => rfl
        | cons f d ihd => cases f <;> simp_all

theorem CtxOK_append_congr {d c1 c2 : Ctx K V} (h : ∀ m, CtxOK c1 m ↔ CtxOK c2 m) (hb : headBlack c1 = headBlack c2)
    (n : Nat) : CtxOK (d ++ c1) n ↔ CtxOK (d ++ c2) n := by
  induction d generalizing n with
  | nil => exact h n
  | cons f d ih =>
    have hh : headBlack (d ++ c1) = headBlack (d ++ c2) := by cases d <;> simp [hb]
    cases f <;> simp [CtxOK, ih, hh]

theorem delete_le_one {N : Nat} {s : Tree K V} {c : Ctx K V} {l r x : T K V} {z b k v} (hN : (plug c (.node l z b k v r)).height < N)
    (hs : Reps s (plug c (.node l z b k v r))) (hrb : RBT (plug c (.node l z b k v r)))
    (hx : (x = l ∧ r = .leaf) ∨ (x = r ∧ l = .leaf)) :
    ∃ s' t', Tree.deleteB N s (some z) = .ok s' ∧ Reps s' t' ∧ RBT t' ∧ t'.entries = leftEntries c ++ x.entries ++ rightEntries c ∧
      s'.size = s.size - 1 ∧ s'.next = s.next := by
  obtain ⟨s1, e1, hs1, hy1, z1, z2⟩ := spliceOut_spec hs hx
  obtain ⟨n, h1, ⟨m, h2, h2', h3⟩, ⟨h4, h4', h4''⟩, h5⟩ := hrb.zip
  have hxm : BH x m := by rcases hx with ⟨rfl, -⟩ | ⟨rfl, -⟩ <;> assumption
  have hxn : NoRR x := by rcases hx with ⟨rfl, -⟩ | ⟨rfl, -⟩ <;> assumption
  obtain ⟨s2, t2, e2, g1, g2, g3, g4, g5⟩ := removeFix_spec (b := b) hs1 hxm hxn (by rw [← h3]; exact h1)
    (fun hb => by subst hb; simpa using h5) (B := N) (by have := plug_height c (.node l z b k v r); omega)
  refine ⟨{ s2 with size := s2.size - 1 }, t2, ?_, ⟨g1.root, g1.rep, g1.nodup, g1.fresh⟩, g3, by rw [g2, plug_entries], 
    by simp [g4, z1], by simp [g5, z2]⟩
  have hc : ¬ (l.rootId.isSome = true ∧ r.rootId.isSome = true) := by
    rcases hx with ⟨-, rfl⟩ | ⟨-, rfl⟩ <;> simp
  have hxi : (if l.rootId.isSome = true then l.rootId else r.rootId) = x.rootId := by
    rcases hx with ⟨rfl, rfl⟩ | ⟨rfl, rfl⟩
    · cases x <;> simp
    · simp
  have hn1 : s1.node z = .ok ⟨parentId c, l.rootId, r.rootId, b, k, v⟩ := by
    simp [Tree.node, hy1, hs.lookup]
  simp only [Tree.deleteB, hs.node_eq, Res.ok_bind, hc, if_false, Res.pure_eq, hxi, e1, hn1, ne_eq, not_true]
  simp only [Res.pure_eq] at e2
  rw [e2]; simp

theorem delete_two {N : Nat} {s : Tree K V} {c : Ctx K V} {l r : T K V} {z b k v} (hN : (plug c (.node l z b k v r)).height < N)
    (hs : Reps s (plug c (.node l z b k v r))) (hrb : RBT (plug c (.node l z b k v r)))
    (hl : l ≠ .leaf) (hr : r ≠ .leaf) :
    ∃ s' t' y yk yv B, Tree.deleteB N s (some z) = .ok s' ∧ Reps s' t' ∧ RBT t' ∧ r.entries = (y, yk, yv) :: B ∧
      t'.entries = leftEntries c ++ l.entries ++ (z, yk, yv) :: (B ++ rightEntries c) ∧
      s'.size = s.size - 1 ∧ s'.next = s.next := by
  have hsuc := successorB_zip hs hN
  cases r with
  | leaf => exact absurd rfl hr
  | node rl ri rb rk rv rr =>
  have hs' : Reps s (plug (.R l z b k v :: c) (.node rl ri rb rk rv rr)) := hs
  have hlen' : _ ≤ (plug c (.node l z b k v (.node rl ri rb rk rv rr))).height := plug_height (.R l z b k v :: c) (.node rl ri rb rk rv rr)
  obtain ⟨d, y, yb, yk, yv, yr, h1, h2, h3⟩ :=
    minimumLoop_sub s N (.R l z b k v :: c) rl rr ri rb rk rv (by omega) hs'
  rw [h2] at hs' hs hrb hsuc hN
  have hs1 : Reps s (plug (d ++ .R l z b k v :: c) (.node .leaf y yb yk yv yr)) := by
    rw [plug_append]; exact hs
  have hrb1 : RBT (plug (d ++ .R l z b k v :: c) (.node .leaf y yb yk yv yr)) := by
    rw [plug_append]; exact hrb
  have hent : (plug d (.node .leaf y yb yk yv yr)).entries = (y, yk, yv) :: (plug d yr).entries := by
    simp [plug_entries, h3]
  obtain ⟨s2, e2, hs2, hy2, z1, z2⟩ := spliceOut_spec hs1 (.inr ⟨rfl, rfl⟩)
  obtain ⟨n, g1, ⟨m, -, g2, g3⟩, ⟨-, -, g4⟩, g5⟩ := hrb1.zip
  have hzy : y ≠ z := by
    intro h
    exact hs1.split.2.2.2.2 y (by simp) y (by
      rw [h]; clear * -
      induction d with
      | nil => simp
      | cons f d ih => simp [ih]) rfl
  have hs2' : Reps s2 (plug c (.node l z b k v (plug d yr))) := by rw [plug_append] at hs2; exact hs2
  have hs3 := hs2'.setKV yk yv
  have hs4 : Reps (s2.setKV z yk yv) (plug (d ++ .R l z b yk yv :: c) yr) := by rw [plug_append]; exact hs3
  have hcc : CtxOK (d ++ .R l z b yk yv :: c) (if yb = true then m + 1 else m) := by
    rw [← g3]; exact (CtxOK_append_congr (c1 := .R l z b k v :: c) (c2 := .R l z b yk yv :: c) (fun m => by simp [CtxOK]) rfl n).1 g1
  have hhb : headBlack (d ++ .R l z b yk yv :: c) = headBlack (d ++ .R l z b k v :: c) := by cases d <;> simp
  have hpi : parentId (d ++ .R l z b yk yv :: c) = parentId (d ++ .R l z b k v :: c) := by cases d <;> simp
  obtain ⟨s5, t5, e5, k1, k2, k3, k4, k5⟩ := removeFix_spec (b := yb) hs4 g2 g4 hcc
    (fun hb => by subst hb; rw [hhb]; simpa using g5) (B := N) (by
      have := plug_height (d ++ .R l z b k v :: c) (.node .leaf y yb yk yv yr)
      rw [plug_append] at this
      simp only [List.length_append, List.length_cons, plug] at this ⊢
      have h' : (plug c (Frame.plug (.R l z b k v) (plug d (.node .leaf y yb yk yv yr)))).height < N := hN
      omega)
  refine ⟨{ s5 with size := s5.size - 1 }, t5, y, yk, yv, (plug d yr).entries, ?_,
    ⟨k1.root, k1.rep, k1.nodup, k1.fresh⟩, k3, by rw [h2, hent], ?_, ?_, by simp [k5, Tree.setKV, z2]⟩
  · have hn2 : s2.node y = .ok ⟨parentId (d ++ .R l z b k v :: c), none, yr.rootId, yb, yk, yv⟩ := by
      simp [Tree.node, hy2, hs1.lookup]
    have hlr : l.rootId.isSome = true := by cases l <;> simp at hl ⊢
    have hrr : (plug d (.node .leaf y yb yk yv yr)).rootId.isSome = true := by rw [← h2]; simp
    rw [hent] at hsuc
    simp only [List.cons_append, hd_cons] at hsuc
    rw [hpi] at e5
    simp only [Tree.deleteB, hs.node_eq, Res.ok_bind, hlr, hrr, and_self, if_true, hsuc, Res.ofOption_some,
      hs1.node_eq, Option.isSome_none, Bool.false_eq_true, if_false, rootId_leaf, e2, hn2, ne_eq, hzy, not_false_eq_true]
    rw [e5]; rfl
  · rw [k2, plug_append]; simp [plug_entries, List.append_assoc]
  · simp [k4, Tree.setKV, z1]

/-- `Delete` of a node of the tree. Either the node itself disappears, or (two children) its successor's node
disappears and the node takes over the successor's key and value. In both cases the in-order sequence of
key/value pairs loses exactly the deleted entry. -/
theorem deleteB_spec {N : Nat} {s : Tree K V} {t : T K V} (hN : t.height < N) (hs : Reps s t) (hrb : RBT t) {A B z k v}
    (h : t.entries = A ++ (z, k, v) :: B) :
    ∃ s' t', Tree.deleteB N s (some z) = .ok s' ∧ Reps s' t' ∧ RBT t' ∧
      (t'.entries = A ++ B ∨ ∃ y yk yv B', B = (y, yk, yv) :: B' ∧ t'.entries = A ++ (z, yk, yv) :: B') ∧
      s'.size = s.size - 1 ∧ s'.next = s.next := by
  obtain ⟨c, l, b, r, rfl, rfl, rfl⟩ := hs.zip_of_split h
  by_cases hl : l = .leaf
  · obtain ⟨s', t', e, h1, h2, h3, h4⟩ := delete_le_one hN hs hrb (x := r) (.inr ⟨rfl, hl⟩)
    exact ⟨s', t', e, h1, h2, .inl (by rw [h3, hl]; simp), h4⟩
  by_cases hr : r = .leaf
  · obtain ⟨s', t', e, h1, h2, h3, h4⟩ := delete_le_one hN hs hrb (x := l) (.inl ⟨rfl, hr⟩)
    exact ⟨s', t', e, h1, h2, .inl (by rw [h3, hr]; simp), h4⟩
  obtain ⟨s', t', y, yk, yv, B, e, h1, h2, h3, h4, h5⟩ := delete_two hN hs hrb hl hr
  exact ⟨s', t', e, h1, h2, .inr ⟨y, yk, yv, B ++ rightEntries c, by simp [h3], h4⟩, h5⟩

theorem delete_spec {s : Tree K V} {t : T K V} (hs : Reps s t) (hrb : RBT t) {A B z k v}
    (h : t.entries = A ++ (z, k, v) :: B) :
    ∃ s' t', s.delete (some z) = .ok s' ∧ Reps s' t' ∧ RBT t' ∧
      (t'.entries = A ++ B ∨ ∃ y yk yv B', B = (y, yk, yv) :: B' ∧ t'.entries = A ++ (z, yk, yv) :: B') ∧
      s'.size = s.size - 1 ∧ s'.next = s.next := deleteB_spec hs.height_lt hs hrb h

end GoSTL.RB
