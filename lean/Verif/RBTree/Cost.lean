import Verif.RBTree.Props
import Verif.Basic.Fuel
/-!
# C63: the operations of the tree take logarithmically many steps
-/
namespace GoSTL.RB
open T Res
variable {K V : Type}

/-! ## More budget never changes a result -/

theorem insertDescend_mono (cmp : K → K → Int) (t : Tree K V) (key : K) : ∀ (f g : Nat) x y, f ≤ g →
    FLe (t.insertDescend cmp key f x y) (t.insertDescend cmp key g x y) := by
  intro f
  induction f with
  | zero => intro g x y _; exact .out _
  | succ f ih =>
    intro g x y h
    obtain ⟨g, rfl⟩ : ∃ k, g = k + 1 := ⟨g - 1, by omega⟩
    cases x with
    | none => exact .refl _
    | some i =>
      simp only [Tree.insertDescend]
      exact .bind (.refl _) fun n => .ite (ih g _ _ (by omega)) (ih g _ _ (by omega))

theorem insertFixupLoop_mono : ∀ (f g : Nat) (t : Tree K V) z, f ≤ g → FLe (Tree.insertFixupLoop f t z) (Tree.insertFixupLoop g t z) := by
  intro f
  induction f with
  | zero => intro g t z _; exact .out _
  | succ f ih =>
    intro g t z h
    obtain ⟨g, rfl⟩ : ∃ k, g = k + 1 := ⟨g - 1, by omega⟩
    simp only [Tree.insertFixupLoop]
    refine .bind (.refl _) fun zn => ?_
    split
    · exact .refl _
    refine .bind (.refl _) fun pn => .ite (.refl _) ?_
    refine .bind (.refl _) fun g' => .bind (.refl _) fun gn => .ite ?_ ?_
    · refine .bind (.refl _) fun yb => ?_
      split
      · exact ih _ _ _ (by omega)
      · refine .bind (.refl _) fun tz => .bind (.refl _) fun p => .bind (.refl _) fun g2 => .bind (.refl _) fun t2 => ih _ _ _ (by omega)
    · refine .bind (.refl _) fun yb => ?_
      split
      · exact ih _ _ _ (by omega)
      · refine .bind (.refl _) fun tz => .bind (.refl _) fun p => .bind (.refl _) fun g2 => .bind (.refl _) fun t2 => ih _ _ _ (by omega)

theorem deleteFixupLoop_mono : ∀ (f g : Nat) (t : Tree K V) x p, f ≤ g → FLe (Tree.deleteFixupLoop f t x p) (Tree.deleteFixupLoop g t x p) := by
  intro f
  induction f with
  | zero => intro g t x p _; exact .out _
  | succ f ih =>
    intro g t x p h
    obtain ⟨g, rfl⟩ : ∃ k, g = k + 1 := ⟨g - 1, by omega⟩
    simp only [Tree.deleteFixupLoop]
    refine .ite (.refl _) (.bind (.refl _) fun xb => .ite (.refl _) (.bind (.refl _) fun p1 => .bind (.refl _) fun p2 => .bind (.refl _) fun pn => .ite ?_ ?_))
    · exact .bind (.refl _) fun tx => ih _ _ _ _ (by omega)
    · exact .bind (.refl _) fun tx => ih _ _ _ _ (by omega)

theorem minimumLoop_mono (t : Tree K V) : ∀ (f g : Nat) i, f ≤ g → FLe (t.minimumLoop f i) (t.minimumLoop g i) := by
  intro f
  induction f with
  | zero => intro g i _; exact .out _
  | succ f ih =>
    intro g i h
    obtain ⟨g, rfl⟩ : ∃ k, g = k + 1 := ⟨g - 1, by omega⟩
    simp only [Tree.minimumLoop]
    refine .bind (.refl _) fun n => ?_
    split
    · exact .refl _
    · exact ih _ _ (by omega)

theorem succClimb_mono (t : Tree K V) : ∀ (f g : Nat) x y, f ≤ g → FLe (t.succClimb f x y) (t.succClimb g x y) := by
  intro f
  induction f with
  | zero => intro g x y _; exact .out _
  | succ f ih =>
    intro g x y h
    obtain ⟨g, rfl⟩ : ∃ k, g = k + 1 := ⟨g - 1, by omega⟩
    cases y with
    | none => exact .refl _
    | some y =>
      simp only [Tree.succClimb]
      exact .bind (.refl _) fun n => .ite (ih _ _ _ (by omega)) (.refl _)

theorem successorB_mono (t : Tree K V) {f g : Nat} (h : f ≤ g) (x : Id) : FLe (Tree.successorB f t x) (Tree.successorB g t x) := by
  simp only [Tree.successorB]
  refine .bind (.refl _) fun n => ?_
  split
  · exact .bind (minimumLoop_mono t f g _ h) fun _ => .refl _
  · exact succClimb_mono t f g _ _ h

theorem insertB_mono (cmp : K → K → Int) (t : Tree K V) (key : K) (value : V) {f g : Nat} (h : f ≤ g) :
    FLe (Tree.insertB f cmp t key value) (Tree.insertB g cmp t key value) := by
  simp only [Tree.insertB]
  refine .bind (insertDescend_mono cmp t key f g _ _ h) fun y => ?_
  split
  · exact .refl _
  · refine .bind (.refl _) fun yn => .bind (.refl _) fun zn => ?_
    simp only [Tree.insertFixup]
    exact .bind (insertFixupLoop_mono f g _ _ h) fun _ => .refl _

theorem deleteB_mono (t : Tree K V) (n : Option Id) {f g : Nat} (h : f ≤ g) : FLe (Tree.deleteB f t n) (Tree.deleteB g t n) := by
  cases n with
  | none => exact .refl _
  | some z =>
    simp only [Tree.deleteB]
    refine .bind (.refl _) fun zn => .bind (.ite (.bind (successorB_mono t h z) fun _ => .refl _) (.refl _)) fun y => ?_
    refine .bind (.refl _) fun yn => .bind (.refl _) fun t1 => .bind (.refl _) fun yn => .bind (.ite ?_ (.refl _)) fun t2 => .refl _
    simp only [Tree.deleteFixup]
    exact .bind (deleteFixupLoop_mono f g _ _ _ h) fun _ => .refl _

/-- With `N` above the height of the tree, more budget makes no difference to the bound searches. -/
theorem bounds_budget (cmp : K → K → Int) (s : Tree K V) (key : K) : ∀ (t : T K V) (c : Ctx K V) (f g : Nat), Reps s (plug c t) → t.height < f → t.height < g →
    s.lowerBoundFrom cmp key f t.rootId = s.lowerBoundFrom cmp key g t.rootId ∧
    s.upperBoundFrom cmp key f t.rootId = s.upperBoundFrom cmp key g t.rootId := by
  intro t
  induction t with
  | leaf =>
    intro c f g _ hf hg
    obtain ⟨f, rfl⟩ : ∃ k, f = k + 1 := ⟨f - 1, by omega⟩
    obtain ⟨g, rfl⟩ : ∃ k, g = k + 1 := ⟨g - 1, by omega⟩
    exact ⟨rfl, rfl⟩
  | node l i b k v r ihl ihr =>
    intro c f g hs hf hg
    obtain ⟨f, rfl⟩ : ∃ k, f = k + 1 := ⟨f - 1, by omega⟩
    obtain ⟨g, rfl⟩ : ∃ k, g = k + 1 := ⟨g - 1, by omega⟩
    simp only [T.height] at hf hg
    have h1 := ihl (.L i b k v r :: c) f g hs (by omega) (by omega)
    have h2 := ihr (.R l i b k v :: c) f g hs (by omega) (by omega)
    simp only [Tree.lowerBoundFrom, Tree.upperBoundFrom, rootId_node, hs.node_eq, Res.ok_bind, h1, h2, and_self]

theorem height_log {s : Tree K V} {t : T K V} {es : List (Id × K × V)} (h2 : RBT t) (h3 : t.entries = es) (h4 : s.size = es.length) :
    t.height ≤ 2 * Nat.log2 (s.size.toNat + 1) := by
  subst h3
  obtain ⟨n, hn⟩ := h2.2.2
  have h6 := hn.height_le h2.2.1
  rw [h2.1] at h6
  have h7 := hn.size_ge
  rw [h4]
  have h8 : n ≤ Nat.log2 (t.entries.length + 1) := (Nat.le_log2 (by simp)).2 h7
  simp at h6 ⊢
  omega

/-- C63: on a tree of `n` entries, whatever the history, no loop of `Insert`, `Delete`, of the bound searches (and so of `Find`/`FindNode`), of `Next` and of
`Prev` makes more than `2·log2(n+1) + 1` rounds: with that budget (or any larger one) each returns what it returns without a limit. -/
theorem C63_rbtree_logarithmic {cmp : K → K → Int} {s : Tree K V} (h : Reachable cmp s) {N : Nat} (hN : 2 * Nat.log2 (s.size.toNat + 1) < N) :
    (∀ k v, ∃ s', Tree.insertB N cmp s k v = .ok s' ∧ s.insert cmp k v = .ok s') ∧
    (∀ i, Linked s i → ∃ s', Tree.deleteB N s (some i) = .ok s' ∧ s.delete (some i) = .ok s') ∧
    (∀ k, s.lowerBoundFrom cmp k N s.root = s.findLowerBoundNode cmp k ∧ s.upperBoundFrom cmp k N s.root = s.findUpperBoundNode cmp k) ∧
    (∀ i, Linked s i → ∃ j, Tree.successorB N s i = .ok j ∧ s.successor i = .ok j) ∧
    (∀ i, Linked s i → ∃ j, Tree.presuccessorB N s i = .ok j ∧ s.presuccessor i = .ok j) := by
  obtain ⟨es, t, h1, h2, h3, h4⟩ := reachable_holds h
  have hh := height_log h2 h3 h4
  have hf := h1.height_lt
  refine ⟨fun k v => ?_, fun i hi => ?_, fun k => ?_, fun i hi => ?_, fun i hi => ?_⟩
  · have a := insertB_spec cmp h1 h2 k v (N := min N s.fuel) (by omega)
    obtain ⟨s', _, _, _, e, -⟩ := a
    exact ⟨s', (insertB_mono cmp s k v (Nat.min_le_left _ _)).eq_ok e, (insertB_mono cmp s k v (Nat.min_le_right _ _)).eq_ok e⟩
  · have hi := (linked_iff h1 i).1 hi
    rw [T.ids_eq, List.mem_map] at hi
    obtain ⟨⟨i, k, v⟩, hm, rfl⟩ := hi
    obtain ⟨A, B, hAB⟩ := List.append_of_mem hm
    obtain ⟨s', _, e, -⟩ := deleteB_spec (N := min N s.fuel) (by omega) h1 h2 hAB
    exact ⟨s', (deleteB_mono s _ (Nat.min_le_left _ _)).eq_ok e, (deleteB_mono s _ (Nat.min_le_right _ _)).eq_ok e⟩
  · rw [h1.root, Tree.findLowerBoundNode, Tree.findUpperBoundNode, h1.root]
    exact bounds_budget cmp s k t [] N s.fuel h1 (by omega) (by omega)
  · have hi := (linked_iff h1 i).1 hi
    obtain ⟨c, l, b, k, v, r, rfl⟩ := exists_zipper hi
    exact ⟨_, successorB_zip h1 (by omega), successor_zip h1⟩
  · have hi := (linked_iff h1 i).1 hi
    obtain ⟨c, l, b, k, v, r, rfl⟩ := exists_zipper hi
    exact ⟨_, presuccessorB_zip h1 (by omega), presuccessor_zip h1⟩

/-- A tree of three entries: 5 rounds are enough. -/
example : ∃ s : Tree Int Bool, Reachable intCmp s ∧ 2 * Nat.log2 (s.size.toNat + 1) < 5 := by
  have h0 : ∃ s1 s2 s3 : Tree Int Bool, Tree.insert intCmp Tree.new 1 true = .ok s1 ∧ Tree.insert intCmp s1 2 true = .ok s2 ∧
      Tree.insert intCmp s2 3 true = .ok s3 ∧ s3.size = 3 := ⟨_, _, _, rfl, rfl, rfl, rfl⟩
  obtain ⟨s1, s2, s3, e1, e2, e3, e4⟩ := h0
  exact ⟨s3, .insert (.insert (.insert .new e1) e2) e3, by rw [e4]; decide⟩

/-- `C63_rbtree_logarithmic` on the tree that holds 1, 2, 3: no loop of `Insert` runs more than 5 times. -/
example : ∃ s : Tree Int Bool, s.size = 3 ∧ ∀ k v, ∃ s', Tree.insertB 5 intCmp s k v = .ok s' ∧ s.insert intCmp k v = .ok s' := by
  have h0 : ∃ s1 s2 s3 : Tree Int Bool, Tree.insert intCmp Tree.new 1 true = .ok s1 ∧ Tree.insert intCmp s1 2 true = .ok s2 ∧
      Tree.insert intCmp s2 3 true = .ok s3 ∧ s3.size = 3 := ⟨_, _, _, rfl, rfl, rfl, rfl⟩
  obtain ⟨s1, s2, s3, e1, e2, e3, e4⟩ := h0
  exact ⟨s3, e4, (C63_rbtree_logarithmic (.insert (.insert (.insert .new e1) e2) e3) (N := 5) (by rw [e4]; decide)).1⟩

end GoSTL.RB
