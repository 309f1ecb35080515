import Verif.RBTree.Holds
import Mathlib.Tactic.Common
/-!
# Properties C34–C39 of the red-black tree
-/
namespace GoSTL.RB
open T
variable {K V : Type}

/-! ## From the representation to the pointer-level specification -/

theorem linked_iff {s : Tree K V} {t : T K V} (hs : Reps s t) (i : Id) : Linked s i ↔ i ∈ t.ids := by
  constructor
  · intro h
    induction h with
    | root h => rw [hs.root] at h; exact rootId_mem h
    | @left i n j _ hn hj ih =>
      obtain ⟨c, l, b, k, v, r, rfl⟩ := exists_zipper ih
      rw [hs.lookup] at hn
      simp at hn
      subst hn
      simp at hj
      exact mem_plug_ids.2 (.inl (by simp [rootId_mem hj]))
    | @right i n j _ hn hj ih =>
      obtain ⟨c, l, b, k, v, r, rfl⟩ := exists_zipper ih
      rw [hs.lookup] at hn
      simp at hn
      subst hn
      simp at hj
      exact mem_plug_ids.2 (.inl (by simp [rootId_mem hj]))
  · intro h
    obtain ⟨c, l, b, k, v, r, rfl⟩ := exists_zipper h
    clear h
    have key : ∀ (c : Ctx K V) (t : T K V) (i : Id), t.rootId = some i → Reps s (plug c t) → Linked s i := by
      intro c
      induction c with
      | nil => intro t i h hs; exact .root (by rw [hs.root]; exact h)
      | cons f c ih =>
        intro t i h hs
        cases f with
        | L j b k v r =>
          exact .left (ih (.node t j b k v r) j rfl hs) (Reps.lookup (c := c) hs) h
        | R l j b k v =>
          exact .right (ih (.node l j b k v t) j rfl hs) (Reps.lookup (c := c) hs) h
    exact key c _ i rfl hs

theorem path_spec {s : Tree K V} : ∀ (t : T K V) (par : Option Id) (n : Nat), Rep s.heap par t → BH t n → 
    ∀ len b, Path s t.rootId len b → b = n ∧ len ≤ t.height := by
  intro t
  induction t with
  | leaf =>
    intro par n _ hb len b hp
    simp [BH] at hb
    cases hp
    exact ⟨hb.symm, by simp⟩
  | node l i bl k v r ihl ihr =>
    intro par n hr hb len b hp
    obtain ⟨h1, h2, h3⟩ := hr
    obtain ⟨m, h4, h5, h6⟩ := hb
    rw [T.rootId_node] at hp
    cases hp with
    | left hn hp =>
      rw [h1] at hn
      cases hn
      obtain ⟨rfl, h7⟩ := ihl _ m h2 h4 _ _ hp
      refine ⟨by rw [h6]; cases bl <;> rfl, by simp; omega⟩
    | right hn hp =>
      rw [h1] at hn
      cases hn
      obtain ⟨rfl, h7⟩ := ihr _ m h3 h5 _ _ hp
      refine ⟨by rw [h6]; cases bl <;> rfl, by simp; omega⟩

theorem noRR_spec {s : Tree K V} {t : T K V} (hs : Reps s t) (hn : RBT t) {i : Id} {n : Node K V} (hi : Linked s i)
    (he : s.heap i = some n) (hred : n.black = false) : s.getColor n.left = .ok true ∧ s.getColor n.right = .ok true := by
  obtain ⟨c, l, b, k, v, r, rfl⟩ := exists_zipper ((linked_iff hs i).1 hi)
  rw [hs.lookup] at he
  simp at he
  subst he
  simp at hred
  subst hred
  obtain ⟨m, -, -, ⟨h1, -⟩, -⟩ := hn.zip
  obtain ⟨h2, h3⟩ := h1 rfl
  have h4 := hs.split.1.2.1.getColor
  have h5 := hs.split.1.2.2.getColor
  simp [h4, h5, h2, h3]

theorem reachable_holds {cmp : K → K → Int} {s : Tree K V} (h : Reachable cmp s) : ∃ es, Holds s es := by
  induction h with
  | new => exact ⟨_, Holds.new⟩
  | insert _ e ih =>
    obtain ⟨es, ih⟩ := ih
    obtain ⟨s', es', e', h, -⟩ := ih.insert_any cmp _ _
    rw [e] at e'; cases e'
    exact ⟨_, h⟩
  | @delete s s' i _ hl e ih =>
    obtain ⟨es, t, h1, h2, rfl, h4⟩ := ih
    have hi := (linked_iff h1 i).1 hl
    rw [T.ids_eq, List.mem_map] at hi
    obtain ⟨⟨i, k, v⟩, hm, rfl⟩ := hi
    obtain ⟨A, B, hAB⟩ := List.append_of_mem hm
    obtain ⟨s'', es', e', h, -⟩ := Holds.delete (A := A) (B := B) ⟨t, h1, h2, hAB, by rw [h4, hAB]⟩
    rw [e] at e'; cases e'
    exact ⟨_, h⟩
  | deleteNil _ e ih => simp [Tree.delete, Tree.deleteB] at e; subst e; exact ih
  | @setValue s i v _ hl ih =>
    obtain ⟨es, t, h1, h2, rfl, h4⟩ := ih
    have hi := (linked_iff h1 i).1 hl
    rw [T.ids_eq, List.mem_map] at hi
    obtain ⟨⟨i, k, v⟩, hm, rfl⟩ := hi
    obtain ⟨A, B, hAB⟩ := List.append_of_mem hm
    exact ⟨_, Holds.setValue (A := A) (B := B) ⟨t, h1, h2, hAB, by rw [h4, hAB]⟩ _⟩
  | clear _ ih => exact ⟨_, ih.choose_spec.clear⟩

/-! ## C34 -/

/-- C34: after any history, with any comparator (even an inconsistent one): the root is black, no red node has a red
child, all downward paths have the same number of black nodes, and no path is longer than `2*log2(size+1)`. -/
theorem C34_rbtree_balanced {cmp : K → K → Int} {s : Tree K V} (h : Reachable cmp s) :
    s.getColor s.root = .ok true ∧
    (∀ i n, Linked s i → s.heap i = some n → n.black = false →
      s.getColor n.left = .ok true ∧ s.getColor n.right = .ok true) ∧
    (∃ bh, ∀ len b, Path s s.root len b → b = bh) ∧
    (∀ len b, Path s s.root len b → len ≤ 2 * Nat.log2 (s.size.toNat + 1)) := by
  obtain ⟨es, t, h1, h2, rfl, h4⟩ := reachable_holds h
  obtain ⟨n, hn⟩ := h2.2.2
  refine ⟨?_, fun i n hi he hr => noRR_spec h1 h2 hi he hr, ⟨n, fun len b hp => ?_⟩, fun len b hp => ?_⟩
  · rw [h1.root, h1.rep.getColor, h2.1]
  · rw [h1.root] at hp
    exact (path_spec t none n h1.rep hn len b hp).1
  · rw [h1.root] at hp
    have h5 := (path_spec t none n h1.rep hn len b hp).2
    have h6 := hn.height_le h2.2.1
    rw [h2.1] at h6
    have h7 := hn.size_ge
    rw [h4]
    have h8 : n ≤ Nat.log2 (t.entries.length + 1) := (Nat.le_log2 (by simp)).2 h7
    simp at h6 ⊢
    omega

/-- C34/C35: on every reachable tree `Insert` and `Delete` (of a node of the tree or nil) return normally. -/
theorem C34_rbtree_no_panic {cmp : K → K → Int} {s : Tree K V} (h : Reachable cmp s) :
    (∀ k v, ∃ s', s.insert cmp k v = .ok s') ∧ (∀ i, Linked s i → ∃ s', s.delete (some i) = .ok s') ∧
    s.delete none = .ok s := by
  obtain ⟨es, hh⟩ := reachable_holds h
  refine ⟨fun k v => ?_, fun i hi => ?_, rfl⟩
  · obtain ⟨s', _, e, -⟩ := hh.insert_any cmp k v
    exact ⟨s', e⟩
  · obtain ⟨t, h1, h2, rfl, h4⟩ := hh
    have hi := (linked_iff h1 i).1 hi
    rw [T.ids_eq, List.mem_map] at hi
    obtain ⟨⟨i, k, v⟩, hm, rfl⟩ := hi
    obtain ⟨A, B, hAB⟩ := List.append_of_mem hm
    obtain ⟨s'', es', e', -⟩ := Holds.delete (A := A) (B := B) ⟨t, h1, h2, hAB, by rw [h4, hAB]⟩
    exact ⟨s'', e'⟩

/-! ## C35 -/

theorem insertBy_map {α β : Type} {cmp : K → K → Int} (f : α → β) (key : β → K) (e : α) (xs : List α) :
    (insertBy cmp (fun a => key (f a)) e xs).map f = insertBy cmp key (f e) (xs.map f) := by
  induction xs with
  | nil => rfl
  | cons x xs ih =>
    simp only [insertBy, List.map_cons]
    split <;> simp [ih]

theorem history_holds {cmp : K → K → Int} (hc : LawfulCmp cmp) {s : Tree K V} {es : List (K × V)} (h : History cmp s es) :
    ∃ xs, Holds s xs ∧ xs.map (·.2) = es ∧ SortedE cmp xs := by
  induction h with
  | new => exact ⟨[], Holds.new, rfl, List.Pairwise.nil⟩
  | @insert s s' k v es _ e ih =>
    obtain ⟨xs, h1, rfl, h3⟩ := ih
    obtain ⟨s'', e', h4, h5, -⟩ := h1.insert hc h3 k v
    rw [e] at e'; cases e'
    refine ⟨_, h4, ?_, h5⟩
    exact insertBy_map (fun x : Id × K × V => x.2) (fun x : K × V => x.1) _ _
  | @delete s s' i k v es A B _ ht e ih =>
    obtain ⟨xs, h1, rfl, h3⟩ := ih
    rw [h1.toList] at ht
    simp at ht
    subst ht
    obtain ⟨s'', es', e', h4, h5, -⟩ := h1.delete
    rw [e] at e'; cases e'
    refine ⟨_, h4, h5, h3.of_map ?_⟩
    rw [h5]; simp
  | @setValue s i k v v' es A B _ ht ih =>
    obtain ⟨xs, h1, rfl, h3⟩ := ih
    rw [h1.toList] at ht
    simp at ht
    subst ht
    refine ⟨_, h1.setValue v', rfl, ?_⟩
    simp only [SortedE, List.pairwise_append, List.pairwise_cons] at h3 ⊢
    refine ⟨h3.1, h3.2.1, fun a ha b hb => ?_⟩
    simp at hb
    rcases hb with rfl | hb
    · exact h3.2.2 a ha (i, k, v) (by simp)
    · exact h3.2.2 a ha b (by simp [hb])
  | clear _ ih => obtain ⟨xs, h1, -⟩ := ih; exact ⟨[], h1.clear, rfl, List.Pairwise.nil⟩

/-- C35: after any history the entries met from `First` by `Next` are exactly the pairs the history left, in key order,
and `Size` is their number. -/
theorem C35_rbtree_contents {cmp : K → K → Int} (hc : LawfulCmp cmp) {s : Tree K V} {es : List (K × V)}
    (h : History cmp s es) :
    ∃ xs, toList s = .ok xs ∧ xs.map (·.2) = es ∧ es.Pairwise (fun a b => cmp a.1 b.1 ≤ 0) ∧ s.size = es.length := by
  obtain ⟨xs, h1, rfl, h3⟩ := history_holds hc h
  refine ⟨xs, h1.toList, rfl, ?_, by simpa using h1.size_eq⟩
  rw [List.pairwise_map]; exact h3

/-- C35: the specification's insertion is stable and complete: on a sorted list the new pair lands behind all pairs with
a smaller or equal key and in front of all others, which keep their order. -/
theorem C35_insertBy_meaning {cmp : K → K → Int} (hc : LawfulCmp cmp) (k : K) (v : V) (es : List (K × V))
    (hso : es.Pairwise (fun a b => cmp a.1 b.1 ≤ 0)) :
    ∃ A B, es = A ++ B ∧ insertBy cmp (·.1) (k, v) es = A ++ (k, v) :: B ∧ (∀ a ∈ A, cmp a.1 k ≤ 0) ∧
      ∀ b ∈ B, cmp k b.1 < 0 := by
  induction es with
  | nil => exact ⟨[], [], rfl, rfl, by simp, by simp⟩
  | cons e es ih =>
    simp only [List.pairwise_cons] at hso
    by_cases h : cmp k e.1 < 0
    · refine ⟨[], e :: es, rfl, by simp [insertBy, h], by simp, fun b hb => ?_⟩
      simp at hb
      rcases hb with rfl | hb
      · exact h
      · exact hc.lt_of_lt_of_le h (hso.1 b hb)
    · obtain ⟨A, B, rfl, h2, h3, h4⟩ := ih hso.2
      refine ⟨e :: A, B, rfl, by simp [insertBy, h, h2], fun a ha => ?_, h4⟩
      simp at ha
      rcases ha with rfl | ha
      · exact hc.le_iff_ge.2 (by omega)
      · exact h3 a ha

/-! ## C36 -/

/-- C36: lookups return the first entry (in `First`/`Next` order) with an equal key, respectively the first with key
`≥` / `>` the argument; nil / not-found when there is none. -/
theorem C36_rbtree_lookups {cmp : K → K → Int} (hc : LawfulCmp cmp) {s : Tree K V} {es : List (K × V)}
    (h : History cmp s es) (key : K) :
    ∃ xs, toList s = .ok xs ∧
      s.find cmp key = .ok ((xs.find? fun e => decide (cmp key e.2.1 = 0)).map (·.2.2)) ∧
      s.findNode cmp key = .ok ((xs.find? fun e => decide (cmp key e.2.1 = 0)).map (·.1)) ∧
      s.findLowerBoundNode cmp key = .ok ((xs.find? fun e => decide (cmp key e.2.1 ≤ 0)).map (·.1)) ∧
      s.findUpperBoundNode cmp key = .ok ((xs.find? fun e => decide (cmp key e.2.1 < 0)).map (·.1)) := by
  obtain ⟨xs, h1, rfl, h3⟩ := history_holds hc h
  exact ⟨xs, h1.toList, h1.find hc h3 key, h1.findNode hc h3 key, h1.lower hc h3 key, h1.upper hc h3 key⟩

/-! ## C37 -/

/-- C37: the backward walk from `Last` by `Prev` is the reverse of the forward walk, every node occurs once, and
`Traversal` feeds the visitor the in-order entries up to and including the first one it rejects. -/
theorem C37_rbtree_iteration {cmp : K → K → Int} {s : Tree K V} (h : Reachable cmp s) :
    ∃ xs, toList s = .ok xs ∧ toListBack s = .ok xs.reverse ∧ (xs.map (·.1)).Nodup ∧
      (∀ i, Linked s i ↔ i ∈ xs.map (·.1)) ∧ s.size = xs.length ∧
      ∀ (S : Type) (visit : S → K → V → S × Bool) (st : S), s.traversal visit st = .ok (feed visit xs st) := by
  obtain ⟨xs, hh⟩ := reachable_holds h
  refine ⟨xs, hh.toList, hh.toListBack, hh.nodup, fun i => ?_, hh.size_eq, fun S visit st => hh.traversal visit st⟩
  obtain ⟨t, h1, h2, rfl, h4⟩ := hh
  rw [linked_iff h1, T.ids_eq]

/-! ## C38 -/

/-- The red-black conditions, stated on the pointers. -/
def RedBlack (s : Tree K V) : Prop :=
  s.getColor s.root = .ok true ∧
  (∀ i n, Linked s i → s.heap i = some n → n.black = false →
    s.getColor n.left = .ok true ∧ s.getColor n.right = .ok true) ∧
  (∃ bh, ∀ len b, Path s s.root len b → b = bh)

theorem path_exists {s : Tree K V} : ∀ (t : T K V) (par : Option Id), Rep s.heap par t → ∃ len b, Path s t.rootId len b := by
  intro t
  induction t with
  | leaf => intro _ _; exact ⟨0, 0, .nil⟩
  | node l i b k v r ihl ihr =>
    intro par h
    obtain ⟨h1, h2, h3⟩ := h
    obtain ⟨len, b', hp⟩ := ihl _ h2
    exact ⟨_, _, .left h1 hp⟩

theorem bh_of_paths {s : Tree K V} : ∀ (t : T K V) (par : Option Id) (n : Nat), Rep s.heap par t →
    (∀ len b, Path s t.rootId len b → b = n) → BH t n := by
  intro t
  induction t with
  | leaf => intro par n _ h; exact (h 0 0 .nil).symm
  | node l i bl k v r ihl ihr =>
    intro par n h hp
    obtain ⟨h1, h2, h3⟩ := h
    obtain ⟨len, b0, p0⟩ := path_exists l _ h2
    have e0 := hp _ _ (.left h1 p0)
    refine ⟨b0, ihl _ b0 h2 fun len b p => ?_, ihr _ b0 h3 fun len b p => ?_, ?_⟩
    · have := hp _ _ (.left h1 p)
      omega
    · have := hp _ _ (.right h1 p)
      omega
    · rw [← e0]; cases bl <;> simp

theorem noRR_of_linked {s : Tree K V} (c : Ctx K V) (t : T K V) (hs : Reps s (plug c t))
    (h : ∀ i n, Linked s i → s.heap i = some n → n.black = false →
      s.getColor n.left = .ok true ∧ s.getColor n.right = .ok true) : NoRR t := by
  induction t generalizing c with
  | leaf => trivial
  | node l i b k v r ihl ihr =>
    refine ⟨fun hb => ?_, ihl (.L i b k v r :: c) hs, ihr (.R l i b k v :: c) hs⟩
    have := h i _ ((linked_iff hs i).2 (mem_plug_ids.2 (.inl (by simp)))) hs.lookup hb
    simp only [hs.split.1.2.1.getColor, hs.split.1.2.2.getColor] at this
    simpa using this

theorem redBlack_iff {s : Tree K V} {t : T K V} (hs : Reps s t) : RedBlack s ↔ RBT t := by
  constructor
  · rintro ⟨h1, h2, bh, h3⟩
    rw [hs.root] at h1 h3
    rw [hs.rep.getColor] at h1
    exact ⟨by simpa using h1, noRR_of_linked [] t hs h2, bh, bh_of_paths t none bh hs.rep h3⟩
  · intro h
    obtain ⟨n, hn⟩ := h.2.2
    refine ⟨by rw [hs.root, hs.rep.getColor, h.1], fun i n hi he hr => noRR_spec hs h hi he hr, n, fun len b hp => ?_⟩
    rw [hs.root] at hp
    exact (path_spec t none n hs.rep hn len b hp).1

/-- C38: on every properly linked tree (any shape, any colours — not only those produced by `Insert`/`Delete`)
`IsRbTree` returns, and returns `true` exactly when the red-black conditions hold. `Reps s t` says that the pointers
form a finite binary tree with consistent parent links. -/
theorem C38_isRbTree_decides {s : Tree K V} {t : T K V} (hs : Reps s t) :
    ∃ ok, s.isRbTree = .ok ok ∧ (ok = true ↔ RedBlack s) := by
  obtain ⟨ok, h1, h2⟩ := isRbTree_spec hs
  exact ⟨ok, h1, h2.trans (redBlack_iff hs).symm⟩

/-- C38: in particular it is `true` after every history. -/
theorem C38_isRbTree_reachable {cmp : K → K → Int} {s : Tree K V} (h : Reachable cmp s) : s.isRbTree = .ok true :=
  (reachable_holds h).choose_spec.isRbTree

/-! ## C39 -/

/-- C39, the part that holds: erasing the node `i` keeps every other node's key and value in place, except possibly the
immediate successor of `i`, whose key and value may move into node `i`. Missing for the full property: the immediate
successor's node, see `C39_violated`. -/
theorem C39_delete_handles_partial {cmp : K → K → Int} {s s' : Tree K V} (h : Reachable cmp s) {A B i k v}
    (ht : toList s = .ok (A ++ (i, k, v) :: B)) (e : s.delete (some i) = .ok s') :
    toList s' = .ok (A ++ B) ∨
      ∃ j kj vj B', B = (j, kj, vj) :: B' ∧ toList s' = .ok (A ++ (i, kj, vj) :: B') := by
  obtain ⟨xs, hh⟩ := reachable_holds h
  rw [hh.toList] at ht
  simp at ht
  subst ht
  obtain ⟨s'', es', e', h4, h5, -, h6⟩ := hh.delete
  rw [e] at e'; cases e'
  rw [h4.toList]
  rcases h6 with rfl | ⟨y, yk, yv, B', rfl, rfl⟩
  · exact .inl rfl
  · exact .inr ⟨y, yk, yv, B', rfl, rfl⟩

/-- Build a tree by inserting integer keys (values equal to keys); used in examples. -/
def buildTree : List Int → Tree Int Int → Res (Tree Int Int)
  | [], s => .ok s
  | k :: ks, s => do let s' ← s.insert intCmp k k; buildTree ks s'

theorem buildTree_reachable : ∀ (ks : List Int) (s s' : Tree Int Int), Reachable intCmp s → buildTree ks s = .ok s' →
    Reachable intCmp s' := by
  intro ks
  induction ks with
  | nil => intro s s' h e; simp [buildTree] at e; subst e; exact h
  | cons k ks ih =>
    intro s s' h e
    simp only [buildTree, Res.bind_eq_ok] at e
    obtain ⟨s1, e1, e2⟩ := e
    exact ih s1 s' (.insert h e1) e2

/-- C39 fails: there is a tree with entries 1, 2, 3 in nodes 0, 1, 2 such that deleting node 1 (key 2) unlinks node 2
(key 3), which the client still holds, and puts key 3 into node 1. -/
theorem C39_violated : ∃ s s' : Tree Int Int, Reachable intCmp s ∧
    toList s = .ok [(0, 1, 1), (1, 2, 2), (2, 3, 3)] ∧ s.delete (some 1) = .ok s' ∧
    toList s' = .ok [(0, 1, 1), (1, 3, 3)] ∧ Linked s 2 ∧ ¬ Linked s' 2 := by
  have h0 : ∃ s, buildTree [1, 2, 3] Tree.new = .ok s ∧ toList s = .ok [(0, 1, 1), (1, 2, 2), (2, 3, 3)] ∧
      (s.delete (some 1) >>= toList) = .ok [(0, 1, 1), (1, 3, 3)] := ⟨_, rfl, rfl, rfl⟩
  obtain ⟨s, e1, e2, e3⟩ := h0
  have hr := buildTree_reachable _ _ _ .new e1
  rw [Res.bind_eq_ok] at e3
  obtain ⟨s', e4, e5⟩ := e3
  obtain ⟨xs, x1, -, -, x2, -⟩ := C37_rbtree_iteration hr
  rw [e2] at x1; cases x1
  have hl1 : Linked s 1 := (x2 1).2 (by simp)
  obtain ⟨ys, y1, -, -, y2, -⟩ := C37_rbtree_iteration (hr.delete hl1 e4)
  rw [e5] at y1; cases y1
  exact ⟨s, s', hr, e2, e4, e5, (x2 2).2 (by simp), fun h => by simpa using (y2 2).1 h⟩

/-! ## Non-vacuity -/

/-- A history with rotations, duplicates and a deletion with two children. -/
example : ∃ s : Tree Int Int, buildTree [5, 3, 8, 1, 4, 7, 9, 3, 2, 6] Tree.new = .ok s ∧ Reachable intCmp s ∧
    (toList s >>= fun xs => .ok (xs.map (·.2.1))) = .ok [1, 2, 3, 3, 4, 5, 6, 7, 8, 9] := by
  have h0 : ∃ s, buildTree [5, 3, 8, 1, 4, 7, 9, 3, 2, 6] Tree.new = .ok s ∧ 
    (toList s >>= fun xs => .ok (xs.map (·.2.1))) = .ok [1, 2, 3, 3, 4, 5, 6, 7, 8, 9] := ⟨_, rfl, rfl⟩
  obtain ⟨s, e1, e2⟩ := h0
  exact ⟨s, e1, buildTree_reachable _ _ _ .new e1, e2⟩

theorem buildTree_history : ∀ (ks : List Int) (s s' : Tree Int Int) (es : List (Int × Int)), History intCmp s es →
    buildTree ks s = .ok s' →
    History intCmp s' (ks.foldl (fun es k => insertBy intCmp (·.1) (k, k) es) es) := by
  intro ks
  induction ks with
  | nil => intro s s' es h e; simp [buildTree] at e; subst e; exact h
  | cons k ks ih =>
    intro s s' es h e
    simp only [buildTree, Res.bind_eq_ok] at e
    obtain ⟨s1, e1, e2⟩ := e
    exact ih s1 s' _ (.insert h e1) e2

/-- The hypotheses of C35/C36 are met by a history with a duplicate key and a deletion of an inner node. -/
example : ∃ s : Tree Int Int, History intCmp s [(1, 1), (3, 3), (3, 3)] ∧ LawfulCmp intCmp := by
  have h0 : ∃ s, buildTree [1, 2, 3, 3] Tree.new = .ok s ∧
      toList s = .ok ([(0, 1, 1)] ++ (1, 2, 2) :: [(2, 3, 3), (3, 3, 3)]) ∧
      ∃ s', s.delete (some 1) = .ok s' := ⟨_, rfl, rfl, _, rfl⟩
  obtain ⟨s, e1, e2, s', e3⟩ := h0
  exact ⟨s', .delete (buildTree_history _ _ _ _ .new e1) e2 e3, intCmp_lawful⟩

/-! ### Each theorem on a concrete tree -/

/-- Ten insertions (with a duplicate), then the deletion of the root, which has two children. -/
theorem demo_tree : ∃ s : Tree Int Int, Reachable intCmp s ∧
    History intCmp s [(1, 1), (2, 2), (3, 3), (3, 3), (4, 4), (6, 6), (7, 7), (8, 8), (9, 9)] ∧
    toList s = .ok [(3, 1, 1), (8, 2, 2), (1, 3, 3), (7, 3, 3), (4, 4, 4), (0, 6, 6), (5, 7, 7), (2, 8, 8), (6, 9, 9)] := by
  have h0 : ∃ s, buildTree [5, 3, 8, 1, 4, 7, 9, 3, 2, 6] Tree.new = .ok s ∧
      toList s = .ok ([(3, 1, 1), (8, 2, 2), (1, 3, 3), (7, 3, 3), (4, 4, 4)] ++ (0, 5, 5) :: [(9, 6, 6), (5, 7, 7), (2, 8, 8), (6, 9, 9)]) ∧
      (s.delete (some 0) >>= toList) = .ok [(3, 1, 1), (8, 2, 2), (1, 3, 3), (7, 3, 3), (4, 4, 4), (0, 6, 6), (5, 7, 7), (2, 8, 8), (6, 9, 9)] :=
    ⟨_, rfl, rfl, rfl⟩
  obtain ⟨s, e1, e2, e3⟩ := h0
  have hr := buildTree_reachable _ _ _ .new e1
  rw [Res.bind_eq_ok] at e3
  obtain ⟨s', e4, e5⟩ := e3
  obtain ⟨xs, x1, -, -, x2, -⟩ := C37_rbtree_iteration hr
  rw [e2] at x1; cases x1
  exact ⟨s', .delete hr ((x2 0).2 (by simp)) e4, .delete (buildTree_history _ _ _ _ .new e1) e2 e4, e5⟩

/-- `C34_rbtree_balanced`: no path of this tree of nine nodes is longer than 6. -/
example : ∃ s : Tree Int Int, toList s = .ok [(3, 1, 1), (8, 2, 2), (1, 3, 3), (7, 3, 3), (4, 4, 4), (0, 6, 6), (5, 7, 7), (2, 8, 8), (6, 9, 9)] ∧
    ∀ len b, Path s s.root len b → len ≤ 6 := by
  obtain ⟨s, hr, -, e⟩ := demo_tree
  refine ⟨s, e, fun len b hp => ?_⟩
  have h := (C34_rbtree_balanced hr).2.2.2 len b hp
  obtain ⟨xs, x1, -, -, -, hsz, -⟩ := C37_rbtree_iteration hr
  rw [e] at x1; cases x1
  rw [hsz] at h
  exact h

/-- `C34_rbtree_no_panic`, `C38_isRbTree_reachable`: inserting into it and deleting the node of key 4 succeed, and the result passes `IsRbTree`. -/
example : ∃ s s1 s2 : Tree Int Int, toList s = .ok [(3, 1, 1), (8, 2, 2), (1, 3, 3), (7, 3, 3), (4, 4, 4), (0, 6, 6), (5, 7, 7), (2, 8, 8), (6, 9, 9)] ∧
    s.delete (some 4) = .ok s1 ∧ s1.insert intCmp 3 0 = .ok s2 ∧ s2.isRbTree = .ok true := by
  obtain ⟨s, hr, -, e⟩ := demo_tree
  obtain ⟨xs, x1, -, -, x2, -⟩ := C37_rbtree_iteration hr
  rw [e] at x1; cases x1
  have hl : Linked s 4 := (x2 4).2 (by simp)
  obtain ⟨s1, e1⟩ := (C34_rbtree_no_panic hr).2.1 4 hl
  have hr1 := hr.delete hl e1
  obtain ⟨s2, e2⟩ := (C34_rbtree_no_panic hr1).1 3 0
  exact ⟨s, s1, s2, e, e1, e2, C38_isRbTree_reachable (hr1.insert e2)⟩

/-- `C35_rbtree_contents`, `C36_rbtree_lookups`: contents, size, and the nodes that the lookups of 3 and 5 return. -/
example : ∃ s : Tree Int Int, s.size = 9 ∧ s.find intCmp 3 = .ok (some 3) ∧ s.findNode intCmp 3 = .ok (some 1) ∧ s.findUpperBoundNode intCmp 3 = .ok (some 4) ∧
    s.find intCmp 5 = .ok none ∧ s.findLowerBoundNode intCmp 5 = .ok (some 0) := by
  obtain ⟨s, -, hh, e⟩ := demo_tree
  obtain ⟨xs, x1, -, -, x2⟩ := C35_rbtree_contents intCmp_lawful hh
  obtain ⟨ys, y1, f1, f2, -, f4⟩ := C36_rbtree_lookups intCmp_lawful hh 3
  rw [e] at y1; cases y1
  obtain ⟨ys, y1, g1, -, g3, -⟩ := C36_rbtree_lookups intCmp_lawful hh 5
  rw [e] at y1; cases y1
  exact ⟨s, x2, f1, f2, f4, g1, g3⟩

/-- `C35_insertBy_meaning`: 3 goes between the threes and 4. -/
example : ∃ A B, [(1, 0), (3, 1), (3, 2), (4, 3)] = A ++ B ∧ insertBy intCmp (·.1) (3, 9) [(1, 0), (3, 1), (3, 2), (4, 3)] = A ++ (3, 9) :: B ∧
    (∀ a ∈ A, intCmp a.1 3 ≤ 0) ∧ ∀ b ∈ B, intCmp 3 b.1 < 0 :=
  C35_insertBy_meaning intCmp_lawful 3 9 _ (by simp [intCmp])

/-- `C37_rbtree_iteration`: backwards, and a visitor that stops after collecting the keys up to 3. -/
example : ∃ s : Tree Int Int, toListBack s = .ok [(6, 9, 9), (2, 8, 8), (5, 7, 7), (0, 6, 6), (4, 4, 4), (7, 3, 3), (1, 3, 3), (8, 2, 2), (3, 1, 1)] ∧
    s.traversal (fun ks k _ => (ks ++ [k], decide (k < 3))) [] = .ok [1, 2, 3] := by
  obtain ⟨s, hr, -, e⟩ := demo_tree
  obtain ⟨xs, x1, x2, -, -, -, x6⟩ := C37_rbtree_iteration hr
  rw [e] at x1; cases x1
  exact ⟨s, x2, x6 _ _ _⟩

/-- `C38_isRbTree_decides`: a single red node, which `IsRbTree` refuses. -/
example : ∃ s : Tree Int Int, s.isRbTree = .ok false ∧ ¬ RedBlack s := by
  have hs : Reps (⟨fun i => if i = 0 then some ⟨none, none, none, false, 7, 7⟩ else none, some 0, 1, 1⟩ : Tree Int Int) (.node .leaf 0 false 7 7 .leaf) :=
    ⟨rfl, ⟨rfl, trivial, trivial⟩, by simp [T.ids], by simp [T.ids]⟩
  obtain ⟨ok, e, h⟩ := C38_isRbTree_decides hs
  have e' : Tree.isRbTree (⟨fun i => if i = 0 then some ⟨none, none, none, false, 7, 7⟩ else none, some 0, 1, 1⟩ : Tree Int Int) = .ok false := rfl
  refine ⟨_, e', fun hr => ?_⟩
  rw [h.2 hr, e'] at e
  cases e

/-- `C39_delete_handles_partial`: deleting the node of 6 (with two children) moves at most 7. -/
example : ∃ s s' : Tree Int Int, s.delete (some 0) = .ok s' ∧
    (toList s' = .ok [(3, 1, 1), (8, 2, 2), (1, 3, 3), (7, 3, 3), (4, 4, 4), (5, 7, 7), (2, 8, 8), (6, 9, 9)] ∨
     toList s' = .ok [(3, 1, 1), (8, 2, 2), (1, 3, 3), (7, 3, 3), (4, 4, 4), (0, 7, 7), (2, 8, 8), (6, 9, 9)]) := by
  obtain ⟨s, hr, -, e⟩ := demo_tree
  obtain ⟨xs, x1, -, -, x2, -⟩ := C37_rbtree_iteration hr
  rw [e] at x1; cases x1
  obtain ⟨s', e'⟩ := (C34_rbtree_no_panic hr).2.1 0 ((x2 0).2 (by simp))
  refine ⟨s, s', e', ?_⟩
  rcases C39_delete_handles_partial (A := [(3, 1, 1), (8, 2, 2), (1, 3, 3), (7, 3, 3), (4, 4, 4)]) hr e e' with h | ⟨j, kj, vj, B', hB, h⟩
  · exact .inl h
  · cases hB; exact .inr h

end GoSTL.RB
