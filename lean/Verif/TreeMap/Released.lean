import Verif.Iters.Equal
import Verif.Basic.Reach
/-!
# C93 for maps and sets: a tree keeps alive exactly the nodes of its entries
-/
namespace GoSTL.TreeMap
open GoSTL.RB
variable {K V : Type} {cmp : K → K → Int}

/-- The objects on the heap: the tree and the nodes. -/
inductive Obj
  | tree
  | node (i : Id)

/-- The pointers between them: ds/rbtree/rbtree.go:17-21 (`root`) and ds/rbtree/node.go:12-20 (`parent`, `left`, `right`). -/
def Points (s : Tree K V) : Obj → Obj → Prop
  | .tree, .node i => s.root = some i
  | .node i, .node j => ∃ nd, s.heap i = some nd ∧ (nd.parent = some j ∨ nd.left = some j ∨ nd.right = some j)
  | _, .tree => False

/-- The pointers of a subtree's nodes lead to nodes of the subtree or to its parent. -/
theorem rep_closed {h : Id → Option (Node K V)} {t : T K V} {par : Option Id} (hr : Rep h par t) {i j : Id} (hi : i ∈ t.ids) {nd : Node K V} (e : h i = some nd)
    (hp : nd.parent = some j ∨ nd.left = some j ∨ nd.right = some j) : j ∈ t.ids ∨ par = some j := by
  induction t generalizing par with
  | leaf => simp at hi
  | node l a b k v r ihl ihr =>
    obtain ⟨h1, h2, h3⟩ := hr
    simp only [T.ids, List.mem_append, List.mem_cons] at hi ⊢
    rcases hi with hi | rfl | hi
    · rcases ihl h2 hi with hj | hj
      · exact .inl (.inl hj)
      · cases hj; exact .inl (.inr (.inl rfl))
    · rw [h1] at e; cases e
      rcases hp with hp | hp | hp
      · exact .inr hp
      · exact .inl (.inl (T.rootId_mem hp))
      · exact .inl (.inr (.inr (T.rootId_mem hp)))
    · rcases ihr h3 hi with hj | hj
      · exact .inl (.inr (.inr hj))
      · cases hj; exact .inl (.inr (.inl rfl))

/-- All nodes of a subtree are alive if its root is. -/
theorem rep_alive {s : Tree K V} {t : T K V} {par : Option Id} (hr : Rep s.heap par t) (h0 : ∀ i, t.rootId = some i → Alive (Points s) .tree (.node i)) {i : Id}
    (hi : i ∈ t.ids) : Alive (Points s) .tree (.node i) := by
  induction t generalizing par with
  | leaf => simp at hi
  | node l a b k v r ihl ihr =>
    obtain ⟨h1, h2, h3⟩ := hr
    have ha := h0 a rfl
    simp only [T.ids, List.mem_append, List.mem_cons] at hi
    rcases hi with hi | rfl | hi
    · exact ihl h2 (fun j hj => .step ha ⟨_, h1, .inr (.inl hj)⟩) hi
    · exact ha
    · exact ihr h3 (fun j hj => .step ha ⟨_, h1, .inr (.inr hj)⟩) hi

theorem rep_entry {h : Id → Option (Node K V)} {t : T K V} {par : Option Id} (hr : Rep h par t) {e : Id × K × V} (he : e ∈ t.entries) :
    ∃ nd, h e.1 = some nd ∧ nd.key = e.2.1 ∧ nd.value = e.2.2 := by
  induction t generalizing par with
  | leaf => simp at he
  | node l a b k v r ihl ihr =>
    obtain ⟨h1, h2, h3⟩ := hr
    simp only [T.entries, List.mem_append, List.mem_cons] at he
    rcases he with he | rfl | he
    · exact ihl h2 he
    · exact ⟨_, h1, rfl, rfl⟩
    · exact ihr h3 he

/-- The nodes the tree keeps alive are those of its entries, one for each, in the order in which the iterators show them, and nothing else. -/
def KeepsOnly (s : Tree K V) : Prop :=
  ∃ es : List (Id × K × V), iterList s = .ok (es.map (·.2)) ∧ (es.map (·.1)).Nodup ∧
    (∀ i, Alive (Points s) .tree (.node i) ↔ i ∈ es.map (·.1)) ∧
    ∀ e ∈ es, ∃ nd, s.heap e.1 = some nd ∧ nd.key = e.2.1 ∧ nd.value = e.2.2

theorem HoldsKV.keepsOnly {s : Tree K V} {kvs} (h : HoldsKV cmp s kvs) : KeepsOnly s := by
  have hi := h.iterList
  obtain ⟨xs, ⟨⟨t, hr, -, rfl, -⟩, -⟩, rfl⟩ := h
  refine ⟨t.entries, hi, by rw [← T.ids_eq]; exact hr.nodup, fun i => ?_, fun e he => rep_entry hr.rep he⟩
  rw [← T.ids_eq]
  constructor
  · intro ha
    have : (fun o : Obj => match o with | .tree => True | .node n => n ∈ t.ids) (.node i) := by
      refine Alive.closed (P := fun o : Obj => match o with | .tree => True | .node n => n ∈ t.ids) trivial ?_ ha
      intro x y hx hp
      cases y with
      | tree => cases x <;> exact hp.elim
      | node j =>
        cases x with
        | tree =>
          have hp : s.root = some j := hp
          rw [hr.root] at hp
          exact T.rootId_mem hp
        | node a =>
          obtain ⟨nd, e1, e2⟩ := hp
          rcases rep_closed hr.rep hx e1 e2 with h | h
          · exact h
          · cases h
    exact this
  · intro hi
    exact rep_alive hr.rep (fun j hj => .step .root (by show s.root = some j; rw [hr.root, hj])) hi

/-- **C93**, Map: erased entries, and values overwritten, are not kept alive by the map. -/
theorem C93_map (hc : LawfulCmp cmp) {s : Tree K V} {f : K → Option V} (h : MapHist cmp s f) : KeepsOnly s := by
  obtain ⟨kvs, h1, -⟩ := mapHist_inv hc h
  exact h1.keepsOnly

/-- **C93**, MultiMap. -/
theorem C93_multimap (hc : LawfulCmp cmp) {s : Tree K V} {h : List (K × V)} (hh : MultiMapHist cmp s h) : KeepsOnly s := by
  obtain ⟨kvs, h1, -⟩ := multiMapHist_inv hc hh
  exact h1.keepsOnly

/-- **C93**, Set. -/
theorem C93_set (hc : LawfulCmp cmp) {s : Tree K Bool} {m : K → Prop} (h : SetHist cmp s m) : KeepsOnly s := by
  obtain ⟨ks, h0, -⟩ := setHist_inv hc h
  obtain ⟨kvs, h1, -, rfl⟩ := h0.kv
  exact h1.keepsOnly

/-- **C93**, MultiSet. -/
theorem C93_multiset (hc : LawfulCmp cmp) {s : Tree K Bool} {h : List K} (hh : MultiSetHist cmp s h) : KeepsOnly s := by
  obtain ⟨kvs, h1, -⟩ := multiSetHist_inv hc hh
  exact h1.keepsOnly

/-- The map of `demo_map` held five values; it keeps two nodes alive. -/
example : ∃ (s : Tree Int Int) (i j : Id), i ≠ j ∧ (∀ n, Alive (Points s) .tree (.node n) ↔ n = i ∨ n = j) ∧
    (∃ nd, s.heap i = some nd ∧ nd.value = 10) ∧ ∃ nd, s.heap j = some nd ∧ nd.value = 41 := by
  obtain ⟨s, f, h, e, -⟩ := demo_map
  obtain ⟨es, e1, hn, ha, hv⟩ := C93_map intCmp_lawful h
  rw [e] at e1
  have e1 := Res.ok.inj e1
  match es, e1 with
  | [(i, k, v), (j, k', v')], e1 =>
    cases e1
    refine ⟨s, i, j, by simpa using hn, by simpa using ha, ?_, ?_⟩
    · obtain ⟨nd, h1, -, h2⟩ := hv _ (by simp : (i, (1 : Int), (10 : Int)) ∈ _); exact ⟨nd, h1, h2⟩
    · obtain ⟨nd, h1, -, h2⟩ := hv _ (by simp : (j, (4 : Int), (41 : Int)) ∈ _); exact ⟨nd, h1, h2⟩

example : ∃ s : Tree Int Char, KeepsOnly s ∧ MultiMapHist tensCmp s [((21 : Int), 'a'), (11, 'b'), (20, 'd')] := by
  obtain ⟨s, h, -⟩ := demo_multimap
  exact ⟨s, C93_multimap demo_multiset.choose_spec.2.2 h, h⟩

example : ∃ s : Tree Int Bool, KeepsOnly s ∧ MultiSetHist tensCmp s [(11 : Int), 30, 20] := by
  obtain ⟨s, h, -, hc⟩ := demo_multiset
  exact ⟨s, C93_multiset hc h, h⟩

example : ∃ (s : Tree Int Bool) (m : Int → Prop), KeepsOnly s ∧ SetHist intCmp s m ∧ m 2 := by
  obtain ⟨s, o, m, n, h, -, h2, -⟩ := demo_sets
  exact ⟨s, m, C93_set intCmp_lawful h, h, h2⟩

end GoSTL.TreeMap
