import Verif.RBTree.Props
import Verif.TreeMap.Spec
import Mathlib.Data.List.Basic
/-!
# Trees as sorted lists of key/value pairs
-/
namespace GoSTL.TreeMap
open GoSTL.RB

variable {K V : Type} {cmp : K → K → Int}

/-- Sorted by key, equal keys allowed. -/
def SortedKV (cmp : K → K → Int) (kvs : List (K × V)) : Prop := kvs.Pairwise fun a b => cmp a.1 b.1 ≤ 0

/-- A well-formed tree whose in-order entries are `xs`, sorted. -/
def HoldsS (cmp : K → K → Int) (s : Tree K V) (xs : List (Id × K × V)) : Prop := Holds s xs ∧ SortedE cmp xs

/-- A well-formed tree whose in-order pairs are `kvs`, sorted. -/
def HoldsKV (cmp : K → K → Int) (s : Tree K V) (kvs : List (K × V)) : Prop := ∃ xs, HoldsS cmp s xs ∧ xs.map (·.2) = kvs

/-- Key equality as the containers see it. -/
def keq (cmp : K → K → Int) (k : K) : K × V → Bool := fun e => decide (cmp k e.1 = 0)

theorem HoldsKV.new : HoldsKV cmp (Tree.new : Tree K V) [] := ⟨[], ⟨Holds.new, List.Pairwise.nil⟩, rfl⟩

theorem HoldsKV.clear {s : Tree K V} {kvs} (h : HoldsKV cmp s kvs) : HoldsKV cmp s.clear [] := by
  obtain ⟨xs, h1, -⟩ := h
  exact ⟨[], ⟨h1.1.clear, List.Pairwise.nil⟩, rfl⟩

theorem HoldsKV.sorted {s : Tree K V} {kvs} (h : HoldsKV cmp s kvs) : SortedKV cmp kvs := by
  obtain ⟨xs, h1, rfl⟩ := h
  simp only [SortedKV, List.pairwise_map]
  exact h1.2

theorem HoldsKV.insert (hc : LawfulCmp cmp) {s : Tree K V} {kvs} (h : HoldsKV cmp s kvs) (k : K) (v : V) :
    ∃ s', s.insert cmp k v = .ok s' ∧ HoldsKV cmp s' (insertBy cmp (·.1) (k, v) kvs) := by
  obtain ⟨xs, h1, rfl⟩ := h
  obtain ⟨s', e, h2, h3, -⟩ := h1.1.insert hc h1.2 k v
  exact ⟨s', e, _, ⟨h2, h3⟩, insertBy_map (fun x : Id × K × V => x.2) (fun x : K × V => x.1) _ _⟩

theorem HoldsKV.delete {s : Tree K V} {A B i k v} (h : HoldsS cmp s (A ++ (i, k, v) :: B)) :
    ∃ s', s.delete (some i) = .ok s' ∧ HoldsKV cmp s' ((A ++ B).map (·.2)) := by
  obtain ⟨s', es, e, h2, h3, -⟩ := h.1.delete
  exact ⟨s', e, es, ⟨h2, h.2.of_map (by rw [h3]; simp)⟩, h3⟩

theorem HoldsKV.setValue {s : Tree K V} {A B i k v} (h : HoldsS cmp s (A ++ (i, k, v) :: B)) (v' : V) :
    HoldsKV cmp (s.setValue i v') ((A ++ (i, k, v') :: B).map (·.2)) := by
  refine ⟨_, ⟨h.1.setValue v', ?_⟩, rfl⟩
  have h3 := h.2
  simp only [SortedE, List.pairwise_append, List.pairwise_cons] at h3 ⊢
  refine ⟨h3.1, h3.2.1, fun a ha b hb => ?_⟩
  simp at hb
  rcases hb with rfl | hb
  · exact h3.2.2 a ha (i, k, v) (by simp)
  · exact h3.2.2 a ha b (by simp [hb])

/-- A linked node is one of the entries. -/
theorem HoldsS.at_node {s : Tree K V} {xs} (h : HoldsS cmp s xs) {i : Id} (hi : Linked s i) :
    ∃ A k v B, xs = A ++ (i, k, v) :: B := by
  obtain ⟨t, h1, h2, rfl, h4⟩ := h.1
  have := (linked_iff h1 i).1 hi
  rw [T.ids_eq, List.mem_map] at this
  obtain ⟨⟨j, k, v⟩, hm, rfl⟩ := this
  obtain ⟨A, B, h⟩ := List.append_of_mem hm
  exact ⟨A, k, v, B, h⟩

theorem HoldsS.findNode (hc : LawfulCmp cmp) {s : Tree K V} {xs} (h : HoldsS cmp s xs) (k : K) :
    (s.findNode cmp k = .ok none ∧ ∀ e ∈ xs, cmp k e.2.1 ≠ 0) ∨
    ∃ A i k' v B, xs = A ++ (i, k', v) :: B ∧ s.findNode cmp k = .ok (some i) ∧ cmp k k' = 0 ∧
      ∀ e ∈ A, cmp k e.2.1 ≠ 0 := by
  have := h.1.findNode hc h.2 k
  cases hf : xs.find? fun e => decide (cmp k e.2.1 = 0) with
  | none =>
    rw [hf] at this
    rw [List.find?_eq_none] at hf
    exact .inl ⟨this, fun e he => by simpa using hf e he⟩
  | some e =>
    rw [hf] at this
    rw [List.find?_eq_some_iff_append] at hf
    obtain ⟨h1, A, B, rfl, h2⟩ := hf
    obtain ⟨i, k', v⟩ := e
    exact .inr ⟨A, i, k', v, B, rfl, this, by simpa using h1, fun e he => by simpa using h2 e he⟩

theorem HoldsKV.eraseOne (hc : LawfulCmp cmp) {s : Tree K V} {kvs} (h : HoldsKV cmp s kvs) (k : K) :
    ∃ s', eraseOne cmp s k = .ok s' ∧ HoldsKV cmp s' (kvs.eraseP (keq cmp k)) := by
  obtain ⟨xs, h1, rfl⟩ := h
  rcases h1.findNode hc k with ⟨h2, h3⟩ | ⟨A, i, k', v, B, rfl, h2, h3, h4⟩
  · refine ⟨s, by simp [TreeMap.eraseOne, h2], xs, h1, ?_⟩
    rw [List.eraseP_of_forall_not]
    intro a ha
    rw [List.mem_map] at ha
    obtain ⟨e, he, rfl⟩ := ha
    simpa [keq] using h3 e he
  · obtain ⟨s', e, h5⟩ := HoldsKV.delete h1
    refine ⟨s', by simp [TreeMap.eraseOne, h2, e], ?_⟩
    rw [List.map_append, List.map_cons, List.eraseP_append_right _ (by
      intro a ha
      rw [List.mem_map] at ha
      obtain ⟨e, he, rfl⟩ := ha
      simpa [keq] using h4 e he), List.eraseP_cons_of_pos (by simpa [keq] using h3)]
    simpa using h5

theorem eraseAllLoop_spec (hc : LawfulCmp cmp) (k : K) : ∀ (f : Nat) (s : Tree K V) (kvs : List (K × V)),
    HoldsKV cmp s kvs → kvs.length < f →
    ∃ s', eraseAllLoop cmp k f s = .ok s' ∧ HoldsKV cmp s' (kvs.filter fun e => !keq cmp k e) := by
  intro f
  induction f with
  | zero => intro s kvs _ hl; omega
  | succ f ih =>
    intro s kvs h hl
    obtain ⟨xs, h1, rfl⟩ := h
    rcases h1.findNode hc k with ⟨h2, h3⟩ | ⟨A, i, k', v, B, rfl, h2, h3, h4⟩
    · refine ⟨s, by simp [eraseAllLoop, h2], xs, h1, ?_⟩
      symm
      rw [List.filter_eq_self]
      intro a ha
      rw [List.mem_map] at ha
      obtain ⟨e, he, rfl⟩ := ha
      simpa [keq] using h3 e he
    · obtain ⟨s', e, h5⟩ := HoldsKV.delete h1
      obtain ⟨s'', e2, h6⟩ := ih s' _ h5 (by simp at hl ⊢; omega)
      refine ⟨s'', by simp [eraseAllLoop, h2, e, e2], ?_⟩
      have : keq cmp k (k', v) = true := by simpa [keq] using h3
      simpa [List.filter_cons, this] using h6

theorem HoldsKV.length_le {s : Tree K V} {kvs} (h : HoldsKV cmp s kvs) : kvs.length ≤ s.next := by
  obtain ⟨xs, h1, rfl⟩ := h
  simpa using h1.1.length_le

theorem HoldsKV.eraseAll (hc : LawfulCmp cmp) {s : Tree K V} {kvs} (h : HoldsKV cmp s kvs) (k : K) :
    ∃ s', eraseAll cmp s k = .ok s' ∧ HoldsKV cmp s' (kvs.filter fun e => !keq cmp k e) :=
  eraseAllLoop_spec hc k _ s kvs h (by have := h.length_le; simp only [Tree.fuel]; omega)

theorem find?_map_snd {xs : List (Id × K × V)} {p : K × V → Bool} :
    (xs.find? fun e => p e.2).map (·.2) = (xs.map (·.2)).find? p := by
  rw [List.find?_map]; rfl

theorem HoldsKV.find (hc : LawfulCmp cmp) {s : Tree K V} {kvs} (h : HoldsKV cmp s kvs) (k : K) :
    s.find cmp k = .ok ((kvs.find? (keq cmp k)).map (·.2)) := by
  obtain ⟨xs, h1, rfl⟩ := h
  rw [h1.1.find hc h1.2, ← find?_map_snd, Option.map_map]
  rfl

theorem HoldsKV.get (hc : LawfulCmp cmp) {s : Tree K V} {kvs} (h : HoldsKV cmp s kvs) (k : K) :
    get cmp s k = .ok ((kvs.find? (keq cmp k)).map (·.2)) := h.find hc k

theorem HoldsKV.contains (hc : LawfulCmp cmp) {s : Tree K V} {kvs} (h : HoldsKV cmp s kvs) (k : K) :
    contains cmp s k = .ok (kvs.any (keq cmp k)) := by
  simp only [TreeMap.contains, h.find hc k, Res.ok_bind, Res.pure_eq, Option.isSome_map]
  congr 1
  rw [Bool.eq_iff_iff]; simp

theorem HoldsKV.size {s : Tree K V} {kvs} (h : HoldsKV cmp s kvs) : size s = kvs.length := by
  obtain ⟨xs, h1, rfl⟩ := h
  simpa [TreeMap.size] using h1.1.size_eq

theorem feed_eq {S : Type} (visit : S → K → V → S × Bool) (xs : List (Id × K × V)) (st : S) :
    feed visit xs st = feedKV visit (xs.map (·.2)) st := by
  induction xs generalizing st with
  | nil => rfl
  | cons x xs ih =>
    obtain ⟨i, k, v⟩ := x
    simp only [feed, feedKV, List.map_cons]
    rcases visit st k v with ⟨st', b⟩
    cases b <;> simp [ih]

theorem HoldsKV.mapTraversal {S : Type} (visit : S → K → V → S × Bool) {s : Tree K V} {kvs} (h : HoldsKV cmp s kvs) (st : S) :
    mapTraversal s visit st = .ok (feedKV visit kvs st) := by
  obtain ⟨xs, h1, rfl⟩ := h
  rw [TreeMap.mapTraversal, h1.1.traversal visit st, feed_eq]

theorem setTraversalLoop_eq {S : Type} (visit : S → K → S × Bool) (s : Tree K V) (f : Nat) (i : Option Id) (st : S) :
    setTraversalLoop s visit f i st = s.traversalLoop (fun st k _ => visit st k) f i st := by
  induction f generalizing i st with
  | zero => rfl
  | succ f ih =>
    cases i with
    | none => rfl
    | some i =>
      simp only [setTraversalLoop, Tree.traversalLoop]
      congr 1; funext n
      rcases visit st n.key with ⟨st', b⟩
      cases b
      · rfl
      · simp only [ih]

theorem feedKV_keys {S : Type} (visit : S → K → S × Bool) (kvs : List (K × V)) (st : S) :
    feedKV (fun st k _ => visit st k) kvs st = feedKeys visit (kvs.map (·.1)) st := by
  induction kvs generalizing st with
  | nil => rfl
  | cons e kvs ih =>
    obtain ⟨k, v⟩ := e
    simp only [feedKV, feedKeys, List.map_cons]
    rcases visit st k with ⟨st', b⟩
    cases b <;> simp [ih]

theorem HoldsKV.setTraversal {S : Type} (visit : S → K → S × Bool) {s : Tree K V} {kvs} (h : HoldsKV cmp s kvs) (st : S) :
    setTraversal s visit st = .ok (feedKeys visit (kvs.map (·.1)) st) := by
  have := h.mapTraversal (fun st k _ => visit st k) st
  rw [feedKV_keys] at this
  rw [← this]
  simp only [TreeMap.setTraversal, TreeMap.mapTraversal, Tree.traversal, setTraversalLoop_eq]

theorem countLoop_spec (x : K) {s : Tree K V} (B : List (Id × K × V)) : ∀ (A) (fuel : Nat) (c : Int), Holds s (A ++ B) →
    B.length < fuel →
    countLoop cmp s x fuel (hd B) c = .ok (c + (B.countP fun e => decide (cmp e.2.1 x = 0))) := by
  induction B with
  | nil =>
    intro A fuel c h hf
    obtain ⟨f, rfl⟩ : ∃ f, fuel = f + 1 := ⟨fuel - 1, by simp at hf; omega⟩
    simp [countLoop]
  | cons e B ih =>
    intro A fuel c h hf
    obtain ⟨f, rfl⟩ : ∃ f, fuel = f + 1 := ⟨fuel - 1, by simp at hf; omega⟩
    obtain ⟨i, k, v⟩ := e
    obtain ⟨n, h1, rfl, rfl⟩ := h.node (i := i) (k := k) (v := v) (by simp)
    have h2 := h.successor
    have h3 := ih (A ++ [(i, n.key, n.value)]) f (if cmp n.key x = 0 then c + 1 else c) (by simpa using h)
      (by simp at hf; omega)
    simp only [hd_cons, countLoop, h1, h2, Res.ok_bind, h3, List.countP_cons]
    congr 1
    by_cases hx : cmp n.key x = 0
    · simp [hx]; omega
    · simp [hx]

theorem HoldsKV.count {s : Tree K V} {kvs} (h : HoldsKV cmp s kvs) (x : K) :
    count cmp s x = .ok ((kvs.map (·.1)).countP fun e => decide (cmp e x = 0)) := by
  obtain ⟨xs, h1, rfl⟩ := h
  simp only [TreeMap.count, h1.1.first, Res.ok_bind]
  rw [countLoop_spec x xs [] _ 0 (by simpa using h1.1) (by have := h1.1.length_le; simp only [Tree.fuel]; omega)]
  simp [List.countP_map, Function.comp_def]

end GoSTL.TreeMap
