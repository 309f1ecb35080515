import Verif.RBTree.Search
import Verif.RBTree.Spec
/-!
# Interface lemmas: a tree holding a sequence of entries
-/
namespace GoSTL.RB
open T
variable {K V : Type}

/-- The tree is a well-formed red-black tree whose in-order entries are `es`. -/
def Holds (s : Tree K V) (es : List (Id × K × V)) : Prop :=
  ∃ t, Reps s t ∧ RBT t ∧ t.entries = es ∧ s.size = es.length

theorem Holds.new : Holds (Tree.new : Tree K V) [] :=
  ⟨.leaf, ⟨rfl, trivial, by simp, by simp⟩, ⟨rfl, trivial, 0, rfl⟩, rfl, rfl⟩

theorem Holds.clear {s : Tree K V} {es} (_h : Holds s es) : Holds s.clear [] :=
  ⟨.leaf, ⟨rfl, trivial, by simp, by simp⟩, ⟨rfl, trivial, 0, rfl⟩, rfl, rfl⟩

theorem Holds.nodup {s : Tree K V} {es} (h : Holds s es) : (es.map (·.1)).Nodup := by
  obtain ⟨t, h1, h2, rfl, h4⟩ := h
  rw [← T.ids_eq]; exact h1.nodup

theorem Holds.fresh {s : Tree K V} {es} (h : Holds s es) : ∀ e ∈ es, e.1 < s.next := by
  obtain ⟨t, h1, h2, rfl, h4⟩ := h
  intro e he
  exact h1.fresh e.1 (by rw [T.ids_eq]; exact List.mem_map_of_mem he)

theorem Holds.length_le {s : Tree K V} {es} (h : Holds s es) : es.length ≤ s.next := by
  obtain ⟨t, h1, h2, rfl, h4⟩ := h
  have := h1.length_le
  rwa [T.ids_eq, List.length_map] at this

theorem Holds.size_eq {s : Tree K V} {es} (h : Holds s es) : s.size = es.length := h.choose_spec.2.2.2

theorem insertBy_append {cmp : K → K → Int} {e : Id × K × V} : ∀ (A B : List (Id × K × V)),
    (∀ x ∈ A, ¬ cmp e.2.1 x.2.1 < 0) → (∀ x ∈ B, cmp e.2.1 x.2.1 < 0) →
    insertBy cmp (·.2.1) e (A ++ B) = A ++ e :: B := by
  intro A B hA hB
  induction A with
  | nil => cases B with
    | nil => rfl
    | cons b B => simp [insertBy, hB b]
  | cons a A ih => 
    simp only [List.cons_append, insertBy]
    rw [if_neg (hA a (by simp)), ih fun x hx => hA x (by simp [hx])]

theorem Holds.insert_any (cmp : K → K → Int) {s : Tree K V} {es} (h : Holds s es) (k : K) (v : V) :
    ∃ s' es', s.insert cmp k v = .ok s' ∧ Holds s' es' ∧ s'.next = s.next + 1 := by
  obtain ⟨t, h1, h2, rfl, h4⟩ := h
  obtain ⟨s', t', A, B, e, g1, g2, g3, g4, g5, g6, -⟩ := insert_spec cmp h1 h2 k v
  exact ⟨s', _, e, ⟨t', g1, g2, rfl, by rw [g5, g4, h4, g3]; simp; omega⟩, g6⟩

theorem Holds.insert {cmp : K → K → Int} (hc : LawfulCmp cmp) {s : Tree K V} {es} (h : Holds s es)
    (hso : SortedE cmp es) (k : K) (v : V) :
    ∃ s', s.insert cmp k v = .ok s' ∧ Holds s' (insertBy cmp (·.2.1) (s.next, k, v) es) ∧
      SortedE cmp (insertBy cmp (·.2.1) (s.next, k, v) es) ∧ s'.next = s.next + 1 := by
  obtain ⟨t, h1, h2, rfl, h4⟩ := h
  obtain ⟨s', t', A, B, e, g1, g2, g3, g4, g5, g6, g7⟩ := insert_spec cmp h1 h2 k v
  obtain ⟨g8, g9⟩ := g7 hc hso
  have : insertBy cmp (·.2.1) (s.next, k, v) t.entries = t'.entries := by
    rw [g3, g4]
    exact insertBy_append A B (fun x hx => by have := g8 x hx; simp; omega) g9
  refine ⟨s', e, ⟨t', g1, g2, this.symm, ?_⟩, ?_, g6⟩
  · rw [this, g5, g4, h4, g3]; simp; omega
  · rw [this, g4]
    rw [g3] at hso
    simp only [SortedE, List.pairwise_append, List.pairwise_cons] at hso ⊢
    refine ⟨hso.1, ⟨fun e he => by have := g9 e he; omega, hso.2.1⟩, fun a ha b hb => ?_⟩
    simp at hb
    rcases hb with rfl | hb
    · exact hc.le_iff_ge.2 (g8 a ha)
    · exact hso.2.2 a ha b hb

theorem Holds.delete {s : Tree K V} {A B z k v} (h : Holds s (A ++ (z, k, v) :: B)) :
    ∃ s' es', s.delete (some z) = .ok s' ∧ Holds s' es' ∧ es'.map (·.2) = (A ++ B).map (·.2) ∧ s'.next = s.next ∧
      (es' = A ++ B ∨ ∃ y yk yv B', B = (y, yk, yv) :: B' ∧ es' = A ++ (z, yk, yv) :: B') := by
  obtain ⟨t, h1, h2, h3, h4⟩ := h
  obtain ⟨s', t', e, g1, g2, g3, g4, g5⟩ := delete_spec h1 h2 h3
  refine ⟨s', t'.entries, e, ⟨t', g1, g2, rfl, ?_⟩, ?_, g5, g3⟩
  · rcases g3 with g3 | ⟨y, yk, yv, B', rfl, g3⟩
    · rw [g4, g3, h4]; simp; omega
    · rw [g4, g3, h4]; simp; omega
  · rcases g3 with g3 | ⟨y, yk, yv, B', rfl, g3⟩ <;> simp [g3]

theorem SortedE.of_map {cmp : K → K → Int} {es es' : List (Id × K × V)} (h : SortedE cmp es)
    (hm : (es'.map (·.2)).Sublist (es.map (·.2))) : SortedE cmp es' := by
  have h1 : (es.map (·.2)).Pairwise fun a b => cmp a.1 b.1 ≤ 0 := by
    rw [List.pairwise_map]; exact h
  have h2 := h1.sublist hm
  rw [List.pairwise_map] at h2
  exact h2

theorem Holds.setValue {s : Tree K V} {A B i k v} (h : Holds s (A ++ (i, k, v) :: B)) (v' : V) :
    Holds (s.setValue i v') (A ++ (i, k, v') :: B) := by
  obtain ⟨t, h1, h2, h3, h4⟩ := h
  obtain ⟨c, l, b, r, rfl, rfl, rfl⟩ := h1.zip_of_split h3
  refine ⟨_, h1.setValue v', ?_, ?_, ?_⟩
  · obtain ⟨n, g1, g2, g3, g4⟩ := h2.zip
    have := plug_ok (t := .node l i b k v' r) g1 g2 g3 (by
      rcases g4 with g4 | g4
      · exact .inl g4
      · exact .inr (.inl g4))
    refine ⟨?_, this.1, this.2.1⟩
    cases c with
    | nil => exact h2.1
    | cons f c => exact this.2.2 (by simp)
  · rw [plug_entries]; simp
  · simpa [Tree.setValue] using h4

theorem Holds.node {s : Tree K V} {es} (h : Holds s es) {i k v} (hm : (i, k, v) ∈ es) :
    ∃ n, s.node i = .ok n ∧ n.key = k ∧ n.value = v := by
  obtain ⟨t, h1, h2, rfl, h4⟩ := h
  exact h1.lookup_entry hm

theorem Holds.successor {s : Tree K V} {A B i k v} (h : Holds s (A ++ (i, k, v) :: B)) :
    s.successor i = .ok (hd B) := by
  obtain ⟨t, h1, h2, h3, h4⟩ := h
  exact successor_spec h1 h3

theorem Holds.presuccessor {s : Tree K V} {A B i k v} (h : Holds s (A ++ (i, k, v) :: B)) :
    s.presuccessor i = .ok (lst A) := by
  obtain ⟨t, h1, h2, h3, h4⟩ := h
  exact presuccessor_spec h1 h3

theorem Holds.first {s : Tree K V} {es} (h : Holds s es) : s.first = .ok (hd es) := by
  obtain ⟨t, h1, h2, rfl, h4⟩ := h
  exact first_spec h1

theorem Holds.last {s : Tree K V} {es} (h : Holds s es) : s.last = .ok (lst es) := by
  obtain ⟨t, h1, h2, rfl, h4⟩ := h
  exact last_spec h1

theorem Holds.lower {cmp : K → K → Int} (hc : LawfulCmp cmp) {s : Tree K V} {es} (h : Holds s es)
    (hso : SortedE cmp es) (key : K) :
    s.findLowerBoundNode cmp key = .ok ((es.find? fun e => decide (cmp key e.2.1 ≤ 0)).map (·.1)) := by
  obtain ⟨t, h1, h2, rfl, h4⟩ := h
  exact findLowerBoundNode_spec hc h1 hso key

theorem Holds.upper {cmp : K → K → Int} (hc : LawfulCmp cmp) {s : Tree K V} {es} (h : Holds s es)
    (hso : SortedE cmp es) (key : K) :
    s.findUpperBoundNode cmp key = .ok ((es.find? fun e => decide (cmp key e.2.1 < 0)).map (·.1)) := by
  obtain ⟨t, h1, h2, rfl, h4⟩ := h
  exact findUpperBoundNode_spec hc h1 hso key

theorem Holds.findNode {cmp : K → K → Int} (hc : LawfulCmp cmp) {s : Tree K V} {es} (h : Holds s es)
    (hso : SortedE cmp es) (key : K) :
    s.findNode cmp key = .ok ((es.find? fun e => decide (cmp key e.2.1 = 0)).map (·.1)) := by
  obtain ⟨t, h1, h2, rfl, h4⟩ := h
  exact findNode_spec hc h1 hso key

theorem Holds.find {cmp : K → K → Int} (hc : LawfulCmp cmp) {s : Tree K V} {es} (h : Holds s es)
    (hso : SortedE cmp es) (key : K) :
    s.find cmp key = .ok ((es.find? fun e => decide (cmp key e.2.1 = 0)).map (·.2.2)) := by
  obtain ⟨t, h1, h2, rfl, h4⟩ := h
  exact find_spec hc h1 hso key

theorem Holds.traversal {S : Type} (visit : S → K → V → S × Bool) {s : Tree K V} {es} (h : Holds s es) (st : S) :
    s.traversal visit st = .ok (feed visit es st) := by
  obtain ⟨t, h1, h2, rfl, h4⟩ := h
  exact traversal_spec visit h1 st

theorem Holds.isRbTree {s : Tree K V} {es} (h : Holds s es) : s.isRbTree = .ok true := by
  obtain ⟨t, h1, h2, rfl, h4⟩ := h
  obtain ⟨ok, h5, h6⟩ := isRbTree_spec h1
  rw [h5, h6.2 h2]

theorem Holds.walk {s : Tree K V} (B : List (Id × K × V)) : ∀ (A) (fuel : Nat), Holds s (A ++ B) → B.length < fuel →
    walk s fuel (hd B) = .ok B := by
  induction B with
  | nil =>
    intro A fuel h hf
    obtain ⟨f, rfl⟩ : ∃ f, fuel = f + 1 := ⟨fuel - 1, by simp at hf; omega⟩
    simp [RB.walk]
  | cons e B ih =>
    intro A fuel h hf
    obtain ⟨f, rfl⟩ : ∃ f, fuel = f + 1 := ⟨fuel - 1, by simp at hf; omega⟩
    obtain ⟨i, k, v⟩ := e
    obtain ⟨n, h1, rfl, rfl⟩ := h.node (i := i) (k := k) (v := v) (by simp)
    have h2 := h.successor
    have h3 := ih (A ++ [(i, n.key, n.value)]) f (by simpa using h) (by simp at hf; omega)
    simp [RB.walk, h1, h2, h3]

theorem Holds.toList {s : Tree K V} {es} (h : Holds s es) : toList s = .ok es := by
  simp only [RB.toList, h.first, Res.ok_bind]
  exact Holds.walk es [] s.fuel (by simpa using h) (by have := h.length_le; simp only [Tree.fuel]; omega)

theorem Holds.walkBack {s : Tree K V} (n : Nat) : ∀ (A B) (fuel : Nat), A.length = n → Holds s (A ++ B) → A.length < fuel →
    walkBack s fuel (lst A) = .ok A.reverse := by
  induction n with
  | zero =>
    intro A B fuel hl h hf
    have : A = [] := by simpa using hl
    subst this
    obtain ⟨f, rfl⟩ : ∃ f, fuel = f + 1 := ⟨fuel - 1, by simp at hf; omega⟩
    simp [RB.walkBack]
  | succ m ih =>
    intro A B fuel hl h hf
    obtain ⟨f, rfl⟩ : ∃ f, fuel = f + 1 := ⟨fuel - 1, by omega⟩
    obtain ⟨A', ⟨i, k, v⟩, rfl⟩ : ∃ A' e, A = A' ++ [e] := by
      have hne : A ≠ [] := by rintro rfl; simp at hl
      exact ⟨A.dropLast, A.getLast hne, (List.dropLast_append_getLast hne).symm⟩
    obtain ⟨n, h1, rfl, rfl⟩ := h.node (i := i) (k := k) (v := v) (by simp)
    have h' : Holds s (A' ++ (i, n.key, n.value) :: B) := by simpa using h
    have h2 := h'.presuccessor
    have h3 := ih A' ((i, n.key, n.value) :: B) f (by simpa using hl) h' (by simp at hf; omega)
    simp [RB.walkBack, h1, h2, h3]

theorem Holds.toListBack {s : Tree K V} {es} (h : Holds s es) : toListBack s = .ok es.reverse := by
  simp only [RB.toListBack, h.last, Res.ok_bind]
  exact Holds.walkBack es.length es [] s.fuel rfl (by simpa using h) (by have := h.length_le; simp only [Tree.fuel]; omega)

end GoSTL.RB
