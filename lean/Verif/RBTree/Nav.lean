import Verif.RBTree.Delete
import Verif.RBTree.Spec
/-!
# Navigation: minimum, maximum, successor, predecessor, first, last, traversal
-/
namespace GoSTL.RB
open T
variable {K V : Type}

/-- id of the first entry -/
def hd (es : List (Id × K × V)) : Option Id := es.head?.map (·.1)
/-- id of the last entry -/
def lst (es : List (Id × K × V)) : Option Id := es.getLast?.map (·.1)

@[simp] theorem hd_nil : hd ([] : List (Id × K × V)) = none := rfl
@[simp] theorem hd_cons (e : Id × K × V) (es) : hd (e :: es) = some e.1 := rfl
@[simp] theorem lst_nil : lst ([] : List (Id × K × V)) = none := rfl
@[simp] theorem lst_append_singleton (e : Id × K × V) (es) : lst (es ++ [e]) = some e.1 := by simp [lst]

/-- The leftmost node of a subtree, as a zipper. -/
theorem minimumLoop_zip (s : Tree K V) (fuel : Nat) : ∀ (c : Ctx K V) (l r : T K V) (i b k v), 
    (T.node l i b k v r).height < fuel → Reps s (plug c (.node l i b k v r)) →
    ∃ c' i' b' k' v' r', s.minimumLoop fuel i = .ok i' ∧ plug c' (.node .leaf i' b' k' v' r') = plug c (.node l i b k v r) ∧
      leftEntries c' = leftEntries c ∧
      (i', k', v') :: (r'.entries ++ rightEntries c') = l.entries ++ (i, k, v) :: (r.entries ++ rightEntries c) := by
  induction fuel with
  | zero => intro c l r i b k v h; omega
  | succ fuel ih =>
    intro c l r i b k v hh hs
    cases l with
    | leaf => exact ⟨c, i, b, k, v, r, by simp [Tree.minimumLoop, hs.node_eq], rfl, rfl, rfl⟩
    | node ll li lb lk lv lr =>
      obtain ⟨c', i', b', k', v', r', h1, h2, h3, h4⟩ := ih (.L i b k v r :: c) ll lr li lb lk lv
        (by simp at hh ⊢; omega) hs
      exact ⟨c', i', b', k', v', r', by simp [Tree.minimumLoop, hs.node_eq, h1], h2, by simpa using h3, by simpa using h4⟩

theorem maximumLoop_zip (s : Tree K V) (fuel : Nat) : ∀ (c : Ctx K V) (l r : T K V) (i b k v), 
    (T.node l i b k v r).height < fuel → Reps s (plug c (.node l i b k v r)) →
    ∃ c' i' b' k' v' l', s.maximumLoop fuel i = .ok i' ∧ plug c' (.node l' i' b' k' v' .leaf) = plug c (.node l i b k v r) ∧
      rightEntries c' = rightEntries c ∧
      leftEntries c' ++ l'.entries ++ [(i', k', v')] = leftEntries c ++ l.entries ++ (i, k, v) :: r.entries := by
  induction fuel with
  | zero => intro c l r i b k v h; omega
  | succ fuel ih =>
    intro c l r i b k v hh hs
    cases r with
    | leaf => exact ⟨c, i, b, k, v, l, by simp [Tree.maximumLoop, hs.node_eq], rfl, rfl, rfl⟩
    | node ll li lb lk lv lr =>
      obtain ⟨c', i', b', k', v', r', h1, h2, h3, h4⟩ := ih (.R l i b k v :: c) ll lr li lb lk lv
        (by simp at hh ⊢; omega) hs
      exact ⟨c', i', b', k', v', r', by simp [Tree.maximumLoop, hs.node_eq, h1], h2, by simpa using h3, by simpa using h4⟩

theorem succClimb_spec (s : Tree K V) (fuel : Nat) : ∀ (c : Ctx K V) (t : T K V) (x : Id),
    c.length < fuel → t.rootId = some x → Reps s (plug c t) →
    s.succClimb fuel x (parentId c) = .ok (hd (rightEntries c)) := by
  induction fuel with
  | zero => intro c t x h; omega
  | succ fuel ih =>
    intro c t x hh hx hs
    rcases c with _ | ⟨f, c⟩
    · simp [Tree.succClimb]
    · cases f with
      | L i b k v r =>
        have hi := Reps.node_eq (c := c) hs
        have hne : r.rootId ≠ some x := by
          intro h
          exact hs.split.2.2.2.2 x (rootId_mem hx) x (by simp [rootId_mem h]) rfl
        simp [Tree.succClimb, hi, hne]
      | R l i b k v =>
        have hi := Reps.node_eq (c := c) hs
        simp only [Tree.succClimb, parentId_cons, Frame.id_R, hi, Res.ok_bind, hx, if_true, rightEntries]
        exact ih c (.node l i b k v t) i (by simp at hh; omega) rfl hs

theorem successorB_zip {s : Tree K V} {c : Ctx K V} {l r : T K V} {i b k v} {B : Nat}
    (hs : Reps s (plug c (.node l i b k v r))) (hB : (plug c (.node l i b k v r)).height < B) :
    Tree.successorB B s i = .ok (hd (r.entries ++ rightEntries c)) := by
  have hlen := plug_height c (.node l i b k v r)
  cases r with
  | leaf =>
    simp only [Tree.successorB, hs.node_eq, Res.ok_bind, rootId_leaf]
    simpa using succClimb_spec s B c _ i (by omega) rfl hs
  | node rl ri rb rk rv rr =>
    have hlen' : _ ≤ (plug c (.node l i b k v (.node rl ri rb rk rv rr))).height := plug_height (.R l i b k v :: c) (.node rl ri rb rk rv rr)
    obtain ⟨c', i', b', k', v', r', h1, h2, h3, h4⟩ :=
      minimumLoop_zip s B (.R l i b k v :: c) rl rr ri rb rk rv (by omega) hs
    simp only [Tree.successorB, hs.node_eq, Res.ok_bind, rootId_node, h1, Res.pure_eq]
    have : rl.entries ++ (ri, rk, rv) :: rr.entries ++ rightEntries c = (i', k', v') :: (r'.entries ++ rightEntries c') := by
      rw [h4]; simp
    simp only [T.entries]
    rw [this]; rfl

theorem successor_zip {s : Tree K V} {c : Ctx K V} {l r : T K V} {i b k v}
    (hs : Reps s (plug c (.node l i b k v r))) :
    s.successor i = .ok (hd (r.entries ++ rightEntries c)) := successorB_zip hs hs.height_lt

theorem predClimb_spec (s : Tree K V) (fuel : Nat) : ∀ (c : Ctx K V) (l r : T K V) (x b k v),
    c.length < fuel → Reps s (plug c (.node l x b k v r)) →
    s.predClimb fuel x = .ok (lst (leftEntries c)) := by
  induction fuel with
  | zero => intro c _ _ _ _ _ _ h; omega
  | succ fuel ih =>
    intro c l r x b k v hh hs
    have hx := hs.node_eq
    rcases c with _ | ⟨f, c⟩
    · simp [Tree.predClimb, hx]
    · cases f with
      | R l' i b' k' v' =>
        have hi := Reps.node_eq (c := c) hs
        have hne : l'.rootId ≠ some x := by
          intro h
          exact hs.split.2.2.2.2 x (by simp) x (by simp [rootId_mem h]) rfl
        simp only [leftEntries, lst_append_singleton]
        simp [Tree.predClimb, hx, hi, hne]
      | L i b' k' v' r' =>
        have hi := Reps.node_eq (c := c) hs
        simp only [Tree.predClimb, hx, parentId_cons, Frame.id_L, hi, Res.ok_bind, rootId_node, if_true, leftEntries]
        exact ih c _ _ i _ _ _ (by simp at hh; omega) hs

theorem presuccessorB_zip {s : Tree K V} {c : Ctx K V} {l r : T K V} {i b k v} {B : Nat}
    (hs : Reps s (plug c (.node l i b k v r))) (hB : (plug c (.node l i b k v r)).height < B) :
    Tree.presuccessorB B s i = .ok (lst (leftEntries c ++ l.entries)) := by
  have hlen := plug_height c (.node l i b k v r)
  cases l with
  | leaf =>
    simp only [Tree.presuccessorB, hs.node_eq, Res.ok_bind, rootId_leaf]
    rcases c with _ | ⟨f, c⟩
    · simp
    · have := predClimb_spec s B (f :: c) _ _ i _ _ _ (by omega) hs
      cases f with
      | R l' j b' k' v' =>
        have hi := Reps.node_eq (c := c) hs
        simp only [leftEntries, lst_append_singleton, T.entries, List.append_nil]
        simp [hi]
      | L j b' k' v' r' =>
        have hi := Reps.node_eq (c := c) hs
        have hne : r'.rootId ≠ some i := by
          intro h
          exact hs.split.2.2.2.2 i (by simp) i (by simp [rootId_mem h]) rfl
        simp [hi, hne, this]
  | node rl ri rb rk rv rr =>
    have hlen' : _ ≤ (plug c (.node (.node rl ri rb rk rv rr) i b k v r)).height := plug_height (.L i b k v r :: c) (.node rl ri rb rk rv rr)
    obtain ⟨c', i', b', k', v', r', h1, h2, h3, h4⟩ :=
      maximumLoop_zip s B (.L i b k v r :: c) rl rr ri rb rk rv (by omega) hs
    simp only [Tree.presuccessorB, hs.node_eq, Res.ok_bind, rootId_node, h1, Res.pure_eq]
    have : leftEntries c ++ (rl.entries ++ (ri, rk, rv) :: rr.entries) = leftEntries c' ++ r'.entries ++ [(i', k', v')] := by
      rw [h4]; simp
    simp only [T.entries]
    rw [this, lst_append_singleton]

theorem presuccessor_zip {s : Tree K V} {c : Ctx K V} {l r : T K V} {i b k v}
    (hs : Reps s (plug c (.node l i b k v r))) :
    s.presuccessor i = .ok (lst (leftEntries c ++ l.entries)) := presuccessorB_zip hs hs.height_lt

/-- The position of an id in the entries determines the split. -/
theorem split_unique {A B A' B' : List (Id × K × V)} {i : Id} {x x' : K × V}
    (h : A ++ (i, x) :: B = A' ++ (i, x') :: B') (hn : ((A ++ (i, x) :: B).map (·.1)).Nodup) :
    A = A' ∧ x = x' ∧ B = B' := by
  induction A generalizing A' with
  | nil =>
    cases A' with
    | nil => simp at h; exact ⟨rfl, h.1, h.2⟩
    | cons a A' =>
      simp at h
      obtain ⟨rfl, h⟩ := h
      simp [h] at hn
  | cons a A ih =>
    cases A' with
    | nil =>
      simp at h
      obtain ⟨rfl, h⟩ := h
      simp at hn
    | cons a' A' =>
      simp at h
      obtain ⟨rfl, h⟩ := h
      simp only [List.cons_append, List.map_cons, List.nodup_cons] at hn
      obtain ⟨h1, h2, h3⟩ := ih h hn.2
      exact ⟨by rw [h1], h2, h3⟩

/-- A split of the in-order entries at a node, as a zipper. -/
theorem Reps.zip_of_split {s : Tree K V} {t : T K V} (hs : Reps s t) {A B i k v} (h : t.entries = A ++ (i, k, v) :: B) :
    ∃ c l b r, t = plug c (.node l i b k v r) ∧ A = leftEntries c ++ l.entries ∧ B = r.entries ++ rightEntries c := by
  have hi : i ∈ t.ids := by rw [T.ids_eq, h]; simp
  obtain ⟨c, l, b, k', v', r, rfl⟩ := exists_zipper hi
  rw [plug_entries] at h
  simp only [T.entries] at h
  have h' : A ++ (i, k, v) :: B = (leftEntries c ++ l.entries) ++ (i, k', v') :: (r.entries ++ rightEntries c) := by
    rw [← h]; simp
  have hn : ((A ++ (i, k, v) :: B).map (·.1)).Nodup := by
    rw [h', ]
    have := hs.nodup
    rw [T.ids_eq, plug_entries] at this
    simpa using this
  obtain ⟨h1, h2, h3⟩ := split_unique h' hn
  simp at h2
  obtain ⟨rfl, rfl⟩ := h2
  exact ⟨c, l, b, r, rfl, h1, h3⟩

theorem Reps.lookup_entry {s : Tree K V} {t : T K V} (hs : Reps s t) {i k v} (h : (i, k, v) ∈ t.entries) :
    ∃ n, s.node i = .ok n ∧ n.key = k ∧ n.value = v := by
  obtain ⟨A, B, h⟩ := List.append_of_mem h
  obtain ⟨c, l, b, r, rfl, -, -⟩ := hs.zip_of_split h
  exact ⟨_, hs.node_eq, rfl, rfl⟩

/-- `Next`: the id of the following entry. -/
theorem successor_spec {s : Tree K V} {t : T K V} (hs : Reps s t) {A B i k v} (h : t.entries = A ++ (i, k, v) :: B) :
    s.successor i = .ok (hd B) := by
  obtain ⟨c, l, b, r, rfl, -, rfl⟩ := hs.zip_of_split h
  exact successor_zip hs

/-- `Prev`: the id of the preceding entry. -/
theorem presuccessor_spec {s : Tree K V} {t : T K V} (hs : Reps s t) {A B i k v} (h : t.entries = A ++ (i, k, v) :: B) :
    s.presuccessor i = .ok (lst A) := by
  obtain ⟨c, l, b, r, rfl, rfl, -⟩ := hs.zip_of_split h
  exact presuccessor_zip hs

theorem first_spec {s : Tree K V} {t : T K V} (hs : Reps s t) : s.first = .ok (hd t.entries) := by
  cases t with
  | leaf => simp [Tree.first, hs.root]
  | node l i b k v r =>
    have hh := (T.node l i b k v r).height_le
    have hl := hs.length_le
    obtain ⟨c', i', b', k', v', r', h1, h2, h3, h4⟩ :=
      minimumLoop_zip s s.fuel [] l r i b k v (by simp only [Tree.fuel]; omega) hs
    simp only [Tree.first, hs.root, rootId_node, h1, Res.ok_bind, Res.pure_eq, T.entries]
    simp only [rightEntries, List.append_nil] at h4
    rw [← h4]; rfl

theorem last_spec {s : Tree K V} {t : T K V} (hs : Reps s t) : s.last = .ok (lst t.entries) := by
  cases t with
  | leaf => simp [Tree.last, hs.root]
  | node l i b k v r =>
    have hh := (T.node l i b k v r).height_le
    have hl := hs.length_le
    obtain ⟨c', i', b', k', v', r', h1, h2, h3, h4⟩ :=
      maximumLoop_zip s s.fuel [] l r i b k v (by simp only [Tree.fuel]; omega) hs
    simp only [Tree.last, hs.root, rootId_node, h1, Res.ok_bind, Res.pure_eq, T.entries]
    simp only [leftEntries, List.nil_append] at h4
    rw [← h4, lst_append_singleton]

theorem traversalLoop_spec {S : Type} (visit : S → K → V → S × Bool) {s : Tree K V} {t : T K V} (hs : Reps s t)
    (B : List (Id × K × V)) : ∀ (A : List (Id × K × V)) (fuel : Nat) (st : S), t.entries = A ++ B → B.length < fuel →
    s.traversalLoop visit fuel (hd B) st = .ok (feed visit B st) := by
  induction B with
  | nil =>
    intro A fuel st _ hf
    obtain ⟨f, rfl⟩ : ∃ f, fuel = f + 1 := ⟨fuel - 1, by simp at hf; omega⟩
    simp [Tree.traversalLoop, feed]
  | cons e B ih =>
    intro A fuel st h hf
    obtain ⟨f, rfl⟩ : ∃ f, fuel = f + 1 := ⟨fuel - 1, by simp at hf; omega⟩
    obtain ⟨i, k, v⟩ := e
    obtain ⟨n, h1, rfl, rfl⟩ := hs.lookup_entry (i := i) (k := k) (v := v) (by rw [h]; simp)
    have h2 := successor_spec hs h
    have := ih (A ++ [(i, n.key, n.value)]) f
    cases hv : visit st n.key n.value with
    | mk st' go =>
      cases go with
      | true => simp [Tree.traversalLoop, feed, h1, hv, h2, this st' (by simp [h]) (by simp at hf; omega)]
      | false => simp [Tree.traversalLoop, feed, h1, hv]

theorem traversal_spec {S : Type} (visit : S → K → V → S × Bool) {s : Tree K V} {t : T K V} (hs : Reps s t) (st : S) :
    s.traversal visit st = .ok (feed visit t.entries st) := by
  have hl := hs.length_le
  rw [T.ids_eq] at hl
  simp at hl
  simp only [Tree.traversal, first_spec hs, Res.ok_bind]
  exact traversalLoop_spec visit hs t.entries [] s.fuel st (by simp) (by simp [Tree.fuel]; omega)

end GoSTL.RB
