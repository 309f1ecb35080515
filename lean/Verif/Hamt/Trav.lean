import Verif.Hamt.Proofs
/-!
# Traversal
-/
namespace GoSTL.Hamt
variable {T : Type} {σ : Type}

mutual
/-- The pairs of a subtrie, in the order of the trie. -/
def flat : Entry T → List (Key × T)
  | .kv _ l => l
  | .node _ _ cs => flatL cs
/-- The pairs of a list of subtries. -/
def flatL : List (Entry T) → List (Key × T)
  | [] => []
  | e :: es => flat e ++ flatL es
end

theorem mem_flatL {cs : List (Entry T)} {x : Key × T} : x ∈ flatL cs ↔ ∃ c ∈ cs, x ∈ flat c := by
  induction cs with
  | nil => simp [flatL]
  | cons c cs ih => simp [flatL, ih]

theorem WF.flat {hashOf : Key → Hash} {path : List Nat} {e : Entry T} (h : WF hashOf path e) :
    (∀ k v, (k, v) ∈ flat e ↔ Has e k v) ∧ ((Hamt.flat e).map Prod.fst).Nodup := by
  induction h with
  | kv h1 h2 h3 h4 =>
    refine ⟨fun k v => ?_, ?_⟩
    · rw [Hamt.flat, has_kv]
    · rw [Hamt.flat]; exact h2
  | @node path bm p cs h1 h2 h3 h4 ih =>
    refine ⟨fun k v => ?_, ?_⟩
    · rw [Hamt.flat, mem_flatL, has_node]
      constructor
      · rintro ⟨c, hc, h⟩; exact ⟨c, hc, ((ih c hc).1 k v).1 h⟩
      · rintro ⟨c, hc, h⟩; exact ⟨c, hc, ((ih c hc).1 k v).2 h⟩
    · rw [Hamt.flat]
      have hnd : (cs.map (posAt path.length)).Nodup := h2 ▸ bits_nodup bm
      clear h2 h4
      induction cs with
      | nil => simp [flatL]
      | cons c cs ihc =>
        rw [List.map_cons, List.nodup_cons] at hnd
        rw [flatL, List.map_append, List.nodup_append]
        refine ⟨(ih c (by simp)).2, ihc (fun x hx => h3 x (by simp [hx])) (fun x hx => ih x (by simp [hx])) hnd.2, ?_⟩
        rintro k hk k' hk' rfl
        obtain ⟨⟨k1, v⟩, hx, rfl⟩ := List.mem_map.1 hk
        obtain ⟨⟨k2, v'⟩, hy, e⟩ := List.mem_map.1 hk'
        simp only at e; subst e
        obtain ⟨c', hc', hy⟩ := mem_flatL.1 hy
        have a := (OnPath.snoc.1 ((h3 c (by simp)).onPath _ _ (((ih c (by simp)).1 _ _).1 hx))).2
        have b := (OnPath.snoc.1 ((h3 c' (by simp [hc'])).onPath _ _ (((ih c' (by simp [hc'])).1 _ _).1 hy))).2
        exact hnd.1 (List.mem_map.2 ⟨c', hc', by rw [← b, ← a]⟩)

theorem flatL_has {hashOf : Key → Hash} {path : List Nat} {n : Node T} (hn : WFN hashOf path n) :
    (∀ k v, (k, v) ∈ flatL n.children ↔ HasL n.children k v) ∧ ((flatL n.children).map Prod.fst).Nodup := by
  constructor
  · intro k v
    rw [mem_flatL]
    constructor
    · rintro ⟨c, hc, h⟩; exact ⟨c, hc, ((hn.sub c hc).flat.1 k v).1 h⟩
    · rintro ⟨c, hc, h⟩; exact ⟨c, hc, ((hn.sub c hc).flat.1 k v).2 h⟩
  · have h3 := hn.sub
    have hnd : (n.children.map (posAt path.length)).Nodup := hn.slots ▸ bits_nodup n.bitmap
    revert h3 hnd
    generalize n.children = cs
    intro h3 hnd
    induction cs with
    | nil => simp [flatL]
    | cons c cs ihc =>
      rw [List.map_cons, List.nodup_cons] at hnd
      rw [flatL, List.map_append, List.nodup_append]
      refine ⟨(h3 c (by simp)).flat.2, ihc (fun x hx => h3 x (by simp [hx])) hnd.2, ?_⟩
      rintro k hk k' hk' rfl
      obtain ⟨⟨k1, v⟩, hx, rfl⟩ := List.mem_map.1 hk
      obtain ⟨⟨k2, v'⟩, hy, e⟩ := List.mem_map.1 hk'
      simp only at e; subst e
      obtain ⟨c', hc', hy⟩ := mem_flatL.1 hy
      have a := (OnPath.snoc.1 ((h3 c (by simp)).onPath _ _ (((h3 c (by simp)).flat.1 _ _).1 hx))).2
      have b := (OnPath.snoc.1 ((h3 c' (by simp [hc'])).onPath _ _ (((h3 c' (by simp [hc'])).flat.1 _ _).1 hy))).2
      exact hnd.1 (List.mem_map.2 ⟨c', hc', by rw [← b, ← a]⟩)

/-- The visitor's state after the given visits. -/
def visits (visit : σ → Key → T → σ × Bool) (s : σ) (V : List (Key × T)) : σ := V.foldl (fun s x => (visit s x.1 x.2).1) s

/-- Every one of the given visits says to go on. -/
def Going (visit : σ → Key → T → σ × Bool) (s : σ) : List (Key × T) → Prop
  | [] => True
  | x :: V => (visit s x.1 x.2).2 = true ∧ Going visit (visit s x.1 x.2).1 V

/-- `V` is what gets visited of `E`: all of it if no visit says stop, and otherwise all of it up to the first stop, followed by some of the rest. -/
inductive Visited (visit : σ → Key → T → σ × Bool) (s : σ) (E V : List (Key × T)) : Prop
  | all : V = E → Going visit s E → Visited visit s E V
  | stopped (A B V' : List (Key × T)) (x : Key × T) : E = A ++ x :: B → Going visit s A → (visit (visits visit s A) x.1 x.2).2 = false →
      V = A ++ x :: V' → V'.Sublist B → Visited visit s E V

theorem visits_append (visit : σ → Key → T → σ × Bool) (s : σ) (A B : List (Key × T)) : visits visit s (A ++ B) = visits visit (visits visit s A) B := by
  simp [visits]

theorem Going.append {visit : σ → Key → T → σ × Bool} {A B : List (Key × T)} : ∀ {s : σ}, Going visit s (A ++ B) ↔ Going visit s A ∧ Going visit (visits visit s A) B := by
  induction A with
  | nil => intro s; simp [Going, visits]
  | cons x A ih =>
    intro s
    simp only [List.cons_append, Going, ih, and_assoc]
    rfl

theorem Visited.sublist {visit : σ → Key → T → σ × Bool} {s : σ} {E V : List (Key × T)} (h : Visited visit s E V) : V.Sublist E := by
  cases h with
  | all h _ => rw [h]
  | stopped A B V' x h1 h2 h3 h4 h5 =>
    rw [h1, h4]
    exact (List.Sublist.refl A).append (h5.cons_cons x)

theorem Visited.append {visit : σ → Key → T → σ × Bool} {s : σ} {E V E' V' : List (Key × T)} (h : Visited visit s E V) (h' : Visited visit (visits visit s V) E' V') :
    Visited visit s (E ++ E') (V ++ V') := by
  cases h with
  | all e g =>
    subst e
    cases h' with
    | all e' g' => exact .all (by rw [e']) (Going.append.2 ⟨g, g'⟩)
    | stopped A B W x h1 h2 h3 h4 h5 =>
      refine .stopped (V ++ A) B W x (by simp [h1]) (Going.append.2 ⟨g, h2⟩) (by rw [visits_append]; exact h3) (by simp [h4]) h5
  | stopped A B W x h1 h2 h3 h4 h5 =>
    exact .stopped A (B ++ E') (W ++ V') x (by simp [h1]) h2 h3 (by simp [h4]) (h5.append h'.sublist)

theorem visitKvs_spec (visit : σ → Key → T → σ × Bool) : ∀ (l : List (Key × T)) (s : σ),
    (Going visit s l ∧ visitKvs visit l s = (visits visit s l, true)) ∨
    ∃ A x B, l = A ++ x :: B ∧ Going visit s A ∧ (visit (visits visit s A) x.1 x.2).2 = false ∧ visitKvs visit l s = (visits visit s (A ++ [x]), false) := by
  intro l
  induction l with
  | nil => intro s; exact .inl ⟨trivial, rfl⟩
  | cons y l ih =>
    obtain ⟨k, v⟩ := y
    intro s
    simp only [visitKvs]
    rcases hv : visit s k v with ⟨s', b⟩
    cases b with
    | false =>
      refine .inr ⟨[], (k, v), l, rfl, trivial, ?_, ?_⟩
      · show (visit s k v).2 = false; rw [hv]
      · show (s', false) = ((visit s k v).1, false); rw [hv]
    | true =>
      rcases ih s' with ⟨h1, h2⟩ | ⟨A, x, B, h1, h2, h3, h4⟩
      · refine .inl ⟨?_, ?_⟩
        · show (visit s k v).2 = true ∧ Going visit (visit s k v).1 l
          rw [hv]; exact ⟨rfl, h1⟩
        · dsimp only; rw [h2]; simp only [visits, List.foldl_cons, hv]
      · refine .inr ⟨(k, v) :: A, x, B, by simp [h1], ?_, ?_, ?_⟩
        · show (visit s k v).2 = true ∧ Going visit (visit s k v).1 A
          rw [hv]; exact ⟨rfl, h2⟩
        · simp only [visits, List.foldl_cons, hv]; exact h3
        · dsimp only; rw [h4]; simp only [List.cons_append, visits, List.foldl_cons, hv]

theorem traversal_spec {hashOf : Key → Hash} (visit : σ → Key → T → σ × Bool) : ∀ (f : Nat) (path : List Nat) (cs : List (Entry T)) (s : σ),
    path.length ≤ 10 → (∀ c ∈ cs, WF hashOf (path ++ [posAt path.length c]) c) → 11 ≤ f + path.length →
    ∃ V, traversal visit f cs s = .ok (visits visit s V) ∧ Visited visit s (flatL cs) V := by
  intro f
  induction f with
  | zero => intro path cs s h _ hf; omega
  | succ f ih =>
    intro path cs
    simp only [traversal]
    induction cs with
    | nil => intro s _ _ _; exact ⟨[], rfl, .all rfl trivial⟩
    | cons c cs ihc =>
      intro s hl hw hf
      have hc := hw c (by simp)
      have hrest := fun s => ihc s hl (fun x hx => hw x (by simp [hx])) hf
      cases c with
      | kv h l =>
        simp only [travLoop, flatL, flat]
        rcases visitKvs_spec visit l s with ⟨h1, h2⟩ | ⟨A, x, B, h1, h2, h3, h4⟩
        · rw [h2]
          obtain ⟨V, e1, e2⟩ := hrest (visits visit s l)
          exact ⟨l ++ V, by simp only [e1, visits_append], Visited.append (.all rfl h1) e2⟩
        · rw [h4]
          exact ⟨A ++ [x], rfl, .stopped A (B ++ flatL cs) [] x (by simp [h1]) h2 h3 rfl (List.nil_sublist _)⟩
      | node bm p cs' =>
        simp only [travLoop, flatL, flat]
        cases hc with
        | node w1 w2 w3 w4 =>
        obtain ⟨V1, e1, e2⟩ := ih _ cs' s w1 w3 (by simp; omega)
        obtain ⟨V2, e3, e4⟩ := hrest (visits visit s V1)
        rw [e1]; simp only [Res.ok_bind]
        exact ⟨V1 ++ V2, by rw [e3, visits_append], e2.append e4⟩

end GoSTL.Hamt
