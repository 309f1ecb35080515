import Verif.TreeMap.Reentrant
import Verif.TreeMap.MultiProps
/-!
# C100: `Traversal` of a multimap or a multiset with a visitor that changes the container

The loop is that of C96 (rbtree.go:399-405 for `MultiMap.Traversal`, multimap.go:142-147; multiset.go:155-164 for `MultiSet.Traversal`); the calls are those of the
multi containers. Entries with equal keys are told apart by their place, so the specification walks with a marked place in a list.
-/
namespace GoSTL.TreeMap
open GoSTL.RB

variable {K V σ Call : Type} {cmp : K → K → Int}

/-! ## Model -/

/-- The calls a visitor of a multimap makes. -/
inductive MultiMapCall (K V : Type)
  | insert (k : K) (v : V)
  | erase (k : K)

/-- multimap.go:30-35 `Insert`, 50-61 `Erase`. -/
def multiMapCall (cmp : K → K → Int) : MultiMapCall K V → Tree K V → Res (Tree K V)
  | .insert k v, t => multiMapInsert cmp t k v
  | .erase k, t => eraseAll cmp t k

/-- The calls a visitor of a multiset makes. -/
inductive MultiSetCall (K : Type)
  | insert (x : K)
  | erase (x : K)
  | eraseAll (x : K)

/-- multiset.go:33-38 `Insert`, 41-49 `Erase`, 52-63 `EraseAll`. -/
def multiSetCall (cmp : K → K → Int) : MultiSetCall K → Tree K Bool → Res (Tree K Bool)
  | .insert x, t => multiSetInsert cmp t x
  | .erase x, t => eraseOne cmp t x
  | .eraseAll x, t => eraseAll cmp t x

/-! ## Specification: a walk over a list with a marked place -/

/-- A list of entries with one entry marked. -/
structure Spot (K V : Type) where
  before : List (K × V)
  here : K × V
  after : List (K × V)

/-- The list without the mark. -/
def Spot.all (z : Spot K V) : List (K × V) := z.before ++ z.here :: z.after

/-- A new entry goes behind all entries whose key is not above its own: so behind the marked entry, unless its key is below the marked one. -/
def Spot.put (cmp : K → K → Int) (k : K) (v : V) (z : Spot K V) : Spot K V :=
  if cmp k z.here.1 < 0 then { z with before := insertBy cmp (·.1) (k, v) z.before } else { z with after := insertBy cmp (·.1) (k, v) z.after }

/-- All entries of a key but the marked one go. -/
def Spot.dropAll (cmp : K → K → Int) (k : K) (z : Spot K V) : Spot K V :=
  { z with before := z.before.filter fun e => decide (cmp k e.1 ≠ 0), after := z.after.filter fun e => decide (cmp k e.1 ≠ 0) }

/-- The first entry of a key goes, other than the marked one. -/
def Spot.dropOne (cmp : K → K → Int) (k : K) (z : Spot K V) : Spot K V :=
  if z.before.any (fun e => decide (cmp k e.1 = 0)) then { z with before := z.before.eraseP fun e => decide (cmp k e.1 = 0) }
  else { z with after := z.after.eraseP fun e => decide (cmp k e.1 = 0) }

/-- What a call does to the marked list of a multimap. -/
def spotMap (cmp : K → K → Int) : MultiMapCall K V → Spot K V → Spot K V
  | .insert k v, z => z.put cmp k v
  | .erase k, z => z.dropAll cmp k

/-- What a call does to the marked list of a multiset. -/
def spotSet (cmp : K → K → Int) : MultiSetCall K → Spot K Bool → Spot K Bool
  | .insert x, z => z.put cmp x true
  | .erase x, z => z.dropOne cmp x
  | .eraseAll x, z => z.dropAll cmp x

/-- The walk: the first entry not passed yet is visited, the visitor's calls take effect, the mark moves behind the visited entry. -/
def spotLoop (spec : Call → Spot K V → Spot K V) (visit : Visitor K V σ Call) :
    Nat → List (K × V) → List (K × V) → σ → Res (List (K × V) × σ × List (K × V))
  | 0, _, _, _ => .outOfFuel
  | _ + 1, L, [], s => .ok ([], s, L)
  | f + 1, L, e :: R, s =>
    let a := visit (L ++ e :: R) s e.1 e.2
    let z := a.calls.foldl (fun z c => spec c z) ⟨L, e, R⟩
    if a.go then do
      let r ← spotLoop spec visit f (z.before ++ [z.here]) z.after a.st
      .ok (e :: r.1, r.2)
    else .ok ([e], a.st, z.all)

/-- Erasing all entries of `x` is safe when the marked entry is not one of them, nor is the entry right before it: they are behind the mark, or an entry of a
greater key lies between, or there are none in front of the mark. -/
def SafeAll (cmp : K → K → Int) (x : K) (z : Spot K V) : Prop :=
  cmp x z.here.1 ≠ 0 ∧ (cmp z.here.1 x < 0 ∨ (∃ e ∈ z.before, cmp x e.1 < 0) ∨ ∀ e ∈ z.before, cmp x e.1 ≠ 0)

/-- Erasing the first entry of `x` is safe when that one is neither the marked entry nor the one right before it. -/
def SafeOne (cmp : K → K → Int) (x : K) (z : Spot K V) : Prop :=
  (∃ A o c C, z.before = A ++ o :: c :: C ∧ cmp x o.1 = 0 ∧ ∀ a ∈ A, cmp x a.1 ≠ 0) ∨ ((∀ e ∈ z.before, cmp x e.1 ≠ 0) ∧ cmp x z.here.1 ≠ 0)

/-- Safe calls of a multimap's visitor: any `Insert`, and safe erasures. -/
def MultiMapCall.Safe (cmp : K → K → Int) (z : Spot K V) : MultiMapCall K V → Prop
  | .insert _ _ => True
  | .erase x => SafeAll cmp x z

/-- Safe calls of a multiset's visitor. -/
def MultiSetCall.Safe (cmp : K → K → Int) (z : Spot K Bool) : MultiSetCall K → Prop
  | .insert _ => True
  | .erase x => SafeOne cmp x z
  | .eraseAll x => SafeAll cmp x z

/-- All calls of one visit are safe, each at its time. -/
def AllSafeAt (safe : Spot K V → Call → Prop) (spec : Call → Spot K V → Spot K V) : List Call → Spot K V → Prop
  | [], _ => True
  | c :: cs, z => safe z c ∧ AllSafeAt safe spec cs (spec c z)

/-! ## Proofs -/

/-- The tree `t` holds the marked list, and the node `i` is the marked entry. -/
def At (cmp : K → K → Int) (t : Tree K V) (i : Id) (z : Spot K V) : Prop :=
  ∃ A B, HoldsS cmp t (A ++ (i, z.here) :: B) ∧ A.map (·.2) = z.before ∧ B.map (·.2) = z.after

theorem insertBy_append_lt {α : Type} (key : α → K) (e x : α) (hlt : cmp (key e) (key x) < 0) : ∀ A B : List α,
    insertBy cmp key e (A ++ x :: B) = insertBy cmp key e A ++ x :: B
  | [], B => by simp [insertBy, hlt]
  | a :: A, B => by
    simp only [List.cons_append, insertBy]
    split
    · rfl
    · rw [insertBy_append_lt key e x hlt A B]; rfl

theorem insertBy_append_ge {α : Type} (key : α → K) (e : α) : ∀ A B : List α, (∀ a ∈ A, ¬ cmp (key e) (key a) < 0) →
    insertBy cmp key e (A ++ B) = A ++ insertBy cmp key e B
  | [], B, _ => rfl
  | a :: A, B, h => by
    simp only [List.cons_append, insertBy]
    rw [if_neg (h a (by simp)), insertBy_append_ge key e A B fun x hx => h x (by simp [hx])]

theorem At.sorted {t : Tree K V} {i : Id} {z : Spot K V} (h : At cmp t i z) : SortedKV cmp z.all := by
  obtain ⟨A, B, h1, h2, h3⟩ := h
  have : HoldsKV cmp t z.all := ⟨_, h1, by simp [Spot.all, h2, h3]⟩
  exact this.sorted

theorem At.put (hc : LawfulCmp cmp) {t : Tree K V} {i : Id} {z : Spot K V} (h : At cmp t i z) (k : K) (v : V) :
    ∃ t', t.insert cmp k v = .ok t' ∧ At cmp t' i (z.put cmp k v) := by
  obtain ⟨A, B, h1, h2, h3⟩ := h
  obtain ⟨t', e, h4, h5, -⟩ := h1.1.insert hc h1.2 k v
  refine ⟨t', e, ?_⟩
  have hmap : ∀ l : List (Id × K × V), (insertBy cmp (·.2.1) (t.next, k, v) l).map (·.2) = insertBy cmp (·.1) (k, v) (l.map (·.2)) := fun l =>
    insertBy_map (fun x : Id × K × V => x.2) (fun x : K × V => x.1) _ _
  by_cases hk : cmp k z.here.1 < 0
  · have e1 := insertBy_append_lt (cmp := cmp) (fun x : Id × K × V => x.2.1) (t.next, k, v) (i, z.here) hk A B
    rw [e1] at h4 h5
    simp only [Spot.put, hk, if_true]
    exact ⟨_, B, ⟨h4, h5⟩, by rw [hmap, h2], h3⟩
  · have hs := h1.2
    simp only [SortedE, List.pairwise_append, List.pairwise_cons] at hs
    have e1 := insertBy_append_ge (cmp := cmp) (fun x : Id × K × V => x.2.1) (t.next, k, v) (A ++ [(i, z.here)]) B (by
      intro a ha
      rw [List.mem_append, List.mem_singleton] at ha
      rcases ha with ha | rfl
      · have h6 : cmp a.2.1 z.here.1 ≤ 0 := hs.2.2 a ha (i, z.here) (by simp)
        intro h7
        exact hk (hc.lt_of_lt_of_le h7 h6)
      · exact hk)
    simp only [List.append_assoc, List.singleton_append] at e1
    rw [e1] at h4 h5
    simp only [Spot.put, hk, if_false]
    exact ⟨A, _, ⟨h4, h5⟩, h2, by rw [hmap, h3]⟩

theorem At.dropOne (hc : LawfulCmp cmp) {t : Tree K V} {i : Id} {z : Spot K V} (h : At cmp t i z) (x : K) (hs : SafeOne cmp x z) :
    (t.findNode cmp x = .ok none ∧ (∀ e ∈ z.all, cmp x e.1 ≠ 0)) ∨
    ∃ j t', t.findNode cmp x = .ok (some j) ∧ t.delete (some j) = .ok t' ∧ At cmp t' i (z.dropOne cmp x) ∧
      ∃ P o Q, z.all = P ++ o :: Q ∧ cmp x o.1 = 0 ∧ (z.dropOne cmp x).all = P ++ Q := by
  obtain ⟨A, B, h1, h2, h3⟩ := h
  obtain ⟨L, e, R⟩ := z
  simp only at h1 h2 h3
  subst h2 h3
  rcases h1.findNode hc x with ⟨h4, h5⟩ | ⟨P, j, k', v', Q, hq, h4, h5, h6⟩
  · refine .inl ⟨h4, fun b hb => ?_⟩
    have : b ∈ (A ++ (i, e) :: B).map (·.2) := by simpa [Spot.all] using hb
    obtain ⟨c, hc', rfl⟩ := List.mem_map.1 this
    exact h5 c hc'
  · refine .inr ⟨j, ?_⟩
    rcases List.append_eq_append_iff.1 hq with ⟨C, rfl, hC⟩ | ⟨C, rfl, hC⟩
    · -- the marked entry lies in `P`, or is the one found
      cases C with
      | nil =>
        exfalso
        simp only [List.nil_append, List.cons.injEq, Prod.mk.injEq] at hC
        obtain ⟨⟨rfl, rfl⟩, rfl⟩ := hC
        rcases hs with ⟨A', o, c, C, g1, g2, g3⟩ | ⟨-, g2⟩
        · simp only at g1
          have : o ∈ A.map (·.2) := by rw [g1]; simp
          obtain ⟨b, hb, rfl⟩ := List.mem_map.1 this
          exact h6 b (by simp [hb]) g2
        · exact g2 h5
      | cons c C =>
        simp only [List.cons_append, List.cons.injEq] at hC
        obtain ⟨rfl, rfl⟩ := hC
        rw [hq] at h1
        obtain ⟨t', es', e', g6, g7, -, g8⟩ := h1.1.delete
        have hb : (A.map (·.2)).any (fun e => decide (cmp x e.1 = 0)) = false := by
          rw [List.any_eq_false]
          intro a ha
          obtain ⟨b, hb, rfl⟩ := List.mem_map.1 ha
          simpa using h6 b (by simp [hb])
        have he : ((C ++ (j, k', v') :: Q).map (·.2)).eraseP (fun e => decide (cmp x e.1 = 0)) = (C ++ Q).map (·.2) := by
          rw [List.map_append, List.map_cons, List.eraseP_append_right _ (by
            intro a ha
            rw [List.mem_map] at ha
            obtain ⟨b, hb, rfl⟩ := ha
            simpa using h6 b (by simp [hb])), List.eraseP_cons_of_pos (by simpa using h5), List.map_append]
        refine ⟨t', h4, e', ?_, (A ++ (i, e) :: C).map (·.2), (k', v'), Q.map (·.2), ?_, h5, ?_⟩
        · simp only [Spot.dropOne, hb, Bool.false_eq_true, if_false]
          have hso := h1.2.of_map (es' := es') (by rw [g7]; simp)
          rcases g8 with rfl | ⟨y, yk, yv, B', rfl, rfl⟩
          · exact ⟨A, C ++ Q, ⟨by simpa using g6, by simpa using hso⟩, rfl, he.symm⟩
          · exact ⟨A, C ++ (j, yk, yv) :: B', ⟨by simpa using g6, by simpa using hso⟩, rfl, by rw [he]; simp⟩
        · simp [Spot.all]
        · simp only [Spot.dropOne, hb, Bool.false_eq_true, if_false, Spot.all, he]; simp
    · -- the entry found lies in front of the mark
      cases C with
      | nil =>
        exfalso
        simp only [List.nil_append, List.cons.injEq, Prod.mk.injEq] at hC
        obtain ⟨⟨rfl, hC⟩, rfl⟩ := hC
        subst hC
        rcases hs with ⟨A', o, c, C, g1, g2, g3⟩ | ⟨-, g2⟩
        · simp only [List.append_nil] at g1
          have : o ∈ P.map (·.2) := by rw [g1]; simp
          obtain ⟨b, hb, rfl⟩ := List.mem_map.1 this
          exact h6 b hb g2
        · exact g2 h5
      | cons c C =>
        simp only [List.cons_append, List.cons.injEq] at hC
        obtain ⟨rfl, rfl⟩ := hC
        rw [hq] at h1
        obtain ⟨t', es', e', g6, g7, -, g8⟩ := h1.1.delete
        have hb : ((P ++ (j, k', v') :: C).map (·.2)).any (fun e => decide (cmp x e.1 = 0)) = true := by simp [h5]
        have he : ((P ++ (j, k', v') :: C).map (·.2)).eraseP (fun e => decide (cmp x e.1 = 0)) = (P ++ C).map (·.2) := by
          rw [List.map_append, List.map_cons, List.eraseP_append_right _ (by
            intro a ha
            rw [List.mem_map] at ha
            obtain ⟨b, hb, rfl⟩ := ha
            simpa using h6 b hb), List.eraseP_cons_of_pos (by simpa using h5), List.map_append]
        refine ⟨t', h4, e', ?_, P.map (·.2), (k', v'), (C ++ (i, e) :: B).map (·.2), ?_, h5, ?_⟩
        · simp only [Spot.dropOne, hb, if_true]
          have hso := h1.2.of_map (es' := es') (by rw [g7]; simp)
          rcases g8 with rfl | ⟨y, yk, yv, B', hB', rfl⟩
          · exact ⟨P ++ C, B, ⟨by simpa using g6, by simpa using hso⟩, he.symm, rfl⟩
          · cases C with
            | nil =>
              exfalso
              rcases hs with ⟨A', o, c, C, g1, g2, g3⟩ | ⟨g1, -⟩
              · simp only [List.map_append, List.map_cons, List.map_nil] at g1
                have hP : ∀ a ∈ P.map (·.2), cmp x a.1 ≠ 0 := by
                  intro a ha
                  obtain ⟨b, hb, rfl⟩ := List.mem_map.1 ha
                  exact h6 b hb
                have hl : P.map (·.2) = A' ∧ [(k', v')] = o :: c :: C := by
                  rcases List.append_eq_append_iff.1 g1 with ⟨D, rfl, hD⟩ | ⟨D, hD1, hD⟩
                  · cases D with
                    | nil => simp only [List.nil_append] at hD; exact ⟨by simp, hD⟩
                    | cons d D => simp at hD
                  · cases D with
                    | nil => simp only [List.nil_append] at hD; exact ⟨by simpa using hD1, hD.symm⟩
                    | cons d D =>
                      exfalso
                      simp only [List.cons_append, List.cons.injEq] at hD
                      exact hP o (by rw [hD1, hD.1]; simp) g2
                simp at hl
              · exact g1 (k', v') (by simp) h5
            | cons c C =>
              simp only [List.cons_append, List.cons.injEq] at hB'
              obtain ⟨rfl, rfl⟩ := hB'
              exact ⟨P ++ (j, yk, yv) :: C, B, ⟨by simpa using g6, by simpa using hso⟩, by rw [he]; simp, rfl⟩
        · simp [Spot.all]
        · simp only [Spot.dropOne, hb, if_true, Spot.all, he]; simp

theorem SafeAll.one (hc : LawfulCmp cmp) {x : K} {z : Spot K V} (hs : SortedKV cmp z.all) (h : SafeAll cmp x z) : SafeOne cmp x z := by
  obtain ⟨h1, h2⟩ := h
  cases hf : z.before.find? (fun e => decide (cmp x e.1 = 0)) with
  | none =>
    rw [List.find?_eq_none] at hf
    exact .inr ⟨fun e he => by simpa using hf e he, h1⟩
  | some o =>
    rw [List.find?_eq_some_iff_append] at hf
    obtain ⟨g1, A, C, g2, g3⟩ := hf
    have g1 : cmp x o.1 = 0 := by simpa using g1
    have g3 : ∀ a ∈ A, cmp x a.1 ≠ 0 := fun a ha => by simpa using g3 a ha
    simp only [SortedKV, Spot.all, g2, List.pairwise_append, List.pairwise_cons] at hs
    cases C with
    | cons c C => exact .inl ⟨A, o, c, C, g2, g1, g3⟩
    | nil =>
      exfalso
      rcases h2 with h2 | ⟨y, hy, h2⟩ | h2
      · have h3 : cmp o.1 z.here.1 ≤ 0 := hs.2.2 o (by simp) z.here (by simp)
        have h4 := hc.lt_of_le_of_lt h3 h2
        have h5 := hc.swap o.1 x
        omega
      · rw [g2, List.mem_append, List.mem_singleton] at hy
        rcases hy with hy | rfl
        · have h3 : cmp y.1 o.1 ≤ 0 := hs.1.2.2 y hy o (by simp)
          have h4 := hc.lt_of_lt_of_le h2 h3
          omega
        · omega
      · exact h2 o (by rw [g2]; simp) g1

theorem SafeAll.dropOne {x : K} {z : Spot K V} (h : SafeAll cmp x z) : SafeAll cmp x (z.dropOne cmp x) := by
  obtain ⟨h1, h2⟩ := h
  simp only [Spot.dropOne]
  split
  · refine ⟨h1, ?_⟩
    rcases h2 with h2 | ⟨y, hy, h2⟩ | h2
    · exact .inl h2
    · refine .inr (.inl ⟨y, ?_, h2⟩)
      exact (List.mem_eraseP_of_neg (by simp; omega)).2 hy
    · exact .inr (.inr fun e he => h2 e (List.mem_of_mem_eraseP he))
  · exact ⟨h1, h2⟩

theorem Spot.dropAll_dropOne (x : K) (z : Spot K V) : (z.dropOne cmp x).dropAll cmp x = z.dropAll cmp x := by
  have h : ∀ l : List (K × V), (l.eraseP fun e => decide (cmp x e.1 = 0)).filter (fun e => decide (cmp x e.1 ≠ 0)) = l.filter fun e => decide (cmp x e.1 ≠ 0) := fun l =>
    filter_eraseP_other _ _ _ fun a _ ha => by simpa using ha
  simp only [Spot.dropOne, Spot.dropAll]
  split <;> simp only [h]

theorem Spot.dropAll_none {x : K} {z : Spot K V} (h : ∀ e ∈ z.all, cmp x e.1 ≠ 0) : z.dropAll cmp x = z := by
  have h1 : z.before.filter (fun e => decide (cmp x e.1 ≠ 0)) = z.before := by
    rw [List.filter_eq_self]
    intro a ha
    simpa using h a (by simp [Spot.all, ha])
  have h2 : z.after.filter (fun e => decide (cmp x e.1 ≠ 0)) = z.after := by
    rw [List.filter_eq_self]
    intro a ha
    simpa using h a (by simp [Spot.all, ha])
  simp only [Spot.dropAll, h1, h2]

theorem At.dropAll (hc : LawfulCmp cmp) (x : K) {i : Id} : ∀ (f : Nat) {t t' : Tree K V} {z : Spot K V}, At cmp t i z → SafeAll cmp x z →
    eraseAllLoop cmp x f t = .ok t' → At cmp t' i (z.dropAll cmp x)
  | 0, _, _, _, _, _, e => by cases e
  | f + 1, t, t', z, h, hs, e => by
    rcases h.dropOne hc x (hs.one hc h.sorted) with ⟨h1, h2⟩ | ⟨j, t1, h1, h2, h3, -⟩
    · simp only [eraseAllLoop, h1, Res.ok_bind, Res.pure_eq] at e
      cases e
      rw [Spot.dropAll_none h2]; exact h
    · simp only [eraseAllLoop, h1, h2, Res.ok_bind] at e
      rw [← Spot.dropAll_dropOne]
      exact At.dropAll hc x f h3 hs.dropOne e

theorem Spot.dropOne_none {x : K} {z : Spot K V} (h : ∀ e ∈ z.all, cmp x e.1 ≠ 0) : z.dropOne cmp x = z := by
  have h1 : z.before.any (fun e => decide (cmp x e.1 = 0)) = false := by
    rw [List.any_eq_false]
    intro a ha
    simpa using h a (by simp [Spot.all, ha])
  have h2 : z.after.eraseP (fun e => decide (cmp x e.1 = 0)) = z.after := by
    rw [List.eraseP_of_forall_not]
    intro a ha
    simpa using h a (by simp [Spot.all, ha])
  simp only [Spot.dropOne, h1, h2, Bool.false_eq_true, if_false]

theorem At.eraseOne (hc : LawfulCmp cmp) {t t' : Tree K V} {i : Id} {z : Spot K V} (h : At cmp t i z) (x : K) (hs : SafeOne cmp x z)
    (e : eraseOne cmp t x = .ok t') : At cmp t' i (z.dropOne cmp x) := by
  rcases h.dropOne hc x hs with ⟨h1, h2⟩ | ⟨j, t1, h1, h2, h3, -⟩
  · simp only [TreeMap.eraseOne, h1, Res.ok_bind, Res.pure_eq] at e
    cases e
    rw [Spot.dropOne_none h2]; exact h
  · simp only [TreeMap.eraseOne, h1, Res.ok_bind] at e
    rw [h2] at e; cases e
    exact h3

theorem At.iterList {t : Tree K V} {i : Id} {z : Spot K V} (h : At cmp t i z) : iterList t = .ok z.all := by
  obtain ⟨A, B, h1, h2, h3⟩ := h
  exact HoldsKV.iterList ⟨_, h1, by simp [Spot.all, h2, h3]⟩

/-- The walks agree, whatever the calls are, if a safe call does to the tree what it should do to the marked list. -/
theorem reLoop_spot (Good : Tree K V → Prop) (call : Call → Tree K V → Res (Tree K V)) (spec : Call → Spot K V → Spot K V)
    (safe : Spot K V → Call → Prop) (visit : Visitor K V σ Call)
    (hstep : ∀ t i z c, Good t → At cmp t i z → safe z c → ∃ t', call c t = .ok t' ∧ Good t' ∧ At cmp t' i (spec c z))
    (hsafe : ∀ L e R s, SortedKV cmp (L ++ e :: R) → AllSafeAt safe spec (visit (L ++ e :: R) s e.1 e.2).calls ⟨L, e, R⟩) :
    ∀ (f : Nat) (t : Tree K V) (i : Id) (L : List (K × V)) (e : K × V) (R : List (K × V)) (s : σ), Good t → At cmp t i ⟨L, e, R⟩ →
      Agree Good (reLoop call visit f (some i) t s) (spotLoop spec visit f L (e :: R) s) := by
  have hcalls : ∀ (cs : List Call) (t : Tree K V) (i : Id) (z : Spot K V), Good t → At cmp t i z → AllSafeAt safe spec cs z →
      ∃ t', runCalls call cs t = .ok t' ∧ Good t' ∧ At cmp t' i (cs.foldl (fun z c => spec c z) z) := by
    intro cs
    induction cs with
    | nil => intro t i z hg h _; exact ⟨t, rfl, hg, h⟩
    | cons c cs ih =>
      intro t i z hg h hs
      obtain ⟨t1, e1, g1, h1⟩ := hstep t i z c hg h hs.1
      obtain ⟨t2, e2, g2, h2⟩ := ih t1 i _ g1 h1 hs.2
      exact ⟨t2, by simp [runCalls, e1, e2], g2, h2⟩
  intro f
  induction f with
  | zero => intro t i L e R s _ _; trivial
  | succ f ih =>
    intro t i L e R s hg h
    obtain ⟨n, hn, hn1, hn2⟩ : ∃ n, t.node i = .ok n ∧ n.key = e.1 ∧ n.value = e.2 := by
      obtain ⟨A, B, h1, -, -⟩ := h
      obtain ⟨n, a, b, c⟩ := h1.1.node (i := i) (k := e.1) (v := e.2) (by simp)
      exact ⟨n, a, b, c⟩
    have hl := h.iterList
    simp only [Spot.all] at hl
    obtain ⟨t', e1, hg', h2⟩ := hcalls (visit (L ++ e :: R) s e.1 e.2).calls t i ⟨L, e, R⟩ hg h (hsafe L e R s h.sorted)
    simp only [reLoop, hn, hl, Res.ok_bind, hn1, hn2, e1, spotLoop]
    generalize visit (L ++ e :: R) s e.1 e.2 = a at *
    generalize a.calls.foldl (fun z c => spec c z) ⟨L, e, R⟩ = z at *
    have hl' := h2.iterList
    cases hgo : a.go with
    | false => exact ⟨rfl, rfl, hl', hg'⟩
    | true =>
      simp only [if_true]
      obtain ⟨A, B, g1, g2, g3⟩ := h2
      rw [g1.1.successor, Res.ok_bind]
      cases B with
      | nil =>
        rw [← g3]
        cases f with
        | zero => trivial
        | succ f =>
          refine ⟨rfl, rfl, ?_, hg'⟩
          rw [hl', Spot.all, ← g3]; simp
      | cons b B =>
        obtain ⟨j, e'⟩ := b
        have hat : At cmp t' j ⟨z.before ++ [z.here], e', B.map (·.2)⟩ :=
          ⟨A ++ [(i, z.here)], B, by simpa using g1, by simp [g2], rfl⟩
        have := ih t' j _ _ _ a.st hg' hat
        rw [← g3]
        simp only [List.map_cons, List.head?_cons, hd, Option.map_some] at this ⊢
        revert this
        generalize reLoop call visit f (some j) t' a.st = r1
        generalize spotLoop spec visit f (z.before ++ [z.here]) (e' :: List.map (·.2) B) a.st = r2
        intro this
        cases r1 <;> cases r2 <;> first | exact False.elim this | trivial | skip
        rename_i p1 p2
        obtain ⟨vs, s1, t1⟩ := p1
        obtain ⟨ws, s2, m2⟩ := p2
        obtain ⟨r1, r2, q1, q2⟩ := this
        subst r1 r2
        exact ⟨rfl, rfl, q1, q2⟩

theorem reTraversal_spot (Good : Tree K V → Prop) (call : Call → Tree K V → Res (Tree K V)) (spec : Call → Spot K V → Spot K V)
    (safe : Spot K V → Call → Prop) (visit : Visitor K V σ Call)
    (hstep : ∀ t i z c, Good t → At cmp t i z → safe z c → ∃ t', call c t = .ok t' ∧ Good t' ∧ At cmp t' i (spec c z))
    (hsafe : ∀ L e R s, SortedKV cmp (L ++ e :: R) → AllSafeAt safe spec (visit (L ++ e :: R) s e.1 e.2).calls ⟨L, e, R⟩)
    {t : Tree K V} {m : List (K × V)} (hg : Good t) (hk : HoldsKV cmp t m) (f : Nat) (s : σ) :
    Agree Good (reTraversal call visit f t s) (spotLoop spec visit f [] m s) := by
  have hl := hk.iterList
  obtain ⟨es, h1, rfl⟩ := hk
  rw [reTraversal, h1.1.first, Res.ok_bind]
  cases es with
  | nil =>
    cases f with
    | zero => trivial
    | succ f => exact ⟨rfl, rfl, hl, hg⟩
  | cons e es =>
    obtain ⟨i, e⟩ := e
    exact reLoop_spot Good call spec safe visit hstep hsafe f t i [] e _ s hg ⟨[], es, h1, rfl, rfl⟩

/-- **C100** A visitor of `MultiMap.Traversal` may insert whatever it likes, and erase every key but that of the visited entry and that of the entry right before it:
the walk goes on with the entry that then follows the visited one, and the multimap is what the calls made of it. -/
theorem C100_multimap_partial (hc : LawfulCmp cmp) {t : Tree K V} {h : List (K × V)} (hh : MultiMapHist cmp t h) {m : List (K × V)} (hm : iterList t = .ok m)
    (visit : Visitor K V σ (MultiMapCall K V))
    (hsafe : ∀ L e R s, SortedKV cmp (L ++ e :: R) → AllSafeAt (MultiMapCall.Safe cmp) (spotMap cmp) (visit (L ++ e :: R) s e.1 e.2).calls ⟨L, e, R⟩)
    (fuel : Nat) (s : σ) :
    Agree (fun t => ∃ h, MultiMapHist cmp t h) (reTraversal (multiMapCall cmp) visit fuel t s) (spotLoop (spotMap cmp) visit fuel [] m s) := by
  obtain ⟨kvs, h1, -⟩ := multiMapHist_inv hc hh
  rw [h1.iterList] at hm; cases hm
  refine reTraversal_spot _ _ _ (MultiMapCall.Safe cmp) visit ?_ hsafe ⟨h, hh⟩ h1 fuel s
  rintro t i z c ⟨h, hg⟩ hat hs
  cases c with
  | insert k v =>
    obtain ⟨t', e, h'⟩ := hat.put hc k v
    exact ⟨t', e, ⟨_, hg.insert e⟩, h'⟩
  | erase k =>
    obtain ⟨t', e⟩ := (C42_multimap_no_panic hc hg).2 k
    exact ⟨t', e, ⟨_, hg.erase e⟩, hat.dropAll hc k _ hs e⟩

/-- **C100** The same for `MultiSet.Traversal`; `Erase`, which takes away the oldest equal element only, is safe unless that element is the visited one or the one
right before it. -/
theorem C100_multiset_partial (hc : LawfulCmp cmp) {t : Tree K Bool} {h : List K} (hh : MultiSetHist cmp t h) {m : List (K × Bool)} (hm : iterList t = .ok m)
    (visit : Visitor K Bool σ (MultiSetCall K))
    (hsafe : ∀ L e R s, SortedKV cmp (L ++ e :: R) → AllSafeAt (MultiSetCall.Safe cmp) (spotSet cmp) (visit (L ++ e :: R) s e.1 e.2).calls ⟨L, e, R⟩)
    (fuel : Nat) (s : σ) :
    Agree (fun t => ∃ h, MultiSetHist cmp t h) (reTraversal (multiSetCall cmp) visit fuel t s) (spotLoop (spotSet cmp) visit fuel [] m s) := by
  obtain ⟨kvs, h1, -⟩ := multiSetHist_inv hc hh
  rw [h1.iterList] at hm; cases hm
  refine reTraversal_spot _ _ _ (MultiSetCall.Safe cmp) visit ?_ hsafe ⟨h, hh⟩ h1 fuel s
  rintro t i z c ⟨h, hg⟩ hat hs
  cases c with
  | insert x =>
    obtain ⟨t', e, h'⟩ := hat.put hc x true
    exact ⟨t', e, ⟨_, hg.insert e⟩, h'⟩
  | erase x =>
    obtain ⟨t', e⟩ := (C44_multiset_no_panic hc hg x).2.1
    exact ⟨t', e, ⟨_, hg.erase e⟩, hat.eraseOne hc x hs e⟩
  | eraseAll x =>
    obtain ⟨t', e⟩ := (C44_multiset_no_panic hc hg x).2.2
    exact ⟨t', e, ⟨_, hg.eraseAll e⟩, hat.dropAll hc x _ hs e⟩

/-! ### What the walk over the marked list means -/

/-- What a call does to the entries of a multimap, in order. -/
def plainMap (cmp : K → K → Int) : MultiMapCall K V → List (K × V) → List (K × V)
  | .insert k v, m => insertBy cmp (·.1) (k, v) m
  | .erase k, m => m.filter fun e => decide (cmp k e.1 ≠ 0)

/-- What a call does to the elements of a multiset, in order. -/
def plainSet (cmp : K → K → Int) : MultiSetCall K → List (K × Bool) → List (K × Bool)
  | .insert x, m => insertBy cmp (·.1) (x, true) m
  | .erase x, m => m.eraseP fun e => decide (cmp x e.1 = 0)
  | .eraseAll x, m => m.filter fun e => decide (cmp x e.1 ≠ 0)

theorem Spot.put_all (hc : LawfulCmp cmp) {z : Spot K V} (hs : SortedKV cmp z.all) (k : K) (v : V) :
    (z.put cmp k v).all = insertBy cmp (·.1) (k, v) z.all ∧ (z.put cmp k v).here = z.here := by
  by_cases hk : cmp k z.here.1 < 0
  · have e1 := insertBy_append_lt (cmp := cmp) (fun x : K × V => x.1) (k, v) z.here hk z.before z.after
    simp only [Spot.put, hk, if_true, Spot.all, e1, and_self]
  · simp only [SortedKV, Spot.all, List.pairwise_append, List.pairwise_cons] at hs
    have e1 := insertBy_append_ge (cmp := cmp) (fun x : K × V => x.1) (k, v) (z.before ++ [z.here]) z.after (by
      intro a ha
      rw [List.mem_append, List.mem_singleton] at ha
      rcases ha with ha | rfl
      · intro h7
        exact hk (hc.lt_of_lt_of_le h7 (hs.2.2 a ha z.here (by simp)))
      · exact hk)
    simp only [List.append_assoc, List.singleton_append] at e1
    simp only [Spot.put, hk, if_false, Spot.all, e1, and_self]

theorem Spot.dropAll_all {x : K} {z : Spot K V} (h : SafeAll cmp x z) :
    (z.dropAll cmp x).all = z.all.filter (fun e => decide (cmp x e.1 ≠ 0)) ∧ (z.dropAll cmp x).here = z.here := by
  have h1 := h.1
  simp [Spot.dropAll, Spot.all, List.filter_append, h1]

theorem Spot.dropOne_all {x : K} {z : Spot K V} (h : SafeOne cmp x z) :
    (z.dropOne cmp x).all = z.all.eraseP (fun e => decide (cmp x e.1 = 0)) ∧ (z.dropOne cmp x).here = z.here := by
  rcases h with ⟨A, o, c, C, h1, h2, h3⟩ | ⟨h1, h2⟩
  · have hb : z.before.any (fun e => decide (cmp x e.1 = 0)) = true := by simp [h1, h2]
    simp only [Spot.dropOne, hb, if_true, Spot.all, and_true]
    rw [List.eraseP_append_left (a := o) (by simpa using h2) _ (by rw [h1]; simp)]
  · have hb : z.before.any (fun e => decide (cmp x e.1 = 0)) = false := by
      rw [List.any_eq_false]
      intro a ha
      simpa using h1 a ha
    simp only [Spot.dropOne, hb, Bool.false_eq_true, if_false, Spot.all, and_true]
    rw [List.eraseP_append_right _ (by intro a ha; simpa using h1 a ha), List.eraseP_cons_of_neg (by simpa using h2)]

/-- **C100** On the entries as a whole, a safe call made at a marked place is the call itself; and it leaves the marked entry where it is. -/
theorem C100_multimap_calls (hc : LawfulCmp cmp) {z : Spot K V} (hs : SortedKV cmp z.all) {c : MultiMapCall K V} (h : c.Safe cmp z) :
    (spotMap cmp c z).all = plainMap cmp c z.all ∧ (spotMap cmp c z).here = z.here := by
  cases c with
  | insert k v => exact Spot.put_all hc hs k v
  | erase k => exact Spot.dropAll_all h

/-- **C100** The same for a multiset. -/
theorem C100_multiset_calls (hc : LawfulCmp cmp) {z : Spot K Bool} (hs : SortedKV cmp z.all) {c : MultiSetCall K} (h : c.Safe cmp z) :
    (spotSet cmp c z).all = plainSet cmp c z.all ∧ (spotSet cmp c z).here = z.here := by
  cases c with
  | insert x => exact Spot.put_all hc hs x true
  | erase x => exact Spot.dropOne_all h
  | eraseAll x => exact Spot.dropAll_all h

theorem insertBy_sortedKV (hc : LawfulCmp cmp) {m : List (K × V)} (hs : SortedKV cmp m) (k : K) (v : V) : SortedKV cmp (insertBy cmp (·.1) (k, v) m) := by
  obtain ⟨A, B, rfl, e, h1, h2⟩ := C35_insertBy_meaning hc k v m hs
  rw [e]
  simp only [SortedKV, List.pairwise_append, List.pairwise_cons] at hs ⊢
  refine ⟨hs.1, ⟨fun b hb => Int.le_of_lt (h2 b hb), hs.2.1⟩, fun a ha b hb => ?_⟩
  rcases List.mem_cons.1 hb with rfl | hb
  · exact h1 a ha
  · exact hs.2.2 a ha b hb

theorem sublist_insertBy {α : Type} (key : α → K) (e : α) : ∀ l : List α, l.Sublist (insertBy cmp key e l)
  | [] => List.nil_sublist _
  | x :: xs => by
    simp only [insertBy]
    split
    · exact List.sublist_cons_self ..
    · exact (sublist_insertBy key e xs).cons_cons x

theorem spotMap_step (hc : LawfulCmp cmp) {z : Spot K V} (hs : SortedKV cmp z.all) {c : MultiMapCall K V} (h : c.Safe cmp z) :
    SortedKV cmp (spotMap cmp c z).all ∧ (spotMap cmp c z).here = z.here := by
  obtain ⟨h1, h2⟩ := C100_multimap_calls hc hs h
  refine ⟨?_, h2⟩
  rw [h1]
  cases c with
  | insert k v => exact insertBy_sortedKV hc hs k v
  | erase k => exact List.Pairwise.sublist List.filter_sublist hs

theorem spotSet_step (hc : LawfulCmp cmp) {z : Spot K Bool} (hs : SortedKV cmp z.all) {c : MultiSetCall K} (h : c.Safe cmp z) :
    SortedKV cmp (spotSet cmp c z).all ∧ (spotSet cmp c z).here = z.here := by
  obtain ⟨h1, h2⟩ := C100_multiset_calls hc hs h
  refine ⟨?_, h2⟩
  rw [h1]
  cases c with
  | insert x => exact insertBy_sortedKV hc hs x true
  | erase x => exact List.Pairwise.sublist List.eraseP_sublist hs
  | eraseAll x => exact List.Pairwise.sublist List.filter_sublist hs

/-- What the walk over the marked list visits: a sorted list; with the entries `p` picks, if no call takes those away; and only entries that were there, and so it
ends, if no call adds anything behind the mark. -/
theorem spotLoop_visits (hc : LawfulCmp cmp) (spec : Call → Spot K V → Spot K V) (safe : Spot K V → Call → Prop) (visit : Visitor K V σ Call)
    (hstep : ∀ z c, SortedKV cmp z.all → safe z c → SortedKV cmp (spec c z).all ∧ (spec c z).here = z.here)
    (hsafe : ∀ L e R s, SortedKV cmp (L ++ e :: R) → AllSafeAt safe spec (visit (L ++ e :: R) s e.1 e.2).calls ⟨L, e, R⟩) (p : K × V → Bool) :
    ∀ (f : Nat) (L R : List (K × V)) (s : σ) (r), spotLoop spec visit f L R s = .ok r → SortedKV cmp (L ++ R) →
      SortedKV cmp (L ++ r.1) ∧
      ((∀ L e R s, ∀ c ∈ (visit (L ++ e :: R) s e.1 e.2).calls, ∀ z : Spot K V, (z.after.filter p).Sublist ((spec c z).after.filter p)) →
        (∀ m s k v, (visit m s k v).go = true) → (R.filter p).Sublist r.1) ∧
      ((∀ L e R s, ∀ c ∈ (visit (L ++ e :: R) s e.1 e.2).calls, ∀ z : Spot K V, z.here = e → (spec c z).after.Sublist z.after) → r.1.Sublist R) := by
  have hcalls : ∀ (cs : List Call) (z : Spot K V), SortedKV cmp z.all → AllSafeAt safe spec cs z →
      SortedKV cmp (cs.foldl (fun z c => spec c z) z).all ∧ (cs.foldl (fun z c => spec c z) z).here = z.here ∧
      ((∀ c ∈ cs, ∀ z : Spot K V, (z.after.filter p).Sublist ((spec c z).after.filter p)) → (z.after.filter p).Sublist ((cs.foldl (fun z c => spec c z) z).after.filter p)) ∧
      ((∀ c ∈ cs, ∀ z' : Spot K V, z'.here = z.here → (spec c z').after.Sublist z'.after) → (cs.foldl (fun z c => spec c z) z).after.Sublist z.after) := by
    intro cs
    induction cs with
    | nil => intro z h _; exact ⟨h, rfl, fun _ => .refl _, fun _ => .refl _⟩
    | cons c cs ih =>
      intro z h hs
      obtain ⟨h1, h2⟩ := hstep z c h hs.1
      obtain ⟨g1, g2, g3, g4⟩ := ih _ h1 hs.2
      refine ⟨g1, g2.trans h2, fun hp => ?_, fun hp => ?_⟩
      · exact (hp c (by simp) z).trans (g3 fun c' hc' => hp c' (by simp [hc']))
      · exact (g4 fun c' hc' z' hz' => hp c' (by simp [hc']) z' (hz'.trans h2)).trans (hp c (by simp) z rfl)
  intro f
  induction f with
  | zero => intro L R s r e; cases e
  | succ f ih =>
    intro L R s r e hs
    cases R with
    | nil => cases e; exact ⟨by simpa using hs, fun _ _ => by simp, fun _ => .refl _⟩
    | cons x R =>
      obtain ⟨g1, g2, g3, g4⟩ := hcalls (visit (L ++ x :: R) s x.1 x.2).calls ⟨L, x, R⟩ hs (hsafe L x R s hs)
      simp only at g2 g3 g4
      have hL : SortedKV cmp (L ++ [x]) := List.Pairwise.sublist (by simp) hs
      simp only [spotLoop] at e
      cases hg : (visit (L ++ x :: R) s x.1 x.2).go with
      | false =>
        simp only [hg, Bool.false_eq_true, if_false, Res.ok.injEq] at e
        subst e
        refine ⟨hL, fun _ hgo => ?_, fun _ => by simp⟩
        rw [hgo] at hg; cases hg
      | true =>
        simp only [hg, if_true, Res.bind_eq_ok] at e
        obtain ⟨r', e1, e2⟩ := e
        cases e2
        generalize (visit (L ++ x :: R) s x.1 x.2).calls.foldl (fun z c => spec c z) ⟨L, x, R⟩ = z at *
        obtain ⟨q1, q2, q3⟩ := ih _ _ _ _ e1 (by simpa [Spot.all] using g1)
        refine ⟨?_, fun hp hgo => ?_, fun hp => ?_⟩
        · rw [g2] at q1
          simp only [SortedKV, List.pairwise_append, List.pairwise_cons] at q1 hL ⊢
          refine ⟨hL.1, ⟨fun b hb => q1.2.2 x (by simp) b hb, q1.2.1⟩, fun a ha b hb => ?_⟩
          rcases List.mem_cons.1 hb with rfl | hb
          · exact hL.2.2 a ha b (by simp)
          · exact hc.trans _ _ _ (hL.2.2 a ha x (by simp)) (q1.2.2 x (by simp) b hb)
        · have h1 := (g3 (hp L x R s)).trans (q2 hp hgo)
          rw [List.filter_cons]
          split
          · exact h1.cons_cons x
          · exact h1.cons x
        · exact ((q3 hp).trans (g4 fun c hc' z' hz' => hp L x R s c hc' z' hz')).cons_cons x

theorem spotLoop_ends (spec : Call → Spot K V → Spot K V) (visit : Visitor K V σ Call)
    (hkeep : ∀ c z, (spec c z).here = z.here)
    (hp : ∀ L e R s, ∀ c ∈ (visit (L ++ e :: R) s e.1 e.2).calls, ∀ z : Spot K V, z.here = e → (spec c z).after.Sublist z.after) :
    ∀ (f : Nat) (L R : List (K × V)) (s : σ), R.length < f → ∃ r, spotLoop spec visit f L R s = .ok r := by
  have hcalls : ∀ (cs : List Call) (z : Spot K V), (∀ c ∈ cs, ∀ z' : Spot K V, z'.here = z.here → (spec c z').after.Sublist z'.after) →
      (cs.foldl (fun z c => spec c z) z).after.Sublist z.after := by
    intro cs
    induction cs with
    | nil => intro z _; exact .refl _
    | cons c cs ih =>
      intro z h
      exact (ih (spec c z) fun c' hc' z' hz' => h c' (by simp [hc']) z' (hz'.trans (hkeep c z))).trans (h c (by simp) z rfl)
  intro f
  induction f with
  | zero => intro L R s h; omega
  | succ f ih =>
    intro L R s h
    cases R with
    | nil => exact ⟨_, rfl⟩
    | cons x R =>
      have h1 := (hcalls (visit (L ++ x :: R) s x.1 x.2).calls ⟨L, x, R⟩ (hp L x R s)).length_le
      simp only [spotLoop]
      split
      · obtain ⟨r, hr⟩ := ih (((visit (L ++ x :: R) s x.1 x.2).calls.foldl (fun z c => spec c z) ⟨L, x, R⟩).before ++
          [((visit (L ++ x :: R) s x.1 x.2).calls.foldl (fun z c => spec c z) ⟨L, x, R⟩).here])
          ((visit (L ++ x :: R) s x.1 x.2).calls.foldl (fun z c => spec c z) ⟨L, x, R⟩).after (visit (L ++ x :: R) s x.1 x.2).st (by
            simp only [List.length_cons] at h h1 ⊢; omega)
        exact ⟨_, by rw [hr]; rfl⟩
      · exact ⟨_, rfl⟩

theorem Agree.ok {Good : Tree K V → Prop} {a : Res (List (K × V) × σ × Tree K V)} {b : Res (List (K × V) × σ × List (K × V))} (h : Agree Good a b) {r'}
    (hb : b = .ok r') : ∃ r, a = .ok r := by
  subst hb
  cases a with
  | ok r => exact ⟨r, rfl⟩
  | panic => exact h.elim
  | outOfFuel => exact h.elim

theorem Agree.visited {Good : Tree K V → Prop} {a : Res (List (K × V) × σ × Tree K V)} {b : Res (List (K × V) × σ × List (K × V))} (h : Agree Good a b) {vs s t}
    (ha : a = .ok (vs, s, t)) : ∃ m, b = .ok (vs, s, m) ∧ TreeMap.iterList t = .ok m := by
  subst ha
  cases b with
  | ok r => obtain ⟨ws, s', m⟩ := r; obtain ⟨rfl, rfl, h1, -⟩ := h; exact ⟨m, rfl, h1⟩
  | panic => exact h.elim
  | outOfFuel => exact h.elim

/-- **C100** Such a traversal of a multimap visits entries in the order of their keys. If the visitor always goes on, it visits, in their order, all entries that were
there at the start whose key it never erases. If it inserts only keys below the visited one, the traversal ends, and visits no entry twice and none that was not there. -/
theorem C100_multimap_visits_partial (hc : LawfulCmp cmp) {t : Tree K V} {h : List (K × V)} (hh : MultiMapHist cmp t h) {m : List (K × V)} (hm : iterList t = .ok m)
    (visit : Visitor K V σ (MultiMapCall K V))
    (hsafe : ∀ L e R s, SortedKV cmp (L ++ e :: R) → AllSafeAt (MultiMapCall.Safe cmp) (spotMap cmp) (visit (L ++ e :: R) s e.1 e.2).calls ⟨L, e, R⟩) (s : σ) :
    (∀ fuel vs s' t', reTraversal (multiMapCall cmp) visit fuel t s = .ok (vs, s', t') → vs.Pairwise (fun a b => cmp a.1 b.1 ≤ 0) ∧
      ∀ p : K × V → Bool, (∀ m s k v, (visit m s k v).go = true) →
        (∀ e, p e = true → ∀ m s k v x, MultiMapCall.erase x ∈ (visit m s k v).calls → cmp x e.1 ≠ 0) → (m.filter p).Sublist vs) ∧
    ((∀ m s k v x y, MultiMapCall.insert x y ∈ (visit m s k v).calls → cmp x k < 0) →
      ∃ vs s' t', reTraversal (multiMapCall cmp) visit (m.length + 1) t s = .ok (vs, s', t') ∧ vs.Sublist m) := by
  have hag := C100_multimap_partial hc hh hm visit hsafe
  have hso : SortedKV cmp ([] ++ m) := by
    obtain ⟨kvs, h1, -⟩ := multiMapHist_inv hc hh
    rw [h1.iterList] at hm; cases hm
    exact h1.sorted
  have hv := fun p => spotLoop_visits hc (spotMap cmp) (MultiMapCall.Safe cmp) visit (fun z c h1 h2 => spotMap_step hc h1 h2) hsafe p
  refine ⟨fun fuel vs s' t' e => ?_, fun hins => ?_⟩
  · obtain ⟨m2, e1, -⟩ := (hag fuel s).visited e
    refine ⟨(hv (fun _ => true) _ _ _ _ _ e1 hso).1, fun p hgo hp => ?_⟩
    refine (hv p _ _ _ _ _ e1 hso).2.1 ?_ hgo
    intro L e R s c hc' z
    cases c with
    | insert x y =>
      simp only [spotMap, Spot.put]
      split
      · exact .refl _
      · exact (sublist_insertBy _ _ _).filter _
    | erase x =>
      simp only [spotMap, Spot.dropAll]
      rw [List.filter_filter]
      refine Eq.subst (motive := fun l => (z.after.filter p).Sublist l) (List.filter_congr ?_) (List.Sublist.refl (z.after.filter p))
      intro a _
      cases hpa : p a with
      | false => simp
      | true => simp [hp a hpa _ _ _ _ x hc']
  · have hp : ∀ L e R s, ∀ c ∈ (visit (L ++ e :: R) s e.1 e.2).calls, ∀ z : Spot K V, z.here = e → (spotMap cmp c z).after.Sublist z.after := by
      intro L e R s c hc' z hz
      cases c with
      | insert x y =>
        have := hins _ _ _ _ _ _ hc'
        simp only [spotMap, Spot.put, hz, this, if_true]
        exact .refl _
      | erase x => exact List.filter_sublist
    obtain ⟨r, hr⟩ := spotLoop_ends (spotMap cmp) visit (by
      intro c z
      cases c with
      | insert x y => simp only [spotMap, Spot.put]; split <;> rfl
      | erase x => rfl) hp (m.length + 1) [] m s (by omega)
    obtain ⟨⟨vs, s', t'⟩, e⟩ := (hag (m.length + 1) s).ok hr
    obtain ⟨m2, e1, -⟩ := (hag _ s).visited e
    exact ⟨vs, s', t', e, (hv (fun _ => true) _ _ _ _ _ e1 hso).2.2 hp⟩

/-- **C100** The same for a multiset. -/
theorem C100_multiset_visits_partial (hc : LawfulCmp cmp) {t : Tree K Bool} {h : List K} (hh : MultiSetHist cmp t h) {m : List (K × Bool)} (hm : iterList t = .ok m)
    (visit : Visitor K Bool σ (MultiSetCall K))
    (hsafe : ∀ L e R s, SortedKV cmp (L ++ e :: R) → AllSafeAt (MultiSetCall.Safe cmp) (spotSet cmp) (visit (L ++ e :: R) s e.1 e.2).calls ⟨L, e, R⟩) (s : σ) :
    (∀ fuel vs s' t', reTraversal (multiSetCall cmp) visit fuel t s = .ok (vs, s', t') → vs.Pairwise (fun a b => cmp a.1 b.1 ≤ 0) ∧
      ∀ p : K × Bool → Bool, (∀ m s k v, (visit m s k v).go = true) →
        (∀ e, p e = true → ∀ m s k v x, MultiSetCall.erase x ∈ (visit m s k v).calls ∨ MultiSetCall.eraseAll x ∈ (visit m s k v).calls → cmp x e.1 ≠ 0) →
        (m.filter p).Sublist vs) ∧
    ((∀ m s k v x, MultiSetCall.insert x ∈ (visit m s k v).calls → cmp x k < 0) →
      ∃ vs s' t', reTraversal (multiSetCall cmp) visit (m.length + 1) t s = .ok (vs, s', t') ∧ vs.Sublist m) := by
  have hag := C100_multiset_partial hc hh hm visit hsafe
  have hso : SortedKV cmp ([] ++ m) := by
    obtain ⟨kvs, h1, -⟩ := multiSetHist_inv hc hh
    rw [h1.iterList] at hm; cases hm
    exact h1.sorted
  have hv := fun p => spotLoop_visits hc (spotSet cmp) (MultiSetCall.Safe cmp) visit (fun z c h1 h2 => spotSet_step hc h1 h2) hsafe p
  refine ⟨fun fuel vs s' t' e => ?_, fun hins => ?_⟩
  · obtain ⟨m2, e1, -⟩ := (hag fuel s).visited e
    refine ⟨(hv (fun _ => true) _ _ _ _ _ e1 hso).1, fun p hgo hp => ?_⟩
    refine (hv p _ _ _ _ _ e1 hso).2.1 ?_ hgo
    intro L e R s c hc' z
    cases c with
    | insert x =>
      simp only [spotSet, Spot.put]
      split
      · exact .refl _
      · exact (sublist_insertBy _ _ _).filter _
    | erase x =>
      simp only [spotSet, Spot.dropOne]
      split
      · exact .refl _
      · rw [filter_eraseP_other]
        · intro a _ ha
          cases hpa : p a with
          | false => rfl
          | true => exact absurd (by simpa using ha) (hp a hpa _ _ _ _ x (.inl hc'))
    | eraseAll x =>
      simp only [spotSet, Spot.dropAll]
      rw [List.filter_filter]
      refine Eq.subst (motive := fun l => (z.after.filter p).Sublist l) (List.filter_congr ?_) (List.Sublist.refl (z.after.filter p))
      intro a _
      cases hpa : p a with
      | false => simp
      | true => simp [hp a hpa _ _ _ _ x (.inr hc')]
  · have hp : ∀ L e R s, ∀ c ∈ (visit (L ++ e :: R) s e.1 e.2).calls, ∀ z : Spot K Bool, z.here = e → (spotSet cmp c z).after.Sublist z.after := by
      intro L e R s c hc' z hz
      cases c with
      | insert x =>
        have := hins _ _ _ _ _ hc'
        simp only [spotSet, Spot.put, hz, this, if_true]
        exact .refl _
      | erase x =>
        simp only [spotSet, Spot.dropOne]
        split
        · exact .refl _
        · exact List.eraseP_sublist
      | eraseAll x => exact List.filter_sublist
    obtain ⟨r, hr⟩ := spotLoop_ends (spotSet cmp) visit (by
      intro c z
      cases c with
      | insert x => simp only [spotSet, Spot.put]; split <;> rfl
      | erase x => simp only [spotSet, Spot.dropOne]; split <;> rfl
      | eraseAll x => rfl) hp (m.length + 1) [] m s (by omega)
    obtain ⟨⟨vs, s', t'⟩, e⟩ := (hag (m.length + 1) s).ok hr
    obtain ⟨m2, e1, -⟩ := (hag _ s).visited e
    exact ⟨vs, s', t', e, (hv (fun _ => true) _ _ _ _ _ e1 hso).2.2 hp⟩

/-! ### Examples -/

/-- Inserts one after the other. -/
def buildMulti : List (Int × Int) → Tree Int Int → Res (Tree Int Int)
  | [], t => .ok t
  | (k, v) :: es, t => do
    let t ← multiMapInsert intCmp t k v
    buildMulti es t

theorem buildMulti_hist : ∀ (es : List (Int × Int)) (t t' : Tree Int Int) (h : List (Int × Int)), MultiMapHist intCmp t h → buildMulti es t = .ok t' →
    ∃ h', MultiMapHist intCmp t' h'
  | [], _, _, _, h, e => by cases e; exact ⟨_, h⟩
  | (k, v) :: es, t, t', h, hh, e => by
    simp only [buildMulti, Res.bind_eq_ok] at e
    obtain ⟨t1, e1, e⟩ := e
    exact buildMulti_hist es t1 t' _ (hh.insert e1) e

/-- Inserts one after the other. -/
def buildMultiSet : List Int → Tree Int Bool → Res (Tree Int Bool)
  | [], t => .ok t
  | x :: xs, t => do
    let t ← multiSetInsert intCmp t x
    buildMultiSet xs t

theorem buildMultiSet_hist : ∀ (xs : List Int) (t t' : Tree Int Bool) (h : List Int), MultiSetHist intCmp t h → buildMultiSet xs t = .ok t' →
    ∃ h', MultiSetHist intCmp t' h'
  | [], _, _, _, h, e => by cases e; exact ⟨_, h⟩
  | x :: xs, t, t', h, hh, e => by
    simp only [buildMultiSet, Res.bind_eq_ok] at e
    obtain ⟨t1, e1, e⟩ := e
    exact buildMultiSet_hist xs t1 t' _ (hh.insert e1) e

/-- A visitor that, at every entry of value at least 10, adds another entry of the same key, one of a key below, and erases the next key. -/
def exMulti : Visitor Int Int Nat (MultiMapCall Int Int) := fun _ n k v =>
  if 10 ≤ v then ⟨n + 1, [.insert k 7, .insert (k - 10) 8, .erase (k + 1)], true⟩ else ⟨n + 1, [], true⟩

/-- The visitor of the example makes safe calls only. -/
theorem exMulti_safe (L : List (Int × Int)) (e : Int × Int) (R : List (Int × Int)) (s : Nat) (_ : SortedKV intCmp (L ++ e :: R)) :
    AllSafeAt (MultiMapCall.Safe intCmp) (spotMap intCmp) (exMulti (L ++ e :: R) s e.1 e.2).calls ⟨L, e, R⟩ := by
  simp only [exMulti]
  split
  · refine ⟨trivial, trivial, ?_, trivial⟩
    have h1 : intCmp e.1 e.1 < 0 ↔ False := by simp [intCmp]
    have h2 : intCmp (e.1 - 10) e.1 < 0 := by simp only [intCmp]; split <;> (try split) <;> omega
    simp only [MultiMapCall.Safe, spotMap, Spot.put, h1, h2, if_true, if_false]
    refine ⟨?_, .inl ?_⟩ <;> simp only [intCmp] <;> split <;> (try split) <;> omega
  · trivial

/-- A visitor that erases `x` while it is at an entry of value `v`. -/
def exMultiErase (v x : Int) : Visitor Int Int Unit (MultiMapCall Int Int) := fun _ _ _ w => ⟨(), if w = v then [.erase x] else [], true⟩

set_option maxRecDepth 40000 in
/-- A walk with safe calls: at 1 the entries (1, 7), (-9, 8) are added and both entries of 2 are erased; at 3 the entries (3, 7), (-7, 8); the added entries of the
visited keys are visited as well. -/
theorem C100_demo : ∃ t h, MultiMapHist intCmp t h ∧ iterList t = .ok [(1, 10), (2, 20), (2, 21), (3, 30)] ∧
    outcome (reTraversal (multiMapCall intCmp) exMulti 40 t 0) =
      .ok ([(1, 10), (1, 7), (3, 30), (3, 7)], 4, [(-9, 8), (-7, 8), (1, 10), (1, 7), (3, 30), (3, 7)]) := by
  have h0 : ∃ t, buildMulti [(2, 20), (1, 10), (3, 30), (2, 21)] Tree.new = .ok t ∧ iterList t = .ok [(1, 10), (2, 20), (2, 21), (3, 30)] ∧
    outcome (reTraversal (multiMapCall intCmp) exMulti 40 t 0) =
      .ok ([(1, 10), (1, 7), (3, 30), (3, 7)], 4, [(-9, 8), (-7, 8), (1, 10), (1, 7), (3, 30), (3, 7)]) := ⟨_, rfl, rfl, rfl⟩
  obtain ⟨t, e1, e2, e3⟩ := h0
  obtain ⟨h, hh⟩ := buildMulti_hist _ _ _ _ .new e1
  exact ⟨t, h, hh, e2, e3⟩

/-- `C100_multimap_partial`, `C100_multimap_visits_partial` on this walk: the entries of the keys 1 and 3 were there and are visited. -/
example : ∃ t vs s t', reTraversal (multiMapCall intCmp) exMulti 40 t 0 = .ok (vs, s, t') ∧ iterList t = .ok [(1, 10), (2, 20), (2, 21), (3, 30)] ∧
    ∃ m, spotLoop (spotMap intCmp) exMulti 40 [] [(1, 10), (2, 20), (2, 21), (3, 30)] 0 = .ok (vs, s, m) ∧ iterList t' = .ok m := by
  obtain ⟨t, h, hh, e1, e2⟩ := C100_demo
  have hag := C100_multimap_partial intCmp_lawful hh e1 exMulti exMulti_safe 40 0
  cases hq : reTraversal (multiMapCall intCmp) exMulti 40 t 0 with
  | ok r =>
    obtain ⟨vs, s, t'⟩ := r
    exact ⟨t, vs, s, t', hq, e1, hag.visited hq⟩
  | panic => rw [hq] at e2; cases e2
  | outOfFuel => rw [hq] at e2; cases e2

set_option maxRecDepth 40000 in
/-- **C100 (violation)** Erasing the key of the visited entry may end the walk before an entry nobody touched; erasing the key right before it may visit an entry
twice. -/
theorem C100_multimap_violated : ∃ t h, MultiMapHist intCmp t h ∧ iterList t = .ok [(1, 10), (2, 20), (2, 21), (3, 30)] ∧
    outcome (reTraversal (multiMapCall intCmp) (exMultiErase 20 2) 40 t ()) = .ok ([(1, 10), (2, 20)], (), [(1, 10), (3, 30)]) ∧
    outcome (reTraversal (multiMapCall intCmp) (exMultiErase 30 2) 40 t ()) = .ok ([(1, 10), (2, 20), (2, 21), (3, 30), (3, 30)], (), [(1, 10), (3, 30)]) := by
  have h0 : ∃ t, buildMulti [(2, 20), (1, 10), (3, 30), (2, 21)] Tree.new = .ok t ∧ iterList t = .ok [(1, 10), (2, 20), (2, 21), (3, 30)] ∧
    outcome (reTraversal (multiMapCall intCmp) (exMultiErase 20 2) 40 t ()) = .ok ([(1, 10), (2, 20)], (), [(1, 10), (3, 30)]) ∧
    outcome (reTraversal (multiMapCall intCmp) (exMultiErase 30 2) 40 t ()) = .ok ([(1, 10), (2, 20), (2, 21), (3, 30), (3, 30)], (), [(1, 10), (3, 30)]) :=
    ⟨_, rfl, rfl, rfl, rfl⟩
  obtain ⟨t, e1, e2, e3⟩ := h0
  obtain ⟨h, hh⟩ := buildMulti_hist _ _ _ _ .new e1
  exact ⟨t, h, hh, e2, e3⟩

/-- What a traversal of a multiset visited, and what the multiset holds afterwards. -/
def outcomeSet {τ : Type} (r : Res (List (Int × Bool) × τ × Tree Int Bool)) : Res (List Int × τ × List Int) := do
  let (vs, s, t) ← r
  let m ← iterList t
  .ok (vs.map (·.1), s, m.map (·.1))

/-- A visitor of a multiset that makes the calls `f n` when it is called for the `n`-th time (from 0). -/
def exNth (f : Nat → List (MultiSetCall Int)) : Visitor Int Bool Nat (MultiSetCall Int) := fun _ n _ _ => ⟨n + 1, f n, true⟩

/-- A visitor of a multiset that at `k` takes away one `k + 1` and all `k + 2`, and adds `k - 3`. -/
def exMultiSet : Visitor Int Bool Nat (MultiSetCall Int) := fun _ n k _ => ⟨n + 1, [.erase (k + 1), .eraseAll (k + 2), .insert (k - 3)], true⟩

/-- The visitor of the example makes safe calls only. -/
theorem exMultiSet_safe (L : List (Int × Bool)) (e : Int × Bool) (R : List (Int × Bool)) (s : Nat) (hs : SortedKV intCmp (L ++ e :: R)) :
    AllSafeAt (MultiSetCall.Safe intCmp) (spotSet intCmp) (exMultiSet (L ++ e :: R) s e.1 e.2).calls ⟨L, e, R⟩ := by
  have hlt : ∀ a b : Int, a < b → intCmp b a ≠ 0 ∧ intCmp a b < 0 := by
    intro a b h
    simp only [intCmp]
    constructor <;> split <;> (try split) <;> omega
  have hL : ∀ a ∈ L, intCmp (e.1 + 1) a.1 ≠ 0 := by
    intro a ha
    simp only [SortedKV, List.pairwise_append] at hs
    have h1 := hs.2.2 a ha e (by simp)
    have h2 : a.1 ≤ e.1 := by
      simp only [intCmp] at h1
      split at h1
      · omega
      · split at h1 <;> omega
    exact (hlt a.1 (e.1 + 1) (by omega)).1
  refine ⟨.inr ⟨hL, (hlt e.1 (e.1 + 1) (by omega)).1⟩, ?_, trivial, trivial⟩
  have hb : L.any (fun a => decide (intCmp (e.1 + 1) a.1 = 0)) = false := by
    rw [List.any_eq_false]
    intro a ha
    simpa using hL a ha
  simp only [MultiSetCall.Safe, spotSet, Spot.dropOne, hb, Bool.false_eq_true, if_false]
  exact ⟨(hlt e.1 (e.1 + 2) (by omega)).1, .inl (hlt e.1 (e.1 + 2) (by omega)).2⟩

set_option maxRecDepth 40000 in
/-- A walk with safe calls over a multiset: at 1 one 2 goes, and -2 comes; at the remaining 2 the 3 goes and so does 4. -/
theorem C100_multiset_demo : ∃ t h, MultiSetHist intCmp t h ∧ iterList t = .ok [(1, true), (2, true), (2, true), (3, true), (4, true), (4, true), (5, true)] ∧
    outcomeSet (reTraversal (multiSetCall intCmp) exMultiSet 40 t 0) = .ok ([1, 2, 5], 3, [-2, -1, 1, 2, 2, 5]) := by
  have h0 : ∃ t, buildMultiSet [2, 4, 1, 3, 2, 5, 4] Tree.new = .ok t ∧
      iterList t = .ok [(1, true), (2, true), (2, true), (3, true), (4, true), (4, true), (5, true)] ∧
    outcomeSet (reTraversal (multiSetCall intCmp) exMultiSet 40 t 0) = .ok ([1, 2, 5], 3, [-2, -1, 1, 2, 2, 5]) := ⟨_, rfl, rfl, rfl⟩
  obtain ⟨t, e1, e2, e3⟩ := h0
  obtain ⟨h, hh⟩ := buildMultiSet_hist _ _ _ _ .new e1
  exact ⟨t, h, hh, e2, e3⟩

/-- `C100_multiset_partial` and `C100_multiset_visits_partial` on this walk: it ends within eight rounds of the loop, and 1 and 5 (which nobody takes away) are visited. -/
example : ∃ t vs s t', iterList t = .ok [(1, true), (2, true), (2, true), (3, true), (4, true), (4, true), (5, true)] ∧
    reTraversal (multiSetCall intCmp) exMultiSet 8 t 0 = .ok (vs, s, t') ∧ vs.Sublist [(1, true), (2, true), (2, true), (3, true), (4, true), (4, true), (5, true)] ∧
    vs.Pairwise (fun a b => intCmp a.1 b.1 ≤ 0) ∧
    ∃ m, spotLoop (spotSet intCmp) exMultiSet 8 [] [(1, true), (2, true), (2, true), (3, true), (4, true), (4, true), (5, true)] 0 = .ok (vs, s, m) ∧ iterList t' = .ok m := by
  obtain ⟨t, h, hh, e1, -⟩ := C100_multiset_demo
  obtain ⟨h1, h2⟩ := C100_multiset_visits_partial intCmp_lawful hh e1 exMultiSet exMultiSet_safe 0
  obtain ⟨vs, s, t', e2, h3⟩ := h2 (by
    intro m s k v x hx
    simp only [exMultiSet, List.mem_cons, reduceCtorEq, MultiSetCall.insert.injEq, List.not_mem_nil, or_false, false_or] at hx
    subst hx
    simp only [intCmp]
    split <;> (try split) <;> omega)
  exact ⟨t, vs, s, t', e1, e2, h3, (h1 _ _ _ _ e2).1, (C100_multiset_partial intCmp_lawful hh e1 exMultiSet exMultiSet_safe 8 0).visited e2⟩

/-- `C100_multiset_calls`, `C100_multimap_calls`: at the marked 3, the oldest 1 and all the 4s are taken away. -/
example : (spotSet intCmp (.erase 1) ⟨[(1, true), (1, true), (2, true)], (3, true), [(4, true)]⟩).all = [(1, true), (2, true), (3, true), (4, true)] ∧
    (spotMap intCmp (.erase 4) ⟨[((1 : Int), 'a')], (3, 'b'), [(4, 'c'), (4, 'd')]⟩).all = [(1, 'a'), (3, 'b')] :=
  ⟨(C100_multiset_calls (c := .erase 1) intCmp_lawful (by simp [SortedKV, Spot.all, intCmp])
      (.inl ⟨[], (1, true), (1, true), [(2, true)], rfl, rfl, by simp⟩)).1,
   (C100_multimap_calls (c := .erase 4) intCmp_lawful (by simp [SortedKV, Spot.all, intCmp]) ⟨by decide, .inl (by decide)⟩).1⟩

/-- `C100_multimap_visits_partial`: a visitor that only erases keys above the visited one. -/
example : ∃ t vs s t', iterList t = .ok [((1 : Int), (10 : Int)), (2, 20), (2, 21), (3, 30)] ∧
    reTraversal (multiMapCall intCmp) (fun _ n k _ => ⟨n + 1, [.erase (k + 1)], true⟩) 5 t (0 : Nat) = .ok (vs, s, t') ∧
    vs.Sublist [(1, 10), (2, 20), (2, 21), (3, 30)] ∧ vs.Pairwise (fun a b => intCmp a.1 b.1 ≤ 0) := by
  obtain ⟨t, h, hh, e1, -⟩ := C100_demo
  obtain ⟨h1, h2⟩ := C100_multimap_visits_partial intCmp_lawful hh e1 (fun _ n k _ => ⟨n + 1, [.erase (k + 1)], true⟩) (by
    intro L e R s _
    refine ⟨⟨?_, .inl ?_⟩, trivial⟩ <;> simp only [intCmp] <;> split <;> (try split) <;> omega) (0 : Nat)
  obtain ⟨vs, s, t', e2, h3⟩ := h2 (by simp)
  exact ⟨t, vs, s, t', e1, e2, h3, (h1 _ _ _ _ e2).1⟩

set_option maxRecDepth 40000 in
/-- **C100 (violation)** When `Erase` takes away the visited element of a multiset, the walk may pass over an equal element nobody touched: two of the three 2s are
left, of which one is not visited. -/
theorem C100_multiset_violated : ∃ t h, MultiSetHist intCmp t h ∧ iterList t = .ok [(1, true), (2, true), (2, true), (2, true), (3, true)] ∧
    outcomeSet (reTraversal (multiSetCall intCmp) (exNth fun n => if n = 1 then [.erase 2] else []) 40 t 0) = .ok ([1, 2, 2, 3], 4, [1, 2, 2, 3]) := by
  have h0 : ∃ t, buildMultiSet [2, 2, 1, 3, 2] Tree.new = .ok t ∧ iterList t = .ok [(1, true), (2, true), (2, true), (2, true), (3, true)] ∧
    outcomeSet (reTraversal (multiSetCall intCmp) (exNth fun n => if n = 1 then [.erase 2] else []) 40 t 0) = .ok ([1, 2, 2, 3], 4, [1, 2, 2, 3]) :=
    ⟨_, rfl, rfl, rfl⟩
  obtain ⟨t, e1, e2, e3⟩ := h0
  obtain ⟨h, hh⟩ := buildMultiSet_hist _ _ _ _ .new e1
  exact ⟨t, h, hh, e2, e3⟩

end GoSTL.TreeMap
