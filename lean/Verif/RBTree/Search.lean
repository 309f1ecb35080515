import Verif.RBTree.Erase
/-!
# Lookups, bounds and the self-check
-/
namespace GoSTL.RB
open T
variable {K V : Type}

theorem lowerBoundFrom_spec {cmp : K → K → Int} (hc : LawfulCmp cmp) (s : Tree K V) (key : K) (fuel : Nat) :
    ∀ (c : Ctx K V) (t : T K V), t.height < fuel → Reps s (plug c t) → SortedE cmp t.entries →
    s.lowerBoundFrom cmp key fuel t.rootId = .ok ((t.entries.find? fun e => decide (cmp key e.2.1 ≤ 0)).map (·.1)) := by
  induction fuel with
  | zero => intro c t h; omega
  | succ fuel ih =>
    intro c t hh hs hso
    cases t with
    | leaf => simp [Tree.lowerBoundFrom]
    | node l i b k v r =>
      simp only [T.height] at hh
      simp only [SortedE, T.entries, List.pairwise_append, List.pairwise_cons] at hso
      have il := ih (.L i b k v r :: c) l (by omega) hs hso.1
      have ir := ih (.R l i b k v :: c) r (by omega) hs hso.2.1.2
      simp only [Tree.lowerBoundFrom, rootId_node, hs.node_eq, Res.ok_bind, T.entries, List.find?_append]
      by_cases hk : cmp key k ≤ 0
      · simp only [hk, if_true, il, Res.ok_bind, List.find?_cons, decide_true]
        cases hf : l.entries.find? fun e => decide (cmp key e.2.1 ≤ 0) with
        | none => simp
        | some e =>
          have hm := List.mem_of_find?_eq_some hf
          obtain ⟨n, h1, h2, h3⟩ := Reps.lookup_entry hs (i := e.1) (k := e.2.1) (v := e.2.2) (by
            rw [plug_entries]; simp [hm])
          have h4 := hso.2.2 e hm _ (List.mem_cons_self ..)
          simp only [] at h4
          simp [h1, h2, h4]
      · have hl : l.entries.find? (fun e => decide (cmp key e.2.1 ≤ 0)) = none := by
          rw [List.find?_eq_none]
          intro e he
          simp only [decide_eq_true_eq]
          have h4 := hso.2.2 e he _ (List.mem_cons_self ..)
          intro h5
          exact hk (hc.trans _ _ _ h5 h4)
        simp [hk, ir, hl]

theorem upperBoundFrom_spec {cmp : K → K → Int} (hc : LawfulCmp cmp) (s : Tree K V) (key : K) (fuel : Nat) :
    ∀ (c : Ctx K V) (t : T K V), t.height < fuel → Reps s (plug c t) → SortedE cmp t.entries →
    s.upperBoundFrom cmp key fuel t.rootId = .ok ((t.entries.find? fun e => decide (cmp key e.2.1 < 0)).map (·.1)) := by
  induction fuel with
  | zero => intro c t h; omega
  | succ fuel ih =>
    intro c t hh hs hso
    cases t with
    | leaf => simp [Tree.upperBoundFrom]
    | node l i b k v r =>
      simp only [T.height] at hh
      simp only [SortedE, T.entries, List.pairwise_append, List.pairwise_cons] at hso
      have il := ih (.L i b k v r :: c) l (by omega) hs hso.1
      have ir := ih (.R l i b k v :: c) r (by omega) hs hso.2.1.2
      simp only [Tree.upperBoundFrom, rootId_node, hs.node_eq, Res.ok_bind, T.entries, List.find?_append]
      by_cases hk : cmp key k < 0
      · have hk' : ¬ cmp key k ≥ 0 := by omega
        simp only [hk, hk', if_false, il, Res.ok_bind, List.find?_cons, decide_true]
        cases hf : l.entries.find? fun e => decide (cmp key e.2.1 < 0) with
        | none => simp
        | some e =>
          have hm := List.mem_of_find?_eq_some hf
          obtain ⟨n, h1, h2, h3⟩ := Reps.lookup_entry hs (i := e.1) (k := e.2.1) (v := e.2.2) (by
            rw [plug_entries]; simp [hm])
          have h4 := hso.2.2 e hm _ (List.mem_cons_self ..)
          simp only [] at h4
          simp [h1, h2, h4]
      · have hl : l.entries.find? (fun e => decide (cmp key e.2.1 < 0)) = none := by
          rw [List.find?_eq_none]
          intro e he
          simp only [decide_eq_true_eq]
          have h4 := hso.2.2 e he _ (List.mem_cons_self ..)
          intro h5
          exact hk (hc.lt_of_lt_of_le h5 h4)
        have hk' : cmp key k ≥ 0 := by omega
        simp [hk, hk', ir, hl]

theorem findLowerBoundNode_spec {cmp : K → K → Int} (hc : LawfulCmp cmp) {s : Tree K V} {t : T K V} (hs : Reps s t)
    (hso : SortedE cmp t.entries) (key : K) :
    s.findLowerBoundNode cmp key = .ok ((t.entries.find? fun e => decide (cmp key e.2.1 ≤ 0)).map (·.1)) := by
  have := hs.length_le; have := t.height_le
  rw [Tree.findLowerBoundNode, hs.root]
  exact lowerBoundFrom_spec hc s key s.fuel [] t (by simp only [Tree.fuel]; omega) hs hso

theorem findUpperBoundNode_spec {cmp : K → K → Int} (hc : LawfulCmp cmp) {s : Tree K V} {t : T K V} (hs : Reps s t)
    (hso : SortedE cmp t.entries) (key : K) :
    s.findUpperBoundNode cmp key = .ok ((t.entries.find? fun e => decide (cmp key e.2.1 < 0)).map (·.1)) := by
  have := hs.length_le; have := t.height_le
  rw [Tree.findUpperBoundNode, hs.root]
  exact upperBoundFrom_spec hc s key s.fuel [] t (by simp only [Tree.fuel]; omega) hs hso

/-- In a sorted list the first entry with key `≥ key` is the first with key `= key`, if there is one. -/
theorem find_le_eq {cmp : K → K → Int} (hc : LawfulCmp cmp) (key : K) : ∀ (es : List (Id × K × V)), SortedE cmp es →
    ((es.find? fun e => decide (cmp key e.2.1 ≤ 0)).filter fun e => decide (cmp e.2.1 key = 0)) =
      es.find? fun e => decide (cmp key e.2.1 = 0) := by
  intro es hso
  induction es with
  | nil => rfl
  | cons e es ih =>
    simp only [SortedE, List.pairwise_cons] at hso
    have hsym := hc.eq_symm (a := key) (b := e.2.1)
    by_cases h1 : cmp key e.2.1 = 0
    · have h2 : cmp key e.2.1 ≤ 0 := by omega
      simp [List.find?_cons, h1, h2, hsym.1 h1]
    · by_cases h2 : cmp key e.2.1 ≤ 0
      · have h3 : ¬ cmp e.2.1 key = 0 := fun h => h1 (hsym.2 h)
        have : es.find? (fun e => decide (cmp key e.2.1 = 0)) = none := by
          rw [List.find?_eq_none]
          intro e' he'
          simp only [decide_eq_true_eq]
          have := hc.lt_of_lt_of_le (a := key) (by omega) (hso.1 e' he')
          omega
        simp [List.find?_cons, h1, h2, h3, this]
      · simp only [List.find?_cons, h1, h2, decide_false]
        exact ih hso.2

theorem findNode_spec {cmp : K → K → Int} (hc : LawfulCmp cmp) {s : Tree K V} {t : T K V} (hs : Reps s t)
    (hso : SortedE cmp t.entries) (key : K) :
    s.findNode cmp key = .ok ((t.entries.find? fun e => decide (cmp key e.2.1 = 0)).map (·.1)) := by
  rw [← find_le_eq hc key _ hso]
  simp only [Tree.findNode, findLowerBoundNode_spec hc hs hso, Res.ok_bind]
  cases hf : t.entries.find? fun e => decide (cmp key e.2.1 ≤ 0) with
  | none => simp
  | some e =>
    obtain ⟨n, h1, h2, h3⟩ := hs.lookup_entry (i := e.1) (k := e.2.1) (v := e.2.2) (List.mem_of_find?_eq_some hf)
    by_cases h4 : cmp e.2.1 key = 0
    · simp [h1, h2, h4, Option.filter]
    · simp [h1, h2, h4, Option.filter]

theorem find_spec {cmp : K → K → Int} (hc : LawfulCmp cmp) {s : Tree K V} {t : T K V} (hs : Reps s t)
    (hso : SortedE cmp t.entries) (key : K) :
    s.find cmp key = .ok ((t.entries.find? fun e => decide (cmp key e.2.1 = 0)).map (·.2.2)) := by
  simp only [Tree.find, findNode_spec hc hs hso, Res.ok_bind]
  cases hf : t.entries.find? fun e => decide (cmp key e.2.1 = 0) with
  | none => simp
  | some e =>
    obtain ⟨n, h1, h2, h3⟩ := hs.lookup_entry (i := e.1) (k := e.2.1) (v := e.2.2) (List.mem_of_find?_eq_some hf)
    simp [h1, h3]

/-- `test` on a subtree. -/
theorem test_spec (s : Tree K V) (fuel : Nat) : ∀ (c : Ctx K V) (t : T K V), t.height < fuel → Reps s (plug c t) →
    ∃ cnt prop ok, s.test fuel t.rootId = .ok (cnt, prop, ok) ∧
      (ok = true ↔ (c = [] → t.isBlack = true) ∧ NoRR t ∧ ∃ n, BH t n) ∧
      (ok = true → ∃ n : Nat, BH t n ∧ cnt = n + 1) := by
  induction fuel with
  | zero => intro c t h; omega
  | succ fuel ih =>
    intro c t hh hs
    cases t with
    | leaf => exact ⟨1, 0, true, by simp [Tree.test], by simp [NoRR, BH], fun _ => ⟨0, rfl, by simp⟩⟩
    | node l i b k v r =>
      simp only [T.height] at hh
      have hroot : s.root = some i ↔ c = [] := by
        rw [hs.root]
        rcases plug_rootId_cases c (.node l i b k v r) with ⟨h, h'⟩ | ⟨h, j, h1, h2⟩
        · simp [h, h']
        · simp only [h, iff_false, h2, Option.some.injEq]
          intro h3; exact hs.split.2.2.2.2 i (by simp) i (h3 ▸ h1) rfl
      obtain ⟨lc, lp, lo, l1, l2, l3⟩ := ih (.L i b k v r :: c) l (by omega) hs
      obtain ⟨rc, rp, ro, r1, r2, r3⟩ := ih (.R l i b k v :: c) r (by omega) hs
      have cl := hs.split.1.2.1.getColor
      have cr := hs.split.1.2.2.getColor
      simp only [reduceCtorEq, false_imp_iff, true_and] at l2 r2
      simp only [Tree.test, rootId_node, hs.node_eq, Res.ok_bind, hroot, isBlack_node]
      by_cases hrr : c = [] ∧ b = false
      · refine ⟨1, 2, false, by simp [hrr.1, hrr.2], ?_, by simp⟩
        simp [hrr.1, hrr.2]
      simp only [hrr, if_false, l1, Res.ok_bind]
      have hrr' : (c = [] → b = true) := by simpa using hrr
      cases lo with
      | false =>
        refine ⟨lc, lp, false, by simp, ?_, by simp⟩
        simp only [Bool.false_eq_true, false_iff] at l2 ⊢
        rintro ⟨-, h1, n, m, h2, -⟩
        exact l2 ⟨h1.2.1, m, h2⟩
      | true =>
        simp only [Bool.true_eq_false, if_false, r1, Res.ok_bind]
        cases ro with
        | false =>
          refine ⟨rc, rp, false, by simp, ?_, by simp⟩
          simp only [Bool.false_eq_true, false_iff] at r2 ⊢
          rintro ⟨-, h1, n, m, -, h2, -⟩
          exact r2 ⟨h1.2.2, m, h2⟩
        | true =>
          obtain ⟨n, ln, rfl⟩ := l3 rfl
          obtain ⟨m, rn, rfl⟩ := r3 rfl
          simp only [true_iff] at l2 r2
          simp only [Bool.true_eq_false, if_false]
          by_cases hnm : n = m
          swap
          · refine ⟨_, _, _, by rw [if_pos (by omega)]; rfl, ?_, by simp⟩
            simp only [Bool.false_eq_true, false_iff]
            rintro ⟨-, h1, q, q', h2, h3, -⟩
            exact hnm ((ln.unique h2).trans (h3.unique rn))
          subst hnm
          simp only [ne_eq, not_true, if_false]
          cases b with
          | true =>
            refine ⟨(n : Int) + 1 + 1, 0, true, by simp, ?_, fun _ => ⟨n + 1, ⟨n, ln, rn, rfl⟩, by simp⟩⟩
            simp only [true_iff]
            exact ⟨fun _ => trivial, ⟨by simp, l2.1, r2.1⟩, n + 1, n, ln, rn, rfl⟩
          | false =>
            simp only [if_true, cl, cr, Res.ok_bind]
            by_cases hch : l.isBlack = false ∨ r.isBlack = false
            · refine ⟨_, _, _, by rw [if_pos hch]; rfl, ?_, by simp⟩
              simp only [Bool.false_eq_true, false_iff]
              rintro ⟨-, ⟨h1, -⟩, -⟩
              have := h1 rfl
              simp [this.1, this.2] at hch
            · refine ⟨_, _, _, by rw [if_neg hch]; rfl, ?_, fun _ => ⟨n, ⟨n, ln, rn, rfl⟩, rfl⟩⟩
              simp only [true_iff]
              exact ⟨hrr', ⟨fun _ => by simpa using hch, l2.1, r2.1⟩, n, n, ln, rn, rfl⟩

theorem isRbTree_spec {s : Tree K V} {t : T K V} (hs : Reps s t) :
    ∃ ok, s.isRbTree = .ok ok ∧ (ok = true ↔ RBT t) := by
  have := hs.length_le; have := t.height_le
  obtain ⟨a, b, ok, h1, h2, -⟩ := test_spec s s.fuel [] t (by simp only [Tree.fuel]; omega) hs
  refine ⟨ok, by rw [Tree.isRbTree, hs.root, h1]; rfl, ?_⟩
  simpa [RBT] using h2

end GoSTL.RB
