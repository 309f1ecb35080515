import Verif.TreeMap.MapProps
import Mathlib.Data.List.Perm.Basic
/-!
# MultiMap and MultiSet: C42, C44
-/
namespace GoSTL.TreeMap
open GoSTL.RB

variable {K V : Type} {cmp : K → K → Int}

/-- `kvs` is `h` reordered, entries with equal keys in the same order. -/
def SameEntries (cmp : K → K → Int) (kvs h : List (K × V)) : Prop :=
  kvs.Perm h ∧ ∀ q, kvs.filter (keq cmp q) = h.filter (keq cmp q)

/-- The tree holds the entries of the history `h`. -/
def MultiInv (cmp : K → K → Int) (s : Tree K V) (h : List (K × V)) : Prop :=
  ∃ kvs, HoldsKV cmp s kvs ∧ SameEntries cmp kvs h

theorem keq_swap (hc : LawfulCmp cmp) {k q : K} {e e' : K × V} (h1 : keq cmp k e = true) (h2 : keq cmp q e = true) :
    keq cmp k e' = keq cmp q e' := by
  simp only [keq, decide_eq_true_eq, decide_eq_decide] at *
  exact (hc.congr_left (hc.eq_trans h1 (hc.eq_symm.1 h2))).2.1

theorem SameEntries.insert (hc : LawfulCmp cmp) {kvs h : List (K × V)} (hs : SortedKV cmp kvs) (h1 : SameEntries cmp kvs h)
    (k : K) (v : V) : SameEntries cmp (insertBy cmp (·.1) (k, v) kvs) (h ++ [(k, v)]) := by
  obtain ⟨A, B, rfl, h2, h3, h4⟩ := C35_insertBy_meaning hc k v kvs hs
  rw [h2]
  constructor
  · have := h1.1.cons (k, v)
    exact (List.perm_middle.trans this).trans (List.perm_append_comm (l₁ := [(k, v)]))
  · intro q
    have h5 := h1.2 q
    simp only [List.filter_append, List.filter_cons] at h5 ⊢
    rw [← h5]
    split
    · next hq =>
      have : B.filter (keq cmp q) = [] := by
        rw [List.filter_eq_nil_iff]
        intro b hb
        simp only [keq, decide_eq_true_eq] at hq ⊢
        have := h4 b hb
        have := hc.congr_left (c := b.1) hq
        omega
      simp [this]
    · simp

theorem SameEntries.eraseAll {kvs h : List (K × V)} (h1 : SameEntries cmp kvs h) (k : K) :
    SameEntries cmp (kvs.filter fun e => !keq cmp k e) (h.filter fun e => !keq cmp k e) := by
  refine ⟨h1.1.filter _, fun q => ?_⟩
  rw [List.filter_comm, h1.2 q, List.filter_comm]

theorem SameEntries.find? {kvs h : List (K × V)} (h1 : SameEntries cmp kvs h) (k : K) :
    kvs.find? (keq cmp k) = h.find? (keq cmp k) := by
  rw [← List.head?_filter, h1.2 k, List.head?_filter]

theorem filter_eraseP_same {α : Type} (p q : α → Bool) (l : List α) (h : ∀ a ∈ l, p a = q a) :
    (l.eraseP p).filter q = (l.filter q).tail := by
  induction l with
  | nil => rfl
  | cons a l ih =>
    have ha := h a (by simp)
    by_cases hp : q a = true
    · simp [List.eraseP_cons, ha, hp]
    · simp [List.eraseP_cons, ha, hp, ih fun b hb => h b (by simp [hb])]

theorem filter_eraseP_other {α : Type} (p q : α → Bool) (l : List α) (h : ∀ a ∈ l, p a = true → q a = false) :
    (l.eraseP p).filter q = l.filter q := by
  induction l with
  | nil => rfl
  | cons a l ih =>
    have ha := h a (by simp)
    by_cases hp : p a = true
    · simp [List.eraseP_cons, hp, ha hp]
    · rw [List.eraseP_cons_of_neg hp, List.filter_cons, List.filter_cons, ih fun b hb => h b (by simp [hb])]

theorem SameEntries.eraseOne (hc : LawfulCmp cmp) {kvs h : List (K × V)} (h1 : SameEntries cmp kvs h) (k : K) :
    SameEntries cmp (kvs.eraseP (keq cmp k)) (h.eraseP (keq cmp k)) := by
  constructor
  · have hf := h1.find? k
    cases hk : kvs.find? (keq cmp k) with
    | none =>
      rw [hk] at hf
      rw [List.find?_eq_none] at hk
      have hf' := List.find?_eq_none.1 hf.symm
      rw [List.eraseP_of_forall_not hk, List.eraseP_of_forall_not hf']
      exact h1.1
    | some e =>
      rw [hk] at hf
      obtain ⟨a1, A, B, rfl, a2⟩ := List.find?_eq_some_iff_append.1 hk
      obtain ⟨b1, H, H', rfl, b2⟩ := List.find?_eq_some_iff_append.1 hf.symm
      rw [List.eraseP_append_right _ (by simpa using a2), List.eraseP_cons_of_pos a1,
        List.eraseP_append_right _ (by simpa using b2), List.eraseP_cons_of_pos a1]
      have := (List.perm_middle.symm.trans (h1.1.trans List.perm_middle))
      exact (List.perm_cons e).1 this
  · intro q
    by_cases hq : cmp k q = 0
    · have : ∀ a : K × V, keq cmp k a = keq cmp q a := fun a => by
        simp only [keq, decide_eq_decide]; exact (hc.congr_left hq).2.1
      rw [filter_eraseP_same _ _ _ fun a _ => this a, filter_eraseP_same _ _ _ fun a _ => this a, h1.2]
    · have : ∀ a : K × V, keq cmp k a = true → keq cmp q a = false := fun a ha => by
        simp only [keq, decide_eq_true_eq, decide_eq_false_iff_not] at *
        exact fun h => hq (hc.eq_trans ha (hc.eq_symm.1 h))
      rw [filter_eraseP_other _ _ _ fun a _ => this a, filter_eraseP_other _ _ _ fun a _ => this a, h1.2]

theorem SameEntries.set (hc : LawfulCmp cmp) {A B H H' : List (K × V)} {k v k' v' w} 
    (h1 : SameEntries cmp (A ++ (k, v) :: B) (H ++ (k', v') :: H'))
    (hk : cmp k k' = 0) (hn : A.countP (keq cmp k) = H.countP (keq cmp k)) :
    SameEntries cmp (A ++ (k, w) :: B) (H ++ (k', w) :: H') := by
  have e1 : keq cmp k (k, v) = true := by simp [keq, hc.refl]
  have e2 : keq cmp k (k', v') = true := by simp [keq, hk]
  have h2 := h1.2 k
  simp only [List.filter_append, List.filter_cons, e1, e2, if_true] at h2
  have h3 := List.append_inj h2 (by simpa [List.countP_eq_length_filter] using hn)
  obtain ⟨h3, h4⟩ := h3
  simp only [List.cons.injEq, Prod.mk.injEq] at h4
  obtain ⟨⟨rfl, rfl⟩, h4⟩ := h4
  constructor
  · have := (List.perm_middle.symm.trans (h1.1.trans List.perm_middle))
    have := (List.perm_cons _).1 this
    exact List.perm_middle.trans ((this.cons _).trans List.perm_middle.symm)
  · intro q
    by_cases hq : cmp q k = 0
    · have : (keq cmp q : K × V → Bool) = keq cmp k := by
        funext a; simp only [keq, decide_eq_decide]; exact (hc.congr_left hq).2.1
      simp only [this, List.filter_append, List.filter_cons, h3, h4]
    · have h5 := h1.2 q
      have e3 : ∀ u : V, keq cmp q (k, u) = false := fun u => by simp [keq, hq]
      simp only [List.filter_append, List.filter_cons, e3] at h5 ⊢
      exact h5

theorem MultiInv.insert (hc : LawfulCmp cmp) {s : Tree K V} {h} (hi : MultiInv cmp s h) (k : K) (v : V) :
    ∃ s', s.insert cmp k v = .ok s' ∧ MultiInv cmp s' (h ++ [(k, v)]) := by
  obtain ⟨kvs, h1, h2⟩ := hi
  obtain ⟨s', e, h3⟩ := h1.insert hc k v
  exact ⟨s', e, _, h3, h2.insert hc h1.sorted k v⟩

theorem MultiInv.eraseAll (hc : LawfulCmp cmp) {s : Tree K V} {h} (hi : MultiInv cmp s h) (k : K) :
    ∃ s', eraseAll cmp s k = .ok s' ∧ MultiInv cmp s' (h.filter fun e => !keq cmp k e) := by
  obtain ⟨kvs, h1, h2⟩ := hi
  obtain ⟨s', e, h3⟩ := h1.eraseAll hc k
  exact ⟨s', e, _, h3, h2.eraseAll k⟩

theorem MultiInv.eraseOne (hc : LawfulCmp cmp) {s : Tree K V} {h} (hi : MultiInv cmp s h) (k : K) :
    ∃ s', eraseOne cmp s k = .ok s' ∧ MultiInv cmp s' (h.eraseP (keq cmp k)) := by
  obtain ⟨kvs, h1, h2⟩ := hi
  obtain ⟨s', e, h3⟩ := h1.eraseOne hc k
  exact ⟨s', e, _, h3, h2.eraseOne hc k⟩

theorem multiMapHist_inv (hc : LawfulCmp cmp) {s : Tree K V} {h} (hh : MultiMapHist cmp s h) : MultiInv cmp s h := by
  induction hh with
  | new => exact ⟨[], HoldsKV.new, List.Perm.nil, fun _ => rfl⟩
  | @insert s s' h k v _ e ih =>
    obtain ⟨s'', e', h⟩ := ih.insert hc k v
    rw [multiMapInsert, e'] at e; cases e; exact h
  | @erase s s' h k _ e ih =>
    obtain ⟨s'', e', h'⟩ := ih.eraseAll hc k
    rw [e'] at e; cases e
    have : (h.filter fun e => decide (cmp k e.1 ≠ 0)) = h.filter fun e => !keq cmp k e := by
      congr 1; funext e; simp [keq]
    rw [this]; exact h'
  | @setValue s s' A i k v B H k' v' H' w _ ht hk hn e ih =>
    obtain ⟨kvs, ⟨xs, h1, rfl⟩, h2⟩ := ih
    rw [h1.1.toList] at ht; cases ht
    obtain ⟨n, g1, g2, g3⟩ := h1.1.node (i := i) (k := k) (v := v) (by simp)
    simp only [iterSetValue, Res.ofOption_some, Res.ok_bind, g1, Res.pure_eq, Res.ok.injEq] at e
    subst e
    refine ⟨_, HoldsKV.setValue h1 w, ?_⟩
    simp only [List.map_append, List.map_cons] at h2 ⊢
    refine h2.set hc hk ?_
    rw [List.countP_map]
    exact hn
  | clear _ ih =>
    obtain ⟨kvs, h1, -⟩ := ih
    exact ⟨[], h1.clear, List.Perm.nil, fun _ => rfl⟩

/-- C42: after any history the MultiMap holds exactly the entries inserted and not erased: `Get(k)` is the oldest value
of `k`, iteration is in key order, is a rearrangement of the entries, and lists the entries of each key in insertion
order; `Last`/`Prev` is the reverse; from `LowerBound`/`UpperBound`/`Find` the rest of that order. -/
theorem C42_multimap (hc : LawfulCmp cmp) {s : Tree K V} {h : List (K × V)} (hh : MultiMapHist cmp s h) :
    (∀ k, get cmp s k = .ok ((h.find? fun e => decide (cmp k e.1 = 0)).map (·.2))) ∧
    (∀ k, contains cmp s k = .ok (h.any fun e => decide (cmp k e.1 = 0))) ∧ size s = h.length ∧
    ∃ kvs, iterList s = .ok kvs ∧ iterListBack s = .ok kvs.reverse ∧ kvs.Perm h ∧
      kvs.Pairwise (fun a b => cmp a.1 b.1 ≤ 0) ∧
      (∀ k, kvs.filter (fun e => decide (cmp k e.1 = 0)) = h.filter fun e => decide (cmp k e.1 = 0)) ∧
      (∀ (S : Type) (visit : S → K → V → S × Bool) st, mapTraversal s visit st = .ok (feedKV visit kvs st)) ∧
      (∀ k, iterFrom s (lowerBound cmp s k) = .ok (kvs.filter fun e => decide (cmp k e.1 ≤ 0))) ∧
      (∀ k, iterFrom s (upperBound cmp s k) = .ok (kvs.filter fun e => decide (cmp k e.1 < 0))) ∧
      (∀ k, iterFrom s (find cmp s k) = .ok (if h.any (fun e => decide (cmp k e.1 = 0)) then
        kvs.filter fun e => decide (cmp k e.1 ≤ 0) else [])) := by
  obtain ⟨kvs, h1, h2⟩ := multiMapHist_inv hc hh
  have hany : ∀ k, kvs.any (keq cmp k) = h.any (keq cmp k) := fun k => h2.1.any_eq
  refine ⟨fun k => by rw [h1.get hc, h2.find?]; rfl, fun k => by rw [h1.contains hc, hany]; rfl,
    by rw [h1.size, h2.1.length_eq], kvs, h1.iterList, h1.iterListBack, h2.1, h1.sorted, h2.2,
    fun S visit st => h1.mapTraversal visit st, h1.iterFrom_lower hc, h1.iterFrom_upper hc, fun k => ?_⟩
  rw [h1.iterFrom_find hc, hany]; rfl

/-- C42: no method panics or loops. -/
theorem C42_multimap_no_panic (hc : LawfulCmp cmp) {s : Tree K V} {h : List (K × V)} (hh : MultiMapHist cmp s h) :
    (∀ k v, ∃ s', multiMapInsert cmp s k v = .ok s') ∧ (∀ k, ∃ s', eraseAll cmp s k = .ok s') := by
  have hi := multiMapHist_inv hc hh
  refine ⟨fun k v => ?_, fun k => ?_⟩
  · obtain ⟨s', e, -⟩ := hi.insert hc k v; exact ⟨s', e⟩
  · obtain ⟨s', e, -⟩ := hi.eraseAll hc k; exact ⟨s', e⟩

/-! ## MultiSet -/

theorem multiSetHist_inv (hc : LawfulCmp cmp) {s : Tree K Bool} {h} (hh : MultiSetHist cmp s h) :
    MultiInv cmp s (h.map fun x => (x, true)) := by
  induction hh with
  | new => exact ⟨[], HoldsKV.new, List.Perm.nil, fun _ => rfl⟩
  | @insert s s' h x _ e ih =>
    obtain ⟨s'', e', h⟩ := ih.insert hc x true
    rw [multiSetInsert, e'] at e; cases e; simpa using h
  | @erase s s' h x _ e ih =>
    obtain ⟨s'', e', h'⟩ := ih.eraseOne hc x
    rw [e'] at e; cases e
    rw [List.eraseP_map] at h'
    exact h'
  | @eraseAll s s' h x _ e ih =>
    obtain ⟨s'', e', h'⟩ := ih.eraseAll hc x
    rw [e'] at e; cases e
    rw [List.filter_map] at h'
    have : (h.filter fun y => decide (cmp x y ≠ 0)) = h.filter ((fun e => !keq cmp x e) ∘ fun x => (x, true)) := by
      congr 1; funext e; simp [keq]
    rw [this]; exact h'
  | clear _ ih =>
    obtain ⟨kvs, h1, -⟩ := ih
    exact ⟨[], h1.clear, List.Perm.nil, fun _ => rfl⟩

/-- C44: after any history of Insert/Erase/EraseAll/Clear, `Count(x)` is the number of elements equal to `x` inserted
and not erased, `Contains`/`Size` agree, and iteration lists exactly these elements in sorted order, equal elements in
insertion order (`Erase` removes the oldest equal element, `EraseAll` all of them). -/
theorem C44_multiset (hc : LawfulCmp cmp) {s : Tree K Bool} {h : List K} (hh : MultiSetHist cmp s h) :
    (∀ x, count cmp s x = .ok (h.countP fun y => decide (cmp y x = 0))) ∧
    (∀ x, contains cmp s x = .ok (h.any fun y => decide (cmp x y = 0))) ∧ size s = h.length ∧
    ∃ kvs, iterList s = .ok kvs ∧ iterListBack s = .ok kvs.reverse ∧ (kvs.map (·.1)).Perm h ∧
      (kvs.map (·.1)).Pairwise (fun a b => cmp a b ≤ 0) ∧
      (∀ x, (kvs.map (·.1)).filter (fun y => decide (cmp x y = 0)) = h.filter fun y => decide (cmp x y = 0)) ∧
      (∀ (S : Type) (visit : S → K → S × Bool) st, setTraversal s visit st = .ok (feedKeys visit (kvs.map (·.1)) st)) ∧
      (∀ x, iterFrom s (lowerBound cmp s x) = .ok (kvs.filter fun e => decide (cmp x e.1 ≤ 0))) ∧
      (∀ x, iterFrom s (upperBound cmp s x) = .ok (kvs.filter fun e => decide (cmp x e.1 < 0))) ∧
      (∀ x, iterFrom s (find cmp s x) = .ok (if h.any (fun y => decide (cmp x y = 0)) then
        kvs.filter fun e => decide (cmp x e.1 ≤ 0) else [])) := by
  obtain ⟨kvs, h1, h2⟩ := multiSetHist_inv hc hh
  have hp : (kvs.map (·.1)).Perm h := by
    have := h2.1.map (·.1)
    simpa [Function.comp_def] using this
  have hany : ∀ k, kvs.any (keq cmp k) = h.any fun y => decide (cmp k y = 0) := fun k => by
    rw [h2.1.any_eq, List.any_map]; rfl
  refine ⟨fun x => ?_, fun x => by rw [h1.contains hc, hany], by rw [h1.size, h2.1.length_eq, List.length_map], kvs,
    h1.iterList, h1.iterListBack, hp, ?_, fun x => ?_, fun S visit st => h1.setTraversal visit st, h1.iterFrom_lower hc,
    h1.iterFrom_upper hc, fun k => by rw [h1.iterFrom_find hc, hany]⟩
  · rw [h1.count, hp.countP_eq]
  · rw [List.pairwise_map]; exact h1.sorted
  · have := congrArg (List.map (·.1)) (h2.2 x)
    rw [List.filter_map, List.map_map] at this
    rw [List.filter_map]
    have e : ((fun x : K × Bool => x.1) ∘ fun x => (x, true)) = id := rfl
    rw [e, List.map_id] at this
    exact this

/-- C44: no method panics or loops. -/
theorem C44_multiset_no_panic (hc : LawfulCmp cmp) {s : Tree K Bool} {h : List K} (hh : MultiSetHist cmp s h) (x : K) :
    (∃ s', multiSetInsert cmp s x = .ok s') ∧ (∃ s', eraseOne cmp s x = .ok s') ∧ ∃ s', eraseAll cmp s x = .ok s' := by
  have hi := multiSetHist_inv hc hh
  refine ⟨?_, ?_, ?_⟩
  · obtain ⟨s', e, -⟩ := hi.insert hc x true; exact ⟨s', e⟩
  · obtain ⟨s', e, -⟩ := hi.eraseOne hc x; exact ⟨s', e⟩
  · obtain ⟨s', e, -⟩ := hi.eraseAll hc x; exact ⟨s', e⟩

/-! ## Non-vacuity -/

/-- Inserts followed by one erase, on both containers; keys compare by their tens digit only (so different keys are
equal), which makes the order of equal keys visible. -/
def tensCmp (a b : Int) : Int := intCmp (a / 10) (b / 10)

theorem tensCmp_lawful : LawfulCmp tensCmp where
  swap a b := intCmp_lawful.swap _ _
  trans a b c := intCmp_lawful.trans _ _ _

theorem demo_multimap : ∃ s, MultiMapHist tensCmp s [((21 : Int), 'a'), (11, 'b'), (20, 'd')] ∧
    iterList s = .ok [(11, 'b'), (21, 'a'), (20, 'd')] := by
  have h0 : ∃ s1 s2 s3 s4 s5, multiMapInsert tensCmp Tree.new 21 'a' = .ok s1 ∧ multiMapInsert tensCmp s1 11 'b' = .ok s2 ∧
      multiMapInsert tensCmp s2 30 'c' = .ok s3 ∧ multiMapInsert tensCmp s3 20 'd' = .ok s4 ∧ eraseAll tensCmp s4 33 = .ok s5 ∧
      iterList s5 = .ok [(11, 'b'), (21, 'a'), (20, 'd')] := ⟨_, _, _, _, _, rfl, rfl, rfl, rfl, rfl, rfl⟩
  obtain ⟨s1, s2, s3, s4, s5, e1, e2, e3, e4, e5, e6⟩ := h0
  exact ⟨s5, (((((.new : MultiMapHist tensCmp Tree.new []).insert e1).insert e2).insert e3).insert e4).erase e5, e6⟩

theorem demo_multiset : ∃ s, MultiSetHist tensCmp s [(11 : Int), 30, 20] ∧ count tensCmp s 22 = .ok 1 ∧ LawfulCmp tensCmp := by
  have h0 : ∃ s1 s2 s3 s4 s5, multiSetInsert tensCmp Tree.new 21 = .ok s1 ∧ multiSetInsert tensCmp s1 11 = .ok s2 ∧
      multiSetInsert tensCmp s2 30 = .ok s3 ∧ multiSetInsert tensCmp s3 20 = .ok s4 ∧ eraseOne tensCmp s4 22 = .ok s5 ∧
      count tensCmp s5 22 = .ok 1 := ⟨_, _, _, _, _, rfl, rfl, rfl, rfl, rfl, rfl⟩
  obtain ⟨s1, s2, s3, s4, s5, e1, e2, e3, e4, e5, e6⟩ := h0
  exact ⟨s5, (((((.new : MultiSetHist tensCmp Tree.new []).insert e1).insert e2).insert e3).insert e4).erase e5, e6,
    tensCmp_lawful⟩

/-- `C42_multimap` on this multimap: 25 equals 21 and 20, of which 21 came first. -/
example : ∃ s, iterList s = .ok [((11 : Int), 'b'), (21, 'a'), (20, 'd')] ∧ size s = 3 ∧ get tensCmp s 25 = .ok (some 'a') ∧ contains tensCmp s 30 = .ok false ∧
    iterListBack s = .ok [(20, 'd'), (21, 'a'), (11, 'b')] ∧ iterFrom s (find tensCmp s 25) = .ok [(21, 'a'), (20, 'd')] := by
  obtain ⟨s, h, e⟩ := demo_multimap
  obtain ⟨h1, h2, h3, kvs, e', h5, -, -, -, -, -, -, h12⟩ := C42_multimap tensCmp_lawful h
  rw [e] at e'; cases e'
  exact ⟨s, e, h3, h1 25, h2 30, h5, h12 25⟩

/-- `C42_multimap_no_panic`: erasing two entries at once, then inserting. -/
example : ∃ s s1 s2, iterList s = .ok [((11 : Int), 'b'), (21, 'a'), (20, 'd')] ∧ eraseAll tensCmp s 29 = .ok s1 ∧ multiMapInsert tensCmp s1 12 'e' = .ok s2 := by
  obtain ⟨s, h, e⟩ := demo_multimap
  obtain ⟨s1, e1⟩ := (C42_multimap_no_panic tensCmp_lawful h).2 29
  obtain ⟨s2, e2⟩ := (C42_multimap_no_panic tensCmp_lawful (h.erase e1)).1 12 'e'
  exact ⟨s, s1, s2, e, e1, e2⟩

/-- `C44_multiset`, `C44_multiset_no_panic`: inserting another element equal to 20. -/
example : ∃ s s1, MultiSetHist tensCmp s [(11 : Int), 30, 20] ∧ multiSetInsert tensCmp s 29 = .ok s1 ∧ count tensCmp s1 21 = .ok 2 ∧ size s1 = 4 ∧
    contains tensCmp s1 40 = .ok false := by
  obtain ⟨s, h, -⟩ := demo_multiset
  obtain ⟨s1, e1⟩ := (C44_multiset_no_panic tensCmp_lawful h 29).1
  obtain ⟨h1, h2, h3, -⟩ := C44_multiset tensCmp_lawful (h.insert e1)
  exact ⟨s, s1, h, e1, h1 21, h3, h2 40⟩

end GoSTL.TreeMap
