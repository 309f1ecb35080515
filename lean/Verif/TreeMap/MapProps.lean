import Verif.TreeMap.Iter
/-!
# Map: C40, C41, C46
-/
namespace GoSTL.TreeMap
open GoSTL.RB

variable {K V : Type} {cmp : K → K → Int}

/-- Strictly increasing keys. -/
def Strict (cmp : K → K → Int) (kvs : List (K × V)) : Prop := kvs.Pairwise fun a b => cmp a.1 b.1 < 0

/-- Lookup in a list of pairs. -/
def lk (cmp : K → K → Int) (kvs : List (K × V)) (k : K) : Option V := (kvs.find? (keq cmp k)).map (·.2)

theorem lk_mid (hc : LawfulCmp cmp) {A B : List (K × V)} {k : K} {v : V} (hs : Strict cmp (A ++ (k, v) :: B)) (q : K) :
    lk cmp (A ++ (k, v) :: B) q = if cmp q k = 0 then some v else lk cmp (A ++ B) q := by
  simp only [Strict, List.pairwise_append, List.pairwise_cons] at hs
  split
  · next h =>
    have : A.find? (keq cmp q) = none := by
      rw [List.find?_eq_none]
      intro a ha
      have h1 := hs.2.2 a ha (k, v) (by simp)
      have h2 := hc.congr_left (c := a.1) h
      have h3 := hc.swap a.1 k
      simp only [keq, decide_eq_true_eq]; simp only at h1; omega
    simp [lk, List.find?_append, this, keq, h]
  · next h => simp [lk, List.find?_append, keq, h]

theorem lk_skip (hc : LawfulCmp cmp) {A B : List (K × V)} {k : K} {v : V} (hs : Strict cmp (A ++ (k, v) :: B)) (q : K)
    (h : cmp q k = 0) : lk cmp (A ++ B) q = none := by
  simp only [Strict, List.pairwise_append, List.pairwise_cons] at hs
  have : (A ++ B).find? (keq cmp q) = none := by
    rw [List.find?_eq_none]
    intro a ha
    have h2 := hc.congr_left (c := a.1) h
    rw [List.mem_append] at ha
    simp only [keq, decide_eq_true_eq]
    rcases ha with ha | ha
    · have h1 := hs.2.2 a ha (k, v) (by simp)
      have h3 := hc.swap a.1 k
      simp only at h1; omega
    · have h1 := hs.2.1.1 a ha
      omega
  simp [lk, this]

theorem lk_mem (hc : LawfulCmp cmp) {kvs : List (K × V)} (hs : Strict cmp kvs) (k : K) (v : V) :
    lk cmp kvs k = some v ↔ ∃ k', (k', v) ∈ kvs ∧ cmp k k' = 0 := by
  constructor
  · intro h
    simp only [lk, Option.map_eq_some_iff] at h
    obtain ⟨⟨k', v'⟩, h1, rfl⟩ := h
    exact ⟨k', List.mem_of_find?_eq_some h1, by simpa [keq] using List.find?_some h1⟩
  · rintro ⟨k', hm, h⟩
    obtain ⟨A, B, rfl⟩ := List.append_of_mem hm
    rw [lk_mid hc hs, if_pos h]

theorem Strict.sub {A B : List (K × V)} {e} (h : Strict cmp (A ++ e :: B)) : Strict cmp (A ++ B) :=
  List.Pairwise.sublist (by simp) h

theorem Strict.set {A B : List (K × V)} {k v v'} (h : Strict cmp (A ++ (k, v) :: B)) : Strict cmp (A ++ (k, v') :: B) := by
  simp only [Strict, List.pairwise_append, List.pairwise_cons] at h ⊢
  refine ⟨h.1, h.2.1, fun a ha b hb => ?_⟩
  simp at hb
  rcases hb with rfl | hb
  · exact h.2.2 a ha (k, v) (by simp)
  · exact h.2.2 a ha b (by simp [hb])

theorem Strict.insert (hc : LawfulCmp cmp) {kvs : List (K × V)} (h : Strict cmp kvs) (k : K) (v : V)
    (hn : ∀ e ∈ kvs, cmp k e.1 ≠ 0) :
    ∃ A B, kvs = A ++ B ∧ insertBy cmp (·.1) (k, v) kvs = A ++ (k, v) :: B ∧ Strict cmp (A ++ (k, v) :: B) := by
  obtain ⟨A, B, rfl, h2, h3, h4⟩ := C35_insertBy_meaning hc k v kvs (h.imp fun {a b} x => by omega)
  refine ⟨A, B, rfl, h2, ?_⟩
  simp only [Strict, List.pairwise_append, List.pairwise_cons] at h ⊢
  refine ⟨h.1, ⟨h4, h.2.1⟩, fun a ha b hb => ?_⟩
  simp at hb
  rcases hb with rfl | hb
  · have h5 := h3 a ha
    have h6 := hn a (by simp [ha])
    have := hc.eq_symm (a := k) (b := a.1)
    simp only; omega
  · exact h.2.2 a ha b hb

/-- Invariant of Map histories. -/
def MapInv (cmp : K → K → Int) (s : Tree K V) (f : K → Option V) : Prop :=
  ∃ kvs, HoldsKV cmp s kvs ∧ Strict cmp kvs ∧ ∀ k, f k = lk cmp kvs k

theorem MapInv.new : MapInv cmp (Tree.new : Tree K V) fun _ => none := ⟨[], HoldsKV.new, List.Pairwise.nil, fun _ => rfl⟩

theorem MapInv.clear {s : Tree K V} {f} (h : MapInv cmp s f) : MapInv cmp (clear s) fun _ => none := by
  obtain ⟨kvs, h1, -⟩ := h
  exact ⟨[], h1.clear, List.Pairwise.nil, fun _ => rfl⟩

theorem mapInv_set (hc : LawfulCmp cmp) {s : Tree K V} {f} {A B i k v} (h : HoldsS cmp s (A ++ (i, k, v) :: B))
    (hs : Strict cmp ((A ++ (i, k, v) :: B).map (·.2))) (hf : ∀ q, f q = lk cmp ((A ++ (i, k, v) :: B).map (·.2)) q)
    (v' : V) (k' : K) (hk : cmp k' k = 0) : MapInv cmp (s.setValue i v') (upd cmp f k' (some v')) := by
  simp only [List.map_append, List.map_cons] at hs hf
  refine ⟨_, HoldsKV.setValue h v', ?_, fun q => ?_⟩ <;> simp only [List.map_append, List.map_cons]
  · exact hs.set
  · rw [lk_mid hc hs.set]
    simp only [upd, hf, (hc.congr_right (a := q) hk).2.1]
    split
    · rfl
    · next h => rw [lk_mid hc hs, if_neg h]

theorem mapInv_del (hc : LawfulCmp cmp) {s : Tree K V} {f} {A B i k v} (h : HoldsS cmp s (A ++ (i, k, v) :: B))
    (hs : Strict cmp ((A ++ (i, k, v) :: B).map (·.2))) (hf : ∀ q, f q = lk cmp ((A ++ (i, k, v) :: B).map (·.2)) q)
    (k' : K) (hk : cmp k' k = 0) : ∃ s', s.delete (some i) = .ok s' ∧ MapInv cmp s' (upd cmp f k' none) := by
  obtain ⟨s', e, h1⟩ := HoldsKV.delete h
  simp only [List.map_append, List.map_cons] at hs hf h1
  refine ⟨s', e, _, h1, hs.sub, fun q => ?_⟩
  simp only [upd, hf, (hc.congr_right (a := q) hk).2.1]
  split
  · next h => rw [lk_skip hc hs q h]
  · next h => rw [lk_mid hc hs, if_neg h]

theorem MapInv.insert (hc : LawfulCmp cmp) {s : Tree K V} {f} (h : MapInv cmp s f) (k : K) (v : V) :
    ∃ s', mapInsert cmp s k v = .ok s' ∧ MapInv cmp s' (upd cmp f k (some v)) := by
  obtain ⟨kvs, ⟨xs, h1, rfl⟩, h2, h3⟩ := h
  rcases h1.findNode hc k with ⟨h4, h5⟩ | ⟨A, i, k', v', B, rfl, h4, h5, -⟩
  · obtain ⟨s', e, h6⟩ := HoldsKV.insert hc ⟨xs, h1, rfl⟩ k v
    obtain ⟨A, B, e1, e2, h7⟩ := h2.insert hc k v (by
      intro e he
      rw [List.mem_map] at he
      obtain ⟨x, hx, rfl⟩ := he
      exact h5 x hx)
    refine ⟨s', by simp [mapInsert, h4, e], _, h6, by rw [e2]; exact h7, fun q => ?_⟩
    rw [e2, lk_mid hc h7, ← e1, ← h3]
    rfl
  · exact ⟨_, by simp [mapInsert, h4], mapInv_set hc h1 h2 h3 v k h5⟩

theorem MapInv.erase (hc : LawfulCmp cmp) {s : Tree K V} {f} (h : MapInv cmp s f) (k : K) :
    ∃ s', eraseOne cmp s k = .ok s' ∧ MapInv cmp s' (upd cmp f k none) := by
  obtain ⟨kvs, ⟨xs, h1, rfl⟩, h2, h3⟩ := h
  rcases h1.findNode hc k with ⟨h4, h5⟩ | ⟨A, i, k', v', B, rfl, h4, h5, -⟩
  · refine ⟨s, by simp [eraseOne, h4], _, ⟨xs, h1, rfl⟩, h2, fun q => ?_⟩
    simp only [upd, h3]
    split
    · next h =>
      have : (List.map (·.2) xs).find? (keq cmp q) = none := by
        rw [List.find?_eq_none]
        intro e he
        rw [List.mem_map] at he
        obtain ⟨x, hx, rfl⟩ := he
        have := h5 x hx
        simp only [keq, decide_eq_true_eq]
        rwa [(hc.congr_left (c := x.2.1) h).2.1]
      simp [lk, this]
    · rfl
  · obtain ⟨s', e, h6⟩ := mapInv_del hc h1 h2 h3 k h5
    exact ⟨s', by simp [eraseOne, h4, e], h6⟩

theorem iterKey_at {s : Tree K V} {A B : List (Id × K × V)} {i k v} (h : HoldsS cmp s (A ++ (i, k, v) :: B)) :
    iterKey s (some i) = .ok k ∧ iterValue s (some i) = .ok v := by
  obtain ⟨n, h1, h2, h3⟩ := h.1.node (i := i) (k := k) (v := v) (by simp)
  simp [iterKey, iterValue, h1, h2, h3]

theorem MapInv.eraseIter (hc : LawfulCmp cmp) {s : Tree K V} {f} (h : MapInv cmp s f) {i : Id} (hi : Linked s i) :
    ∃ k s', iterKey s (some i) = .ok k ∧ eraseIter s (.map (some i)) = .ok s' ∧ MapInv cmp s' (upd cmp f k none) := by
  obtain ⟨kvs, ⟨xs, h1, rfl⟩, h2, h3⟩ := h
  obtain ⟨A, k, v, B, rfl⟩ := h1.at_node hi
  obtain ⟨s', e, h6⟩ := mapInv_del hc h1 h2 h3 k (hc.refl k)
  exact ⟨k, s', (iterKey_at h1).1, e, h6⟩

theorem MapInv.setValue (hc : LawfulCmp cmp) {s : Tree K V} {f} (h : MapInv cmp s f) {i : Id} (hi : Linked s i) (v : V) :
    ∃ k s', iterKey s (some i) = .ok k ∧ iterSetValue s (some i) v = .ok s' ∧ MapInv cmp s' (upd cmp f k (some v)) := by
  obtain ⟨kvs, ⟨xs, h1, rfl⟩, h2, h3⟩ := h
  obtain ⟨A, k, v0, B, rfl⟩ := h1.at_node hi
  obtain ⟨n, g1, g2, g3⟩ := h1.1.node (i := i) (k := k) (v := v0) (by simp)
  exact ⟨k, _, (iterKey_at h1).1, by simp [iterSetValue, g1], mapInv_set hc h1 h2 h3 v k (hc.refl k)⟩

theorem mapHist_inv (hc : LawfulCmp cmp) {s : Tree K V} {f} (h : MapHist cmp s f) : MapInv cmp s f := by
  induction h with
  | new => exact MapInv.new
  | @insert s s' f k v _ e ih =>
    obtain ⟨s'', e', h⟩ := ih.insert hc k v
    rw [e] at e'; cases e'; exact h
  | @erase s s' f k _ e ih =>
    obtain ⟨s'', e', h⟩ := ih.erase hc k
    rw [e] at e'; cases e'; exact h
  | @eraseIter s s' f i k _ hi hk e ih =>
    obtain ⟨k', s'', hk', e', h⟩ := ih.eraseIter hc hi
    rw [e] at e'; cases e'; rw [hk] at hk'; cases hk'; exact h
  | eraseIterEnd _ e ih => cases e; exact ih
  | eraseIterOther _ e ih => cases e; exact ih
  | @setValue s s' f i k v _ hi hk e ih =>
    obtain ⟨k', s'', hk', e', h⟩ := ih.setValue hc hi v
    rw [e] at e'; cases e'; rw [hk] at hk'; cases hk'; exact h
  | clear _ ih => exact ih.clear

/-- C40: after any history, `Get`, `Contains` and `Size` agree with the finite map of the history: `Get(k)` is its value
at `k` (or not-found), `Contains(k)` whether there is one, `Size` the number of pairs enumerated, which are exactly its
bindings with no two equal keys. -/
theorem C40_map_is_finite_map (hc : LawfulCmp cmp) {s : Tree K V} {f : K → Option V} (h : MapHist cmp s f) :
    (∀ k, get cmp s k = .ok (f k)) ∧ (∀ k, contains cmp s k = .ok (f k).isSome) ∧
    ∃ kvs, iterList s = .ok kvs ∧ size s = kvs.length ∧ kvs.Pairwise (fun a b => cmp a.1 b.1 ≠ 0) ∧
      ∀ k v, f k = some v ↔ ∃ k', (k', v) ∈ kvs ∧ cmp k k' = 0 := by
  obtain ⟨kvs, h1, h2, h3⟩ := mapHist_inv hc h
  refine ⟨fun k => by rw [h1.get hc, h3]; rfl, fun k => ?_, kvs, h1.iterList, h1.size, h2.imp fun {a b} x => by omega,
    fun k v => by rw [h3, lk_mem hc h2]⟩
  rw [h1.contains hc, h3]
  congr 1
  rw [Bool.eq_iff_iff]; simp [lk]

/-- C40: no method panics or loops, so every history can be continued by every call. -/
theorem C40_map_no_panic (hc : LawfulCmp cmp) {s : Tree K V} {f : K → Option V} (h : MapHist cmp s f) :
    (∀ k v, ∃ s', mapInsert cmp s k v = .ok s') ∧ (∀ k, ∃ s', eraseOne cmp s k = .ok s') ∧
    (∀ i, Linked s i → ∃ s', eraseIter s (.map (some i)) = .ok s') ∧
    (∀ i v, Linked s i → ∃ s', iterSetValue s (some i) v = .ok s') := by
  have hi := mapHist_inv hc h
  refine ⟨fun k v => ?_, fun k => ?_, fun i hl => ?_, fun i v hl => ?_⟩
  · obtain ⟨s', e, -⟩ := hi.insert hc k v; exact ⟨s', e⟩
  · obtain ⟨s', e, -⟩ := hi.erase hc k; exact ⟨s', e⟩
  · obtain ⟨k, s', -, e, -⟩ := hi.eraseIter hc hl; exact ⟨s', e⟩
  · obtain ⟨k, s', -, e, -⟩ := hi.setValue hc hl v; exact ⟨s', e⟩

/-- C41: `Begin`/`Next` enumerate the bindings in strictly increasing key order, `Last`/`Prev` the reverse, `Traversal`
feeds them in that order until the visitor stops; from `LowerBound(k)` (`UpperBound(k)`) the iteration yields exactly
the bindings with key `≥ k` (`> k`), from `Find(k)` those from `k` on, or nothing if `k` is absent. -/
theorem C41_map_order_and_bounds (hc : LawfulCmp cmp) {s : Tree K V} {f : K → Option V} (h : MapHist cmp s f) :
    ∃ kvs, iterList s = .ok kvs ∧ kvs.Pairwise (fun a b => cmp a.1 b.1 < 0) ∧ iterListBack s = .ok kvs.reverse ∧
      (∀ k v, f k = some v ↔ ∃ k', (k', v) ∈ kvs ∧ cmp k k' = 0) ∧
      (∀ (S : Type) (visit : S → K → V → S × Bool) st, mapTraversal s visit st = .ok (feedKV visit kvs st)) ∧
      (∀ k, iterFrom s (lowerBound cmp s k) = .ok (kvs.filter fun e => decide (cmp k e.1 ≤ 0))) ∧
      (∀ k, iterFrom s (upperBound cmp s k) = .ok (kvs.filter fun e => decide (cmp k e.1 < 0))) ∧
      (∀ k, iterFrom s (find cmp s k) =
        .ok (if (f k).isSome then kvs.filter fun e => decide (cmp k e.1 ≤ 0) else [])) := by
  obtain ⟨kvs, h1, h2, h3⟩ := mapHist_inv hc h
  refine ⟨kvs, h1.iterList, h2, h1.iterListBack, fun k v => by rw [h3, lk_mem hc h2],
    fun S visit st => h1.mapTraversal visit st, h1.iterFrom_lower hc, h1.iterFrom_upper hc, fun k => ?_⟩
  rw [h1.iterFrom_find hc, h3]
  congr 2
  simp [lk]

/-- C46: erasing through an iterator to an entry removes exactly that entry from the enumeration (the entries before
and after stay in order), and `Size` drops by one. -/
theorem C46_eraseIter_exact (hc : LawfulCmp cmp) {s : Tree K V} {f : K → Option V} (h : MapHist cmp s f)
    {A B : List (Id × K × V)} {i k v} (ht : toList s = .ok (A ++ (i, k, v) :: B)) :
    ∃ s', eraseIter s (.map (some i)) = .ok s' ∧ iterList s' = .ok ((A ++ B).map (·.2)) ∧ size s' = size s - 1 := by
  obtain ⟨kvs, h1, h2, h3⟩ := mapHist_inv hc h
  have h0 := h1.size
  obtain ⟨xs, h1, rfl⟩ := h1
  rw [h1.1.toList] at ht; cases ht
  obtain ⟨s', e, h5⟩ := HoldsKV.delete h1
  refine ⟨s', e, h5.iterList, ?_⟩
  rw [h5.size, h0]; simp; omega

/-- C46: an iterator that is not valid (`IsValid() = false`, the end iterator) or not a map iterator changes nothing. -/
theorem C46_eraseIter_invalid (s : Tree K V) : eraseIter s (.map none) = .ok s ∧ eraseIter s .other = .ok s := ⟨rfl, rfl⟩

/-! ## Non-vacuity -/

/-- A Map built by inserts (key, value) given in order. -/
def buildMap : List (Int × Int) → Tree Int Int → Res (Tree Int Int)
  | [], s => .ok s
  | (k, v) :: es, s => do let s' ← mapInsert intCmp s k v; buildMap es s'

theorem buildMap_hist : ∀ (es : List (Int × Int)) (s s' : Tree Int Int) f, MapHist intCmp s f → buildMap es s = .ok s' →
    MapHist intCmp s' (es.foldl (fun f e => upd intCmp f e.1 (some e.2)) f) := by
  intro es
  induction es with
  | nil => intro s s' f h e; simp [buildMap] at e; subst e; exact h
  | cons e es ih =>
    intro s s' f h he
    obtain ⟨k, v⟩ := e
    simp only [buildMap, Res.bind_eq_ok] at he
    obtain ⟨s1, e1, e2⟩ := he
    exact ih s1 s' _ (.insert h e1) e2

/-- A history with an overwrite, an erased inner key and an erased iterator; the map then holds 1 ↦ 10 and 4 ↦ 41. -/
theorem demo_map : ∃ s f, MapHist intCmp s f ∧ iterList s = .ok [((1 : Int), (10 : Int)), (4, 41)] ∧ f 4 = some 41 ∧ f 3 = none ∧
    ∃ A B i, toList s = .ok (A ++ (i, 4, 41) :: B) := by
  have h0 : ∃ s s1 s2, buildMap [(2, 20), (1, 10), (3, 30), (4, 40), (4, 41)] Tree.new = .ok s ∧
      eraseOne intCmp s 3 = .ok s1 ∧ find intCmp s1 2 = .ok (some 0) ∧ iterKey s1 (some 0) = .ok 2 ∧
      toList s1 = .ok [(1, 1, 10), (0, 2, 20), (3, 4, 41)] ∧
      eraseIter s1 (.map (some 0)) = .ok s2 ∧ toList s2 = .ok [(1, 1, 10), (0, 4, 41)] ∧
      iterList s2 = .ok [(1, 10), (4, 41)] :=
    ⟨_, _, _, rfl, rfl, rfl, rfl, rfl, rfl, rfl, rfl⟩
  obtain ⟨s, s1, s2, e1, e2, e3, e4, e5, e6, e7, e8⟩ := h0
  have h1 := buildMap_hist _ _ _ _ .new e1
  have h2 := h1.erase e2
  obtain ⟨kvs, ⟨xs, g1, -⟩, -⟩ := mapHist_inv intCmp_lawful h2
  have hl : Linked s1 0 := by
    obtain ⟨t, t1, -, t3, -⟩ := g1.1
    rw [linked_iff t1, T.ids_eq, t3]
    rw [g1.1.toList] at e5; cases e5; simp
  exact ⟨s2, _, h2.eraseIter hl e4 e6, e8, rfl, rfl, [(1, 1, 10)], [], 0, e7⟩

/-- `C40_map_is_finite_map` on this map. -/
example : ∃ s, iterList s = .ok [((1 : Int), (10 : Int)), (4, 41)] ∧ size s = 2 ∧ get intCmp s 4 = .ok (some 41) ∧ contains intCmp s 3 = .ok false := by
  obtain ⟨s, f, h, e, f4, f3, -⟩ := demo_map
  obtain ⟨h1, h2, kvs, e', h3, -⟩ := C40_map_is_finite_map intCmp_lawful h
  rw [e] at e'; cases e'
  exact ⟨s, e, h3, by rw [h1, f4], by rw [h2, f3]; rfl⟩

/-- `C40_map_no_panic`: a further insertion and an erasure of an absent key succeed. -/
example : ∃ s s1 s2, iterList s = .ok [((1 : Int), (10 : Int)), (4, 41)] ∧ mapInsert intCmp s 2 20 = .ok s1 ∧ eraseOne intCmp s1 7 = .ok s2 := by
  obtain ⟨s, f, h, e, -⟩ := demo_map
  obtain ⟨s1, e1⟩ := (C40_map_no_panic intCmp_lawful h).1 2 20
  obtain ⟨s2, e2⟩ := (C40_map_no_panic intCmp_lawful (h.insert e1)).2.1 7
  exact ⟨s, s1, s2, e, e1, e2⟩

/-- `C41_map_order_and_bounds`: backwards, from the bounds of 2, from `Find(3)`. -/
example : ∃ s, iterListBack s = .ok [((4 : Int), (41 : Int)), (1, 10)] ∧ iterFrom s (lowerBound intCmp s 2) = .ok [(4, 41)] ∧
    iterFrom s (upperBound intCmp s 4) = .ok [] ∧ iterFrom s (find intCmp s 3) = .ok [] := by
  obtain ⟨s, f, h, e, f4, f3, -⟩ := demo_map
  obtain ⟨kvs, e', -, h3, -, -, h6, h7, h8⟩ := C41_map_order_and_bounds intCmp_lawful h
  rw [e] at e'; cases e'
  exact ⟨s, h3, h6 2, h7 4, by rw [h8, f3]; rfl⟩

/-- `C46_eraseIter_exact`: erasing the entry of key 4 through its iterator. -/
example : ∃ s i s', iterList s = .ok [((1 : Int), (10 : Int)), (4, 41)] ∧ eraseIter s (.map (some i)) = .ok s' ∧ size s' = size s - 1 := by
  obtain ⟨s, f, h, e, -, -, A, B, i, ht⟩ := demo_map
  obtain ⟨s', e1, -, e3⟩ := C46_eraseIter_exact intCmp_lawful h ht
  exact ⟨s, i, s', e, e1, e3⟩

/-- Beyond C46: an iterator whose node has already been erased still reports `IsValid() = true`, and erasing through it
again does corrupt the map: here `Size` becomes 0 while one entry is still enumerated. -/
theorem C46_stale_iterator_corrupts : ∃ s s1 s2 : Tree Int Int, ∃ f, MapHist intCmp s f ∧
    find intCmp s 2 = .ok (some 1) ∧ eraseIter s (.map (some 1)) = .ok s1 ∧ iterIsValid (some 1) = true ∧
    eraseIter s1 (.map (some 1)) = .ok s2 ∧ size s2 = 0 ∧ iterList s2 = .ok [(1, 10)] := by
  have h0 : ∃ s s1 s2, buildMap [(1, 10), (2, 20)] Tree.new = .ok s ∧ find intCmp s 2 = .ok (some 1) ∧
      eraseIter s (.map (some 1)) = .ok s1 ∧ eraseIter s1 (.map (some 1)) = .ok s2 ∧ size s2 = 0 ∧
      iterList s2 = .ok [(1, 10)] := ⟨_, _, _, rfl, rfl, rfl, rfl, rfl, rfl⟩
  obtain ⟨s, s1, s2, e1, e2, e3, e4, e5, e6⟩ := h0
  exact ⟨s, s1, s2, _, buildMap_hist _ _ _ _ .new e1, e2, e3, rfl, e4, e5, e6⟩

end GoSTL.TreeMap
