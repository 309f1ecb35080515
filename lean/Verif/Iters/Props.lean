import Verif.Iters.Range
import Verif.BidList.Props
import Verif.SimpleList.Props
import Verif.TreeMap.MapProps
import Verif.TreeMap.MultiProps
import Verif.TreeMap.SetProps
/-!
# C69: the read-only algorithms on lists, maps and sets
-/
namespace GoSTL.Iters
open GoSTL.Algo

/-! ## The iterators -/

/-- ds/list/bidlist/iterator.go: `Next` 26-31, `Value` 42-47, `Equal` 62-71. -/
def bidIter {T : Type} (w : BidList.World T) : ConstIter (Option Nat) T where
  eq a b := decide (a = b)
  next
    | some n => BidList.next w n
    | none => .ok none
  value
    | some n => do let nd ← BidList.node w n; .ok nd.value
    | none => .panic

/-- ds/list/simplelist/iterator.go: `Next` 26-31, `Value` 34-39, `Equal` 54-63. -/
def simpleIter {T : Type} (w : SimpleList.World T) : ConstIter (Option Nat) T where
  eq a b := decide (a = b)
  next
    | some n => SimpleList.next w n
    | none => .ok none
  value
    | some n => SimpleList.value w n
    | none => .panic

/-- ds/map/iterator.go: `Next` 22-27, `Value` 43-45, `Equal` 58-67 (the iterator of Map and of MultiMap), and
ds/rbtree/iterator.go: `Next` 24-29, `Value` 45-47, `Equal` 60-69. -/
def mapIter {K V : Type} (t : RB.Tree K V) : ConstIter (Option Nat) V where
  eq a b := decide (a = b)
  next := TreeMap.iterNext t
  value := TreeMap.iterValue t

/-- ds/set/iterator.go: `Next` 22-27, `Value` 38-40, `Equal` 48-57 (the iterator of Set and of MultiSet). -/
def setIter {K : Type} (t : RB.Tree K Bool) : ConstIter (Option Nat) K where
  eq a b := decide (a = b)
  next := TreeMap.iterNext t
  value := TreeMap.iterKey t

theorem split_at {α : Type} {l : List α} {k : Nat} {x : α} (h : l[k]? = some x) : l = l.take k ++ x :: l.drop (k + 1) := by
  have hk : k < l.length := (List.getElem?_eq_some_iff.1 h).1
  have hx : l[k] = x := (List.getElem?_eq_some_iff.1 h).2
  conv_lhs => rw [← List.take_append_drop k l, List.drop_eq_getElem_cons hk, hx]

theorem head_drop {α : Type} (l : List α) (k : Nat) : (l.drop k).head? = l[k]? := by
  simp

theorem valsOf_getElem? {T : Type} {V : List T} {s : List Nat} (h : ∀ n ∈ s, n < V.length) (k : Nat) :
    (s.filterMap (V[·]?))[k]? = s[k]?.bind (V[·]?) := by
  induction s generalizing k with
  | nil => rfl
  | cons a s ih =>
    have hla : a < V.length := h a (by simp)
    have ha : V[a]? = some V[a] := List.getElem?_eq_getElem hla
    rw [List.filterMap_cons_some ha]
    cases k with
    | zero => simp [ha]
    | succ k => simpa using ih (fun n hn => h n (by simp [hn])) k

theorem valsOf_len {T : Type} {V : List T} {s : List Nat} (h : ∀ n ∈ s, n < V.length) :
    (s.filterMap (V[·]?)).length = s.length := by
  induction s with
  | nil => rfl
  | cons a s ih =>
    have hla : a < V.length := h a (by simp)
    have ha : V[a]? = some V[a] := List.getElem?_eq_getElem hla
    rw [List.filterMap_cons_some ha]
    simp [ih fun n hn => h n (by simp [hn])]

/-! ## Lists -/

theorem bid_chain {T : Type} {w : BidList.World T} {S : BidList.Spec T} (h : BidList.WInv w S) {l : Nat} (hl : S.isList l) :
    Chain (bidIter w) (S.seq l) (S.valsOf (S.seq l)) where
  len := (valsOf_len fun _ hn => h.mem_lt hn).symm
  nodup := h.nodup l _ (BidList.seqs_some hl)
  eq _ _ := rfl
  stop := rfl
  value k n v hn hv := by
    have hm := List.mem_of_getElem? hn
    obtain ⟨nd, e, e2, -⟩ := h.node_val (h.mem_lt hm)
    have := valsOf_getElem? (V := S.vals) (s := S.seq l) (fun _ hn => h.mem_lt hn) k
    rw [hn] at this
    have hv' : (List.filterMap (S.vals[·]?) (S.seq l))[k]? = some v := hv
    rw [hv'] at this
    have e3 : some v = S.vals[n]? := this
    rw [e2] at e3
    simp only [bidIter, e, Res.ok_bind]
    cases e3; rfl
  next k n hn := by
    have := split_at hn
    have h2 : BidList.next w n = .ok ((S.seq l).drop (k + 1)).head? :=
      BidList.next_spec h (l := l) (P := (S.seq l).take k) (by rw [← this]; exact BidList.seqs_some hl)
    rw [head_drop] at h2
    exact h2

/-- C69, bidirectional lists: for every list of every reachable state, all ranges between iterators obtained by `Next` from
the front iterator hold the corresponding values of the list, and the read-only algorithms answer accordingly. -/
theorem C69_bidlist {T : Type} {w : BidList.World T} {S : BidList.Spec T} (h : BidList.Reachable w S) {l : Nat} (hl : S.isList l) :
    ∃ front, BidList.frontNode w l = .ok front ∧ Walkable (bidIter w) front (S.valsOf (S.seq l)) := by
  refine ⟨(S.seq l).head?, ?_, (bid_chain h.inv hl).walkable⟩
  simp [BidList.frontNode, h.inv.lst_good hl]

theorem simple_chain {T : Type} {w : SimpleList.World T} {S : SimpleList.Spec T} (h : SimpleList.WInv w S) :
    Chain (simpleIter w) S.seq (S.valsOf S.seq) where
  len := (valsOf_len fun _ hn => by rw [← h.nnode]; exact h.lt _ hn).symm
  nodup := h.nodup
  eq _ _ := rfl
  stop := rfl
  value k n v hn hv := by
    have hm := List.mem_of_getElem? hn
    obtain ⟨nd, e, -, e2⟩ := SimpleList.node_ok (h.lt n hm)
    have := valsOf_getElem? (V := S.vals) (s := S.seq) (fun _ hn => by rw [← h.nnode]; exact h.lt _ hn) k
    rw [hn] at this
    have hv' : (List.filterMap (S.vals[·]?) S.seq)[k]? = some v := hv
    rw [hv'] at this
    have e3 : some v = S.vals[n]? := this
    rw [← h.vals, e2] at e3
    simp only [simpleIter, SimpleList.value, e, Res.ok_bind]
    cases e3; rfl
  next k n hn := by
    have hm := List.mem_of_getElem? hn
    obtain ⟨nd, e, e2, -⟩ := SimpleList.node_ok (h.lt n hm)
    have h1 := h.chain
    rw [split_at hn, SimpleList.sg_append] at h1
    have h2 := h1.2.1
    simp only [simpleIter, SimpleList.next, e, Res.ok_bind]
    rw [← e2, h2, head_drop]
    simp

/-- C69, single linked lists. -/
theorem C69_simplelist {T : Type} {zero : T} {w : SimpleList.World T} {S : SimpleList.Spec T} (h : SimpleList.Reachable zero w S) :
    Walkable (simpleIter w) w.head (S.valsOf S.seq) := by
  rw [h.inv.head]
  exact (simple_chain h.inv).walkable

/-! ## Maps and sets -/

section
open GoSTL.RB GoSTL.TreeMap
variable {K V : Type} {cmp : K → K → Int}

theorem tree_next {s : Tree K V} {xs : List (Id × K × V)} (h : HoldsS cmp s xs) (k n : Nat) (hn : (xs.map (·.1))[k]? = some n) :
    iterNext s (some n) = .ok (xs.map (·.1))[k + 1]? := by
  rw [List.getElem?_map, Option.map_eq_some_iff] at hn
  obtain ⟨⟨i, a, v⟩, h1, rfl⟩ := hn
  have h2 := h.1
  rw [split_at h1] at h2
  simp only [iterNext]
  rw [h2.successor, hd, head_drop, List.getElem?_map]

theorem tree_at {s : Tree K V} {xs : List (Id × K × V)} (h : HoldsS cmp s xs) {k n : Nat} (hn : (xs.map (·.1))[k]? = some n) :
    ∃ a v, xs[k]? = some (n, a, v) ∧ iterKey s (some n) = .ok a ∧ iterValue s (some n) = .ok v := by
  rw [List.getElem?_map, Option.map_eq_some_iff] at hn
  obtain ⟨⟨i, a, v⟩, h1, rfl⟩ := hn
  have h2 := h
  rw [split_at h1] at h2
  exact ⟨a, v, h1, (iterKey_at h2).1, (iterKey_at h2).2⟩

theorem map_chain {s : Tree K V} {xs : List (Id × K × V)} (h : HoldsS cmp s xs) :
    Chain (mapIter s) (xs.map (·.1)) (xs.map fun e => e.2.2) where
  len := by simp
  nodup := h.1.nodup
  eq _ _ := rfl
  stop := rfl
  value k n v hn hv := by
    obtain ⟨a, v', h1, -, h2⟩ := tree_at h hn
    rw [List.getElem?_map, h1] at hv
    cases hv
    exact h2
  next k n hn := tree_next h k n hn

theorem set_chain {s : Tree K Bool} {xs : List (Id × K × Bool)} (h : HoldsS cmp s xs) :
    Chain (setIter s) (xs.map (·.1)) (xs.map fun e => e.2.1) where
  len := by simp
  nodup := h.1.nodup
  eq _ _ := rfl
  stop := rfl
  value k n v hn hv := by
    obtain ⟨a, v', h1, h2, -⟩ := tree_at h hn
    rw [List.getElem?_map, h1] at hv
    cases hv
    exact h2
  next k n hn := tree_next h k n hn

/-- `LowerBound(k)`, `UpperBound(k)` and `Find(k)` return the iterators reached from the front by as many `Next` as there are
keys below `k`, keys not above `k`, and keys below `k` (or the end iterator if no key equals `k`). -/
def BoundsOk {T : Type} (cmp : K → K → Int) (s : Tree K V) (it : ConstIter (Option Nat) T) (front : Option Nat) (keys : List K) : Prop :=
  ∀ k, (∃ i, lowerBound cmp s k = .ok i ∧ adv it (keys.countP fun a => decide (cmp a k < 0)) front = .ok i) ∧
    (∃ i, upperBound cmp s k = .ok i ∧ adv it (keys.countP fun a => decide (cmp a k ≤ 0)) front = .ok i) ∧
    (∃ i, find cmp s k = .ok i ∧ (keys.any fun a => decide (cmp a k = 0)) = true ∧
        adv it (keys.countP fun a => decide (cmp a k < 0)) front = .ok i ∨
      find cmp s k = .ok none ∧ (keys.any fun a => decide (cmp a k = 0)) = false)

theorem adv_hd {T : Type} {it : ConstIter (Option Nat) T} {ns : List Nat} {vs : List T} (h : Chain it ns vs) (n : Nat) :
    adv it n ns.head? = .ok ns[n]? := by
  have h0 : ns.head? = ns[0]? := by cases ns <;> rfl
  rw [h0, h.adv, Nat.zero_add]

theorem bounds_ok {T : Type} (hc : LawfulCmp cmp) {s : Tree K V} {xs : List (Id × K × V)} (h : HoldsS cmp s xs)
    {it : ConstIter (Option Nat) T} {vs : List T} (hch : Chain it (xs.map (·.1)) vs) :
    BoundsOk cmp s it (xs.map (·.1)).head? (xs.map fun e => e.2.1) := by
  intro k
  have key : ∀ (p : Id × K × V → Bool) (q : K → Bool), (∀ e, q e.2.1 = !p e) → (xs.Pairwise fun a b => p a = true → p b = true) →
      adv it ((xs.map fun e => e.2.1).countP q) (xs.map (·.1)).head? = .ok ((xs.find? p).map (·.1)) := by
    intro p q hpq hup
    obtain ⟨A, B, h1, h2, h3⟩ := split_up p xs hup
    have h4 : (xs.map fun e => e.2.1).countP q = A.length := by
      rw [List.countP_map]
      have h5 : (q ∘ fun e : Id × K × V => e.2.1) = fun e => !p e := by funext e; exact hpq e
      rw [h5]
      have h6 := List.length_eq_countP_add_countP p (l := xs)
      have h7 : xs.countP p = B.length := by rw [List.countP_eq_length_filter, h3]
      have h8 : xs.length = A.length + B.length := by rw [h1]; simp
      have h9 : xs.countP (fun a => decide ¬p a = true) = xs.countP fun e => !p e := by congr 1; funext e; simp
      omega
    rw [adv_hd hch, h4, h2, h1]
    cases B <;> simp
  refine ⟨⟨_, h.1.lower hc h.2 k, ?_⟩, ⟨_, h.1.upper hc h.2 k, ?_⟩, ?_⟩
  · refine key _ _ (fun e => ?_) (h.2.imp fun {a b} hab ha => by simp at ha ⊢; exact hc.trans _ _ _ ha hab)
    have := hc.swap e.2.1 k
    by_cases c : cmp k e.2.1 ≤ 0 <;> simp [c] <;> omega
  · refine key _ _ (fun e => ?_) (h.2.imp fun {a b} hab ha => by simp at ha ⊢; exact hc.lt_of_lt_of_le ha hab)
    have := hc.le_iff_ge (a := e.2.1) (b := k)
    by_cases c : cmp k e.2.1 < 0 <;> simp [c] <;> omega
  · rcases h.findNode hc k with ⟨h2, h3⟩ | ⟨A, i, k', v, B, rfl, h2, h3, h4⟩
    · refine ⟨none, .inr ⟨h2, ?_⟩⟩
      rw [List.any_eq_false]
      intro a ha
      rw [List.mem_map] at ha
      obtain ⟨x, hx, rfl⟩ := ha
      simp only [decide_eq_true_eq]
      exact fun hx2 => h3 x hx (hc.eq_symm.1 hx2)
    · refine ⟨some i, .inl ⟨h2, ?_, ?_⟩⟩
      · simp [hc.eq_symm.1 h3]
      · have h5 := h.2
        simp only [SortedE, List.pairwise_append, List.pairwise_cons] at h5
        rw [adv_hd hch]
        have hA : (A.map fun e => e.2.1).countP (fun a => decide (cmp a k < 0)) = A.length := by
          have e : A.length = (A.map fun e => e.2.1).length := by simp
          rw [e, List.countP_eq_length]
          intro a ha
          rw [List.mem_map] at ha
          obtain ⟨x, hx, rfl⟩ := ha
          have h6 := h5.2.2 x hx (i, k', v) (by simp)
          have h7 := h4 x hx
          have h8 := (hc.congr_right (a := x.2.1) (hc.eq_symm.1 h3))
          have h9 := hc.eq_symm (a := k) (b := x.2.1)
          simp only [decide_eq_true_eq]
          simp only at h6
          omega
        have hB : ((k' :: B.map fun e => e.2.1)).countP (fun a => decide (cmp a k < 0)) = 0 := by
          rw [List.countP_eq_zero]
          intro a ha
          have h10 := hc.eq_symm.1 h3
          simp only [List.mem_cons, List.mem_map] at ha
          rcases ha with rfl | ⟨x, hx, rfl⟩
          · simp; omega
          · have h6 := h5.2.1.1 x hx
            have h8 := (hc.congr_left (c := x.2.1) h3)
            have h9 := hc.le_iff_ge (a := k) (b := x.2.1)
            simp only [decide_eq_true_eq]
            omega
        have hall : ((A ++ (i, k', v) :: B).map fun e => e.2.1).countP (fun a => decide (cmp a k < 0)) = A.length := by
          rw [List.map_append, List.map_cons, List.countP_append, hA]
          exact congrArg (A.length + ·) hB
        rw [hall]
        simp

/-- C69, Map: there is the sequence `kvs` of its entries in key order (see C41) such that all ranges between iterators hold the
corresponding values, the read-only algorithms answer accordingly, and the bounds and `Find` return iterators of this walk. -/
theorem C69_map (hc : LawfulCmp cmp) {s : Tree K V} {f : K → Option V} (h : MapHist cmp s f) :
    ∃ kvs front, iterList s = .ok kvs ∧ TreeMap.first s = .ok front ∧ Walkable (mapIter s) front (kvs.map (·.2)) ∧
      BoundsOk cmp s (mapIter s) front (kvs.map (·.1)) := by
  obtain ⟨kvs, h1, -⟩ := mapHist_inv hc h
  have hi := h1.iterList
  obtain ⟨xs, h2, rfl⟩ := h1
  have h0 : hd xs = (xs.map (·.1)).head? := by cases xs <;> rfl
  refine ⟨_, _, hi, h2.1.first, ?_, ?_⟩
  · rw [h0, List.map_map]; exact (map_chain h2).walkable
  · rw [h0, List.map_map]; exact bounds_ok hc h2 (map_chain h2)

/-- C69, MultiMap. -/
theorem C69_multimap (hc : LawfulCmp cmp) {s : Tree K V} {h : List (K × V)} (hh : MultiMapHist cmp s h) :
    ∃ kvs front, iterList s = .ok kvs ∧ TreeMap.first s = .ok front ∧ Walkable (mapIter s) front (kvs.map (·.2)) ∧
      BoundsOk cmp s (mapIter s) front (kvs.map (·.1)) := by
  obtain ⟨kvs, h1, -⟩ := multiMapHist_inv hc hh
  have hi := h1.iterList
  obtain ⟨xs, h2, rfl⟩ := h1
  have h0 : hd xs = (xs.map (·.1)).head? := by cases xs <;> rfl
  refine ⟨_, _, hi, h2.1.first, ?_, ?_⟩
  · rw [h0, List.map_map]; exact (map_chain h2).walkable
  · rw [h0, List.map_map]; exact bounds_ok hc h2 (map_chain h2)

/-- C69, Set: ranges hold the elements. -/
theorem C69_set (hc : LawfulCmp cmp) {s : Tree K Bool} {m : K → Prop} (h : SetHist cmp s m) :
    ∃ kvs front, iterList s = .ok kvs ∧ TreeMap.first s = .ok front ∧ Walkable (setIter s) front (kvs.map (·.1)) ∧
      BoundsOk cmp s (setIter s) front (kvs.map (·.1)) := by
  obtain ⟨ks, h0, -⟩ := setHist_inv hc h
  obtain ⟨kvs, h1, -, rfl⟩ := h0.kv
  have hi := h1.iterList
  obtain ⟨xs, h2, rfl⟩ := h1
  have h0 : hd xs = (xs.map (·.1)).head? := by cases xs <;> rfl
  refine ⟨_, _, hi, h2.1.first, ?_, ?_⟩
  · rw [h0, List.map_map]; exact (set_chain h2).walkable
  · rw [h0, List.map_map]; exact bounds_ok hc h2 (set_chain h2)

/-- C69, MultiSet. -/
theorem C69_multiset (hc : LawfulCmp cmp) {s : Tree K Bool} {h : List K} (hh : MultiSetHist cmp s h) :
    ∃ kvs front, iterList s = .ok kvs ∧ TreeMap.first s = .ok front ∧ Walkable (setIter s) front (kvs.map (·.1)) ∧
      BoundsOk cmp s (setIter s) front (kvs.map (·.1)) := by
  obtain ⟨kvs, h1, -⟩ := multiSetHist_inv hc hh
  have hi := h1.iterList
  obtain ⟨xs, h2, rfl⟩ := h1
  have h0 : hd xs = (xs.map (·.1)).head? := by cases xs <;> rfl
  refine ⟨_, _, hi, h2.1.first, ?_, ?_⟩
  · rw [h0, List.map_map]; exact (set_chain h2).walkable
  · rw [h0, List.map_map]; exact bounds_ok hc h2 (set_chain h2)

/-! ## Non-vacuity -/

/-- A map with the entries (1, 10), (2, 20), (3, 10): `Count` of the value 10 between the iterators after 0 and 3 calls of
`Next`, and `MaxElement`. -/
example : ∃ s f, MapHist intCmp s f ∧ LawfulCmp intCmp ∧ iterList s = .ok [((1 : Int), (10 : Int)), (2, 20), (3, 10)] ∧
    TreeMap.first s = .ok (some 1) ∧ adv (mapIter s) 3 (some 1) = .ok none ∧
    Algo.count (mapIter s) intCmp 4 (some 1) none 10 = .ok 2 ∧ Algo.maxElement (mapIter s) intCmp 4 (some 1) none = .ok (some 0) ∧
    TreeMap.lowerBound intCmp s 3 = .ok (some 2) ∧ adv (mapIter s) 2 (some 1) = .ok (some 2) := by
  have h0 : ∃ s, buildMap [(2, 20), (1, 10), (3, 10)] Tree.new = .ok s ∧
      iterList s = .ok [((1 : Int), (10 : Int)), (2, 20), (3, 10)] ∧
      TreeMap.first s = .ok (some 1) ∧ adv (mapIter s) 3 (some 1) = .ok none ∧
      Algo.count (mapIter s) intCmp 4 (some 1) none 10 = .ok 2 ∧ Algo.maxElement (mapIter s) intCmp 4 (some 1) none = .ok (some 0) ∧
      TreeMap.lowerBound intCmp s 3 = .ok (some 2) ∧ adv (mapIter s) 2 (some 1) = .ok (some 2) :=
    ⟨_, rfl, rfl, rfl, rfl, rfl, rfl, rfl, rfl⟩
  obtain ⟨s, e1, e2⟩ := h0
  exact ⟨s, _, buildMap_hist _ _ _ _ .new e1, intCmp_lawful, e2⟩

example : ∃ s, MultiMapHist tensCmp s [((21 : Int), 'a'), (11, 'b'), (20, 'a')] ∧ LawfulCmp tensCmp ∧
    TreeMap.first s = .ok (some 1) ∧ Algo.count (mapIter s) (fun x y => if x = y then 0 else 1) 4 (some 1) none 'a' = .ok 2 := by
  have h0 : ∃ s1 s2 s3, multiMapInsert tensCmp Tree.new 21 'a' = .ok s1 ∧ multiMapInsert tensCmp s1 11 'b' = .ok s2 ∧
      multiMapInsert tensCmp s2 20 'a' = .ok s3 ∧ TreeMap.first s3 = .ok (some 1) ∧
      Algo.count (mapIter s3) (fun x y => if x = y then 0 else 1) 4 (some 1) none 'a' = .ok 2 :=
    ⟨_, _, _, rfl, rfl, rfl, rfl, rfl⟩
  obtain ⟨s1, s2, s3, e1, e2, e3, e4⟩ := h0
  exact ⟨s3, (((.new : MultiMapHist tensCmp Tree.new []).insert e1).insert e2).insert e3, tensCmp_lawful, e4⟩

example : ∃ s m, SetHist intCmp s m ∧ TreeMap.first s = .ok (some 1) ∧
    Algo.find (setIter s) intCmp none (3 : Int) 4 (some 1) = .ok (some 0) := by
  have h0 : ∃ s1 s2, setInsert intCmp Tree.new 3 = .ok s1 ∧ setInsert intCmp s1 1 = .ok s2 ∧ TreeMap.first s2 = .ok (some 1) ∧
      Algo.find (setIter s2) intCmp none (3 : Int) 4 (some 1) = .ok (some 0) := ⟨_, _, rfl, rfl, rfl, rfl⟩
  obtain ⟨s1, s2, e1, e2, e3⟩ := h0
  exact ⟨s2, _, ((.new : SetHist intCmp Tree.new _).insert e1).insert e2, e3⟩

example : ∃ s, MultiSetHist tensCmp s [(21 : Int), 11, 20] ∧ TreeMap.first s = .ok (some 1) ∧
    Algo.count (setIter s) tensCmp 4 (some 1) none 25 = .ok 2 := by
  have h0 : ∃ s1 s2 s3, multiSetInsert tensCmp Tree.new 21 = .ok s1 ∧ multiSetInsert tensCmp s1 11 = .ok s2 ∧
      multiSetInsert tensCmp s2 20 = .ok s3 ∧ TreeMap.first s3 = .ok (some 1) ∧
      Algo.count (setIter s3) tensCmp 4 (some 1) none 25 = .ok 2 :=
    ⟨_, _, _, rfl, rfl, rfl, rfl, rfl⟩
  obtain ⟨s1, s2, s3, e1, e2, e3, e4⟩ := h0
  exact ⟨s3, (((.new : MultiSetHist tensCmp Tree.new []).insert e1).insert e2).insert e3, e4⟩

end

/-- List 0 of the demo state holds 5, 7, 8 in the nodes 0, 2, 3. -/
example : ∃ (w : BidList.World Nat) (S : BidList.Spec Nat), BidList.Reachable w S ∧ S.isList 0 ∧ S.valsOf (S.seq 0) = [5, 7, 8] ∧
    Algo.findIf (bidIter w) (fun i => decide (i = some 3)) none 4 (some 0) = .ok (some 3) ∧ adv (bidIter w) 2 (some 0) = .ok (some 3) :=
  ⟨_, _, ⟨BidList.demoOps, _, BidList.noStale_of_noStaleB _ _ rfl, rfl, rfl⟩, by decide, by decide, rfl, rfl⟩

example : ∃ (w : SimpleList.World Nat) (S : SimpleList.Spec Nat), SimpleList.Reachable 0 w S ∧ S.valsOf S.seq = [5, 10, 33, 20] ∧
    adv (simpleIter w) 2 w.head = .ok (some 2) :=
  ⟨_, _, ⟨SimpleList.exOps, _, SimpleList.exOps_ok, rfl, rfl⟩, rfl, rfl⟩

open GoSTL.RB GoSTL.TreeMap

/-- `C69_map` on a map with a history of insertions, overwriting and erasing. -/
example : ∃ (s : Tree Int Int) (front : Option Id), TreeMap.first s = .ok front ∧ Walkable (mapIter s) front [10, 41] ∧ BoundsOk intCmp s (mapIter s) front [1, 4] := by
  obtain ⟨s, f, h, e, -⟩ := demo_map
  obtain ⟨kvs, front, e1, e2, e3, e4⟩ := C69_map intCmp_lawful h
  rw [e] at e1; cases e1
  exact ⟨s, front, e2, e3, e4⟩

/-- `C69_multimap`, with equivalent keys. -/
example : ∃ (s : Tree Int Char) (front : Option Id), TreeMap.first s = .ok front ∧ Walkable (mapIter s) front ['b', 'a', 'd'] ∧
    BoundsOk tensCmp s (mapIter s) front [11, 21, 20] := by
  obtain ⟨s, h, e⟩ := demo_multimap
  obtain ⟨kvs, front, e1, e2, e3, e4⟩ := C69_multimap tensCmp_lawful h
  rw [e] at e1; cases e1
  exact ⟨s, front, e2, e3, e4⟩

/-- `C69_set`. -/
example : ∃ (s : Tree Int Bool) (front : Option Id), TreeMap.first s = .ok front ∧ Walkable (setIter s) front [1, 2, 3] ∧ BoundsOk intCmp s (setIter s) front [1, 2, 3] := by
  obtain ⟨s, -, m, -, h, -, -, -, -, e, -⟩ := demo_sets
  obtain ⟨kvs, front, e1, e2, e3, e4⟩ := C69_set intCmp_lawful h
  rw [e] at e1; cases e1
  exact ⟨s, front, e2, e3, e4⟩

/-- `C69_multiset`. -/
example : ∃ (s : Tree Int Bool), MultiSetHist tensCmp s [11, 30, 20] ∧ ∃ kvs front, iterList s = .ok kvs ∧ TreeMap.first s = .ok front ∧
    Walkable (setIter s) front (kvs.map (·.1)) := by
  obtain ⟨s, h, -⟩ := demo_multiset
  obtain ⟨kvs, front, e1, e2, e3, -⟩ := C69_multiset tensCmp_lawful h
  exact ⟨s, h, kvs, front, e1, e2, e3⟩

/-- `C69_bidlist` on the demo world: list 0 holds 5, 7, 8. -/
example : ∃ (w : BidList.World Nat) (front : Option Nat), BidList.frontNode w 0 = .ok front ∧ Walkable (bidIter w) front [5, 7, 8] := by
  obtain ⟨w, h⟩ := BidList.demo_reachable
  exact ⟨w, C69_bidlist h (l := 0) (by decide)⟩

/-- `C69_simplelist` on the demo list, which holds 20. -/
example : ∃ w : SimpleList.World Nat, Walkable (simpleIter w) w.head [20] := by
  obtain ⟨w, h, -⟩ := SimpleList.demo_list
  exact ⟨w, C69_simplelist h⟩

end GoSTL.Iters
