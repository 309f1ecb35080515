import Verif.Iters.Props
/-!
# C78: what `Equal` of two iterators says

Within one container, the iterators after `p` and after `q` calls of `Next` are `Equal` exactly if `p = q`. For iterators of
two containers the answer depends on the kind of container: see the theorems.
-/
namespace GoSTL.Iters
open GoSTL.Algo

/-- `Equal` decides whether two iterators of a container of `n` entries stand at the same position: after `p` and `q` calls
of `Next` on the front iterator (`n` calls lead to the end), it answers `p = q`. -/
def EqualOk {I T : Type} (it : ConstIter I T) (front : I) (n : Nat) : Prop :=
  ∀ p q, p ≤ n → q ≤ n → ∃ a b, adv it p front = .ok a ∧ adv it q front = .ok b ∧ it.eq a b = decide (p = q)

theorem Chain.at_inj {T : Type} {it : ConstIter (Option Nat) T} {ns : List Nat} {vs : List T} (h : Chain it ns vs) {p q : Nat}
    (hp : p ≤ ns.length) (hq : q ≤ ns.length) : ns[p]? = ns[q]? ↔ p = q := by
  constructor
  · intro he
    by_cases c : p < ns.length
    · by_cases c2 : q < ns.length
      · exact (List.getElem?_inj c h.nodup).1 he
      · have : ns[q]? = none := by rw [List.getElem?_eq_none_iff]; omega
        rw [this, List.getElem?_eq_none_iff] at he
        omega
    · have : ns[p]? = none := by rw [List.getElem?_eq_none_iff]; omega
      rw [this, eq_comm, List.getElem?_eq_none_iff] at he
      omega
  · rintro rfl; rfl

theorem Chain.equalOk {T : Type} {it : ConstIter (Option Nat) T} {ns : List Nat} {vs : List T} (h : Chain it ns vs) :
    EqualOk it ns.head? vs.length := by
  intro p q hp hq
  rw [← h.len] at hp hq
  refine ⟨_, _, adv_hd h p, adv_hd h q, ?_⟩
  rw [h.eq, decide_eq_decide]
  exact h.at_inj hp hq

/-! ## Lists -/

/-- **C78** Bidirectional lists. -/
theorem C78_bidlist {T : Type} {w : BidList.World T} {S : BidList.Spec T} (h : BidList.Reachable w S) {l : Nat} (hl : S.isList l) :
    ∃ front, BidList.frontNode w l = .ok front ∧ EqualOk (bidIter w) front (S.valsOf (S.seq l)).length := by
  refine ⟨(S.seq l).head?, ?_, (bid_chain h.inv hl).equalOk⟩
  simp [BidList.frontNode, h.inv.lst_good hl]

/-- **C78** Iterators of two different lists are `Equal` exactly if both are at the end. -/
theorem C78_bidlist_two {T : Type} {w : BidList.World T} {S : BidList.Spec T} (h : BidList.Reachable w S) {l m : Nat}
    (hl : S.isList l) (hm : S.isList m) (hne : l ≠ m) :
    ∃ f g, BidList.frontNode w l = .ok f ∧ BidList.frontNode w m = .ok g ∧
      ∀ p q, p ≤ (S.seq l).length → q ≤ (S.seq m).length → ∃ a b, adv (bidIter w) p f = .ok a ∧ adv (bidIter w) q g = .ok b ∧
        ((bidIter w).eq a b = true ↔ p = (S.seq l).length ∧ q = (S.seq m).length) := by
  refine ⟨(S.seq l).head?, (S.seq m).head?, by simp [BidList.frontNode, h.inv.lst_good hl],
    by simp [BidList.frontNode, h.inv.lst_good hm], fun p q hp hq => ⟨_, _, adv_hd (bid_chain h.inv hl) p, adv_hd (bid_chain h.inv hm) q, ?_⟩⟩
  have e : (bidIter w).eq (S.seq l)[p]? (S.seq m)[q]? = decide ((S.seq l)[p]? = (S.seq m)[q]?) := rfl
  rw [e, decide_eq_true_eq]
  constructor
  · intro he
    cases hx : (S.seq l)[p]? with
    | none =>
      have hy := hx
      rw [he] at hy
      rw [List.getElem?_eq_none_iff] at hx hy
      omega
    | some n =>
      have hy := hx
      rw [he] at hy
      have h1 := h.inv.own l _ n (BidList.seqs_some hl) (List.mem_of_getElem? hx)
      have h2 := h.inv.own m _ n (BidList.seqs_some hm) (List.mem_of_getElem? hy)
      rw [h1] at h2
      simp at h2
      exact absurd h2 hne
  · rintro ⟨rfl, rfl⟩
    simp

/-- **C78** Single lists. -/
theorem C78_simplelist {T : Type} {zero : T} {w : SimpleList.World T} {S : SimpleList.Spec T} (h : SimpleList.Reachable zero w S) :
    EqualOk (simpleIter w) w.head (S.valsOf S.seq).length := by
  rw [h.inv.head]
  exact (simple_chain h.inv).equalOk

/-! ## Maps and sets -/

section
open GoSTL.RB GoSTL.TreeMap
variable {K V : Type} {cmp : K → K → Int}

/-- **C78** Map. -/
theorem C78_map (hc : LawfulCmp cmp) {s : Tree K V} {f : K → Option V} (h : MapHist cmp s f) :
    ∃ kvs front, iterList s = .ok kvs ∧ TreeMap.first s = .ok front ∧ EqualOk (mapIter s) front kvs.length := by
  obtain ⟨kvs, h1, -⟩ := mapHist_inv hc h
  have hi := h1.iterList
  obtain ⟨xs, h2, rfl⟩ := h1
  have h0 : hd xs = (xs.map (·.1)).head? := by cases xs <;> rfl
  exact ⟨_, _, hi, h2.1.first, by rw [h0]; simpa using (map_chain h2).equalOk⟩

/-- **C78** MultiMap. -/
theorem C78_multimap (hc : LawfulCmp cmp) {s : Tree K V} {h : List (K × V)} (hh : MultiMapHist cmp s h) :
    ∃ kvs front, iterList s = .ok kvs ∧ TreeMap.first s = .ok front ∧ EqualOk (mapIter s) front kvs.length := by
  obtain ⟨kvs, h1, -⟩ := multiMapHist_inv hc hh
  have hi := h1.iterList
  obtain ⟨xs, h2, rfl⟩ := h1
  have h0 : hd xs = (xs.map (·.1)).head? := by cases xs <;> rfl
  exact ⟨_, _, hi, h2.1.first, by rw [h0]; simpa using (map_chain h2).equalOk⟩

/-- **C78** Set. -/
theorem C78_set (hc : LawfulCmp cmp) {s : Tree K Bool} {m : K → Prop} (h : SetHist cmp s m) :
    ∃ kvs front, iterList s = .ok kvs ∧ TreeMap.first s = .ok front ∧ EqualOk (setIter s) front kvs.length := by
  obtain ⟨ks, h0, -⟩ := setHist_inv hc h
  obtain ⟨kvs, h1, -, rfl⟩ := h0.kv
  have hi := h1.iterList
  obtain ⟨xs, h2, rfl⟩ := h1
  have h0 : hd xs = (xs.map (·.1)).head? := by cases xs <;> rfl
  exact ⟨_, _, hi, h2.1.first, by rw [h0]; simpa using (set_chain h2).equalOk⟩

/-- **C78** MultiSet. -/
theorem C78_multiset (hc : LawfulCmp cmp) {s : Tree K Bool} {h : List K} (hh : MultiSetHist cmp s h) :
    ∃ kvs front, iterList s = .ok kvs ∧ TreeMap.first s = .ok front ∧ EqualOk (setIter s) front kvs.length := by
  obtain ⟨kvs, h1, -⟩ := multiSetHist_inv hc hh
  have hi := h1.iterList
  obtain ⟨xs, h2, rfl⟩ := h1
  have h0 : hd xs = (xs.map (·.1)).head? := by cases xs <;> rfl
  exact ⟨_, _, hi, h2.1.first, by rw [h0]; simpa using (set_chain h2).equalOk⟩

end

/-! ## Random access containers

An iterator is a pointer to the container and a position. -/

/-- ds/vector/iterator.go:12-15, ds/array/iterator.go:11-14, ds/deque/iterator.go:13-16, ds/slice/iterator.go:10-13; `cont` is
the address of the container. -/
structure PosIter where
  cont : Nat
  pos : Int

/-- ds/vector/iterator.go:69-78, ds/array/iterator.go:68-77 and ds/deque/iterator.go:68-77 `Equal` (both of the same type). -/
def PosIter.equal (a b : PosIter) : Bool := decide (b.cont = a.cont) && decide (b.pos = a.pos)
/-- ds/slice/iterator.go:67-76 `Equal`: only the positions are compared. -/
def PosIter.sliceEqual (a b : PosIter) : Bool := decide (b.pos = a.pos)

/-- The random access containers: `sizes c` is the size of container `c`; `Next` and `Value` as in ds/vector/iterator.go:28-46,
ds/array/iterator.go:27-45, ds/deque/iterator.go:27-45 and ds/slice/iterator.go:26-44; `vals c` are the values. -/
def posIter {T : Type} (equal : PosIter → PosIter → Bool) (vals : Nat → List T) : ConstIter PosIter T where
  eq := equal
  next i := .ok (if i.pos < (vals i.cont).length then { i with pos := i.pos + 1 } else i)
  value i := if 0 ≤ i.pos then Res.ofOption (vals i.cont)[i.pos.toNat]? else .panic

theorem adv_posIter {T : Type} {equal : PosIter → PosIter → Bool} {vals : Nat → List T} {c : Nat} : ∀ (p k : Nat),
    k + p ≤ (vals c).length → adv (posIter equal vals) p ⟨c, k⟩ = .ok ⟨c, (k + p : Nat)⟩
  | 0, k, _ => rfl
  | p + 1, k, h => by
    have hk : (k : Int) < (vals c).length := by omega
    rw [adv]
    simp only [posIter, hk, if_true, Res.ok_bind]
    have := adv_posIter (equal := equal) p (k + 1) (by omega : k + 1 + p ≤ (vals c).length)
    simp only [posIter] at this
    have e1 : ((k + 1 : Nat) : Int) = (k : Int) + 1 := by omega
    have e2 : k + 1 + p = k + (p + 1) := by omega
    rw [e1, e2] at this
    exact this

/-- **C78** Vector, Array and Deque: iterators are `Equal` exactly if they belong to the same container and stand at the same
position. -/
theorem C78_random_access {T : Type} (vals : Nat → List T) (c d p q : Nat) (hp : p ≤ (vals c).length) (hq : q ≤ (vals d).length) :
    ∃ a b, adv (posIter PosIter.equal vals) p ⟨c, 0⟩ = .ok a ∧ adv (posIter PosIter.equal vals) q ⟨d, 0⟩ = .ok b ∧
      (posIter PosIter.equal vals).eq a b = decide (c = d ∧ p = q) := by
  refine ⟨_, _, adv_posIter p 0 (by omega), adv_posIter q 0 (by omega), ?_⟩
  show PosIter.equal _ _ = _
  unfold PosIter.equal
  rw [← Bool.decide_and, decide_eq_decide]
  simp only [Nat.zero_add]
  omega

/-- **C78** Slice wrappers, within one slice. -/
theorem C78_slice_partial {T : Type} (vals : Nat → List T) (c : Nat) : EqualOk (posIter PosIter.sliceEqual vals) ⟨c, 0⟩ (vals c).length := by
  intro p q hp hq
  refine ⟨_, _, adv_posIter p 0 (by omega), adv_posIter q 0 (by omega), ?_⟩
  show PosIter.sliceEqual _ _ = _
  unfold PosIter.sliceEqual
  rw [decide_eq_decide]
  simp only [Nat.zero_add]
  omega

/-- **C78** Slice wrappers: the property fails for two slices. Iterators of different slices at the same position are always
`Equal`, whatever the slices hold. -/
theorem C78_slice_violated {T : Type} (vals : Nat → List T) (c d p : Nat) (hp : p ≤ (vals c).length) (hq : p ≤ (vals d).length) :
    ∃ a b, adv (posIter PosIter.sliceEqual vals) p ⟨c, 0⟩ = .ok a ∧ adv (posIter PosIter.sliceEqual vals) p ⟨d, 0⟩ = .ok b ∧
      (posIter PosIter.sliceEqual vals).eq a b = true :=
  ⟨_, _, adv_posIter p 0 (by omega), adv_posIter p 0 (by omega), by
    show PosIter.sliceEqual _ _ = _
    simp [PosIter.sliceEqual]⟩

/-! ## Non-vacuity -/

/-- Two lists of the demo state: equal iterators within a list, and the two ends. -/
example : ∃ (w : BidList.World Nat) (S : BidList.Spec Nat), BidList.Reachable w S ∧ S.isList 0 ∧ S.isList 1 ∧
    S.valsOf (S.seq 0) = [5, 7, 8] ∧ (bidIter w).eq (some 2) (some 3) = false ∧ adv (bidIter w) 2 (some 0) = .ok (some 3) ∧
    adv (bidIter w) 3 (some 0) = .ok none :=
  ⟨_, _, ⟨BidList.demoOps, _, BidList.noStale_of_noStaleB _ _ rfl, rfl, rfl⟩, by decide, by decide, by decide, rfl, rfl, rfl⟩

/-- Slices [1, 2] and [7]: `IterAt(1)` of the first equals the end of the second. -/
example : (posIter PosIter.sliceEqual (fun c => if c = 0 then [1, 2] else [7])).eq ⟨0, 1⟩ ⟨1, 1⟩ = true ∧
    (posIter PosIter.equal (fun c => if c = 0 then [1, 2] else [7])).eq ⟨0, 1⟩ ⟨1, 1⟩ = false := by decide

open GoSTL.RB GoSTL.TreeMap

/-- `C78_bidlist` and `C78_bidlist_two` on the demo world: lists 0 (three elements) and 1 (one element). -/
example : ∃ (w : BidList.World Nat) (front : Option Nat), BidList.frontNode w 0 = .ok front ∧ EqualOk (bidIter w) front 3 := by
  obtain ⟨w, h⟩ := BidList.demo_reachable
  exact ⟨w, C78_bidlist h (l := 0) (by decide)⟩
/-- `C78_bidlist_two`. -/
example : ∃ (w : BidList.World Nat) (f g : Option Nat), BidList.frontNode w 0 = .ok f ∧ BidList.frontNode w 1 = .ok g ∧
    ∃ a b, adv (bidIter w) 2 f = .ok a ∧ adv (bidIter w) 0 g = .ok b ∧ (bidIter w).eq a b = false := by
  obtain ⟨w, h⟩ := BidList.demo_reachable
  obtain ⟨f, g, e1, e2, k⟩ := C78_bidlist_two h (l := 0) (m := 1) (by decide) (by decide) (by decide)
  obtain ⟨a, b, ea, eb, k⟩ := k 2 0 (by decide) (by decide)
  refine ⟨w, f, g, e1, e2, a, b, ea, eb, ?_⟩
  cases hb : (bidIter w).eq a b
  · rfl
  · exact absurd (k.mp hb) (by decide)
/-- `C78_simplelist`. -/
example : ∃ w : SimpleList.World Nat, EqualOk (simpleIter w) w.head 1 := by
  obtain ⟨w, h, -⟩ := SimpleList.demo_list
  exact ⟨w, C78_simplelist h⟩
/-- `C78_map`. -/
example : ∃ (s : Tree Int Int) (front : Option Id), TreeMap.first s = .ok front ∧ EqualOk (mapIter s) front 2 := by
  obtain ⟨s, f, h, e, -⟩ := demo_map
  obtain ⟨kvs, front, e1, e2, e3⟩ := C78_map intCmp_lawful h
  rw [e] at e1; cases e1
  exact ⟨s, front, e2, e3⟩
/-- `C78_multimap`. -/
example : ∃ (s : Tree Int Char) (front : Option Id), TreeMap.first s = .ok front ∧ EqualOk (mapIter s) front 3 := by
  obtain ⟨s, h, e⟩ := demo_multimap
  obtain ⟨kvs, front, e1, e2, e3⟩ := C78_multimap tensCmp_lawful h
  rw [e] at e1; cases e1
  exact ⟨s, front, e2, e3⟩
/-- `C78_set`. -/
example : ∃ (s : Tree Int Bool) (front : Option Id), TreeMap.first s = .ok front ∧ EqualOk (setIter s) front 3 := by
  obtain ⟨s, -, m, -, h, -, -, -, -, e, -⟩ := demo_sets
  obtain ⟨kvs, front, e1, e2, e3⟩ := C78_set intCmp_lawful h
  rw [e] at e1; cases e1
  exact ⟨s, front, e2, e3⟩
/-- `C78_multiset`. -/
example : ∃ (s : Tree Int Bool) (kvs : List (Int × Bool)) (front : Option Id), TreeMap.first s = .ok front ∧ EqualOk (setIter s) front kvs.length := by
  obtain ⟨s, h, -⟩ := demo_multiset
  obtain ⟨kvs, front, -, e2, e3⟩ := C78_multiset tensCmp_lawful h
  exact ⟨s, kvs, front, e2, e3⟩
/-- `C78_random_access`: position 1 of `[1, 2]` and position 1 of `[7]` are different positions. -/
example := C78_random_access (fun c => if c = 0 then [1, 2] else [7]) 0 1 1 1 (by decide) (by decide)
/-- `C78_slice_partial` and `C78_slice_violated` for the same two slices. -/
example := C78_slice_partial (fun c => if c = 0 then [1, 2] else [7]) 0
/-- `C78_slice_violated`. -/
example := C78_slice_violated (fun c => if c = 0 then [1, 2] else [7]) 0 1 1 (by decide) (by decide)

end GoSTL.Iters
