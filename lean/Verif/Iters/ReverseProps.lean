import Verif.Iters.Reverse
import Verif.Iters.Props
/-!
# C70: `Reverse` on list and map iterators
-/
namespace GoSTL.Iters

/-- ds/list/bidlist/iterator.go: `Next` 26-31, `Prev` 34-39, `Value` 42-47, `SetValue` 50-54 (nothing happens on nil). -/
def bidMut {T : Type} : BidIter (BidList.World T) T where
  next w
    | some n => BidList.next w n
    | none => .ok none
  prev w
    | some n => BidList.prev w n
    | none => .ok none
  value w
    | some n => do let nd ← BidList.node w n; .ok nd.value
    | none => .panic
  setValue w i v := match i with
    | some n => BidList.setValue w n v
    | none => .ok w

/-- ds/map/iterator.go: `Next` 22-27, `Prev` 30-35, `Value` 43-45, `SetValue` 48-50. -/
def mapMut {K V : Type} : BidIter (RB.Tree K V) V where
  next := TreeMap.iterNext
  prev := TreeMap.iterPrev
  value := TreeMap.iterValue
  setValue := TreeMap.iterSetValue

/-! ## Lists -/

/-- `w` is `S` but for the values of list `l`, which are `vs`: same sequences, same values elsewhere. -/
def ListWith {T : Type} (S : BidList.Spec T) (l : Nat) (w : BidList.World T) (vs : List T) : Prop :=
  ∃ S', BidList.Reachable w S' ∧ S'.seqs = S.seqs ∧ S'.valsOf (S.seq l) = vs ∧ ∀ n, n ∉ S.seq l → S'.vals[n]? = S.vals[n]?

theorem getLast_take {α : Type} {l : List α} {k : Nat} (hk : k ≤ l.length) : (l.take k).getLast? = if k = 0 then none else l[k - 1]? := by
  rw [List.getLast?_eq_getElem?, List.length_take, Nat.min_eq_left hk]
  split_ifs with h
  · simp [h]
  · rw [List.getElem?_take_of_lt (by omega)]

theorem bid_bidChain {T : Type} (S : BidList.Spec T) {l : Nat} (hl : S.isList l) (hd : (S.seq l).Nodup) :
    BidChain (bidMut (T := T)) (S.seq l) (ListWith S l) where
  nodup := hd
  len := by
    rintro w vs ⟨S', h, h1, rfl, -⟩
    have e : S'.seq l = S.seq l := by simp [BidList.Spec.seq, h1]
    rw [← e]
    exact valsOf_len fun _ hn => h.inv.mem_lt hn
  next := by
    rintro w vs k n ⟨S', h, h1, rfl, -⟩ hn
    have e : S'.seq l = S.seq l := by simp [BidList.Spec.seq, h1]
    have hl' : S'.isList l := by simpa [BidList.Spec.isList, h1] using hl
    rw [← e] at hn ⊢
    exact (bid_chain h.inv hl').next k n hn
  prev := by
    rintro w vs k n ⟨S', h, h1, rfl, -⟩ hn
    have e : S'.seq l = S.seq l := by simp [BidList.Spec.seq, h1]
    have hl' : S'.isList l := by simpa [BidList.Spec.isList, h1] using hl
    rw [← e] at hn ⊢
    have h3 : BidList.prev w n = .ok ((S'.seq l).take k).getLast? :=
      BidList.prev_spec h.inv (l := l) (Q := (S'.seq l).drop (k + 1)) (by rw [← split_at hn]; exact BidList.seqs_some hl')
    rw [getLast_take (Nat.le_of_lt (List.getElem?_eq_some_iff.1 hn).1)] at h3
    exact h3
  prevEnd _ := rfl
  value := by
    rintro w vs k n v ⟨S', h, h1, rfl, -⟩ hn hv
    have e : S'.seq l = S.seq l := by simp [BidList.Spec.seq, h1]
    have hl' : S'.isList l := by simpa [BidList.Spec.isList, h1] using hl
    rw [← e] at hn hv
    exact (bid_chain h.inv hl').value k n v hn hv
  valueEnd _ := rfl
  setValue := by
    rintro w vs k n v ⟨S', h, h1, rfl, h2⟩ hn
    have e : S'.seq l = S.seq l := by simp [BidList.Spec.seq, h1]
    have hm : n ∈ S'.seq l := by rw [e]; exact List.mem_of_getElem? hn
    have hlt := h.inv.mem_lt hm
    obtain ⟨w', e1, h3⟩ := h.step (op := .setValue n v) (o := .unit) (S' := { S' with vals := S'.vals.set n v })
      (by intro x hx; simp [BidList.handles] at hx) (by simp [BidList.specStep, BidList.Spec.isNode, hlt])
    refine ⟨w', ?_, _, h3, h1, ?_, ?_⟩
    · simp only [BidList.step, Res.bind_eq_ok] at e1
      obtain ⟨w1, e2, e3⟩ := e1
      cases e3
      exact e2
    · simp only [BidList.Spec.valsOf]
      have hlt' : ∀ m ∈ S.seq l, m < S'.vals.length := fun m hm => h.inv.mem_lt (l := l) (by rw [e]; exact hm)
      apply List.ext_getElem?
      intro j
      rw [valsOf_getElem? (by simpa using hlt'), List.getElem?_set, valsOf_len hlt', valsOf_getElem? hlt']
      by_cases hj : k = j
      · subst hj
        have hk : k < (S.seq l).length := (List.getElem?_eq_some_iff.1 hn).1
        rw [if_pos rfl, if_pos hk, hn]
        simp [hlt]
      · rw [if_neg hj]
        cases ej : (S.seq l)[j]? with
        | none => rfl
        | some m =>
          have hne : n ≠ m := by
            rintro rfl
            have hk : k < (S.seq l).length := (List.getElem?_eq_some_iff.1 hn).1
            exact hj ((List.getElem?_inj hk hd).1 (by rw [hn, ej]))
          simp [hne]
    · intro m hm'
      have hne : n ≠ m := by rintro rfl; exact hm' (by rw [← e]; exact hm)
      simp [hne, h2 m hm']

/-- **C70 (partial)**, bidirectional lists: non-empty ranges that end at an element are reversed. Missing: ranges up to the end of
the list, on which `Reverse` always panics, and empty ranges at an element, on which it panics or reverses the whole list; both are
part of the statement (`ReverseSpec.toEnd`, `ReverseSpec.emptyInner`). -/
theorem C70_bidlist_partial {T : Type} {w : BidList.World T} {S : BidList.Spec T} (h : BidList.Reachable w S) {l : Nat} (hl : S.isList l) :
    ReverseSpec (bidMut (T := T)) ((S.seq l)[·]?) (ListWith S l) w (S.valsOf (S.seq l)) :=
  (bid_bidChain S hl (h.inv.nodup l _ (BidList.seqs_some hl))).reverse ⟨S, h, rfl, rfl, fun _ _ => rfl⟩

/-! ## Maps -/

section
open GoSTL.RB GoSTL.TreeMap
variable {K V : Type} {cmp : K → K → Int}

/-- The entries of nodes with keys `ents` and values `vs`. -/
def withVals (ents : List (Id × K)) (vs : List V) : List (Id × K × V) := List.zipWith (fun e v => (e.1, e.2, v)) ents vs

theorem withVals_get (ents : List (Id × K)) (vs : List V) (k : Nat) :
    (withVals ents vs)[k]? = match ents[k]?, vs[k]? with
      | some e, some v => some (e.1, e.2, v)
      | _, _ => none := by
  simp only [withVals, List.getElem?_zipWith]
  cases ents[k]? <;> cases vs[k]? <;> rfl

theorem withVals_ids {ents : List (Id × K)} {vs : List V} (h : vs.length = ents.length) :
    (withVals ents vs).map (·.1) = ents.map (·.1) := by
  apply List.ext_getElem?
  intro j
  rw [List.getElem?_map, withVals_get, List.getElem?_map]
  cases e : ents[j]? with
  | none => rfl
  | some a =>
    have hj : j < vs.length := by rw [h]; exact (List.getElem?_eq_some_iff.1 e).1
    have : vs[j]? = some vs[j] := by simp [hj]
    rw [this]; rfl

theorem withVals_self (xs : List (Id × K × V)) : withVals (xs.map fun e => (e.1, e.2.1)) (xs.map fun e => e.2.2) = xs := by
  apply List.ext_getElem?
  intro j
  rw [withVals_get, List.getElem?_map, List.getElem?_map]
  cases xs[j]? <;> rfl

theorem linked_of_holds {s : Tree K V} {A B : List (Id × K × V)} {i k v} (h : HoldsS cmp s (A ++ (i, k, v) :: B)) : Linked s i := by
  obtain ⟨t, h1, h2, h3, h4⟩ := h.1
  rw [linked_iff h1, T.ids_eq, h3]
  simp

theorem map_bidChain {P : Tree K V → Prop} (ents : List (Id × K)) (hd : (ents.map (·.1)).Nodup)
    (hP : ∀ s s' A B i k v v', P s → HoldsS cmp s (A ++ (i, k, v) :: B) → iterSetValue s (some i) v' = .ok s' → P s') :
    BidChain (mapMut (K := K) (V := V)) (ents.map (·.1))
      (fun s vs => P s ∧ vs.length = ents.length ∧ HoldsS cmp s (withVals ents vs)) where
  nodup := hd
  len := by rintro s vs ⟨-, h, -⟩; simpa using h
  next := by
    rintro s vs k n ⟨-, h1, h2⟩ hn
    rw [← withVals_ids h1] at hn ⊢
    exact tree_next h2 k n hn
  prev := by
    rintro s vs k n ⟨-, h1, h2⟩ hn
    rw [← withVals_ids h1] at hn ⊢
    have hk := (List.getElem?_eq_some_iff.1 hn).1
    rw [List.getElem?_map, Option.map_eq_some_iff] at hn
    obtain ⟨⟨i, a, v⟩, h3, rfl⟩ := hn
    have h4 := h2.1
    rw [split_at h3] at h4
    simp only [mapMut, iterPrev, h4.presuccessor]
    rw [lst, getLast_take (by simp at hk; omega)]
    split_ifs
    · rfl
    · rw [List.getElem?_map]
  prevEnd _ := rfl
  value := by
    rintro s vs k n v ⟨-, h1, h2⟩ hn hv
    rw [← withVals_ids h1] at hn
    obtain ⟨a, v', h3, -, h4⟩ := tree_at h2 hn
    rw [withVals_get, hv] at h3
    cases e : ents[k]? with
    | none => rw [e] at h3; cases h3
    | some x => rw [e] at h3; cases h3; exact h4
  valueEnd _ := rfl
  setValue := by
    rintro s vs k n v' ⟨hp, h1, h2⟩ hn
    rw [← withVals_ids h1] at hn
    obtain ⟨a, v, h3, -⟩ := tree_at h2 hn
    have h4 := h2
    rw [split_at h3] at h4
    obtain ⟨nd, g1, -⟩ := h4.1.node (i := n) (k := a) (v := v) (by simp)
    have e : iterSetValue s (some n) v' = .ok (s.setValue n v') := by simp [iterSetValue, g1]
    refine ⟨_, e, hP _ _ _ _ _ _ _ _ hp h4 e, by simpa using h1, ?_⟩
    have e2 : withVals ents (vs.set k v') = (withVals ents vs).take k ++ (n, a, v') :: (withVals ents vs).drop (k + 1) := by
      have hk := (List.getElem?_eq_some_iff.1 h3).1
      have hk2 : k < vs.length := by
        rw [withVals_get] at h3
        by_contra hc
        rw [List.getElem?_eq_none (by omega)] at h3
        cases ents[k]? <;> cases h3
      have e4 : (withVals ents vs).take k ++ (n, a, v') :: (withVals ents vs).drop (k + 1) = (withVals ents vs).set k (n, a, v') := by
        rw [List.set_eq_take_append_cons_drop, if_pos hk]
      rw [e4]
      apply List.ext_getElem?
      intro j
      rw [withVals_get, List.getElem?_set, List.getElem?_set]
      by_cases hj : k = j
      · subst hj
        rw [withVals_get] at h3
        rw [if_pos rfl, if_pos hk2, if_pos rfl, if_pos hk]
        cases e5 : ents[k]? with
        | none => rw [e5] at h3; cases h3
        | some x =>
          rw [e5] at h3
          have : vs[k]? = some vs[k] := by simp [hk2]
          rw [this] at h3
          cases h3
          rfl
      · rw [if_neg hj, if_neg hj, withVals_get]
    rw [e2]
    obtain ⟨ys, h5, h6⟩ := HoldsKV.setValue h4 v'
    exact ⟨h4.1.setValue v', SortedE.of_map h5.2 (h6 ▸ List.Sublist.refl _)⟩

theorem ReverseSpec.mono {W T : Type} {it : BidIter W T} {i : Nat → Option Nat} {R R' : W → List T → Prop} {w : W} {vs : List T}
    (h : ReverseSpec it i R w vs) (hr : ∀ w vs, R w vs → R' w vs) : ReverseSpec it i R' w vs where
  inner p q f h1 h2 h3 := by
    obtain ⟨w', e, h4⟩ := h.inner p q f h1 h2 h3
    exact ⟨w', e, hr _ _ h4⟩
  toEnd := h.toEnd
  emptyEnd := h.emptyEnd
  emptyInner p f h1 h2 := by
    refine ⟨(h.emptyInner p f h1 h2).1, fun h3 => ?_⟩
    obtain ⟨w', e, h4⟩ := (h.emptyInner p f h1 h2).2 h3
    exact ⟨w', e, hr _ _ h4⟩

theorem withVals_kv (xs : List (Id × K × V)) (vs : List V) :
    (withVals (xs.map fun e => (e.1, e.2.1)) vs).map (·.2) = (xs.map fun e => e.2.1).zip vs := by
  induction xs generalizing vs with
  | nil => rfl
  | cons x xs ih =>
    cases vs with
    | nil => rfl
    | cons v vs => simpa [withVals] using ih vs

theorem tree_reverse {P : Tree K V → Prop} {s : Tree K V} {xs : List (Id × K × V)} (hp : P s) (h : HoldsS cmp s xs)
    (hP : ∀ s s' A B i k v v', P s → HoldsS cmp s (A ++ (i, k, v) :: B) → iterSetValue s (some i) v' = .ok s' → P s') :
    ReverseSpec (mapMut (K := K) (V := V)) ((xs.map (·.1))[·]?)
      (fun s' vs => P s' ∧ iterList s' = .ok ((xs.map fun e => e.2.1).zip vs)) s (xs.map fun e => e.2.2) := by
  have e0 : (xs.map fun e => (e.1, e.2.1)).map (·.1) = xs.map (·.1) := by rw [List.map_map]; rfl
  have h1 := map_bidChain (cmp := cmp) (P := P) (xs.map fun e => (e.1, e.2.1)) (by rw [e0]; exact h.1.nodup) hP
  have h2 := h1.reverse (w := s) (vs := xs.map fun e => e.2.2) ⟨hp, by simp, by rw [withVals_self]; exact h⟩
  rw [e0] at h2
  refine h2.mono ?_
  rintro s' vs ⟨g1, g2, g3⟩
  refine ⟨g1, ?_⟩
  rw [← withVals_kv]
  exact HoldsKV.iterList ⟨_, g3, rfl⟩

/-- What `Reverse` does on a map with the entries `kvs`: `ids k` is the iterator after `k` calls of `Next` from the front; the
keys and their order stay, the values move; `P` holds of the result. -/
def MapReverse (P : Tree K V → Prop) (s : Tree K V) : Prop :=
  ∃ kvs front ids, iterList s = .ok kvs ∧ TreeMap.first s = .ok front ∧ (∀ k, adv (mapIter s) k front = .ok (ids k)) ∧
    ReverseSpec (mapMut (K := K) (V := V)) ids (fun s' vs => P s' ∧ iterList s' = .ok ((kvs.map (·.1)).zip vs)) s (kvs.map (·.2))

theorem mapReverse_of {P : Tree K V → Prop} {s : Tree K V} {kvs : List (K × V)} (hp : P s) (h : HoldsKV cmp s kvs)
    (hP : ∀ s s' A B i k v v', P s → HoldsS cmp s (A ++ (i, k, v) :: B) → iterSetValue s (some i) v' = .ok s' → P s') :
    MapReverse P s := by
  have hi := h.iterList
  obtain ⟨xs, h2, rfl⟩ := h
  have h0 : hd xs = (xs.map (·.1)).head? := by cases xs <;> rfl
  refine ⟨_, _, ((xs.map (·.1))[·]?), hi, h2.1.first, ?_, ?_⟩
  · intro k; rw [h0]; exact adv_hd (map_chain h2) k
  · rw [List.map_map, List.map_map]; exact tree_reverse hp h2 hP

/-- **C70 (partial)**, Map: see `C70_bidlist_partial`; the result is again a map with a history. -/
theorem C70_map_partial (hc : LawfulCmp cmp) {s : Tree K V} {f : K → Option V} (h : MapHist cmp s f) :
    MapReverse (fun s' => ∃ f', MapHist cmp s' f') s := by
  obtain ⟨kvs, h1, -⟩ := mapHist_inv hc h
  refine mapReverse_of (cmp := cmp) ⟨f, h⟩ h1 ?_
  rintro s s' A B i k v v' ⟨f, hf⟩ hs e
  exact ⟨_, hf.setValue (linked_of_holds hs) (iterKey_at hs).1 e⟩

theorem filter_split {α : Type} {p : α → Bool} {l X Y : List α} {y : α} (h : l.filter p = X ++ y :: Y) :
    ∃ H H', l = H ++ y :: H' ∧ H.filter p = X := by
  obtain ⟨l1, l2, rfl, h1, h2⟩ := List.filter_eq_append_iff.1 h
  obtain ⟨l3, l4, rfl, h3, h4, h5⟩ := List.filter_eq_cons_iff.1 h2
  refine ⟨l1 ++ l3, l4, by simp, ?_⟩
  rw [List.filter_append, h1, List.filter_eq_nil_iff.2 h3, List.append_nil]

/-- **C70 (partial)**, MultiMap. -/
theorem C70_multimap_partial (hc : LawfulCmp cmp) {s : Tree K V} {h : List (K × V)} (hh : MultiMapHist cmp s h) :
    MapReverse (fun s' => ∃ h', MultiMapHist cmp s' h') s := by
  obtain ⟨kvs, h1, -⟩ := multiMapHist_inv hc hh
  refine mapReverse_of (cmp := cmp) ⟨h, hh⟩ h1 ?_
  rintro s s' A B i k v v' ⟨h, hh⟩ hs e
  obtain ⟨kvs, h2, h3⟩ := multiMapHist_inv hc hh
  have ht : toList s = .ok (A ++ (i, k, v) :: B) := hs.1.toList
  obtain ⟨ys, h4, rfl⟩ := h2
  have ey : ys = A ++ (i, k, v) :: B := by
    have := h4.1.toList
    rw [ht] at this
    cases this; rfl
  subst ey
  have h5 := h3.2 k
  rw [List.map_append, List.map_cons, List.filter_append, List.filter_cons_of_pos (by simp [keq, hc.refl])] at h5
  obtain ⟨H, H', rfl, h6⟩ := filter_split h5.symm
  refine ⟨_, hh.setValue ht (hc.refl k) ?_ e⟩
  rw [List.countP_eq_length_filter, List.countP_eq_length_filter]
  have h7 : (H.filter fun e => decide (cmp k e.1 = 0)) = H.filter (keq cmp k) := rfl
  rw [h7, h6, List.filter_map, List.length_map]
  rfl

/-! ## Non-vacuity -/

example : ∃ s f, MapHist intCmp s f ∧ LawfulCmp intCmp ∧ iterList s = .ok [((1 : Int), (10 : Int)), (2, 20), (3, 30)] ∧
    ∃ s', reverse mapMut 3 s (some 1) (some 2) = .ok s' ∧ iterList s' = .ok [(1, 20), (2, 10), (3, 30)] := by
  have h0 : ∃ s s', buildMap [(2, 20), (1, 10), (3, 30)] Tree.new = .ok s ∧
      iterList s = .ok [((1 : Int), (10 : Int)), (2, 20), (3, 30)] ∧
      reverse mapMut 3 s (some 1) (some 2) = .ok s' ∧ iterList s' = .ok [(1, 20), (2, 10), (3, 30)] :=
    ⟨_, _, rfl, rfl, rfl, rfl⟩
  obtain ⟨s, s', e1, e2, e3, e4⟩ := h0
  exact ⟨s, _, buildMap_hist _ _ _ _ .new e1, intCmp_lawful, e2, s', e3, e4⟩

example : ∃ s, MultiMapHist tensCmp s [((21 : Int), 'a'), (11, 'b'), (20, 'c')] ∧ LawfulCmp tensCmp ∧
    ∃ s', reverse mapMut 3 s (some 1) (some 2) = .ok s' ∧ iterList s' = .ok [(11, 'a'), (21, 'b'), (20, 'c')] := by
  have h0 : ∃ s1 s2 s3 s', multiMapInsert tensCmp Tree.new 21 'a' = .ok s1 ∧ multiMapInsert tensCmp s1 11 'b' = .ok s2 ∧
      multiMapInsert tensCmp s2 20 'c' = .ok s3 ∧ reverse mapMut 3 s3 (some 1) (some 2) = .ok s' ∧
      iterList s' = .ok [(11, 'a'), (21, 'b'), (20, 'c')] :=
    ⟨_, _, _, _, rfl, rfl, rfl, rfl, rfl⟩
  obtain ⟨s1, s2, s3, s', e1, e2, e3, e4, e5⟩ := h0
  exact ⟨s3, (((.new : MultiMapHist tensCmp Tree.new []).insert e1).insert e2).insert e3, tensCmp_lawful, s', e4, e5⟩

end

/-- List 0 of the demo state holds 5, 7, 8 in the nodes 0, 2, 3: the range before node 3 is reversed, the range up to the end
panics. -/
example : ∃ (w : BidList.World Nat) (S : BidList.Spec Nat), BidList.Reachable w S ∧ S.isList 0 ∧ S.valsOf (S.seq 0) = [5, 7, 8] ∧
    (∃ w', reverse bidMut 3 w (some 0) (some 3) = .ok w' ∧ Algo.count (bidIter w') (fun a b => if a = b then 0 else 1) 2 (some 0) (some 2) 7 = .ok 1) ∧
    reverse bidMut 3 w (some 0) none = .panic :=
  ⟨_, _, ⟨BidList.demoOps, _, BidList.noStale_of_noStaleB _ _ rfl, rfl, rfl⟩, by decide, by decide, ⟨_, rfl, rfl⟩, rfl⟩

/-- A list of two elements: `Reverse(second, second)`, an empty range, exchanges them. -/
example : ∃ (w w' : BidList.World Nat) (S : BidList.Spec Nat), BidList.Reachable w S ∧ S.valsOf (S.seq 0) = [5, 7] ∧
    reverse bidMut 3 w (some 1) (some 1) = .ok w' ∧ BidList.front w' 0 = .ok 7 ∧ BidList.back w' 0 = .ok 5 :=
  ⟨_, _, _, ⟨[.newList, .pushBack 0 5, .pushBack 0 7], _, BidList.noStale_of_noStaleB _ _ rfl, rfl, rfl⟩, by decide, rfl, rfl, rfl⟩

open GoSTL.RB GoSTL.TreeMap

/-- `C70_bidlist_partial` on the demo world. -/
example : ∃ (w : BidList.World Nat) (S : BidList.Spec Nat), ReverseSpec (bidMut (T := Nat)) ((S.seq 0)[·]?) (ListWith S 0) w [5, 7, 8] := by
  obtain ⟨w, h⟩ := BidList.demo_reachable
  exact ⟨w, _, C70_bidlist_partial h (l := 0) (by decide)⟩

/-- `C70_map_partial`. -/
example : ∃ s : Tree Int Int, iterList s = .ok [(1, 10), (4, 41)] ∧ MapReverse (fun s' => ∃ f', MapHist intCmp s' f') s := by
  obtain ⟨s, f, h, e, -⟩ := demo_map
  exact ⟨s, e, C70_map_partial intCmp_lawful h⟩

/-- `C70_multimap_partial`. -/
example : ∃ s : Tree Int Char, iterList s = .ok [(11, 'b'), (21, 'a'), (20, 'd')] ∧ MapReverse (fun s' => ∃ h', MultiMapHist tensCmp s' h') s := by
  obtain ⟨s, h, e⟩ := demo_multimap
  exact ⟨s, e, C70_multimap_partial tensCmp_lawful h⟩

end GoSTL.Iters
