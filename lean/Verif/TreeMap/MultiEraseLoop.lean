import Verif.TreeMap.EraseLoop
import Verif.TreeMap.MultiProps
/-!
# C90: erasing entries of a multimap or a multiset while walking over it

Neither has `EraseIter`: the client erases by key and goes on from `LowerBound`.
-/
namespace GoSTL.TreeMap
open GoSTL.RB

variable {K V : Type} {cmp : K → K → Int}

/-- The client loop
`for it := m.Begin(); it.IsValid(); { k := it.Key(); if drop(k, it.Value()) { m.Erase(k); it = m.LowerBound(k) } else { it.Next() } }`
from an iterator `it` on, for `erase` one of ds/map/multimap.go:50-61 `MultiMap.Erase`, ds/set/multiset.go:52-63 `MultiSet.EraseAll`,
ds/set/multiset.go:41-49 `MultiSet.Erase` (for a multiset `it.Value()` is the key). -/
def multiLoop (cmp : K → K → Int) (erase : (K → K → Int) → Tree K V → K → Res (Tree K V)) (drop : K → V → Bool) :
    Nat → Option Id → Tree K V → Res (List (K × V) × Tree K V)
  | 0, _, _ => .outOfFuel
  | f + 1, it, t =>
    if iterIsValid it then do
      let k ← iterKey t it
      let v ← iterValue t it
      let t' ← if drop k v then erase cmp t k else .ok t
      let nxt ← if drop k v then lowerBound cmp t' k else iterNext t' it
      let (seen, t'') ← multiLoop cmp erase drop f nxt t'
      .ok ((k, v) :: seen, t'')
    else .ok ([], t)

/-- Some entry of `l` with a key equal to that of `e` is to be dropped. -/
def condemned (cmp : K → K → Int) (drop : K → V → Bool) (l : List (K × V)) (e : K × V) : Bool :=
  l.any fun e' => decide (cmp e'.1 e.1 = 0) && drop e'.1 e'.2

theorem HoldsS.at_iter {s : Tree K V} {A B i k v} (h : HoldsS cmp s (A ++ (i, k, v) :: B)) :
    iterKey s (some i) = .ok k ∧ iterValue s (some i) = .ok v ∧ iterNext s (some i) = .ok (hd B) := by
  obtain ⟨n, hn, rfl, rfl⟩ := h.1.node (i := i) (k := k) (v := v) (by simp)
  exact ⟨by simp [iterKey, hn], by simp [iterValue, hn], h.1.successor⟩

/-- The lower bound of a key that is behind the first half and not behind the second. -/
theorem lower_between_le (hc : LawfulCmp cmp) {s : Tree K V} {A B : List (Id × K × V)} (h : HoldsS cmp s (A ++ B)) {k : K}
    (hA : ∀ e ∈ A, cmp e.2.1 k < 0) (hB : ∀ e ∈ B, cmp k e.2.1 ≤ 0) : lowerBound cmp s k = .ok (hd B) := by
  rw [lowerBound, h.1.lower hc h.2, List.find?_append, hd_eq]
  have : A.find? (fun e => decide (cmp k e.2.1 ≤ 0)) = none := by
    rw [List.find?_eq_none]
    intro e he
    have := hc.swap e.2.1 k
    have := hA e he
    simp; omega
  rw [this, Option.none_or]
  cases B with
  | nil => rfl
  | cons b B => simp [hB b (by simp)]

theorem map_snd_split {es : List (Id × K × V)} {A B : List (K × V)} (h : es.map (·.2) = A ++ B) :
    ∃ A' B', es = A' ++ B' ∧ A'.map (·.2) = A ∧ B'.map (·.2) = B := by
  refine ⟨es.take A.length, es.drop A.length, (List.take_append_drop _ _).symm, ?_, ?_⟩
  · rw [List.map_take, h, List.take_left']; rfl
  · rw [List.map_drop, h, List.drop_left']; rfl

theorem mem_of_map_eq {B' : List (Id × K × V)} {B : List (K × V)} (h : B'.map (·.2) = B) {e} (he : e ∈ B') : e.2 ∈ B := by
  rw [← h]; exact List.mem_map_of_mem he

theorem multiLoop_all (hc : LawfulCmp cmp) (drop : K → V → Bool) (P : Tree K V → Prop)
    (hP : ∀ s s' k, P s → eraseAll cmp s k = .ok s' → P s') : ∀ (n : Nat) (A B : List (Id × K × V)) (fuel : Nat) (s : Tree K V),
    B.length ≤ n → n < fuel → HoldsS cmp s (A ++ B) → P s →
    ∃ s' seen, multiLoop cmp eraseAll drop fuel (hd B) s = .ok (seen, s') ∧ P s' ∧ seen.Sublist (B.map (·.2)) ∧
      HoldsKV cmp s' (((A ++ B).map (·.2)).filter fun e => !condemned cmp drop (B.map (·.2)) e) ∧
      ((B.map (·.2)).filter fun e => !condemned cmp drop (B.map (·.2)) e).Sublist seen := by
  intro n
  induction n with
  | zero =>
    intro A B fuel s hB hf h hp
    obtain rfl := List.eq_nil_of_length_eq_zero (Nat.le_zero.1 hB)
    obtain ⟨g, rfl⟩ : ∃ g, fuel = g + 1 := ⟨fuel - 1, by omega⟩
    exact ⟨s, [], rfl, hp, List.Sublist.refl _, ⟨_, h, by simp [condemned]⟩, List.Sublist.refl _⟩
  | succ n ih =>
    intro A B fuel s hB hf h hp
    obtain ⟨g, rfl⟩ : ∃ g, fuel = g + 1 := ⟨fuel - 1, by omega⟩
    cases B with
    | nil => exact ⟨s, [], rfl, hp, List.Sublist.refl _, ⟨_, h, by simp [condemned]⟩, List.Sublist.refl _⟩
    | cons e B =>
    obtain ⟨i, k, v⟩ := e
    have hl : B.length ≤ n := by simpa using hB
    obtain ⟨e1, e2, e3⟩ := h.at_iter
    simp only [hd_cons, multiLoop, iterIsValid, Option.isSome_some, if_true, e1, e2, Res.ok_bind]
    by_cases hd : drop k v = true
    · have hs := h.2
      rw [SortedE, List.pairwise_append, List.pairwise_cons] at hs
      obtain ⟨s1, e5, es, h5, h6⟩ := HoldsKV.eraseAll hc (⟨_, h, rfl⟩ : HoldsKV cmp s _) k
      have hkk : keq cmp k (k, v) = true := by simp [keq, hc.refl]
      rw [List.map_append, List.map_cons, List.filter_append, List.filter_cons, hkk] at h6
      obtain ⟨A', B', rfl, hA', hB'⟩ := map_snd_split h6
      have hlow : lowerBound cmp s1 k = .ok (RB.hd B') := by
        refine lower_between_le hc h5 (fun e he => ?_) (fun e he => ?_)
        · have := mem_of_map_eq hA' he
          rw [List.mem_filter, List.mem_map] at this
          obtain ⟨⟨e', he', h7⟩, h8⟩ := this
          have h9 := hs.2.2 e' he' (i, k, v) (by simp)
          rw [← h7] at h8 ⊢
          have h10 := hc.swap k e'.2.1
          have h11 := hc.swap e'.2.1 k
          have h12 := hc.eq_symm (a := e'.2.1) (b := k)
          simp only [keq, Bool.not_eq_true', decide_eq_false_iff_not] at h8
          simp only at h9
          omega
        · have := mem_of_map_eq hB' he
          simp only [Bool.not_true, Bool.false_eq_true, if_false, List.mem_filter, List.mem_map] at this
          obtain ⟨⟨e', he', h7⟩, h8⟩ := this
          rw [← h7]
          exact hs.2.1.1 e' he'
      have hlen : B'.length ≤ n := by
        have : (B'.map (·.2)).length ≤ (B.map (·.2)).length := by
          rw [hB']
          simp only [Bool.not_true, Bool.false_eq_true, if_false]
          exact List.length_filter_le _ _
        simp at this; omega
      obtain ⟨s', seen, e8, hp', h8, h9, h10⟩ := ih A' B' g s1 hlen (by omega) h5 (hP _ _ _ hp e5)
      have hB2 : B'.map (·.2) = (B.map (·.2)).filter fun e => !keq cmp k e := by rw [hB']; simp
      -- what is condemned before and after the erasure
      have hcd : ∀ e : K × V, (!condemned cmp drop (((i, k, v) :: B).map (·.2)) e) =
          (!keq cmp k e && !condemned cmp drop (B'.map (·.2)) e) := by
        intro e
        rw [← Bool.not_or]
        congr 1
        rw [Bool.eq_iff_iff, Bool.or_eq_true, hB2]
        simp only [condemned, List.map_cons, List.any_cons, Bool.or_eq_true, Bool.and_eq_true, decide_eq_true_eq, List.any_eq_true, List.mem_filter,
          keq, Bool.not_eq_true', decide_eq_false_iff_not, hd, and_true]
        constructor
        · rintro (h | ⟨x, hx, h1, h2⟩)
          · exact .inl h
          · by_cases hx2 : cmp k x.1 = 0
            · exact .inl (hc.eq_trans hx2 h1)
            · exact .inr ⟨x, ⟨hx, hx2⟩, h1, h2⟩
        · rintro (h | ⟨x, ⟨hx, -⟩, h1, h2⟩)
          · exact .inl h
          · exact .inr ⟨x, hx, h1, h2⟩
      simp only [hd, if_true, e5, Res.ok_bind, hlow, e8]
      refine ⟨s', (k, v) :: seen, rfl, hp', ?_, ?_, ?_⟩
      · rw [List.map_cons]
        refine List.Sublist.cons_cons _ (h8.trans ?_)
        rw [hB2]; exact List.filter_sublist
      · have : (((A ++ (i, k, v) :: B).map (·.2)).filter fun e => !condemned cmp drop (((i, k, v) :: B).map (·.2)) e) =
            ((A' ++ B').map (·.2)).filter fun e => !condemned cmp drop (B'.map (·.2)) e := by
          simp only [hcd]
          rw [List.map_append, List.map_append, hA', hB2, List.filter_append, List.filter_append, List.map_cons, List.filter_cons, hkk]
          simp [List.filter_filter, Bool.and_comm]
        rw [this]; exact h9
      · simp only [hcd]
        rw [List.map_cons, List.filter_cons, hkk]
        simp only [Bool.not_true, Bool.false_and, Bool.false_eq_true, if_false]
        refine List.Sublist.cons _ ?_
        rw [hB2] at h10
        simp only [hB2]
        rw [List.filter_filter] at h10
        simpa only [Bool.and_comm] using h10
    · obtain ⟨s', seen, e8, hp', h8, h9, h10⟩ := ih (A ++ [(i, k, v)]) B g s hl (by omega) (by simpa using h) hp
      have hcd : ∀ e : K × V, condemned cmp drop (((i, k, v) :: B).map (·.2)) e = condemned cmp drop (B.map (·.2)) e := by
        intro e; simp [condemned, hd]
      simp only [hd, if_false, Res.ok_bind, e3, e8, hcd]
      refine ⟨s', (k, v) :: seen, by simp, hp', by simpa using h8, by simpa using h9, ?_⟩
      rw [List.map_cons, List.filter_cons]
      split
      · exact List.Sublist.cons_cons _ h10
      · exact List.Sublist.cons _ h10

/-- Walking and erasing one at a time: `drop` must not tell equal keys apart. -/
theorem multiLoop_one (hc : LawfulCmp cmp) (drop : K → V → Bool) (hdrop : ∀ k v k' v', cmp k k' = 0 → drop k v = drop k' v')
    (P : Tree K V → Prop) (hP : ∀ s s' k, P s → eraseOne cmp s k = .ok s' → P s') :
    ∀ (n : Nat) (A B : List (Id × K × V)) (fuel : Nat) (s : Tree K V),
    B.length = n → n < fuel → HoldsS cmp s (A ++ B) → P s → (∀ e ∈ A, drop e.2.1 e.2.2 = false) →
    ∃ s', multiLoop cmp eraseOne drop fuel (hd B) s = .ok (B.map (·.2), s') ∧ P s' ∧
      HoldsKV cmp s' ((A ++ B).map (·.2) |>.filter fun e => !drop e.1 e.2) := by
  intro n
  induction n with
  | zero =>
    intro A B fuel s hB hf h hp hA
    obtain rfl := List.eq_nil_of_length_eq_zero hB
    obtain ⟨g, rfl⟩ : ∃ g, fuel = g + 1 := ⟨fuel - 1, by omega⟩
    refine ⟨s, rfl, hp, _, h, ?_⟩
    symm
    rw [List.filter_eq_self]
    intro e he
    rw [List.append_nil, List.mem_map] at he
    obtain ⟨e', he', rfl⟩ := he
    simp [hA e' he']
  | succ n ih =>
    intro A B fuel s hB hf h hp hA
    obtain ⟨g, rfl⟩ : ∃ g, fuel = g + 1 := ⟨fuel - 1, by omega⟩
    cases B with
    | nil => simp at hB
    | cons e B =>
    obtain ⟨i, k, v⟩ := e
    have hl : B.length = n := by simpa using hB
    obtain ⟨e1, e2, e3⟩ := h.at_iter
    simp only [hd_cons, multiLoop, iterIsValid, Option.isSome_some, if_true, e1, e2, Res.ok_bind]
    by_cases hd : drop k v = true
    · have hs := h.2
      rw [SortedE, List.pairwise_append, List.pairwise_cons] at hs
      have hAk : ∀ e ∈ A, cmp e.2.1 k < 0 := by
        intro e he
        have h1 := hs.2.2 e he (i, k, v) (by simp)
        have h2 : cmp e.2.1 k ≠ 0 := fun h => by
          have := hdrop e.2.1 e.2.2 k v h
          rw [hA e he, hd] at this; cases this
        simp only at h1
        omega
      obtain ⟨s1, e5, es, h5, h6⟩ := HoldsKV.eraseOne hc (⟨_, h, rfl⟩ : HoldsKV cmp s _) k
      rw [List.map_append, List.map_cons, List.eraseP_append_right _ (by
        intro e he
        rw [List.mem_map] at he
        obtain ⟨e', he', rfl⟩ := he
        have := hAk e' he'
        have := hc.swap e'.2.1 k
        simp [keq]; omega), List.eraseP_cons_of_pos (by simp [keq, hc.refl])] at h6
      obtain ⟨A', B', rfl, hA', hB'⟩ := map_snd_split h6
      have hlow : lowerBound cmp s1 k = .ok (RB.hd B') := by
        refine lower_between_le hc h5 (fun e he => ?_) (fun e he => ?_)
        · have := mem_of_map_eq hA' he
          rw [List.mem_map] at this
          obtain ⟨e', he', h7⟩ := this
          rw [← h7]; exact hAk e' he'
        · have := mem_of_map_eq hB' he
          rw [List.mem_map] at this
          obtain ⟨e', he', h7⟩ := this
          rw [← h7]; exact hs.2.1.1 e' he'
      obtain ⟨s', e8, hp', h8⟩ := ih A' B' g s1 (by rw [← hl, ← List.length_map (as := B') (·.2), hB', List.length_map]) (by omega) h5 (hP _ _ _ hp e5) (by
        intro e he
        have := mem_of_map_eq hA' he
        rw [List.mem_map] at this
        obtain ⟨e', he', h7⟩ := this
        rw [← h7]; exact hA e' he')
      simp only [hd, if_true, e5, Res.ok_bind, hlow, e8]
      refine ⟨s', by simp [hB'], hp', ?_⟩
      rw [List.map_append, hA', hB'] at h8
      simpa [hd] using h8
    · obtain ⟨s', e8, hp', h8⟩ := ih (A ++ [(i, k, v)]) B g s hl (by omega) (by simpa using h) hp (by
        intro e he
        rw [List.mem_append, List.mem_singleton] at he
        rcases he with he | rfl
        · exact hA e he
        · simpa using hd)
      simp only [hd, if_false, Res.ok_bind, e3, e8]
      exact ⟨s', by simp, hp', by simpa using h8⟩

/-- **C90** for multimaps. Walking forward from `Begin`, erasing the key of each entry that `drop` rejects and going on from `LowerBound`: the loop ends without a
panic; the entries left are exactly those for whose key no entry was rejected, in order; every one of them was looked at, once, in order. -/
theorem C90_multimap_forward (hc : LawfulCmp cmp) {s : Tree K V} {h : List (K × V)} (hh : MultiMapHist cmp s h) {kvs : List (K × V)}
    (e : iterList s = .ok kvs) (drop : K → V → Bool) {fuel : Nat} (hf : kvs.length < fuel) :
    ∃ seen s', (first s >>= fun it => multiLoop cmp eraseAll drop fuel it s) = .ok (seen, s') ∧ (∃ h', MultiMapHist cmp s' h') ∧
      iterList s' = .ok (kvs.filter fun e => !condemned cmp drop kvs e) ∧ (size s' : Int) = (kvs.filter fun e => !condemned cmp drop kvs e).length ∧
      seen.Sublist kvs ∧ (kvs.filter fun e => !condemned cmp drop kvs e).Sublist seen := by
  obtain ⟨kvs', h1, -⟩ := multiMapHist_inv hc hh
  have := h1.iterList
  rw [e] at this; cases this
  obtain ⟨xs, h1, rfl⟩ := h1
  obtain ⟨s', seen, e2, hp, h2, h3, h4⟩ := multiLoop_all hc drop (fun s => ∃ h, MultiMapHist cmp s h) (fun s s' k ⟨_, h⟩ e => ⟨_, h.erase e⟩) xs.length [] xs fuel s (Nat.le_refl _) (by simpa using hf) (by simpa using h1) ⟨_, hh⟩
  have hl : first s = .ok (hd xs) := h1.1.first
  exact ⟨seen, s', by rw [hl]; exact e2, hp, h3.iterList, h3.size, h2, h4⟩

/-- **C90** for multisets and `EraseAll`: as for multimaps. -/
theorem C90_multiset_forward (hc : LawfulCmp cmp) {s : Tree K Bool} {h : List K} (hh : MultiSetHist cmp s h) {kvs : List (K × Bool)}
    (e : iterList s = .ok kvs) (drop : K → Bool) {fuel : Nat} (hf : kvs.length < fuel) :
    ∃ seen s', (first s >>= fun it => multiLoop cmp eraseAll (fun k _ => drop k) fuel it s) = .ok (seen, s') ∧ (∃ h', MultiSetHist cmp s' h') ∧
      iterList s' = .ok (kvs.filter fun e => !condemned cmp (fun k _ => drop k) kvs e) ∧
      (size s' : Int) = (kvs.filter fun e => !condemned cmp (fun k _ => drop k) kvs e).length ∧
      seen.Sublist kvs ∧ (kvs.filter fun e => !condemned cmp (fun k _ => drop k) kvs e).Sublist seen := by
  obtain ⟨kvs', h1, -⟩ := multiSetHist_inv hc hh
  have := h1.iterList
  rw [e] at this; cases this
  obtain ⟨xs, h1, rfl⟩ := h1
  obtain ⟨s', seen, e2, hp, h2, h3, h4⟩ := multiLoop_all hc (fun k _ => drop k) (fun s => ∃ h, MultiSetHist cmp s h)
    (fun s s' k ⟨_, h⟩ e => ⟨_, h.eraseAll e⟩) xs.length [] xs fuel s (Nat.le_refl _) (by simpa using hf) (by simpa using h1) ⟨_, hh⟩
  have hl : first s = .ok (hd xs) := h1.1.first
  exact ⟨seen, s', by rw [hl]; exact e2, hp, h3.iterList, h3.size, h2, h4⟩

/-- **C90** for multisets and `Erase`, which takes one copy of an element: if `drop` treats equal elements alike, every copy is looked at exactly once, in order,
and exactly the rejected ones are gone. -/
theorem C90_multiset_forward_one (hc : LawfulCmp cmp) {s : Tree K Bool} {h : List K} (hh : MultiSetHist cmp s h) {kvs : List (K × Bool)}
    (e : iterList s = .ok kvs) (drop : K → Bool) (hdrop : ∀ k k', cmp k k' = 0 → drop k = drop k') {fuel : Nat} (hf : kvs.length < fuel) :
    ∃ s', (first s >>= fun it => multiLoop cmp eraseOne (fun k _ => drop k) fuel it s) = .ok (kvs, s') ∧ (∃ h', MultiSetHist cmp s' h') ∧
      iterList s' = .ok (kvs.filter fun e => !drop e.1) ∧ (size s' : Int) = (kvs.filter fun e => !drop e.1).length := by
  obtain ⟨kvs', h1, -⟩ := multiSetHist_inv hc hh
  have := h1.iterList
  rw [e] at this; cases this
  obtain ⟨xs, h1, rfl⟩ := h1
  obtain ⟨s', e2, hp, h2⟩ := multiLoop_one hc (fun k _ => drop k) (fun k _ k' _ h => hdrop k k' h) (fun s => ∃ h, MultiSetHist cmp s h)
    (fun s s' k ⟨_, h⟩ e => ⟨_, h.erase e⟩) xs.length [] xs fuel s rfl (by simpa using hf)
    (by simpa using h1) ⟨_, hh⟩ (by simp)
  have hl : first s = .ok (hd xs) := h1.1.first
  exact ⟨s', by rw [hl]; exact e2, hp, h2.iterList, h2.size⟩

/-! ### Examples -/

/-- A multimap with the entries 1→10, 2→20, 1→11, 3→30; the loop that rejects the value 11 takes out both entries of the key 1. -/
example : ∃ (s s' : Tree Int Int) (seen : List (Int × Int)),
    MultiMapHist intCmp s [(1, 10), (2, 20), (1, 11), (3, 30)] ∧ iterList s = .ok [(1, 10), (1, 11), (2, 20), (3, 30)] ∧
    (first s >>= fun it => multiLoop intCmp eraseAll (fun _ v => decide (v = 11)) 9 it s) = .ok (seen, s') ∧
    iterList s' = .ok [(2, 20), (3, 30)] := by
  have h0 : ∃ s1 s2 s3 s4 : Tree Int Int, multiMapInsert intCmp Tree.new 1 10 = .ok s1 ∧ multiMapInsert intCmp s1 2 20 = .ok s2 ∧
      multiMapInsert intCmp s2 1 11 = .ok s3 ∧ multiMapInsert intCmp s3 3 30 = .ok s4 ∧ iterList s4 = .ok [(1, 10), (1, 11), (2, 20), (3, 30)] :=
    ⟨_, _, _, _, rfl, rfl, rfl, rfl, rfl⟩
  obtain ⟨s1, s2, s3, s4, e1, e2, e3, e4, e5⟩ := h0
  have hh := (((MultiMapHist.new.insert e1).insert e2).insert e3).insert e4
  obtain ⟨seen, s', h1, -, h2, -⟩ := C90_multimap_forward intCmp_lawful hh e5 (fun _ v => decide (v = 11)) (fuel := 9) (by decide)
  exact ⟨s4, s', seen, hh, e5, h1, h2⟩

/-- A multiset with 1, 2, 2, 3: rejecting the even ones one at a time. -/
example : ∃ (s s' : Tree Int Bool), MultiSetHist intCmp s [2, 1, 2, 3] ∧
    (first s >>= fun it => multiLoop intCmp eraseOne (fun k _ => decide (k % 2 = 0)) 9 it s) = .ok ([(1, true), (2, true), (2, true), (3, true)], s') ∧
    iterList s' = .ok [(1, true), (3, true)] := by
  have h0 : ∃ s1 s2 s3 s4 : Tree Int Bool, multiSetInsert intCmp Tree.new 2 = .ok s1 ∧ multiSetInsert intCmp s1 1 = .ok s2 ∧
      multiSetInsert intCmp s2 2 = .ok s3 ∧ multiSetInsert intCmp s3 3 = .ok s4 ∧
      iterList s4 = .ok [(1, true), (2, true), (2, true), (3, true)] := ⟨_, _, _, _, rfl, rfl, rfl, rfl, rfl⟩
  obtain ⟨s1, s2, s3, s4, e1, e2, e3, e4, e5⟩ := h0
  have hh := (((MultiSetHist.new.insert e1).insert e2).insert e3).insert e4
  obtain ⟨s', h1, -, h2, -⟩ := C90_multiset_forward_one intCmp_lawful hh e5 (fun k => decide (k % 2 = 0))
    (by
      intro k k' h
      have : k = k' := by simp only [intCmp] at h; revert h; repeat' split
                          all_goals omega
      rw [this]) (fuel := 9) (by decide)
  exact ⟨s4, s', hh, h1, h2⟩

end GoSTL.TreeMap
