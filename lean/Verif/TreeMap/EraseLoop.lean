import Verif.TreeMap.MapProps
import Verif.TreeMap.SetProps
/-!
# C90: erasing entries of a map or a set while walking over it

Client programs that walk over a container with its iterators and erase some of the entries on the way. They are written
with the iterator API only; each returns the entries it looked at, in order, and the container left.
-/
namespace GoSTL.TreeMap
open GoSTL.RB

variable {K V : Type} {cmp : K → K → Int}

/-- The client loop
`for it := m.Last(); it.IsValid(); { cur := it.Clone(); it.Prev(); if drop(cur.Key(), cur.Value()) { m.EraseIter(cur) } }`,
from an iterator `it` on (ds/map/map.go:92-100, 146-151, ds/map/iterator.go:14-55). -/
def backLoop (drop : K → V → Bool) : Nat → Option Id → Tree K V → Res (List (K × V) × Tree K V)
  | 0, _, _ => .outOfFuel
  | f + 1, it, t =>
    if iterIsValid it then do
      let prv ← iterPrev t it
      let k ← iterKey t it
      let v ← iterValue t it
      let t' ← if drop k v then eraseIter t (.map it) else .ok t
      let (seen, t'') ← backLoop drop f prv t'
      .ok ((k, v) :: seen, t'')
    else .ok ([], t)

/-- The client loop
`for it := m.Begin(); it.IsValid(); { k := it.Key(); if drop(k, it.Value()) { m.EraseIter(it); it = m.LowerBound(k) } else { it.Next() } }`,
from an iterator `it` on (ds/map/map.go:92-100, 112-118, 130-135, ds/map/iterator.go:14-45). -/
def seekLoop (cmp : K → K → Int) (drop : K → V → Bool) : Nat → Option Id → Tree K V → Res (List (K × V) × Tree K V)
  | 0, _, _ => .outOfFuel
  | f + 1, it, t =>
    if iterIsValid it then do
      let k ← iterKey t it
      let v ← iterValue t it
      let t' ← if drop k v then eraseIter t (.map it) else .ok t
      let nxt ← if drop k v then lowerBound cmp t' k else iterNext t' it
      let (seen, t'') ← seekLoop cmp drop f nxt t'
      .ok ((k, v) :: seen, t'')
    else .ok ([], t)

/-- The same loop for a set, which has no `EraseIter`:
`for it := s.Begin(); it.IsValid(); { x := it.Value(); if drop(x) { s.Erase(x); it = s.LowerBound(x) } else { it.Next() } }`
(ds/set/set.go:74-82, 94-100, 112-114, ds/set/iterator.go:14-40). -/
def setSeekLoop (cmp : K → K → Int) (drop : K → Bool) : Nat → Option Id → Tree K Bool → Res (List K × Tree K Bool)
  | 0, _, _ => .outOfFuel
  | f + 1, it, t =>
    if iterIsValid it then do
      let k ← iterKey t it
      let t' ← if drop k then eraseOne cmp t k else .ok t
      let nxt ← if drop k then lowerBound cmp t' k else iterNext t' it
      let (seen, t'') ← setSeekLoop cmp drop f nxt t'
      .ok (k :: seen, t'')
    else .ok ([], t)

/-- The client loop that C++ programmers write,
`for it := m.Begin(); it.IsValid(); { cur := it.Clone(); it.Next(); if drop(cur.Key(), cur.Value()) { m.EraseIter(cur) } }`. -/
def forwardLoop (drop : K → V → Bool) : Nat → Option Id → Tree K V → Res (List (K × V) × Tree K V)
  | 0, _, _ => .outOfFuel
  | f + 1, it, t =>
    if iterIsValid it then do
      let nxt ← iterNext t it
      let k ← iterKey t it
      let v ← iterValue t it
      let t' ← if drop k v then eraseIter t (.map it) else .ok t
      let (seen, t'') ← forwardLoop drop f nxt t'
      .ok ((k, v) :: seen, t'')
    else .ok ([], t)

theorem lst_concat (A : List (Id × K × V)) (e : Id × K × V) : lst (A ++ [e]) = some e.1 := by simp [lst]

/-- One erasure through an iterator, keeping track of the nodes in front. -/
theorem MapHist.eraseAt (hc : LawfulCmp cmp) {s : Tree K V} {f} (h : MapHist cmp s f) {A B i k v}
    (ht : toList s = .ok (A ++ (i, k, v) :: B)) :
    ∃ s' f' B', TreeMap.eraseIter s (.map (some i)) = .ok s' ∧ MapHist cmp s' f' ∧ toList s' = .ok (A ++ B') ∧
      B'.map (·.2) = B.map (·.2) := by
  obtain ⟨kvs, ⟨xs, h1, rfl⟩, h2, h3⟩ := mapHist_inv hc h
  rw [h1.1.toList] at ht
  cases ht
  obtain ⟨s', es', e, h4, h5, -, h6⟩ := h1.1.delete
  have hl : Linked s i := by
    obtain ⟨t, t1, -, t3, -⟩ := h1.1
    rw [linked_iff t1, T.ids_eq, t3]; simp
  obtain ⟨n, hn, rfl, rfl⟩ := h1.1.node (i := i) (k := k) (v := v) (by simp)
  have hk : iterKey s (some i) = .ok n.key := by simp [iterKey, hn]
  refine ⟨s', _, es'.drop A.length, e, h.eraseIter hl hk e, ?_, ?_⟩
  · rw [h4.toList]
    rcases h6 with rfl | ⟨y, yk, yv, B', rfl, rfl⟩ <;> simp
  · rcases h6 with rfl | ⟨y, yk, yv, B', rfl, rfl⟩ <;> simp

theorem MapHist.at_iter (hc : LawfulCmp cmp) {s : Tree K V} {f} (h : MapHist cmp s f) {A B i k v}
    (ht : toList s = .ok (A ++ (i, k, v) :: B)) :
    iterKey s (some i) = .ok k ∧ iterValue s (some i) = .ok v ∧ iterNext s (some i) = .ok (hd B) ∧ iterPrev s (some i) = .ok (lst A) := by
  obtain ⟨kvs, ⟨xs, h1, rfl⟩, h2, h3⟩ := mapHist_inv hc h
  rw [h1.1.toList] at ht
  cases ht
  obtain ⟨n, hn, rfl, rfl⟩ := h1.1.node (i := i) (k := k) (v := v) (by simp)
  exact ⟨by simp [iterKey, hn], by simp [iterValue, hn], h1.1.successor, h1.1.presuccessor⟩

theorem backLoop_spec (hc : LawfulCmp cmp) (drop : K → V → Bool) : ∀ (n : Nat) (A B : List (Id × K × V)) (fuel : Nat) (s : Tree K V) (f : K → Option V),
    A.length = n → n < fuel → MapHist cmp s f → toList s = .ok (A ++ B) →
    ∃ s' f' xs, backLoop drop fuel (lst A) s = .ok ((A.map (·.2)).reverse, s') ∧ MapHist cmp s' f' ∧ toList s' = .ok xs ∧
      xs.map (·.2) = (A.map (·.2)).filter (fun e => !drop e.1 e.2) ++ B.map (·.2) := by
  intro n
  induction n with
  | zero =>
    intro A B fuel s f hA hf h ht
    obtain rfl := List.eq_nil_of_length_eq_zero hA
    obtain ⟨g, rfl⟩ : ∃ g, fuel = g + 1 := ⟨fuel - 1, by omega⟩
    exact ⟨s, f, B, rfl, h, ht, rfl⟩
  | succ n ih =>
    intro A B fuel s f hA hf h ht
    obtain ⟨g, rfl⟩ : ∃ g, fuel = g + 1 := ⟨fuel - 1, by omega⟩
    obtain ⟨A', e, rfl⟩ : ∃ A' e, A = A' ++ [e] := by
      rcases List.eq_nil_or_concat A with rfl | ⟨A', e, rfl⟩
      · simp at hA
      · exact ⟨A', e, by simp⟩
    obtain ⟨i, k, v⟩ := e
    rw [List.append_assoc, List.singleton_append] at ht
    obtain ⟨e1, e2, -, e4⟩ := h.at_iter hc ht
    rw [lst_concat]
    simp only [backLoop, iterIsValid, Option.isSome_some, if_true, e1, e2, e4, Res.ok_bind]
    have hl : A'.length = n := by simpa using hA
    by_cases hd : drop k v = true
    · obtain ⟨s1, f1, B', e5, h5, h6, h7⟩ := h.eraseAt hc ht
      obtain ⟨s', f', xs, e8, h8, h9, h10⟩ := ih A' B' g s1 f1 hl (by omega) h5 h6
      simp only [hd, if_true, e5, Res.ok_bind, e8]
      exact ⟨s', f', xs, by simp, h8, h9, by simp [h10, hd, h7]⟩
    · obtain ⟨s', f', xs, e8, h8, h9, h10⟩ := ih A' ((i, k, v) :: B) g s f hl (by omega) h ht
      simp only [hd, if_false, Res.ok_bind, e8]
      exact ⟨s', f', xs, by simp, h8, h9, by simp [h10, hd]⟩

/-- The lower bound of a key strictly between the two halves is the first node of the second half. -/
theorem lower_between (hc : LawfulCmp cmp) {s : Tree K V} {A B : List (Id × K × V)} (h : HoldsS cmp s (A ++ B)) {k : K}
    (hA : ∀ e ∈ A, cmp e.2.1 k < 0) (hB : ∀ e ∈ B, cmp k e.2.1 < 0) : lowerBound cmp s k = .ok (hd B) := by
  rw [lowerBound, h.1.lower hc h.2, List.find?_append, hd_eq]
  have : A.find? (fun e => decide (cmp k e.2.1 ≤ 0)) = none := by
    rw [List.find?_eq_none]
    intro e he
    have := hc.swap e.2.1 k
    have := hA e he
    simp; omega
  rw [this, Option.none_or]
  cases B with
  | nil => rfl
  | cons b B => simp [Int.le_of_lt (hB b (by simp))]

theorem split_bounds {A B : List (Id × K × V)} {i k v} (h : ((A ++ (i, k, v) :: B).map (·.2)).Pairwise fun a b => cmp a.1 b.1 < 0) :
    (∀ e ∈ A, cmp e.2.1 k < 0) ∧ ∀ e ∈ B, cmp k e.2.1 < 0 := by
  rw [List.pairwise_map, List.pairwise_append, List.pairwise_cons] at h
  exact ⟨fun e he => h.2.2 e he (i, k, v) (by simp), fun e he => h.2.1.1 e he⟩

theorem bounds_of_map {B B' : List (Id × K × V)} {k : K} (h : B'.map (·.2) = B.map (·.2)) (hB : ∀ e ∈ B, cmp k e.2.1 < 0) :
    ∀ e ∈ B', cmp k e.2.1 < 0 := by
  intro e he
  have h1 : e.2 ∈ B'.map (·.2) := List.mem_map_of_mem he
  rw [h, List.mem_map] at h1
  obtain ⟨e', he', h2⟩ := h1
  rw [← h2]; exact hB e' he'

theorem seekLoop_spec (hc : LawfulCmp cmp) (drop : K → V → Bool) : ∀ (n : Nat) (A B : List (Id × K × V)) (fuel : Nat) (s : Tree K V) (f : K → Option V),
    B.length = n → n < fuel → MapHist cmp s f → toList s = .ok (A ++ B) →
    ∃ s' f' xs, seekLoop cmp drop fuel (hd B) s = .ok (B.map (·.2), s') ∧ MapHist cmp s' f' ∧ toList s' = .ok xs ∧
      xs.map (·.2) = A.map (·.2) ++ (B.map (·.2)).filter (fun e => !drop e.1 e.2) := by
  intro n
  induction n with
  | zero =>
    intro A B fuel s f hB hf h ht
    obtain rfl := List.eq_nil_of_length_eq_zero hB
    obtain ⟨g, rfl⟩ : ∃ g, fuel = g + 1 := ⟨fuel - 1, by omega⟩
    exact ⟨s, f, A, rfl, h, by simpa using ht, by simp⟩
  | succ n ih =>
    intro A B fuel s f hB hf h ht
    obtain ⟨g, rfl⟩ : ∃ g, fuel = g + 1 := ⟨fuel - 1, by omega⟩
    cases B with
    | nil => simp at hB
    | cons e B =>
    obtain ⟨i, k, v⟩ := e
    have hl : B.length = n := by simpa using hB
    obtain ⟨e1, e2, e3, -⟩ := h.at_iter hc ht
    simp only [hd_cons, seekLoop, iterIsValid, Option.isSome_some, if_true, e1, e2, Res.ok_bind]
    by_cases hd : drop k v = true
    · obtain ⟨s1, f1, B', e5, h5, h6, h7⟩ := h.eraseAt hc ht
      have hb : lowerBound cmp s1 k = .ok (RB.hd B') := by
        obtain ⟨kvs, ⟨xs, g1, rfl⟩, g2, -⟩ := mapHist_inv hc h
        rw [g1.1.toList] at ht; cases ht
        obtain ⟨b1, b2⟩ := split_bounds g2
        obtain ⟨kvs, ⟨xs, g1, rfl⟩, -, -⟩ := mapHist_inv hc h5
        rw [g1.1.toList] at h6; cases h6
        exact lower_between hc g1 b1 (bounds_of_map h7 b2)
      obtain ⟨s', f', xs, e8, h8, h9, h10⟩ := ih A B' g s1 f1 (by rw [← hl, ← List.length_map (as := B') (·.2), h7, List.length_map]) (by omega) h5 h6
      simp only [hd, if_true, e5, Res.ok_bind, hb, e8]
      exact ⟨s', f', xs, by simp [h7], h8, h9, by simp [h10, hd, h7]⟩
    · obtain ⟨s', f', xs, e8, h8, h9, h10⟩ := ih (A ++ [(i, k, v)]) B g s f hl (by omega) h (by simpa using ht)
      simp only [hd, if_false, Res.ok_bind, e3, e8]
      exact ⟨s', f', xs, by simp, h8, h9, by simp [h10, hd]⟩

/-- One `Erase` of an element of a set, keeping track of the nodes in front. -/
theorem SetHist.eraseAt (hc : LawfulCmp cmp) {s : Tree K Bool} {m} (h : SetHist cmp s m) {A B i k v}
    (ht : toList s = .ok (A ++ (i, k, v) :: B)) :
    ∃ s' m' B', eraseOne cmp s k = .ok s' ∧ SetHist cmp s' m' ∧ toList s' = .ok (A ++ B') ∧ B'.map (·.2) = B.map (·.2) ∧
      lowerBound cmp s' k = .ok (hd B') := by
  obtain ⟨ks, ⟨kvs, ⟨xs, h1, rfl⟩, rfl, h2⟩, h3⟩ := setHist_inv hc h
  rw [h1.1.toList] at ht
  cases ht
  have h2 : ((A ++ (i, k, v) :: B).map (·.2)).Pairwise fun a b => cmp a.1 b.1 < 0 := by
    rw [StrictK, List.pairwise_map] at h2; exact h2
  obtain ⟨b1, b2⟩ := split_bounds h2
  obtain ⟨s', es', e, h4, h5, -, h6⟩ := h1.1.delete
  have hf : s.findNode cmp k = .ok (some i) := by
    rw [h1.1.findNode hc h1.2, List.find?_append]
    have : A.find? (fun e => decide (cmp k e.2.1 = 0)) = none := by
      rw [List.find?_eq_none]
      intro e he
      have := hc.swap e.2.1 k
      have := b1 e he
      simp; omega
    rw [this, Option.none_or, List.find?_cons_of_pos (by simp [hc.refl])]
    rfl
  have he : eraseOne cmp s k = .ok s' := by simp [eraseOne, hf, e]
  have hm : (es'.drop A.length).map (·.2) = B.map (·.2) := by
    rcases h6 with rfl | ⟨y, yk, yv, B', rfl, rfl⟩ <;> simp
  have hs : es' = A ++ es'.drop A.length := by
    rcases h6 with rfl | ⟨y, yk, yv, B', rfl, rfl⟩ <;> simp
  refine ⟨s', _, es'.drop A.length, he, h.erase he, by rw [h4.toList, ← hs], hm, ?_⟩
  refine lower_between (A := A) hc (by rw [← hs]; exact ⟨h4, h1.2.of_map (by rw [h5]; simp)⟩) b1 (bounds_of_map hm b2)

theorem setSeekLoop_spec (hc : LawfulCmp cmp) (drop : K → Bool) : ∀ (n : Nat) (A B : List (Id × K × Bool)) (fuel : Nat) (s : Tree K Bool) (m : K → Prop),
    B.length = n → n < fuel → SetHist cmp s m → toList s = .ok (A ++ B) →
    ∃ s' m' xs, setSeekLoop cmp drop fuel (hd B) s = .ok (B.map (·.2.1), s') ∧ SetHist cmp s' m' ∧ toList s' = .ok xs ∧
      xs.map (·.2) = A.map (·.2) ++ (B.map (·.2)).filter (fun e => !drop e.1) := by
  intro n
  induction n with
  | zero =>
    intro A B fuel s m hB hf h ht
    obtain rfl := List.eq_nil_of_length_eq_zero hB
    obtain ⟨g, rfl⟩ : ∃ g, fuel = g + 1 := ⟨fuel - 1, by omega⟩
    exact ⟨s, m, A, rfl, h, by simpa using ht, by simp⟩
  | succ n ih =>
    intro A B fuel s m hB hf h ht
    obtain ⟨g, rfl⟩ : ∃ g, fuel = g + 1 := ⟨fuel - 1, by omega⟩
    cases B with
    | nil => simp at hB
    | cons e B =>
    obtain ⟨i, k, v⟩ := e
    have hl : B.length = n := by simpa using hB
    have e13 : iterKey s (some i) = .ok k ∧ iterNext s (some i) = .ok (hd B) := by
      obtain ⟨ks, ⟨kvs, ⟨xs, h1, rfl⟩, rfl, h2⟩, h3⟩ := setHist_inv hc h
      rw [h1.1.toList] at ht
      cases ht
      obtain ⟨n, hn, rfl, rfl⟩ := h1.1.node (i := i) (k := k) (v := v) (by simp)
      exact ⟨by simp [iterKey, hn], h1.1.successor⟩
    simp only [hd_cons, setSeekLoop, iterIsValid, Option.isSome_some, if_true, e13.1, Res.ok_bind]
    by_cases hd : drop k = true
    · obtain ⟨s1, m1, B', e5, h5, h6, h7, hb⟩ := h.eraseAt hc ht
      obtain ⟨s', m', xs, e8, h8, h9, h10⟩ := ih A B' g s1 m1 (by rw [← hl, ← List.length_map (as := B') (·.2), h7, List.length_map]) (by omega) h5 h6
      simp only [hd, if_true, e5, Res.ok_bind, hb, e8]
      have h11 : B'.map (·.2.1) = B.map (·.2.1) := by
        have := congrArg (List.map Prod.fst) h7
        simpa [Function.comp_def] using this
      exact ⟨s', m', xs, by simp [h11], h8, h9, by simp [h10, hd, h7]⟩
    · obtain ⟨s', m', xs, e8, h8, h9, h10⟩ := ih (A ++ [(i, k, v)]) B g s m hl (by omega) h (by simpa using ht)
      simp only [hd, if_false, Res.ok_bind, e13.2, e8]
      exact ⟨s', m', xs, by simp, h8, h9, by simp [h10, hd]⟩

theorem iterList_of_toList {s : Tree K V} {kvs} (h : HoldsKV cmp s kvs) {xs} (e : toList s = .ok xs) : iterList s = .ok (xs.map (·.2)) := by
  have h0 := h.iterList
  obtain ⟨ys, h1, rfl⟩ := h
  rw [h1.1.toList] at e; cases e
  exact h0

theorem toList_of_iterList {s : Tree K V} {kvs} (h : HoldsKV cmp s kvs) {l} (e : iterList s = .ok l) : ∃ xs, toList s = .ok xs ∧ xs.map (·.2) = l := by
  have h0 := h.iterList
  rw [e] at h0; cases h0
  obtain ⟨ys, h1, rfl⟩ := h
  exact ⟨ys, h1.1.toList, rfl⟩

/-- **C90** Walking a map backwards from `Last`, stepping off an entry before erasing it through a copy of the iterator:
whatever the decision `drop`, every entry is looked at exactly once, from the last to the first, and what is left are
exactly the entries that were to be kept, in order; the result is an ordinary map again (so all of `C40`, `C41` holds of it). -/
theorem C90_map_backward (hc : LawfulCmp cmp) {s : Tree K V} {f : K → Option V} (h : MapHist cmp s f) {kvs : List (K × V)}
    (e : iterList s = .ok kvs) (drop : K → V → Bool) {fuel : Nat} (hf : kvs.length < fuel) :
    ∃ s' f', (last s >>= fun it => backLoop drop fuel it s) = .ok (kvs.reverse, s') ∧ MapHist cmp s' f' ∧
      iterList s' = .ok (kvs.filter fun e => !drop e.1 e.2) := by
  obtain ⟨kvs', h1, -, -⟩ := mapHist_inv hc h
  obtain ⟨xs, ht, rfl⟩ := toList_of_iterList h1 e
  have hl : last s = .ok (lst xs) := by
    obtain ⟨ys, h1, rfl⟩ := h1
    rw [h1.1.toList] at ht; cases ht
    exact h1.1.last
  obtain ⟨s', f', ys, e2, h2, h3, h4⟩ := backLoop_spec hc drop xs.length xs [] fuel s f rfl (by simpa using hf) h (by simpa using ht)
  obtain ⟨kvs', h5, -, -⟩ := mapHist_inv hc h2
  refine ⟨s', f', by rw [hl]; exact e2, h2, ?_⟩
  rw [iterList_of_toList h5 h3, h4]; simp

/-- **C90** Walking a map forwards and, after erasing the current entry, going on from `LowerBound` of its key: every
entry is looked at exactly once, in order, and exactly the entries to be kept are left. Missing from the full claim: the loop that
steps to the next entry before erasing (false, `C90_violated_forward`). -/
theorem C90_map_forward_partial (hc : LawfulCmp cmp) {s : Tree K V} {f : K → Option V} (h : MapHist cmp s f) {kvs : List (K × V)}
    (e : iterList s = .ok kvs) (drop : K → V → Bool) {fuel : Nat} (hf : kvs.length < fuel) :
    ∃ s' f', (first s >>= fun it => seekLoop cmp drop fuel it s) = .ok (kvs, s') ∧ MapHist cmp s' f' ∧
      iterList s' = .ok (kvs.filter fun e => !drop e.1 e.2) := by
  obtain ⟨kvs', h1, -, -⟩ := mapHist_inv hc h
  obtain ⟨xs, ht, rfl⟩ := toList_of_iterList h1 e
  have hl : first s = .ok (hd xs) := by
    obtain ⟨ys, h1, rfl⟩ := h1
    rw [h1.1.toList] at ht; cases ht
    exact h1.1.first
  obtain ⟨s', f', ys, e2, h2, h3, h4⟩ := seekLoop_spec hc drop xs.length [] xs fuel s f rfl (by simpa using hf) h ht
  obtain ⟨kvs', h5, -, -⟩ := mapHist_inv hc h2
  refine ⟨s', f', by rw [hl]; exact e2, h2, ?_⟩
  rw [iterList_of_toList h5 h3, h4]; simp

/-- **C90** The same for a set, with `Erase` of the current element and `LowerBound`. -/
theorem C90_set_forward (hc : LawfulCmp cmp) {s : Tree K Bool} {m : K → Prop} (h : SetHist cmp s m) {kvs : List (K × Bool)}
    (e : iterList s = .ok kvs) (drop : K → Bool) {fuel : Nat} (hf : kvs.length < fuel) :
    ∃ s' m', (first s >>= fun it => setSeekLoop cmp drop fuel it s) = .ok (kvs.map (·.1), s') ∧ SetHist cmp s' m' ∧
      iterList s' = .ok (kvs.filter fun e => !drop e.1) := by
  obtain ⟨ks, ⟨kvs', h1, -⟩, -⟩ := setHist_inv hc h
  obtain ⟨xs, ht, rfl⟩ := toList_of_iterList h1 e
  have hl : first s = .ok (hd xs) := by
    obtain ⟨ys, h1, rfl⟩ := h1
    rw [h1.1.toList] at ht; cases ht
    exact h1.1.first
  obtain ⟨s', m', ys, e2, h2, h3, h4⟩ := setSeekLoop_spec hc drop xs.length [] xs fuel s m rfl (by simpa using hf) h ht
  obtain ⟨ks', ⟨kvs', h5, -⟩, -⟩ := setHist_inv hc h2
  refine ⟨s', m', by rw [hl]; simpa [Function.comp_def] using e2, h2, ?_⟩
  rw [iterList_of_toList h5 h3, h4]; simp

/-- **C90 fails** for the loop that steps forward before erasing (`forwardLoop`). On the map {1, 2, 3, 4} built in the order
2, 1, 4, 3, dropping everything but 1 looks at every entry once but leaves 3 in the map, and `Size` then says 1. On the map
built in the order 2, 1, 3, 4 the same loop panics. -/
theorem C90_violated_forward :
    (∃ (s s' : Tree Int Int) (f : Int → Option Int), MapHist intCmp s f ∧ iterList s = .ok [(1, 10), (2, 20), (3, 30), (4, 40)] ∧
      (first s >>= fun it => forwardLoop (fun k _ => decide (k ≠ 1)) 9 it s) = .ok ([(1, 10), (2, 20), (3, 30), (4, 40)], s') ∧
      iterList s' = .ok [(1, 10), (3, 30)] ∧ size s' = 1) ∧
    ∃ (s : Tree Int Int) (f : Int → Option Int), MapHist intCmp s f ∧ iterList s = .ok [(1, 10), (2, 20), (3, 30), (4, 40)] ∧
      (first s >>= fun it => forwardLoop (fun k _ => decide (k ≠ 1)) 9 it s) = .panic := by
  have h0 : ∃ s s', buildMap [(2, 20), (1, 10), (4, 40), (3, 30)] Tree.new = .ok s ∧ iterList s = .ok [(1, 10), (2, 20), (3, 30), (4, 40)] ∧
      (first s >>= fun it => forwardLoop (fun k _ => decide (k ≠ 1)) 9 it s) = .ok ([(1, 10), (2, 20), (3, 30), (4, 40)], s') ∧
      iterList s' = .ok [(1, 10), (3, 30)] ∧ size s' = 1 := ⟨_, _, rfl, rfl, rfl, rfl, rfl⟩
  have h1 : ∃ s, buildMap [(2, 20), (1, 10), (3, 30), (4, 40)] Tree.new = .ok s ∧ iterList s = .ok [(1, 10), (2, 20), (3, 30), (4, 40)] ∧
      (first s >>= fun it => forwardLoop (fun k _ => decide (k ≠ 1)) 9 it s) = .panic := ⟨_, rfl, rfl, rfl⟩
  obtain ⟨s, s', e1, e2, e3, e4, e5⟩ := h0
  obtain ⟨u, g1, g2, g3⟩ := h1
  exact ⟨⟨s, s', _, buildMap_hist _ _ _ _ .new e1, e2, e3, e4, e5⟩, u, _, buildMap_hist _ _ _ _ .new g1, g2, g3⟩

/-- `C90_map_backward` and `C90_map_forward_partial` on the two maps of `C90_violated_forward`. -/
example : ∃ (s s' s'' : Tree Int Int), iterList s = .ok [(1, 10), (2, 20), (3, 30), (4, 40)] ∧
    (last s >>= fun it => backLoop (fun k _ => decide (k ≠ 1)) 9 it s) = .ok ([(4, 40), (3, 30), (2, 20), (1, 10)], s') ∧
    iterList s' = .ok [(1, 10)] ∧
    (first s >>= fun it => seekLoop intCmp (fun k _ => decide (k ≠ 1)) 9 it s) = .ok ([(1, 10), (2, 20), (3, 30), (4, 40)], s'') ∧
    iterList s'' = .ok [(1, 10)] := by
  obtain ⟨s, f, h, e, -⟩ := C90_violated_forward.2
  obtain ⟨s', f', e1, -, e2⟩ := C90_map_backward intCmp_lawful h e (fun k _ => decide (k ≠ 1)) (fuel := 9) (by simp)
  obtain ⟨s'', f'', e3, -, e4⟩ := C90_map_forward_partial intCmp_lawful h e (fun k _ => decide (k ≠ 1)) (fuel := 9) (by simp)
  exact ⟨s, s', s'', e, e1, e2, e3, e4⟩

/-- `C90_set_forward`: dropping the odd elements of {1, 2, 3}. -/
example : ∃ s s' : Tree Int Bool, iterList s = .ok [(1, true), (2, true), (3, true)] ∧
    (first s >>= fun it => setSeekLoop intCmp (fun k => decide (k % 2 = 1)) 9 it s) = .ok ([1, 2, 3], s') ∧ iterList s' = .ok [(2, true)] := by
  have h0 : ∃ s1 s2 s3 : Tree Int Bool, setInsert intCmp Tree.new 2 = .ok s1 ∧ setInsert intCmp s1 3 = .ok s2 ∧ setInsert intCmp s2 1 = .ok s3 ∧
      iterList s3 = .ok [(1, true), (2, true), (3, true)] := ⟨_, _, _, rfl, rfl, rfl, rfl⟩
  obtain ⟨s1, s2, s3, e1, e2, e3, e4⟩ := h0
  obtain ⟨s', m', e5, -, e6⟩ := C90_set_forward intCmp_lawful (((SetHist.new.insert e1).insert e2).insert e3) e4 (fun k => decide (k % 2 = 1)) (fuel := 9) (by simp)
  exact ⟨s3, s', e4, e5, e6⟩

end GoSTL.TreeMap
