import Verif.TreeMap.Iter
import Verif.Comparator.Model
/-!
# C71: maps and sets with a comparator that is not an order

The comparator is an arbitrary function of two keys.
-/
namespace GoSTL.RB
open T
variable {K V : Type}

/-- What a search by an arbitrary test returns: nothing, or a node of the tree that passes the test. -/
def Hits (es : List (Id × K × V)) (p : K → Prop) : Option Id → Prop
  | none => True
  | some i => ∃ k v, (i, k, v) ∈ es ∧ p k

theorem Hits.mono {es es' : List (Id × K × V)} {p : K → Prop} {o : Option Id} (h : Hits es p o) (hs : ∀ e ∈ es, e ∈ es') :
    Hits es' p o := by
  cases o with
  | none => trivial
  | some i =>
    obtain ⟨k, v, hm, hp⟩ := h
    exact ⟨k, v, hs _ hm, hp⟩

theorem lowerBoundFrom_any (cmp : K → K → Int) (s : Tree K V) (key : K) (fuel : Nat) :
    ∀ (c : Ctx K V) (t : T K V), t.height < fuel → Reps s (plug c t) →
    ∃ o, s.lowerBoundFrom cmp key fuel t.rootId = .ok o ∧ Hits t.entries (fun k => cmp key k ≤ 0) o := by
  induction fuel with
  | zero => intro c t h; omega
  | succ fuel ih =>
    intro c t hh hs
    cases t with
    | leaf => exact ⟨none, by simp [Tree.lowerBoundFrom], trivial⟩
    | node l i b k v r =>
      simp only [T.height] at hh
      obtain ⟨ol, il, hl⟩ := ih (.L i b k v r :: c) l (by omega) hs
      obtain ⟨or, ir, hr⟩ := ih (.R l i b k v :: c) r (by omega) hs
      simp only [Tree.lowerBoundFrom, rootId_node, hs.node_eq, Res.ok_bind, T.entries]
      by_cases hk : cmp key k ≤ 0
      · simp only [hk, if_true, il, Res.ok_bind]
        have here : Hits (l.entries ++ (i, k, v) :: r.entries) (fun k => cmp key k ≤ 0) (some i) :=
          ⟨k, v, by simp, hk⟩
        cases ol with
        | none => exact ⟨some i, rfl, here⟩
        | some j =>
          have hl' := hl
          obtain ⟨k', v', hm, hp⟩ := hl
          obtain ⟨n, h1, h2, h3⟩ := Reps.lookup_entry hs (i := j) (k := k') (v := v') (by
            rw [plug_entries]; simp [hm])
          simp only [h1, Res.ok_bind]
          split
          · exact ⟨some j, rfl, hl'.mono (by intro e he; simp [he])⟩
          · exact ⟨some i, rfl, here⟩
      · simp only [hk, if_false]
        exact ⟨or, ir, hr.mono (by intro e he; simp [he])⟩

theorem upperBoundFrom_any (cmp : K → K → Int) (s : Tree K V) (key : K) (fuel : Nat) :
    ∀ (c : Ctx K V) (t : T K V), t.height < fuel → Reps s (plug c t) →
    ∃ o, s.upperBoundFrom cmp key fuel t.rootId = .ok o ∧ Hits t.entries (fun k => cmp key k < 0) o := by
  induction fuel with
  | zero => intro c t h; omega
  | succ fuel ih =>
    intro c t hh hs
    cases t with
    | leaf => exact ⟨none, by simp [Tree.upperBoundFrom], trivial⟩
    | node l i b k v r =>
      simp only [T.height] at hh
      obtain ⟨ol, il, hl⟩ := ih (.L i b k v r :: c) l (by omega) hs
      obtain ⟨or, ir, hr⟩ := ih (.R l i b k v :: c) r (by omega) hs
      simp only [Tree.upperBoundFrom, rootId_node, hs.node_eq, Res.ok_bind, T.entries]
      by_cases hk : cmp key k ≥ 0
      · simp only [hk, if_true]
        exact ⟨or, ir, hr.mono (by intro e he; simp [he])⟩
      · simp only [hk, if_false, il, Res.ok_bind]
        have here : Hits (l.entries ++ (i, k, v) :: r.entries) (fun k => cmp key k < 0) (some i) :=
          ⟨k, v, by simp, by omega⟩
        cases ol with
        | none => exact ⟨some i, rfl, here⟩
        | some j =>
          have hl' := hl
          obtain ⟨k', v', hm, hp⟩ := hl
          obtain ⟨n, h1, h2, h3⟩ := Reps.lookup_entry hs (i := j) (k := k') (v := v') (by
            rw [plug_entries]; simp [hm])
          simp only [h1, Res.ok_bind]
          split
          · exact ⟨some j, rfl, hl'.mono (by intro e he; simp [he])⟩
          · exact ⟨some i, rfl, here⟩

theorem Holds.lower_any (cmp : K → K → Int) {s : Tree K V} {es} (h : Holds s es) (key : K) :
    ∃ o, s.findLowerBoundNode cmp key = .ok o ∧ Hits es (fun k => cmp key k ≤ 0) o := by
  obtain ⟨t, h1, h2, rfl, h4⟩ := h
  have := h1.length_le; have := t.height_le
  rw [Tree.findLowerBoundNode, h1.root]
  exact lowerBoundFrom_any cmp s key s.fuel [] t (by simp only [Tree.fuel]; omega) h1

theorem Holds.upper_any (cmp : K → K → Int) {s : Tree K V} {es} (h : Holds s es) (key : K) :
    ∃ o, s.findUpperBoundNode cmp key = .ok o ∧ Hits es (fun k => cmp key k < 0) o := by
  obtain ⟨t, h1, h2, rfl, h4⟩ := h
  have := h1.length_le; have := t.height_le
  rw [Tree.findUpperBoundNode, h1.root]
  exact upperBoundFrom_any cmp s key s.fuel [] t (by simp only [Tree.fuel]; omega) h1

theorem Holds.findNode_any (cmp : K → K → Int) {s : Tree K V} {es} (h : Holds s es) (key : K) :
    ∃ o, s.findNode cmp key = .ok o ∧ Hits es (fun k => cmp key k ≤ 0 ∧ cmp k key = 0) o := by
  obtain ⟨o, e, hh⟩ := h.lower_any cmp key
  unfold Tree.findNode
  rw [e, Res.ok_bind]
  cases o with
  | none => exact ⟨none, rfl, trivial⟩
  | some i =>
    obtain ⟨k, v, hm, hp⟩ := hh
    obtain ⟨n, h1, h2, h3⟩ := h.node hm
    simp only [h1, Res.ok_bind]
    split
    · next hz => exact ⟨some i, rfl, k, v, hm, hp, by rw [← h2]; exact hz⟩
    · exact ⟨none, rfl, trivial⟩

theorem Holds.insert_split (cmp : K → K → Int) {s : Tree K V} {es} (h : Holds s es) (k : K) (v : V) :
    ∃ s' A B i, s.insert cmp k v = .ok s' ∧ es = A ++ B ∧ Holds s' (A ++ (i, k, v) :: B) := by
  obtain ⟨t, h1, h2, rfl, h4⟩ := h
  obtain ⟨s', t', A, B, e, g1, g2, g3, g4, g5, g6, -⟩ := insert_spec cmp h1 h2 k v
  exact ⟨s', A, B, s.next, e, g3, t', g1, g2, g4, by rw [g5, h4, g3]; simp; omega⟩

end GoSTL.RB

namespace GoSTL.TreeMap
open GoSTL.RB
variable {K V : Type}

/-! ## The calls and what they may do -/

/-- The updates of `Map`, `MultiMap`, `Set` and `MultiSet` (all are trees of pairs). -/
inductive TCall (K V : Type) where
  /-- `Map.Insert` -/
  | insertMap (k : K) (v : V)
  /-- `MultiMap.Insert`, `MultiSet.Insert` -/
  | insertMulti (k : K) (v : V)
  /-- `Map.Erase`, `Set.Erase`, `MultiSet.Erase` -/
  | erase (k : K)
  /-- `MultiMap.Erase`, `MultiSet.EraseAll` -/
  | eraseAll (k : K)
  /-- `Clear` -/
  | clear

/-- One update (see the cited functions). -/
def callTree (cmp : K → K → Int) (t : Tree K V) : TCall K V → Res (Tree K V)
  | .insertMap k v => mapInsert cmp t k v
  | .insertMulti k v => multiMapInsert cmp t k v
  | .erase k => eraseOne cmp t k
  | .eraseAll k => TreeMap.eraseAll cmp t k
  | .clear => .ok (TreeMap.clear t)

/-- Taking out entries the comparator calls equal to `k`, one after the other. -/
inductive TakesOut (cmp : K → K → Int) (k : K) : List (K × V) → List (K × V) → Prop
  | done {L} : TakesOut cmp k L L
  | one {A k' v B L} : cmp k' k = 0 → TakesOut cmp k (A ++ B) L → TakesOut cmp k (A ++ (k', v) :: B) L

/-- What an update may do to the sequence of entries seen by iteration, whatever the comparator. -/
inductive MayDo (cmp : K → K → Int) : TCall K V → List (K × V) → List (K × V) → Prop
  | put {k v A B} : MayDo cmp (.insertMap k v) (A ++ B) (A ++ (k, v) :: B)
  | overwrite {k v A k' v' B} : cmp k' k = 0 → MayDo cmp (.insertMap k v) (A ++ (k', v') :: B) (A ++ (k', v) :: B)
  | putMulti {k v A B} : MayDo cmp (.insertMulti k v) (A ++ B) (A ++ (k, v) :: B)
  | miss {k L} : MayDo cmp (.erase k) L L
  | hit {k A k' v B} : cmp k' k = 0 → MayDo cmp (.erase k) (A ++ (k', v) :: B) (A ++ B)
  | eraseAll {k L L'} : TakesOut cmp k L L' → MayDo cmp (.eraseAll k) L L'
  | clear {L} : MayDo cmp .clear L []

/-- A history of updates on a new tree. -/
def callsTree (cmp : K → K → Int) : List (TCall K V) → Tree K V → Res (Tree K V)
  | [], t => .ok t
  | c :: cs, t => do
    let t ← callTree cmp t c
    callsTree cmp cs t

/-- What a history of updates may do. -/
inductive MayDoAll (cmp : K → K → Int) : List (TCall K V) → List (K × V) → List (K × V) → Prop
  | nil {L} : MayDoAll cmp [] L L
  | cons {c cs L L' L''} : MayDo cmp c L L' → MayDoAll cmp cs L' L'' → MayDoAll cmp (c :: cs) L L''

/-- The pairs of a tree that holds the given entries. -/
def HoldsAny (s : Tree K V) (L : List (K × V)) : Prop := ∃ es, Holds s es ∧ es.map (·.2) = L

theorem HoldsAny.kv {s : Tree K V} {L : List (K × V)} (h : HoldsAny s L) : HoldsKV (fun _ _ => 0) s L := by
  obtain ⟨es, h1, h2⟩ := h
  exact ⟨es, ⟨h1, by simp [SortedE, List.pairwise_iff_getElem]⟩, h2⟩

theorem findNode_cases (cmp : K → K → Int) {s : Tree K V} {es} (h : Holds s es) (key : K) :
    s.findNode cmp key = .ok none ∨ ∃ A i k v B, es = A ++ (i, k, v) :: B ∧ s.findNode cmp key = .ok (some i) ∧
      cmp key k ≤ 0 ∧ cmp k key = 0 := by
  obtain ⟨o, e, hh⟩ := h.findNode_any cmp key
  cases o with
  | none => exact .inl e
  | some i =>
    obtain ⟨k, v, hm, hp, hz⟩ := hh
    obtain ⟨A, B, rfl⟩ := List.append_of_mem hm
    exact .inr ⟨A, i, k, v, B, rfl, e, hp, hz⟩

theorem eraseAllLoop_any (cmp : K → K → Int) (key : K) : ∀ (f : Nat) (s : Tree K V) (es : List (Id × K × V)), Holds s es →
    es.length < f → ∃ s' L, eraseAllLoop cmp key f s = .ok s' ∧ HoldsAny s' L ∧ TakesOut cmp key (es.map (·.2)) L ∧
      s'.findNode cmp key = .ok none := by
  intro f
  induction f with
  | zero => intro s es _ hl; omega
  | succ f ih =>
    intro s es h hl
    rcases findNode_cases cmp h key with e | ⟨A, i, k, v, B, rfl, e, hp, hz⟩
    · exact ⟨s, _, by simp [eraseAllLoop, e], ⟨es, h, rfl⟩, .done, e⟩
    · obtain ⟨s', es', e', h', hm, -⟩ := h.delete
      have hlen : es'.length = (A ++ B).length := by
        have := congrArg List.length hm; simpa using this
      obtain ⟨s'', L, e2, h2, t2, n2⟩ := ih s' es' h' (by simp at hl hlen ⊢; omega)
      refine ⟨s'', L, by simp [eraseAllLoop, e, e', e2], h2, ?_, n2⟩
      rw [hm] at t2
      simp only [List.map_append, List.map_cons] at t2 ⊢
      exact .one hz t2

theorem callTree_any (cmp : K → K → Int) {s : Tree K V} {L} (h : HoldsAny s L) (c : TCall K V) :
    ∃ s' L', callTree cmp s c = .ok s' ∧ HoldsAny s' L' ∧ MayDo cmp c L L' := by
  obtain ⟨es, h, rfl⟩ := h
  cases c with
  | insertMap k v =>
    rcases findNode_cases cmp h k with e | ⟨A, i, k', v', B, rfl, e, hp, hz⟩
    · obtain ⟨s', A, B, i, e', rfl, h'⟩ := h.insert_split cmp k v
      refine ⟨s', _, by simp [callTree, mapInsert, e, e'], ⟨_, h', rfl⟩, ?_⟩
      simp only [List.map_append, List.map_cons]; exact .put
    · refine ⟨_, _, by simp [callTree, mapInsert, e], ⟨_, h.setValue v, rfl⟩, ?_⟩
      simp only [List.map_append, List.map_cons]; exact .overwrite hz
  | insertMulti k v =>
    obtain ⟨s', A, B, i, e', rfl, h'⟩ := h.insert_split cmp k v
    refine ⟨s', _, by simp [callTree, multiMapInsert, e'], ⟨_, h', rfl⟩, ?_⟩
    simp only [List.map_append, List.map_cons]; exact .putMulti
  | erase k =>
    rcases findNode_cases cmp h k with e | ⟨A, i, k', v', B, rfl, e, hp, hz⟩
    · exact ⟨s, _, by simp [callTree, eraseOne, e], ⟨_, h, rfl⟩, .miss⟩
    · obtain ⟨s', es', e', h', hm, -⟩ := h.delete
      refine ⟨s', _, by simp [callTree, eraseOne, e, e'], ⟨_, h', rfl⟩, ?_⟩
      rw [hm]
      simp only [List.map_append, List.map_cons]; exact .hit hz
  | eraseAll k =>
    obtain ⟨s', L, e, h', t, -⟩ := eraseAllLoop_any cmp k s.fuel s es h (by
      have := h.length_le; simp only [Tree.fuel]; omega)
    exact ⟨s', L, e, h', .eraseAll t⟩
  | clear => exact ⟨_, _, rfl, ⟨[], h.clear, rfl⟩, .clear⟩

theorem callsTree_any (cmp : K → K → Int) (cs : List (TCall K V)) : ∀ {s : Tree K V} {L}, HoldsAny s L →
    ∃ s' L', callsTree cmp cs s = .ok s' ∧ HoldsAny s' L' ∧ MayDoAll cmp cs L L' := by
  induction cs with
  | nil => intro s L h; exact ⟨s, L, rfl, h, .nil⟩
  | cons c cs ih =>
    intro s L h
    obtain ⟨s1, L1, e1, h1, d1⟩ := callTree_any cmp h c
    obtain ⟨s2, L2, e2, h2, d2⟩ := ih h1
    exact ⟨s2, L2, by simp [callsTree, e1, e2], h2, .cons d1 d2⟩

theorem callsTree_snoc (cmp : K → K → Int) (c : TCall K V) : ∀ (cs : List (TCall K V)) (t : Tree K V),
    callsTree cmp (cs ++ [c]) t = (callsTree cmp cs t).bind fun t => callTree cmp t c := by
  intro cs
  induction cs with
  | nil =>
    intro t
    simp only [callsTree, List.nil_append, Res.bind]
    cases callTree cmp t c <;> rfl
  | cons c' cs ih =>
    intro t
    simp only [callsTree, List.cons_append]
    cases callTree cmp t c' with
    | ok t => simp only [Res.ok_bind]; exact ih t
    | panic => rfl
    | outOfFuel => rfl

/-- Where an iterator returned by a search stands in a container whose entries are `L`: past the end, or at an entry whose
key passes the test. -/
def StandsAt (s : Tree K V) (L : List (K × V)) (it : Res (Option Id)) (p : K → Prop) : Prop :=
  it = .ok none ∨ ∃ i A k v B, it = .ok (some i) ∧ L = A ++ (k, v) :: B ∧ p k ∧ iterKey s (some i) = .ok k ∧
    iterValue s (some i) = .ok v ∧ iterFrom s it = .ok ((k, v) :: B)

theorem standsAt_of_hits {s : Tree K V} {es} (h : Holds s es) {it : Res (Option Id)} {p : K → Prop}
    (hh : ∃ o, it = .ok o ∧ Hits es p o) : StandsAt s (es.map (·.2)) it p := by
  obtain ⟨o, rfl, hh⟩ := hh
  cases o with
  | none => exact .inl rfl
  | some i =>
    obtain ⟨k, v, hm, hp⟩ := hh
    obtain ⟨n, h1, h2, h3⟩ := h.node hm
    obtain ⟨A, B, rfl⟩ := List.append_of_mem hm
    refine .inr ⟨i, A.map (·.2), k, v, B.map (·.2), rfl, by simp, hp, by simp [iterKey, iterIsValid, h1, h2], by
      simp [iterValue, iterIsValid, h1, h3], ?_⟩
    have := HoldsS.walk_from (cmp := fun _ _ => 0) (A := A) (B := (i, k, v) :: B) ⟨h, by
      simp [SortedE, List.pairwise_iff_getElem]⟩
    simpa [iterFrom] using this

/-- **C71** With any comparator at all, every history of updates on a new map or set ends without panic; iteration then
gives each entry once, forwards and backwards, `Size` counts them, an `Insert` has added one entry or overwritten the
value of one the comparator calls equal, an `Erase` has removed only entries the comparator calls equal, and no entry
was lost or changed otherwise. -/
theorem C71_tree_updates (cmp : K → K → Int) (cs : List (TCall K V)) :
    ∃ s L, callsTree cmp cs Tree.new = .ok s ∧ MayDoAll cmp cs [] L ∧ iterList s = .ok L ∧ iterListBack s = .ok L.reverse ∧
      size s = L.length ∧ s.isRbTree = .ok true := by
  obtain ⟨s, L, e, h, d⟩ := callsTree_any (V := V) cmp cs (s := Tree.new) ⟨[], Holds.new, rfl⟩
  have hr : s.isRbTree = .ok true := by obtain ⟨es, h1, -⟩ := h; exact h1.isRbTree
  exact ⟨s, L, e, d, h.kv.iterList, h.kv.iterListBack, h.kv.size, hr⟩

/-- **C71** With any comparator at all, after every history the lookups end without panic, and what they return is an entry
of the container that passes their test. -/
theorem C71_tree_lookups (cmp : K → K → Int) (cs : List (TCall K V)) {s : Tree K V} {L : List (K × V)}
    (hs : callsTree cmp cs Tree.new = .ok s) (hL : iterList s = .ok L) (q : K) :
    StandsAt s L (find cmp s q) (fun k => cmp k q = 0) ∧ StandsAt s L (lowerBound cmp s q) (fun k => cmp q k ≤ 0) ∧
      StandsAt s L (upperBound cmp s q) (fun k => cmp q k < 0) ∧
      (get cmp s q = .ok none ∨ ∃ e ∈ L, cmp e.1 q = 0 ∧ get cmp s q = .ok (some e.2)) ∧
      (∃ b, contains cmp s q = .ok b ∧ (b = true → ∃ e ∈ L, cmp e.1 q = 0)) := by
  obtain ⟨s', L', e, h, d⟩ := callsTree_any (V := V) cmp cs (s := Tree.new) ⟨[], Holds.new, rfl⟩
  rw [hs] at e; cases e
  have := h.kv.iterList
  rw [hL] at this; cases this
  obtain ⟨es, h1, rfl⟩ := h
  refine ⟨standsAt_of_hits h1 ?_, standsAt_of_hits h1 (h1.lower_any cmp q), standsAt_of_hits h1 (h1.upper_any cmp q), ?_, ?_⟩
  · obtain ⟨o, e, hh⟩ := h1.findNode_any cmp q
    refine ⟨o, e, ?_⟩
    cases o with
    | none => trivial
    | some i => obtain ⟨k, v, hm, hp⟩ := hh; exact ⟨k, v, hm, hp.2⟩
  · rcases findNode_cases cmp h1 q with e | ⟨A, i, k, v, B, rfl, e, hp, hz⟩
    · left; simp [get, e]
    · right
      obtain ⟨n, g1, g2, g3⟩ := h1.node (i := i) (k := k) (v := v) (by simp)
      exact ⟨(k, v), by simp, hz, by simp [get, e, g1, g3]⟩
  · rcases findNode_cases cmp h1 q with e | ⟨A, i, k, v, B, rfl, e, hp, hz⟩
    · exact ⟨false, by simp [contains, Tree.find, e], by simp⟩
    · obtain ⟨n, g1, g2, g3⟩ := h1.node (i := i) (k := k) (v := v) (by simp)
      exact ⟨true, by simp [contains, Tree.find, e, g1], fun _ => ⟨(k, v), by simp, hz⟩⟩

/-- **C71** With any comparator at all, `MultiMap.Erase` and `MultiSet.EraseAll` leave no entry that `Find` with the same key
would still find. -/
theorem C71_eraseAll_then_find (cmp : K → K → Int) (cs : List (TCall K V)) (k : K) {s : Tree K V}
    (hs : callsTree cmp (cs ++ [.eraseAll k]) Tree.new = .ok s) : contains cmp s k = .ok false := by
  obtain ⟨s', L', e, ⟨es, h, -⟩, d⟩ := callsTree_any (V := V) cmp cs (s := Tree.new) ⟨[], Holds.new, rfl⟩
  rw [callsTree_snoc, e] at hs
  obtain ⟨s'', L, e2, -, -, n⟩ := eraseAllLoop_any cmp k s'.fuel s' es h (by
    have := h.length_le; simp only [Tree.fuel]; omega)
  have : callTree cmp s' (.eraseAll k) = .ok s := hs
  simp only [callTree, TreeMap.eraseAll, e2] at this
  cases this
  simp [contains, Tree.find, n]

/-- **C71** With any comparator at all, `Set.Insert` ends without panic and either changes nothing, an element the
comparator calls equal being present, or adds just the element. -/
theorem C71_set_insert (cmp : K → K → Int) (cs : List (TCall K Bool)) {s : Tree K Bool} {L : List (K × Bool)}
    (hs : callsTree cmp cs Tree.new = .ok s) (hL : iterList s = .ok L) (x : K) :
    (setInsert cmp s x = .ok s ∧ ∃ e ∈ L, cmp e.1 x = 0) ∨
    ∃ s' A B, setInsert cmp s x = .ok s' ∧ callsTree cmp (cs ++ [.insertMulti x true]) Tree.new = .ok s' ∧ L = A ++ B ∧
      iterList s' = .ok (A ++ (x, true) :: B) := by
  obtain ⟨s', L', e, h, d⟩ := callsTree_any (V := Bool) cmp cs (s := Tree.new) ⟨[], Holds.new, rfl⟩
  rw [hs] at e; cases e
  have := h.kv.iterList
  rw [hL] at this; cases this
  obtain ⟨es, h1, rfl⟩ := h
  rcases findNode_cases cmp h1 x with e | ⟨A, i, k, v, B, rfl, e, hp, hz⟩
  · right
    obtain ⟨s', A, B, i, e', rfl, h'⟩ := h1.insert_split cmp x true
    refine ⟨s', A.map (·.2), B.map (·.2), by simp [setInsert, e, e'], ?_, by simp, ?_⟩
    · rw [callsTree_snoc, hs]
      exact e'
    · have hk : HoldsAny s' ((A ++ (i, x, true) :: B).map (·.2)) := ⟨_, h', rfl⟩
      simpa using hk.kv.iterList
  · left
    exact ⟨by simp [setInsert, e], (k, v), by simp, hz⟩

/-! ## What is lost: NaN keys -/

open GoSTL.Comparator

/-- 1.0, 2.0 and a NaN, as bit patterns of float64. -/
def one64 : Nat := 0x3ff0000000000000
/-- 2.0 -/
def two64 : Nat := 0x4000000000000000
/-- A NaN. -/
def nan64 : Nat := 0x7ff8000000000000

/-- **C71** The price of a comparator that is no order: in a map with float64 keys and the generic comparator
(`comparator.OrderedTypeCmp`), after inserting 1.0, NaN and 2.0 the key 1.0 is still there on iteration, but `Get`,
`Contains` and `Erase` no longer find it, and inserting it again gives the map two entries with that key. -/
theorem C71_map_nan_hides_keys : ∃ s s' : Tree Nat Int,
    callsTree (orderedFloatCmp f64) [.insertMap one64 10, .insertMap nan64 20, .insertMap two64 30] Tree.new = .ok s ∧
    iterList s = .ok [(one64, 10), (nan64, 20), (two64, 30)] ∧ get (orderedFloatCmp f64) s one64 = .ok none ∧
    eraseOne (orderedFloatCmp f64) s one64 = .ok s ∧
    callTree (orderedFloatCmp f64) s (.insertMap one64 40) = .ok s' ∧
    iterList s' = .ok [(one64, 10), (nan64, 20), (one64, 40), (two64, 30)] :=
  ⟨_, _, rfl, rfl, rfl, rfl, rfl, rfl⟩

/-! ## Non-vacuity -/

example : ∃ s L, callsTree (fun _ _ : Int => -1) [.insertMap 1 1, .insertMulti 2 2, .insertMap 1 3, .erase 2, .eraseAll 1] Tree.new = .ok s ∧
    iterList s = .ok L ∧ L = [((1 : Int), (3 : Int)), (2, 2), (1, 1)] := ⟨_, _, rfl, rfl, rfl⟩
example : ∃ s L, callsTree (fun _ _ : Int => 0) [.insertMap 1 1, .insertMulti 2 2, .insertMap 7 3, .erase 2] Tree.new = .ok s ∧
    iterList s = .ok L ∧ L = [((2 : Int), (2 : Int))] := ⟨_, _, rfl, rfl, rfl⟩

/-- `C71_tree_updates`, `C71_tree_lookups`, `C71_eraseAll_then_find` and `C71_set_insert` for the comparator that answers `-1` to everything. -/
example := C71_tree_updates (fun _ _ : Int => -1) [.insertMap 1 1, .insertMulti 2 2, .insertMap (V := Int) 1 3, .erase 2, .eraseAll 1]
/-- `C71_tree_lookups`. -/
example : ∃ s : Tree Int Int, iterList s = .ok [(1, 3), (2, 2), (1, 1)] ∧ StandsAt s [(1, 3), (2, 2), (1, 1)] (find (fun _ _ => -1) s 2) (fun _ => (-1 : Int) = 0) := by
  have h0 : ∃ s, callsTree (fun _ _ : Int => -1) [.insertMap 1 1, .insertMulti 2 2, .insertMap 1 3] Tree.new = .ok s ∧
    iterList s = .ok [((1 : Int), (3 : Int)), (2, 2), (1, 1)] := ⟨_, rfl, rfl⟩
  obtain ⟨s, e, e1⟩ := h0
  exact ⟨s, e1, (C71_tree_lookups (fun _ _ : Int => -1) _ e e1 2).1⟩
/-- `C71_eraseAll_then_find`, for the comparator that answers `0` to everything. -/
example : ∃ s : Tree Int Int, callsTree (fun _ _ => 0) ([.insertMulti 1 1, .insertMulti 2 2] ++ [.eraseAll 7]) Tree.new = .ok s ∧ contains (fun _ _ => 0) s 7 = .ok false := by
  have h0 : ∃ s : Tree Int Int, callsTree (fun _ _ => 0) ([.insertMulti 1 1, .insertMulti 2 2] ++ [.eraseAll 7]) Tree.new = .ok s := ⟨_, rfl⟩
  obtain ⟨s, e⟩ := h0
  exact ⟨s, e, C71_eraseAll_then_find _ _ _ e⟩
/-- `C71_set_insert`: with that comparator `Insert` finds 1 again only if it meets an equivalent element. -/
example : ∃ s : Tree Int Bool, iterList s = .ok [(2, true), (1, true)] ∧ ∃ s' A B, setInsert (fun _ _ => -1) s 1 = .ok s' ∧ [((2 : Int), true), (1, true)] = A ++ B ∧
    iterList s' = .ok (A ++ (1, true) :: B) := by
  have h0 : ∃ s : Tree Int Bool, callsTree (fun _ _ : Int => -1) [.insertMulti 1 true, .insertMulti 2 true] Tree.new = .ok s ∧
    iterList s = .ok [((2 : Int), true), (1, true)] := ⟨_, rfl, rfl⟩
  obtain ⟨s, e, e1⟩ := h0
  rcases C71_set_insert (fun _ _ : Int => -1) _ e e1 1 with ⟨-, x, -, hx⟩ | ⟨s', A, B, h1, -, h2, h3⟩
  · exact absurd hx (by decide)
  · exact ⟨s, e1, s', A, B, h1, h2, h3⟩

end GoSTL.TreeMap
