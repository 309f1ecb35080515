import Verif.Deque.Ring
import Mathlib.Data.List.Nodup
/-!
# Deque states and the list of segments they hold
-/
namespace GoSTL.Deque
variable {T : Type} {cfg : Cfg T}

/-- The heap holds a segment with contents `l` at `id`. -/
def Holds (K : Nat) (heap : List (Seg T)) (id : Nat) (l : List T) : Prop := ∃ s, heap[id]? = some s ∧ SegRep K s l

/-- The state `d` holds the segments `U` (pointers) with contents `L`. -/
structure Rep (cfg : Cfg T) (d : Deq T) (U : List Nat) (L : List (List T)) : Prop where
  ring : RingOf d U
  len : U.length = L.length
  seg : ∀ (i id : Nat) (l : List T), U[i]? = some id → L[i]? = some l → Holds cfg.segCap d.heap id l
  pool : ∀ id, id ∈ d.pool → Holds cfg.segCap d.heap id ([] : List T)
  nodup : (U ++ d.pool).Nodup

theorem Holds.lt {K : Nat} {heap : List (Seg T)} {id : Nat} {l : List T} (h : Holds K heap id l) : id < heap.length := by
  obtain ⟨s, h, -⟩ := h
  exact (List.getElem?_eq_some_iff.1 h).1

theorem Holds.set_ne {K : Nat} {heap : List (Seg T)} {id k : Nat} {l : List T} (h : Holds K heap id l) (hne : k ≠ id) (s : Seg T) :
    Holds K (heap.set k s) id l := by
  obtain ⟨t, h1, h2⟩ := h
  exact ⟨t, by rw [List.getElem?_set_ne hne]; exact h1, h2⟩

theorem Holds.append {K : Nat} {heap : List (Seg T)} {id : Nat} {l : List T} (h : Holds K heap id l) (s : Seg T) :
    Holds K (heap ++ [s]) id l := by
  have hl := h.lt
  obtain ⟨t, h1, h2⟩ := h
  exact ⟨t, by rw [List.getElem?_append_left hl]; exact h1, h2⟩

theorem Holds.load {d : Deq T} {id : Nat} {l : List T} {K : Nat} (h : Holds K d.heap id l) : ∃ s, load d id = .ok s ∧ SegRep K s l := by
  obtain ⟨s, h1, h2⟩ := h
  exact ⟨s, by rw [Deque.load, idx, h1]; rfl, h2⟩

namespace Rep
variable {d : Deq T} {U : List Nat} {L : List (List T)}

theorem getL (h : Rep cfg d U L) {i id : Nat} (hi : U[i]? = some id) : ∃ l, L[i]? = some l := by
  have := (List.getElem?_eq_some_iff.1 hi).1
  have hl := h.len
  exact ⟨L[i], by simp⟩

theorem getU (h : Rep cfg d U L) {i : Nat} {l : List T} (hi : L[i]? = some l) : ∃ id, U[i]? = some id := by
  have := (List.getElem?_eq_some_iff.1 hi).1
  have hl := h.len
  exact ⟨U[i], by simp⟩

/-- Loading segment number `i`. -/
theorem load (h : Rep cfg d U L) {i id : Nat} {l : List T} (hi : U[i]? = some id) (hl : L[i]? = some l) :
    ∃ s, load d id = .ok s ∧ SegRep cfg.segCap s l := (h.seg i id l hi hl).load

theorem inj (h : Rep cfg d U L) {i j id : Nat} (hi : U[i]? = some id) (hj : U[j]? = some id) : i = j := by
  have hn := (List.nodup_append.1 h.nodup).1
  obtain ⟨h1, e1⟩ := List.getElem?_eq_some_iff.1 hi
  obtain ⟨h2, e2⟩ := List.getElem?_eq_some_iff.1 hj
  exact (List.Nodup.getElem_inj_iff hn).1 (e1.trans e2.symm)

theorem not_pool (h : Rep cfg d U L) {i id : Nat} (hi : U[i]? = some id) : id ∉ d.pool := by
  have hn := (List.nodup_append.1 h.nodup).2.2
  intro hp
  exact hn id (List.mem_of_getElem? hi) id hp rfl

/-- Updating segment number `i` in place. -/
theorem store (h : Rep cfg d U L) {i id : Nat} (hi : U[i]? = some id) {s : Seg T} {l : List T} (hs : SegRep cfg.segCap s l) :
    Rep cfg (store d id s) U (L.set i l) := by
  obtain ⟨l0, hl0⟩ := h.getL hi
  have hlt := (h.seg i id l0 hi hl0).lt
  refine ⟨h.ring, by simp [h.len], ?_, ?_, h.nodup⟩
  · intro j jd lj hj hlj
    by_cases c : i = j
    · subst c
      rw [hi] at hj; cases hj
      rw [List.getElem?_set_self (List.getElem?_eq_some_iff.1 hl0).1] at hlj; cases hlj
      exact ⟨s, by simp [Deque.store, hlt], hs⟩
    · rw [List.getElem?_set_ne c] at hlj
      refine (h.seg j jd lj hj hlj).set_ne ?_ s
      rintro rfl
      exact c (h.inj hi hj)
  · intro jd hj
    refine (h.pool jd hj).set_ne ?_ s
    rintro rfl
    exact h.not_pool hi hj

theorem moved (h : Rep cfg d U L) {d' : Deq T} (hm : Moved d d') (hr : RingOf d' U) : Rep cfg d' U L :=
  ⟨hr, h.len, fun i id l h1 h2 => by rw [hm.heap]; exact h.seg i id l h1 h2,
    fun id h1 => by rw [hm.pool] at h1; rw [hm.heap]; exact h.pool id h1, by rw [hm.pool]; exact h.nodup⟩

theorem resize (h : Rep cfg d U L) (n : Int) : Rep cfg { d with size := n } U L :=
  ⟨h.ring, h.len, h.seg, h.pool, h.nodup⟩

theorem nodup_id (h : Rep cfg d U L) : ∀ id ∈ U ++ d.pool, id < d.heap.length := by
  intro id hid
  rcases List.mem_append.1 hid with hid | hid
  · obtain ⟨i, hi⟩ := List.getElem?_of_mem hid
    obtain ⟨l, hl⟩ := h.getL hi
    exact (h.seg i id l hi hl).lt
  · exact (h.pool id hid).lt

/-- `pool.get` yields an empty segment that is nowhere else (whatever `begin` is). -/
theorem poolGet (hg : cfg.Good) (h : Rep cfg d U L) : ∃ id heap pool,
    (∀ b, poolGet cfg { d with begin_ := b } = (id, { d with begin_ := b, heap := heap, pool := pool })) ∧
    Holds cfg.segCap heap id ([] : List T) ∧ (id :: (U ++ pool)).Nodup ∧
    (∀ k l, Holds cfg.segCap d.heap k l → Holds cfg.segCap heap k l) ∧ (∀ k, k ∈ pool → k ∈ d.pool) := by
  unfold Deque.poolGet
  cases hp : d.pool.getLast? with
  | none =>
    refine ⟨d.heap.length, d.heap ++ [Seg.new cfg.zero cfg.segCap], d.pool, fun b => by simp only [hp],
      ⟨Seg.new cfg.zero cfg.segCap, by simp, .new _ hg.pos⟩, ?_, fun k l hk => hk.append _, fun k hk => hk⟩
    rw [List.nodup_cons]
    exact ⟨fun hm => Nat.lt_irrefl _ (h.nodup_id _ hm), h.nodup⟩
  | some id =>
    have hmem : id ∈ d.pool := List.mem_of_getLast? hp
    have hpl : d.pool = d.pool.dropLast ++ [id] := by
      obtain ⟨ys, e⟩ := List.getLast?_eq_some_iff.1 hp
      rw [e]; simp
    refine ⟨id, d.heap, d.pool.dropLast, fun b => by simp only [hp], h.pool id hmem, ?_, fun k l hk => hk, fun k hk => List.dropLast_subset _ hk⟩
    have hn := h.nodup
    rw [hpl, ← List.append_assoc] at hn
    exact (List.perm_append_singleton id _).nodup_iff.1 hn

theorem addFirst (hg : cfg.Good) (h : Rep cfg d U L) (hlt : U.length < d.segs.length) :
    ∃ id d', addFirst cfg d = .ok (id, d') ∧ Rep cfg d' (id :: U) ([] :: L) ∧ d'.size = d.size ∧ d'.segs.length = d.segs.length := by
  obtain ⟨id, heap, pool, e1, h1, h2, h3, h4⟩ := h.poolGet hg
  obtain ⟨r1, r2, r3⟩ := h.ring.cons hlt id
  have e2 : upd d.segs (Deque.ring d.segs.length d.begin_ (d.segs.length - 1)) (some id) = .ok _ := if_pos r2
  refine ⟨id, Deq.mk heap pool (d.segs.set (Deque.ring d.segs.length d.begin_ (d.segs.length - 1)) (some id))
    (Deque.ring d.segs.length d.begin_ (d.segs.length - 1)) d.end_ d.size d.work, ?_, ⟨r3, by simp [h.len], ?_, ?_, ?_⟩, rfl, by simp⟩
  · simp only [Deque.addFirst, preIndex, r1, Res.ok_bind, e1, e2]
  · intro i k l hi hl
    cases i with
    | zero => simp only [List.getElem?_cons_zero, Option.some.injEq] at hi hl; subst hi hl; exact h1
    | succ i => simp only [List.getElem?_cons_succ] at hi hl; exact h3 _ _ (h.seg i k l hi hl)
  · exact fun k hk => h3 _ _ (h.pool k (h4 k hk))
  · simpa using h2

theorem addLast (hg : cfg.Good) (h : Rep cfg d U L) (hlt : U.length < d.segs.length) :
    ∃ id d', addLast cfg d = .ok (id, d') ∧ Rep cfg d' (U ++ [id]) (L ++ [[]]) ∧ d'.size = d.size ∧ d'.segs.length = d.segs.length := by
  obtain ⟨id, heap, pool, e1, h1, h2, h3, h4⟩ := h.poolGet hg
  obtain ⟨r1, e', r2, r3⟩ := h.ring.snoc hlt id
  have e2 : upd d.segs d.end_ (some id) = .ok (d.segs.set d.end_ (some id)) := if_pos r1
  have e1' : Deque.poolGet cfg d = (id, { d with heap := heap, pool := pool }) := e1 d.begin_
  refine ⟨id, { d with heap := heap, pool := pool, segs := d.segs.set d.end_ (some id), end_ := e' }, ?_, ⟨r3, by simp [h.len], ?_, ?_, ?_⟩, rfl, by simp⟩
  · simp only [Deque.addLast, e1', e2, Res.ok_bind, nextIndex, List.length_set, r2]
  · intro i k l hi hl
    have hlen := h.len
    by_cases c : i < U.length
    · rw [List.getElem?_append_left c] at hi
      rw [List.getElem?_append_left (by omega)] at hl
      exact h3 _ _ (h.seg i k l hi hl)
    · rw [List.getElem?_append_right (by omega)] at hi hl
      have c1 : i - U.length = 0 := by
        rcases Nat.eq_zero_or_pos (i - U.length) with h | h
        · exact h
        · rw [List.getElem?_eq_none (by simp; omega)] at hi; cases hi
      rw [c1] at hi
      rw [← hlen, c1] at hl
      simp at hi hl
      subst hi hl; exact h1
  · exact fun k hk => h3 _ _ (h.pool k (h4 k hk))
  · have : ((U ++ [id]) ++ pool).Perm (id :: (U ++ pool)) := by
      rw [List.append_assoc, List.singleton_append]; exact List.perm_middle
    exact this.nodup_iff.2 h2

/-- `putToPool` of a segment pointer, seen together with its later removal from the ring. -/
theorem putToPool (h : Rep cfg d U L) {i id : Nat} (hi : U[i]? = some id) :
    ∃ heap pool work, putToPool d id = .ok { d with heap := heap, pool := pool, work := work } ∧ pool ⊆ id :: d.pool ∧ pool.Nodup ∧
      Holds cfg.segCap heap id ([] : List T) ∧
      (∀ k l, k ≠ id → Holds cfg.segCap d.heap k l → Holds cfg.segCap heap k l) := by
  obtain ⟨l, hl⟩ := h.getL hi
  have hlt := (h.seg i id l hi hl).lt
  obtain ⟨s, e1, r1⟩ := h.load hi hl
  have hn : (d.pool ++ [id]).Nodup := by
    rw [List.nodup_append]
    refine ⟨(List.nodup_append.1 h.nodup).2.1, by simp, ?_⟩
    intro a ha b hb hab
    simp at hb; subst hb; subst hab
    exact h.not_pool hi ha
  have hsub : d.pool ++ [id] ⊆ id :: d.pool := by intro x hx; simp at hx ⊢; tauto
  have h1 : Holds cfg.segCap (d.heap.set id s.clear) id ([] : List T) := ⟨s.clear, by simp [hlt], r1.clear⟩
  have h2 : ∀ k l, k ≠ id → Holds cfg.segCap d.heap k l → Holds cfg.segCap (d.heap.set id s.clear) k l :=
    fun k l hk hh => hh.set_ne (Ne.symm hk) _
  simp only [Deque.putToPool, e1, Res.ok_bind, Deque.store]
  have hu : ∀ p, segUsed { d with heap := d.heap.set id s.clear, pool := p } = segUsed d := fun _ => rfl
  simp only [hu]
  split
  · unfold shrinkPool
    simp only
    split
    · rw [if_neg (by have := segUsed_nonneg h.ring; omega)]
      exact ⟨_, _, _, rfl, fun x hx => hsub (List.take_subset _ _ hx), hn.sublist (List.take_sublist _ _), h1, h2⟩
    · exact ⟨_, _, _, rfl, hsub, hn, h1, h2⟩
  · exact ⟨_, _, _, rfl, hsub, hn, h1, h2⟩

theorem dropFirst {id : Nat} {l : List T} (h : Rep cfg d (id :: U) (l :: L)) :
    ∃ d', dropFirst d id = .ok d' ∧ Rep cfg d' U L ∧ d'.size = d.size ∧ d'.segs.length = d.segs.length := by
  obtain ⟨heap, pool, work, e1, p1, p2, p3, p4⟩ := h.putToPool (i := 0) (id := id) rfl
  obtain ⟨r1, b', r2, r3⟩ := h.ring.tail
  have e2 : upd d.segs d.begin_ none = .ok (d.segs.set d.begin_ none) := if_pos r1
  have hn := h.nodup
  rw [List.cons_append, List.nodup_cons, List.mem_append] at hn
  obtain ⟨hn1, hn2⟩ := hn
  refine ⟨{ d with heap := heap, pool := pool, segs := d.segs.set d.begin_ none, begin_ := b', work := work }, ?_, ⟨r3, ?_, ?_, ?_, ?_⟩, rfl, by simp⟩
  · simp only [Deque.dropFirst, e1, Res.ok_bind, e2, nextIndex, List.length_set, r2]
  · have := h.len; simpa using this
  · intro i k lk hi hl
    refine p4 k lk ?_ (h.seg (i + 1) k lk (by simpa using hi) (by simpa using hl))
    rintro rfl
    exact hn1 (.inl (List.mem_of_getElem? hi))
  · intro k hk
    by_cases c : k = id
    · subst c; exact p3
    · refine p4 k [] c (h.pool k ?_)
      have := p1 hk
      simpa [c] using this
  · rw [List.nodup_append] at hn2 ⊢
    refine ⟨hn2.1, p2, ?_⟩
    rintro a ha b hb rfl
    have := p1 hb
    simp at this
    rcases this with rfl | h4
    · exact hn1 (.inl ha)
    · exact hn2.2.2 a ha a h4 rfl

theorem dropLastSeg {id : Nat} {l : List T} (h : Rep cfg d (U ++ [id]) (L ++ [l])) :
    ∃ e', preIndex d d.end_ = .ok e' ∧ idx d.segs e' = .ok (some id) ∧
    ∃ d', dropLastSeg d id e' = .ok d' ∧ Rep cfg d' U L ∧ d'.size = d.size ∧ d'.segs.length = d.segs.length := by
  obtain ⟨heap, pool, work, e1, p1, p2, p3, p4⟩ := h.putToPool (i := U.length) (id := id) (by simp)
  obtain ⟨e', r1, r2, r3, r4⟩ := h.ring.init
  have e2 : upd d.segs e' none = .ok (d.segs.set e' none) := if_pos r2
  have hn := h.nodup
  have hp : ((U ++ [id]) ++ d.pool).Perm (id :: (U ++ d.pool)) := by
    rw [List.append_assoc, List.singleton_append]; exact List.perm_middle
  rw [hp.nodup_iff, List.nodup_cons, List.mem_append] at hn
  obtain ⟨hn1, hn2⟩ := hn
  have hlen : U.length = L.length := by have := h.len; simpa using this
  refine ⟨e', r1, by rw [idx, r3]; rfl,
    { d with heap := heap, pool := pool, segs := d.segs.set e' none, end_ := e', work := work }, ?_, ⟨r4, hlen, ?_, ?_, ?_⟩, rfl, by simp⟩
  · simp only [Deque.dropLastSeg, e1, Res.ok_bind, e2]
  · intro i k lk hi hl
    have hil := (List.getElem?_eq_some_iff.1 hi).1
    refine p4 k lk ?_ (h.seg i k lk (by rw [List.getElem?_append_left hil]; exact hi)
      (by rw [List.getElem?_append_left (by omega)]; exact hl))
    rintro rfl
    exact hn1 (.inl (List.mem_of_getElem? hi))
  · intro k hk
    by_cases c : k = id
    · subst c; exact p3
    · refine p4 k [] c (h.pool k ?_)
      have := p1 hk
      simpa [c] using this
  · rw [List.nodup_append] at hn2 ⊢
    refine ⟨hn2.1, p2, ?_⟩
    rintro a ha b hb rfl
    have := p1 hb
    simp at this
    rcases this with rfl | h4
    · exact hn1 (.inl ha)
    · exact hn2.2.2 a ha a h4 rfl

end Rep
end GoSTL.Deque
