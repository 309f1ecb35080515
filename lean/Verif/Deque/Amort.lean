import Verif.Deque.Memory
/-!
# C77: what `Deque` spends on its tables, over any history

`work` counts the table slots that `expand`, `shrinkIfNeeded` and the pool's `shrinkToSize` allocate (each copies at most as
many pointers). The proof is a potential argument: after a table has been rebuilt, a number of segments proportional to the
size of the table must be added or dropped before it is rebuilt again.
-/
namespace GoSTL.Deque
variable {T : Type} {cfg : Cfg T}

/-- What is assumed of `int(float64(n)*1.2)` in addition to `Cfg.Good`: it is not below `6n/5` by more than one. -/
def Cfg.ScaleGe (cfg : Cfg T) : Prop := ∀ n : Int, 0 ≤ n → n * 6 / 5 - 1 ≤ cfg.scale12 n

/-- The potential of a table of `len` slots with `u` segments in use, and of a pool of `pool` segments. -/
def phi (len u pool : Nat) : Nat := 2 * (6 * u - 5 * len) + 3 * (len - 2 * u) + (5 * pool - u)

/-- The potential and the work done. -/
def pot (d : Deq T) (u : Nat) : Nat := phi d.segs.length u d.pool.length + d.work

/-! ## The table and the pool -/

theorem grow_work {d d' : Deq T} (e : growIfFull d = .ok d') {u : Nat} (hu : segUsed d = u) :
    (d' = d ∧ u < d.segs.length) ∨ (d.segs.length ≤ u ∧ 0 < u ∧ d'.segs.length = 2 * u ∧ d'.work = d.work + 2 * u ∧ d'.pool = d.pool) ∨
    (u = 0 ∧ d.segs.length = 0 ∧ d'.segs.length = 1 ∧ d'.work = d.work + 1 ∧ d'.pool = d.pool) := by
  unfold growIfFull expand at e
  split at e
  · next c =>
    simp only at e
    split at e
    · next c0 =>
      split at e
      · cases e
      · rw [Res.bind_eq_ok] at e; obtain ⟨s, e1, e⟩ := e
        cases e
        refine .inr (.inr ⟨by omega, by omega, ?_, by simp, rfl⟩)
        simp only
        rw [copySegs_len _ _ e1]; simp
    · next c0 =>
      split at e
      · cases e
      · rw [Res.bind_eq_ok] at e; obtain ⟨s, e1, e⟩ := e
        cases e
        refine .inr (.inl ⟨by omega, by omega, ?_, by simp only; omega, rfl⟩)
        simp only
        rw [copySegs_len _ _ e1, List.length_replicate]; omega
  · next c => cases e; exact .inl ⟨rfl, by omega⟩

theorem grow_pot {d d' : Deq T} (e : growIfFull d = .ok d') {u : Nat} (hu : segUsed d = u) (hle : u ≤ d.segs.length) :
    pot d' u ≤ pot d u + 4 := by
  unfold pot phi
  rcases grow_work e hu with ⟨rfl, -⟩ | ⟨h1, h2, h3, h4, h5⟩ | ⟨h1, h2, h3, h4, h5⟩
  · omega
  · rw [h3, h4, h5]; omega
  · rw [h3, h4, h5]; omega

theorem shrink_work {d d' : Deq T} (e : shrinkIfNeeded cfg d = .ok d') :
    (d'.segs.length = d.segs.length / 2 ∧ d'.work = d.work + d.segs.length / 2 ∧ d'.pool = d.pool ∧
      cfg.scale12 (segUsed d * 2) < d.segs.length) ∨ d' = d := by
  unfold shrinkIfNeeded at e
  split at e
  · next c =>
    simp only at e
    rw [Res.bind_eq_ok] at e; obtain ⟨s, e1, e⟩ := e
    cases e
    exact .inl ⟨by simp only; rw [copySegs_len _ _ e1]; simp, rfl, rfl, c⟩
  · cases e; exact .inr rfl

theorem shrink_pot (hg : cfg.Good) (hc : cfg.ScaleGe) {d d' : Deq T} {u : Nat}
    (hu : segUsed d = u ∨ (segUsed d = d.segs.length ∧ u = 0)) (e : shrinkIfNeeded cfg d = .ok d') : pot d' u ≤ pot d u + 18 := by
  unfold pot phi
  rcases shrink_work e with ⟨h1, h2, h3, h4⟩ | rfl
  · rw [h1, h2, h3]
    rcases hu with hu | hu
    · have a := hg.scale (segUsed d * 2) (by omega)
      have b := hc (segUsed d * 2) (by omega)
      omega
    · have a := hg.scale (segUsed d * 2) (by omega)
      omega
  · omega

theorem poolGet_work (d : Deq T) : (poolGet cfg d).2.work = d.work := by
  unfold poolGet
  split <;> rfl

theorem addFirst_pot {d d' : Deq T} {id : Nat} (e : addFirst cfg d = .ok (id, d')) (u : Nat) : pot d' (u + 1) ≤ pot d u + 12 := by
  have hl := addFirst_len e
  have hw : d'.work = d.work := by
    unfold addFirst at e
    rw [Res.bind_eq_ok] at e; obtain ⟨b, -, e⟩ := e
    simp only at e
    rw [Res.bind_eq_ok] at e; obtain ⟨s, e1, e⟩ := e
    cases e
    exact poolGet_work (cfg := cfg) { d with begin_ := b }
  unfold pot phi
  omega

theorem addLast_pot {d d' : Deq T} {id : Nat} (e : addLast cfg d = .ok (id, d')) (u : Nat) : pot d' (u + 1) ≤ pot d u + 12 := by
  have hl := addLast_len e
  have hw : d'.work = d.work := by
    unfold addLast at e
    simp only at e
    rw [Res.bind_eq_ok] at e; obtain ⟨s, e1, e⟩ := e
    rw [Res.bind_eq_ok] at e; obtain ⟨b, -, e⟩ := e
    cases e
    exact poolGet_work (cfg := cfg) d
  unfold pot phi
  omega

theorem putToPool_pot {d d' : Deq T} {id : Nat} (e : putToPool d id = .ok d') {u : Nat} (hu : segUsed d = (u + 1 : Nat)) :
    pot d' u ≤ pot d (u + 1) + 12 := by
  have hs := putToPool_same e
  unfold putToPool at e
  rw [Res.bind_eq_ok] at e; obtain ⟨s, -, e⟩ := e
  have hu' : ∀ (h : List (Seg T)) (p : List Nat), segUsed { d with heap := h, pool := p } = ((u + 1 : Nat) : Int) := fun _ _ => hu
  simp only [Deque.store, hu'] at e
  unfold pot phi
  rw [hs.segs]
  split at e
  · unfold shrinkPool at e
    simp only at e
    split at e
    · split at e
      · cases e
      · cases e
        simp only [List.length_take, List.length_append, List.length_singleton] at *
        omega
    · cases e
      simp only [List.length_append, List.length_singleton] at *
      omega
  · cases e
    simp only [List.length_append, List.length_singleton] at *
    omega

theorem dropFirst_pot {d d' : Deq T} {id : Nat} (e : dropFirst d id = .ok d') {u : Nat} (hu : segUsed d = (u + 1 : Nat)) :
    pot d' u ≤ pot d (u + 1) + 12 := by
  unfold dropFirst at e
  rw [Res.bind_eq_ok] at e; obtain ⟨d1, e1, e⟩ := e
  rw [Res.bind_eq_ok] at e; obtain ⟨s, e2, e⟩ := e
  rw [Res.bind_eq_ok] at e; obtain ⟨b, -, e⟩ := e
  cases e
  have := putToPool_pot e1 hu
  unfold pot at *
  simp only
  rw [upd_len e2]
  exact this

theorem dropLastSeg_pot {d d' : Deq T} {id seg : Nat} (e : dropLastSeg d id seg = .ok d') {u : Nat} (hu : segUsed d = (u + 1 : Nat)) :
    pot d' u ≤ pot d (u + 1) + 12 := by
  unfold dropLastSeg at e
  rw [Res.bind_eq_ok] at e; obtain ⟨d1, e1, e⟩ := e
  rw [Res.bind_eq_ok] at e; obtain ⟨s, e2, e⟩ := e
  cases e
  have := putToPool_pot e1 hu
  unfold pot at *
  simp only
  rw [upd_len e2]
  exact this

/-- The potential of a state, with the work done and 30 for every element. -/
def Pot (d : Deq T) : Int := pot d (segUsed d).toNat + 30 * d.size

theorem Pot_eq {d : Deq T} {U : List Nat} {L : List (List T)} (h : Rep cfg d U L) (hs : Shape cfg.segCap L)
    (hz : d.size = L.flatten.length) : Pot d = pot d U.length + 30 * d.size := by
  unfold Pot; rw [DInv.used h hs hz, Int.toNat_natCast]

/-! ## Pops -/

theorem finish_shrink_pot (hg : cfg.Good) (hc : cfg.ScaleGe) {d d' : Deq T} {U : List Nat} {L : List (List T)} (h : Rep cfg d U L)
    (hroom : Room d U) (hs : Shape cfg.segCap L) (hz : d.size = L.flatten.length + 1)
    (e : shrinkIfNeeded cfg { d with size := d.size - 1 } = .ok d') : Pot d' + 12 ≤ pot d U.length + 30 * d.size := by
  have h1 := h.resize (d.size - 1)
  have hz' : d.size - 1 = L.flatten.length := by omega
  have hu := DInv.used h1 hs hz'
  have hroom' : Room { d with size := d.size - 1 } U := by simpa [Room] using hroom
  have hp := shrink_pot hg hc (.inl hu) e
  obtain ⟨d2, e2, hm, hr, hlt⟩ := shrink_spec hg h1.ring hroom' (.inl hu)
  rw [e] at e2; cases e2
  rw [Pot_eq (h1.moved hm hr) hs (hm.size.trans hz'), hm.size]
  have e3 : pot { d with size := d.size - 1 } U.length = pot d U.length := rfl
  rw [e3] at hp
  simp only
  omega

theorem popFront_pot (hg : cfg.Good) (hc : cfg.ScaleGe) {d d' : Deq T} {x : T} {c : List T} (hd : Inv cfg d c)
    (e : popFront cfg d = .ok (x, d')) : Pot d' ≤ Pot d := by
  cases c with
  | nil => rw [popFront_panic hd] at e; cases e
  | cons x0 c =>
  obtain ⟨L, ⟨U, h, hroom, hs, hz⟩, hc'⟩ := hd
  have hu := DInv.used h hs hz
  rw [Pot_eq h hs hz]
  cases L with
  | nil => simp at hc'
  | cons l0 L0 =>
    obtain ⟨id, U0, rfl, hU0⟩ := h.head
    have hl0 := hs.ne 0 (by simp)
    rw [slen_cons_zero] at hl0
    cases l0 with
    | nil => simp at hl0
    | cons y l =>
      have hU : (id :: U0)[0]? = some id := rfl
      obtain ⟨s, e2, r2⟩ := h.load hU (show ((y :: l) :: L0)[0]? = some (y :: l) from rfl)
      obtain ⟨s', e3, r3⟩ := r2.popFront
      have h2 := h.store hU r3
      rw [List.set_cons_zero] at h2
      have e1 : idx d.segs d.begin_ = .ok (some id) := by
        have := firstSegment_eq h.ring
        have hle := h.ring.le
        simp at hle
        rw [firstSegment, if_neg (by omega)] at this
        exact this
      have hne : ¬ d.size = 0 := by rw [hz]; simp; omega
      simp only [Deque.popFront, if_neg hne, e1, Res.ok_bind, Res.ofOption_some, e2, e3] at e
      have hu2 : segUsed (Deque.store d id s') = ((id :: U0).length : Nat) := hu
      have p0 : pot (Deque.store d id s') (id :: U0).length = pot d (id :: U0).length := rfl
      simp only [List.length_cons] at hu2 p0 ⊢
      by_cases c : l = []
      · subst c
        have : s'.size = 0 := by rw [Seg.size, r3.size]; rfl
        obtain ⟨d3, e4, h4, z4, g4⟩ := h2.dropFirst
        have hp := dropFirst_pot e4 hu2
        rw [if_pos this, e4] at e
        simp only [Res.ok_bind] at e
        rw [Res.bind_eq_ok] at e; obtain ⟨d5, e5, e⟩ := e
        cases e
        have := finish_shrink_pot hg hc h4 (by
            left; rw [g4]
            have := h2.ring.le; simp at this; omega) hs.tail (by
            rw [z4]; simp [Deque.store, hz]) e5
        rw [z4] at this
        simp only [Deque.store] at this hp p0
        omega
      · have hl : 1 ≤ l.length := by cases l with | nil => exact absurd rfl c | cons _ _ => simp
        have : ¬ s'.size = 0 := by rw [Seg.size, r3.size]; omega
        rw [if_neg this] at e
        rw [Res.bind_eq_ok] at e; obtain ⟨d5, e5, e⟩ := e
        cases e
        have := finish_shrink_pot hg hc h2 (by simpa [Room, Deque.store] using hroom) (hs.head hl) (by
            simp [Deque.store, hz]) e5
        simp only [List.length_cons] at this
        simp only [Deque.store] at this p0
        omega

theorem popBack_pot (hg : cfg.Good) (hc : cfg.ScaleGe) {d d' : Deq T} {x : T} {c : List T} (hd : Inv cfg d c)
    (e : popBack cfg d = .ok (x, d')) : Pot d' ≤ Pot d := by
  rcases List.eq_nil_or_concat c with rfl | ⟨c, x0, rfl⟩
  · rw [popBack_panic hd] at e; cases e
  rw [List.concat_eq_append] at *
  obtain ⟨L, ⟨U, h, hroom, hs, hz⟩, hc'⟩ := hd
  have hu := DInv.used h hs hz
  rw [Pot_eq h hs hz]
  rcases List.eq_nil_or_concat L with rfl | ⟨L0, l0, rfl⟩
  · simp at hc'
  · rw [List.concat_eq_append] at *
    obtain ⟨U0, id, rfl, hU0⟩ := h.last
    have hl0 := hs.ne L0.length (by simp)
    rw [slen_snoc, if_pos rfl] at hl0
    rcases List.eq_nil_or_concat l0 with rfl | ⟨l, y, rfl⟩
    · simp at hl0
    · rw [List.concat_eq_append] at *
      have hU : (U0 ++ [id])[L0.length]? = some id := by rw [List.getElem?_append_right (by omega), hU0]; simp
      have hL : (L0 ++ [l ++ [y]])[L0.length]? = some (l ++ [y]) := by simp
      obtain ⟨s, e2, r2⟩ := h.load hU hL
      obtain ⟨s', e3, r3⟩ := r2.popBack
      have h2 := h.store hU r3
      have eset : (L0 ++ [l ++ [y]]).set L0.length l = L0 ++ [l] := by
        rw [List.set_append_right _ _ (by omega)]; simp
      rw [eset] at h2
      obtain ⟨e', p1, p2, d3, e4, h4, z4, g4⟩ := h2.dropLastSeg
      have hne : ¬ d.size = 0 := by rw [hz]; simp; omega
      have p1' : preIndex d d.end_ = .ok e' := p1
      have p2' : idx d.segs e' = .ok (some id) := p2
      simp only [Deque.popBack, if_neg hne, p1', p2', Res.ok_bind, Res.ofOption_some, e2, e3] at e
      have hu2 : segUsed (Deque.store d id s') = ((U0 ++ [id]).length : Nat) := hu
      have p0 : pot (Deque.store d id s') (U0 ++ [id]).length = pot d (U0 ++ [id]).length := rfl
      simp only [List.length_append, List.length_singleton] at hu2 p0 ⊢
      by_cases c : l = []
      · subst c
        have : s'.size = 0 := by rw [Seg.size, r3.size]; rfl
        have hp := dropLastSeg_pot e4 hu2
        rw [if_pos this, e4] at e
        simp only [Res.ok_bind] at e
        rw [Res.bind_eq_ok] at e; obtain ⟨d5, e5, e⟩ := e
        cases e
        have := finish_shrink_pot hg hc h4 (by
            left; rw [g4]
            have := h2.ring.le; simp at this; omega) hs.init (by
            rw [z4]; simp [Deque.store, hz]) e5
        rw [z4] at this
        simp only [Deque.store] at this hp p0
        omega
      · have hl : 1 ≤ l.length := by cases l with | nil => exact absurd rfl c | cons _ _ => simp
        have : ¬ s'.size = 0 := by rw [Seg.size, r3.size]; omega
        rw [if_neg this] at e
        rw [Res.bind_eq_ok] at e; obtain ⟨d5, e5, e⟩ := e
        cases e
        have := finish_shrink_pot hg hc h2 (by simpa [Room, Deque.store] using hroom) (hs.last hl) (by
            simp [Deque.store, hz]; omega) e5
        simp only [List.length_append, List.length_singleton] at this
        simp only [Deque.store] at this p0
        omega

/-! ## Additions -/

/-- `d1` has the segments of `d`, perhaps one more, and was reached at the price of one addition. -/
def GrownW (d : Deq T) (U : List Nat) (d1 : Deq T) : Prop :=
  ∃ U1, RingOf d1 U1 ∧ 0 < U1.length ∧ d1.size = d.size ∧ pot d1 U1.length ≤ pot d U.length + 16

theorem GrownW.heap {d d1 d2 : Deq T} {U : List Nat} (h : GrownW d U d1) (h2 : OnlyHeap d1 d2) : GrownW d U d2 := by
  obtain ⟨U1, h1, a, b, c⟩ := h
  refine ⟨U1, ?_, a, by rw [h2.1.size]; exact b, ?_⟩
  · show RingRep d2.segs d2.begin_ d2.end_ U1
    rw [h2.1.segs, h2.1.begin_, h2.1.end_]; exact h1
  · unfold pot at *; rw [h2.1.segs, h2.2.1, h2.2.2]; exact c

theorem GrownW.self {d : Deq T} {U : List Nat} (h : RingOf d U) (hu : 0 < U.length) : GrownW d U d :=
  ⟨U, h, hu, rfl, by omega⟩

theorem grownW_first (hg : cfg.Good) {d d1 d2 : Deq T} {U : List Nat} {L : List (List T)} {id : Nat} (h : Rep cfg d U L)
    (hs : Shape cfg.segCap L) (hz : d.size = L.flatten.length)
    (e1 : growIfFull d = .ok d1) (e2 : addFirst cfg d1 = .ok (id, d2)) : GrownW d U d2 := by
  obtain ⟨d1', e1', hm1, hr1, hlt1⟩ := growIfFull_spec h.ring (DInv.size0 h hs hz)
  rw [e1] at e1'; cases e1'
  obtain ⟨id2, d2', e2', h2, z2, -⟩ := (h.moved hm1 hr1).addFirst hg hlt1
  rw [e2] at e2'; cases e2'
  have a := grow_pot e1 (DInv.used h hs hz) h.ring.le
  have b := addFirst_pot e2 U.length
  exact ⟨id :: U, h2.ring, by simp, z2.trans hm1.size, by rw [List.length_cons]; omega⟩

theorem grownW_last (hg : cfg.Good) {d d1 d2 : Deq T} {U : List Nat} {L : List (List T)} {id : Nat} (h : Rep cfg d U L)
    (hs : Shape cfg.segCap L) (hz : d.size = L.flatten.length)
    (e1 : growIfFull d = .ok d1) (e2 : addLast cfg d1 = .ok (id, d2)) : GrownW d U d2 := by
  obtain ⟨d1', e1', hm1, hr1, hlt1⟩ := growIfFull_spec h.ring (DInv.size0 h hs hz)
  rw [e1] at e1'; cases e1'
  obtain ⟨id2, d2', e2', h2, z2, -⟩ := (h.moved hm1 hr1).addLast hg hlt1
  rw [e2] at e2'; cases e2'
  have a := grow_pot e1 (DInv.used h hs hz) h.ring.le
  have b := addLast_pot e2 U.length
  exact ⟨U ++ [id], h2.ring, by simp, z2.trans hm1.size, by rw [List.length_append, List.length_singleton]; omega⟩

theorem grownW_none {d d1 : Deq T} {U : List Nat} {L : List (List T)} (h : Rep cfg d U L)
    (hs : Shape cfg.segCap L) (hz : d.size = L.flatten.length) (e1 : growIfFull d = .ok d1) (hu : 0 < U.length) : GrownW d U d1 := by
  obtain ⟨d1', e1', hm1, hr1, hlt1⟩ := growIfFull_spec h.ring (DInv.size0 h hs hz)
  rw [e1] at e1'; cases e1'
  have a := grow_pot e1 (DInv.used h hs hz) h.ring.le
  exact ⟨U, hr1, hu, hm1.size, by omega⟩

theorem GrownW.finish {d d1 d' : Deq T} {U : List Nat} (h : GrownW d U d1)
    (h0 : 0 ≤ d.size) (e : growIfFull { d1 with size := d1.size + 1 } = .ok d') : Pot d' ≤ pot d U.length + 30 * d.size + 50 := by
  obtain ⟨U1, h1, b, f, c⟩ := h
  have h1' : RingOf { d1 with size := d1.size + 1 } U1 := h1
  have hz : d1.size + 1 = 0 ↔ U1 = [] := by
    constructor
    · intro; omega
    · rintro rfl; simp at b
  obtain ⟨d2, e2, hm, hr, hlt⟩ := growIfFull_spec h1' hz
  rw [e] at e2; cases e2
  have a := grow_pot e (segUsed_eq h1' hz) h1'.le
  have hu' : segUsed d' = U1.length := segUsed_eq hr (by rw [hm.size]; exact hz)
  have e3 : pot { d1 with size := d1.size + 1 } U1.length = pot d1 U1.length := rfl
  unfold Pot
  rw [hu', hm.size, Int.toNat_natCast]
  simp only
  omega

theorem firstAvailable_pot (hg : cfg.Good) {d d1 : Deq T} {U : List Nat} {L : List (List T)} {o : Option Nat} (h : Rep cfg d U L)
    (hs : Shape cfg.segCap L) (hz : d.size = L.flatten.length) (e : firstAvailableSegment cfg d = .ok (o, d1)) : GrownW d U d1 := by
  have hpos : ∀ {d2 : Deq T} {nf : Bool}, nilOrFull d2 U.head? = .ok nf → nf = false → 0 < U.length := by
    intro d2 nf h2 h3
    cases U with
    | nil => subst h3; cases h2
    | cons _ _ => simp
  have ef := firstSegment_eq h.ring
  unfold firstAvailableSegment at e
  rw [ef, Res.ok_bind, Res.bind_eq_ok] at e
  obtain ⟨nf, e1, e⟩ := e
  split at e
  · next c => cases e; exact .self h.ring (hpos e1 c)
  · rw [Res.bind_eq_ok] at e; obtain ⟨d2, e2, e⟩ := e
    obtain ⟨d2', e2', hm1, hr1, -⟩ := growIfFull_spec h.ring (DInv.size0 h hs hz)
    rw [e2] at e2'; cases e2'
    rw [firstSegment_eq hr1, Res.ok_bind, Res.bind_eq_ok] at e
    obtain ⟨nf2, e3, e⟩ := e
    split at e
    · rw [Res.bind_eq_ok] at e; obtain ⟨⟨id, d3⟩, e4, e⟩ := e
      cases e
      exact grownW_first hg h hs hz e2 e4
    · next c =>
      cases e
      exact grownW_none h hs hz e2 (hpos e3 (by simpa using c))

theorem lastAvailable_pot (hg : cfg.Good) {d d1 : Deq T} {U : List Nat} {L : List (List T)} {o : Option Nat} (h : Rep cfg d U L)
    (hs : Shape cfg.segCap L) (hz : d.size = L.flatten.length) (e : lastAvailableSegment cfg d = .ok (o, d1)) : GrownW d U d1 := by
  have hpos : ∀ {d2 : Deq T} {nf : Bool}, nilOrFull d2 U.getLast? = .ok nf → nf = false → 0 < U.length := by
    intro d2 nf h2 h3
    cases U with
    | nil => subst h3; cases h2
    | cons _ _ => simp
  have ef := lastSegment_eq h.ring
  unfold lastAvailableSegment at e
  rw [ef, Res.ok_bind, Res.bind_eq_ok] at e
  obtain ⟨nf, e1, e⟩ := e
  split at e
  · next c => cases e; exact .self h.ring (hpos e1 c)
  · rw [Res.bind_eq_ok] at e; obtain ⟨d2, e2, e⟩ := e
    obtain ⟨d2', e2', hm1, hr1, -⟩ := growIfFull_spec h.ring (DInv.size0 h hs hz)
    rw [e2] at e2'; cases e2'
    rw [lastSegment_eq hr1, Res.ok_bind, Res.bind_eq_ok] at e
    obtain ⟨nf2, e3, e⟩ := e
    split at e
    · rw [Res.bind_eq_ok] at e; obtain ⟨⟨id, d3⟩, e4, e⟩ := e
      cases e
      exact grownW_last hg h hs hz e2 e4
    · next c =>
      cases e
      exact grownW_none h hs hz e2 (hpos e3 (by simpa using c))

theorem pushFront_pot (hg : cfg.Good) {d d' : Deq T} {c : List T} {v : T} (hd : Inv cfg d c)
    (e : pushFront cfg d v = .ok d') : Pot d' ≤ Pot d + 50 := by
  obtain ⟨L, ⟨U, h, -, hs, hz⟩, -⟩ := hd
  rw [Pot_eq h hs hz]
  unfold pushFront at e
  rw [Res.bind_eq_ok] at e; obtain ⟨⟨o, d1⟩, e1, e⟩ := e
  simp only at e
  rw [Res.bind_eq_ok] at e; obtain ⟨id, -, e⟩ := e
  rw [Res.bind_eq_ok] at e; obtain ⟨s, -, e⟩ := e
  rw [Res.bind_eq_ok] at e; obtain ⟨s', -, e⟩ := e
  exact ((firstAvailable_pot hg h hs hz e1).heap (.store d1 id s')).finish (by omega) e

theorem pushBack_pot (hg : cfg.Good) {d d' : Deq T} {c : List T} {v : T} (hd : Inv cfg d c)
    (e : pushBack cfg d v = .ok d') : Pot d' ≤ Pot d + 50 := by
  obtain ⟨L, ⟨U, h, -, hs, hz⟩, -⟩ := hd
  rw [Pot_eq h hs hz]
  unfold pushBack at e
  rw [Res.bind_eq_ok] at e; obtain ⟨⟨o, d1⟩, e1, e⟩ := e
  simp only at e
  rw [Res.bind_eq_ok] at e; obtain ⟨id, -, e⟩ := e
  rw [Res.bind_eq_ok] at e; obtain ⟨s, -, e⟩ := e
  rw [Res.bind_eq_ok] at e; obtain ⟨s', -, e⟩ := e
  exact ((lastAvailable_pot hg h hs hz e1).heap (.store d1 id s')).finish (by omega) e

theorem moveFrontInsert_pot (hg : cfg.Good) {d d1 : Deq T} {U : List Nat} {L : List (List T)} {seg q : Int} {v : T} (h : Rep cfg d U L)
    (hs : Shape cfg.segCap L) (hz : d.size = L.flatten.length) (hu : 0 < U.length)
    (e : moveFrontInsert cfg d seg q v = .ok d1) : GrownW d U d1 := by
  unfold moveFrontInsert at e
  rw [Res.bind_eq_ok] at e; obtain ⟨f, -, e⟩ := e
  rw [Res.bind_eq_ok] at e; obtain ⟨fid, -, e⟩ := e
  rw [Res.bind_eq_ok] at e; obtain ⟨fs, -, e⟩ := e
  have fin : ∀ (dm : Deq T) (a b : Int), GrownW d U dm →
      (fwdLoop a.toNat 0 dm >>= fun d => insertSeg d a b v) = .ok d1 → GrownW d U d1 := by
    intro dm a b hgm e
    rw [Res.bind_eq_ok] at e; obtain ⟨d3, e3, e⟩ := e
    exact hgm.heap ((fwdLoop_heap _ _ e3).trans (insertSeg_heap e))
  split at e
  · simp only [bind_assoc] at e
    rw [Res.bind_eq_ok] at e; obtain ⟨d2, e2, e⟩ := e
    rw [Res.bind_eq_ok] at e; obtain ⟨⟨id, d3⟩, e3, e⟩ := e
    have := grownW_first hg h hs hz e2 e3
    split at e
    · exact fin _ _ _ this e
    · exact fin _ _ _ this e
  · split at e
    · exact fin _ _ _ (.self h.ring hu) e
    · split at e
      · exact fin _ _ _ (.self h.ring hu) e
      · exact fin _ _ _ (.self h.ring hu) e

theorem moveBackInsert_pot (hg : cfg.Good) {d d1 : Deq T} {U : List Nat} {L : List (List T)} {seg q : Int} {v : T} (h : Rep cfg d U L)
    (hs : Shape cfg.segCap L) (hz : d.size = L.flatten.length) (hu : 0 < U.length)
    (e : moveBackInsert cfg d seg q v = .ok d1) : GrownW d U d1 := by
  unfold moveBackInsert at e
  rw [Res.bind_eq_ok] at e; obtain ⟨f, -, e⟩ := e
  rw [Res.bind_eq_ok] at e; obtain ⟨fid, -, e⟩ := e
  rw [Res.bind_eq_ok] at e; obtain ⟨fs, -, e⟩ := e
  have fin : ∀ (dm : Deq T), GrownW d U dm →
      (bwdLoop (segUsed dm - 1 - seg).toNat (segUsed dm - 1) dm >>= fun d => insertSeg d seg q v) = .ok d1 → GrownW d U d1 := by
    intro dm hgm e
    rw [Res.bind_eq_ok] at e; obtain ⟨d3, e3, e⟩ := e
    exact hgm.heap ((bwdLoop_heap _ _ e3).trans (insertSeg_heap e))
  split at e
  · simp only [bind_assoc] at e
    rw [Res.bind_eq_ok] at e; obtain ⟨d2, e2, e⟩ := e
    rw [Res.bind_eq_ok] at e; obtain ⟨⟨id, d3⟩, e3, e⟩ := e
    exact fin _ (grownW_last hg h hs hz e2 e3) e
  · exact fin _ (.self h.ring hu) e

theorem insert_pot (hg : cfg.Good) {d d' : Deq T} {c : List T} {p : Int} {v : T} (hd : Inv cfg d c)
    (e : insert cfg d p v = .ok d') : Pot d' ≤ Pot d + 50 := by
  unfold Deque.insert at e
  split at e
  · cases e; omega
  · split at e
    · exact pushFront_pot hg hd e
    · split at e
      · exact pushBack_pot hg hd e
      · next c1 c2 c3 =>
        obtain ⟨L, ⟨U, h, -, hs, hz⟩, -⟩ := hd
        rw [Pot_eq h hs hz]
        have hu : 0 < U.length := by
          have := (DInv.size0 h hs hz).2
          cases U with
          | nil => have := this rfl; omega
          | cons _ _ => simp
        rw [Res.bind_eq_ok] at e; obtain ⟨⟨seg, q⟩, -, e⟩ := e
        simp only at e
        split at e
        · rw [Res.bind_eq_ok] at e; obtain ⟨d1, e1, e⟩ := e
          exact (moveFrontInsert_pot hg h hs hz hu e1).finish (by omega) e
        · rw [Res.bind_eq_ok] at e; obtain ⟨d1, e1, e⟩ := e
          exact (moveBackInsert_pot hg h hs hz hu e1).finish (by omega) e

/-! ## Erasing -/

theorem drop_shrink_pot (hg : cfg.Good) (hc : cfg.ScaleGe) {d d1 : Deq T} {V : List Nat} (h : RingOf d V) (hsz : ¬ d.size = 0)
    (hroom : V.length < d.segs.length) (e : shrinkIfNeeded cfg d = .ok d1) :
    RingOf d1 V ∧ Room d1 V ∧ pot d1 V.length ≤ pot d V.length + 18 ∧ d1.size = d.size := by
  have hr : Room d V := .inl (by omega)
  have hsu := segUsed_or h hsz
  have hsu' : segUsed d = V.length ∨ (segUsed d = d.segs.length ∧ V.length = 0) := by
    by_cases c : V = []
    · subst c; rcases hsu with h | h
      · exact .inl h
      · exact .inr ⟨h, rfl⟩
    · exact .inl (segUsed_eq h ⟨fun h => absurd h hsz, fun h => absurd h c⟩)
  obtain ⟨d2, e2, hm, hr2, hro⟩ := shrink_spec hg h hr hsu
  rw [e] at e2; cases e2
  exact ⟨hr2, hro, shrink_pot hg hc hsu' e, hm.size⟩

theorem eraseShift_pot (hg : cfg.Good) (hc : cfg.ScaleGe) {d d1 : Deq T} {U : List Nat} {seg : Int} (h : RingOf d U) (hu : segUsed d = U.length)
    (hsz : ¬ d.size = 0) (hroom : U.length < d.segs.length) (e : eraseShift cfg d seg = .ok d1) :
    ∃ V, RingOf d1 V ∧ Room d1 V ∧ pot d1 V.length ≤ pot d U.length + 30 ∧ d1.size = d.size := by
  have moved : ∀ {d2 : Deq T}, OnlyHeap d d2 → RingOf d2 U ∧ segUsed d2 = U.length ∧ pot d2 U.length = pot d U.length := by
    intro d2 h2
    refine ⟨?_, by rw [h2.1.segUsed]; exact hu, by unfold pot; rw [h2.1.segs, h2.2.1, h2.2.2]⟩
    show RingRep d2.segs d2.begin_ d2.end_ U
    rw [h2.1.segs, h2.1.begin_, h2.1.end_]; exact h
  have keep : ∀ {d2 : Deq T}, OnlyHeap d d2 →
      ∃ V, RingOf d2 V ∧ Room d2 V ∧ pot d2 V.length ≤ pot d U.length + 30 ∧ d2.size = d.size := by
    intro d2 h2
    exact ⟨U, (moved h2).1, .inl (by rw [h2.1.segs]; exact hroom), by rw [(moved h2).2.2]; omega, h2.1.size⟩
  unfold eraseShift at e
  split at e
  · rw [Res.bind_eq_ok] at e; obtain ⟨d2, e2, e⟩ := e
    have o2 := bwdLoop_heap _ _ e2
    obtain ⟨r2, u2, w2⟩ := moved o2
    rw [firstSegment_eq r2, Res.ok_bind] at e
    rw [Res.bind_eq_ok] at e; obtain ⟨fid, e3, e⟩ := e
    rw [Res.bind_eq_ok] at e; obtain ⟨fs, -, e⟩ := e
    cases hU : U with
    | nil => rw [hU] at e3; cases e3
    | cons id V =>
      rw [hU] at e3; cases e3
      split at e
      · rw [Res.bind_eq_ok] at e; obtain ⟨d3, e4, e⟩ := e
        rw [hU] at r2 u2 hroom w2
        obtain ⟨r3, z3, g3⟩ := dropFirst_ring r2 e4
        have p3 := dropFirst_pot e4 (u := V.length) u2
        simp only [List.length_cons] at hroom w2 ⊢
        obtain ⟨w1, w3, w4, w5⟩ := drop_shrink_pot hg hc r3 (by rw [z3, o2.1.size]; exact hsz) (by rw [g3, o2.1.segs]; omega) e
        exact ⟨V, w1, w3, by omega, by rw [w5, z3, o2.1.size]⟩
      · cases e; rw [← hU]; exact keep o2
  · rw [Res.bind_eq_ok] at e; obtain ⟨d2, e2, e⟩ := e
    have o2 := fwdLoop_heap _ _ e2
    obtain ⟨r2, u2, w2⟩ := moved o2
    rw [lastSegment_eq r2, Res.ok_bind] at e
    rw [Res.bind_eq_ok] at e; obtain ⟨fid, e3, e⟩ := e
    rw [Res.bind_eq_ok] at e; obtain ⟨fs, -, e⟩ := e
    rcases List.eq_nil_or_concat U with hU | ⟨V, id, hU⟩
    · rw [hU] at e3; cases e3
    · rw [List.concat_eq_append] at hU
      rw [hU] at e3
      simp only [List.getLast?_append, List.getLast?_singleton, Option.some_or, Res.ofOption_some, Res.ok.injEq] at e3
      subst e3
      split at e
      · rw [Res.bind_eq_ok] at e; obtain ⟨i, e5, e⟩ := e
        rw [Res.bind_eq_ok] at e; obtain ⟨d3, e4, e⟩ := e
        rw [hU] at r2 u2 hroom w2
        obtain ⟨r3, z3, g3⟩ := dropLast_ring r2 e5 e4
        have lU : (V ++ [id]).length = V.length + 1 := by simp
        rw [lU] at u2 hroom w2
        have p3 := dropLastSeg_pot e4 (u := V.length) u2
        obtain ⟨w1, w3, w4, w5⟩ := drop_shrink_pot hg hc r3 (by rw [z3, o2.1.size]; exact hsz) (by rw [g3, o2.1.segs]; omega) e
        exact ⟨V, w1, w3, by rw [hU, lU]; omega, by rw [w5, z3, o2.1.size]⟩
      · cases e; exact keep o2

theorem eraseAt_pot (hg : cfg.Good) (hc : cfg.ScaleGe) {d d' : Deq T} {c : List T} {p : Int} (hd : Inv cfg d c)
    (e : eraseAt cfg d p = .ok d') : Pot d' ≤ Pot d := by
  obtain ⟨d2, e2, hd2⟩ := eraseAt_spec hg hd p
  rw [e] at e2; cases e2
  unfold eraseAt at e
  split at e
  · cases e; omega
  · next c1 =>
    obtain ⟨L, ⟨U, h, hroom, hs, hz⟩, -⟩ := hd
    have hu := DInv.used h hs hz
    rw [Pot_eq h hs hz]
    rw [Res.bind_eq_ok] at e; obtain ⟨⟨seg, q⟩, -, e⟩ := e
    simp only at e
    rw [Res.bind_eq_ok] at e; obtain ⟨o, -, e⟩ := e
    rw [Res.bind_eq_ok] at e; obtain ⟨id, -, e⟩ := e
    rw [Res.bind_eq_ok] at e; obtain ⟨s, -, e⟩ := e
    rw [Res.bind_eq_ok] at e; obtain ⟨s', -, e⟩ := e
    rw [Res.bind_eq_ok] at e; obtain ⟨d1, e1, e⟩ := e
    cases e
    have hU : 0 < U.length := by
      have := (DInv.size0 h hs hz).2
      cases U with
      | nil => have := this rfl; omega
      | cons _ _ => simp
    obtain ⟨V, v1, v2, v3, v4⟩ := eraseShift_pot hg hc (d := Deque.store d id s') (U := U) h.ring hu (by simp only [Deque.store]; omega)
      (by simp only [Deque.store]; unfold Room at hroom; omega) e1
    obtain ⟨L', ⟨U', h', hroom', hs', hz'⟩, -⟩ := hd2
    rw [Pot_eq h' hs' hz']
    have := ring_len_unique (d := { d1 with size := d1.size - 1 }) v1 v2 h'.ring hroom'
    rw [← this]
    have q1 : pot { d1 with size := d1.size - 1 } V.length = pot d1 V.length := rfl
    have q2 : pot (Deque.store d id s') U.length = pot d U.length := rfl
    have q3 : (Deque.store d id s').size = d.size := rfl
    rw [q3] at v4
    rw [q1]
    simp only
    omega

/-! ## Ranges, histories -/

theorem OnlyHeap.pot {d d' : Deq T} (h : OnlyHeap d d') : Pot d' = Pot d := by
  unfold Pot Deque.pot
  rw [h.1.segUsed, h.1.segs, h.2.1, h.2.2, h.1.size]

theorem popBackN_pot (hg : cfg.Good) (hc : cfg.ScaleGe) : ∀ (n : Nat) {d d' : Deq T} {c : List T}, Inv cfg d c →
    popBackN cfg n d = .ok d' → Pot d' ≤ Pot d := by
  intro n
  induction n with
  | zero => intro d d' c _ e; cases e; omega
  | succ n ih =>
    intro d d' c hd e
    unfold popBackN at e
    rw [Res.bind_eq_ok] at e; obtain ⟨⟨x, d1⟩, e1, e⟩ := e
    have hM1 := popBack_pot hg hc hd e1
    rcases List.eq_nil_or_concat c with rfl | ⟨c, x0, rfl⟩
    · rw [popBack_panic hd] at e1; cases e1
    · rw [List.concat_eq_append] at hd
      obtain ⟨d2, e2, h2⟩ := popBack_spec hg hd
      rw [e1] at e2; cases e2
      have := ih h2 e
      omega

theorem popFrontN_pot (hg : cfg.Good) (hc : cfg.ScaleGe) : ∀ (n : Nat) {d d' : Deq T} {c : List T}, Inv cfg d c →
    popFrontN cfg n d = .ok d' → Pot d' ≤ Pot d := by
  intro n
  induction n with
  | zero => intro d d' c _ e; cases e; omega
  | succ n ih =>
    intro d d' c hd e
    unfold popFrontN at e
    rw [Res.bind_eq_ok] at e; obtain ⟨⟨x, d1⟩, e1, e⟩ := e
    have hM1 := popFront_pot hg hc hd e1
    cases c with
    | nil => rw [popFront_panic hd] at e1; cases e1
    | cons x0 c =>
      obtain ⟨d2, e2, h2⟩ := popFront_spec hg hd
      rw [e1] at e2; cases e2
      have := ih h2 e
      omega

theorem eraseRange_pot (hg : cfg.Good) (hc : cfg.ScaleGe) {d d' : Deq T} {c : List T} {a b : Int} (hd : Inv cfg d c)
    (e : eraseRange cfg d a b = .ok d') : Pot d' ≤ Pot d := by
  unfold eraseRange at e
  split at e
  · cases e; omega
  · simp only at e
    split at e
    · rw [Res.bind_eq_ok] at e; obtain ⟨d1, e1, e⟩ := e
      obtain ⟨c1, h1⟩ := moveDown_inv hg _ _ hd e1
      have := popBackN_pot hg hc _ h1 e
      rwa [(moveDown_heap _ _ e1).pot] at this
    · rw [Res.bind_eq_ok] at e; obtain ⟨d1, e1, e⟩ := e
      obtain ⟨c1, h1⟩ := moveUp_inv hg _ _ hd e1
      have := popFrontN_pot hg hc _ h1 e
      rwa [(moveUp_heap _ _ e1).pot] at this

/-- The calls that add an element. -/
def Op.adds : Op T → Bool
  | .pushFront _ | .pushBack _ | .insert .. => true
  | _ => false

theorem step_pot (hg : cfg.Good) (hc : cfg.ScaleGe) {d d' : Deq T} {c : List T} {op : Op T} {o : Out T} (hd : Inv cfg d c)
    (e : step cfg op d = .ok (o, d')) : Pot d' ≤ Pot d + 50 * op.adds.toNat := by
  cases op <;> simp only [step] at e <;> simp only [Op.adds, Bool.toNat_true, Bool.toNat_false]
  case size => cases e; omega
  case empty => cases e; omega
  all_goals (rw [Res.bind_eq_ok] at e; obtain ⟨r, e1, e⟩ := e)
  case pushFront => cases e; have := pushFront_pot hg hd e1; omega
  case pushBack => cases e; have := pushBack_pot hg hd e1; omega
  case insert => cases e; have := insert_pot hg hd e1; omega
  case popFront => cases e; have := popFront_pot hg hc hd e1; omega
  case popBack => cases e; have := popBack_pot hg hc hd e1; omega
  case eraseAt => cases e; have := eraseAt_pot hg hc hd e1; omega
  case eraseRange => cases e; have := eraseRange_pot hg hc hd e1; omega
  case set => cases e; have := (set_heap e1).pot; omega
  case clear => cases e; have := eraseRange_pot hg hc hd e1; omega
  all_goals (cases e; omega)

theorem run_pot (hg : cfg.Good) (hc : cfg.ScaleGe) : ∀ (ops : List (Op T)) {d d' : Deq T} {c : List T} {os : List (Out T)},
    Inv cfg d c → run cfg ops d = .ok (os, d') → Pot d' ≤ Pot d + 50 * ops.countP Op.adds := by
  intro ops
  induction ops with
  | nil => intro d d' c os _ e; cases e; simp
  | cons op ops ih =>
    intro d d' c os hd e
    unfold run at e
    rw [Res.bind_eq_ok] at e; obtain ⟨⟨o, d1⟩, e1, e⟩ := e
    rw [Res.bind_eq_ok] at e; obtain ⟨⟨os1, d2⟩, e2, e⟩ := e
    cases e
    obtain ⟨c1, h1⟩ := step_inv hg hd e1
    have a := step_pot hg hc hd e1
    have b := ih h1 e2
    rw [List.countP_cons]
    cases hop : op.adds <;> simp only [hop, Bool.toNat_true, Bool.toNat_false] at a <;> simp <;> omega

/-- **C77** Over any history of calls on a new deque, all rebuilds of the pointer table and of the pool together allocate at
most 50 slots for each element ever added (by `PushFront`, `PushBack` or `Insert`), and nothing for the other calls: the cost
of growing and shrinking is constant per call, averaged over any history. -/
theorem C77_deque_amortised (hg : cfg.Good) (hc : cfg.ScaleGe) (ops : List (Op T)) {d : Deq T} {os : List (Out T)}
    (e : run cfg ops new = .ok (os, d)) : d.work ≤ 50 * ops.countP Op.adds := by
  have h := run_pot hg hc ops new_inv e
  obtain ⟨c, hi⟩ : ∃ c, Inv cfg d c := Reachable.inv hg ⟨ops, os, e⟩
  have hz := hi.size
  have h0 : Pot (new : Deq T) = 0 := rfl
  rw [h0] at h
  unfold Pot pot at h
  omega

/-- **C77** With the parameters of the code. -/
theorem C77_deque_amortised_go (zero : T) (ops : List (Op T)) {d : Deq T} {os : List (Out T)}
    (e : run (goCfg zero) ops new = .ok (os, d)) : d.work ≤ 50 * ops.countP Op.adds :=
  C77_deque_amortised (goCfg_good zero) (fun n _ => by show n * 6 / 5 - 1 ≤ n * 6 / 5; omega) ops e

/-- The hypotheses are met by histories that rebuild the table: pushing twelve elements in segments of two slots rebuilds it
to 1, 2, 4 and 8 slots (15 in all), and emptying the deque again rebuilds it to 4, 2 and 1 slots (7 more). -/
example : ∃ d os, run smallCfg (List.replicate 12 (.pushBack 7)) new = .ok (os, d) ∧ d.work = 15 := ⟨_, _, rfl, rfl⟩
example : ∃ d os, run smallCfg (List.replicate 12 (.pushBack 7) ++ List.replicate 12 .popFront) new = .ok (os, d) ∧
    d.work = 22 := ⟨_, _, rfl, rfl⟩
example : smallCfg.ScaleGe := fun n _ => by show n * 6 / 5 - 1 ≤ n * 6 / 5; omega

/-- `C77_deque_amortised` and `C77_deque_amortised_go`. -/
example : ∃ d os, run smallCfg (List.replicate 12 (.pushBack 7) ++ List.replicate 12 .popFront) new = .ok (os, d) ∧ d.work ≤ 50 * 12 := by
  have h : ∃ d os, run smallCfg (List.replicate 12 (.pushBack 7) ++ List.replicate 12 .popFront) new = .ok (os, d) := ⟨_, _, rfl⟩
  obtain ⟨d, os, e⟩ := h
  exact ⟨d, os, e, C77_deque_amortised smallCfg_good (fun n _ => by show n * 6 / 5 - 1 ≤ n * 6 / 5; omega) _ e⟩
set_option maxRecDepth 40000 in
/-- `C77_deque_amortised_go`, with the real configuration. -/
example : ∃ d os, run (goCfg 0) [.pushBack 7, .pushFront 8, .insert 1 9, .popBack] new = .ok (os, d) ∧ d.work ≤ 150 := by
  have h : ∃ d os, run (goCfg 0) [.pushBack 7, .pushFront 8, .insert 1 9, .popBack] new = .ok (os, d) := ⟨_, _, rfl⟩
  obtain ⟨d, os, e⟩ := h
  exact ⟨d, os, e, C77_deque_amortised_go 0 _ e⟩

end GoSTL.Deque
