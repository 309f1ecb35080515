import Verif.Deque.Props
import Mathlib.Data.List.Rotate
/-!
# The memory a deque holds on to is proportional to its size

`Clear`, the pops and the erasures give memory back: the ring of segment pointers is halved and the pool of idle segments is
cut (deque.go:280-287, 364-376, pool.go:25-31). Here is the bound this gives after every history of calls.
-/
namespace GoSTL.Deque
variable {T : Type} {cfg : Cfg T}

/-! ## The claim -/

/-- Segments kept alive by the deque: those in the ring and those in the pool (each holds `segCap` element slots, segment.go:4-9). -/
def liveSegments (d : Deq T) : Nat := (d.segs.filterMap id).length + d.pool.length

/-- Element slots kept allocated. -/
def slots (cfg : Cfg T) (d : Deq T) : Nat := liveSegments d * cfg.segCap

/-- What is assumed of `int(float64(n)*1.2)` in addition to `Cfg.Good`: it does not exceed `6n/5`. -/
def Cfg.ScaleLe (cfg : Cfg T) : Prop := ∀ n : Int, 0 ≤ n → cfg.scale12 n ≤ n * 6 / 5

/-! ## Lengths -/

/-- `len` ring slots and `pool` idle segments are in proportion to `u` used segments. -/
def MB (len pool u : Nat) : Prop := (len ≤ 2 ∨ 5 * len ≤ 12 * u) ∧ 6 * pool ≤ 5 * u + 9

theorem upd_len {α : Type} {l l' : List α} {i : Nat} {v : α} (e : upd l i v = .ok l') : l'.length = l.length := by
  unfold upd at e
  split at e <;> cases e
  simp

theorem copySegs_len {src : List (Option Nat)} {b md : Nat} : ∀ (n i : Nat) {dst dst' : List (Option Nat)},
    copySegs src b md n i dst = .ok dst' → dst'.length = dst.length := by
  intro n
  induction n with
  | zero => intro i dst dst' e; cases e; rfl
  | succ n ih =>
    intro i dst dst' e
    unfold copySegs at e
    rw [Res.bind_eq_ok] at e; obtain ⟨k, -, e⟩ := e
    rw [Res.bind_eq_ok] at e; obtain ⟨x, -, e⟩ := e
    rw [Res.bind_eq_ok] at e; obtain ⟨y, e1, e⟩ := e
    rw [ih _ e, upd_len e1]

theorem grow_len {d d' : Deq T} (e : growIfFull d = .ok d') {u : Nat} (hu : segUsed d = u) :
    d'.segs.length = d.segs.length ∨ d'.segs.length = 2 * u ∨ d'.segs.length = 1 := by
  unfold growIfFull expand at e
  split at e
  · simp only at e
    split at e
    · split at e
      · cases e
      · rw [Res.bind_eq_ok] at e; obtain ⟨s, e1, e⟩ := e
        cases e
        rw [copySegs_len _ _ e1]; simp
    · split at e
      · cases e
      · rw [Res.bind_eq_ok] at e; obtain ⟨s, e1, e⟩ := e
        cases e
        rw [copySegs_len _ _ e1, List.length_replicate]; omega
  · cases e; exact .inl rfl

theorem shrink_len {d d' : Deq T} (e : shrinkIfNeeded cfg d = .ok d') :
    (d'.segs.length = d.segs.length / 2 ∧ cfg.scale12 (segUsed d * 2) < d.segs.length) ∨
    (d' = d ∧ ¬ cfg.scale12 (segUsed d * 2) < d.segs.length) := by
  unfold shrinkIfNeeded at e
  split at e
  · next c =>
    simp only at e
    rw [Res.bind_eq_ok] at e; obtain ⟨s, e1, e⟩ := e
    cases e
    exact .inl ⟨by rw [copySegs_len _ _ e1]; simp, c⟩
  · next c => cases e; exact .inr ⟨rfl, c⟩

theorem poolGet_len (d : Deq T) : (poolGet cfg d).2.segs = d.segs ∧ (poolGet cfg d).2.pool.length ≤ d.pool.length := by
  unfold poolGet
  split
  · exact ⟨rfl, Nat.le_refl _⟩
  · exact ⟨rfl, by simp⟩

theorem addFirst_len {d d' : Deq T} {id : Nat} (e : addFirst cfg d = .ok (id, d')) :
    d'.segs.length = d.segs.length ∧ d'.pool.length ≤ d.pool.length := by
  unfold addFirst at e
  rw [Res.bind_eq_ok] at e; obtain ⟨b, -, e⟩ := e
  simp only at e
  rw [Res.bind_eq_ok] at e; obtain ⟨s, e1, e⟩ := e
  cases e
  have h := poolGet_len (cfg := cfg) { d with begin_ := b }
  exact ⟨by simp only; rw [upd_len e1, h.1], h.2⟩

theorem addLast_len {d d' : Deq T} {id : Nat} (e : addLast cfg d = .ok (id, d')) :
    d'.segs.length = d.segs.length ∧ d'.pool.length ≤ d.pool.length := by
  unfold addLast at e
  simp only at e
  rw [Res.bind_eq_ok] at e; obtain ⟨s, e1, e⟩ := e
  rw [Res.bind_eq_ok] at e; obtain ⟨b, -, e⟩ := e
  cases e
  have h := poolGet_len (cfg := cfg) d
  exact ⟨by simp only; rw [upd_len e1, h.1], h.2⟩

theorem putToPool_len {d d' : Deq T} {id : Nat} (e : putToPool d id = .ok d') {u : Nat} (hu : segUsed d = u) :
    6 * d'.pool.length ≤ 5 * u + 4 := by
  unfold putToPool at e
  rw [Res.bind_eq_ok] at e; obtain ⟨s, -, e⟩ := e
  have hu' : ∀ (h : List (Seg T)) (p : List Nat), segUsed { d with heap := h, pool := p } = (u : Int) := fun _ _ => hu
  simp only [Deque.store, hu'] at e
  split at e
  · unfold shrinkPool at e
    simp only at e
    split at e
    · split at e
      · cases e
      · cases e
        simp only [List.length_take]
        omega
    · cases e
      simp only at *
      omega
  · cases e
    simp only at *
    omega

theorem dropFirst_len {d d' : Deq T} {id : Nat} (e : dropFirst d id = .ok d') {u : Nat} (hu : segUsed d = u) :
    6 * d'.pool.length ≤ 5 * u + 4 := by
  unfold dropFirst at e
  rw [Res.bind_eq_ok] at e; obtain ⟨d1, e1, e⟩ := e
  rw [Res.bind_eq_ok] at e; obtain ⟨s, -, e⟩ := e
  rw [Res.bind_eq_ok] at e; obtain ⟨b, -, e⟩ := e
  cases e
  exact putToPool_len e1 hu

theorem dropLastSeg_len {d d' : Deq T} {id seg : Nat} (e : dropLastSeg d id seg = .ok d') {u : Nat} (hu : segUsed d = u) :
    6 * d'.pool.length ≤ 5 * u + 4 := by
  unfold dropLastSeg at e
  rw [Res.bind_eq_ok] at e; obtain ⟨d1, e1, e⟩ := e
  rw [Res.bind_eq_ok] at e; obtain ⟨s, -, e⟩ := e
  cases e
  exact putToPool_len e1 hu

/-- The memory bound of a state. -/
def MemOk (d : Deq T) : Prop := MB d.segs.length d.pool.length (segUsed d).toNat

theorem DInv.used {d : Deq T} {U : List Nat} {L : List (List T)} (h : Rep cfg d U L) (hs : Shape cfg.segCap L)
    (hz : d.size = L.flatten.length) : segUsed d = U.length := segUsed_eq h.ring (DInv.size0 h hs hz)

/-! ## Operations that end with the shrink check -/

theorem shrink_mem (hg : cfg.Good) (hc : cfg.ScaleLe) {d d' : Deq T} {U : List Nat} (h : RingOf d U) (hr : Room d U)
    (hu : segUsed d = U.length ∨ (segUsed d = d.segs.length ∧ U.length = 0))
    (e : shrinkIfNeeded cfg d = .ok d') (hl : d.segs.length ≤ 2 ∨ 5 * d.segs.length ≤ 12 * (U.length + 1))
    (hp : 6 * d.pool.length ≤ 5 * U.length + 9) : MB d'.segs.length d'.pool.length U.length := by
  obtain ⟨d1, e1, hm, -, -⟩ := shrink_spec hg h hr (by omega)
  rw [e] at e1; cases e1
  rw [hm.pool]
  refine ⟨?_, hp⟩
  rcases shrink_len e with ⟨h1, h2⟩ | ⟨h1, h2⟩
  · omega
  · rw [h1]
    rcases hu with hu | hu
    · have := hc (segUsed d * 2) (by omega)
      omega
    · omega

theorem finish_shrink_mem (hg : cfg.Good) (hc : cfg.ScaleLe) {d d' : Deq T} {U : List Nat} {L : List (List T)} (h : Rep cfg d U L)
    (hroom : Room d U) (hs : Shape cfg.segCap L) (hz : d.size = L.flatten.length + 1)
    (e : shrinkIfNeeded cfg { d with size := d.size - 1 } = .ok d')
    (hl : d.segs.length ≤ 2 ∨ 5 * d.segs.length ≤ 12 * (U.length + 1))
    (hp : 6 * d.pool.length ≤ 5 * U.length + 9) : MemOk d' := by
  have h1 := h.resize (d.size - 1)
  have hz' : d.size - 1 = L.flatten.length := by omega
  have hu := DInv.used h1 hs hz'
  have hroom' : Room { d with size := d.size - 1 } U := by simpa [Room] using hroom
  have hmb := shrink_mem hg hc h1.ring hroom' (.inl hu) e hl hp
  obtain ⟨d2, e2, hm, hr, hlt⟩ := shrink_spec hg h1.ring hroom' (.inl hu)
  rw [e] at e2; cases e2
  have hu' := DInv.used (h1.moved hm hr) hs (hm.size.trans hz')
  unfold MemOk
  rw [hu']
  exact hmb

theorem popFront_mem (hg : cfg.Good) (hc : cfg.ScaleLe) {d d' : Deq T} {x : T} {c : List T} (hd : Inv cfg d c) (hM : MemOk d)
    (e : popFront cfg d = .ok (x, d')) : MemOk d' := by
  cases c with
  | nil => rw [popFront_panic hd] at e; cases e
  | cons x0 c =>
  obtain ⟨L, ⟨U, h, hroom, hs, hz⟩, hc'⟩ := hd
  have hu := DInv.used h hs hz
  unfold MemOk MB at hM
  rw [hu] at hM
  cases L with
  | nil => simp at hc'
  | cons l0 L0 =>
    obtain ⟨id, U0, rfl, hU0⟩ := h.head
    have hl0 := hs.ne 0 (by simp)
    rw [slen_cons_zero] at hl0
    cases l0 with
    | nil => simp at hl0
    | cons y l =>
      have hU : (id :: U0)[0]? = some id := rfl
      obtain ⟨s, e2, r2⟩ := h.load hU (show ((y :: l) :: L0)[0]? = some (y :: l) from rfl)
      obtain ⟨s', e3, r3⟩ := r2.popFront
      have h2 := h.store hU r3
      rw [List.set_cons_zero] at h2
      have e1 : idx d.segs d.begin_ = .ok (some id) := by
        have := firstSegment_eq h.ring
        have hle := h.ring.le
        simp at hle
        rw [firstSegment, if_neg (by omega)] at this
        exact this
      have hne : ¬ d.size = 0 := by rw [hz]; simp; omega
      simp only [Deque.popFront, if_neg hne, e1, Res.ok_bind, Res.ofOption_some, e2, e3] at e
      have hu2 : segUsed (Deque.store d id s') = ((id :: U0).length : Nat) := hu
      simp only [List.length_cons] at hM hu2
      by_cases c : l = []
      · subst c
        have : s'.size = 0 := by rw [Seg.size, r3.size]; rfl
        obtain ⟨d3, e4, h4, z4, g4⟩ := h2.dropFirst
        have hp := dropFirst_len e4 hu2
        rw [if_pos this, e4] at e
        simp only [Res.ok_bind] at e
        rw [Res.bind_eq_ok] at e; obtain ⟨d5, e5, e⟩ := e
        cases e
        refine finish_shrink_mem hg hc h4 (by
            left; rw [g4]
            have := h2.ring.le; simp at this; omega) hs.tail (by
            rw [z4]; simp [Deque.store, hz]) e5 ?_ (by omega)
        rw [g4]; simp only [Deque.store]; omega
      · have hl : 1 ≤ l.length := by cases l with | nil => exact absurd rfl c | cons _ _ => simp
        have : ¬ s'.size = 0 := by rw [Seg.size, r3.size]; omega
        rw [if_neg this] at e
        rw [Res.bind_eq_ok] at e; obtain ⟨d5, e5, e⟩ := e
        cases e
        refine finish_shrink_mem hg hc h2 (by simpa [Room, Deque.store] using hroom) (hs.head hl) (by
            simp [Deque.store, hz]) e5 ?_ ?_
        · simp only [Deque.store, List.length_cons]; omega
        · simp only [Deque.store, List.length_cons]; omega

theorem popBack_mem (hg : cfg.Good) (hc : cfg.ScaleLe) {d d' : Deq T} {x : T} {c : List T} (hd : Inv cfg d c) (hM : MemOk d)
    (e : popBack cfg d = .ok (x, d')) : MemOk d' := by
  rcases List.eq_nil_or_concat c with rfl | ⟨c, x0, rfl⟩
  · rw [popBack_panic hd] at e; cases e
  rw [List.concat_eq_append] at *
  obtain ⟨L, ⟨U, h, hroom, hs, hz⟩, hc'⟩ := hd
  have hu := DInv.used h hs hz
  unfold MemOk MB at hM
  rw [hu] at hM
  rcases List.eq_nil_or_concat L with rfl | ⟨L0, l0, rfl⟩
  · simp at hc'
  · rw [List.concat_eq_append] at *
    obtain ⟨U0, id, rfl, hU0⟩ := h.last
    have hl0 := hs.ne L0.length (by simp)
    rw [slen_snoc, if_pos rfl] at hl0
    rcases List.eq_nil_or_concat l0 with rfl | ⟨l, y, rfl⟩
    · simp at hl0
    · rw [List.concat_eq_append] at *
      have hU : (U0 ++ [id])[L0.length]? = some id := by rw [List.getElem?_append_right (by omega), hU0]; simp
      have hL : (L0 ++ [l ++ [y]])[L0.length]? = some (l ++ [y]) := by simp
      obtain ⟨s, e2, r2⟩ := h.load hU hL
      obtain ⟨s', e3, r3⟩ := r2.popBack
      have h2 := h.store hU r3
      have eset : (L0 ++ [l ++ [y]]).set L0.length l = L0 ++ [l] := by
        rw [List.set_append_right _ _ (by omega)]; simp
      rw [eset] at h2
      obtain ⟨e', p1, p2, d3, e4, h4, z4, g4⟩ := h2.dropLastSeg
      have hne : ¬ d.size = 0 := by rw [hz]; simp; omega
      have p1' : preIndex d d.end_ = .ok e' := p1
      have p2' : idx d.segs e' = .ok (some id) := p2
      simp only [Deque.popBack, if_neg hne, p1', p2', Res.ok_bind, Res.ofOption_some, e2, e3] at e
      have hu2 : segUsed (Deque.store d id s') = ((U0 ++ [id]).length : Nat) := hu
      simp only [List.length_append, List.length_singleton] at hM hu2
      by_cases c : l = []
      · subst c
        have : s'.size = 0 := by rw [Seg.size, r3.size]; rfl
        have hp := dropLastSeg_len e4 hu2
        rw [if_pos this, e4] at e
        simp only [Res.ok_bind] at e
        rw [Res.bind_eq_ok] at e; obtain ⟨d5, e5, e⟩ := e
        cases e
        refine finish_shrink_mem hg hc h4 (by
            left; rw [g4]
            have := h2.ring.le; simp at this; omega) hs.init (by
            rw [z4]; simp [Deque.store, hz]) e5 ?_ (by omega)
        rw [g4]; simp only [Deque.store]; omega
      · have hl : 1 ≤ l.length := by cases l with | nil => exact absurd rfl c | cons _ _ => simp
        have : ¬ s'.size = 0 := by rw [Seg.size, r3.size]; omega
        rw [if_neg this] at e
        rw [Res.bind_eq_ok] at e; obtain ⟨d5, e5, e⟩ := e
        cases e
        refine finish_shrink_mem hg hc h2 (by simpa [Room, Deque.store] using hroom) (hs.last hl) (by
            simp [Deque.store, hz]; omega) e5 ?_ ?_
        · simp only [Deque.store, List.length_append, List.length_singleton]; omega
        · simp only [Deque.store, List.length_append, List.length_singleton]; omega

/-! ## Operations that may add a segment -/

/-- `d1` has the segments of `d`, perhaps one more, and its ring is the old one or a new one that is at least half full. -/
def Grown (d : Deq T) (U : List Nat) (d1 : Deq T) : Prop :=
  ∃ U1, RingOf d1 U1 ∧ U.length ≤ U1.length ∧ 0 < U1.length ∧ d1.pool.length ≤ d.pool.length ∧
    (d1.segs.length = d.segs.length ∨ d1.segs.length ≤ 2 * U1.length) ∧ d1.size = d.size

theorem Grown.same {d d1 d2 : Deq T} {U : List Nat} (h : Grown d U d1) (h2 : Same d1 d2) (hp : d2.pool = d1.pool) : Grown d U d2 := by
  obtain ⟨U1, h1, a, b, c, e, f⟩ := h
  refine ⟨U1, ?_, a, b, by rw [hp]; exact c, by rw [h2.segs]; exact e, by rw [h2.size]; exact f⟩
  show RingRep d2.segs d2.begin_ d2.end_ U1
  rw [h2.segs, h2.begin_, h2.end_]; exact h1

theorem Grown.self {d : Deq T} {U : List Nat} (h : RingOf d U) (hu : 0 < U.length) : Grown d U d :=
  ⟨U, h, Nat.le_refl _, hu, Nat.le_refl _, .inl rfl, rfl⟩

theorem grown_first (hg : cfg.Good) {d d1 d2 : Deq T} {U : List Nat} {L : List (List T)} {id : Nat} (h : Rep cfg d U L)
    (hs : Shape cfg.segCap L) (hz : d.size = L.flatten.length)
    (e1 : growIfFull d = .ok d1) (e2 : addFirst cfg d1 = .ok (id, d2)) : Grown d U d2 := by
  obtain ⟨d1', e1', hm1, hr1, hlt1⟩ := growIfFull_spec h.ring (DInv.size0 h hs hz)
  rw [e1] at e1'; cases e1'
  obtain ⟨id2, d2', e2', h2, z2, -⟩ := (h.moved hm1 hr1).addFirst hg hlt1
  rw [e2] at e2'; cases e2'
  have hl := grow_len e1 (DInv.used h hs hz)
  have ha := addFirst_len e2
  refine ⟨id :: U, h2.ring, by simp, by simp, by rw [← hm1.pool]; exact ha.2, ?_, z2.trans hm1.size⟩
  rw [ha.1, List.length_cons]; omega

theorem grown_last (hg : cfg.Good) {d d1 d2 : Deq T} {U : List Nat} {L : List (List T)} {id : Nat} (h : Rep cfg d U L)
    (hs : Shape cfg.segCap L) (hz : d.size = L.flatten.length)
    (e1 : growIfFull d = .ok d1) (e2 : addLast cfg d1 = .ok (id, d2)) : Grown d U d2 := by
  obtain ⟨d1', e1', hm1, hr1, hlt1⟩ := growIfFull_spec h.ring (DInv.size0 h hs hz)
  rw [e1] at e1'; cases e1'
  obtain ⟨id2, d2', e2', h2, z2, -⟩ := (h.moved hm1 hr1).addLast hg hlt1
  rw [e2] at e2'; cases e2'
  have hl := grow_len e1 (DInv.used h hs hz)
  have ha := addLast_len e2
  refine ⟨U ++ [id], h2.ring, by simp, by simp, by rw [← hm1.pool]; exact ha.2, ?_, z2.trans hm1.size⟩
  rw [ha.1, List.length_append, List.length_singleton]; omega

/-- Growing without adding a segment. -/
theorem grown_none {d d1 : Deq T} {U : List Nat} {L : List (List T)} (h : Rep cfg d U L)
    (hs : Shape cfg.segCap L) (hz : d.size = L.flatten.length) (e1 : growIfFull d = .ok d1) (hu : 0 < U.length) : Grown d U d1 := by
  obtain ⟨d1', e1', hm1, hr1, hlt1⟩ := growIfFull_spec h.ring (DInv.size0 h hs hz)
  rw [e1] at e1'; cases e1'
  have hl := grow_len e1 (DInv.used h hs hz)
  refine ⟨U, hr1, Nat.le_refl _, hu, by rw [hm1.pool], ?_, hm1.size⟩
  omega

theorem Grown.finish {d d1 d' : Deq T} {U : List Nat} (h : Grown d U d1) (hM : MB d.segs.length d.pool.length U.length)
    (h0 : 0 ≤ d.size) (e : growIfFull { d1 with size := d1.size + 1 } = .ok d') : MemOk d' := by
  obtain ⟨U1, h1, a, b, c, hl, f⟩ := h
  have h1' : RingOf { d1 with size := d1.size + 1 } U1 := h1
  have hz : d1.size + 1 = 0 ↔ U1 = [] := by
    constructor
    · intro; omega
    · rintro rfl; simp at b
  obtain ⟨d2, e2, hm, hr, hlt⟩ := growIfFull_spec h1' hz
  rw [e] at e2; cases e2
  have hlen := grow_len e (segUsed_eq h1' hz)
  have hu' : segUsed d' = U1.length := segUsed_eq hr (by rw [hm.size]; exact hz)
  unfold MemOk MB
  unfold MB at hM
  rw [hu', hm.pool]
  simp only at hlen ⊢
  omega

theorem firstAvailable_mem (hg : cfg.Good) {d d1 : Deq T} {U : List Nat} {L : List (List T)} {o : Option Nat} (h : Rep cfg d U L)
    (hs : Shape cfg.segCap L) (hz : d.size = L.flatten.length) (e : firstAvailableSegment cfg d = .ok (o, d1)) : Grown d U d1 := by
  have hpos : ∀ {d2 : Deq T} {nf : Bool}, RingOf d2 U → firstSegment d2 = .ok U.head? → nilOrFull d2 U.head? = .ok nf → nf = false → 0 < U.length := by
    intro d2 nf _ _ h2 h3
    cases U with
    | nil => subst h3; cases h2
    | cons _ _ => simp
  have ef := firstSegment_eq h.ring
  unfold firstAvailableSegment at e
  rw [ef, Res.ok_bind, Res.bind_eq_ok] at e
  obtain ⟨nf, e1, e⟩ := e
  split at e
  · next c => cases e; exact .self h.ring (hpos h.ring ef e1 c)
  · rw [Res.bind_eq_ok] at e; obtain ⟨d2, e2, e⟩ := e
    obtain ⟨d2', e2', hm1, hr1, -⟩ := growIfFull_spec h.ring (DInv.size0 h hs hz)
    rw [e2] at e2'; cases e2'
    rw [firstSegment_eq hr1, Res.ok_bind, Res.bind_eq_ok] at e
    obtain ⟨nf2, e3, e⟩ := e
    split at e
    · rw [Res.bind_eq_ok] at e; obtain ⟨⟨id, d3⟩, e4, e⟩ := e
      cases e
      exact grown_first hg h hs hz e2 e4
    · next c =>
      cases e
      exact grown_none h hs hz e2 (hpos hr1 (firstSegment_eq hr1) e3 (by simpa using c))

theorem lastAvailable_mem (hg : cfg.Good) {d d1 : Deq T} {U : List Nat} {L : List (List T)} {o : Option Nat} (h : Rep cfg d U L)
    (hs : Shape cfg.segCap L) (hz : d.size = L.flatten.length) (e : lastAvailableSegment cfg d = .ok (o, d1)) : Grown d U d1 := by
  have hpos : ∀ {d2 : Deq T} {nf : Bool}, nilOrFull d2 U.getLast? = .ok nf → nf = false → 0 < U.length := by
    intro d2 nf h2 h3
    cases U with
    | nil => subst h3; cases h2
    | cons _ _ => simp
  have ef := lastSegment_eq h.ring
  unfold lastAvailableSegment at e
  rw [ef, Res.ok_bind, Res.bind_eq_ok] at e
  obtain ⟨nf, e1, e⟩ := e
  split at e
  · next c => cases e; exact .self h.ring (hpos e1 c)
  · rw [Res.bind_eq_ok] at e; obtain ⟨d2, e2, e⟩ := e
    obtain ⟨d2', e2', hm1, hr1, -⟩ := growIfFull_spec h.ring (DInv.size0 h hs hz)
    rw [e2] at e2'; cases e2'
    rw [lastSegment_eq hr1, Res.ok_bind, Res.bind_eq_ok] at e
    obtain ⟨nf2, e3, e⟩ := e
    split at e
    · rw [Res.bind_eq_ok] at e; obtain ⟨⟨id, d3⟩, e4, e⟩ := e
      cases e
      exact grown_last hg h hs hz e2 e4
    · next c =>
      cases e
      exact grown_none h hs hz e2 (hpos e3 (by simpa using c))

theorem pushFront_mem (hg : cfg.Good) {d d' : Deq T} {c : List T} {v : T} (hd : Inv cfg d c) (hM : MemOk d)
    (e : pushFront cfg d v = .ok d') : MemOk d' := by
  obtain ⟨L, ⟨U, h, -, hs, hz⟩, -⟩ := hd
  unfold MemOk at hM
  rw [DInv.used h hs hz] at hM
  unfold pushFront at e
  rw [Res.bind_eq_ok] at e; obtain ⟨⟨o, d1⟩, e1, e⟩ := e
  simp only at e
  rw [Res.bind_eq_ok] at e; obtain ⟨id, -, e⟩ := e
  rw [Res.bind_eq_ok] at e; obtain ⟨s, -, e⟩ := e
  rw [Res.bind_eq_ok] at e; obtain ⟨s', -, e⟩ := e
  exact ((firstAvailable_mem hg h hs hz e1).same (Same.store d1 id s') rfl).finish hM (by omega) e

theorem pushBack_mem (hg : cfg.Good) {d d' : Deq T} {c : List T} {v : T} (hd : Inv cfg d c) (hM : MemOk d)
    (e : pushBack cfg d v = .ok d') : MemOk d' := by
  obtain ⟨L, ⟨U, h, -, hs, hz⟩, -⟩ := hd
  unfold MemOk at hM
  rw [DInv.used h hs hz] at hM
  unfold pushBack at e
  rw [Res.bind_eq_ok] at e; obtain ⟨⟨o, d1⟩, e1, e⟩ := e
  simp only at e
  rw [Res.bind_eq_ok] at e; obtain ⟨id, -, e⟩ := e
  rw [Res.bind_eq_ok] at e; obtain ⟨s, -, e⟩ := e
  rw [Res.bind_eq_ok] at e; obtain ⟨s', -, e⟩ := e
  exact ((lastAvailable_mem hg h hs hz e1).same (Same.store d1 id s') rfl).finish hM (by omega) e

/-! ## Shifting elements touches neither the ring nor the pool -/

/-- Only segment contents differ. -/
def OnlyHeap (d d' : Deq T) : Prop := Same d d' ∧ d'.pool = d.pool ∧ d'.work = d.work

theorem OnlyHeap.refl (d : Deq T) : OnlyHeap d d := ⟨.refl d, rfl, rfl⟩
theorem OnlyHeap.trans {a b c : Deq T} (h : OnlyHeap a b) (h' : OnlyHeap b c) : OnlyHeap a c := ⟨h.1.trans h'.1, h'.2.1.trans h.2.1, h'.2.2.trans h.2.2⟩
theorem OnlyHeap.store (d : Deq T) (id : Nat) (s : Seg T) : OnlyHeap d (store d id s) := ⟨.store d id s, rfl, rfl⟩

theorem fwdLoop_heap : ∀ (n : Nat) (i : Int) {d d' : Deq T}, fwdLoop n i d = .ok d' → OnlyHeap d d' := by
  intro n
  induction n with
  | zero => intro i d d' e; cases e; exact .refl _
  | succ n ih =>
    intro i d d' e
    unfold fwdLoop at e
    rw [Res.bind_eq_ok] at e; obtain ⟨cur, -, e⟩ := e
    rw [Res.bind_eq_ok] at e; obtain ⟨next, -, e⟩ := e
    rw [Res.bind_eq_ok] at e; obtain ⟨nid, -, e⟩ := e
    rw [Res.bind_eq_ok] at e; obtain ⟨s, -, e⟩ := e
    rw [Res.bind_eq_ok] at e; obtain ⟨⟨x, s2⟩, -, e⟩ := e
    simp only at e
    rw [Res.bind_eq_ok] at e; obtain ⟨cid, -, e⟩ := e
    rw [Res.bind_eq_ok] at e; obtain ⟨s3, -, e⟩ := e
    rw [Res.bind_eq_ok] at e; obtain ⟨s4, -, e⟩ := e
    exact ((OnlyHeap.store _ _ _).trans (OnlyHeap.store _ _ _)).trans (ih _ e)

theorem bwdLoop_heap : ∀ (n : Nat) (i : Int) {d d' : Deq T}, bwdLoop n i d = .ok d' → OnlyHeap d d' := by
  intro n
  induction n with
  | zero => intro i d d' e; cases e; exact .refl _
  | succ n ih =>
    intro i d d' e
    unfold bwdLoop at e
    rw [Res.bind_eq_ok] at e; obtain ⟨cur, -, e⟩ := e
    rw [Res.bind_eq_ok] at e; obtain ⟨next, -, e⟩ := e
    rw [Res.bind_eq_ok] at e; obtain ⟨nid, -, e⟩ := e
    rw [Res.bind_eq_ok] at e; obtain ⟨s, -, e⟩ := e
    rw [Res.bind_eq_ok] at e; obtain ⟨⟨x, s2⟩, -, e⟩ := e
    simp only at e
    rw [Res.bind_eq_ok] at e; obtain ⟨cid, -, e⟩ := e
    rw [Res.bind_eq_ok] at e; obtain ⟨s3, -, e⟩ := e
    rw [Res.bind_eq_ok] at e; obtain ⟨s4, -, e⟩ := e
    exact ((OnlyHeap.store _ _ _).trans (OnlyHeap.store _ _ _)).trans (ih _ e)

theorem insertSeg_heap {d d' : Deq T} {seg pos : Int} {v : T} (e : insertSeg d seg pos v = .ok d') : OnlyHeap d d' := by
  unfold insertSeg at e
  rw [Res.bind_eq_ok] at e; obtain ⟨cur, -, e⟩ := e
  rw [Res.bind_eq_ok] at e; obtain ⟨id, -, e⟩ := e
  rw [Res.bind_eq_ok] at e; obtain ⟨s, -, e⟩ := e
  rw [Res.bind_eq_ok] at e; obtain ⟨s2, -, e⟩ := e
  cases e; exact .store _ _ _

theorem moveFrontInsert_mem (hg : cfg.Good) {d d1 : Deq T} {U : List Nat} {L : List (List T)} {seg q : Int} {v : T} (h : Rep cfg d U L)
    (hs : Shape cfg.segCap L) (hz : d.size = L.flatten.length) (hu : 0 < U.length)
    (e : moveFrontInsert cfg d seg q v = .ok d1) : Grown d U d1 := by
  unfold moveFrontInsert at e
  rw [Res.bind_eq_ok] at e; obtain ⟨f, -, e⟩ := e
  rw [Res.bind_eq_ok] at e; obtain ⟨fid, -, e⟩ := e
  rw [Res.bind_eq_ok] at e; obtain ⟨fs, -, e⟩ := e
  have fin : ∀ (dm : Deq T) (a b : Int), Grown d U dm →
      (fwdLoop a.toNat 0 dm >>= fun d => insertSeg d a b v) = .ok d1 → Grown d U d1 := by
    intro dm a b hgm e
    rw [Res.bind_eq_ok] at e; obtain ⟨d3, e3, e⟩ := e
    have h3 := (fwdLoop_heap _ _ e3).trans (insertSeg_heap e)
    exact hgm.same h3.1 h3.2.1
  split at e
  · simp only [bind_assoc] at e
    rw [Res.bind_eq_ok] at e; obtain ⟨d2, e2, e⟩ := e
    rw [Res.bind_eq_ok] at e; obtain ⟨⟨id, d3⟩, e3, e⟩ := e
    have := grown_first hg h hs hz e2 e3
    split at e
    · exact fin _ _ _ this e
    · exact fin _ _ _ this e
  · split at e
    · exact fin _ _ _ (.self h.ring hu) e
    · split at e
      · exact fin _ _ _ (.self h.ring hu) e
      · exact fin _ _ _ (.self h.ring hu) e

theorem moveBackInsert_mem (hg : cfg.Good) {d d1 : Deq T} {U : List Nat} {L : List (List T)} {seg q : Int} {v : T} (h : Rep cfg d U L)
    (hs : Shape cfg.segCap L) (hz : d.size = L.flatten.length) (hu : 0 < U.length)
    (e : moveBackInsert cfg d seg q v = .ok d1) : Grown d U d1 := by
  unfold moveBackInsert at e
  rw [Res.bind_eq_ok] at e; obtain ⟨f, -, e⟩ := e
  rw [Res.bind_eq_ok] at e; obtain ⟨fid, -, e⟩ := e
  rw [Res.bind_eq_ok] at e; obtain ⟨fs, -, e⟩ := e
  have fin : ∀ (dm : Deq T), Grown d U dm →
      (bwdLoop (segUsed dm - 1 - seg).toNat (segUsed dm - 1) dm >>= fun d => insertSeg d seg q v) = .ok d1 → Grown d U d1 := by
    intro dm hgm e
    rw [Res.bind_eq_ok] at e; obtain ⟨d3, e3, e⟩ := e
    have h3 := (bwdLoop_heap _ _ e3).trans (insertSeg_heap e)
    exact hgm.same h3.1 h3.2.1
  split at e
  · simp only [bind_assoc] at e
    rw [Res.bind_eq_ok] at e; obtain ⟨d2, e2, e⟩ := e
    rw [Res.bind_eq_ok] at e; obtain ⟨⟨id, d3⟩, e3, e⟩ := e
    exact fin _ (grown_last hg h hs hz e2 e3) e
  · exact fin _ (.self h.ring hu) e

theorem insert_mem (hg : cfg.Good) {d d' : Deq T} {c : List T} {p : Int} {v : T} (hd : Inv cfg d c) (hM : MemOk d)
    (e : insert cfg d p v = .ok d') : MemOk d' := by
  unfold Deque.insert at e
  split at e
  · cases e; exact hM
  · split at e
    · exact pushFront_mem hg hd hM e
    · split at e
      · exact pushBack_mem hg hd hM e
      · next c1 c2 c3 =>
        obtain ⟨L, ⟨U, h, -, hs, hz⟩, -⟩ := hd
        unfold MemOk at hM
        rw [DInv.used h hs hz] at hM
        have hu : 0 < U.length := by
          have := (DInv.size0 h hs hz).2
          cases U with
          | nil => have := this rfl; omega
          | cons _ _ => simp
        rw [Res.bind_eq_ok] at e; obtain ⟨⟨seg, q⟩, -, e⟩ := e
        simp only at e
        split at e
        · rw [Res.bind_eq_ok] at e; obtain ⟨d1, e1, e⟩ := e
          exact (moveFrontInsert_mem hg h hs hz hu e1).finish hM (by omega) e
        · rw [Res.bind_eq_ok] at e; obtain ⟨d1, e1, e⟩ := e
          exact (moveBackInsert_mem hg h hs hz hu e1).finish hM (by omega) e

/-! ## Erasing -/

theorem putToPool_same {d d' : Deq T} {id : Nat} (e : putToPool d id = .ok d') : Same d d' := by
  unfold putToPool at e
  rw [Res.bind_eq_ok] at e; obtain ⟨s, -, e⟩ := e
  simp only at e
  split at e
  · unfold shrinkPool at e
    split at e
    · split at e
      · cases e
      · cases e; exact ⟨rfl, rfl, rfl, rfl⟩
    · cases e; exact ⟨rfl, rfl, rfl, rfl⟩
  · cases e; exact ⟨rfl, rfl, rfl, rfl⟩

theorem dropFirst_ring {d d' : Deq T} {id : Nat} {V : List Nat} (h : RingOf d (id :: V)) (e : dropFirst d id = .ok d') :
    RingOf d' V ∧ d'.size = d.size ∧ d'.segs.length = d.segs.length := by
  unfold dropFirst at e
  rw [Res.bind_eq_ok] at e; obtain ⟨d1, e1, e⟩ := e
  rw [Res.bind_eq_ok] at e; obtain ⟨s, e2, e⟩ := e
  rw [Res.bind_eq_ok] at e; obtain ⟨b, e3, e⟩ := e
  cases e
  have hs := putToPool_same e1
  obtain ⟨r1, b', r2, r3⟩ := h.tail
  have e2' : upd d.segs d.begin_ none = .ok (d.segs.set d.begin_ none) := if_pos r1
  rw [hs.segs, hs.begin_, e2'] at e2
  cases e2
  simp only [nextIndex, List.length_set, hs.begin_, r2] at e3
  cases e3
  refine ⟨?_, hs.size, by simp⟩
  show RingRep _ _ d1.end_ V
  rw [hs.end_]; exact r3

theorem dropLast_ring {d d' : Deq T} {id i : Nat} {V : List Nat} (h : RingOf d (V ++ [id])) (e0 : preIndex d d.end_ = .ok i)
    (e : dropLastSeg d id i = .ok d') :
    RingOf d' V ∧ d'.size = d.size ∧ d'.segs.length = d.segs.length := by
  unfold dropLastSeg at e
  rw [Res.bind_eq_ok] at e; obtain ⟨d1, e1, e⟩ := e
  rw [Res.bind_eq_ok] at e; obtain ⟨s, e2, e⟩ := e
  cases e
  have hs := putToPool_same e1
  obtain ⟨i', r1, r2, r3, r4⟩ := h.init
  have e0' : preIndex d d.end_ = .ok i' := r1
  rw [e0] at e0'; cases e0'
  have e2' : upd d.segs i none = .ok (d.segs.set i none) := if_pos r2
  rw [hs.segs, e2'] at e2
  cases e2
  refine ⟨?_, hs.size, by simp⟩
  show RingRep _ d1.begin_ _ V
  rw [hs.begin_]; exact r4

/-- Dropping an end segment and then shrinking keeps the bound (the size is not yet decremented, deque.go:229-232, 240-245). -/
theorem drop_shrink_mem (hg : cfg.Good) (hc : cfg.ScaleLe) {d d1 : Deq T} {V : List Nat} {len u : Nat} (h : RingOf d V) (hsz : ¬ d.size = 0)
    (hu : u = V.length + 1) (hl : d.segs.length = len) (hroom : u < len) (hp : 6 * d.pool.length ≤ 5 * u + 4)
    (hM : len ≤ 2 ∨ 5 * len ≤ 12 * u) (e : shrinkIfNeeded cfg d = .ok d1) :
    ∃ V, RingOf d1 V ∧ Room d1 V ∧ MB d1.segs.length d1.pool.length V.length ∧ d1.size = d.size := by
  have hr : Room d V := .inl (by omega)
  have hsu := segUsed_or h hsz
  have hsu' : segUsed d = V.length ∨ (segUsed d = d.segs.length ∧ V.length = 0) := by
    by_cases c : V = []
    · subst c; rcases hsu with h | h
      · exact .inl h
      · exact .inr ⟨h, rfl⟩
    · exact .inl (segUsed_eq h ⟨fun h => absurd h hsz, fun h => absurd h c⟩)
  obtain ⟨d2, e2, hm, hr2, hro⟩ := shrink_spec hg h hr hsu
  rw [e] at e2; cases e2
  exact ⟨V, hr2, hro, shrink_mem hg hc h hr hsu' e (by omega) (by omega), hm.size⟩

theorem eraseShift_mem (hg : cfg.Good) (hc : cfg.ScaleLe) {d d1 : Deq T} {U : List Nat} {seg : Int} (h : RingOf d U) (hu : segUsed d = U.length)
    (hsz : ¬ d.size = 0) (hroom : U.length < d.segs.length) (hM : MB d.segs.length d.pool.length U.length)
    (e : eraseShift cfg d seg = .ok d1) :
    ∃ V, RingOf d1 V ∧ Room d1 V ∧ MB d1.segs.length d1.pool.length V.length ∧ d1.size = d.size := by
  have moved : ∀ {d2 : Deq T}, OnlyHeap d d2 → RingOf d2 U ∧ segUsed d2 = U.length := by
    intro d2 h2
    refine ⟨?_, by rw [h2.1.segUsed]; exact hu⟩
    show RingRep d2.segs d2.begin_ d2.end_ U
    rw [h2.1.segs, h2.1.begin_, h2.1.end_]; exact h
  have keep : ∀ {d2 : Deq T}, OnlyHeap d d2 →
      ∃ V, RingOf d2 V ∧ Room d2 V ∧ MB d2.segs.length d2.pool.length V.length ∧ d2.size = d.size := by
    intro d2 h2
    refine ⟨U, (moved h2).1, .inl (by rw [h2.1.segs]; exact hroom), ?_, h2.1.size⟩
    rw [h2.1.segs, h2.2.1]; exact hM
  unfold eraseShift at e
  split at e
  · rw [Res.bind_eq_ok] at e; obtain ⟨d2, e2, e⟩ := e
    have o2 := bwdLoop_heap _ _ e2
    obtain ⟨r2, u2⟩ := moved o2
    rw [firstSegment_eq r2, Res.ok_bind] at e
    rw [Res.bind_eq_ok] at e; obtain ⟨fid, e3, e⟩ := e
    rw [Res.bind_eq_ok] at e; obtain ⟨fs, -, e⟩ := e
    cases hU : U with
    | nil => rw [hU] at e3; cases e3
    | cons id V =>
      rw [hU] at e3; cases e3
      split at e
      · rw [Res.bind_eq_ok] at e; obtain ⟨d3, e4, e⟩ := e
        rw [hU] at r2 u2 hroom
        have hM1 := hM.1
        rw [hU] at hM1
        obtain ⟨r3, z3, g3⟩ := dropFirst_ring r2 e4
        have p3 := dropFirst_len e4 u2
        obtain ⟨W, w1, w2, w3, w4⟩ := drop_shrink_mem hg hc (u := (fid :: V).length) (len := d.segs.length) r3 (by rw [z3, o2.1.size]; exact hsz)
          (by simp) (by rw [g3, o2.1.segs]) hroom p3 hM1 e
        exact ⟨W, w1, w2, w3, by rw [w4, z3, o2.1.size]⟩
      · cases e; exact keep o2
  · rw [Res.bind_eq_ok] at e; obtain ⟨d2, e2, e⟩ := e
    have o2 := fwdLoop_heap _ _ e2
    obtain ⟨r2, u2⟩ := moved o2
    rw [lastSegment_eq r2, Res.ok_bind] at e
    rw [Res.bind_eq_ok] at e; obtain ⟨fid, e3, e⟩ := e
    rw [Res.bind_eq_ok] at e; obtain ⟨fs, -, e⟩ := e
    rcases List.eq_nil_or_concat U with hU | ⟨V, id, hU⟩
    · rw [hU] at e3; cases e3
    · rw [List.concat_eq_append] at hU
      rw [hU] at e3
      simp only [List.getLast?_append, List.getLast?_singleton, Option.some_or, Res.ofOption_some, Res.ok.injEq] at e3
      subst e3
      split at e
      · rw [Res.bind_eq_ok] at e; obtain ⟨i, e5, e⟩ := e
        rw [Res.bind_eq_ok] at e; obtain ⟨d3, e4, e⟩ := e
        rw [hU] at r2 u2 hroom
        have hM1 := hM.1
        rw [hU] at hM1
        obtain ⟨r3, z3, g3⟩ := dropLast_ring r2 e5 e4
        have p3 := dropLastSeg_len e4 u2
        obtain ⟨W, w1, w2, w3, w4⟩ := drop_shrink_mem hg hc (u := (V ++ [id]).length) (len := d.segs.length) r3 (by rw [z3, o2.1.size]; exact hsz)
          (by simp) (by rw [g3, o2.1.segs]) hroom p3 hM1 e
        exact ⟨W, w1, w2, w3, by rw [w4, z3, o2.1.size]⟩
      · cases e; exact keep o2

/-- A ring with a free slot determines how many pointers it holds. -/
theorem ring_len_unique {d : Deq T} {U V : List Nat} (h1 : RingOf d U) (r1 : Room d U) (h2 : RingOf d V) (r2 : Room d V) :
    U.length = V.length := by
  unfold Room at r1 r2
  have e := h1.end_
  rw [h2.end_] at e
  have hb := h1.beg
  unfold ring at e
  split at e <;> split at e <;> omega

theorem eraseAt_mem (hg : cfg.Good) (hc : cfg.ScaleLe) {d d' : Deq T} {c : List T} {p : Int} (hd : Inv cfg d c) (hM : MemOk d)
    (e : eraseAt cfg d p = .ok d') : MemOk d' := by
  obtain ⟨d2, e2, hd2⟩ := eraseAt_spec hg hd p
  rw [e] at e2; cases e2
  unfold eraseAt at e
  split at e
  · cases e; exact hM
  · next c1 =>
    obtain ⟨L, ⟨U, h, hroom, hs, hz⟩, -⟩ := hd
    have hu := DInv.used h hs hz
    unfold MemOk at hM
    rw [hu] at hM
    rw [Res.bind_eq_ok] at e; obtain ⟨⟨seg, q⟩, -, e⟩ := e
    simp only at e
    rw [Res.bind_eq_ok] at e; obtain ⟨o, -, e⟩ := e
    rw [Res.bind_eq_ok] at e; obtain ⟨id, -, e⟩ := e
    rw [Res.bind_eq_ok] at e; obtain ⟨s, -, e⟩ := e
    rw [Res.bind_eq_ok] at e; obtain ⟨s', -, e⟩ := e
    rw [Res.bind_eq_ok] at e; obtain ⟨d1, e1, e⟩ := e
    cases e
    have hU : 0 < U.length := by
      have := (DInv.size0 h hs hz).2
      cases U with
      | nil => have := this rfl; omega
      | cons _ _ => simp
    obtain ⟨V, v1, v2, v3, v4⟩ := eraseShift_mem hg hc (d := Deque.store d id s') (U := U) h.ring hu (by simp only [Deque.store]; omega)
      (by simp only [Deque.store]; unfold Room at hroom; omega) hM e1
    obtain ⟨L', ⟨U', h', hroom', hs', hz'⟩, -⟩ := hd2
    have hu' := DInv.used h' hs' hz'
    unfold MemOk
    rw [hu']
    have := ring_len_unique (d := { d1 with size := d1.size - 1 }) v1 v2 h'.ring hroom'
    rw [Int.toNat_natCast, ← this]
    exact v3

/-! ## Ranges, histories -/

theorem set_heap {d d' : Deq T} {p : Int} {v : T} {b : Bool} (e : set cfg d p v = .ok (b, d')) : OnlyHeap d d' := by
  unfold Deque.set at e
  split at e
  · cases e; exact .refl _
  · rw [Res.bind_eq_ok] at e; obtain ⟨⟨seg, q⟩, -, e⟩ := e
    simp only at e
    rw [Res.bind_eq_ok] at e; obtain ⟨o, -, e⟩ := e
    rw [Res.bind_eq_ok] at e; obtain ⟨id, -, e⟩ := e
    rw [Res.bind_eq_ok] at e; obtain ⟨s, -, e⟩ := e
    rw [Res.bind_eq_ok] at e; obtain ⟨s', -, e⟩ := e
    cases e; exact .store _ _ _

theorem OnlyHeap.mem {d d' : Deq T} (h : OnlyHeap d d') (hM : MemOk d) : MemOk d' := by
  unfold MemOk at *
  rw [h.1.segUsed, h.1.segs, h.2.1]; exact hM

theorem moveDown_heap {num : Int} : ∀ (n : Nat) (p : Int) {d d' : Deq T}, moveDown cfg num n p d = .ok d' → OnlyHeap d d' := by
  intro n
  induction n with
  | zero => intro p d d' e; cases e; exact .refl _
  | succ n ih =>
    intro p d d' e
    unfold moveDown at e
    rw [Res.bind_eq_ok] at e; obtain ⟨x, -, e⟩ := e
    rw [Res.bind_eq_ok] at e; obtain ⟨⟨b, d1⟩, e1, e⟩ := e
    exact (set_heap e1).trans (ih _ e)

theorem moveUp_heap {num : Int} : ∀ (n : Nat) (p : Int) {d d' : Deq T}, moveUp cfg num n p d = .ok d' → OnlyHeap d d' := by
  intro n
  induction n with
  | zero => intro p d d' e; cases e; exact .refl _
  | succ n ih =>
    intro p d d' e
    unfold moveUp at e
    rw [Res.bind_eq_ok] at e; obtain ⟨x, -, e⟩ := e
    rw [Res.bind_eq_ok] at e; obtain ⟨⟨b, d1⟩, e1, e⟩ := e
    exact (set_heap e1).trans (ih _ e)

theorem popBackN_mem (hg : cfg.Good) (hc : cfg.ScaleLe) : ∀ (n : Nat) {d d' : Deq T} {c : List T}, Inv cfg d c → MemOk d →
    popBackN cfg n d = .ok d' → MemOk d' := by
  intro n
  induction n with
  | zero => intro d d' c _ hM e; cases e; exact hM
  | succ n ih =>
    intro d d' c hd hM e
    unfold popBackN at e
    rw [Res.bind_eq_ok] at e; obtain ⟨⟨x, d1⟩, e1, e⟩ := e
    have hM1 := popBack_mem hg hc hd hM e1
    rcases List.eq_nil_or_concat c with rfl | ⟨c, x0, rfl⟩
    · rw [popBack_panic hd] at e1; cases e1
    · rw [List.concat_eq_append] at hd
      obtain ⟨d2, e2, h2⟩ := popBack_spec hg hd
      rw [e1] at e2; cases e2
      exact ih h2 hM1 e

theorem popFrontN_mem (hg : cfg.Good) (hc : cfg.ScaleLe) : ∀ (n : Nat) {d d' : Deq T} {c : List T}, Inv cfg d c → MemOk d →
    popFrontN cfg n d = .ok d' → MemOk d' := by
  intro n
  induction n with
  | zero => intro d d' c _ hM e; cases e; exact hM
  | succ n ih =>
    intro d d' c hd hM e
    unfold popFrontN at e
    rw [Res.bind_eq_ok] at e; obtain ⟨⟨x, d1⟩, e1, e⟩ := e
    have hM1 := popFront_mem hg hc hd hM e1
    cases c with
    | nil => rw [popFront_panic hd] at e1; cases e1
    | cons x0 c =>
      obtain ⟨d2, e2, h2⟩ := popFront_spec hg hd
      rw [e1] at e2; cases e2
      exact ih h2 hM1 e

theorem set_inv (hg : cfg.Good) {d d' : Deq T} {c : List T} {p : Int} {v : T} {b : Bool} (hd : Inv cfg d c)
    (e : set cfg d p v = .ok (b, d')) : ∃ c', Inv cfg d' c' := by
  obtain ⟨d2, e2, h2⟩ := set_spec hg hd p v
  rw [e] at e2; cases e2; exact ⟨_, h2⟩

theorem moveDown_inv (hg : cfg.Good) {num : Int} : ∀ (n : Nat) (p : Int) {d d' : Deq T} {c : List T}, Inv cfg d c →
    moveDown cfg num n p d = .ok d' → ∃ c', Inv cfg d' c' := by
  intro n
  induction n with
  | zero => intro p d d' c hd e; cases e; exact ⟨c, hd⟩
  | succ n ih =>
    intro p d d' c hd e
    unfold moveDown at e
    rw [Res.bind_eq_ok] at e; obtain ⟨x, -, e⟩ := e
    rw [Res.bind_eq_ok] at e; obtain ⟨⟨b, d1⟩, e1, e⟩ := e
    obtain ⟨c1, h1⟩ := set_inv hg hd e1
    exact ih _ h1 e

theorem moveUp_inv (hg : cfg.Good) {num : Int} : ∀ (n : Nat) (p : Int) {d d' : Deq T} {c : List T}, Inv cfg d c →
    moveUp cfg num n p d = .ok d' → ∃ c', Inv cfg d' c' := by
  intro n
  induction n with
  | zero => intro p d d' c hd e; cases e; exact ⟨c, hd⟩
  | succ n ih =>
    intro p d d' c hd e
    unfold moveUp at e
    rw [Res.bind_eq_ok] at e; obtain ⟨x, -, e⟩ := e
    rw [Res.bind_eq_ok] at e; obtain ⟨⟨b, d1⟩, e1, e⟩ := e
    obtain ⟨c1, h1⟩ := set_inv hg hd e1
    exact ih _ h1 e

theorem eraseRange_mem (hg : cfg.Good) (hc : cfg.ScaleLe) {d d' : Deq T} {c : List T} {a b : Int} (hd : Inv cfg d c) (hM : MemOk d)
    (e : eraseRange cfg d a b = .ok d') : MemOk d' := by
  unfold eraseRange at e
  split at e
  · cases e; exact hM
  · simp only at e
    split at e
    · rw [Res.bind_eq_ok] at e; obtain ⟨d1, e1, e⟩ := e
      obtain ⟨c1, h1⟩ := moveDown_inv hg _ _ hd e1
      exact popBackN_mem hg hc _ h1 ((moveDown_heap _ _ e1).mem hM) e
    · rw [Res.bind_eq_ok] at e; obtain ⟨d1, e1, e⟩ := e
      obtain ⟨c1, h1⟩ := moveUp_inv hg _ _ hd e1
      exact popFrontN_mem hg hc _ h1 ((moveUp_heap _ _ e1).mem hM) e

theorem step_mem (hg : cfg.Good) (hc : cfg.ScaleLe) {d d' : Deq T} {c : List T} {op : Op T} {o : Out T} (hd : Inv cfg d c) (hM : MemOk d)
    (e : step cfg op d = .ok (o, d')) : MemOk d' := by
  cases op <;> simp only [step] at e
  case size => cases e; exact hM
  case empty => cases e; exact hM
  all_goals (rw [Res.bind_eq_ok] at e; obtain ⟨r, e1, e⟩ := e)
  case pushFront => cases e; exact pushFront_mem hg hd hM e1
  case pushBack => cases e; exact pushBack_mem hg hd hM e1
  case insert => cases e; exact insert_mem hg hd hM e1
  case popFront => cases e; exact popFront_mem hg hc hd hM e1
  case popBack => cases e; exact popBack_mem hg hc hd hM e1
  case eraseAt => cases e; exact eraseAt_mem hg hc hd hM e1
  case eraseRange => cases e; exact eraseRange_mem hg hc hd hM e1
  case set => cases e; exact (set_heap e1).mem hM
  case clear => cases e; exact eraseRange_mem hg hc hd hM e1
  all_goals (cases e; exact hM)

theorem step_inv (hg : cfg.Good) {d d' : Deq T} {c : List T} {op : Op T} {o : Out T} (hd : Inv cfg d c)
    (e : step cfg op d = .ok (o, d')) : ∃ c', Inv cfg d' c' := by
  have h := step_refines hg hd op
  cases hs : specStep op c with
  | ok r => rw [hs] at h; obtain ⟨d2, e2, h2⟩ := h; rw [e] at e2; cases e2; exact ⟨_, h2⟩
  | panic => rw [hs] at h; simp only [Refines] at h; rw [e] at h; cases h
  | outOfFuel => rw [hs] at h; exact h.elim

theorem run_mem (hg : cfg.Good) (hc : cfg.ScaleLe) : ∀ (ops : List (Op T)) {d d' : Deq T} {c : List T} {os : List (Out T)},
    Inv cfg d c → MemOk d → run cfg ops d = .ok (os, d') → MemOk d' := by
  intro ops
  induction ops with
  | nil => intro d d' c os _ hM e; cases e; exact hM
  | cons op ops ih =>
    intro d d' c os hd hM e
    unfold run at e
    rw [Res.bind_eq_ok] at e; obtain ⟨⟨o, d1⟩, e1, e⟩ := e
    rw [Res.bind_eq_ok] at e; obtain ⟨⟨os1, d2⟩, e2, e⟩ := e
    cases e
    obtain ⟨c1, h1⟩ := step_inv hg hd e1
    exact ih h1 (step_mem hg hc hd hM e1) e2

/-! ## The bound in terms of the number of elements -/

/-- All segments but the two at the ends are full, and those are not empty. -/
theorem Shape.count {K : Nat} {L : List (List T)} (h : Shape K L) (h2 : 2 ≤ L.length) : K * (L.length - 2) + 2 ≤ L.flatten.length := by
  obtain ⟨n, hn⟩ : ∃ n, L.length = n + 2 := ⟨L.length - 2, by omega⟩
  have h1 := h.off' n (by omega)
  have h3 := off_succ L (n + 1)
  rw [off_all L (by omega), h1] at h3
  have a := h.ne 0 (by omega)
  have b := h.ne (n + 1) (by omega)
  rw [hn, Nat.add_sub_cancel, Nat.mul_comm]
  omega

/-- The ring holds exactly the segments in use. -/
theorem ring_count {segs : List (Option Nat)} {b e : Nat} {U : List Nat} (h : RingRep segs b e U) :
    (segs.filterMap id).length = U.length := by
  have hle := h.le
  have hr : segs.rotate b = U.map some ++ List.replicate (segs.length - U.length) none := by
    apply List.ext_getElem?
    intro i
    by_cases hi : i < segs.length
    · have hb := h.beg' (by omega)
      rw [List.getElem?_rotate hi]
      have hs := h.slot i hi
      have e1 : ring segs.length b i = (i + b) % segs.length := by
        have := modG_at hb (show i ≤ segs.length by omega)
        unfold modG at this
        rw [if_neg (by omega)] at this
        simpa using this.symm
      rw [e1] at hs
      rw [hs]
      by_cases c : i < U.length
      · rw [List.getElem?_append_left (by simpa using c)]; simp [c]
      · rw [List.getElem?_append_right (by simp; omega), List.getElem?_eq_none (by omega), List.getElem?_replicate,
          if_pos (by simp; omega)]
    · rw [List.getElem?_eq_none (by simp; omega), List.getElem?_eq_none (by simp; omega)]
  have hp : (segs.rotate b).Perm segs := List.rotate_perm segs b
  have := (hp.filterMap id).length_eq
  rw [hr] at this
  rw [← this]
  simp

/-- **C74** After any history of calls on a deque: the element slots kept allocated (in use or idle in the pool) are at most
twice the number of elements plus a constant, and so is the pointer table. Popping, erasing and clearing therefore give memory
back, whatever the maximum size has been. -/
theorem C74_deque_memory (hg : cfg.Good) (hc : cfg.ScaleLe) {d : Deq T} (h : Reachable cfg d) :
    (slots cfg d : Int) ≤ 2 * size d + 5 * cfg.segCap ∧
    5 * (cfg.segCap : Int) * d.segs.length ≤ 12 * (size d + 2 * cfg.segCap) ∧
    (size d = 0 → liveSegments d ≤ 1 ∧ d.segs.length ≤ 2) := by
  obtain ⟨c, hi⟩ := h.inv hg
  obtain ⟨ops, os, e⟩ := h
  have hM := run_mem hg hc ops new_inv (by unfold MemOk MB; exact ⟨.inl (by simp [new]), by simp [new]⟩) e
  obtain ⟨L, ⟨U, h, hroom, hs, hz⟩, -⟩ := hi
  have hu := DInv.used h hs hz
  unfold MemOk MB at hM
  rw [hu, Int.toNat_natCast] at hM
  have hcnt := ring_count h.ring
  have hl := h.len
  have hpos := hg.pos
  have hK : cfg.segCap * U.length ≤ L.flatten.length + 2 * cfg.segCap := by
    by_cases c2 : 2 ≤ L.length
    · have := hs.count c2
      rw [← hl] at this
      obtain ⟨n, hn⟩ : ∃ n, U.length = n + 2 := ⟨U.length - 2, by omega⟩
      rw [hn, Nat.add_sub_cancel] at this
      rw [hn, Nat.mul_add]
      omega
    · have : cfg.segCap * U.length ≤ cfg.segCap * 2 := Nat.mul_le_mul_left _ (by omega)
      omega
  have hpool : d.pool.length ≤ U.length + 1 := by omega
  have hp : cfg.segCap * d.pool.length ≤ cfg.segCap * U.length + cfg.segCap := by
    have := Nat.mul_le_mul_left cfg.segCap hpool
    rwa [Nat.mul_add, Nat.mul_one] at this
  refine ⟨?_, ?_, ?_⟩
  · simp only [slots, liveSegments, hcnt, size, hz]
    have : (U.length + d.pool.length) * cfg.segCap = cfg.segCap * U.length + cfg.segCap * d.pool.length := by
      rw [Nat.add_mul, Nat.mul_comm, Nat.mul_comm d.pool.length]
    rw [this]
    omega
  · rw [size, hz]
    have : 5 * cfg.segCap * d.segs.length ≤ 12 * (L.flatten.length + 2 * cfg.segCap) := by
      rcases hM.1 with h1 | h1
      · have : cfg.segCap * d.segs.length ≤ cfg.segCap * 2 := Nat.mul_le_mul_left _ h1
        have e1 : 5 * cfg.segCap * d.segs.length = 5 * (cfg.segCap * d.segs.length) := Nat.mul_assoc _ _ _
        omega
      · have : cfg.segCap * (5 * d.segs.length) ≤ cfg.segCap * (12 * U.length) := Nat.mul_le_mul_left _ h1
        have e1 : cfg.segCap * (5 * d.segs.length) = 5 * cfg.segCap * d.segs.length := by
          rw [← Nat.mul_assoc, Nat.mul_comm cfg.segCap 5]
        have e2 : cfg.segCap * (12 * U.length) = 12 * (cfg.segCap * U.length) := by
          rw [← Nat.mul_assoc, Nat.mul_comm cfg.segCap 12, Nat.mul_assoc]
        omega
    exact_mod_cast this
  · intro h0
    have hU : U.length = 0 := by
      have := (DInv.size0 h hs hz).1 h0
      rw [this]; rfl
    simp only [liveSegments, hcnt]
    omega

/-- **C74** With the parameters of the code: at most `2·Size + 640` element slots; an emptied deque keeps one segment
(128 slots) and two pointers, however large it has been. -/
theorem C74_deque_memory_go (zero : T) {d : Deq T} (h : Reachable (goCfg zero) d) :
    (slots (goCfg zero) d : Int) ≤ 2 * size d + 640 ∧ (size d = 0 → slots (goCfg zero) d ≤ 128 ∧ d.segs.length ≤ 2) := by
  have hb := C74_deque_memory (goCfg_good zero) (fun n h => Int.le_refl _) h
  refine ⟨by have := hb.1; simp only [goCfg] at this ⊢; omega, fun h0 => ⟨?_, (hb.2.2 h0).2⟩⟩
  have := (hb.2.2 h0).1
  simp only [slots, goCfg]
  omega

/-- The hypotheses are met, and the bound is not idle: twelve elements in segments of two slots need six segments and a ring
of eight; after `Clear` one segment and at most two ring slots are left. -/
example : ∃ d os, run smallCfg (List.replicate 12 (.pushBack 7)) new = .ok (os, d) ∧ liveSegments d = 6 ∧ d.segs.length = 8 := by
  refine ⟨_, _, rfl, rfl, rfl⟩
example : ∃ d os, run smallCfg (List.replicate 12 (.pushBack 7) ++ [.clear]) new = .ok (os, d) ∧ size d = 0 ∧ liveSegments d = 0 ∧ d.segs.length = 1 := by
  refine ⟨_, _, rfl, rfl, rfl, rfl⟩
example : smallCfg.ScaleLe := fun _ _ => Int.le_refl _

/-- `C74_deque_memory` and `C74_deque_memory_go` after a long history. -/
example : ∃ d os, run smallCfg (List.replicate 12 (.pushBack 7)) new = .ok (os, d) ∧ size d = 12 ∧ (slots smallCfg d : Int) ≤ 2 * size d + 5 * 2 := by
  have h : ∃ d os, run smallCfg (List.replicate 12 (.pushBack 7)) new = .ok (os, d) ∧ size d = 12 := ⟨_, _, rfl, rfl⟩
  obtain ⟨d, os, e, e1⟩ := h
  exact ⟨d, os, e, e1, (C74_deque_memory smallCfg_good (fun _ _ => Int.le_refl _) ⟨_, _, e⟩).1⟩
set_option maxRecDepth 40000 in
/-- `C74_deque_memory_go`, with the real configuration. -/
example : ∃ d os, run (goCfg 0) [.pushBack 7, .pushFront 8, .insert 1 9, .popBack] new = .ok (os, d) ∧ (slots (goCfg 0) d : Int) ≤ 2 * size d + 640 := by
  have h : ∃ d os, run (goCfg 0) [.pushBack 7, .pushFront 8, .insert 1 9, .popBack] new = .ok (os, d) := ⟨_, _, rfl⟩
  obtain ⟨d, os, e⟩ := h
  exact ⟨d, os, e, (C74_deque_memory_go 0 ⟨_, _, e⟩).1⟩

end GoSTL.Deque
