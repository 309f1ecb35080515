import Verif.Deque.Loops
/-!
# The deque invariant; pushing, popping, reading and writing
-/
namespace GoSTL.Deque
variable {T : Type} {cfg : Cfg T}

theorem slen_cons_zero (l : List T) (L : List (List T)) : slen (l :: L) 0 = l.length := by simp [slen]
theorem slen_cons_succ (l : List T) (L : List (List T)) (i : Nat) : slen (l :: L) (i + 1) = slen L i := by simp [slen]
theorem slen_snoc (l : List T) (L : List (List T)) (i : Nat) :
    slen (L ++ [l]) i = if i = L.length then l.length else slen L i := by
  unfold slen
  by_cases c : i < L.length
  · rw [List.getElem?_append_left c, if_neg (by omega)]
  · rw [List.getElem?_append_right (by omega)]
    by_cases c2 : i = L.length
    · subst c2; simp
    · rw [if_neg c2, List.getElem?_eq_none (by simp; omega), List.getElem?_eq_none (by omega)]

/-- The state `d` is a deque made of the segments `L`. -/
def DInv (cfg : Cfg T) (d : Deq T) (L : List (List T)) : Prop :=
  ∃ U, Rep cfg d U L ∧ Room d U ∧ Shape cfg.segCap L ∧ d.size = L.flatten.length

/-- The state `d` is a deque holding the elements `c`. -/
def Inv (cfg : Cfg T) (d : Deq T) (c : List T) : Prop := ∃ L, DInv cfg d L ∧ L.flatten = c

theorem Shape.nil (K : Nat) : Shape K ([] : List (List T)) := ⟨by simp, by simp⟩

theorem Shape.pos_of_ne {K : Nat} {L : List (List T)} (h : Shape K L) (hn : L ≠ []) : 0 < L.flatten.length := by
  cases L with
  | nil => exact absurd rfl hn
  | cons l L =>
    have := h.ne 0 (by simp)
    rw [slen_cons_zero] at this
    simp; omega

theorem DInv.size0 {d : Deq T} {U : List Nat} {L : List (List T)} (h : Rep cfg d U L) (hs : Shape cfg.segCap L)
    (hz : d.size = L.flatten.length) : d.size = 0 ↔ U = [] := by
  have hl := h.len
  constructor
  · intro h0
    by_contra c
    have : L ≠ [] := by rintro rfl; simp at hl; exact c hl
    have := hs.pos_of_ne this
    omega
  · rintro rfl
    have : L = [] := by cases L with | nil => rfl | cons _ _ => simp at hl
    subst this; simpa using hz

theorem Inv.size {d : Deq T} {c : List T} (h : Inv cfg d c) : d.size = c.length := by
  obtain ⟨L, ⟨U, -, -, -, hz⟩, rfl⟩ := h; exact hz

theorem new_inv : Inv cfg (new : Deq T) [] :=
  ⟨[], ⟨[], ⟨⟨by simp, by simp [new], by simp [new, ring], by simp [new], by simp [new]⟩, rfl, by simp, by simp [new], by simp [new]⟩,
    by simp [Room, new], Shape.nil _, rfl⟩, rfl⟩

/-- Ending with the growth check. -/
theorem finish_grow {d : Deq T} {U : List Nat} {L : List (List T)} (h : Rep cfg d U L) (hs : Shape cfg.segCap L)
    (hz : d.size + 1 = L.flatten.length) :
    ∃ d', growIfFull { d with size := d.size + 1 } = .ok d' ∧ DInv cfg d' L := by
  have h1 := h.resize (d.size + 1)
  obtain ⟨d', e, hm, hr, hlt⟩ := growIfFull_spec h1.ring (DInv.size0 h1 hs hz)
  exact ⟨d', e, U, h1.moved hm hr, .inl hlt, hs, hm.size.trans hz⟩

/-- Ending with the shrink check. -/
theorem finish_shrink (hg : cfg.Good) {d : Deq T} {U : List Nat} {L : List (List T)} (h : Rep cfg d U L) (hroom : Room d U)
    (hs : Shape cfg.segCap L) (hz : d.size = L.flatten.length + 1) :
    ∃ d', shrinkIfNeeded cfg { d with size := d.size - 1 } = .ok d' ∧ DInv cfg d' L := by
  have h1 := h.resize (d.size - 1)
  have hz' : d.size - 1 = L.flatten.length := by omega
  obtain ⟨d', e, hm, hr, hlt⟩ := shrink_spec hg h1.ring (by simpa [Room] using hroom) (.inl (segUsed_eq h1.ring (DInv.size0 h1 hs hz')))
  exact ⟨d', e, U, h1.moved hm hr, hlt, hs, hm.size.trans hz'⟩

/-- Lists of pointers and of segments split alike at the end. -/
theorem Rep.last {d : Deq T} {U : List Nat} {L : List (List T)} {l : List T} (h : Rep cfg d U (L ++ [l])) :
    ∃ U' id, U = U' ++ [id] ∧ U'.length = L.length := by
  have hl := h.len
  rcases List.eq_nil_or_concat U with rfl | ⟨U', id, rfl⟩
  · simp at hl
  · refine ⟨U', id, by simp, by simpa using hl⟩

theorem Rep.head {d : Deq T} {U : List Nat} {L : List (List T)} {l : List T} (h : Rep cfg d U (l :: L)) :
    ∃ id U', U = id :: U' ∧ U'.length = L.length := by
  have hl := h.len
  cases U with
  | nil => simp at hl
  | cons id U' => exact ⟨id, U', rfl, by simpa using hl⟩

theorem nilOrFull_some {d : Deq T} {id : Nat} {l : List T} (h : ∃ s, load d id = .ok s ∧ SegRep cfg.segCap s l) :
    nilOrFull d (some id) = .ok (decide (l.length = cfg.segCap)) := by
  obtain ⟨s, e, r⟩ := h
  simp only [nilOrFull, e, Res.ok_bind, r.full_iff]

theorem lastAvailable_spec (hg : cfg.Good) {d : Deq T} {L : List (List T)} (hd : DInv cfg d L) :
    ∃ id d' U' L' l', lastAvailableSegment cfg d = .ok (some id, d') ∧ Rep cfg d' (U' ++ [id]) (L' ++ [l']) ∧
      l'.length < cfg.segCap ∧ (L' ++ [l']).flatten = L.flatten ∧ (∀ v, Shape cfg.segCap (L' ++ [l' ++ [v]])) ∧ d'.size = d.size := by
  obtain ⟨U, h, hroom, hs, hz⟩ := hd
  have hpos := hg.pos
  have hl := h.len
  obtain ⟨d1, e1, hm1, hr1, hlt1⟩ := growIfFull_spec h.ring (DInv.size0 h hs hz)
  have h1 := h.moved hm1 hr1
  obtain ⟨id2, d2, e2, h2, z2, -⟩ := h1.addLast hg hlt1
  rcases List.eq_nil_or_concat L with rfl | ⟨L0, l, rfl⟩
  · have hU : U = [] := List.length_eq_zero_iff.1 (by simpa using hl)
    subst hU
    refine ⟨id2, d2, [], [], [], ?_, h2, hpos, rfl, fun v => ⟨?_, ?_⟩, z2.trans hm1.size⟩
    · simp only [lastAvailableSegment, lastSegment_eq h.ring, lastSegment_eq hr1, e1, Res.ok_bind, List.getLast?_nil, nilOrFull]
      rw [if_neg (by simp), if_pos trivial, e2]; rfl
    · intro i hi; simp at hi; subst hi; simp [slen]
    · intro i h1 h2; simp at h2
  · rw [List.concat_eq_append] at *
    obtain ⟨U0, id, rfl, hU0⟩ := h.last
    have hU : (U0 ++ [id])[L0.length]? = some id := by rw [List.getElem?_append_right (by omega), hU0]; simp
    have hL : (L0 ++ [l])[L0.length]? = some l := by simp
    have en := nilOrFull_some (h.load hU hL)
    have en1 := nilOrFull_some (h1.load hU hL)
    have hle : l.length ≤ cfg.segCap := by have := h.slen_le L0.length; rwa [slen_eq hL] at this
    by_cases c : l.length = cfg.segCap
    · refine ⟨id2, d2, U0 ++ [id], L0 ++ [l], [], ?_, h2, hpos, by simp, fun v => ⟨?_, ?_⟩, z2.trans hm1.size⟩
      · simp only [lastAvailableSegment, lastSegment_eq h.ring, lastSegment_eq hr1, e1, Res.ok_bind, List.getLast?_append, List.getLast?_singleton,
          Option.some_or, en, en1, c, decide_true]
        rw [if_neg (by simp), if_pos trivial, e2]; rfl
      · intro i hi
        have := hs.ne i
        simp only [slen_snoc, List.length_append, List.length_singleton, List.nil_append] at hi this ⊢
        by_cases c1 : i = L0.length + 1
        · rw [if_pos c1]; exact Nat.le_refl _
        · rw [if_neg c1]; exact this (by omega)
      · intro i h1 h2
        have h3 := hs.mid i h1
        simp only [slen_snoc, List.length_append, List.length_singleton] at h2 h3 ⊢
        rw [if_neg (by omega)]
        split
        · exact c
        · next c2 => rw [if_neg c2] at h3; exact h3 (by omega)
    · refine ⟨id, d, U0, L0, l, ?_, h, by omega, rfl, fun v => ⟨?_, ?_⟩, rfl⟩
      · simp only [lastAvailableSegment, lastSegment_eq h.ring, Res.ok_bind, List.getLast?_append, List.getLast?_singleton,
          Option.some_or, en, c, decide_false]
        rw [if_pos trivial]
      · intro i hi
        have := hs.ne i
        simp only [slen_snoc, List.length_append, List.length_singleton] at hi this ⊢
        split
        · omega
        · next c2 => rw [if_neg c2] at this; exact this hi
      · intro i h1 h2
        have h3 := hs.mid i h1
        simp only [slen_snoc, List.length_append, List.length_singleton] at h2 h3 ⊢
        rw [if_neg (by omega)] at h3 ⊢
        exact h3 h2

theorem firstAvailable_spec (hg : cfg.Good) {d : Deq T} {L : List (List T)} (hd : DInv cfg d L) :
    ∃ id d' U' L' l', firstAvailableSegment cfg d = .ok (some id, d') ∧ Rep cfg d' (id :: U') (l' :: L') ∧
      l'.length < cfg.segCap ∧ (l' :: L').flatten = L.flatten ∧ (∀ v, Shape cfg.segCap ((v :: l') :: L')) ∧ d'.size = d.size := by
  obtain ⟨U, h, hroom, hs, hz⟩ := hd
  have hpos := hg.pos
  have hl := h.len
  obtain ⟨d1, e1, hm1, hr1, hlt1⟩ := growIfFull_spec h.ring (DInv.size0 h hs hz)
  have h1 := h.moved hm1 hr1
  obtain ⟨id2, d2, e2, h2, z2, -⟩ := h1.addFirst hg hlt1
  cases L with
  | nil =>
    have hU : U = [] := List.length_eq_zero_iff.1 (by simpa using hl)
    subst hU
    refine ⟨id2, d2, [], [], [], ?_, h2, hpos, rfl, fun v => ⟨?_, ?_⟩, z2.trans hm1.size⟩
    · simp only [firstAvailableSegment, firstSegment_eq h.ring, firstSegment_eq hr1, e1, Res.ok_bind, List.head?_nil, nilOrFull]
      rw [if_neg (by simp), if_pos trivial, e2]; rfl
    · intro i hi; simp at hi; subst hi; simp [slen]
    · intro i h1 h2; simp at h2
  | cons l L0 =>
    obtain ⟨id, U0, rfl, hU0⟩ := h.head
    have hU : (id :: U0)[0]? = some id := rfl
    have hL : (l :: L0)[0]? = some l := rfl
    have en := nilOrFull_some (h.load hU hL)
    have en1 := nilOrFull_some (h1.load hU hL)
    have hle : l.length ≤ cfg.segCap := by have := h.slen_le 0; rwa [slen_eq hL] at this
    by_cases c : l.length = cfg.segCap
    · refine ⟨id2, d2, id :: U0, l :: L0, [], ?_, h2, hpos, by simp, fun v => ⟨?_, ?_⟩, z2.trans hm1.size⟩
      · simp only [firstAvailableSegment, firstSegment_eq h.ring, firstSegment_eq hr1, e1, Res.ok_bind, List.head?_cons, en, en1, c, decide_true]
        rw [if_neg (by simp), if_pos trivial, e2]; rfl
      · intro i hi
        cases i with
        | zero => simp [slen_cons_zero]
        | succ i => rw [slen_cons_succ]; exact hs.ne i (by simpa using hi)
      · intro i h1 h2
        cases i with
        | zero => omega
        | succ i =>
          rw [slen_cons_succ]
          cases i with
          | zero => rw [slen_cons_zero]; exact c
          | succ i => exact hs.mid (i + 1) (by omega) (by simpa using h2)
    · refine ⟨id, d, U0, L0, l, ?_, h, by omega, rfl, fun v => ⟨?_, ?_⟩, rfl⟩
      · simp only [firstAvailableSegment, firstSegment_eq h.ring, Res.ok_bind, List.head?_cons, en, c, decide_false]
        rw [if_pos trivial]
      · intro i hi
        cases i with
        | zero => simp [slen_cons_zero]
        | succ i => rw [slen_cons_succ]; exact hs.ne (i + 1) (by simpa using hi)
      · intro i h1 h2
        cases i with
        | zero => omega
        | succ i => rw [slen_cons_succ]; exact hs.mid (i + 1) (by omega) (by simpa using h2)

theorem pushBack_spec (hg : cfg.Good) {d : Deq T} {c : List T} (hd : Inv cfg d c) (v : T) :
    ∃ d', pushBack cfg d v = .ok d' ∧ Inv cfg d' (c ++ [v]) := by
  obtain ⟨L, hd, rfl⟩ := hd
  obtain ⟨id, d1, U1, L1, l1, e1, h1, hlt, hf, hsh, hz⟩ := lastAvailable_spec hg hd
  have hsz : d.size = L.flatten.length := by obtain ⟨_, _, _, _, hz⟩ := hd; exact hz
  have hl := h1.len
  have hUL : U1.length = L1.length := by simpa using hl
  have hU : (U1 ++ [id])[L1.length]? = some id := by rw [List.getElem?_append_right (by omega), hUL]; simp
  have hL : (L1 ++ [l1])[L1.length]? = some l1 := by simp
  obtain ⟨s, e2, r2⟩ := h1.load hU hL
  obtain ⟨s', e3, r3⟩ := r2.pushBack hlt v
  have h2 := h1.store hU r3
  have eset : (L1 ++ [l1]).set L1.length (l1 ++ [v]) = L1 ++ [l1 ++ [v]] := by
    rw [List.set_append_right _ _ (by omega)]; simp
  rw [eset] at h2
  have hf' : (L1 ++ [l1 ++ [v]]).flatten = L.flatten ++ [v] := by rw [← hf]; simp
  obtain ⟨d', e4, h4⟩ := finish_grow h2 (hsh v) (by rw [hf']; simp [Deque.store, hz, hsz])
  refine ⟨d', ?_, _, h4, hf'⟩
  simp only [Deque.pushBack, e1, Res.ok_bind, Res.ofOption_some, e2, e3]
  exact e4

theorem pushFront_spec (hg : cfg.Good) {d : Deq T} {c : List T} (hd : Inv cfg d c) (v : T) :
    ∃ d', pushFront cfg d v = .ok d' ∧ Inv cfg d' (v :: c) := by
  obtain ⟨L, hd, rfl⟩ := hd
  obtain ⟨id, d1, U1, L1, l1, e1, h1, hlt, hf, hsh, hz⟩ := firstAvailable_spec hg hd
  have hsz : d.size = L.flatten.length := by obtain ⟨_, _, _, _, hz⟩ := hd; exact hz
  have hU : (id :: U1)[0]? = some id := rfl
  obtain ⟨s, e2, r2⟩ := h1.load hU (show (l1 :: L1)[0]? = some l1 from rfl)
  obtain ⟨s', e3, r3⟩ := r2.pushFront hlt v
  have h2 := h1.store hU r3
  rw [List.set_cons_zero] at h2
  have hf' : ((v :: l1) :: L1).flatten = v :: L.flatten := by rw [← hf]; simp
  obtain ⟨d', e4, h4⟩ := finish_grow h2 (hsh v) (by rw [hf']; simp [Deque.store, hz, hsz])
  refine ⟨d', ?_, _, h4, hf'⟩
  simp only [Deque.pushFront, e1, Res.ok_bind, Res.ofOption_some, e2, e3]
  exact e4

theorem Shape.tail {K : Nat} {l : List T} {L : List (List T)} (h : Shape K (l :: L)) : Shape K L :=
  ⟨fun i hi => by have := h.ne (i + 1) (by simpa using hi); rwa [slen_cons_succ] at this,
   fun i h0 hi => by have := h.mid (i + 1) (by omega) (by simpa using hi); rwa [slen_cons_succ] at this⟩

theorem Shape.init {K : Nat} {l : List T} {L : List (List T)} (h : Shape K (L ++ [l])) : Shape K L :=
  ⟨fun i hi => by have := h.ne i (by simp; omega); rwa [slen_snoc, if_neg (by omega)] at this,
   fun i h0 hi => by have := h.mid i h0 (by simp; omega); rwa [slen_snoc, if_neg (by omega)] at this⟩

theorem Shape.head {K : Nat} {l l' : List T} {L : List (List T)} (h : Shape K (l :: L)) (hl : 1 ≤ l'.length) : Shape K (l' :: L) := by
  refine ⟨fun i hi => ?_, fun i h0 hi => ?_⟩
  · cases i with
    | zero => rwa [slen_cons_zero]
    | succ i => exact (slen_cons_succ l L i ▸ h.ne (i + 1) (by simpa using hi))
  · cases i with
    | zero => omega
    | succ i => exact (slen_cons_succ l L i ▸ h.mid (i + 1) h0 (by simpa using hi))

theorem Shape.last {K : Nat} {l l' : List T} {L : List (List T)} (h : Shape K (L ++ [l])) (hl : 1 ≤ l'.length) : Shape K (L ++ [l']) := by
  refine ⟨fun i hi => ?_, fun i h0 hi => ?_⟩
  · have := h.ne i (by simpa using hi)
    rw [slen_snoc] at this ⊢
    split
    · exact hl
    · next c => rwa [if_neg c] at this
  · have := h.mid i h0 (by simpa using hi)
    simp at hi
    rw [slen_snoc, if_neg (by omega)] at this ⊢
    exact this

theorem popFront_spec (hg : cfg.Good) {d : Deq T} {x : T} {c : List T} (hd : Inv cfg d (x :: c)) :
    ∃ d', popFront cfg d = .ok (x, d') ∧ Inv cfg d' c := by
  obtain ⟨L, ⟨U, h, hroom, hs, hz⟩, hc⟩ := hd
  cases L with
  | nil => simp at hc
  | cons l0 L0 =>
    obtain ⟨id, U0, rfl, hU0⟩ := h.head
    have hl0 := hs.ne 0 (by simp)
    rw [slen_cons_zero] at hl0
    cases l0 with
    | nil => simp at hl0
    | cons y l =>
      simp only [List.flatten_cons, List.cons_append, List.cons.injEq] at hc
      obtain ⟨rfl, rfl⟩ := hc
      have hU : (id :: U0)[0]? = some id := rfl
      obtain ⟨s, e2, r2⟩ := h.load hU (show ((y :: l) :: L0)[0]? = some (y :: l) from rfl)
      obtain ⟨s', e3, r3⟩ := r2.popFront
      have h2 := h.store hU r3
      rw [List.set_cons_zero] at h2
      have e1 : idx d.segs d.begin_ = .ok (some id) := by
        have := firstSegment_eq h.ring
        have hle := h.ring.le
        simp at hle
        rw [firstSegment, if_neg (by omega)] at this
        exact this
      have hne : ¬ d.size = 0 := by rw [hz]; simp; omega
      by_cases c : l = []
      · subst c
        obtain ⟨d3, e4, h4, z4, g4⟩ := h2.dropFirst
        obtain ⟨d', e5, h5⟩ := finish_shrink hg h4 (by
            left; rw [g4]
            have := h2.ring.le; simp at this; omega) hs.tail (by
            rw [z4]; simp [Deque.store, hz])
        refine ⟨d', ?_, _, h5, by simp⟩
        simp only [Deque.popFront, if_neg hne, e1, Res.ok_bind, Res.ofOption_some, e2, e3]
        have : s'.size = 0 := by rw [Seg.size, r3.size]; rfl
        simp only [if_pos this, e4, Res.ok_bind, e5]
      · have hl : 1 ≤ l.length := by cases l with | nil => exact absurd rfl c | cons _ _ => simp
        obtain ⟨d', e5, h5⟩ := finish_shrink hg h2 (by simpa [Room, Deque.store] using hroom) (hs.head hl) (by
            simp [Deque.store, hz])
        refine ⟨d', ?_, _, h5, by simp⟩
        simp only [Deque.popFront, if_neg hne, e1, Res.ok_bind, Res.ofOption_some, e2, e3]
        have : ¬ s'.size = 0 := by rw [Seg.size, r3.size]; omega
        simp only [if_neg this, Res.ok_bind, e5]

theorem popBack_spec (hg : cfg.Good) {d : Deq T} {x : T} {c : List T} (hd : Inv cfg d (c ++ [x])) :
    ∃ d', popBack cfg d = .ok (x, d') ∧ Inv cfg d' c := by
  obtain ⟨L, ⟨U, h, hroom, hs, hz⟩, hc⟩ := hd
  rcases List.eq_nil_or_concat L with rfl | ⟨L0, l0, rfl⟩
  · simp at hc
  · rw [List.concat_eq_append] at *
    obtain ⟨U0, id, rfl, hU0⟩ := h.last
    have hl0 := hs.ne L0.length (by simp)
    rw [slen_snoc, if_pos rfl] at hl0
    rcases List.eq_nil_or_concat l0 with rfl | ⟨l, y, rfl⟩
    · simp at hl0
    · rw [List.concat_eq_append] at *
      simp only [List.flatten_append, List.flatten_singleton, ← List.append_assoc] at hc
      obtain ⟨rfl, hxy⟩ := List.append_inj' hc rfl
      simp at hxy
      subst hxy
      have hU : (U0 ++ [id])[L0.length]? = some id := by rw [List.getElem?_append_right (by omega), hU0]; simp
      have hL : (L0 ++ [l ++ [y]])[L0.length]? = some (l ++ [y]) := by simp
      obtain ⟨s, e2, r2⟩ := h.load hU hL
      obtain ⟨s', e3, r3⟩ := r2.popBack
      have h2 := h.store hU r3
      have eset : (L0 ++ [l ++ [y]]).set L0.length l = L0 ++ [l] := by
        rw [List.set_append_right _ _ (by omega)]; simp
      rw [eset] at h2
      obtain ⟨e', p1, p2, d3, e4, h4, z4, g4⟩ := h2.dropLastSeg
      have hne : ¬ d.size = 0 := by rw [hz]; simp; omega
      have p1' : preIndex d d.end_ = .ok e' := p1
      have p2' : idx d.segs e' = .ok (some id) := p2
      by_cases c : l = []
      · subst c
        obtain ⟨d', e5, h5⟩ := finish_shrink hg h4 (by
            left; rw [g4]
            have := h2.ring.le; simp at this; omega) hs.init (by
            rw [z4]; simp [Deque.store, hz])
        refine ⟨d', ?_, _, h5, by simp⟩
        simp only [Deque.popBack, if_neg hne, p1', p2', Res.ok_bind, Res.ofOption_some, e2, e3]
        have : s'.size = 0 := by rw [Seg.size, r3.size]; rfl
        simp only [if_pos this, e4, Res.ok_bind, e5]
      · have hl : 1 ≤ l.length := by cases l with | nil => exact absurd rfl c | cons _ _ => simp
        obtain ⟨d', e5, h5⟩ := finish_shrink hg h2 (by simpa [Room, Deque.store] using hroom) (hs.last hl) (by
            simp [Deque.store, hz]; omega)
        refine ⟨d', ?_, _, h5, by simp⟩
        simp only [Deque.popBack, if_neg hne, p1', p2', Res.ok_bind, Res.ofOption_some, e2, e3]
        have : ¬ s'.size = 0 := by rw [Seg.size, r3.size]; omega
        simp only [if_neg this, Res.ok_bind, e5]

theorem off_le {d : Deq T} {U : List Nat} {L : List (List T)} (h : Rep cfg d U L) (k : Nat) :
    off L (k + 1) ≤ slen L 0 + k * cfg.segCap := by
  induction k with
  | zero => simp [off_succ]
  | succ k ih =>
    rw [off_succ, Nat.succ_mul]
    have := h.slen_le (k + 1)
    omega

/-- `pos` finds the segment and the offset in it. -/
theorem pos_spec (hg : cfg.Good) {d : Deq T} {U : List Nat} {L : List (List T)} (h : Rep cfg d U L) (hs : Shape cfg.segCap L)
    {p : Nat} (hp : p < L.flatten.length) :
    ∃ s q : Nat, pos cfg d p = .ok ((s : Int), (q : Int)) ∧ s < L.length ∧ q < slen L s ∧ off L s + q = p := by
  have hpos := hg.pos
  cases hL : L with
  | nil => subst hL; simp at hp
  | cons l0 L0 =>
    rw [← hL]
    have h0 : L[0]? = some l0 := by rw [hL]; rfl
    obtain ⟨id, hU⟩ := h.getU h0
    obtain ⟨sg, e1, r1⟩ := h.load hU h0
    have ef : firstSegment d = .ok (some id) := by rw [firstSegment_eq h.ring, List.head?_eq_getElem?, hU]
    have es0 := slen_eq h0
    have hn : 0 < L.length := by rw [hL]; simp
    simp only [Deque.pos, ef, Res.ok_bind, Res.ofOption_some, e1, Seg.size, r1.size]
    by_cases c : (p : Int) ≤ (l0.length : Int) - 1
    · rw [if_pos c]
      exact ⟨0, p, rfl, hn, by omega, by simp⟩
    · rw [if_neg c, if_neg (by omega)]
      obtain ⟨r, hr⟩ : ∃ r, p = l0.length + r := ⟨p - l0.length, by omega⟩
      have er : (p : Int) - l0.length = (r : Int) := by omega
      rw [er]
      have hdm := Nat.div_add_mod r cfg.segCap
      have hm := Nat.mod_lt r hpos
      have hmul : cfg.segCap * (r / cfg.segCap) = (r / cfg.segCap) * cfg.segCap := Nat.mul_comm _ _
      have hlt : r / cfg.segCap + 1 < L.length := by
        have h1 := off_le h (L.length - 1)
        have h2 : L.length - 1 + 1 = L.length := by omega
        rw [h2, off_all L (Nat.le_refl _)] at h1
        have h3 : r < (L.length - 1) * cfg.segCap := by omega
        have h4 : r / cfg.segCap < L.length - 1 := (Nat.div_lt_iff_lt_mul hpos).2 h3
        omega
      have ho := hs.off' _ hlt
      refine ⟨r / cfg.segCap + 1, r % cfg.segCap, ?_, hlt, ?_, by omega⟩
      · rw [← Int.ofNat_tdiv, ← Int.ofNat_tmod]; rfl
      · by_cases c2 : r / cfg.segCap + 1 + 1 < L.length
        · rw [hs.mid _ (Nat.succ_pos _) c2]; exact hm
        · have h1 := off_succ L (r / cfg.segCap + 1)
          rw [off_all L (Nat.not_lt.1 c2)] at h1
          omega

theorem at_spec (hg : cfg.Good) {d : Deq T} {c : List T} (hd : Inv cfg d c) (p : Int) :
    at_ cfg d p = Res.ofOption (Seq.at? c p) := by
  have hsz := hd.size
  obtain ⟨L, ⟨U, h, -, hs, hz⟩, rfl⟩ := hd
  unfold at_ Seq.at?
  by_cases c : p < 0 ∨ p ≥ d.size
  · rw [if_pos c]
    split
    · rw [List.getElem?_eq_none (by omega)]; rfl
    · rfl
  · rw [if_neg c, if_pos (by omega)]
    obtain ⟨n, rfl⟩ := Int.eq_ofNat_of_zero_le (show 0 ≤ p by omega)
    obtain ⟨s, q, e1, hs', hq, ho⟩ := pos_spec hg h hs (p := n) (by omega)
    have hl : L[s]? = some L[s] := by simp
    generalize L[s] = l at hl
    obtain ⟨id, e2, hu⟩ := h.segmentAt hl
    obtain ⟨sg, e3, r3⟩ := h.load hu hl
    rw [slen_eq hl] at hq
    simp only [e1, e2, Res.ok_bind, Res.ofOption_some, e3, r3.at_, Int.toNat_natCast]
    rw [Seq.at?, if_pos (by omega), ← ho, flatten_get hl hq]; rfl

theorem set_spec (hg : cfg.Good) {d : Deq T} {c : List T} (hd : Inv cfg d c) (p : Int) (v : T) :
    ∃ d', set cfg d p v = .ok (decide (p < 0 ∨ p ≥ (c.length : Int)), d') ∧
      Inv cfg d' (if p < 0 ∨ p ≥ (c.length : Int) then c else c.set p.toNat v) := by
  have hsz := hd.size
  unfold Deque.set
  by_cases c1 : p < 0 ∨ p ≥ (c.length : Int)
  · rw [if_pos (by omega), if_pos c1]
    exact ⟨d, by simp [c1], hd⟩
  · rw [if_neg (by omega), if_neg c1]
    obtain ⟨L, ⟨U, h, hroom, hs, hz⟩, rfl⟩ := hd
    obtain ⟨n, rfl⟩ := Int.eq_ofNat_of_zero_le (show 0 ≤ p by omega)
    obtain ⟨s, q, e1, hs', hq, ho⟩ := pos_spec hg h hs (p := n) (by omega)
    have hl : L[s]? = some L[s] := by simp
    generalize L[s] = l at hl
    obtain ⟨id, e2, hu⟩ := h.segmentAt hl
    obtain ⟨sg, e3, r3⟩ := h.load hu hl
    rw [slen_eq hl] at hq
    obtain ⟨sg', e4, r4⟩ := r3.set (p := (q : Int)) (by omega) (by omega) v
    have h2 := h.store hu r4
    have hfl := flatten_update hl hq v
    have hsl : ∀ j, slen (L.set s (l.set q v)) j = slen L j := by
      intro j; rw [slen_set hs']; split
      · next c => subst c; rw [slen_eq hl]; simp
      · rfl
    refine ⟨_, ?_, _, ⟨U, h2, by simpa [Room, Deque.store] using hroom, ⟨?_, ?_⟩, ?_⟩, ?_⟩
    · simp only [e1, e2, Res.ok_bind, Res.ofOption_some, e3, e4]
      simp only [c1, decide_false]
    · intro i hi; rw [Int.toNat_natCast, hsl]; exact hs.ne i (by simpa using hi)
    · intro i h0 hi; rw [Int.toNat_natCast, hsl]; exact hs.mid i h0 (by simpa using hi)
    · rw [Int.toNat_natCast, hfl]; simpa [Deque.store] using hz
    · rw [Int.toNat_natCast, hfl, ho]; rfl

theorem front_spec {d : Deq T} {c : List T} (hd : Inv cfg d c) : front d = Res.ofOption c.head? := by
  obtain ⟨L, ⟨U, h, -, hs, hz⟩, rfl⟩ := hd
  unfold front
  rw [firstSegment_eq h.ring]
  have hl := h.len
  cases L with
  | nil =>
    have hU : U = [] := List.length_eq_zero_iff.1 (by simpa using hl)
    subst hU; rfl
  | cons l L0 =>
    obtain ⟨id, U0, rfl, hU0⟩ := h.head
    obtain ⟨s, e1, r1⟩ := h.load (i := 0) (id := id) rfl (show (l :: L0)[0]? = some l from rfl)
    have := hs.ne 0 (by simp)
    rw [slen_cons_zero] at this
    simp only [List.head?_cons, Res.ok_bind, Res.ofOption_some, e1, r1.front]
    cases l with
    | nil => simp at this
    | cons x l => rfl

theorem back_spec {d : Deq T} {c : List T} (hd : Inv cfg d c) : back d = Res.ofOption c.getLast? := by
  obtain ⟨L, ⟨U, h, -, hs, hz⟩, rfl⟩ := hd
  unfold back
  rw [lastSegment_eq h.ring]
  have hl := h.len
  rcases List.eq_nil_or_concat L with rfl | ⟨L0, l, rfl⟩
  · have hU : U = [] := List.length_eq_zero_iff.1 (by simpa using hl)
    subst hU; rfl
  · rw [List.concat_eq_append] at *
    obtain ⟨U0, id, rfl, hU0⟩ := h.last
    have hU : (U0 ++ [id])[L0.length]? = some id := by rw [List.getElem?_append_right (by omega), hU0]; simp
    obtain ⟨s, e1, r1⟩ := h.load hU (show (L0 ++ [l])[L0.length]? = some l by simp)
    have := hs.ne L0.length (by simp)
    rw [slen_snoc, if_pos rfl] at this
    simp only [List.getLast?_append, List.getLast?_singleton, Option.some_or, Res.ok_bind, Res.ofOption_some, e1, r1.back]
    rcases List.eq_nil_or_concat l with rfl | ⟨l', x, rfl⟩
    · simp at this
    · simp

theorem popFront_panic {d : Deq T} (hd : Inv cfg d []) : popFront cfg d = .panic := by
  have := hd.size; unfold Deque.popFront; rw [if_pos (by simpa using this)]
theorem popBack_panic {d : Deq T} (hd : Inv cfg d []) : popBack cfg d = .panic := by
  have := hd.size; unfold Deque.popBack; rw [if_pos (by simpa using this)]

end GoSTL.Deque
