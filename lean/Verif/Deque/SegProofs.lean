import Verif.Deque.Segment
/-!
# Each segment operation does to the represented list what its name says
-/
namespace GoSTL.Deque
variable {T : Type} {K : Nat}

theorem ring_lt {b i : Nat} (hb : b < K) (hi : i ≤ K) : ring K b i < K := by unfold ring; split <;> omega
theorem ring_inj {b i j : Nat} (hb : b < K) (hi : i < K) (hj : j < K) : ring K b i = ring K b j ↔ i = j := by
  unfold ring; split <;> split <;> omega
theorem ring_zero {b : Nat} (hb : b < K) : ring K b 0 = b := by unfold ring; split <;> omega
theorem ring_K {b : Nat} : ring K b K = b := by unfold ring; split <;> omega
theorem ring_ring {b i j : Nat} (hb : b < K) (h : i + j ≤ K) : ring K (ring K b i) j = ring K b (i + j) := by
  unfold ring; split <;> split <;> (try split) <;> omega

theorem modG_next {b : Nat} (hb : b < K) : modG (b + 1) K = .ok (ring K b 1) := by
  rw [modG_ring (by omega) (by omega)]; rfl
theorem modG_pre {b : Nat} (hb : b < K) : modG (b + K - 1) K = .ok (ring K b (K - 1)) := by
  rw [modG_ring (by omega) (by omega)]; unfold ring
  congr 1
  have : b + K - 1 = b + (K - 1) := by omega
  rw [this]
theorem modG_at {b i : Nat} (hb : b < K) (hi : i ≤ K) : modG (i + b) K = .ok (ring K b i) := by
  rw [modG_ring (by omega) (by omega)]; unfold ring
  rw [Nat.add_comm]

/-- The cell `j` places after `b`. -/
def cell (K : Nat) (s : Seg T) (b j : Nat) : Option T := s.data[ring K b j]?

theorem idx_cell {s : Seg T} (hl : s.data.length = K) {b j : Nat} (hb : b < K) (hj : j ≤ K) :
    ∃ x, cell K s b j = some x ∧ idx s.data (ring K b j) = .ok x := by
  have : ring K b j < s.data.length := by rw [hl]; exact ring_lt hb hj
  refine ⟨s.data[ring K b j], ?_, ?_⟩
  · simp [cell, this]
  · simp [idx, this]

theorem upd_ok {s : Seg T} (hl : s.data.length = K) {b j : Nat} (hb : b < K) (hj : j ≤ K) (v : T) :
    upd s.data (ring K b j) v = .ok (s.data.set (ring K b j) v) := by
  unfold upd; rw [if_pos]; rw [hl]; exact ring_lt hb hj

theorem cell_set {s : Seg T} (hl : s.data.length = K) {b i j : Nat} (hb : b < K) (hi : i < K) (hj : j < K) (v : T) :
    cell K { s with data := s.data.set (ring K b i) v } b j = if i = j then some v else cell K s b j := by
  simp only [cell]
  rw [List.getElem?_set]
  have h1 := ring_lt (K := K) hb (show i ≤ K by omega)
  by_cases c : i = j
  · subst c; simp [hl, h1]
  · simp [c, (ring_inj hb hi hj).not.2 c]

theorem cell_shift {s : Seg T} {b i j : Nat} (hb : b < K) (h : i + j ≤ K) : cell K s (ring K b i) j = cell K s b (i + j) := by
  simp only [cell, ring_ring hb h]

theorem cell_K {s : Seg T} {b : Nat} (hb : b < K) : cell K s b K = cell K s b 0 := by
  simp only [cell, ring_K, ring_zero hb]

namespace SegRep
variable {s : Seg T} {l : List T}

theorem cells (h : SegRep K s l) {i : Nat} (hi : i < l.length) : cell K s s.begin_ i = l[i]? := h.vals i hi

theorem new (zero : T) (hK : 0 < K) : SegRep K (Seg.new zero K) ([] : List T) :=
  ⟨hK, by simp [Seg.new], rfl, by simp, hK, by simp [Seg.new, ring], by simp⟩

theorem full_iff (h : SegRep K s l) : s.full = decide (l.length = K) := by
  simp only [Seg.full, h.size, h.len]
  congr 1; apply propext; omega

theorem empty_iff (h : SegRep K s l) : s.empty = decide (l = []) := by
  simp only [Seg.empty, h.size]
  congr 1; apply propext
  rw [← List.length_eq_zero_iff]; omega

theorem clear (h : SegRep K s l) : SegRep K s.clear ([] : List T) :=
  ⟨h.pos, h.len, rfl, by simp, h.pos, by simp [Seg.clear, ring], by simp⟩

theorem pushBack (h : SegRep K s l) (hl : l.length < K) (v : T) : ∃ s', s.pushBack v = .ok s' ∧ SegRep K s' (l ++ [v]) := by
  have hb := h.beg
  have h1 : upd s.data s.end_ v = .ok (s.data.set (ring K s.begin_ l.length) v) := by
    rw [h.end_]; exact upd_ok h.len hb (by omega) v
  have h2 : modG (s.end_ + 1) (s.data.set (ring K s.begin_ l.length) v).length = .ok (ring K s.begin_ (l.length + 1)) := by
    rw [List.length_set, h.len, modG_next (by rw [h.end_]; exact ring_lt hb (by omega)), h.end_, ring_ring hb (by omega)]
  refine ⟨{ data := s.data.set (ring K s.begin_ l.length) v, begin_ := s.begin_, end_ := ring K s.begin_ (l.length + 1), nSize := s.nSize + 1 }, ?_, ?_⟩
  · simp only [Seg.pushBack, h1, Res.ok_bind, Seg.nextIndex, Seg.capacity, h2]
  · refine ⟨h.pos, by simp [h.len], by simp [h.size], by simp; omega, hb, by simp, ?_⟩
    intro i hi
    simp at hi
    have := cell_set h.len hb hl (show i < K by omega) v
    simp only [cell] at this
    simp only [this]
    by_cases c : l.length = i
    · subst c; simp
    · rw [if_neg c, h.vals i (by omega), List.getElem?_append_left (by omega)]

theorem pushFront (h : SegRep K s l) (hl : l.length < K) (v : T) : ∃ s', s.pushFront v = .ok s' ∧ SegRep K s' (v :: l) := by
  have hb := h.beg
  have h1 : s.preIndex s.begin_ = .ok (ring K s.begin_ (K - 1)) := by simp only [Seg.preIndex, Seg.capacity, h.len]; exact modG_pre hb
  have h2 := upd_ok h.len hb (show K - 1 ≤ K by omega) v
  have hb' := ring_lt (K := K) hb (show K - 1 ≤ K by omega)
  refine ⟨{ data := s.data.set (ring K s.begin_ (K - 1)) v, begin_ := ring K s.begin_ (K - 1), end_ := s.end_, nSize := s.nSize + 1 }, ?_, ?_⟩
  · simp only [Seg.pushFront, h1, Res.ok_bind, h2]
  · have e0 : ∀ i, 1 ≤ i → i ≤ K → ring K (ring K s.begin_ (K - 1)) i = ring K s.begin_ (i - 1) := by
      intro i h1 h2; unfold ring; split <;> split <;> (try split) <;> omega
    refine ⟨h.pos, by simp [h.len], by simp [h.size], by simp; omega, hb', ?_, ?_⟩
    · simp only [List.length_cons]
      rw [e0 _ (by omega) (by omega), h.end_]; rfl
    · intro i hi
      simp at hi
      have := cell_set h.len hb' h.pos (show i < K by omega) v
      rw [ring_zero hb'] at this
      simp only [cell] at this
      simp only [this]
      by_cases c : 0 = i
      · subst c; simp
      · rw [if_neg c, e0 i (by omega) (by omega), h.vals (i - 1) (by omega)]
        cases i with
        | zero => omega
        | succ i => simp

theorem popFront {x : T} (h : SegRep K s (x :: l)) : ∃ s', s.popFront = .ok (x, s') ∧ SegRep K s' l := by
  have hb := h.beg
  have hle := h.le
  have hx := h.vals 0 (by simp)
  rw [ring_zero hb] at hx
  have h1 : idx s.data s.begin_ = .ok x := by unfold idx; rw [hx]; rfl
  have h2 : s.nextIndex s.begin_ = .ok (ring K s.begin_ 1) := by simp only [Seg.nextIndex, Seg.capacity, h.len]; exact modG_next hb
  simp at hle
  refine ⟨{ s with begin_ := ring K s.begin_ 1, nSize := s.nSize - 1 }, by simp only [Seg.popFront, h1, h2, Res.ok_bind], ⟨h.pos, h.len, by simp [h.size], by omega, ring_lt hb (by omega), ?_, ?_⟩⟩
  · rw [ring_ring hb (by omega), h.end_, List.length_cons, Nat.add_comm]
  · intro i hi
    rw [ring_ring hb (by omega), Nat.add_comm, h.vals (i + 1) (by simp; omega)]; simp

theorem popBack {x : T} (h : SegRep K s (l ++ [x])) : ∃ s', s.popBack = .ok (x, s') ∧ SegRep K s' l := by
  have hb := h.beg
  have hle := h.le
  have hx := h.vals l.length (by simp)
  simp at hle
  have e0 : ring K (ring K s.begin_ (l.length + 1)) (K - 1) = ring K s.begin_ l.length := by
    unfold ring; split <;> split <;> (try split) <;> omega
  have h2 : s.preIndex s.end_ = .ok (ring K s.begin_ l.length) := by
    simp only [Seg.preIndex, Seg.capacity, h.len, h.end_]; rw [modG_pre (ring_lt hb h.le)]
    simp only [List.length_append, List.length_singleton, e0]
  have h1 : idx s.data (ring K s.begin_ l.length) = .ok x := by unfold idx; rw [hx]; simp
  refine ⟨{ s with end_ := ring K s.begin_ l.length, nSize := s.nSize - 1 }, by simp only [Seg.popBack, h2, h1, Res.ok_bind], ⟨h.pos, h.len, by simp [h.size], by omega, hb, rfl, ?_⟩⟩
  intro i hi
  rw [h.vals i (by simp; omega), List.getElem?_append_left hi]

theorem at_ (h : SegRep K s l) (p : Int) : s.at_ p = Res.ofOption (Seq.at? l p) := by
  unfold Seg.at_ Seq.at?
  by_cases c : p < 0 ∨ p ≥ s.nSize
  · rw [if_pos c]
    by_cases c0 : 0 ≤ p
    · rw [if_pos c0, List.getElem?_eq_none (by have := h.size; omega)]; rfl
    · rw [if_neg c0]; rfl
  · rw [if_neg c, if_pos (by omega)]
    have := h.size; have := h.le
    simp only [Seg.capacity, h.len]
    rw [modG_at h.beg (by omega)]
    simp only [Res.ok_bind, idx]
    rw [h.vals _ (by omega)]

theorem front (h : SegRep K s l) : s.front = Res.ofOption l.head? := by
  unfold Seg.front; rw [h.at_, Seq.at?, if_pos (by omega), List.head?_eq_getElem?]; rfl

theorem back (h : SegRep K s l) : s.back = Res.ofOption l.getLast? := by
  unfold Seg.back; rw [h.at_, Seq.at?, h.size, List.getLast?_eq_getElem?]
  by_cases c : l.length = 0
  · rw [if_neg (by omega), List.getElem?_eq_none (by omega)]
  · rw [if_pos (by omega)]; congr 2; omega

theorem set (h : SegRep K s l) {p : Int} (h0 : 0 ≤ p) (h1 : p < l.length) (v : T) :
    ∃ s', s.set p v = .ok s' ∧ SegRep K s' (l.set p.toNat v) := by
  have hle := h.le
  have hb := h.beg
  have e0 : ¬ (p < 0 ∨ p ≥ (s.data.length : Int)) := by rw [h.len]; omega
  have e1 : modG (p.toNat + s.begin_) s.capacity = .ok (ring K s.begin_ p.toNat) := by
    simp only [Seg.capacity, h.len]; exact modG_at hb (by omega)
  have e2 := upd_ok h.len hb (show p.toNat ≤ K by omega) v
  refine ⟨{ s with data := s.data.set (ring K s.begin_ p.toNat) v }, by rw [Seg.set, if_neg e0]; simp only [e1, e2, Res.ok_bind], ⟨h.pos, by simp [h.len], by simp [h.size], by simpa using hle, hb,
    by simpa using h.end_, ?_⟩⟩
  intro i hi
  simp at hi
  have := cell_set h.len hb (show p.toNat < K by omega) (show i < K by omega) v
  simp only [cell] at this
  simp only [this]
  rw [List.getElem?_set]
  split
  · next c => subst c; simp [hi]
  · exact h.vals i hi

end SegRep

/-! ## The moving loops -/

theorem insFrontLoop_spec : ∀ (n i : Nat) (s : Seg T), s.data.length = K → i < K → n < K →
    ∃ d, Seg.insFrontLoop n i s = .ok (ring K i n, { s with data := d }) ∧ d.length = K ∧
      ∀ j, j < K → cell K { s with data := d } i j = if j < n then cell K s i (j + 1) else cell K s i j := by
  intro n
  induction n with
  | zero => intro i s hl hi _; exact ⟨s.data, by simp [Seg.insFrontLoop, ring_zero hi], hl, fun j _ => by simp⟩
  | succ n ih =>
    intro i s hl hi hn
    unfold Seg.insFrontLoop
    have h1 : s.nextIndex i = .ok (ring K i 1) := by simp only [Seg.nextIndex, Seg.capacity, hl]; exact modG_next hi
    obtain ⟨x, hx, h2⟩ := idx_cell hl hi (show 1 ≤ K by omega)
    have h3 := upd_ok hl hi (show 0 ≤ K by omega) x
    rw [ring_zero hi] at h3
    simp only [h1, Res.ok_bind, h2, h3]
    have h4 : ({ s with data := s.data.set i x } : Seg T).nextIndex i = .ok (ring K i 1) := by
      simp only [Seg.nextIndex, Seg.capacity, List.length_set, hl]; exact modG_next hi
    simp only [h4, Res.ok_bind]
    obtain ⟨d, e, l, hc⟩ := ih (ring K i 1) { s with data := s.data.set i x } (by simpa using hl) (ring_lt hi (by omega)) (by omega)
    refine ⟨d, ?_, l, ?_⟩
    · rw [e, ring_ring hi (by omega), Nat.add_comm]
    · intro j hj
      have hs : ∀ k, k < K → cell K { s with data := s.data.set i x } i k = if 0 = k then some x else cell K s i k := by
        intro k hk
        have := cell_set hl hi (show 0 < K by omega) hk x
        rwa [ring_zero hi] at this
      cases j with
      | zero =>
        have := hc (K - 1) (by omega)
        rw [if_neg (by omega), cell_shift hi (by omega), cell_shift hi (by omega)] at this
        have e1 : 1 + (K - 1) = K := by omega
        rw [e1, cell_K hi, cell_K hi, hs 0 (by omega)] at this
        simp only [if_true] at this
        rw [if_pos (by omega)]
        simp only [this, Nat.zero_add, hx]
      | succ j =>
        have := hc j (by omega)
        rw [cell_shift hi (by omega), cell_shift hi (by omega), Nat.add_comm] at this
        rw [this]
        by_cases c : j < n
        · rw [if_pos c, if_pos (by omega), hs _ (by omega), if_neg (by omega)]
          congr 1; omega
        · rw [if_neg c, if_neg (by omega), cell_shift hi (by omega), hs _ (by omega), if_neg (by omega), Nat.add_comm]

theorem insBackLoop_spec {b : Nat} (hb : b < K) : ∀ (n m : Nat) (s : Seg T), s.data.length = K → m < K → n ≤ m →
    ∃ d, Seg.insBackLoop n (ring K b m) s = .ok (ring K b (m - n), { s with data := d }) ∧ d.length = K ∧
      ∀ j, j < K → cell K { s with data := d } b j = if m - n < j ∧ j ≤ m then cell K s b (j - 1) else cell K s b j := by
  intro n
  induction n with
  | zero => intro m s hl hm _; exact ⟨s.data, by simp [Seg.insBackLoop], hl, fun j _ => by rw [if_neg (by omega)]⟩
  | succ n ih =>
    intro m s hl hm hn
    unfold Seg.insBackLoop
    have e0 : ring K (ring K b m) (K - 1) = ring K b (m - 1) := by unfold ring; split <;> split <;> (try split) <;> omega
    have h1 : s.preIndex (ring K b m) = .ok (ring K b (m - 1)) := by
      simp only [Seg.preIndex, Seg.capacity, hl]; rw [modG_pre (ring_lt hb (by omega)), e0]
    obtain ⟨x, hx, h2⟩ := idx_cell hl hb (show m - 1 ≤ K by omega)
    have h3 := upd_ok hl hb (show m ≤ K by omega) x
    simp only [h1, Res.ok_bind, h2, h3]
    have h4 : ({ s with data := s.data.set (ring K b m) x } : Seg T).preIndex (ring K b m) = .ok (ring K b (m - 1)) := by
      simp only [Seg.preIndex, Seg.capacity, List.length_set, hl]; rw [modG_pre (ring_lt hb (by omega)), e0]
    simp only [h4, Res.ok_bind]
    obtain ⟨d, e, l, hc⟩ := ih (m - 1) { s with data := s.data.set (ring K b m) x } (by simpa using hl) (by omega) (by omega)
    refine ⟨d, ?_, l, ?_⟩
    · rw [e]; congr 3; omega
    · intro j hj
      have hs : ∀ k, k < K → cell K { s with data := s.data.set (ring K b m) x } b k = if m = k then some x else cell K s b k :=
        fun k hk => cell_set hl hb hm hk x
      rw [hc j hj]
      by_cases c : j = m
      · subst c; rw [if_neg (by omega), if_pos (by omega), hs _ hj, if_pos rfl, hx]
      · by_cases c2 : m - (n + 1) < j ∧ j ≤ m
        · rw [if_pos c2, if_pos (by omega), hs _ (by omega), if_neg (by omega)]
        · rw [if_neg c2, if_neg (by omega), hs _ hj, if_neg (by omega)]

theorem eraseFrontLoop_spec : ∀ (i : Nat) (s : Seg T), s.data.length = K → s.begin_ < K → i < K →
    ∃ d, Seg.eraseFrontLoop i s = .ok { s with data := d } ∧ d.length = K ∧
      ∀ j, j < K → cell K { s with data := d } s.begin_ j =
        if 0 < j ∧ j ≤ i then cell K s s.begin_ (j - 1) else cell K s s.begin_ j := by
  intro i
  induction i with
  | zero => intro s hl hb _; exact ⟨s.data, rfl, hl, fun j _ => by rw [if_neg (by omega)]⟩
  | succ i ih =>
    intro s hl hb hi
    unfold Seg.eraseFrontLoop
    have h1 : modG (i + 1 + s.begin_) s.capacity = .ok (ring K s.begin_ (i + 1)) := by
      simp only [Seg.capacity, hl]; exact modG_at hb (by omega)
    have h1' : modG (i + s.begin_) s.capacity = .ok (ring K s.begin_ i) := by
      simp only [Seg.capacity, hl]; exact modG_at hb (by omega)
    obtain ⟨x, hx, h2⟩ := idx_cell hl hb (show i ≤ K by omega)
    have h3 := upd_ok hl hb (show i + 1 ≤ K by omega) x
    simp only [h1, h1', Res.ok_bind, h2, h3]
    obtain ⟨d, e, l, hc⟩ := ih { s with data := s.data.set (ring K s.begin_ (i + 1)) x } (by simpa using hl) hb (by omega)
    refine ⟨d, e, l, ?_⟩
    intro j hj
    have hs : ∀ k, k < K → cell K { s with data := s.data.set (ring K s.begin_ (i + 1)) x } s.begin_ k =
        if i + 1 = k then some x else cell K s s.begin_ k := fun k hk => cell_set hl hb hi hk x
    have := hc j hj
    simp only at this
    rw [this]
    by_cases c : j = i + 1
    · subst c; rw [if_neg (by omega), if_pos (by omega), hs _ hj, if_pos rfl]; simpa using hx.symm
    · by_cases c2 : 0 < j ∧ j ≤ i + 1
      · rw [if_pos c2, if_pos (by omega), hs _ (by omega), if_neg (by omega)]
      · rw [if_neg c2, if_neg (by omega), hs _ hj, if_neg (by omega)]

theorem eraseBackLoop_spec : ∀ (n i : Nat) (s : Seg T), s.data.length = K → s.begin_ < K → i + n ≤ K →
    ∃ d, Seg.eraseBackLoop n i s = .ok { s with data := d } ∧ d.length = K ∧
      ∀ j, j + 1 < i + n → cell K { s with data := d } s.begin_ j =
        if i ≤ j then cell K s s.begin_ (j + 1) else cell K s s.begin_ j := by
  intro n
  induction n with
  | zero => intro i s hl hb _; exact ⟨s.data, rfl, hl, fun j _ => by rw [if_neg (by omega)]⟩
  | succ n ih =>
    intro i s hl hb hi
    unfold Seg.eraseBackLoop
    have h1 : modG (i + 1 + s.begin_) s.capacity = .ok (ring K s.begin_ (i + 1)) := by
      simp only [Seg.capacity, hl]; exact modG_at hb (by omega)
    have h1' : modG (i + s.begin_) s.capacity = .ok (ring K s.begin_ i) := by
      simp only [Seg.capacity, hl]; exact modG_at hb (by omega)
    obtain ⟨x, hx, h2⟩ := idx_cell hl hb (show i + 1 ≤ K by omega)
    have h3 := upd_ok hl hb (show i ≤ K by omega) x
    simp only [h1, h1', Res.ok_bind, h2, h3]
    obtain ⟨d, e, l, hc⟩ := ih (i + 1) { s with data := s.data.set (ring K s.begin_ i) x } (by simpa using hl) hb (by omega)
    refine ⟨d, e, l, ?_⟩
    intro j hj
    have hs : ∀ k, k < K → cell K { s with data := s.data.set (ring K s.begin_ i) x } s.begin_ k =
        if i = k then some x else cell K s s.begin_ k := fun k hk => cell_set hl hb (by omega) hk x
    have := hc j (by omega)
    simp only at this
    rw [this]
    by_cases c : i + 1 ≤ j
    · rw [if_pos c, if_pos (by omega), hs _ (by omega), if_neg (by omega)]
    · rw [if_neg c, hs _ (by omega)]
      by_cases c2 : i = j
      · subst c2; rw [if_pos rfl, if_pos (by omega), hx]
      · rw [if_neg c2, if_neg (by omega)]

namespace SegRep
variable {s : Seg T} {l : List T}

theorem insert (h : SegRep K s l) (hl : l.length < K) {p : Int} (h0 : 0 ≤ p) (v : T) :
    ∃ s', s.insert p v = .ok s' ∧ SegRep K s' (l.take p.toNat ++ v :: l.drop p.toNat) := by
  have hb := h.beg
  have hsz := h.size
  have hlen : (l.take p.toNat ++ v :: l.drop p.toNat).length = l.length + 1 := by simp; omega
  have hget : ∀ i, i < l.length + 1 → p.toNat ≤ l.length → (l.take p.toNat ++ v :: l.drop p.toNat)[i]? =
      if i < p.toNat then l[i]? else if i = p.toNat then some v else l[i - 1]? := by
    intro i hi hp
    by_cases c : i < p.toNat
    · rw [if_pos c, List.getElem?_append_left (by simp; omega), List.getElem?_take_of_lt c]
    · rw [if_neg c, List.getElem?_append_right (by simp; omega), List.length_take]
      by_cases c2 : i = p.toNat
      · have : i - min p.toNat l.length = 0 := by omega
        rw [if_pos c2, this]; simp
      · rw [if_neg c2]
        obtain ⟨k, hk⟩ : ∃ k, i - min p.toNat l.length = k + 1 := ⟨i - min p.toNat l.length - 1, by omega⟩
        rw [hk, List.getElem?_cons_succ, List.getElem?_drop]; congr 1; omega
  unfold Seg.insert
  by_cases c : p < s.nSize - p
  · rw [if_pos c]
    have hp : p.toNat < l.length := by omega
    have h1 : s.preIndex s.begin_ = .ok (ring K s.begin_ (K - 1)) := by simp only [Seg.preIndex, Seg.capacity, h.len]; exact modG_pre hb
    have hb' := ring_lt (K := K) hb (show K - 1 ≤ K by omega)
    obtain ⟨d, e, ld, hc⟩ := insFrontLoop_spec p.toNat (ring K s.begin_ (K - 1)) s h.len hb' (by omega)
    have h2 := upd_ok (s := { s with data := d }) ld hb' (show p.toNat ≤ K by omega) v
    simp only at h2
    simp only [h1, Res.ok_bind, e, h2]
    have h3 : ({ s with data := d.set (ring K (ring K s.begin_ (K - 1)) p.toNat) v } : Seg T).preIndex s.begin_ =
        .ok (ring K s.begin_ (K - 1)) := by
      simp only [Seg.preIndex, Seg.capacity, List.length_set, ld]; exact modG_pre hb
    simp only [h3, Res.ok_bind]
    have e0 : ∀ i, 1 ≤ i → i ≤ K → ring K (ring K s.begin_ (K - 1)) i = ring K s.begin_ (i - 1) := by
      intro i h1 h2; unfold ring; split <;> split <;> (try split) <;> omega
    refine ⟨_, rfl, ⟨h.pos, by simp [ld], by rw [hlen, hsz]; simp, by omega, hb', ?_, ?_⟩⟩
    · simp only; rw [hlen, e0 (l.length + 1) (by omega) (by omega)]; exact h.end_
    · intro i hi
      rw [hlen] at hi
      have hs := cell_set (s := { s with data := d }) ld hb' (show p.toNat < K by omega) (show i < K by omega) v
      simp only [cell] at hs
      simp only [hs]
      rw [hget i hi (by omega)]
      have hci := hc i (by omega)
      simp only [cell] at hci
      by_cases c1 : p.toNat = i
      · rw [if_pos c1, if_neg (by omega), if_pos c1.symm]
      · rw [if_neg c1, hci]
        by_cases c2 : i < p.toNat
        · rw [if_pos c2, if_pos c2, e0 _ (by omega) (by omega)]
          exact h.vals i (by omega)
        · rw [if_neg c2, if_neg c2, if_neg (by omega), e0 _ (by omega) (by omega)]
          exact h.vals (i - 1) (by omega)
  · rw [if_neg c]
    by_cases cp : p.toNat ≤ l.length
    · obtain ⟨d, e, ld, hc⟩ := insBackLoop_spec hb (l.length - p.toNat) l.length s h.len hl (by omega)
      have en : (s.nSize - p).toNat = l.length - p.toNat := by omega
      have hend := h.end_
      simp only [en, hend, e, Res.ok_bind]
      have ei : l.length - (l.length - p.toNat) = p.toNat := by omega
      rw [ei]
      rw [ei] at hc
      have h2 := upd_ok (s := { s with data := d }) ld hb (show p.toNat ≤ K by omega) v
      simp only at h2
      simp only [h2, Res.ok_bind]
      have h3 : ({ s with data := d.set (ring K s.begin_ p.toNat) v } : Seg T).nextIndex s.end_ =
          .ok (ring K s.begin_ (l.length + 1)) := by
        simp only [Seg.nextIndex, Seg.capacity, List.length_set, ld, hend]
        rw [modG_next (ring_lt hb (by omega)), ring_ring hb (by omega)]
      rw [← hend, h3]
      refine ⟨_, rfl, ⟨h.pos, by simp [ld], by rw [hlen, hsz]; simp, by omega, hb, by rw [hlen], ?_⟩⟩
      intro i hi
      rw [hlen] at hi
      have hs := cell_set (s := { s with data := d }) ld hb (show p.toNat < K by omega) (show i < K by omega) v
      simp only [cell] at hs
      simp only [hs]
      rw [hget i hi (by omega)]
      have hci := hc i (by omega)
      simp only [cell] at hci
      by_cases c1 : p.toNat = i
      · rw [if_pos c1, if_neg (by omega), if_pos c1.symm]
      · rw [if_neg c1, hci]
        by_cases c2 : i < p.toNat
        · rw [if_neg (by omega), if_pos c2]
          exact h.vals i (by omega)
        · rw [if_pos (by omega), if_neg c2, if_neg (by omega)]
          exact h.vals (i - 1) (by omega)
    · -- past the end: the value goes to the end
      have en : (s.nSize - p).toNat = 0 := by omega
      obtain ⟨s', e, r⟩ := h.pushBack hl v
      refine ⟨s', ?_, ?_⟩
      · simp only [en, Seg.insBackLoop, Res.ok_bind]
        exact e
      · rw [List.take_of_length_le (by omega), List.drop_eq_nil_of_le (by omega)]; exact r

theorem eraseAt (h : SegRep K s l) {p : Int} (h0 : 0 ≤ p) (h1 : p < l.length) :
    ∃ s', s.eraseAt p = .ok s' ∧ SegRep K s' (l.eraseIdx p.toNat) := by
  have hb := h.beg
  have hsz := h.size
  have hle := h.le
  have hlen : (l.eraseIdx p.toNat).length = l.length - 1 := by rw [List.length_eraseIdx]; rw [if_pos (by omega)]
  have hget : ∀ i, (l.eraseIdx p.toNat)[i]? = if i < p.toNat then l[i]? else l[i + 1]? := by
    intro i; rw [List.getElem?_eraseIdx]
  unfold Seg.eraseAt
  by_cases c : p < s.nSize - p
  · rw [if_pos c]
    obtain ⟨d, e, ld, hc⟩ := eraseFrontLoop_spec p.toNat s h.len hb (by omega)
    have h2 : ({ s with data := d } : Seg T).nextIndex s.begin_ = .ok (ring K s.begin_ 1) := by
      simp only [Seg.nextIndex, Seg.capacity, ld]; exact modG_next hb
    simp only [e, Res.ok_bind, h2]
    refine ⟨_, rfl, ⟨h.pos, ld, by rw [hlen, hsz]; simp only; omega, by omega, ring_lt hb (by omega), ?_, ?_⟩⟩
    · rw [hlen, ring_ring hb (by omega), h.end_]; congr 1; omega
    · intro i hi
      rw [hlen] at hi
      rw [ring_ring hb (by omega), hget]
      have := hc (1 + i) (by omega)
      simp only [cell] at this
      rw [this]
      by_cases c1 : i < p.toNat
      · rw [if_pos (by omega), if_pos c1, Nat.add_sub_cancel_left]; exact h.vals i (by omega)
      · rw [if_neg (by omega), if_neg c1, Nat.add_comm]; exact h.vals (i + 1) (by omega)
  · rw [if_neg c]
    have en : (s.nSize - p).toNat = l.length - p.toNat := by omega
    obtain ⟨d, e, ld, hc⟩ := eraseBackLoop_spec (l.length - p.toNat) p.toNat s h.len hb (by omega)
    have e0 : ring K (ring K s.begin_ l.length) (K - 1) = ring K s.begin_ (l.length - 1) := by
      unfold ring; split <;> split <;> (try split) <;> omega
    have h2 : ({ s with data := d } : Seg T).preIndex s.end_ = .ok (ring K s.begin_ (l.length - 1)) := by
      simp only [Seg.preIndex, Seg.capacity, ld, h.end_]; rw [modG_pre (ring_lt hb hle), e0]
    simp only [en, e, Res.ok_bind, h2]
    refine ⟨_, rfl, ⟨h.pos, ld, by rw [hlen, hsz]; simp only; omega, by omega, hb, by rw [hlen], ?_⟩⟩
    intro i hi
    rw [hlen] at hi
    rw [hget]
    have := hc i (by omega)
    simp only [cell] at this
    rw [this]
    by_cases c1 : i < p.toNat
    · rw [if_neg (by omega), if_pos c1]; exact h.vals i (by omega)
    · rw [if_pos (by omega), if_neg c1]; exact h.vals (i + 1) (by omega)

end SegRep
end GoSTL.Deque
