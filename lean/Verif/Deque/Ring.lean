import Verif.Deque.Model
import Verif.Deque.SegProofs
/-!
# The ring of segment pointers
-/
namespace GoSTL.Deque
variable {T : Type}

/-- The ring `segs` with `begin = b`, `end = e` holds the pointers `U`, and nil elsewhere. -/
structure RingRep (segs : List (Option Nat)) (b e : Nat) (U : List Nat) : Prop where
  le : U.length ≤ segs.length
  beg : b < segs.length ∨ (segs.length = 0 ∧ b = 0)
  end_ : e = ring segs.length b U.length
  slot : ∀ i, i < segs.length → segs[ring segs.length b i]? = some U[i]?
  pow : segs.length = 0 ∨ ∃ k, segs.length = 2 ^ k

namespace RingRep
variable {segs : List (Option Nat)} {b e : Nat} {U : List Nat}

theorem beg' (h : RingRep segs b e U) (hp : 0 < segs.length) : b < segs.length := by have := h.beg; omega

theorem end_lt (h : RingRep segs b e U) (hp : 0 < segs.length) : e < segs.length := by
  rw [h.end_]; exact ring_lt (h.beg' hp) h.le

theorem pre_end (h : RingRep segs b e U) (hp : 0 < segs.length) {n : Nat} (hn : U.length = n + 1) :
    modG (e + segs.length - 1) segs.length = .ok (ring segs.length b n) := by
  have hb := h.beg' hp
  have hle := h.le
  rw [modG_pre (h.end_lt hp), h.end_, hn]
  congr 1
  unfold ring; split <;> split <;> (try split) <;> omega

end RingRep

/-- State-level version. -/
abbrev RingOf (d : Deq T) (U : List Nat) : Prop := RingRep d.segs d.begin_ d.end_ U

theorem segUsed_eq {d : Deq T} {U : List Nat} (h : RingOf d U) (hs : d.size = 0 ↔ U = []) : segUsed d = U.length := by
  unfold segUsed
  by_cases c : d.size = 0
  · rw [if_pos c, hs.1 c]; rfl
  · rw [if_neg c]
    have hU : 0 < U.length := by
      cases U with
      | nil => exact absurd (hs.2 rfl) c
      | cons _ _ => simp
    have hle := h.le
    have hb := h.beg' (by omega)
    have he := h.end_
    unfold ring at he
    split at he <;> split <;> omega

theorem segUsed_nonneg {d : Deq T} {U : List Nat} (h : RingOf d U) : 0 ≤ segUsed d := by
  unfold segUsed
  have := h.beg
  split
  · omega
  · split <;> omega

theorem firstSegment_eq {d : Deq T} {U : List Nat} (h : RingOf d U) : firstSegment d = .ok U.head? := by
  unfold firstSegment
  have hle := h.le
  split
  · next c =>
    have : U = [] := List.length_eq_zero_iff.1 (by omega)
    rw [this]; rfl
  · next c =>
    have hs := h.slot 0 (by omega)
    rw [ring_zero (h.beg' (by omega))] at hs
    rw [idx, hs, List.head?_eq_getElem?]; rfl

theorem lastSegment_eq {d : Deq T} {U : List Nat} (h : RingOf d U) : lastSegment d = .ok U.getLast? := by
  unfold lastSegment
  have hle := h.le
  split
  · next c =>
    have : U = [] := List.length_eq_zero_iff.1 (by omega)
    rw [this]; rfl
  · next c =>
    have hb := h.beg' (by omega)
    rw [List.getLast?_eq_getElem?]
    by_cases c1 : U.length = 0
    · have e : modG (d.end_ + d.segs.length - 1) d.segs.length = .ok (ring d.segs.length d.begin_ (d.segs.length - 1)) := by
        rw [modG_pre (h.end_lt (by omega)), h.end_, c1, ring_zero hb]
      simp only [preIndex, e, Res.ok_bind, idx, h.slot (d.segs.length - 1) (by omega)]
      rw [List.getElem?_eq_none (by omega), List.getElem?_eq_none (by omega)]; rfl
    · obtain ⟨n, hn⟩ : ∃ n, U.length = n + 1 := ⟨U.length - 1, by omega⟩
      simp only [preIndex, h.pre_end (by omega) hn, Res.ok_bind, idx, h.slot n (by omega)]
      rw [hn]; rfl

theorem segmentAt_eq {d : Deq T} {U : List Nat} (h : RingOf d U) {i : Int} (h0 : 0 ≤ i) (h1 : i < d.segs.length) :
    segmentAt d i = .ok U[i.toNat]? := by
  have hb := h.beg' (by omega)
  unfold segmentAt
  rw [if_neg (by omega)]
  have e1 : Int.tmod (i + d.begin_) d.segs.length = (ring d.segs.length d.begin_ i.toNat : Nat) := by
    obtain ⟨n, rfl⟩ := Int.eq_ofNat_of_zero_le h0
    have e0 : ((n : Int) + d.begin_) = ((n + d.begin_ : Nat) : Int) := by simp
    rw [e0, ← Int.ofNat_tmod]
    have := modG_at hb (show n ≤ d.segs.length by omega)
    unfold modG at this
    rw [if_neg (by omega)] at this
    simp only [Res.ok.injEq] at this
    rw [this]; simp
  simp only [e1]
  rw [if_neg (by omega), Int.toNat_natCast, idx, h.slot _ (by omega)]; rfl

/-- Ring cells after writing one slot. -/
theorem slot_set {segs : List (Option Nat)} {b i j : Nat} (hb : b < segs.length) (hi : i < segs.length) (hj : j < segs.length)
    (v : Option Nat) : (segs.set (ring segs.length b i) v)[ring segs.length b j]? =
      if i = j then some v else segs[ring segs.length b j]? := by
  rw [List.getElem?_set]
  have h1 := ring_lt hb (show i ≤ segs.length by omega)
  by_cases c : i = j
  · subst c; simp [h1]
  · simp [c, (ring_inj hb hi hj).not.2 c]

namespace RingRep
variable {segs : List (Option Nat)} {b e : Nat} {U : List Nat}

/-- Adding a pointer at the front. -/
theorem cons (h : RingRep segs b e U) (hlt : U.length < segs.length) (id : Nat) :
    modG (b + segs.length - 1) segs.length = .ok (ring segs.length b (segs.length - 1)) ∧
    ring segs.length b (segs.length - 1) < segs.length ∧
    RingRep (segs.set (ring segs.length b (segs.length - 1)) (some id)) (ring segs.length b (segs.length - 1)) e (id :: U) := by
  have hb := h.beg' (by omega)
  have hb' := ring_lt hb (show segs.length - 1 ≤ segs.length by omega)
  have e0 : ∀ i, 1 ≤ i → i ≤ segs.length → ring segs.length (ring segs.length b (segs.length - 1)) i = ring segs.length b (i - 1) := by
    intro i h1 h2; unfold ring; split <;> split <;> (try split) <;> omega
  refine ⟨modG_pre hb, hb', ⟨by simp; omega, .inl (by simpa using hb'), ?_, ?_, by simpa using h.pow⟩⟩
  · rw [List.length_set, List.length_cons, e0 _ (by omega) (by omega)]; exact h.end_
  · intro i hi
    simp only [List.length_set] at hi ⊢
    have hs := slot_set hb' (show 0 < segs.length by omega) hi (some id)
    rw [ring_zero hb'] at hs
    rw [hs]
    by_cases c : 0 = i
    · subst c; simp
    · rw [if_neg c, e0 i (by omega) (by omega), h.slot (i - 1) (by omega)]
      cases i with
      | zero => omega
      | succ i => simp

/-- Adding a pointer at the back. -/
theorem snoc (h : RingRep segs b e U) (hlt : U.length < segs.length) (id : Nat) :
    e < segs.length ∧ ∃ e', modG (e + 1) segs.length = .ok e' ∧ RingRep (segs.set e (some id)) b e' (U ++ [id]) := by
  have hb := h.beg' (by omega)
  have he := h.end_lt (by omega)
  refine ⟨he, _, modG_next he, ⟨by simp; omega, .inl (by simpa using hb), ?_, ?_, by simpa using h.pow⟩⟩
  · rw [h.end_, ring_ring hb (by omega)]; simp
  · intro i hi
    simp only [List.length_set] at hi ⊢
    rw [h.end_, slot_set hb hlt hi (some id)]
    by_cases c : U.length = i
    · subst c; simp
    · rw [if_neg c, h.slot i hi]
      by_cases c2 : i < U.length
      · rw [List.getElem?_append_left c2]
      · rw [List.getElem?_eq_none (by omega), List.getElem?_eq_none (by simp; omega)]

/-- Removing the first pointer. -/
theorem tail {id : Nat} (h : RingRep segs b e (id :: U)) :
    b < segs.length ∧ ∃ b', modG (b + 1) segs.length = .ok b' ∧ RingRep (segs.set b none) b' e U := by
  have hle := h.le
  simp only [List.length_cons] at hle
  have hb := h.beg' (by omega)
  refine ⟨hb, _, modG_next hb, ⟨by simp; omega, .inl (by simpa using ring_lt hb (by omega)), ?_, ?_, by simpa using h.pow⟩⟩
  · rw [List.length_set, ring_ring hb (by omega), h.end_, List.length_cons, Nat.add_comm]
  · intro i hi
    simp only [List.length_set] at hi ⊢
    rw [ring_ring hb (by omega)]
    by_cases c : 1 + i < segs.length
    · have hs := slot_set hb (show 0 < segs.length by omega) c none
      rw [ring_zero hb] at hs
      rw [hs, if_neg (by omega), h.slot _ c, Nat.add_comm]; simp
    · have c' : 1 + i = segs.length := by omega
      rw [c', ring_K]
      rw [List.getElem?_set_self hb, List.getElem?_eq_none (by omega)]

/-- Removing the last pointer. -/
theorem init {id : Nat} (h : RingRep segs b e (U ++ [id])) :
    ∃ e', modG (e + segs.length - 1) segs.length = .ok e' ∧ e' < segs.length ∧ segs[e']? = some (some id) ∧
      RingRep (segs.set e' none) b e' U := by
  have hle := h.le
  simp at hle
  have hb := h.beg' (by omega)
  have hpe := h.pre_end (by omega) (n := U.length) (by simp)
  refine ⟨_, hpe, ring_lt hb (by omega), ?_, ⟨by simp; omega, .inl (by simpa using hb), by simp, ?_, by simpa using h.pow⟩⟩
  · rw [h.slot _ (by omega)]; simp
  · intro i hi
    simp only [List.length_set] at hi ⊢
    rw [slot_set hb (by omega) hi none]
    by_cases c : U.length = i
    · subst c; simp
    · rw [if_neg c, h.slot i hi]
      by_cases c2 : i < U.length
      · rw [List.getElem?_append_left c2]
      · rw [List.getElem?_eq_none (by simp; omega), List.getElem?_eq_none (by omega)]

end RingRep

/-- The copy loop. -/
theorem copySegs_spec {src : List (Option Nat)} {b e : Nat} {U : List Nat} (h : RingRep src b e U) (hb : b < src.length) :
    ∀ (n i : Nat) (dst : List (Option Nat)), i + n ≤ src.length → i + n ≤ dst.length →
    ∃ dst', copySegs src b src.length n i dst = .ok dst' ∧ dst'.length = dst.length ∧
      ∀ j, dst'[j]? = if i ≤ j ∧ j < i + n then some U[j]? else dst[j]? := by
  intro n
  induction n with
  | zero => intro i dst _ _; exact ⟨dst, rfl, rfl, fun j => by rw [if_neg (by omega)]⟩
  | succ n ih =>
    intro i dst h1 h2
    unfold copySegs
    rw [Nat.add_comm b i, modG_at hb (by omega)]
    have e1 : idx src (ring src.length b i) = .ok U[i]? := by rw [idx, h.slot i (by omega)]; rfl
    have e2 : upd dst i U[i]? = .ok (dst.set i U[i]?) := if_pos (by omega)
    simp only [Res.ok_bind, e1, e2]
    obtain ⟨dst', e, l, hj⟩ := ih (i + 1) (dst.set i U[i]?) (by omega) (by simp; omega)
    refine ⟨dst', e, by simpa using l, fun j => ?_⟩
    rw [hj j, List.getElem?_set]
    by_cases c : j = i
    · subst c; rw [if_neg (by omega), if_pos rfl, if_pos (by omega), if_pos (by omega)]
    · by_cases c2 : i ≤ j ∧ j < i + (n + 1)
      · rw [if_pos (by omega), if_pos c2]
      · rw [if_neg (by omega), if_neg c2, if_neg (by omega)]

/-- A copy that starts at slot 0 is again a ring for the same pointers. -/
theorem fresh_ring {U : List Nat} {dst : List (Option Nat)} {c : Nat} (hl : dst.length = c)
    (hr : U.length < c ∨ (U.length = 0 ∧ c = 0)) (hp : c = 0 ∨ ∃ k, c = 2 ^ k)
    (hj : ∀ j, dst[j]? = if 0 ≤ j ∧ j < 0 + U.length then some U[j]? else (List.replicate c none)[j]?) :
    RingRep dst 0 U.length U := by
  refine ⟨by omega, by omega, by unfold ring; split <;> omega, ?_, by rw [hl]; exact hp⟩
  intro i hi
  have : ring dst.length 0 i = i := by unfold ring; rw [if_pos (by omega)]; omega
  rw [this, hj i]
  by_cases c1 : i < U.length
  · rw [if_pos (by omega)]
  · rw [if_neg (by omega), List.getElem?_replicate, if_pos (by omega), List.getElem?_eq_none (by omega)]

/-- What `expand` and `shrinkIfNeeded` do: nothing but the ring changes, and it has room. -/
structure Moved (d d' : Deq T) : Prop where
  heap : d'.heap = d.heap
  pool : d'.pool = d.pool
  size : d'.size = d.size

theorem growIfFull_spec {d : Deq T} {U : List Nat} (h : RingOf d U) (hs : d.size = 0 ↔ U = []) :
    ∃ d', growIfFull d = .ok d' ∧ Moved d d' ∧ RingOf d' U ∧ U.length < d'.segs.length := by
  have hu := segUsed_eq h hs
  have hle := h.le
  unfold growIfFull
  by_cases c : segUsed d ≥ d.segs.length
  · rw [if_pos c]
    have hC : U.length = d.segs.length := by omega
    unfold expand
    by_cases c0 : U.length = 0
    · have hU : U = [] := List.length_eq_zero_iff.1 c0
      have hu0 : segUsed d = 0 := by omega
      simp only [hu0]
      refine ⟨{ d with begin_ := 0, end_ := 0, segs := [none], work := d.work + 1 }, by simp [copySegs], ⟨rfl, rfl, rfl⟩, ?_, by simp [c0]⟩
      subst hU
      exact fresh_ring (U := []) (dst := [none]) (c := 1) rfl (by simp) (.inr ⟨0, rfl⟩) (fun j => by simp)
    · have hb := h.beg' (by omega)
      obtain ⟨dst', e, l, hj⟩ := copySegs_spec h hb U.length 0 (List.replicate (2 * U.length) none) (by omega) (by simp; omega)
      have e1 : (segUsed d * 2).toNat = 2 * U.length := by omega
      have e2 : (segUsed d).toNat = U.length := by omega
      rw [← hC] at e
      refine ⟨{ d with begin_ := 0, end_ := U.length, segs := dst', work := d.work + 2 * U.length }, ?_, ⟨rfl, rfl, rfl⟩, ?_, by simp [l]; omega⟩
      · simp only
        rw [if_neg (show ¬ segUsed d * 2 = 0 by omega), if_neg (by omega), e1, e2, e]; rfl
      · refine fresh_ring (c := 2 * U.length) (by simpa using l) (by omega) ?_ hj
        rcases h.pow with hp | ⟨k, hk⟩
        · omega
        · exact .inr ⟨k + 1, by rw [hC, hk, Nat.pow_succ, Nat.mul_comm]⟩
  · rw [if_neg c]
    exact ⟨d, rfl, ⟨rfl, rfl, rfl⟩, h, by omega⟩

/-- What is assumed of `int(float64(n)*1.2)`. -/
structure Cfg.Good (cfg : Cfg T) : Prop where
  pos : 0 < cfg.segCap
  scale : ∀ n : Int, 0 ≤ n → n ≤ cfg.scale12 n

/-- There is a free slot, or the ring has no slots at all. -/
def Room (d : Deq T) (U : List Nat) : Prop := U.length < d.segs.length ∨ (U.length = 0 ∧ d.segs.length = 0)

theorem half_pow {c : Nat} (h : c = 0 ∨ ∃ k, c = 2 ^ k) : c / 2 = 0 ∨ ∃ k, c / 2 = 2 ^ k := by
  rcases h with rfl | ⟨k, rfl⟩
  · exact .inl rfl
  · cases k with
    | zero => exact .inl rfl
    | succ k => exact .inr ⟨k, by rw [Nat.pow_succ]; simp⟩

theorem shrink_spec {cfg : Cfg T} (hg : cfg.Good) {d : Deq T} {U : List Nat} (h : RingOf d U) (hr : Room d U)
    (hs : segUsed d = U.length ∨ segUsed d = d.segs.length) :
    ∃ d', shrinkIfNeeded cfg d = .ok d' ∧ Moved d d' ∧ RingOf d' U ∧ Room d' U := by
  have hle := h.le
  unfold shrinkIfNeeded
  by_cases c : cfg.scale12 (segUsed d * 2) < d.segs.length
  · rw [if_pos c]
    have h2 := hg.scale (segUsed d * 2) (by have := segUsed_nonneg h; omega)
    have hu : segUsed d = U.length := by omega
    have hC : 2 * U.length < d.segs.length := by omega
    have hb := h.beg' (by omega)
    have hroom : U.length < d.segs.length / 2 ∨ (U.length = 0 ∧ d.segs.length / 2 = 0) := by
      rcases h.pow with hp | ⟨k, hk⟩
      · omega
      · cases k with
        | zero => right; simp at hk; omega
        | succ k => left; rw [Nat.pow_succ] at hk; omega
    obtain ⟨dst', e, l, hj⟩ := copySegs_spec h hb U.length 0 (List.replicate (d.segs.length / 2) none) (by omega) (by simp; omega)
    have e2 : (segUsed d).toNat = U.length := by omega
    refine ⟨{ d with begin_ := 0, end_ := U.length, segs := dst', work := d.work + d.segs.length / 2 }, ?_, ⟨rfl, rfl, rfl⟩, ?_, ?_⟩
    · simp only [e2, e]; rfl
    · exact fresh_ring (c := d.segs.length / 2) (by simpa using l) hroom (half_pow h.pow) hj
    · simp only [Room, l, List.length_replicate]; exact hroom
  · rw [if_neg c]; exact ⟨d, rfl, ⟨rfl, rfl, rfl⟩, h, hr⟩

end GoSTL.Deque
