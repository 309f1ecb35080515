import Verif.Heap.Model
/-!
# Heap order: `up`, `down` and what they restore
-/
namespace GoSTL.Heap
open GoSTL.Seq GoSTL.Algo
variable {T : Type} {cmp : T → T → Int}

/-- The element at `a` does not come after the one at `b` (if both exist). -/
def Le (cmp : T → T → Int) (h : List T) (a b : Int) : Prop := ∀ x y, at? h a = some x → at? h b = some y → cmp x y ≤ 0

theorem Le.trans (hc : LawfulCmp cmp) {h : List T} {a b c : Int} (h1 : Le cmp h a b) (h2 : Le cmp h b c) (hb : 0 ≤ b ∧ b < h.length) :
    Le cmp h a c := by
  intro x z hx hz
  obtain ⟨y, hy⟩ := at?_ge hb
  exact hc.trans x y z (h1 x y hx hy) (h2 y z hy hz)

/-- The order after an exchange is the order at the exchanged positions. -/
theorem le_lswap {h : List T} {i j a b a' b' : Int} (hi : 0 ≤ i ∧ i < h.length) (hj : 0 ≤ j ∧ j < h.length)
    (ha : a' = if a = j then i else if a = i then j else a) (hb : b' = if b = j then i else if b = i then j else b) :
    Le cmp (lswap h i j) a b ↔ Le cmp h a' b' := by
  have key : ∀ k k' : Int, k' = (if k = j then i else if k = i then j else k) → at? (lswap h i j) k = at? h k' := by
    intro k k' e
    rw [at?_lswap hi hj, e]
    split_ifs <;> rfl
  simp only [Le, key a a' ha, key b b' hb]

/-- Is the first below the second? The comparison as the code makes it. -/
theorem lessAt_spec (hc : LawfulCmp cmp) {h : List T} {i j : Int} (hi : 0 ≤ i ∧ i < h.length) (hj : 0 ≤ j ∧ j < h.length) :
    (lessAt cmp h i j = .ok true ∧ Le cmp h i j) ∨ (lessAt cmp h i j = .ok false ∧ Le cmp h j i) := by
  obtain ⟨x, hx⟩ := at?_ge hi
  obtain ⟨y, hy⟩ := at?_ge hj
  simp only [lessAt, hx, hy, Res.ofOption_some, Res.ok_bind, Le]
  by_cases c : cmp x y < 0
  · left
    refine ⟨by simp [c], ?_⟩
    rintro a b ⟨⟩ ⟨⟩; omega
  · right
    refine ⟨by simp [c], ?_⟩
    rintro a b ⟨⟩ ⟨⟩
    have := hc.le_iff_ge (a := y) (b := x)
    omega

theorem lessAt_panic {h : List T} {i j : Int} (hi : ¬ (0 ≤ i ∧ i < h.length)) : lessAt cmp h i j = .panic := by
  cases hx : at? h i with
  | none => simp [lessAt, hx]
  | some x => exact absurd (at?_lt hx) hi

theorem swapAt_ok {h : List T} {i j : Int} (hi : 0 ≤ i ∧ i < h.length) (hj : 0 ≤ j ∧ j < h.length) : swapAt h i j = .ok (lswap h i j) := by
  obtain ⟨x, hx⟩ := at?_ge hi
  obtain ⟨y, hy⟩ := at?_ge hj
  simp [swapAt, hx, hy]

theorem swapAt_panic {h : List T} {i j : Int} (hi : ¬ ((0 ≤ i ∧ i < h.length) ∧ (0 ≤ j ∧ j < h.length))) : swapAt h i j = .panic := by
  cases hx : at? h i with
  | none => simp [swapAt, hx]
  | some x =>
    cases hy : at? h j with
    | none => simp [swapAt, hx, hy]
    | some y => exact absurd ⟨at?_lt hx, at?_lt hy⟩ hi

/-- The parent of a position. -/
abbrev par (k : Int) : Int := (k - 1) / 2

theorem tdiv_par {k : Int} (h : 0 < k) : (k - 1).tdiv 2 = par k := Int.tdiv_eq_ediv_of_nonneg (by omega)

/-- Heap order among the first `n` positions, for all parents from `lo` on. -/
def HeapFrom (cmp : T → T → Int) (h : List T) (lo n : Int) : Prop := ∀ k, 0 < k → k < n → lo ≤ par k → Le cmp h (par k) k

/-- Heap order except around position `i`: the element there may be out of order with its parent and its children, but its parent is not
after its children. -/
structure Hole (cmp : T → T → Int) (h : List T) (lo n i : Int) : Prop where
  other : ∀ k, 0 < k → k < n → lo ≤ par k → k ≠ i → par k ≠ i → Le cmp h (par k) k
  grand : 0 < i → lo ≤ par i → ∀ k, 0 < k → k < n → par k = i → Le cmp h (par i) k

/-- Same elements; the first `n` positions were permuted, the others are untouched. -/
structure Moves (n : Int) (h h' : List T) : Prop where
  perm : h'.Perm h
  rest : ∀ k, n ≤ k → at? h' k = at? h k

theorem Moves.refl (n : Int) (h : List T) : Moves n h h := ⟨.refl _, fun _ _ => rfl⟩
theorem Moves.trans {n : Int} {h h' h'' : List T} (a : Moves n h h') (b : Moves n h' h'') : Moves n h h'' :=
  ⟨b.perm.trans a.perm, fun k hk => (b.rest k hk).trans (a.rest k hk)⟩
theorem Moves.length {n : Int} {h h' : List T} (a : Moves n h h') : h'.length = h.length := a.perm.length_eq
theorem Moves.swap {n : Int} {h : List T} {i j : Int} (hi : 0 ≤ i ∧ i < n) (hj : 0 ≤ j ∧ j < n) (hn : n ≤ h.length) : Moves n h (lswap h i j) :=
  ⟨lswap_perm _ _ _, fun k hk => by rw [at?_lswap (by omega) (by omega), if_neg (by omega), if_neg (by omega)]⟩

/-! ## `down` -/

/-- The child the element is compared with. -/
theorem pick_child (hc : LawfulCmp cmp) {h : List T} {i n : Int} (hi : 0 ≤ i) (hn : n ≤ h.length) (hj : 2 * i + 1 < n) :
    ∃ j, child cmp h n (2 * i + 1) = .ok j ∧ 0 < j ∧ j < n ∧ par j = i ∧ ∀ k, 0 < k → k < n → par k = i → Le cmp h j k := by
  have refl : ∀ k, Le cmp h k k := by
    intro k x y hx hy
    rw [hx] at hy; cases hy
    have := hc.refl x; omega
  by_cases c : 2 * i + 1 + 1 < n
  · rcases lessAt_spec hc (h := h) (i := 2 * i + 1 + 1) (j := 2 * i + 1) (by omega) (by omega) with ⟨e, le⟩ | ⟨e, le⟩
    · refine ⟨2 * i + 1 + 1, by simp [child, c, e], by omega, by omega, by simp only [par]; omega, ?_⟩
      intro k h0 hk hp
      have : k = 2 * i + 1 ∨ k = 2 * i + 1 + 1 := by simp only [par] at hp; omega
      rcases this with rfl | rfl
      · exact le
      · exact refl _
    · refine ⟨2 * i + 1, by simp [child, c, e], by omega, by omega, by simp only [par]; omega, ?_⟩
      intro k h0 hk hp
      have : k = 2 * i + 1 ∨ k = 2 * i + 1 + 1 := by simp only [par] at hp; omega
      rcases this with rfl | rfl
      · exact refl _
      · exact le
  · refine ⟨2 * i + 1, by simp [child, c], by omega, by omega, by simp only [par]; omega, ?_⟩
    intro k h0 hk hp
    have : k = 2 * i + 1 := by simp only [par] at hp; omega
    rw [this]; exact refl _

/-- One exchange moves the hole to the child and repairs the order above it. -/
theorem Hole.swap_down (hc : LawfulCmp cmp) {h : List T} {lo n i j : Int} (hh : Hole cmp h lo n i) (hlo : 0 ≤ lo) (hi : 0 ≤ i) (hli : lo ≤ i) (hn : n ≤ h.length)
    (h0 : 0 < j) (hj : j < n) (hp : par j = i) (hmin : ∀ k, 0 < k → k < n → par k = i → Le cmp h j k) (hle : Le cmp h j i) :
    Hole cmp (lswap h i j) lo n j ∧ (∀ k, 0 < k → k < n → lo ≤ par k → (k = i ∨ par k = i) → Le cmp (lswap h i j) (par k) k) := by
  have hiv : 0 ≤ i ∧ i < h.length := by simp only [par] at hp; omega
  have hjv : 0 ≤ j ∧ j < h.length := by omega
  have hij : i < j := by simp only [par] at hp; omega
  have edge : ∀ k, 0 < k → k < n → lo ≤ par k → (k = i ∨ par k = i) → Le cmp (lswap h i j) (par k) k := by
    intro k hk0 hkn hl hk
    rcases hk with rfl | hk
    · have e : par k < k := by simp only [par]; omega
      refine (le_lswap (a' := par k) (b' := j) hiv hjv ?_ ?_).2 (hh.grand hk0 hl j h0 hj hp)
      · rw [if_neg (by omega), if_neg (by omega)]
      · rw [if_neg (by omega), if_pos rfl]
    · by_cases e : k = j
      · subst e
        refine (le_lswap (a' := k) (b' := i) hiv hjv ?_ ?_).2 hle
        · rw [if_neg (by omega), if_pos (by omega)]
        · rw [if_pos rfl]
      · refine (le_lswap (a' := j) (b' := k) hiv hjv ?_ ?_).2 (hmin k hk0 hkn hk)
        · rw [if_neg (by omega), if_pos (by omega)]
        · rw [if_neg e, if_neg (by simp only [par] at hk; omega)]
  refine ⟨⟨?_, ?_⟩, edge⟩
  · intro k hk0 hkn hl hkj hpj
    by_cases c : k = i ∨ par k = i
    · exact edge k hk0 hkn hl c
    · refine (le_lswap (a' := par k) (b' := k) hiv hjv ?_ ?_).2 (hh.other k hk0 hkn hl (by tauto) (by tauto))
      · rw [if_neg hpj, if_neg (by tauto)]
      · rw [if_neg hkj, if_neg (by tauto)]
  · intro _ hl k hk0 hkn hkj
    have e1 : par k ≠ i := by rw [hkj]; omega
    have e2 : k ≠ i := by simp only [par] at hkj; omega
    refine (le_lswap (a' := j) (b' := k) hiv hjv ?_ ?_).2 ?_
    · rw [if_neg (by omega), if_pos hp]
    · rw [if_neg (by simp only [par] at hkj; omega), if_neg e2]
    · have := hh.other k hk0 hkn (by rw [hkj]; omega) e2 e1
      rwa [hkj] at this

/-- `down` from a hole whose own parent is in order: afterwards everything is in order. -/
theorem downLoop_spec (hc : LawfulCmp cmp) {lo n : Int} (hlo : 0 ≤ lo) : ∀ (f : Nat) (h : List T) (i : Int), Hole cmp h lo n i →
    (0 < i → i < n → lo ≤ par i → Le cmp h (par i) i) → 0 ≤ i → lo ≤ i → n ≤ h.length → n < f + i → 0 < f →
    ∃ i' h', downLoop cmp n f h i = .ok (i', h') ∧ i ≤ i' ∧ Moves n h h' ∧ HeapFrom cmp h' lo n := by
  intro f
  induction f with
  | zero => intro h i _ _ _ _ _ _ hf; omega
  | succ f ih =>
    intro h i hh hpar hi hli hn hf _
    by_cases c : 2 * i + 1 < n
    · obtain ⟨j, ej, h0, hj, hp, hmin⟩ := pick_child hc hi hn c
      rw [downLoop, if_neg (by omega)]
      simp only [ej, Res.ok_bind]
      have hij : i < j := by simp only [par] at hp; omega
      rcases lessAt_spec hc (h := h) (i := j) (j := i) (by omega) (by omega) with ⟨e, le⟩ | ⟨e, le⟩
      · simp only [e, Res.ok_bind, Bool.not_true, Bool.false_eq_true, if_false]
        rw [swapAt_ok (by omega) (by omega)]
        simp only [Res.ok_bind]
        obtain ⟨hh', hedge⟩ := hh.swap_down hc hlo hi hli hn h0 hj hp hmin le
        obtain ⟨i', h', e', hi', hm, hheap⟩ := ih (lswap h i j) j hh' (fun a b c => hedge j h0 hj c (.inr hp)) (by omega) (by omega)
          (by rw [lswap_length]; exact hn) (by omega) (by omega)
        exact ⟨i', h', e', by omega, (Moves.swap (by omega) (by omega) hn).trans hm, hheap⟩
      · simp only [e, Res.ok_bind, Bool.not_false, if_true]
        refine ⟨i, h, rfl, by omega, .refl _ _, ?_⟩
        intro k hk0 hkn hl
        by_cases c1 : k = i
        · subst c1; exact hpar hk0 hkn hl
        · by_cases c2 : par k = i
          · rw [c2]; exact le.trans hc (hmin k hk0 hkn c2) (by omega)
          · exact hh.other k hk0 hkn hl c1 c2
    · rw [downLoop, if_pos (by omega)]
      refine ⟨i, h, rfl, by omega, .refl _ _, ?_⟩
      intro k hk0 hkn hl
      by_cases c1 : k = i
      · subst c1; exact hpar hk0 hkn hl
      · refine hh.other k hk0 hkn hl c1 ?_
        simp only [par]; omega

/-- `down` from any hole: if it moves the element everything is in order afterwards; if not, the children were already in order. -/
theorem down_spec (hc : LawfulCmp cmp) {h : List T} {lo n i : Int} (hlo : 0 ≤ lo) (hh : Hole cmp h lo n i) (hi : 0 ≤ i) (hli : lo ≤ i)
    (hn : n ≤ h.length) :
    (∃ h', down cmp h i n = .ok (true, h') ∧ Moves n h h' ∧ HeapFrom cmp h' lo n) ∨
    (down cmp h i n = .ok (false, h) ∧ ∀ k, 0 < k → k < n → lo ≤ par k → k ≠ i → Le cmp h (par k) k) := by
  by_cases c : 2 * i + 1 < n
  · obtain ⟨j, ej, h0, hj, hp, hmin⟩ := pick_child hc hi hn c
    have hij : i < j := by simp only [par] at hp; omega
    simp only [down]
    rw [downLoop, if_neg (by omega)]
    simp only [ej, Res.ok_bind]
    rcases lessAt_spec hc (h := h) (i := j) (j := i) (by omega) (by omega) with ⟨e, le⟩ | ⟨e, le⟩
    · left
      simp only [e, Res.ok_bind, Bool.not_true, Bool.false_eq_true, if_false]
      rw [swapAt_ok (by omega) (by omega)]
      simp only [Res.ok_bind]
      obtain ⟨hh', hedge⟩ := hh.swap_down hc hlo hi hli hn h0 hj hp hmin le
      obtain ⟨i', h', e', hi', hm, hheap⟩ := downLoop_spec hc hlo h.length (lswap h i j) j hh' (fun a b c => hedge j h0 hj c (.inr hp)) (by omega) (by omega)
        (by rw [lswap_length]; exact hn) (by omega) (by omega)
      refine ⟨h', ?_, (Moves.swap (by omega) (by omega) hn).trans hm, hheap⟩
      simp only [e', Res.ok_bind]
      simp; omega
    · right
      simp only [e, Res.ok_bind, Bool.not_false, if_true]
      refine ⟨by simp, ?_⟩
      intro k hk0 hkn hl c1
      by_cases c2 : par k = i
      · rw [c2]; exact le.trans hc (hmin k hk0 hkn c2) (by omega)
      · exact hh.other k hk0 hkn hl c1 c2
  · right
    simp only [down]
    rw [downLoop, if_pos (by omega)]
    refine ⟨by simp, ?_⟩
    intro k hk0 hkn hl c1
    refine hh.other k hk0 hkn hl c1 ?_
    simp only [par]; omega

/-! ## `up` -/

/-- `up` from a position that is in order with its children. -/
theorem upLoop_spec (hc : LawfulCmp cmp) {n : Int} : ∀ (f : Nat) (h : List T) (j : Int), Hole cmp h 0 n j →
    (∀ k, 0 < k → k < n → par k = j → Le cmp h j k) → 0 ≤ j → j < n → n ≤ h.length → j < f →
    ∃ h', upLoop cmp f h j = .ok h' ∧ Moves n h h' ∧ HeapFrom cmp h' 0 n := by
  intro f
  induction f with
  | zero => intro h j _ _ h0 _ _ hf; omega
  | succ f ih =>
    intro h j hh hch h0 hjn hn hf
    have done : (0 < j → Le cmp h (par j) j) → HeapFrom cmp h 0 n := by
      intro hp k hk0 hkn hl
      by_cases c1 : k = j
      · subst c1; exact hp hk0
      · by_cases c2 : par k = j
        · rw [c2]; exact hch k hk0 hkn c2
        · exact hh.other k hk0 hkn hl c1 c2
    by_cases c : j = 0
    · subst c
      exact ⟨h, by rw [upLoop, if_pos (by decide)], .refl _ _, done (by omega)⟩
    · have hp : (j - 1).tdiv 2 = par j := tdiv_par (by omega)
      have hpj : par j < j ∧ 0 ≤ par j := by simp only [par]; omega
      have hiv : 0 ≤ par j ∧ par j < h.length := by omega
      have hjv : 0 ≤ j ∧ j < h.length := by omega
      rw [upLoop]
      simp only [hp]
      rw [if_neg (by omega)]
      rcases lessAt_spec hc hjv hiv with ⟨e, le⟩ | ⟨e, le⟩
      · simp only [e, Res.ok_bind, Bool.not_true, Bool.false_eq_true, if_false]
        rw [swapAt_ok hiv hjv]
        simp only [Res.ok_bind]
        have sib : ∀ k, 0 < k → k < n → par k = par j → Le cmp (lswap h (par j) j) (par j) k := by
          intro k hk0 hkn hk
          by_cases c1 : k = j
          · subst c1
            refine (le_lswap (a' := k) (b' := par k) hiv hjv ?_ ?_).2 le
            · rw [if_neg (by omega), if_pos rfl]
            · rw [if_pos rfl]
          · refine (le_lswap (a' := j) (b' := k) hiv hjv ?_ ?_).2 (le.trans hc ?_ hiv)
            · rw [if_neg (by omega), if_pos rfl]
            · rw [if_neg c1, if_neg (by simp only [par] at hk ⊢; omega)]
            · have := hh.other k hk0 hkn (by omega) c1 (by omega)
              rwa [hk] at this
        have below : ∀ k, 0 < k → k < n → par k = j → Le cmp (lswap h (par j) j) (par k) k := by
          intro k hk0 hkn hk
          have : Le cmp h (par j) k := hh.grand (by omega) (by omega) k hk0 hkn hk
          refine (le_lswap (a' := par j) (b' := k) hiv hjv ?_ ?_).2 this
          · rw [if_pos hk]
          · rw [if_neg (by simp only [par] at hk; omega), if_neg (by simp only [par] at hk ⊢; omega)]
        have hh' : Hole cmp (lswap h (par j) j) 0 n (par j) := by
          refine ⟨?_, ?_⟩
          · intro k hk0 hkn hl hki hpi
            by_cases c2 : par k = j
            · exact below k hk0 hkn c2
            · have hkj : k ≠ j := by rintro rfl; exact hpi rfl
              refine (le_lswap (a' := par k) (b' := k) hiv hjv ?_ ?_).2 (hh.other k hk0 hkn hl hkj c2)
              · rw [if_neg c2, if_neg hpi]
              · rw [if_neg hkj, if_neg hki]
          · intro hpp hl k hk0 hkn hk
            have e1 : Le cmp h (par (par j)) (par j) := hh.other (par j) hpp (by omega) hl (by omega) (by simp only [par] at hpj ⊢; omega)
            have hgp : par (par j) < par j ∧ 0 ≤ par (par j) := by simp only [par] at hpp ⊢; omega
            by_cases c1 : k = j
            · subst c1
              refine (le_lswap (a' := par (par k)) (b' := par k) hiv hjv ?_ ?_).2 e1
              · rw [if_neg (by omega), if_neg (by omega)]
              · rw [if_pos rfl]
            · refine (le_lswap (a' := par (par j)) (b' := k) hiv hjv ?_ ?_).2 (e1.trans hc ?_ hiv)
              · rw [if_neg (by omega), if_neg (by omega)]
              · rw [if_neg c1, if_neg (by simp only [par] at hk ⊢; omega)]
              · have := hh.other k hk0 hkn (by omega) c1 (by omega)
                rwa [hk] at this
        obtain ⟨h', e', hm, hheap⟩ := ih (lswap h (par j) j) (par j) hh' sib (by omega) (by omega) (by rw [lswap_length]; exact hn) (by omega)
        exact ⟨h', e', (Moves.swap (by omega) (by omega) hn).trans hm, hheap⟩
      · simp only [e, Res.ok_bind, Bool.not_false, if_true]
        exact ⟨h, rfl, .refl _ _, done (fun _ => le)⟩

theorem up_spec (hc : LawfulCmp cmp) {h : List T} {n j : Int} (hh : ∀ k, 0 < k → k < n → k ≠ j → Le cmp h (par k) k)
    (hg : 0 < j → ∀ k, 0 < k → k < n → par k = j → Le cmp h (par j) k) (h0 : 0 ≤ j) (hj : j < n) (hn : n ≤ h.length) :
    ∃ h', up cmp h j = .ok h' ∧ Moves n h h' ∧ HeapFrom cmp h' 0 n := by
  refine upLoop_spec hc _ h j ⟨fun k a b _ d _ => hh k a b d, fun a _ => hg a⟩ ?_ h0 hj hn (by omega)
  intro k hk0 hkn hk
  have := hh k hk0 hkn (by simp only [par] at hk; omega)
  rwa [hk] at this

end GoSTL.Heap
