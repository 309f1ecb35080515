import Verif.Deque.Rep
/-!
# Offsets, the shape of the segment list, and the element-shifting loops
-/
namespace GoSTL.Deque
variable {T : Type} {cfg : Cfg T}

/-- Length of segment `i`. -/
def slen (L : List (List T)) (i : Nat) : Nat := (L[i]?.getD []).length
/-- Number of elements before segment `i`. -/
def off (L : List (List T)) (i : Nat) : Nat := (L.take i).flatten.length

theorem slen_eq {L : List (List T)} {i : Nat} {l : List T} (h : L[i]? = some l) : slen L i = l.length := by simp [slen, h]

theorem slen_out {L : List (List T)} {i : Nat} (h : L.length ≤ i) : slen L i = 0 := by
  simp [slen, List.getElem?_eq_none h]

theorem slen_set {L : List (List T)} {i j : Nat} (hi : i < L.length) (l : List T) :
    slen (L.set i l) j = if i = j then l.length else slen L j := by
  unfold slen
  rw [List.getElem?_set]
  split
  · simp [hi]
  · rfl

@[simp] theorem off_zero (L : List (List T)) : off L 0 = 0 := by simp [off]

theorem off_succ (L : List (List T)) (k : Nat) : off L (k + 1) = off L k + slen L k := by
  unfold off slen
  rw [List.take_add_one]
  cases h : L[k]? <;> simp

theorem off_all (L : List (List T)) {k : Nat} (h : L.length ≤ k) : off L k = L.flatten.length := by
  unfold off; rw [List.take_of_length_le h]

theorem split_at {L : List (List T)} {i : Nat} {l : List T} (h : L[i]? = some l) :
    ∃ P S, L = P ++ l :: S ∧ P.length = i ∧ off L i = P.flatten.length ∧ ∀ l', L.set i l' = P ++ l' :: S := by
  obtain ⟨hi, e⟩ := List.getElem?_eq_some_iff.1 h
  refine ⟨L.take i, L.drop (i + 1), ?_, by simp; omega, rfl, fun l' => ?_⟩
  · rw [← e, List.getElem_cons_drop, List.take_append_drop]
  · rw [List.set_eq_take_append_cons_drop, if_pos hi]

/-- The segment list has the shape the code relies on: no empty segment, and all but the first and last are full. -/
structure Shape (K : Nat) (L : List (List T)) : Prop where
  ne : ∀ i, i < L.length → 1 ≤ slen L i
  mid : ∀ i, 0 < i → i + 1 < L.length → slen L i = K

theorem Shape.off {K : Nat} {L : List (List T)} (h : Shape K L) : ∀ k, k + 1 ≤ L.length → off L (k + 1) = slen L 0 + k * K ∨
    (k + 1 = L.length ∧ off L (k + 1) = off L k + slen L k) := by
  intro k
  induction k with
  | zero => intro _; left; simp [off_succ]
  | succ k ih =>
    intro hk
    by_cases c : k + 1 + 1 = L.length
    · right; exact ⟨c, off_succ _ _⟩
    · left
      rcases ih (by omega) with h1 | ⟨h1, -⟩
      · rw [off_succ, h1, h.mid (k + 1) (by omega) (by omega), Nat.succ_mul]; omega
      · omega

theorem Shape.off' {K : Nat} {L : List (List T)} (h : Shape K L) (k : Nat) (hk : k + 1 < L.length) : Deque.off L (k + 1) = slen L 0 + k * K := by
  rcases h.off k (by omega) with h1 | ⟨h1, -⟩
  · exact h1
  · omega

theorem Rep.slen_le {d : Deq T} {U : List Nat} {L : List (List T)} (h : Rep cfg d U L) (i : Nat) : slen L i ≤ cfg.segCap := by
  by_cases c : i < L.length
  · have hl : L[i]? = some L[i] := by simp
    obtain ⟨id, hu⟩ := h.getU hl
    obtain ⟨s, -, r⟩ := h.seg i id _ hu hl
    rw [slen_eq hl]; exact r.le
  · rw [slen_out (by omega)]; omega

/-- Same deque apart from the contents of segments. -/
structure Same (d d' : Deq T) : Prop where
  segs : d'.segs = d.segs
  begin_ : d'.begin_ = d.begin_
  end_ : d'.end_ = d.end_
  size : d'.size = d.size

theorem Same.refl (d : Deq T) : Same d d := ⟨rfl, rfl, rfl, rfl⟩
theorem Same.trans {d d' d'' : Deq T} (h : Same d d') (h' : Same d' d'') : Same d d'' :=
  ⟨h'.segs.trans h.segs, h'.begin_.trans h.begin_, h'.end_.trans h.end_, h'.size.trans h.size⟩
theorem Same.store (d : Deq T) (id : Nat) (s : Seg T) : Same d (store d id s) := ⟨rfl, rfl, rfl, rfl⟩
theorem Same.segUsed {d d' : Deq T} (h : Same d d') : segUsed d' = segUsed d := by
  unfold Deque.segUsed; rw [h.segs, h.begin_, h.end_, h.size]

/-- `segmentAt` for an existing segment. -/
theorem Rep.segmentAt {d : Deq T} {U : List Nat} {L : List (List T)} (h : Rep cfg d U L) {i : Nat} {l : List T} (hl : L[i]? = some l) :
    ∃ id, segmentAt d (i : Int) = .ok (some id) ∧ U[i]? = some id := by
  obtain ⟨id, hu⟩ := h.getU hl
  have hlt := (List.getElem?_eq_some_iff.1 hu).1
  have := h.ring.le
  refine ⟨id, ?_, hu⟩
  rw [segmentAt_eq h.ring (by omega) (by omega)]
  simp [hu]

theorem fwdLoop_spec : ∀ (n i : Nat) (d : Deq T) (U : List Nat) (L : List (List T)), Rep cfg d U L → i + n < L.length →
    slen L i < cfg.segCap → (∀ j, i < j → j ≤ i + n → 1 ≤ slen L j) →
    ∃ d' L', fwdLoop n (i : Int) d = .ok d' ∧ Rep cfg d' U L' ∧ Same d d' ∧ L'.flatten = L.flatten ∧ L'.length = L.length ∧
      ∀ j, slen L' j + (if j = i + n then 1 else 0) = slen L j + (if j = i then 1 else 0) := by
  intro n
  induction n with
  | zero => intro i d U L h _ _ _; exact ⟨d, L, rfl, h, .refl _, rfl, rfl, fun j => rfl⟩
  | succ n ih =>
    intro i d U L h hlt hK hne
    have hi : L[i]? = some L[i] := by simp
    have hi1 : L[i + 1]? = some L[i + 1] := by simp
    generalize L[i] = a at hi
    generalize L[i + 1] = c at hi1
    have hc : 1 ≤ c.length := by have := hne (i + 1) (by omega) (by omega); rwa [slen_eq hi1] at this
    obtain ⟨x, b, rfl⟩ : ∃ x b, c = x :: b := by
      cases c with
      | nil => simp at hc
      | cons x b => exact ⟨x, b, rfl⟩
    rw [slen_eq hi] at hK
    have hcK : (x :: b).length ≤ cfg.segCap := by have := h.slen_le (i + 1); rwa [slen_eq hi1] at this
    obtain ⟨cid, e1, u1⟩ := h.segmentAt hi
    obtain ⟨nid, e2, u2⟩ := h.segmentAt hi1
    obtain ⟨s, e3, r3⟩ := h.load u2 hi1
    obtain ⟨s', e4, r4⟩ := r3.popFront
    have h1 := h.store u2 r4
    have hi' : (L.set (i + 1) b)[i]? = some a := by rw [List.getElem?_set_ne (by omega)]; exact hi
    obtain ⟨t, e5, r5⟩ := h1.load u1 hi'
    obtain ⟨t', e6, r6⟩ := r5.pushBack hK x
    have h2 := h1.store u1 r6
    have hL1 : ∀ j, slen ((L.set (i + 1) b).set i (a ++ [x])) j = if i = j then a.length + 1 else if i + 1 = j then b.length else slen L j := by
      intro j
      rw [slen_set (by simp; omega), slen_set (by omega)]; simp
    obtain ⟨d', L', e7, r7, sm, f7, l7, c7⟩ := ih (i + 1) _ U _ h2 (by simp; omega)
      (by rw [hL1, if_neg (by omega), if_pos rfl]; simp at hcK; omega)
      (by
        intro j h1 h2
        rw [hL1, if_neg (by omega), if_neg (by omega)]
        exact hne j (by omega) (by omega))
    refine ⟨d', L', ?_, r7, ((Same.store _ _ _).trans (Same.store _ _ _)).trans sm, ?_, ?_, ?_⟩
    · unfold fwdLoop
      have e2' : Deque.segmentAt d ((i : Int) + 1) = .ok (some nid) := by exact_mod_cast e2
      simp only [e1, e2', Res.ok_bind, Res.ofOption_some, e3, e4, e5, e6]
      exact_mod_cast e7
    · rw [f7]
      obtain ⟨P, S, eL, hP, -, hset⟩ := split_at hi
      have hS : ∃ S', S = (x :: b) :: S' := by
        rw [eL, List.getElem?_append_right (by omega)] at hi1
        have : i + 1 - P.length = 1 := by omega
        rw [this] at hi1
        cases S with
        | nil => simp at hi1
        | cons y S' => simp at hi1; subst hi1; exact ⟨S', rfl⟩
      obtain ⟨S', rfl⟩ := hS
      have : (L.set (i + 1) b).set i (a ++ [x]) = P ++ (a ++ [x]) :: b :: S' := by
        rw [eL, List.set_append_right _ _ (by omega)]
        have e1 : i + 1 - P.length = 1 := by omega
        rw [e1]
        rw [List.set_append_right _ _ (by omega)]
        have e2 : i - P.length = 0 := by omega
        rw [e2]; rfl
      rw [this, eL]; simp
    · simpa using l7
    · intro j
      have := c7 j
      rw [hL1] at this
      have ea := slen_eq hi
      have eb := slen_eq hi1
      simp at eb
      by_cases c1 : i = j
      · subst c1; split_ifs at this ⊢ <;> omega
      · by_cases c2 : i + 1 = j
        · subst c2; split_ifs at this ⊢ <;> omega
        · split_ifs at this ⊢ <;> omega

theorem bwdLoop_spec : ∀ (n i : Nat) (d : Deq T) (U : List Nat) (L : List (List T)), Rep cfg d U L → i < L.length → n ≤ i →
    slen L i < cfg.segCap → (∀ j, i - n ≤ j → j < i → 1 ≤ slen L j) →
    ∃ d' L', bwdLoop n (i : Int) d = .ok d' ∧ Rep cfg d' U L' ∧ Same d d' ∧ L'.flatten = L.flatten ∧ L'.length = L.length ∧
      ∀ j, slen L' j + (if j = i - n then 1 else 0) = slen L j + (if j = i then 1 else 0) := by
  intro n
  induction n with
  | zero => intro i d U L h _ _ _ _; exact ⟨d, L, rfl, h, .refl _, rfl, rfl, fun j => rfl⟩
  | succ n ih =>
    intro i d U L h hlt hn hK hne
    obtain ⟨p, rfl⟩ : ∃ p, i = p + 1 := ⟨i - 1, by omega⟩
    have hi : L[p + 1]? = some L[p + 1] := by simp
    have hi1 : L[p]? = some L[p] := by simp
    generalize L[p + 1] = a at hi
    generalize L[p] = c at hi1
    have hc : 1 ≤ c.length := by have := hne p (by omega) (by omega); rwa [slen_eq hi1] at this
    obtain ⟨b, x, rfl⟩ : ∃ b x, c = b ++ [x] := by
      rcases List.eq_nil_or_concat c with rfl | ⟨b, x, rfl⟩
      · simp at hc
      · exact ⟨b, x, by simp⟩
    rw [slen_eq hi] at hK
    have hcK : (b ++ [x]).length ≤ cfg.segCap := by have := h.slen_le p; rwa [slen_eq hi1] at this
    obtain ⟨cid, e1, u1⟩ := h.segmentAt hi
    obtain ⟨nid, e2, u2⟩ := h.segmentAt hi1
    obtain ⟨s, e3, r3⟩ := h.load u2 hi1
    obtain ⟨s', e4, r4⟩ := r3.popBack
    have h1 := h.store u2 r4
    have hi' : (L.set p b)[p + 1]? = some a := by rw [List.getElem?_set_ne (by omega)]; exact hi
    obtain ⟨t, e5, r5⟩ := h1.load u1 hi'
    obtain ⟨t', e6, r6⟩ := r5.pushFront hK x
    have h2 := h1.store u1 r6
    have hL1 : ∀ j, slen ((L.set p b).set (p + 1) (x :: a)) j = if p + 1 = j then a.length + 1 else if p = j then b.length else slen L j := by
      intro j
      rw [slen_set (by simp; omega), slen_set (by omega)]; simp
    obtain ⟨d', L', e7, r7, sm, f7, l7, c7⟩ := ih p _ U _ h2 (by simp; omega) (by omega)
      (by rw [hL1, if_neg (by omega), if_pos rfl]; simp at hcK; omega)
      (by
        intro j h1 h2
        rw [hL1, if_neg (by omega), if_neg (by omega)]
        exact hne j (by omega) (by omega))
    refine ⟨d', L', ?_, r7, ((Same.store _ _ _).trans (Same.store _ _ _)).trans sm, ?_, ?_, ?_⟩
    · unfold bwdLoop
      have e0 : ((p + 1 : Nat) : Int) - 1 = p := by omega
      simp only [e1, e0, e2, Res.ok_bind, Res.ofOption_some, e3, e4, e5, e6]
      exact e7
    · rw [f7]
      obtain ⟨P, S, eL, hP, -, hset⟩ := split_at hi1
      have hS : ∃ S', S = a :: S' := by
        rw [eL, List.getElem?_append_right (by omega)] at hi
        have : p + 1 - P.length = 1 := by omega
        rw [this] at hi
        cases S with
        | nil => simp at hi
        | cons y S' => simp at hi; subst hi; exact ⟨S', rfl⟩
      obtain ⟨S', rfl⟩ := hS
      have : (L.set p b).set (p + 1) (x :: a) = P ++ b :: (x :: a) :: S' := by
        rw [hset, List.set_append_right _ _ (by omega)]
        have e1 : p + 1 - P.length = 1 := by omega
        rw [e1]; rfl
      rw [this, eL]; simp
    · simpa using l7
    · intro j
      have := c7 j
      rw [hL1] at this
      have ea := slen_eq hi
      have eb := slen_eq hi1
      simp at eb
      have esub : p + 1 - (n + 1) = p - n := by omega
      rw [esub]
      by_cases c1 : p + 1 = j
      · subst c1; split_ifs at this ⊢ <;> omega
      · by_cases c2 : p = j
        · subst c2; split_ifs at this ⊢ <;> omega
        · split_ifs at this ⊢ <;> omega

/-- Offsets after a shift by one between segments `a` and `b`. -/
theorem off_shift {L L' : List (List T)} {a b : Nat} (h : ∀ j, slen L' j + (if j = b then 1 else 0) = slen L j + (if j = a then 1 else 0)) :
    ∀ k, off L' k + (if b < k then 1 else 0) = off L k + (if a < k then 1 else 0) := by
  intro k
  induction k with
  | zero => simp
  | succ k ih =>
    rw [off_succ, off_succ]
    have := h k
    split at ih <;> split at ih <;> split at this <;> split at this <;> split <;> split <;> omega

/-- Replacing one segment, seen from the whole. -/
theorem flatten_insert {L : List (List T)} {i : Nat} {l : List T} (h : L[i]? = some l) {q : Nat} (hq : q ≤ l.length) (v : T) :
    (L.set i (l.take q ++ v :: l.drop q)).flatten = L.flatten.take (off L i + q) ++ v :: L.flatten.drop (off L i + q) := by
  obtain ⟨P, S, e, hP, ho, hs⟩ := split_at h
  rw [hs, ho, e]
  simp only [List.flatten_append, List.flatten_cons]
  have e1 : List.take (P.flatten.length + q) P.flatten = P.flatten := List.take_of_length_le (by omega)
  have e2 : List.drop (P.flatten.length + q) P.flatten = [] := List.drop_eq_nil_of_le (by omega)
  rw [List.take_append, List.drop_append, e1, e2, Nat.add_sub_cancel_left,
    List.take_append_of_le_length hq, List.drop_append_of_le_length hq]
  simp only [List.append_assoc, List.cons_append, List.nil_append]

theorem flatten_erase {L : List (List T)} {i : Nat} {l : List T} (h : L[i]? = some l) {q : Nat} (hq : q < l.length) :
    (L.set i (l.eraseIdx q)).flatten = L.flatten.eraseIdx (off L i + q) := by
  obtain ⟨P, S, e, hP, ho, hs⟩ := split_at h
  rw [hs, ho, e]
  simp only [List.flatten_append, List.flatten_cons]
  rw [List.eraseIdx_append_of_length_le (by omega), Nat.add_sub_cancel_left, List.eraseIdx_append_of_lt_length hq]

theorem flatten_get {L : List (List T)} {i : Nat} {l : List T} (h : L[i]? = some l) {q : Nat} (hq : q < l.length) :
    L.flatten[off L i + q]? = l[q]? := by
  obtain ⟨P, S, e, hP, ho, hs⟩ := split_at h
  rw [ho, e]
  simp only [List.flatten_append, List.flatten_cons]
  rw [List.getElem?_append_right (by omega), Nat.add_sub_cancel_left, List.getElem?_append_left hq]

theorem flatten_update {L : List (List T)} {i : Nat} {l : List T} (h : L[i]? = some l) {q : Nat} (hq : q < l.length) (v : T) :
    (L.set i (l.set q v)).flatten = L.flatten.set (off L i + q) v := by
  obtain ⟨P, S, e, hP, ho, hs⟩ := split_at h
  rw [hs, ho, e]
  simp only [List.flatten_append, List.flatten_cons]
  rw [List.set_append_right _ _ (by omega), Nat.add_sub_cancel_left, List.set_append_left _ _ hq]

end GoSTL.Deque
