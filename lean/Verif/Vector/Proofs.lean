import Verif.Vector.Spec
/-!
# Each vector call refines the call on a sequence
-/
namespace GoSTL.Vector
open GoSTL.GoSlice

variable {T : Type} {zero : T}

/-- The outcome of a call on the vector `s` in memory `m`: it now shows `l'`, only its own array was written, and a new
header points to its old array or to a fresh one. -/
structure Done (m : Mem T) (s : Slice) (m' : Mem T) (s' : Slice) (l' : List T) : Prop where
  wf : WF m' s'
  contents : contents m' s' = l'
  frame : Frame m m' s.arr
  fresh : s'.arr = s.arr ∨ m.length ≤ s'.arr

theorem Done.same {m : Mem T} {s : Slice} (h : WF m s) : Done m s m s (GoSlice.contents m s) :=
  ⟨h, rfl, .refl _ _, .inl rfl⟩

theorem copyLoop_spec {src dst : Slice} (hne : src.arr ≠ dst.arr) : ∀ (n : Nat) (i : Nat) (m : Mem T), WF m src → WF m dst →
    i + n = src.len → src.len ≤ dst.len →
    (contents m dst).take i = (contents m src).take i →
    ∃ m', copyLoop src dst n i m = .ok m' ∧ WF m' src ∧ WF m' dst ∧ contents m' src = contents m src ∧
      (contents m' dst).take src.len = contents m src ∧ Frame m m' dst.arr ∧ m'.length = m.length := by
  intro n
  induction n with
  | zero =>
    intro i m h1 h2 hi hl ht
    refine ⟨m, rfl, h1, h2, rfl, ?_, .refl _ _, rfl⟩
    have : i = src.len := by omega
    subst this
    rw [ht, List.take_of_length_le (by rw [h1.contents_length]; omega)]
  | succ n ih =>
    intro i m h1 h2 hi hl ht
    unfold copyLoop
    have hix : i < (contents m src).length := by rw [h1.contents_length]; omega
    have hx : (contents m src)[i]? = some (contents m src)[i] := by simp
    rw [read_eq h1]
    have e : Seq.at? (contents m src) (i : Int) = (contents m src)[i]? := by simp [Seq.at?]
    rw [e, hx]
    simp only [Res.ofOption_some, Res.ok_bind]
    obtain ⟨m1, e1, w1, c1, f1, l1⟩ := write_spec h2 (i := i) (by omega) (by omega) (contents m src)[i]
    rw [e1]
    simp only [Res.ok_bind]
    obtain ⟨ws, cs⟩ := f1.wf h1 hne
    have := ih (i + 1) m1 ws w1 (by omega) hl (by
      rw [cs, c1, Int.toNat_natCast]
      rw [List.take_add_one, List.take_set_of_le (Nat.le_refl _), ht, List.take_add_one, hx]
      rw [List.getElem?_set_self (by rw [h2.contents_length]; omega)])
    obtain ⟨m', e2, w2, w3, c2, c3, f2, l2⟩ := this
    refine ⟨m', by exact_mod_cast e2, w2, w3, by rw [c2, cs], by rw [c3, cs], f1.trans f2, by omega⟩

/-- Fresh copy of the first `src.len` elements into a new array. -/
theorem fresh_copy {m : Mem T} {src : Slice} (h : WF m src) {cap : Int} (hc : (src.len : Int) ≤ cap) :
    ∃ m' s', (do
      let (m, data) ← make zero m (src.len : Int) cap
      let m ← copyLoop src data src.len 0 m
      Res.ok (m, data)) = .ok (m', s') ∧ WF m' s' ∧ contents m' s' = contents m src ∧ (∀ k, Frame m m' k) ∧
      s'.arr = m.length ∧ s'.cap = cap.toNat ∧ s'.len = src.len := by
  obtain ⟨m1, s1, e1, w1, c1, a1, l1, k1, o1, f1, ln⟩ := make_spec zero m (len := src.len) (cap := cap) (by omega) hc
  have hne : src.arr ≠ s1.arr := by have := h.arr; omega
  obtain ⟨wsrc, csrc⟩ := (f1 s1.arr).wf h hne
  obtain ⟨m2, e2, w2, w3, c2, c3, f2, l2⟩ := copyLoop_spec hne src.len 0 m1 wsrc w1 (by omega) (by omega) (by simp)
  refine ⟨m2, s1, ?_, w3, ?_, ?_, a1, k1, by omega⟩
  · rw [e1]; simp only [Res.ok_bind]
    have e2' : copyLoop src s1 src.len 0 m1 = .ok m2 := by exact_mod_cast e2
    rw [e2']; rfl
  · rw [← csrc, ← c3, List.take_of_length_le (by rw [w3.contents_length]; omega)]
  · intro k
    refine ⟨by omega, fun j hj hl => ?_⟩
    rw [f2.2 j (by omega) (by omega), (f1 k).2 j hj hl]

theorem shiftLoop_spec {s : Slice} : ∀ (n : Nat) (m : Mem T) (A B1 B2 : List T) (y : T) (i : Int), WF m s →
    contents m s = A ++ B1 ++ y :: B2 → B1.length = n → i = A.length + n →
    ∃ m' h, shiftLoop s n i m = .ok m' ∧ WF m' s ∧ contents m' s = A ++ h :: (B1 ++ B2) ∧ Frame m m' s.arr := by
  intro n
  induction n with
  | zero =>
    intro m A B1 B2 y i h hc hn hi
    obtain rfl : B1 = [] := List.length_eq_zero_iff.1 hn
    exact ⟨m, y, rfl, h, by simpa using hc, .refl _ _⟩
  | succ n ih =>
    intro m A B1 B2 y i h hc hn hi
    obtain ⟨B1', b, rfl⟩ : ∃ B b, B1 = B ++ [b] := by
      rcases List.eq_nil_or_concat B1 with rfl | ⟨B, b, rfl⟩
      · simp at hn
      · exact ⟨B, b, by simp⟩
    simp at hn
    have hlen := h.contents_length
    rw [hc] at hlen
    simp at hlen
    unfold shiftLoop
    have hx : Seq.at? (contents m s) (i - 1) = some b := by
      have e : contents m s = (A ++ B1') ++ b :: (y :: B2) := by rw [hc]; simp
      rw [e, Seq.at?, if_pos (by omega)]
      have e2 : (i - 1).toNat = (A ++ B1').length := by simp; omega
      rw [e2, List.getElem?_append_right (Nat.le_refl _)]; simp
    rw [read_eq h, hx]
    simp only [Res.ofOption_some, Res.ok_bind]
    obtain ⟨m1, e1, w1, c1, f1, _⟩ := write_spec h (i := i) (by omega) (by omega) b
    rw [e1]
    simp only [Res.ok_bind]
    have c1' : contents m1 s = A ++ B1' ++ b :: (b :: B2) := by
      rw [c1, hc]
      have e2 : i.toNat = (A ++ (B1' ++ [b])).length := by simp; omega
      rw [e2, List.set_append_right _ _ (Nat.le_refl _)]; simp
    obtain ⟨m', hh, e2, w2, c2, f2⟩ := ih m1 A B1' (b :: B2) b (i - 1) w1 c1' hn (by push_cast at hi; omega)
    exact ⟨m', hh, e2, w2, by rw [c2]; simp, f1.trans f2⟩

theorem insertAt_spec {m : Mem T} {s : Slice} (h : WF m s) (p : Int) (v : T) (extra : Nat) :
    ∃ m' s', insertAt zero m s p v extra = .ok (m', s') ∧ Done m s m' s' (ins (contents m s) p v) := by
  have hlen := h.contents_length
  unfold insertAt
  by_cases c : p < 0 ∨ p > size s
  · rw [if_pos c]
    refine ⟨m, s, rfl, ?_⟩
    rw [ins, if_neg (by unfold size at c; omega)]
    exact .same h
  · rw [if_neg c]
    unfold size at c
    obtain ⟨m1, s1, e1, w1, c1, f1, a1, l1, k1, _⟩ := append_spec zero h [v] extra
    rw [e1]
    simp only
    have hl1 : s1.len = s.len + 1 := by simpa using l1
    have hsplit : contents m1 s1 = (contents m s).take p.toNat ++ (contents m s).drop p.toNat ++ v :: [] := by
      rw [c1, List.take_append_drop]
    obtain ⟨m2, hd, e2, w2, c2, f2⟩ := shiftLoop_spec ((s1.len : Int) - 1 - p).toNat m1 _ _ [] v (s1.len - 1) w1 hsplit
      (by simp; omega) (by simp; omega)
    rw [e2]
    simp only [Res.ok_bind]
    obtain ⟨m3, e3, w3, c3, f3, _⟩ := write_spec w2 (i := p) (by omega) (by omega) v
    rw [e3]
    refine ⟨m3, s1, rfl, w3, ?_, ?_, ?_⟩
    · rw [c3, c2, ins, if_pos (by omega)]
      have e : p.toNat - ((contents m s).take p.toNat).length = 0 := by simp; omega
      rw [List.append_nil, List.set_append_right _ _ (by simp; omega), e]; rfl
    · have ff := f2.trans f3
      refine ⟨Nat.le_trans f1.1 ff.1, fun j hj hl => ?_⟩
      have := f1.1
      rw [ff.2 j (by omega) (by omega), f1.2 j hj hl]
    · rcases a1 with a1 | a1 <;> omega

theorem eraseIndexRange_spec {m : Mem T} {s : Slice} (h : WF m s) (a b : Int) (extra : Nat) :
    ∃ m' s', eraseIndexRange zero m s a b extra = .ok (m', s') ∧ Done m s m' s' (del (contents m s) a b) ∧
      s'.cap = s.cap := by
  have hlen := h.contents_length
  have hle := h.le
  unfold eraseIndexRange
  by_cases c1 : a > b
  · rw [if_pos c1]
    refine ⟨m, s, rfl, ?_, rfl⟩
    rw [del, if_neg (by omega)]
    exact .same h
  rw [if_neg c1]
  by_cases c2 : a < 0 ∨ b > size s
  · rw [if_pos c2]
    refine ⟨m, s, rfl, ?_, rfl⟩
    rw [del, if_neg (by unfold size at c2; omega)]
    exact .same h
  rw [if_neg c2]
  unfold size at c2
  obtain ⟨s1, e1, w1, k1, ar1, ln1, cp1, of1⟩ := reslice_prefix h (k := a) (by omega) (by omega)
  obtain ⟨s2, e2, w2, k2, ar2, ln2⟩ := reslice_suffix h (k := b) (by omega) (by omega)
  rw [e1, e2]
  simp only [Res.ok_bind]
  obtain ⟨m3, s3, e3, w3, k3, f3, a3, l3, q3, _⟩ := append_spec zero w1 (contents m s2) extra
  rw [e3]
  have hcap : s1.len + (contents m s2).length ≤ s1.cap := by
    rw [w2.contents_length, ln1, ln2, cp1]; omega
  refine ⟨m3, s3, rfl, ⟨w3, ?_, by rw [ar1] at f3; exact f3, ?_⟩, by rw [(q3 hcap).1, cp1]⟩
  · rw [k3, k1, k2, del, if_pos (by omega)]
  · left; rw [(q3 hcap).2.1, ar1]

theorem at_spec {m : Mem T} {s : Slice} (h : WF m s) (p : Int) : at_ m s p = Res.ofOption (Seq.at? (contents m s) p) := by
  unfold at_
  split
  · next c =>
    have hl := h.contents_length
    unfold size at c
    have : Seq.at? (contents m s) p = none := by
      unfold Seq.at?
      split
      · rw [List.getElem?_eq_none_iff]; omega
      · rfl
    rw [this]; rfl
  · exact read_eq h p

theorem back_spec {m : Mem T} {s : Slice} (h : WF m s) : back m s = Res.ofOption (contents m s).getLast? := by
  have hl := h.contents_length
  unfold back size
  rw [at_spec h, List.getLast?_eq_getElem?, hl]
  congr 1
  unfold Seq.at?
  by_cases c : s.len = 0
  · rw [if_neg (by omega)]
    symm; rw [List.getElem?_eq_none_iff]; omega
  · rw [if_pos (by omega)]; congr 1; omega

/-- What a call on a vector must produce, given what it must produce on the sequence it shows. -/
def Refines (m : Mem T) (s : Slice) (r : Res (Out T × Mem T × Slice)) : Res (Out T × List T) → Prop
  | .ok (o, l') => ∃ m' s', r = .ok (o, m', s') ∧ Done m s m' s' l'
  | .panic => r = .panic
  | .outOfFuel => False

theorem step_refines {m : Mem T} {s : Slice} (h : WF m s) (op : Op T) :
    Refines m s (step zero op m s) (specStep op (contents m s)) := by
  have hlen := h.contents_length
  have hle := h.le
  cases op with
  | pushBack v e =>
    obtain ⟨m', s', e1, w1, c1, f1, a1, -⟩ := append_spec zero h [v] e
    refine ⟨m', s', by simp [step, pushBack, e1], w1, c1, f1, ?_⟩
    rcases a1 with a1 | a1 <;> omega
  | setAt p v =>
    simp only [step, specStep]
    by_cases c : 0 ≤ p ∧ p < s.len
    · have e0 : setAt m s p v = write m s p v := if_neg (by unfold size; omega)
      obtain ⟨m', e1, w1, c1, f1, -⟩ := write_spec h c.1 c.2 v
      rw [e0, e1, if_pos (by omega)]
      exact ⟨m', s, rfl, w1, c1, f1, .inl rfl⟩
    · have e0 : setAt m s p v = .ok m := if_pos (by unfold size; omega)
      rw [e0, if_neg (by omega)]
      exact ⟨m, s, rfl, .same h⟩
  | insertAt p v e =>
    obtain ⟨m', s', e1, d⟩ := insertAt_spec (zero := zero) h p v e
    exact ⟨m', s', by simp [step, e1], d⟩
  | insert p v e =>
    obtain ⟨m', s', e1, d⟩ := insertAt_spec (zero := zero) h p v e
    exact ⟨m', s', by simp [step, e1], d⟩
  | eraseAt p e =>
    obtain ⟨m', s', e1, d, -⟩ := eraseIndexRange_spec (zero := zero) h p (p + 1) e
    exact ⟨m', s', by simp [step, eraseAt, e1], d⟩
  | erase p e =>
    obtain ⟨m', s', e1, d, -⟩ := eraseIndexRange_spec (zero := zero) h p (p + 1) e
    exact ⟨m', s', by simp [step, eraseAt, e1], d⟩
  | eraseIndexRange a b e =>
    obtain ⟨m', s', e1, d, -⟩ := eraseIndexRange_spec (zero := zero) h a b e
    exact ⟨m', s', by simp [step, e1], d⟩
  | eraseRange a b e =>
    obtain ⟨m', s', e1, d, -⟩ := eraseIndexRange_spec (zero := zero) h a b e
    exact ⟨m', s', by simp [step, e1], d⟩
  | «at» p =>
    simp only [step, specStep, at_spec h, Seq.at?]
    by_cases c : 0 ≤ p
    · rw [if_pos c, if_pos c]
      cases (contents m s)[p.toNat]? with
      | none => rfl
      | some x => exact ⟨m, s, rfl, .same h⟩
    · rw [if_neg c, if_neg c]; rfl
  | front =>
    simp only [step, specStep, front, at_spec h, Seq.at?]
    rw [if_pos (by omega), List.head?_eq_getElem?]
    cases hx : (contents m s)[(0 : Int).toNat]? with
    | none => simp at hx; simp [hx, Refines]
    | some x => simp at hx; simp [hx]; exact ⟨m, s, rfl, .same h⟩
  | back =>
    simp only [step, specStep, back_spec h]
    cases (contents m s).getLast? with
    | none => rfl
    | some x => exact ⟨m, s, rfl, .same h⟩
  | popBack =>
    simp only [step, specStep]
    by_cases c : s.len = 0
    · have : contents m s = [] := List.length_eq_zero_iff.1 (by omega)
      have e0 : popBack m s = .panic := if_pos (by simp [empty, c])
      simp [e0, this, Refines]
    · have e0 : popBack m s = (do
          let val ← back m s
          let s ← reslice s 0 (s.len - 1)
          .ok (val, s)) := if_neg (by simp [empty, c])
      rw [e0, back_spec h]
      obtain ⟨x, hx⟩ : ∃ x, (contents m s).getLast? = some x := by
        rw [List.getLast?_eq_getElem?]
        exact ⟨_, List.getElem?_eq_getElem (by omega)⟩
      rw [hx]
      obtain ⟨s1, e1, w1, k1, ar1, -⟩ := reslice_prefix h (k := s.len - 1) (by omega) (by omega)
      refine ⟨m, s1, by simp [e1], w1, ?_, .refl _ _, .inl ar1⟩
      rw [k1, List.dropLast_eq_take, hlen]; congr 1; omega
  | reserve c =>
    simp only [step, specStep, reserve]
    by_cases c1 : (s.cap : Int) ≥ c
    · rw [if_pos c1]; exact ⟨m, s, rfl, .same h⟩
    · rw [if_neg c1]
      obtain ⟨m', s', e1, w1, k1, f1, a1, -⟩ := fresh_copy (zero := zero) h (cap := c) (by omega)
      refine ⟨m', s', ?_, w1, k1, f1 _, .inr (by omega)⟩
      simp only [size]
      rw [e1]; rfl
  | shrinkToFit =>
    simp only [step, specStep, shrinkToFit]
    by_cases c1 : s.len = s.cap
    · rw [if_pos c1]; exact ⟨m, s, rfl, .same h⟩
    · rw [if_neg c1]
      obtain ⟨m', s', e1, w1, k1, f1, a1, -⟩ := fresh_copy (zero := zero) h (cap := s.len) (by omega)
      refine ⟨m', s', ?_, w1, k1, f1 _, .inr (by omega)⟩
      simp only [size]
      rw [e1]; rfl
  | clear =>
    obtain ⟨s1, e1, w1, k1, ar1, -⟩ := reslice_prefix h (k := 0) (by omega) (by omega)
    exact ⟨m, s1, by simp [step, clear, e1], w1, by simpa using k1, .refl _ _, .inl ar1⟩
  | resize n =>
    simp only [step, specStep, resize, size]
    by_cases c0 : n < 0
    · rw [if_pos c0, if_neg (show ¬ n ≥ (s.len : Int) by omega), reslice, if_neg (by omega)]; rfl
    · rw [if_neg c0]
      by_cases c1 : n ≥ s.len
      · rw [if_pos c1]
        refine ⟨m, s, rfl, ?_⟩
        rw [List.take_of_length_le (by omega)]; exact .same h
      · rw [if_neg c1]
        obtain ⟨s1, e1, w1, k1, ar1, -⟩ := reslice_prefix h (k := n) (by omega) (by omega)
        exact ⟨m, s1, by simp [e1], w1, k1, .refl _ _, .inl ar1⟩
  | size => exact ⟨m, s, by simp [step, size, hlen], .same h⟩
  | empty =>
    refine ⟨m, s, ?_, .same h⟩
    simp only [step, empty]
    congr 3
    by_cases c : s.len = 0
    · have : contents m s = [] := List.length_eq_zero_iff.1 (by omega)
      simp [c, this]
    · have : contents m s ≠ [] := fun e => by rw [e] at hlen; simp at hlen; omega
      cases hx : contents m s <;> simp_all

/-! ## Worlds -/

/-- Every vector is well formed and no two share a backing array. -/
structure WInv (w : World T) : Prop where
  wf : ∀ (i : Nat) (s : Slice), w.vecs[i]? = some s → WF w.mem s
  disj : ∀ (i j : Nat) (s t : Slice), i ≠ j → w.vecs[i]? = some s → w.vecs[j]? = some t → s.arr ≠ t.arr

/-- The sequences the vectors show. -/
def shows (w : World T) : List (List T) := w.vecs.map (contents w.mem)

theorem shows_get (w : World T) (i : Nat) : (shows w)[i]? = (w.vecs[i]?).map (contents w.mem) := by simp [shows]

theorem WInv.update {w : World T} (h : WInv w) {i : Nat} {s s' : Slice} {m' : Mem T} {l' : List T}
    (hi : w.vecs[i]? = some s) (d : Done w.mem s m' s' l') :
    WInv { mem := m', vecs := w.vecs.set i s' } ∧ shows { mem := m', vecs := w.vecs.set i s' } = (shows w).set i l' := by
  have hil : i < w.vecs.length := by
    rcases Nat.lt_or_ge i w.vecs.length with h | h
    · exact h
    · rw [List.getElem?_eq_none h] at hi; cases hi
  have other : ∀ (j : Nat) (t : Slice), j ≠ i → w.vecs[j]? = some t → WF m' t ∧ contents m' t = contents w.mem t :=
    fun j t hj ht => d.frame.wf (h.wf j t ht) (h.disj j i t s hj ht hi)
  have fresh : ∀ (j : Nat) (t : Slice), j ≠ i → w.vecs[j]? = some t → s'.arr ≠ t.arr := fun j t hj ht => by
    rcases d.fresh with e | e
    · rw [e]; exact h.disj i j s t (Ne.symm hj) hi ht
    · have := (h.wf j t ht).arr; omega
  refine ⟨⟨?_, ?_⟩, ?_⟩
  · intro j t ht
    by_cases hj : i = j
    · subst hj
      simp only [List.getElem?_set_self hil, Option.some.injEq] at ht
      subst ht; exact d.wf
    · simp only [List.getElem?_set_ne hj] at ht
      exact (other j t (Ne.symm hj) ht).1
  · intro j k t u hjk ht hu
    by_cases hj : i = j
    · subst hj
      simp only [List.getElem?_set_self hil, Option.some.injEq] at ht
      simp only [List.getElem?_set_ne hjk] at hu
      subst ht; exact fresh k u (Ne.symm hjk) hu
    · simp only [List.getElem?_set_ne hj] at ht
      by_cases hk : i = k
      · subst hk
        simp only [List.getElem?_set_self hil, Option.some.injEq] at hu
        subst hu; exact (fresh j t (Ne.symm hj) ht).symm
      · simp only [List.getElem?_set_ne hk] at hu
        exact h.disj j k t u hjk ht hu
  · apply List.ext_getElem?
    intro j
    rw [shows_get]
    by_cases hj : i = j
    · subst hj
      rw [List.getElem?_set_self hil, List.getElem?_set_self (by simp [shows]; exact hil)]
      simp [d.contents]
    · rw [List.getElem?_set_ne hj, List.getElem?_set_ne hj, shows_get]
      cases ht : w.vecs[j]? with
      | none => rfl
      | some t => simp [(other j t (Ne.symm hj) ht).2]

theorem WInv.push {w : World T} (h : WInv w) {m' : Mem T} {s' : Slice} {l' : List T} (hf : ∀ k, Frame w.mem m' k)
    (hw : WF m' s') (hc : contents m' s' = l') (ha : w.mem.length ≤ s'.arr) :
    WInv { mem := m', vecs := w.vecs ++ [s'] } ∧ shows { mem := m', vecs := w.vecs ++ [s'] } = shows w ++ [l'] := by
  have other : ∀ (j : Nat) (t : Slice), w.vecs[j]? = some t → WF m' t ∧ contents m' t = contents w.mem t :=
    fun j t ht => (hf s'.arr).wf (h.wf j t ht) (by have := (h.wf j t ht).arr; omega)
  have cases' : ∀ (j : Nat) (t : Slice), (w.vecs ++ [s'])[j]? = some t → w.vecs[j]? = some t ∨ (j = w.vecs.length ∧ t = s') := by
    intro j t ht
    rcases Nat.lt_or_ge j w.vecs.length with hl | hl
    · rw [List.getElem?_append_left hl] at ht; exact .inl ht
    · rw [List.getElem?_append_right hl] at ht
      right
      have : j - w.vecs.length = 0 := by
        rcases Nat.eq_zero_or_pos (j - w.vecs.length) with h | h
        · exact h
        · rw [List.getElem?_eq_none (by simp; omega)] at ht; cases ht
      rw [this] at ht; simp at ht
      exact ⟨by omega, ht.symm⟩
  refine ⟨⟨?_, ?_⟩, ?_⟩
  · intro j t ht
    rcases cases' j t ht with h1 | ⟨-, rfl⟩
    · exact (other j t h1).1
    · exact hw
  · intro j k t u hjk ht hu
    rcases cases' j t ht with h1 | ⟨e1, rfl⟩ <;> rcases cases' k u hu with h2 | ⟨e2, rfl⟩
    · exact h.disj j k t u hjk h1 h2
    · have := (h.wf j t h1).arr; omega
    · have := (h.wf k u h2).arr; omega
    · omega
  · simp only [shows, List.map_append, List.map_cons, List.map_nil, hc]
    congr 1
    apply List.map_congr_left
    intro t ht
    obtain ⟨j, hj⟩ := List.getElem?_of_mem ht
    exact (other j t hj).2

/-- A step of the program refines a step on the sequences. -/
theorem wstep_refines {w : World T} (h : WInv w) (c : Call T) :
    match specCall c (shows w) with
    | .ok (o, ls) => ∃ w', wstep zero c w = .ok (o, w') ∧ WInv w' ∧ shows w' = ls
    | .panic => wstep zero c w = .panic
    | .outOfFuel => False := by
  cases c with
  | new k =>
    simp only [specCall]
    by_cases c : k < 0
    · rw [if_pos c]
      simp only [wstep, new, make]
      rw [if_neg (by omega)]; rfl
    · rw [if_neg c]
      obtain ⟨m', s', e, w1, c1, a1, -, -, -, f1, -⟩ := make_spec zero w.mem (len := 0) (cap := k) (by omega) (by omega)
      obtain ⟨h1, h2⟩ := h.push f1 w1 c1 (by omega)
      exact ⟨_, by simp only [wstep, new, e]; rfl, h1, by simpa using h2⟩
  | newFromVector i =>
    simp only [specCall, shows_get, wstep]
    cases hi : w.vecs[i]? with
    | none => simp
    | some o =>
      simp only [Option.map_some]
      have ho := h.wf i o hi
      obtain ⟨m', s', e1, w1, k1, f1, a1, -⟩ := fresh_copy (zero := zero) ho (cap := o.cap) (by have := ho.le; omega)
      obtain ⟨h1, h2⟩ := h.push f1 w1 k1 (by omega)
      refine ⟨_, ?_, h1, h2⟩
      simp only [newFromVector]
      rw [e1]; rfl
  | on i op =>
    simp only [specCall, shows_get, wstep]
    cases hi : w.vecs[i]? with
    | none => simp
    | some v =>
      simp only [Option.map_some]
      have hr := step_refines (zero := zero) (h.wf i v hi) op
      cases hs : specStep op (contents w.mem v) with
      | ok r =>
        obtain ⟨o, l'⟩ := r
        rw [hs] at hr
        obtain ⟨m', s', e, d⟩ := hr
        obtain ⟨h1, h2⟩ := h.update hi d
        exact ⟨_, by rw [e]; rfl, h1, h2⟩
      | panic => rw [hs] at hr; simp only [Refines] at hr; rw [hr]; rfl
      | outOfFuel => rw [hs] at hr; exact hr.elim

theorem wrun_refines (cs : List (Call T)) : ∀ {w : World T}, WInv w →
    match specRun cs (shows w) with
    | .ok (os, ls) => ∃ w', wrun zero cs w = .ok (os, w') ∧ WInv w' ∧ shows w' = ls
    | .panic => wrun zero cs w = .panic
    | .outOfFuel => False := by
  induction cs with
  | nil => intro w h; exact ⟨w, rfl, h, rfl⟩
  | cons c cs ih =>
    intro w h
    have h1 := wstep_refines (zero := zero) h c
    simp only [specRun, wrun]
    cases hs : specCall c (shows w) with
    | ok r =>
      obtain ⟨o, ls⟩ := r
      rw [hs] at h1
      obtain ⟨w', e, i1, i2⟩ := h1
      have h2 := ih i1
      rw [i2] at h2
      simp only [e, Res.ok_bind]
      cases hs2 : specRun cs ls with
      | ok r2 =>
        obtain ⟨os, ls2⟩ := r2
        rw [hs2] at h2
        obtain ⟨w2, e2, j1, j2⟩ := h2
        exact ⟨w2, by rw [e2]; rfl, j1, j2⟩
      | panic => rw [hs2] at h2; rw [h2]; rfl
      | outOfFuel => rw [hs2] at h2; exact h2.elim
    | panic => rw [hs] at h1; rw [h1]; rfl
    | outOfFuel => rw [hs] at h1; exact h1.elim

end GoSTL.Vector
