import Verif.Deque.Props
/-!
# C90: erasing elements of a deque while walking over it
-/
namespace GoSTL.Deque
variable {T : Type} {cfg : Cfg T}

/-- The client loop `for i := 0; i < d.Size(); { if drop(d.At(i)) { d.EraseAt(i) } else { i++ } }`, from a position on
(ds/deque/deque.go:37-39, 160-166, 216-248): the values it looked at, and the deque left. -/
def eraseLoop (cfg : Cfg T) (drop : T → Bool) : Nat → Int → Deq T → Res (List T × Deq T)
  | 0, _, _ => .outOfFuel
  | f + 1, i, d =>
    if i < size d then do
      let x ← at_ cfg d i
      if drop x then do
        let d' ← eraseAt cfg d i
        let (seen, d'') ← eraseLoop cfg drop f i d'
        .ok (x :: seen, d'')
      else do
        let (seen, d'') ← eraseLoop cfg drop f (i + 1) d
        .ok (x :: seen, d'')
    else .ok ([], d)

theorem run_concat (cs : List (Op T)) : ∀ (w w' w'' : Deq T) (os : List (Out T)) (c : Op T) (o : Out T),
    run cfg cs w = .ok (os, w') → step cfg c w' = .ok (o, w'') → run cfg (cs ++ [c]) w = .ok (os ++ [o], w'') := by
  induction cs with
  | nil =>
    intro w w' w'' os c o h1 h2
    simp only [run, Res.ok.injEq, Prod.mk.injEq] at h1
    obtain ⟨rfl, rfl⟩ := h1
    simp [run, h2]
  | cons d cs ih =>
    intro w w' w'' os c o h1 h2
    simp only [run] at h1
    obtain ⟨⟨o1, w1⟩, e1, h1⟩ := Res.bind_eq_ok.1 h1
    obtain ⟨⟨os1, w2⟩, e2, h1⟩ := Res.bind_eq_ok.1 h1
    simp only [Res.ok.injEq, Prod.mk.injEq] at h1 e2
    obtain ⟨rfl, rfl⟩ := h1
    simp only [List.cons_append, run, e1, Res.ok_bind, ih _ _ _ _ _ _ e2 h2]

theorem eraseLoop_spec (hg : cfg.Good) (drop : T → Bool) : ∀ (Q P : List T) (f : Nat) (d : Deq T), Reachable cfg d → Inv cfg d (P ++ Q) → Q.length < f →
    ∃ d', eraseLoop cfg drop f P.length d = .ok (Q, d') ∧ Reachable cfg d' ∧ Inv cfg d' (P ++ Q.filter fun x => !drop x) := by
  intro Q
  induction Q with
  | nil =>
    intro P f d h hi hf
    obtain ⟨f, rfl⟩ : ∃ g, f = g + 1 := ⟨f - 1, by simp at hf; omega⟩
    have hsz := hi.size
    refine ⟨d, ?_, h, hi⟩
    rw [eraseLoop, if_neg (by simp only [size]; simp at hsz; omega)]
  | cons x Q ih =>
    intro P f d h hi hf
    obtain ⟨f, rfl⟩ : ∃ g, f = g + 1 := ⟨f - 1, by simp at hf; omega⟩
    have hsz := hi.size
    have hat : at_ cfg d (P.length : Int) = .ok x := by
      rw [at_spec hg hi, Seq.at?, if_pos (by simp)]
      simp
    rw [eraseLoop, if_pos (by simp only [size]; simp at hsz; omega)]
    simp only [hat, Res.ok_bind]
    by_cases hd : drop x = true
    · have hr := step_refines hg hi (.eraseAt (P.length : Int))
      have hs : specStep (.eraseAt (P.length : Int)) (P ++ x :: Q) = .ok (.unit, P ++ Q) := by
        simp only [specStep]
        rw [if_neg (by simp; omega), Int.toNat_natCast, List.eraseIdx_append_of_length_le (Nat.le_refl _)]
        simp
      rw [hs] at hr
      obtain ⟨d1, e1, h1⟩ := hr
      have hr1 : Reachable cfg d1 := by
        obtain ⟨cs, os, hh⟩ := h
        exact ⟨_, _, run_concat _ _ _ _ _ _ _ hh e1⟩
      simp only [step] at e1
      obtain ⟨d2, e2, e3⟩ := Res.bind_eq_ok.1 e1
      cases e3
      obtain ⟨d', e4, h4, h5⟩ := ih P f d1 hr1 h1 (by simp at hf; omega)
      simp only [hd, if_true, e2, Res.ok_bind, e4]
      exact ⟨d', rfl, h4, by simpa [hd] using h5⟩
    · obtain ⟨d', e4, h4, h5⟩ := ih (P ++ [x]) f d h (by simpa using hi) (by simp at hf; omega)
      simp only [List.length_append, List.length_singleton] at e4
      push_cast at e4
      simp only [hd, Bool.false_eq_true, if_false, e4, Res.ok_bind]
      exact ⟨d', rfl, h4, by simpa [hd] using h5⟩

/-- **C90** Erasing elements of a deque while walking over it by index: every element is looked at exactly once, in order,
and exactly the elements to be kept are left, in order. -/
theorem C90_deque (hg : cfg.Good) {d : Deq T} (h : Reachable cfg d) (drop : T → Bool) : ∃ l : List T,
    (size d = (l.length : Int) ∧ ∀ p, at_ cfg d p = Res.ofOption (Seq.at? l p)) ∧ ∀ f, l.length < f →
    ∃ d', eraseLoop cfg drop f 0 d = .ok (l, d') ∧ Reachable cfg d' ∧ size d' = ((l.filter fun x => !drop x).length : Int) ∧
      ∀ p, at_ cfg d' p = Res.ofOption (Seq.at? (l.filter fun x => !drop x) p) := by
  obtain ⟨c, hi⟩ := h.inv hg
  refine ⟨c, ⟨hi.size, at_spec hg hi⟩, fun f hf => ?_⟩
  obtain ⟨d', e, h1, h2⟩ := eraseLoop_spec hg drop c [] f d h hi hf
  exact ⟨d', e, h1, h2.size, at_spec hg h2⟩

set_option maxRecDepth 40000 in
/-- The deque 5, 6, 7 (5 pushed to the front) without its odd elements. -/
example : ∃ d d' : Deq Nat, eraseLoop (goCfg 0) (fun x => x % 2 = 1) 9 0 d = .ok ([5, 6, 7], d') ∧ size d' = 1 ∧ at_ (goCfg 0) d' 0 = .ok 6 := by
  have h0 : ∃ d : Deq Nat, run (goCfg 0) [.pushBack 6, .pushFront 5, .pushBack 7] new = .ok ([.unit, .unit, .unit], d) := ⟨_, rfl⟩
  obtain ⟨d, e⟩ := h0
  have hr : Reachable (goCfg 0) d := ⟨_, _, e⟩
  have hl := C01_deque_is_sequence_go (0 : Nat) [.pushBack 6, .pushFront 5, .pushBack 7]
  obtain ⟨d0, e0, hz, ha⟩ : ∃ d, run (goCfg 0) [.pushBack 6, .pushFront 5, .pushBack 7] new = .ok ([.unit, .unit, .unit], d) ∧ size d = (([5, 6, 7] : List Nat).length : Int) ∧
        ∀ p, at_ (goCfg 0) d p = Res.ofOption (Seq.at? [5, 6, 7] p) := hl
  rw [e] at e0; cases e0
  obtain ⟨l, ⟨h1, h2⟩, h3⟩ := C90_deque (goCfg_good 0) hr (fun x => decide (x % 2 = 1))
  have : l = [5, 6, 7] := by
    apply List.ext_getElem?
    intro k
    have := h2 k
    rw [ha k] at this
    simp only [Seq.at?, Int.natCast_nonneg, if_true, Int.toNat_natCast] at this
    cases e1 : l[k]? <;> cases e2 : ([5, 6, 7] : List Nat)[k]? <;> rw [e1, e2] at this <;> simp [Res.ofOption] at this ⊢
    exact this.symm
  subst this
  obtain ⟨d', e1, -, e2, e3⟩ := h3 9 (by decide)
  exact ⟨d, d', e1, e2, by rw [e3]; rfl⟩

end GoSTL.Deque
