import Verif.Deque.Ops2
import Verif.Seq.Iter
/-!
# C01, C02 and C16 for deques
-/
namespace GoSTL.Deque
variable {T : Type} {cfg : Cfg T}

/-! ## Specification: a plain sequence -/

/-- What each call does to a plain sequence. -/
def specStep (op : Op T) (l : List T) : Res (Out T × List T) :=
  match op with
  | .pushFront v => .ok (.unit, v :: l)
  | .pushBack v => .ok (.unit, l ++ [v])
  | .insert p v => .ok (.unit, if p < 0 ∨ p > l.length then l else l.take p.toNat ++ v :: l.drop p.toNat)
  | .popFront => match l with
    | [] => .panic
    | x :: l => .ok (.val x, l)
  | .popBack => match l.getLast? with
    | none => .panic
    | some x => .ok (.val x, l.dropLast)
  | .eraseAt p => .ok (.unit, if p < 0 ∨ p ≥ l.length then l else l.eraseIdx p.toNat)
  | .eraseRange a b => .ok (.unit, if a < 0 ∨ a ≥ b ∨ b > l.length then l else l.take a.toNat ++ l.drop b.toNat)
  | .set p v => .ok (.err (decide (p < 0 ∨ p ≥ (l.length : Int))), if p < 0 ∨ p ≥ (l.length : Int) then l else l.set p.toNat v)
  | .clear => .ok (.unit, [])
  | .at p => if p < 0 then .panic else match l[p.toNat]? with
    | none => .panic
    | some x => .ok (.val x, l)
  | .front => match l.head? with
    | none => .panic
    | some x => .ok (.val x, l)
  | .back => match l.getLast? with
    | none => .panic
    | some x => .ok (.val x, l)
  | .size => .ok (.int l.length, l)
  | .empty => .ok (.bool l.isEmpty, l)

/-- A history of calls on a plain sequence. -/
def specRun : List (Op T) → List T → Res (List (Out T) × List T)
  | [], l => .ok ([], l)
  | op :: ops, l => do
    let (o, l) ← specStep op l
    let (os, l) ← specRun ops l
    .ok (o :: os, l)

/-! ## `EraseRange` -/

theorem moveDown_spec (hg : cfg.Good) {num : Nat} (hn : 0 < num) : ∀ (n p : Nat) (d : Deq T) (c : List T), Inv cfg d c → p + num + n ≤ c.length →
    ∃ d' c', moveDown cfg num n p d = .ok d' ∧ Inv cfg d' c' ∧ c'.length = c.length ∧
      ∀ j, c'[j]? = if p ≤ j ∧ j < p + n then c[j + num]? else c[j]? := by
  intro n
  induction n with
  | zero => intro p d c h _; exact ⟨d, c, rfl, h, rfl, fun j => by rw [if_neg (by omega)]⟩
  | succ n ih =>
    intro p d c h hlt
    have hx : c[p + num]? = some c[p + num] := by simp
    generalize c[p + num] = x at hx
    have e1 : at_ cfg d ((p : Int) + num) = .ok x := by
      rw [at_spec hg h, Seq.at?, if_pos (by omega)]
      have : ((p : Int) + num).toNat = p + num := by omega
      rw [this, hx]; rfl
    obtain ⟨d1, e2, h1⟩ := set_spec hg h (p : Int) x
    rw [if_neg (by omega), Int.toNat_natCast] at h1
    obtain ⟨d', c', e3, h3, l3, c3⟩ := ih (p + 1) d1 _ h1 (by simp; omega)
    refine ⟨d', c', ?_, h3, by simpa using l3, ?_⟩
    · simp only [moveDown, e1, Res.ok_bind, e2]
      exact_mod_cast e3
    · intro j
      rw [c3 j]
      by_cases cj : j = p
      · subst cj
        rw [if_neg (by omega), if_pos (by omega), hx]; rw [List.getElem?_set_self (by omega)]
      · by_cases c2 : p ≤ j ∧ j < p + (n + 1)
        · rw [if_pos (by omega), if_pos c2, List.getElem?_set_ne (by omega)]
        · rw [if_neg (by omega), if_neg c2, List.getElem?_set_ne (by omega)]

theorem moveUp_spec (hg : cfg.Good) {num : Nat} (hn : 0 < num) : ∀ (n p : Nat) (d : Deq T) (c : List T), Inv cfg d c → num + n ≤ p →
    p ≤ c.length →
    ∃ d' c', moveUp cfg num n ((p : Int) - 1) d = .ok d' ∧ Inv cfg d' c' ∧ c'.length = c.length ∧
      ∀ j, c'[j]? = if p ≤ j + n ∧ j < p then c[j - num]? else c[j]? := by
  intro n
  induction n with
  | zero => intro p d c h _ _; exact ⟨d, c, rfl, h, rfl, fun j => by rw [if_neg (by omega)]⟩
  | succ n ih =>
    intro p d c h hlt hp
    obtain ⟨p, rfl⟩ : ∃ k, p = k + 1 := ⟨p - 1, by omega⟩
    have hx : c[p - num]? = some c[p - num] := by simp
    generalize c[p - num] = x at hx
    have ep : ((p + 1 : Nat) : Int) - 1 = p := by omega
    rw [ep]
    have e1 : at_ cfg d ((p : Int) - num) = .ok x := by
      rw [at_spec hg h, Seq.at?, if_pos (by omega)]
      have : ((p : Int) - num).toNat = p - num := by omega
      rw [this, hx]; rfl
    obtain ⟨d1, e2, h1⟩ := set_spec hg h (p : Int) x
    rw [if_neg (by omega), Int.toNat_natCast] at h1
    obtain ⟨d', c', e3, h3, l3, c3⟩ := ih p d1 _ h1 (by omega) (by simp; omega)
    refine ⟨d', c', ?_, h3, by simpa using l3, ?_⟩
    · simp only [moveUp, e1, Res.ok_bind, e2]
      exact e3
    · intro j
      rw [c3 j]
      by_cases cj : j = p
      · subst cj
        rw [if_neg (by omega), if_pos (by omega), hx]; rw [List.getElem?_set_self (by omega)]
      · by_cases c2 : p + 1 ≤ j + (n + 1) ∧ j < p + 1
        · rw [if_pos (by omega), if_pos c2, List.getElem?_set_ne (by omega)]
        · rw [if_neg (by omega), if_neg c2, List.getElem?_set_ne (by omega)]

theorem popBackN_spec (hg : cfg.Good) : ∀ (n : Nat) (d : Deq T) (c : List T), Inv cfg d c → n ≤ c.length →
    ∃ d', popBackN cfg n d = .ok d' ∧ Inv cfg d' (c.take (c.length - n)) := by
  intro n
  induction n with
  | zero => intro d c h _; exact ⟨d, rfl, by simpa using h⟩
  | succ n ih =>
    intro d c h hn
    rcases List.eq_nil_or_concat c with rfl | ⟨c0, x, rfl⟩
    · simp at hn
    · rw [List.concat_eq_append] at *
      simp at hn
      obtain ⟨d1, e1, h1⟩ := popBack_spec hg h
      obtain ⟨d2, e2, h2⟩ := ih d1 c0 h1 (by omega)
      refine ⟨d2, by simp only [popBackN, e1, Res.ok_bind, e2], ?_⟩
      have : (c0 ++ [x]).length - (n + 1) = c0.length - n := by simp
      rw [this, List.take_append_of_le_length (by omega)]; exact h2

theorem popFrontN_spec (hg : cfg.Good) : ∀ (n : Nat) (d : Deq T) (c : List T), Inv cfg d c → n ≤ c.length →
    ∃ d', popFrontN cfg n d = .ok d' ∧ Inv cfg d' (c.drop n) := by
  intro n
  induction n with
  | zero => intro d c h _; exact ⟨d, rfl, by simpa using h⟩
  | succ n ih =>
    intro d c h hn
    cases c with
    | nil => simp at hn
    | cons x c0 =>
      simp at hn
      obtain ⟨d1, e1, h1⟩ := popFront_spec hg h
      obtain ⟨d2, e2, h2⟩ := ih d1 c0 h1 (by omega)
      exact ⟨d2, by simp only [popFrontN, e1, Res.ok_bind, e2], h2⟩

theorem eraseRange_spec (hg : cfg.Good) {d : Deq T} {c : List T} (hd : Inv cfg d c) (a b : Int) :
    ∃ d', eraseRange cfg d a b = .ok d' ∧
      Inv cfg d' (if a < 0 ∨ a ≥ b ∨ b > c.length then c else c.take a.toNat ++ c.drop b.toNat) := by
  have hsz := hd.size
  unfold Deque.eraseRange
  by_cases c1 : a < 0 ∨ a ≥ b ∨ b > (c.length : Int)
  · rw [if_pos (by omega), if_pos c1]; exact ⟨d, rfl, hd⟩
  · rw [if_neg (by omega), if_neg c1]
    obtain ⟨m, rfl⟩ := Int.eq_ofNat_of_zero_le (show 0 ≤ a by omega)
    obtain ⟨n, rfl⟩ := Int.eq_ofNat_of_zero_le (show 0 ≤ b by omega)
    obtain ⟨k, rfl⟩ : ∃ k, n = m + k := ⟨n - m, by omega⟩
    have ek : ((m + k : Nat) : Int) - m = (k : Int) := by omega
    simp only [Int.toNat_natCast, ek]
    by_cases c2 : d.size - (m : Int) < ((m + k : Nat) : Int)
    · rw [if_pos c2]
      have e0 : (d.size - (k : Int) - m).toNat = c.length - k - m := by omega
      obtain ⟨d1, c', e1, h1, l1, j1⟩ := moveDown_spec hg (num := k) (by omega) (c.length - k - m) m d c hd (by omega)
      obtain ⟨d2, e2, h2⟩ := popBackN_spec hg k d1 c' h1 (by omega)
      refine ⟨d2, by rw [e0, e1]; exact e2, ?_⟩
      have : c'.take (c'.length - k) = c.take m ++ c.drop (m + k) := by
        apply List.ext_getElem?
        intro j
        rw [List.getElem?_take]
        by_cases c3 : j < m
        · rw [if_pos (by omega), j1, if_neg (by omega), List.getElem?_append_left (by simp; omega), List.getElem?_take, if_pos c3]
        · have hlen : (List.take m c).length = m := by simp; omega
          rw [List.getElem?_append_right (by omega), hlen, List.getElem?_drop]
          split
          · rw [j1, if_pos (by omega)]; congr 1; omega
          · rw [List.getElem?_eq_none (by omega)]
      rw [this] at h2; exact h2
    · rw [if_neg c2]
      have e0 : (((m + k : Nat) : Int) - (k : Int)).toNat = m := by omega
      obtain ⟨d1, c', e1, h1, l1, j1⟩ := moveUp_spec hg (num := k) (by omega) m (m + k) d c hd (by omega) (by omega)
      obtain ⟨d2, e2, h2⟩ := popFrontN_spec hg k d1 c' h1 (by omega)
      refine ⟨d2, by rw [e0, e1]; exact e2, ?_⟩
      have : c'.drop k = c.take m ++ c.drop (m + k) := by
        apply List.ext_getElem?
        intro j
        have hlen : (List.take m c).length = m := by simp; omega
        rw [List.getElem?_drop, j1]
        by_cases c3 : j < m
        · rw [if_pos (by omega), List.getElem?_append_left (by omega), List.getElem?_take, if_pos c3]; congr 1; omega
        · rw [if_neg (by omega), List.getElem?_append_right (by omega), hlen, List.getElem?_drop]; congr 1; omega
      rw [this] at h2; exact h2

theorem clear_spec (hg : cfg.Good) {d : Deq T} {c : List T} (hd : Inv cfg d c) : ∃ d', clear cfg d = .ok d' ∧ Inv cfg d' [] := by
  obtain ⟨d', e, h⟩ := eraseRange_spec hg hd 0 d.size
  refine ⟨d', e, ?_⟩
  have hsz := hd.size
  split at h
  · next c1 => 
    have : c = [] := List.length_eq_zero_iff.1 (by omega)
    rw [this] at h; exact h
  · have : d.size.toNat = c.length := by omega
    rw [this] at h; simpa using h

/-! ## Refinement -/

/-- `r` is what the plain-sequence result `s` says. -/
def Refines (cfg : Cfg T) {α : Type} (r : Res (α × Deq T)) (s : Res (α × List T)) : Prop :=
  match s with
  | .ok (o, l) => ∃ d, r = .ok (o, d) ∧ Inv cfg d l
  | .panic => r = .panic
  | .outOfFuel => False

theorem step_refines (hg : cfg.Good) {d : Deq T} {c : List T} (hd : Inv cfg d c) (op : Op T) :
    Refines cfg (step cfg op d) (specStep op c) := by
  have hsz := hd.size
  cases op with
  | pushFront v => obtain ⟨d', e, h⟩ := pushFront_spec hg hd v; exact ⟨d', by simp only [step, e, Res.ok_bind], h⟩
  | pushBack v => obtain ⟨d', e, h⟩ := pushBack_spec hg hd v; exact ⟨d', by simp only [step, e, Res.ok_bind], h⟩
  | insert p v => obtain ⟨d', e, h⟩ := insert_spec hg hd p v; exact ⟨d', by simp only [step, e, Res.ok_bind], h⟩
  | popFront =>
    cases c with
    | nil => simp [Refines, specStep, step, popFront_panic hd]
    | cons x c => obtain ⟨d', e, h⟩ := popFront_spec hg hd; exact ⟨d', by simp only [step, e, Res.ok_bind], h⟩
  | popBack =>
    rcases List.eq_nil_or_concat c with rfl | ⟨c, x, rfl⟩
    · simp [Refines, specStep, step, popBack_panic hd]
    · rw [List.concat_eq_append] at *
      obtain ⟨d', e, h⟩ := popBack_spec hg hd
      simp only [Refines, specStep, List.getLast?_append, List.getLast?_singleton, Option.some_or, List.dropLast_concat]
      exact ⟨d', by simp only [step, e, Res.ok_bind], h⟩
  | eraseAt p => obtain ⟨d', e, h⟩ := eraseAt_spec hg hd p; exact ⟨d', by simp only [step, e, Res.ok_bind], h⟩
  | eraseRange a b => obtain ⟨d', e, h⟩ := eraseRange_spec hg hd a b; exact ⟨d', by simp only [step, e, Res.ok_bind], h⟩
  | set p v => obtain ⟨d', e, h⟩ := set_spec hg hd p v; exact ⟨d', by simp only [step, e, Res.ok_bind], h⟩
  | clear => obtain ⟨d', e, h⟩ := clear_spec hg hd; exact ⟨d', by simp only [step, e, Res.ok_bind], h⟩
  | «at» p =>
    simp only [Refines, specStep, step, at_spec hg hd, Seq.at?]
    by_cases c1 : p < 0
    · rw [if_pos c1, if_neg (by omega)]; rfl
    · rw [if_neg c1, if_pos (by omega)]
      cases c[p.toNat]? with
      | none => rfl
      | some x => exact ⟨d, rfl, hd⟩
  | front =>
    simp only [Refines, specStep, step, front_spec hd]
    cases c.head? with
    | none => rfl
    | some x => exact ⟨d, rfl, hd⟩
  | back =>
    simp only [Refines, specStep, step, back_spec hd]
    cases c.getLast? with
    | none => rfl
    | some x => exact ⟨d, rfl, hd⟩
  | size => exact ⟨d, by simp only [step, hsz], hd⟩
  | empty =>
    refine ⟨d, ?_, hd⟩
    simp only [step, empty, hsz]
    cases c with
    | nil => rfl
    | cons x c => 
      have : ¬ (((x :: c).length : Nat) : Int) = 0 := by simp; omega
      simp only [this, decide_false, List.isEmpty_cons]

theorem run_refines (hg : cfg.Good) : ∀ (ops : List (Op T)) (d : Deq T) (c : List T), Inv cfg d c →
    Refines cfg (run cfg ops d) (specRun ops c) := by
  intro ops
  induction ops with
  | nil => intro d c h; exact ⟨d, rfl, h⟩
  | cons op ops ih =>
    intro d c h
    have hs := step_refines hg h op
    simp only [specRun, run]
    cases e : specStep op c with
    | panic => rw [e] at hs; simp only [Refines] at hs; rw [hs]; rfl
    | outOfFuel => rw [e] at hs; exact hs.elim
    | ok r =>
      obtain ⟨o, c1⟩ := r
      rw [e] at hs
      obtain ⟨d1, e1, h1⟩ := hs
      have hr := ih d1 c1 h1
      simp only [e1, Res.ok_bind]
      cases e2 : specRun ops c1 with
      | panic => rw [e2] at hr; simp only [Refines] at hr; rw [hr]; rfl
      | outOfFuel => rw [e2] at hr; exact hr.elim
      | ok r =>
        obtain ⟨os, c2⟩ := r
        rw [e2] at hr
        obtain ⟨d2, e3, h2⟩ := hr
        rw [e3]
        exact ⟨d2, rfl, h2⟩

/-- The code's parameters: segments of 128 elements (deque.go:10) and `int(float64(n)*1.2)` read as `n*6/5` rounded down. -/
def goCfg (zero : T) : Cfg T := { segCap := 128, zero := zero, scale12 := fun n => n * 6 / 5 }
theorem goCfg_good (zero : T) : (goCfg zero).Good := ⟨by simp [goCfg], fun n h => by simp only [goCfg]; omega⟩

/-- **C01** For every history of calls on a new deque, with the segment capacity of the code or any other positive one and any
rounding of the shrink threshold that does not lower it: all results are those of a plain sequence, a call panics exactly
when the plain sequence has no such element, and nothing else fails. -/
theorem C01_deque_is_sequence (hg : cfg.Good) (ops : List (Op T)) :
    match specRun ops [] with
    | .ok (os, l) => ∃ d, run cfg ops new = .ok (os, d) ∧ size d = (l.length : Int) ∧ ∀ p, at_ cfg d p = Res.ofOption (Seq.at? l p)
    | .panic => run cfg ops new = .panic
    | .outOfFuel => False := by
  have h := run_refines hg ops new [] new_inv
  cases hs : specRun ops [] with
  | ok r =>
    obtain ⟨os, l⟩ := r
    rw [hs] at h
    obtain ⟨d, e, hd⟩ := h
    exact ⟨d, e, hd.size, at_spec hg hd⟩
  | panic => rw [hs] at h; exact h
  | outOfFuel => rw [hs] at h; exact h.elim

/-- **C01** with the code's own parameters. -/
theorem C01_deque_is_sequence_go (zero : T) (ops : List (Op T)) :
    match specRun ops [] with
    | .ok (os, l) => ∃ d, run (goCfg zero) ops new = .ok (os, d) ∧ size d = (l.length : Int) ∧
        ∀ p, at_ (goCfg zero) d p = Res.ofOption (Seq.at? l p)
    | .panic => run (goCfg zero) ops new = .panic
    | .outOfFuel => False := C01_deque_is_sequence (goCfg_good zero) ops

/-- States reached by some history. -/
def Reachable (cfg : Cfg T) (d : Deq T) : Prop := ∃ ops os, run cfg ops new = .ok (os, d)

theorem Reachable.inv (hg : cfg.Good) {d : Deq T} (h : Reachable cfg d) : ∃ c, Inv cfg d c := by
  obtain ⟨ops, os, e⟩ := h
  have h := run_refines hg ops new [] new_inv
  cases hs : specRun ops [] with
  | ok r => rw [hs] at h; obtain ⟨d', e', hd⟩ := h; rw [e] at e'; cases e'; exact ⟨_, hd⟩
  | panic => rw [hs] at h; simp only [Refines] at h; rw [e] at h; cases h
  | outOfFuel => rw [hs] at h; exact h.elim

/-- **C02** In every reachable state a rejected position leaves the very same state, `Set` reports `ErrOutOfRange` exactly
when the position is outside `[0, Size)`, and `At`, `PopFront`, `PopBack`, `Front`, `Back` panic exactly when the element does not exist. -/
theorem C02_deque_bounds (hg : cfg.Good) {d : Deq T} (h : Reachable cfg d) (p a b : Int) (v : T) :
    (p < 0 ∨ p > d.size → insert cfg d p v = .ok d) ∧
    (p < 0 ∨ p ≥ d.size → eraseAt cfg d p = .ok d) ∧
    (a < 0 ∨ a ≥ b ∨ b > d.size → eraseRange cfg d a b = .ok d) ∧
    (p < 0 ∨ p ≥ d.size → set cfg d p v = .ok (true, d)) ∧
    (0 ≤ p → p < d.size → ∃ d', set cfg d p v = .ok (false, d')) ∧
    (at_ cfg d p = .panic ↔ p < 0 ∨ p ≥ d.size) ∧
    (popFront cfg d = .panic ↔ d.size = 0) ∧
    (popBack cfg d = .panic ↔ d.size = 0) ∧
    (front d = .panic ↔ d.size = 0) ∧ (back d = .panic ↔ d.size = 0) := by
  obtain ⟨c, hd⟩ := h.inv hg
  have hsz := hd.size
  refine ⟨fun h => ?_, fun h => ?_, fun h => ?_, fun h => ?_, fun h0 h1 => ?_, ?_, ?_, ?_, ?_, ?_⟩
  · unfold Deque.insert; rw [if_pos h]
  · unfold Deque.eraseAt; rw [if_pos h]
  · unfold Deque.eraseRange; rw [if_pos h]
  · unfold Deque.set; rw [if_pos h]
  · obtain ⟨d', e, -⟩ := set_spec hg hd p v
    have : ¬ (p < 0 ∨ p ≥ (c.length : Int)) := by omega
    simp only [this, decide_false] at e
    exact ⟨d', e⟩
  · rw [at_spec hg hd]
    constructor
    · intro h
      by_contra c1
      obtain ⟨x, hx⟩ : ∃ x, Seq.at? c p = some x := ⟨c[p.toNat]'(by omega), by
        rw [Seq.at?, if_pos (by omega)]; simp⟩
      rw [hx] at h; cases h
    · intro h
      have : Seq.at? c p = none := by
        unfold Seq.at?
        split
        · exact List.getElem?_eq_none (by omega)
        · rfl
      rw [this]; rfl
  · constructor
    · intro h
      cases c with
      | nil => simpa using hsz
      | cons x c => obtain ⟨d', e, -⟩ := popFront_spec hg hd; rw [e] at h; cases h
    · intro h; unfold Deque.popFront; rw [if_pos h]
  · constructor
    · intro h
      rcases List.eq_nil_or_concat c with rfl | ⟨c, x, rfl⟩
      · simpa using hsz
      · rw [List.concat_eq_append] at *
        obtain ⟨d', e, -⟩ := popBack_spec hg hd; rw [e] at h; cases h
    · intro h; unfold Deque.popBack; rw [if_pos h]
  · rw [front_spec hd, hsz]
    cases c with
    | nil => simp
    | cons x c => simp; omega
  · rw [back_spec hd, hsz]
    rcases List.eq_nil_or_concat c with rfl | ⟨c, x, rfl⟩
    · simp
    · simp; omega

/-! ## Iterators -/

/-- The calls the deque iterators use (ds/deque/iterator.go:9-98). -/
def ops (cfg : Cfg T) : Seq.Ops (Deq T) T where
  size := fun d => d.size
  get := at_ cfg
  set := fun d p v => do let (_, d) ← set cfg d p v; .ok d

/-- Some elements witness the deque's contents. -/
noncomputable def contents (cfg : Cfg T) (d : Deq T) : List T := open Classical in if h : ∃ c, Inv cfg d c then h.choose else []

theorem contents_eq {d : Deq T} {c : List T} (hg : cfg.Good) (h : Inv cfg d c) : contents cfg d = c := by
  have hex : ∃ c, Inv cfg d c := ⟨c, h⟩
  have : contents cfg d = hex.choose := by unfold contents; rw [dif_pos hex]
  rw [this]
  have h2 := hex.choose_spec
  generalize hex.choose = c2 at h2
  apply List.ext_getElem?
  intro j
  have e1 := at_spec hg h (j : Int)
  have e2 := at_spec hg h2 (j : Int)
  rw [e1] at e2
  simp only [Seq.at?, if_pos (Int.natCast_nonneg j), Int.toNat_natCast] at e2
  cases h3 : c[j]? <;> cases h4 : c2[j]? <;> rw [h3, h4] at e2 <;> simp at e2 ⊢
  exact e2.symm

/-- A deque is a lawful random-access container: all algorithm theorems (C18–C25) and C16 apply to it. -/
theorem ops_lawful (hg : cfg.Good) : Seq.Lawful (ops cfg) (fun d => ∃ c, Inv cfg d c) (contents cfg) where
  size d h := by obtain ⟨c, h⟩ := h; rw [contents_eq hg h]; exact h.size
  get d i h := by obtain ⟨c, h⟩ := h; rw [contents_eq hg h]; exact at_spec hg h i
  set d i v h := by
    obtain ⟨c, h⟩ := h
    obtain ⟨d', e, h'⟩ := set_spec hg h i v
    refine ⟨d', by simp only [ops, e, Res.ok_bind], ⟨_, h'⟩, ?_⟩
    rw [contents_eq hg h, contents_eq hg h']
    unfold Seq.setAt
    by_cases c1 : 0 ≤ i
    · rw [if_pos c1]
      split
      · rw [List.set_eq_of_length_le (by omega)]
      · rfl
    · rw [if_neg c1, if_pos (by omega)]

/-- **C16** for deques: the loop from `Begin` (position 0) collects the elements, the loop from `Last` (position `Size-1`)
collects the reverse; `l` is characterised by `At`. -/
theorem C16_deque (hg : cfg.Good) {d : Deq T} (h : Reachable cfg d) : ∃ l : List T,
    (size d = (l.length : Int) ∧ ∀ p, at_ cfg d p = Res.ofOption (Seq.at? l p)) ∧ ∀ fuel : Nat, size d + 1 ≤ (fuel : Int) →
    (∃ d', Seq.run (ops cfg) (Seq.collect Seq.next fuel 0) d = .ok ((l, size d), d')) ∧
    (∃ d', Seq.run (ops cfg) (Seq.collect Seq.prev fuel (size d - 1)) d = .ok ((l.reverse, -1), d')) := by
  obtain ⟨c, hd⟩ := h.inv hg
  have hsz := hd.size
  have hc := contents_eq hg hd
  refine ⟨c, ⟨hsz, at_spec hg hd⟩, fun fuel hf => ?_⟩
  simp only [size] at hf ⊢
  obtain ⟨c1, e1, -, -⟩ := Seq.C16_forward (ops_lawful hg) (c := d) ⟨c, hd⟩ fuel (by rw [hc]; omega)
  obtain ⟨c2, e2, -, -⟩ := Seq.C16_backward (ops_lawful hg) (c := d) ⟨c, hd⟩ fuel (by rw [hc]; omega)
  rw [hc] at e1 e2
  rw [hsz]
  exact ⟨⟨c1, e1⟩, ⟨c2, e2⟩⟩

/-! ## Non-vacuity -/

/-- A small configuration: segments of two elements, so that short histories already use several segments. -/
def smallCfg : Cfg Nat := { segCap := 2, zero := 0, scale12 := fun n => n * 6 / 5 }
theorem smallCfg_good : smallCfg.Good := ⟨by decide, fun n h => by simp only [smallCfg]; omega⟩

/-- A history that inserts and erases in the middle at both sides, wraps around, grows and shrinks. -/
def demo : List (Op Nat) :=
  [.pushBack 1, .pushBack 2, .pushFront 3, .pushFront 4, .pushBack 5, .insert 1 10, .insert 4 11, .insert 3 12, .eraseAt 1, .eraseAt 5,
   .popFront, .set 2 20, .eraseRange 1 3, .insert 7 1, .popBack, .back, .at 0]

example : ∃ os, specRun demo [] = .ok (os, [3, 11]) := ⟨_, rfl⟩
theorem demo_deque : ∃ d, Reachable smallCfg d ∧ size d = 2 ∧ at_ smallCfg d 1 = .ok 11 := by
  have h := C01_deque_is_sequence smallCfg_good demo
  obtain ⟨os, e⟩ : ∃ os, specRun demo [] = .ok (os, [3, 11]) := ⟨_, rfl⟩
  rw [e] at h
  obtain ⟨d, h1, h2, h3⟩ := h
  exact ⟨d, ⟨demo, os, h1⟩, h2, h3 1⟩

/-- `C01_deque_is_sequence_go`: the same program with Go's segment size. -/
example : ∃ os d, run (goCfg 0) demo new = .ok (os, d) ∧ size d = 2 ∧ at_ (goCfg 0) d 0 = .ok 3 := by
  have h := C01_deque_is_sequence_go 0 demo
  obtain ⟨os, e⟩ : ∃ os, specRun demo [] = .ok (os, [3, 11]) := ⟨_, rfl⟩
  rw [e] at h
  obtain ⟨d, h1, h2, h3⟩ := h
  exact ⟨os, d, h1, h2, h3 0⟩

/-- `C02_deque_bounds`: position 3 of a deque of two elements. -/
example : ∃ d : Deq Nat, size d = 2 ∧ insert smallCfg d 3 0 = .ok d ∧ eraseAt smallCfg d 3 = .ok d ∧ set smallCfg d 3 0 = .ok (true, d) ∧ at_ smallCfg d 3 = .panic := by
  obtain ⟨d, h, hs, -⟩ := demo_deque
  obtain ⟨h1, h2, -, h4, -, h6, -⟩ := C02_deque_bounds smallCfg_good h 3 0 0 0
  rw [size] at hs
  exact ⟨d, hs, h1 (by omega), h2 (by omega), h4 (by omega), h6.2 (by omega)⟩

/-- `C16_deque`: iterating over it backwards. -/
example : ∃ d d' : Deq Nat, size d = 2 ∧ Seq.run (ops smallCfg) (Seq.collect Seq.prev 5 1) d = .ok (([11, 3], -1), d') := by
  have h := C01_deque_is_sequence smallCfg_good demo
  obtain ⟨os, e⟩ : ∃ os, specRun demo [] = .ok (os, [3, 11]) := ⟨_, rfl⟩
  rw [e] at h
  obtain ⟨d, h1, hs, ha⟩ := h
  obtain ⟨l, ⟨hl, hb⟩, hi⟩ := C16_deque smallCfg_good ⟨demo, os, h1⟩
  have hl2 : l.length = 2 := by rw [hs] at hl; simp only [List.length_cons, List.length_nil] at hl; omega
  obtain ⟨x, y, rfl⟩ := List.length_eq_two.1 hl2
  have h0 := (hb 0).symm.trans (ha 0)
  have h1 := (hb 1).symm.trans (ha 1)
  simp [Seq.at?, Res.ofOption] at h0 h1
  subst h0; subst h1
  obtain ⟨-, d', e'⟩ := hi 5 (by rw [hs]; decide)
  rw [hs] at e'
  exact ⟨d, d', hs, e'⟩

end GoSTL.Deque
