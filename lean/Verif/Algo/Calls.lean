import Verif.Algo.Crash
import Mathlib.Data.Nat.Log
import Mathlib.Tactic.Linarith
/-!
# C112: counting the calls of the comparator
-/
namespace GoSTL.Algo
open GoSTL.Seq
variable {T α β σ C : Type}

/-- The comparator `ask` with a counter: the second component of its state goes up by one with every call. -/
def counted (ask : CmpFn σ T) : CmpFn (σ × Nat) T := fun s x y => (ask s.1 x y).map fun r => (r.1, (r.2, s.2 + 1))

/-- Whatever the container (of `N` elements) holds and whatever the comparator answers: if the program returns `a`, having begun with a
counter of `k`, and the counter is `k'` then, `Q a k'`. -/
def Cost (N : Nat) : CProg T α → Nat → (α → Nat → Prop) → Prop
  | .ret a, k, Q => Q a k
  | .get _ p, k, Q => ∀ x, Cost N (p x) k Q
  | .set _ _ p, k, Q => Cost N p k Q
  | .size p, k, Q => Cost N (p N) k Q
  | .cmp _ _ p, k, Q => ∀ r, Cost N (p r) (k + 1) Q
  | .panic, _, _ => True
  | .outOfFuel, _, _ => True

variable {N : Nat}

theorem Cost.mono {p : CProg T α} {k : Nat} {Q Q' : α → Nat → Prop} (h : Cost N p k Q) (hQ : ∀ a k', Q a k' → Q' a k') : Cost N p k Q' := by
  induction p generalizing k with
  | ret a => exact hQ _ _ h
  | get i p ih => exact fun x => ih x (h x)
  | set i v p ih => exact ih h
  | size p ih => exact ih _ h
  | cmp x y p ih => exact fun r => ih r (h r)
  | panic => trivial
  | outOfFuel => trivial

theorem Cost.bind {p : CProg T α} {f : α → CProg T β} {k : Nat} {Q : β → Nat → Prop}
    (h : Cost N p k fun a k' => Cost N (f a) k' Q) : Cost N (p >>= f) k Q := by
  show Cost N (p.bind f) k Q
  induction p generalizing k with
  | ret a => exact h
  | get i p ih => exact fun x => ih x (h x)
  | set i v p ih => exact ih h
  | size p ih => exact ih _ h
  | cmp x y p ih => exact fun r => ih r (h r)
  | panic => trivial
  | outOfFuel => trivial

theorem Cost.then {p : CProg T α} {f : α → CProg T β} {k : Nat} {Q : α → Nat → Prop} {Q' : β → Nat → Prop}
    (h : Cost N p k Q) (hf : ∀ a k', Q a k' → Cost N (f a) k' Q') : Cost N (p >>= f) k Q' := .bind (h.mono hf)

/-- A part without comparator calls leaves the counter alone. -/
theorem Cost.lift (p : Prog T α) (k : Nat) : Cost N (.lift p) k fun _ k' => k' = k := by
  induction p with
  | ret a => rfl
  | get i p ih => exact fun x => ih x
  | set i v p ih => exact ih
  | size p ih => exact ih _
  | panic => trivial
  | outOfFuel => trivial

theorem Cost.bind_lift {p : Prog T α} {f : α → CProg T β} {k : Nat} {Q : β → Nat → Prop} (h : ∀ a, Cost N (f a) k Q) :
    Cost N (.lift p >>= f) k Q :=
  (Cost.lift p k).then fun a k' e => by subst e; exact h a

theorem Cost.bind_cmp {x y : T} {f : Int → CProg T β} {k : Nat} {Q : β → Nat → Prop} (h : ∀ r, Cost N (f r) (k + 1) Q) :
    Cost N (callCmp x y >>= f) k Q := h

/-- What `Cost` says of runs. -/
theorem Cost.run {ops : Ops C T} {Inv : C → Prop} {abs : C → List T} (hl : Lawful ops Inv abs) {ask : CmpFn σ T} {p : CProg T α} {k : Nat} {Q : α → Nat → Prop}
    {c c' : C} (hc : Inv c) (hN : (abs c).length = N) (h : Cost N p k Q) {s s' : σ} {a : α} {k' : Nat}
    (e : runC ops (counted ask) p (s, k) c = .done a c' (s', k')) : Q a k' := by
  induction p generalizing c s k with
  | ret b => cases e; exact h
  | get i p ih =>
    simp only [runC] at e
    cases e1 : ops.get c i with
    | ok x => rw [e1] at e; exact ih x hc hN (h x) e
    | panic => rw [e1] at e; cases e
    | outOfFuel => rw [e1] at e; cases e
  | set i v p ih =>
    obtain ⟨c1, e1, h1, h2⟩ := hl.set c i v hc
    simp only [runC, e1] at e
    exact ih h1 (by rw [h2, setAt_length, hN]) h e
  | size p ih =>
    simp only [runC, hl.size c hc, hN] at e
    exact ih _ hc hN h e
  | cmp x y p ih =>
    simp only [runC, counted] at e
    cases e1 : ask s x y with
    | none => rw [e1] at e; cases e
    | some q => rw [e1] at e; exact ih q.1 hc hN (h q.1) e
  | panic => cases e
  | outOfFuel => cases e

/-- A comparator that never panics does not begin to when its calls are counted. -/
theorem counted_total {ask : CmpFn σ T} (ha : ∀ s x y, ask s x y ≠ none) (s : σ × Nat) (x y : T) : counted ask s x y ≠ none := by
  simp only [counted]
  cases e : ask s.1 x y with
  | none => exact absurd e (ha _ _ _)
  | some q => simp

theorem runC_total (ops : Ops C T) {ask : CmpFn σ T} (ha : ∀ s x y, ask s x y ≠ none) (p : CProg T α) (s : σ) (c c' : C) : runC ops ask p s c ≠ .crashed c' := by
  induction p generalizing c s with
  | ret a => simp [runC]
  | get i p ih =>
    simp only [runC]
    cases ops.get c i with
    | ok x => exact ih x s c
    | panic => simp
    | outOfFuel => simp
  | set i v p ih =>
    simp only [runC]
    cases ops.set c i v with
    | ok x => exact ih s x
    | panic => simp
    | outOfFuel => simp
  | size p ih => exact ih _ s c
  | cmp x y p ih =>
    simp only [runC]
    cases e : ask s x y with
    | none => exact absurd e (ha _ _ _)
    | some q => exact ih q.1 q.2 c
  | panic => simp [runC]
  | outOfFuel => simp [runC]

/-- A call returned with a counter of at most `B`. -/
def Within (B : Nat) (o : Out (σ × Nat) C α) : Prop := ∃ a c s k, o = .done a c (s, k) ∧ k ≤ B

theorem Within.of {ops : Ops C T} {Inv : C → Prop} {abs : C → List T} (hl : Lawful ops Inv abs) {ask : CmpFn σ T} (ha : ∀ s x y, ask s x y ≠ none)
    {p : CProg T α} {s : σ} {c c' : C} (hc : Inv c) {B : Nat}
    (e : EndsIn (runC ops (counted ask) p (s, 0) c) c') (h : Cost (abs c).length p 0 fun _ k => k ≤ B) :
    Within B (runC ops (counted ask) p (s, 0) c) := by
  rcases e with ⟨a, ⟨s', k⟩, e⟩ | e
  · exact ⟨a, c', s', k, e, h.run hl hc rfl e⟩
  · exact absurd e (runC_total _ (counted_total ha) _ _ _ _)

theorem log2_half {m : Nat} (h : 2 ≤ m) : Nat.log2 m = Nat.log2 (m / 2) + 1 := by
  rw [Nat.log2_def, if_pos h]

theorem log2_mono {a b : Nat} (h : a ≤ b) : Nat.log2 a ≤ Nat.log2 b := by
  rw [Nat.log2_eq_log_two, Nat.log2_eq_log_two]
  exact Nat.log_mono_right h

theorem log2_add {m d : Nat} (h : d ≤ m) (hd : 0 < d) : Nat.log2 (m / d) + Nat.log2 d ≤ Nat.log2 m := by
  have h1 : m / d ≠ 0 := by have := Nat.div_pos h hd; omega
  have a := Nat.log2_self_le h1
  have b := Nat.log2_self_le (n := d) (by omega)
  rw [Nat.le_log2 (by omega), Nat.pow_add]
  calc 2 ^ Nat.log2 (m / d) * 2 ^ Nat.log2 d ≤ m / d * d := Nat.mul_le_mul a b
    _ ≤ m := Nat.div_mul_le_self m d


/-! ## The algorithms -/

theorem Cost.next {i : Int} (h : i < N) {f : Int → CProg T β} {k : Nat} {Q : β → Nat → Prop} (hf : Cost N (f (i + 1)) k Q) :
    Cost N (nextC i >>= f) k Q := by
  show Cost N (f (if i < (N : Int) then i + 1 else i)) k Q
  rw [if_pos h]; exact hf

theorem Cost.prev {i : Int} (h : 0 ≤ i) {f : Int → CProg T β} {k : Nat} {Q : β → Nat → Prop} (hf : Cost N (f (i - 1)) k Q) :
    Cost N (prevC i >>= f) k Q := by
  show Cost N (f (if i ≥ 0 then i - 1 else i)) k Q
  rw [if_pos h]; exact hf

theorem log2_step {m a : Nat} (hm : 1 ≤ m) (ha : a ≤ m / 2) : 1 + Nat.log2 (2 * a) ≤ Nat.log2 (2 * m) := by
  rw [log2_half (m := 2 * m) (by omega), Nat.mul_div_cancel_left m (by decide), Nat.add_comm 1]
  exact Nat.succ_le_succ (log2_mono (by omega))

theorem cost_binarySearchLoop (val : T) : ∀ (f : Nat) (left right : Int) (k : Nat), 0 ≤ left → right < N →
    Cost N (binarySearchLoopC val f left right) k fun _ k' => k' ≤ k + Nat.log2 (2 * (right - left + 1).toNat) := by
  intro f
  induction f with
  | zero => intros; trivial
  | succ f ih =>
    intro left right k h0 h1
    unfold binarySearchLoopC
    split
    · refine .bind_lift fun x => .bind_cmp fun r => ?_
      have st : ∀ a : Nat, a ≤ (right - left + 1).toNat / 2 → 1 + Nat.log2 (2 * a) ≤ Nat.log2 (2 * (right - left + 1).toNat) :=
        fun a ha => log2_step (by omega) ha
      have s0 := st 0 (by omega)
      split
      · show k + 1 ≤ _; omega
      · split
        · refine .prev (by omega) ((ih _ _ (k + 1) (by omega) (by omega)).mono fun _ k' hk => ?_)
          have := st ((left + right) / 2 - 1 - left + 1).toNat (by omega)
          omega
        · refine .next (by omega) ((ih _ _ (k + 1) (by omega) (by omega)).mono fun _ k' hk => ?_)
          have := st (right - ((left + right) / 2 + 1) + 1).toNat (by omega)
          omega
    · exact Nat.le_add_right _ _

theorem cost_boundLoop (below : Int → Bool) (val : T) : ∀ (f : Nat) (left right pos : Int) (k : Nat), 0 ≤ left → right < N →
    Cost N (boundLoopC below val f left right pos) k fun _ k' => k' ≤ k + Nat.log2 (2 * (right - left + 1).toNat) := by
  intro f
  induction f with
  | zero => intros; trivial
  | succ f ih =>
    intro left right pos k h0 h1
    unfold boundLoopC
    split
    · refine .bind_lift fun x => .bind_cmp fun r => ?_
      have st : ∀ a : Nat, a ≤ (right - left + 1).toNat / 2 → 1 + Nat.log2 (2 * a) ≤ Nat.log2 (2 * (right - left + 1).toNat) :=
        fun a ha => log2_step (by omega) ha
      split
      · refine .prev (by omega) ((ih _ _ _ (k + 1) (by omega) (by omega)).mono fun _ k' hk => ?_)
        have := st ((left + right) / 2 - 1 - left + 1).toNat (by omega)
        omega
      · refine .next (by omega) ((ih _ _ _ (k + 1) (by omega) (by omega)).mono fun _ k' hk => ?_)
        have := st (right - ((left + right) / 2 + 1) + 1).toNat (by omega)
        omega
    · exact Nat.le_add_right _ _

theorem cost_swapIfGreater (i j : Int) (k : Nat) : Cost N (swapIfGreaterC i j : CProg T Unit) k fun _ k' => k' = k + 1 := by
  unfold swapIfGreaterC
  refine .bind_lift fun x => .bind_lift fun y => .bind_cmp fun r => ?_
  split
  · exact Cost.lift _ _
  · rfl

theorem cost_doPivot (a b c : Int) (k : Nat) : Cost N (doPivotC a b c : CProg T Unit) k fun _ k' => k' = k + 3 := by
  unfold doPivotC
  refine (cost_swapIfGreater _ _ _).then ?_
  rintro _ k1 rfl
  refine (cost_swapIfGreater _ _ _).then ?_
  rintro _ k2 rfl
  refine (cost_swapIfGreater _ _ _).mono ?_
  rintro _ k3 rfl
  rfl

theorem cost_partitionLoop (base : Int) : ∀ (f : Nat) (left right : Int) (k : Nat), 0 ≤ left → right < N → left ≤ right + 1 →
    Cost N (partitionLoopC base f left right : CProg T Int) k fun p k' => left - 1 ≤ p ∧ p ≤ right ∧ k' ≤ k + 2 * (right - left + 1).toNat := by
  intro f
  induction f with
  | zero => intros; trivial
  | succ f ih =>
    intro left right k h0 h1 h2
    unfold partitionLoopC
    split
    · refine .bind_lift fun x => .bind_lift fun b => .bind_cmp fun r => ?_
      split
      · refine .next (by omega) ((ih _ _ (k + 1) (by omega) (by omega) (by omega)).mono fun p k' hk => ?_)
        omega
      · refine .bind_lift fun y => .bind_lift fun b => .bind_cmp fun r => ?_
        split
        · refine .prev (by omega) ((ih _ _ (k + 1 + 1) (by omega) (by omega) (by omega)).mono fun p k' hk => ?_)
          omega
        · refine .bind_lift fun _ => .next (by omega) (.prev (by omega) ?_)
          by_cases hlr : left = right
          · subst hlr
            -- the loop ends: `left` has passed `right` by two
            cases f with
            | zero => trivial
            | succ f =>
              unfold partitionLoopC
              rw [if_neg (by omega)]
              show left - 1 ≤ left - 1 ∧ left - 1 ≤ left ∧ _
              omega
          · refine (ih _ _ (k + 1 + 1) (by omega) (by omega) (by omega)).mono fun p k' hk => ?_
            omega
    · show left - 1 ≤ right ∧ right ≤ right ∧ _
      omega

theorem sort_split {n a b : Nat} (ha : 1 ≤ a) (hb : 1 ≤ b) (h : a + b + 1 = n) : 4 * n - 6 + a * (a - 1) + b * (b - 1) ≤ n * (n - 1) := by
  obtain ⟨a, rfl⟩ : ∃ a', a = a' + 1 := ⟨a - 1, by omega⟩
  obtain ⟨b, rfl⟩ : ∃ b', b = b' + 1 := ⟨b - 1, by omega⟩
  subst h
  have e : a + 1 + (b + 1) + 1 = a + b + 3 := by omega
  rw [e]
  simp only [Nat.add_sub_cancel]
  have e2 : a + b + 3 - 1 = a + b + 2 := by omega
  have e3 : 4 * (a + b + 3) - 6 = 4 * a + 4 * b + 6 := by omega
  rw [e2, e3]
  nlinarith

theorem cost_quickSort : ∀ (f : Nat) (first last : Int) (k : Nat), 0 ≤ first → last < N →
    Cost N (quickSortC f first last : CProg T Unit) k fun _ k' => 2 * k' ≤ 2 * k + (last - first + 1).toNat * ((last - first + 1).toNat - 1) := by
  intro f
  induction f with
  | zero => intros; trivial
  | succ f ih =>
    intro first last k h0 h1
    unfold quickSortC
    split
    · exact Nat.le_add_right _ _
    · simp only
      split
      · refine (cost_swapIfGreater _ _ _).mono ?_
        rintro _ k' rfl
        have e : (last - first + 1).toNat = 2 := by omega
        rw [e]
        omega
      · refine (cost_doPivot _ _ _ _).then ?_
        rintro _ k1 rfl
        refine .bind_lift fun _ => ?_
        split
        · next h3 =>
          rw [h3]
          show 2 * (k + 3) ≤ 2 * k + 3 * (3 - 1)
          omega
        · refine (cost_partitionLoop _ _ _ _ _ (by omega) (by omega) (by omega)).then ?_
          rintro p k2 ⟨p1, p2, hk2⟩
          refine .next (by omega) (.bind_lift fun _ => ?_)
          refine (ih _ _ k2 (by omega) (by omega)).then fun _ k3 hk3 => .next (by omega) ?_
          refine (ih _ _ k3 (by omega) (by omega)).mono fun _ k4 hk4 => ?_
          obtain ⟨a, ea⟩ : ∃ a : Nat, a = (p + 1 - 1 - first + 1).toNat := ⟨_, rfl⟩
          obtain ⟨b, eb⟩ : ∃ b : Nat, b = (last - (p + 1 + 1) + 1).toNat := ⟨_, rfl⟩
          obtain ⟨n, en⟩ : ∃ n : Nat, n = (last - first + 1).toNat := ⟨_, rfl⟩
          rw [← ea] at hk3
          rw [← eb] at hk4
          rw [← en]
          have := sort_split (n := n) (a := a) (b := b) (by omega) (by omega) (by omega)
          omega

theorem nth_split {n a : Nat} (h3 : 4 ≤ n) (ha : a ≤ n - 1) : 2 * n - 3 + a * (a - 2) ≤ n * (n - 2) := by
  obtain ⟨n, rfl⟩ : ∃ m, n = m + 4 := ⟨n - 4, by omega⟩
  have h : a * (a - 2) ≤ (n + 3) * (n + 1) := Nat.mul_le_mul (by omega) (by omega)
  have e1 : 2 * (n + 4) - 3 = 2 * n + 5 := by omega
  have e2 : n + 4 - 2 = n + 2 := by omega
  rw [e1, e2]
  nlinarith

theorem cost_nthElementRec : ∀ (f : Nat) (first last n : Int) (k : Nat), 0 ≤ first → last < N →
    Cost N (nthElementRecC f first last n : CProg T Unit) k fun _ k' => k' ≤ k + (last - first + 1).toNat * ((last - first + 1).toNat - 2) := by
  intro f
  induction f with
  | zero => intros; trivial
  | succ f ih =>
    intro first last n k h0 h1
    unfold nthElementRecC
    split
    · exact Nat.le_add_right _ _
    · simp only
      split
      · omega
      · refine (cost_doPivot _ _ _ _).then ?_
        rintro _ k1 rfl
        refine .bind_lift fun _ => ?_
        split
        · next h3 =>
          rw [h3]
          show k + 3 ≤ k + _
          simp
        · refine (cost_partitionLoop _ _ _ _ _ (by omega) (by omega) (by omega)).then ?_
          rintro p k2 ⟨p1, p2, hk2⟩
          refine .next (by omega) (.bind_lift fun _ => ?_)
          obtain ⟨m, em⟩ : ∃ n : Nat, n = (last - first + 1).toNat := ⟨_, rfl⟩
          rw [← em]
          split
          · refine (ih _ _ _ k2 (by omega) (by omega)).mono fun _ k4 hk4 => ?_
            have := nth_split (n := m) (a := (p + 1 - first + 1).toNat) (by omega) (by omega)
            omega
          · refine .next (by omega) ?_
            refine (ih _ _ _ k2 (by omega) (by omega)).mono fun _ k4 hk4 => ?_
            have := nth_split (n := m) (a := (last - (p + 1 + 1) + 1).toNat) (by omega) (by omega)
            omega

theorem cost_mergeLoop (mid last : Int) (hm : mid ≤ last) (hN : last ≤ N) : ∀ (f : Nat) (a b : Int) (pos : Nat) (tmp : List T) (k : Nat),
    Cost N (mergeLoopC mid last f a b pos tmp) k fun _ k' => k' ≤ k + ((mid - a).toNat + (last - b).toNat) := by
  intro f
  induction f with
  | zero => intros; trivial
  | succ f ih =>
    intro a b pos tmp k
    unfold mergeLoopC
    split
    · refine .bind_lift fun x => .bind_lift fun y => .bind_cmp fun r => ?_
      split
      · refine .bind_lift fun _ => ?_
        split
        · exact .next (by omega) ((ih _ _ _ _ (k + 1)).mono fun _ k' hk => by omega)
        · trivial
      · refine .bind_lift fun _ => ?_
        split
        · exact .next (by omega) ((ih _ _ _ _ (k + 1)).mono fun _ k' hk => by omega)
        · trivial
    · exact Nat.le_add_right _ _

theorem cost_mergeSort : ∀ (f : Nat) (first last : Int) (tmp : List T) (k : Nat), first < last → last ≤ N →
    Cost N (mergeSortC f first last tmp) k fun _ k' => k' ≤ k + (last - first).toNat * Nat.clog 2 (last - first).toNat := by
  intro f
  induction f with
  | zero => intros; trivial
  | succ f ih =>
    intro first last tmp k h0 h1
    unfold mergeSortC
    split
    · exact Nat.le_add_right _ _
    · refine (ih _ _ _ k (by omega) (by omega)).then fun tmp1 k1 hk1 => ?_
      refine (ih _ _ _ k1 (by omega) (by omega)).then fun tmp2 k2 hk2 => ?_
      unfold mergeC
      refine (cost_mergeLoop _ _ (by omega) (by omega) _ _ _ _ _ k2).then fun r k3 hk3 => ?_
      refine (Cost.lift _ k3).mono fun _ k4 hk4 => ?_
      obtain ⟨n, en⟩ : ∃ n : Nat, n = (last - first).toNat := ⟨_, rfl⟩
      have ea : ((first + last) / 2 - first).toNat = n / 2 := by omega
      have eb : (last - (first + last) / 2).toNat = (n + 1) / 2 := by omega
      rw [ea] at hk1 hk3
      rw [eb] at hk2 hk3
      rw [← en]
      have c1 : Nat.clog 2 n = Nat.clog 2 ((n + 1) / 2) + 1 := by
        rw [Nat.clog_of_two_le (by decide) (by omega)]
        rfl
      have c2 : Nat.clog 2 (n / 2) ≤ Nat.clog 2 ((n + 1) / 2) := Nat.clog_mono_right 2 (by omega)
      have c3 : n / 2 * Nat.clog 2 (n / 2) ≤ n / 2 * Nat.clog 2 ((n + 1) / 2) := Nat.mul_le_mul_left _ c2
      have c4 : n / 2 + (n + 1) / 2 = n := by omega
      have c5 : n * Nat.clog 2 n = (n / 2) * Nat.clog 2 ((n + 1) / 2) + ((n + 1) / 2) * Nat.clog 2 ((n + 1) / 2) + n := by
        rw [c1, Nat.mul_add, ← Nat.add_mul, c4, Nat.mul_one]
      omega

/-- **C112** With every comparator, consistent or not, that does not panic, on every range of `n` elements of every container: `Sort` calls it
at most `n (n - 1) / 2` times, `NthElement` at most `n (n - 2)` times, `Stable` at most `n ⌈log2 n⌉` times, `BinarySearch` at most
`log2 n + 1` times (`log2 (2 n)`), and `LowerBound` and `UpperBound` at most `log2 n + 2` times. -/
theorem C112_algorithms {ops : Ops C T} {Inv : C → Prop} {abs : C → List T} (hl : Lawful ops Inv abs) {c : C} (hc : Inv c)
    {ask : CmpFn σ T} (ha : ∀ s x y, ask s x y ≠ none) (s : σ) (P M S : List T) (hM : abs c = P ++ M ++ S) :
    Within (M.length * (M.length - 1) / 2) (runC ops (counted ask) (sortC P.length (P.length + M.length)) (s, 0) c) ∧
    (∀ n, Within (M.length * (M.length - 2)) (runC ops (counted ask) (nthElementC P.length (P.length + M.length) n) (s, 0) c)) ∧
    (M ≠ [] → ∀ zero fuel, M.length ≤ fuel →
      Within (M.length * Nat.clog 2 M.length) (runC ops (counted ask) (stableC zero fuel P.length (P.length + M.length)) (s, 0) c)) ∧
    (∀ val, Within (Nat.log2 (2 * M.length)) (runC ops (counted ask) (binarySearchC P.length (P.length + M.length) val) (s, 0) c)) ∧
    (∀ val, Within (Nat.log2 (2 * M.length) + 1) (runC ops (counted ask) (lowerBoundC P.length (P.length + M.length) val) (s, 0) c)) ∧
    (∀ val, Within (Nat.log2 (2 * M.length) + 1) (runC ops (counted ask) (upperBoundC P.length (P.length + M.length) val) (s, 0) c)) := by
  have hn : (abs c).length = P.length + M.length + S.length := by rw [hM]; simp; omega
  refine ⟨?_, fun n => ?_, fun hne zero fuel hf => ?_, fun val => ?_, fun val => ?_, fun val => ?_⟩
  · obtain ⟨c', M', e, -⟩ := C88_sort hl hc (counted ask) (s, 0) P M S hM
    refine Within.of hl ha hc e ((cost_quickSort _ _ _ 0 (by omega) (by omega)).mono fun _ k hk => ?_)
    have e1 : ((P.length : Int) + (P.length + M.length - P.length) - 1 - P.length + 1).toNat = M.length := by omega
    rw [e1] at hk
    omega
  · obtain ⟨c', M', e, -⟩ := C88_nthElement hl hc (counted ask) (s, 0) P M S hM n
    refine Within.of hl ha hc e ?_
    unfold nthElementC
    split
    · exact Nat.zero_le _
    · refine (cost_nthElementRec _ _ _ _ 0 (by omega) (by omega)).mono fun _ k hk => ?_
      have e1 : ((P.length : Int) + (P.length + M.length - P.length) - 1 - P.length + 1).toNat = M.length := by omega
      rw [e1] at hk
      omega
  · obtain ⟨c', M', e, -⟩ := C88_stable hl hc (counted ask) (s, 0) P M S hM hne zero fuel hf
    refine Within.of hl ha hc e ?_
    have h1 : 1 ≤ M.length := by cases M <;> simp_all
    unfold stableC
    rw [if_neg (by omega)]
    refine (cost_mergeSort _ _ _ _ 0 (by omega) (by omega)).then fun _ k hk => ?_
    have e1 : ((P.length : Int) + M.length - P.length).toNat = M.length := by omega
    rw [e1] at hk
    show k ≤ _
    omega
  · obtain ⟨c', e, -⟩ := C88_binarySearch hl hc (counted ask) (s, 0) P M S hM val
    refine Within.of hl ha hc e ?_
    unfold binarySearchC
    refine .bind_lift fun v => ?_
    split
    · exact Nat.zero_le _
    · refine .prev (by omega) ((cost_binarySearchLoop val _ _ _ 0 (by omega) (by omega)).mono fun _ k hk => ?_)
      have e1 : ((P.length : Int) + M.length - 1 - P.length + 1).toNat = M.length := by omega
      rw [e1] at hk
      omega
  · obtain ⟨c', e, -⟩ := C88_lowerBound hl hc (counted ask) (s, 0) P M S hM val
    refine Within.of hl ha hc e ?_
    unfold lowerBoundC
    refine .bind_lift fun v => ?_
    split
    · exact Nat.zero_le _
    · refine .prev (by omega) (.bind_lift fun x => .bind_cmp fun r => ?_)
      split
      · show 0 + 1 ≤ _; omega
      · refine (cost_boundLoop _ val _ _ _ _ 1 (by omega) (by omega)).mono fun _ k hk => ?_
        have e1 : ((P.length : Int) + M.length - 1 - P.length + 1).toNat = M.length := by omega
        rw [e1] at hk
        omega
  · obtain ⟨c', e, -⟩ := C88_upperBound hl hc (counted ask) (s, 0) P M S hM val
    refine Within.of hl ha hc e ?_
    unfold upperBoundC
    refine .bind_lift fun v => ?_
    split
    · exact Nat.zero_le _
    · refine .prev (by omega) (.bind_lift fun x => .bind_cmp fun r => ?_)
      split
      · show 0 + 1 ≤ _; omega
      · refine (cost_boundLoop _ val _ _ _ _ 1 (by omega) (by omega)).mono fun _ k hk => ?_
        have e1 : ((P.length : Int) + M.length - 1 - P.length + 1).toNat = M.length := by omega
        rw [e1] at hk
        omega

theorem cost_npDescend (first : Int) : ∀ (f : Nat) (cur : Int) (k : Nat),
    Cost N (npDescendC (T := T) first f cur) k fun a k' => a ≤ cur ∧ k' ≤ k + (cur - first).toNat := by
  intro f
  induction f with
  | zero => intros; trivial
  | succ f ih =>
    intro cur k
    unfold npDescendC
    split
    · refine .bind_lift fun x => .bind_lift fun y => .bind_cmp fun r => ?_
      split
      · exact (ih _ (k + 1)).mono fun _ k' hk => by omega
      · exact ⟨Int.le_refl _, by omega⟩
    · exact ⟨Int.le_refl _, Nat.le_add_right _ _⟩

theorem cost_npFind (pre : Int) : ∀ (f : Nat) (cur : Int) (k : Nat), Cost N (npFindC (T := T) pre f cur) k fun _ k' => k' ≤ k + f := by
  intro f
  induction f with
  | zero => intros; trivial
  | succ f ih =>
    intro cur k
    unfold npFindC
    refine .bind_lift fun x => .bind_lift fun y => .bind_cmp fun r => ?_
    split
    · exact (ih _ (k + 1)).mono fun _ k' hk => by omega
    · show k + 1 ≤ _; omega

theorem counted_answers {ask : CmpFn σ T} {f : T → T → Int} (ha : ask.Answers f) : (counted ask).Answers f := by
  intro s x y r s' e
  simp only [counted] at e
  cases e1 : ask s.1 x y with
  | none => rw [e1] at e; cases e
  | some q =>
    rw [e1] at e
    have := congrArg Prod.fst (Option.some.inj e)
    simp only at this
    rw [← this]
    exact ha s.1 x y q.1 q.2 e1

/-- **C112** With every comparator that is a consistent order, `NextPermutation` calls it at most `2 n` times on a range of `n` elements. -/
theorem C112_nextPermutation {ops : Ops C T} {Inv : C → Prop} {abs : C → List T} (hl : Lawful ops Inv abs) {c : C} (hc : Inv c)
    {cmp : T → T → Int} (hcmp : LawfulCmp cmp) (P M S : List T) (hM : abs c = P ++ M ++ S) :
    Within (2 * M.length) (runC ops (counted fun (_ : Unit) x y => some (cmp x y, ())) (nextPermutationC P.length (P.length + M.length)) ((), 0) c) := by
  have ha : CmpFn.Answers (fun (_ : Unit) x y => some (cmp x y, ())) cmp := by
    intro s x y r s' e; cases e; rfl
  obtain ⟨b, c', M', e, -⟩ := C23_nextPermutation hcmp hl hc P M S hM
  have hr := runC_agrees ops (counted_answers ha) (nextPermutationC P.length (P.length + M.length)) ((), 0) c
  rw [handle_nextPermutation, e] at hr
  have ht := runC_total ops (counted_total (ask := fun (_ : Unit) x y => some (cmp x y, ())) (by simp)) (nextPermutationC P.length (P.length + M.length)) ((), 0) c
  have hcost : Cost (abs c).length (nextPermutationC (T := T) P.length (P.length + M.length)) 0 fun _ k => k ≤ 2 * M.length := by
    unfold nextPermutationC
    refine (cost_npDescend _ _ _ 0).then fun cur k hk => ?_
    simp only
    split
    · show k ≤ _; omega
    · refine (cost_npFind _ _ _ k).then fun cur' k' hk' => ?_
      refine .bind_lift fun _ => .bind_lift fun _ => ?_
      show k' ≤ _
      omega
  cases eo : runC ops (counted fun (_ : Unit) x y => some (cmp x y, ())) (nextPermutationC P.length (P.length + M.length)) ((), 0) c with
  | done a d s => obtain ⟨s, k⟩ := s; exact ⟨a, d, s, k, rfl, hcost.run hl hc rfl eo⟩
  | crashed d => exact absurd eo (ht d)
  | panicked => rw [eo] at hr; cases hr
  | outOfFuel => rw [eo] at hr; cases hr

/-- Four calls for a range of four. -/
example : ∃ s, runC listOps (counted (fun (_ : Unit) (x y : Int) => some (x - y, ()))) (nextPermutationC 0 4) ((), 0) [1, 9, 8, (3 : Int)] = .done true [3, 1, 8, 9] (s, 4) := ⟨_, by rfl⟩
example := C112_nextPermutation listOps_lawful (c := [9, 4, 2, 7, 1, 5, 8]) trivial intCmp_lawful [9] [4, 2, 7, 1, 5] [8] rfl

/-- Sorting four elements takes 6 calls, as many as allowed. -/
example : ∃ s, runC listOps (counted (fun (_ : Unit) (x y : Int) => some (x - y, ()))) (sortC 0 4) ((), 0) [1, 9, 2, (3 : Int)] = .done () [1, 2, 3, 9] (s, 6) := ⟨_, by rfl⟩
example := C112_algorithms listOps_lawful (c := [9, 4, 2, 7, 1, 5, 8]) trivial (ask := flip) (by simp [flip]) true [9] [4, 2, 7, 1, 5] [8] rfl

end GoSTL.Algo
