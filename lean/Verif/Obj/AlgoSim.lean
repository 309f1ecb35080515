import Verif.Obj.Algo
/-!
# The algorithms on iterator objects make the same calls as those on positions, and leave the caller's objects where they stood
-/
namespace GoSTL.Obj
open GoSTL.Seq

variable {T α β γ : Type} {cs : Cur Int} {cmp : T → T → Int}

namespace Cur
variable {I : Type} {cs cs' : Cur I}
@[simp] theorem push_n (p : I) : (cs.push p).n = cs.n + 1 := rfl
@[simp] theorem move_n (h : Han) (p : I) : (cs.move h p).n = cs.n := rfl
@[simp] theorem push_new (p : I) : (cs.push p).pos cs.n = p := Function.update_self ..
theorem push_new' {p : I} {h : Han} (e : h = cs.n) : (cs.push p).pos h = p := by subst e; exact push_new p
theorem push_old {h : Han} {p : I} (hh : h < cs.n) : (cs.push p).pos h = cs.pos h := Function.update_of_ne (Nat.ne_of_lt hh) ..
@[simp] theorem move_same (h : Han) (p : I) : (cs.move h p).pos h = p := Function.update_self ..
theorem move_ne {h h' : Han} {p : I} (hh : h' ≠ h) : (cs.move h p).pos h' = cs.pos h' := Function.update_of_ne hh ..
@[simp] theorem move_move (h : Han) (p q : I) : (cs.move h p).move h q = cs.move h q := by simp [move]
theorem move_comm {h h' : Han} (hh : h ≠ h') (p q : I) : (cs.move h p).move h' q = (cs.move h' q).move h p := by
  simp [move, Function.update_comm hh]
theorem Keeps.pos (k : cs.Keeps cs') {h : Han} (hh : h < cs.n) : cs'.pos h = cs.pos h := k.2 h hh
theorem Keeps.push' (k : cs.Keeps cs') (p : I) : cs.Keeps (cs'.push p) := k.trans (.push _ _)
theorem Keeps.move (k : cs.Keeps cs') {h : Han} (hh : cs.n ≤ h) (p : I) : cs.Keeps (cs'.move h p) :=
  ⟨k.1, fun x hx => (move_ne (by omega)).trans (k.2 x hx)⟩
end Cur

/-- Solve for the position of a handle. -/
macro "curs" : tactic => `(tactic| simp (disch := ((try simp only [Cur.push_n, Cur.move_n]); omega)) only [Cur.push_new, Cur.push_new', Cur.push_old, Cur.move_same, Cur.move_ne, *])

/-- Compare handles. -/
macro "cn" : tactic => `(tactic| ((try simp only [Cur.push_n, Cur.move_n]); omega))

theorem swapValue_sim {a b : Han} {pa pb : Int} (ea : cs.pos a = pa) (eb : cs.pos b = pb) :
    SimS (T := T) (fun _ cs' _ => cs' = cs) (swapValue a b) cs (Algo.swapValue pa pb) := by
  refine .value ea fun x => .value eb fun y => .setValue ea ?_
  subst eb; exact .set (.ret rfl)

theorem swapIfGreater_sim {a b : Han} {pa pb : Int} (ea : cs.pos a = pa) (eb : cs.pos b = pb) :
    SimS (T := T) (fun _ cs' _ => cs' = cs) (swapIfGreater cmp a b) cs (Algo.swapIfGreater cmp pa pb) := by
  refine .value ea fun x => .value eb fun y => ?_
  split
  · exact swapValue_sim ea eb
  · exact .pure rfl

theorem doPivot_sim {a b c : Han} {pa pb pc : Int} (ea : cs.pos a = pa) (eb : cs.pos b = pb) (ec : cs.pos c = pc) :
    SimS (T := T) (fun _ cs' _ => cs' = cs) (doPivot cmp a b c) cs (Algo.doPivot cmp pa pb pc) := by
  refine .bind (swapIfGreater_sim ea eb) ?_
  rintro _ _ _ rfl
  refine .bind (swapIfGreater_sim ea ec) ?_
  rintro _ _ _ rfl
  exact swapIfGreater_sim eb ec

theorem partitionLoop_sim {base left right : Han} (h1 : base ≠ left) (h2 : base ≠ right) (h3 : left ≠ right) : ∀ (f : Nat) {cs : Cur Int} {pb l r : Int},
    cs.pos base = pb → cs.pos left = l → cs.pos right = r →
    SimS (T := T) (fun _ cs' r' => ∃ l', cs' = (cs.move left l').move right r') (partitionLoop cmp base left right f) cs (Algo.partitionLoop cmp pb f l r) := by
  intro f
  induction f with
  | zero => intros; exact .fuel
  | succ f ih =>
    intro cs pb l r eb el er
    refine .position (.position ?_)
    rw [el, er]
    simp only [Algo.partitionLoop]
    split
    · refine .value el fun x => .value eb fun b => ?_
      split
      · refine .next el fun l' => ?_
        refine (ih (by curs) (by curs) (by curs)).mono ?_
        rintro _ _ r' ⟨l', rfl⟩
        exact ⟨l', by simp⟩
      · refine .value er fun y => .value eb fun b => ?_
        split
        · refine .prev er fun r' => ?_
          refine (ih (by curs) (by curs) (by curs)).mono ?_
          rintro _ _ r'' ⟨l', rfl⟩
          exact ⟨l', by rw [Cur.move_comm h3.symm]; simp⟩
        · refine .bind (swapValue_sim el er) ?_
          rintro _ _ _ rfl
          refine .next el fun l' => .prev (by curs) fun r' => ?_
          refine (ih (by curs) (by curs) (by curs)).mono ?_
          rintro _ _ r'' ⟨l'', rfl⟩
          refine ⟨l'', ?_⟩
          rw [Cur.move_comm h3.symm, Cur.move_move, Cur.move_move]
    · refine .pure ⟨l, ?_⟩
      subst el er
      simp [Cur.move]

/-- Solve `Keeps` for objects made and moved here. -/
macro "keeps" : tactic => `(tactic| (repeat (first | exact Cur.Keeps.refl _ | assumption | refine Cur.Keeps.push' ?_ _ | (refine Cur.Keeps.move ?_ (by (try simp only [Cur.push_n, Cur.move_n] at *); omega) _))))

theorem quickSort_sim : ∀ (f : Nat) {cs : Cur Int} {first last : Han} {a b : Int}, first < cs.n → last < cs.n → cs.pos first = a → cs.pos last = b →
    SimS (T := T) (fun _ cs' _ => cs.Keeps cs') (quickSort cmp f first last) cs (Algo.quickSort cmp f a b) := by
  intro f
  induction f with
  | zero => intros; exact .fuel
  | succ f ih =>
    intro cs first last a b hf hl ea eb
    refine .posIs ea (.posIs eb ?_)
    simp only [Algo.quickSort]
    split
    · exact .pure (.refl _)
    refine .posIs eb (.posIs ea ?_)
    split
    · refine (swapIfGreater_sim ea eb).mono ?_
      rintro _ _ _ rfl; exact .refl _
    refine .posIs ea (.iteratorAt ?_)
    refine .bind (doPivot_sim (pa := a) (pb := a + (b - a + 1) / 2) (pc := b) (by curs) (by curs) (by curs)) ?_
    rintro _ _ _ rfl
    refine .posIs (p := b) (by curs) (.iteratorAt ?_)
    refine .bind (swapValue_sim (by curs) (by curs)) ?_
    rintro _ _ _ rfl
    split
    · exact .pure (by keeps)
    refine .posIs (p := b) (by curs) (.iteratorAt (.posIs (p := a) (by curs) (.iteratorAt (.posIs (p := b) (by curs) (.iteratorAt ?_)))))
    refine .bind (partitionLoop_sim (by simp) (by simp) (by simp) _ (by curs) (by curs) (by curs)) ?_
    rintro _ _ r ⟨l, rfl⟩
    refine .next (by curs) fun m => .posIs (p := m) (by curs) ?_
    refine .bind (swapValue_sim (by curs) (by curs)) ?_
    rintro _ _ _ rfl
    refine .iteratorAt ?_
    refine .bind (ih (by cn) (by cn) (by curs) (by curs)) ?_
    rintro _ cs1 _ k
    have k0 : cs.Keeps cs1 := by
      refine .trans ?_ k
      keeps
    refine .iteratorAt (.next (by curs) fun p => ?_)
    have := k.1
    simp only [Cur.push_n, Cur.move_n] at this
    refine (ih (by cn) (by cn) (by curs)
      (by have := k0.pos hl; curs)).mono ?_
    intro _ cs2 _ k2
    exact .trans (by keeps) k2

theorem sort_sim {first last : Han} (hf : first < cs.n) (hl : last < cs.n) :
    SimS (T := T) (fun _ cs' _ => cs.Keeps cs') (sort cmp first last) cs (Algo.sort cmp (cs.pos first) (cs.pos last)) := by
  refine .position (.position (.position (.iteratorAt ?_)))
  refine (quickSort_sim _ (by simp only [Cur.push_n]; omega) (by simp) (by curs) (by curs)).mono ?_
  intro _ cs2 _ k2
  exact .trans (by keeps) k2

theorem nthElementRec_sim : ∀ (f : Nat) {cs : Cur Int} {first last : Han} {a b n : Int}, first < cs.n → last < cs.n → cs.pos first = a → cs.pos last = b →
    SimS (T := T) (fun _ cs' _ => cs.Keeps cs') (nthElementRec cmp f first last n) cs (Algo.nthElementRec cmp f a b n) := by
  intro f
  induction f with
  | zero => intros; exact .fuel
  | succ f ih =>
    intro cs first last a b n hf hl ea eb
    refine .posIs ea (.posIs eb ?_)
    simp only [Algo.nthElementRec]
    split
    · exact .pure (.refl _)
    refine .posIs eb (.posIs ea ?_)
    split
    · refine (swapIfGreater_sim ea eb).mono ?_
      rintro _ _ _ rfl; exact .refl _
    refine .posIs ea (.iteratorAt ?_)
    refine .bind (doPivot_sim (pa := a) (pb := a + (b - a + 1) / 2) (pc := b) (by curs) (by curs) (by curs)) ?_
    rintro _ _ _ rfl
    refine .posIs (p := b) (by curs) (.iteratorAt ?_)
    refine .bind (swapValue_sim (by curs) (by curs)) ?_
    rintro _ _ _ rfl
    split
    · exact .pure (by keeps)
    refine .posIs (p := b) (by curs) (.iteratorAt (.posIs (p := a) (by curs) (.iteratorAt (.posIs (p := b) (by curs) (.iteratorAt ?_)))))
    refine .bind (partitionLoop_sim (by simp) (by simp) (by simp) _ (by curs) (by curs) (by curs)) ?_
    rintro _ _ r ⟨l, rfl⟩
    refine .next (by curs) fun m => .posIs (p := m) (by curs) ?_
    refine .bind (swapValue_sim (by curs) (by curs)) ?_
    rintro _ _ _ rfl
    refine .posIs (p := a) (by curs) ?_
    split
    · refine .iteratorAt ?_
      refine (ih (by cn) (by cn) (by curs) (by curs)).mono ?_
      intro _ cs2 _ k2
      exact .trans (by keeps) k2
    · refine .iteratorAt (.next (by curs) fun p => .posIs (p := a) (by curs) ?_)
      refine (ih (by cn) (by cn) (by curs) (by curs)).mono ?_
      intro _ cs2 _ k2
      exact .trans (by keeps) k2

theorem nthElement_sim {first last : Han} {n : Int} (hf : first < cs.n) (hl : last < cs.n) :
    SimS (T := T) (fun _ cs' _ => cs.Keeps cs') (nthElement cmp first last n) cs (Algo.nthElement cmp (cs.pos first) (cs.pos last) n) := by
  refine .position (.position ?_)
  simp only [Algo.nthElement]
  split
  · exact .pure (.refl _)
  refine .position (.position (.iteratorAt ?_))
  refine (nthElementRec_sim _ (by simp only [Cur.push_n]; omega) (by simp) (by curs) (by curs)).mono ?_
  intro _ cs2 _ k2
  exact .trans (by keeps) k2

theorem binarySearchLoop_sim {val : T} : ∀ (f : Nat) {cs : Cur Int} {left right : Han} {l r : Int}, left < cs.n → right < cs.n → cs.pos left = l → cs.pos right = r →
    SimS (T := T) (fun b cs' b' => b = b' ∧ cs.Keeps cs') (binarySearchLoop cmp val f left right) cs (Algo.binarySearchLoop cmp val f l r) := by
  intro f
  induction f with
  | zero => intros; exact .fuel
  | succ f ih =>
    intro cs left right l r hl hr el er
    refine .posIs el (.posIs er ?_)
    simp only [Algo.binarySearchLoop]
    split
    · refine .iteratorAt (.value (by curs) fun x => ?_)
      split
      · exact .pure ⟨rfl, by keeps⟩
      split
      · refine .prev (by curs) fun p => ?_
        refine (ih (by cn) (by cn) (by curs) (by curs)).mono ?_
        rintro _ cs2 _ ⟨e, k2⟩
        exact ⟨e, .trans (by keeps) k2⟩
      · refine .next (by curs) fun p => ?_
        refine (ih (by cn) (by cn) (by curs) (by curs)).mono ?_
        rintro _ cs2 _ ⟨e, k2⟩
        exact ⟨e, .trans (by keeps) k2⟩
    · exact .pure ⟨rfl, .refl _⟩

theorem binarySearch_sim {first last : Han} {val : T} (hf : first < cs.n) (hl : last < cs.n) :
    SimS (T := T) (fun b cs' b' => b = b' ∧ cs.Keeps cs') (binarySearch cmp first last val) cs (Algo.binarySearch cmp (cs.pos first) (cs.pos last) val) := by
  refine .isValid rfl fun v => .position (.position ?_)
  split
  · exact .pure ⟨rfl, .refl _⟩
  refine .clone (.clone (.prev (by curs) fun p => ?_))
  refine (binarySearchLoop_sim _ (by cn) (by cn) (by curs) (by curs)).mono ?_
  rintro _ cs2 _ ⟨e, k2⟩
  exact ⟨e, .trans (by keeps) k2⟩

theorem boundLoop_sim {below : T → Bool} : ∀ (f : Nat) {cs : Cur Int} {left right : Han} {l r pos : Int}, left < cs.n → right < cs.n →
    cs.pos left = l → cs.pos right = r →
    SimS (T := T) (fun b cs' b' => b = b' ∧ cs.Keeps cs') (boundLoop below f left right pos) cs (Algo.boundLoop below f l r pos) := by
  intro f
  induction f with
  | zero => intros; exact .fuel
  | succ f ih =>
    intro cs left right l r pos hl hr el er
    refine .posIs el (.posIs er ?_)
    simp only [Algo.boundLoop]
    split
    · refine .iteratorAt (.value (by curs) fun x => ?_)
      split
      · refine .posIs (p := (l + r) / 2) (by curs) (.prev (by curs) fun p => ?_)
        refine (ih (by cn) (by cn) (by curs) (by curs)).mono ?_
        rintro _ cs2 _ ⟨e, k2⟩
        exact ⟨e, .trans (by keeps) k2⟩
      · refine .next (by curs) fun p => ?_
        refine (ih (by cn) (by cn) (by curs) (by curs)).mono ?_
        rintro _ cs2 _ ⟨e, k2⟩
        exact ⟨e, .trans (by keeps) k2⟩
    · exact .pure ⟨rfl, .refl _⟩

/-- A new object at position `p`; all others stand where they stood. -/
def Fresh (cs : Cur Int) (h : Han) (cs' : Cur Int) (p : Int) : Prop := cs.n ≤ h ∧ h < cs'.n ∧ cs'.pos h = p ∧ cs.Keeps cs'

theorem lowerBound_sim {first last : Han} {val : T} (hf : first < cs.n) (hl : last < cs.n) :
    SimS (T := T) (Fresh cs) (lowerBound cmp first last val) cs (Algo.lowerBound cmp (cs.pos first) (cs.pos last) val) := by
  refine .isValid rfl fun v => .position (.position ?_)
  split
  · exact .ret ⟨Nat.le_refl _, by simp, by simp, by keeps⟩
  refine .clone (.clone (.prev (by curs) fun p => .value (by curs) fun x => ?_))
  split
  · exact .ret ⟨by simp only [Cur.push_n, Cur.move_n]; omega, by simp, by curs, by keeps⟩
  refine .tail (boundLoop_sim _ (l := cs.pos first) (r := p) (by cn) (by cn) (by curs) (by curs)) ?_
  rintro _ cs1 b ⟨rfl, k⟩
  have k0 : cs.Keeps cs1 := .trans (by keeps) k
  exact .ret ⟨k0.1, by simp, by simp, by keeps⟩

theorem upperBound_sim {first last : Han} {val : T} (hf : first < cs.n) (hl : last < cs.n) :
    SimS (T := T) (Fresh cs) (upperBound cmp first last val) cs (Algo.upperBound cmp (cs.pos first) (cs.pos last) val) := by
  refine .isValid rfl fun v => .position (.position ?_)
  split
  · exact .ret ⟨Nat.le_refl _, by simp, by simp, by keeps⟩
  refine .clone (.clone (.prev (by curs) fun p => .value (by curs) fun x => ?_))
  split
  · exact .ret ⟨by simp only [Cur.push_n, Cur.move_n]; omega, by simp, by curs, by keeps⟩
  refine .tail (boundLoop_sim _ (l := cs.pos first) (r := p) (by cn) (by cn) (by curs) (by curs)) ?_
  rintro _ cs1 b ⟨rfl, k⟩
  have k0 : cs.Keeps cs1 := .trans (by keeps) k
  exact .ret ⟨k0.1, by simp, by simp, by keeps⟩

theorem npDescend_sim {first : Han} {a : Int} : ∀ (f : Nat) {cs : Cur Int} {cur : Int}, first < cs.n → cs.pos first = a →
    SimS (T := T) (fun b cs' b' => b = b' ∧ cs.Keeps cs') (npDescend cmp first f cur) cs (Algo.npDescend cmp a f cur) := by
  intro f
  induction f with
  | zero => intros; exact .fuel
  | succ f ih =>
    intro cs cur hf ea
    refine .posIs ea ?_
    simp only [Algo.npDescend]
    split
    · refine .iteratorAt (.value (by curs) fun x => .iteratorAt (.value (by curs) fun y => ?_))
      split
      · refine (ih (by cn) (by curs)).mono ?_
        rintro _ cs2 _ ⟨e, k2⟩
        exact ⟨e, .trans (by keeps) k2⟩
      · exact .pure ⟨rfl, by keeps⟩
    · exact .pure ⟨rfl, .refl _⟩

theorem npFind_sim {first : Han} {pre : Int} : ∀ (f : Nat) {cs : Cur Int} {cur : Int},
    SimS (T := T) (fun b cs' b' => b = b' ∧ cs.Keeps cs') (npFind cmp first pre f cur) cs (Algo.npFind cmp pre f cur) := by
  intro f
  induction f with
  | zero => intros; exact .fuel
  | succ f ih =>
    intro cs cur
    refine .iteratorAt (.value (by curs) fun x => .iteratorAt (.value (by curs) fun y => ?_))
    split
    · refine ih.mono ?_
      rintro _ cs2 _ ⟨e, k2⟩
      exact ⟨e, .trans (by keeps) k2⟩
    · exact .pure ⟨rfl, by keeps⟩

/-- Objects other than `x` and `y` stand where they stood. -/
def KeepsBut (cs : Cur Int) (x y : Han) (cs' : Cur Int) : Prop := cs'.n = cs.n ∧ ∀ h, h ≠ x → h ≠ y → cs'.pos h = cs.pos h

theorem npReverse_sim {s e : Han} (hse : s ≠ e) : ∀ (f : Nat) {cs : Cur Int} {a b : Int}, cs.pos s = a → cs.pos e = b →
    SimS (T := T) (fun _ cs' _ => KeepsBut cs s e cs') (npReverse s e f) cs (Algo.npReverse f a b) := by
  intro f
  induction f with
  | zero => intros; exact .fuel
  | succ f ih =>
    intro cs a b ea eb
    refine .posIs ea (.posIs eb ?_)
    simp only [Algo.npReverse]
    split
    · refine .bind (swapValue_sim ea eb) ?_
      rintro _ _ _ rfl
      refine .next ea fun a' => .prev (by curs) fun b' => ?_
      refine (ih (by curs) (by curs)).mono ?_
      rintro _ cs2 _ ⟨e1, e2⟩
      refine ⟨e1, fun h h1 h2 => ?_⟩
      rw [e2 h h1 h2, Cur.move_ne h2, Cur.move_ne h1]
    · exact .pure ⟨rfl, fun _ _ _ => rfl⟩

theorem nextPermutation_sim {first last : Han} (hf : first < cs.n) (hl : last < cs.n) :
    SimS (T := T) (fun b cs' b' => b = b' ∧ cs.Keeps cs') (nextPermutation cmp first last) cs (Algo.nextPermutation cmp (cs.pos first) (cs.pos last)) := by
  refine .position (.position (.position (.iteratorAt ?_)))
  refine .bind (npDescend_sim _ (by cn) (by curs)) ?_
  rintro cur cs1 _ ⟨rfl, k1⟩
  have e1 := k1.1
  have e2 := k1.pos (h := cs.n) (by simp)
  have e3 := k1.pos (h := first) (by cn)
  rw [Cur.push_n] at e1
  rw [Cur.push_old hf] at e3
  rw [Cur.push_new] at e2
  refine .posIs e3 ?_
  have k1' : cs.Keeps cs1 := .trans (by keeps) k1
  split
  · exact .pure ⟨rfl, k1'⟩
  refine .bind (npFind_sim _) ?_
  rintro cur' cs2 _ ⟨rfl, k2⟩
  have e4 := k2.1
  have e5 := k2.pos (h := cs.n) (by omega)
  have k2' : cs.Keeps cs2 := k1'.trans k2
  refine .iteratorAt (.iteratorAt ?_)
  refine .bind (swapValue_sim (by curs) (by curs)) ?_
  rintro _ _ _ rfl
  refine .iteratorAt ?_
  refine .bind (npReverse_sim (by cn) _ (by curs) (by curs)) ?_
  rintro _ cs3 _ ⟨e6, e7⟩
  refine .pure ⟨rfl, by rw [e6]; simp only [Cur.push_n]; omega, fun h hh => ?_⟩
  rw [e7 h (by cn) (by omega)]
  have := k2'.pos hh
  curs

theorem reverseLoop_sim {left right : Han} (hlr : left ≠ right) : ∀ (f : Nat) {cs : Cur Int} {a b : Int}, cs.pos left = a → cs.pos right = b →
    SimS (T := T) (fun _ cs' _ => KeepsBut cs left right cs') (reverseLoop left right f) cs (Algo.reverseLoop f a b) := by
  intro f
  induction f with
  | zero => intros; exact .fuel
  | succ f ih =>
    intro cs a b ea eb
    refine .equal ?_
    simp only [Algo.reverseLoop, ea, eb, decide_eq_true_eq, ne_eq, ite_not, eq_comm (a := b)]
    split
    · exact .pure ⟨rfl, fun _ _ _ => rfl⟩
    refine .bind (swapValue_sim ea eb) ?_
    rintro _ _ _ rfl
    refine .next ea fun a' => .equal ?_
    rw [Cur.move_same, Cur.move_ne hlr.symm, eb]
    simp only [decide_eq_true_eq, eq_comm (a := b)]
    split
    · exact .pure ⟨rfl, fun h h1 h2 => Cur.move_ne h1⟩
    refine .prev (by curs) fun b' => ?_
    refine (ih (by curs) (by curs)).mono ?_
    rintro _ cs2 _ ⟨e1, e2⟩
    refine ⟨e1, fun h h1 h2 => ?_⟩
    rw [e2 h h1 h2, Cur.move_ne h2, Cur.move_ne h1]

theorem reverse_sim {first last : Han} (hf : first < cs.n) (hl : last < cs.n) (fuel : Nat) :
    SimS (T := T) (fun _ cs' _ => cs.Keeps cs') (reverse fuel first last) cs (Algo.reverse fuel (cs.pos first) (cs.pos last)) := by
  refine .clone (.clone (.prev (by curs) fun p => ?_))
  refine (reverseLoop_sim (by cn) _ (by curs) (by curs)).mono ?_
  rintro _ cs2 _ ⟨e1, e2⟩
  refine ⟨by rw [e1]; simp only [Cur.push_n, Cur.move_n]; omega, fun h hh => ?_⟩
  rw [e2 h (by cn) (by cn)]
  curs

theorem mergeLoop_sim {mid last first second : Han} (h1 : mid ≠ first) (h2 : mid ≠ second) (h3 : last ≠ first) (h4 : last ≠ second) (h5 : first ≠ second) :
    ∀ (f : Nat) {cs : Cur Int} {m e a b : Int} {pos : Nat} {tmp : List T}, cs.pos mid = m → cs.pos last = e → cs.pos first = a → cs.pos second = b →
    SimS (T := T) (fun r cs' r' => KeepsBut cs first second cs' ∧ r' = (cs'.pos first, cs'.pos second, r.1, r.2))
      (mergeLoop cmp mid last first second f pos tmp) cs (Algo.mergeLoop cmp m e f a b pos tmp) := by
  intro f
  induction f with
  | zero => intros; exact .fuel
  | succ f ih =>
    intro cs m e a b pos tmp em ee ea eb
    refine .posIs ea (.posIs em (.posIs eb (.posIs ee ?_)))
    simp only [Algo.mergeLoop]
    split
    · refine .value ea fun x => .value eb fun y => ?_
      split
      · refine .value ea fun x => ?_
        split
        · refine .next ea fun a' => ?_
          refine (ih (by curs) (by curs) (by curs) (by curs)).mono ?_
          rintro _ cs2 _ ⟨⟨e1, e2⟩, e3⟩
          exact ⟨⟨e1, fun h h1 h2 => by rw [e2 h h1 h2, Cur.move_ne h1]⟩, e3⟩
        · exact .panic
      · refine .value eb fun x => ?_
        split
        · refine .next eb fun a' => ?_
          refine (ih (by curs) (by curs) (by curs) (by curs)).mono ?_
          rintro _ cs2 _ ⟨⟨e1, e2⟩, e3⟩
          exact ⟨⟨e1, fun h h1 h2 => by rw [e2 h h1 h2, Cur.move_ne h2]⟩, e3⟩
        · exact .panic
    · exact .pure ⟨⟨rfl, fun _ _ _ => rfl⟩, by rw [ea, eb]⟩

theorem drainLoop_sim {stop it : Han} (hne : stop ≠ it) : ∀ (f : Nat) {cs : Cur Int} {s a : Int} {pos : Nat} {tmp : List T}, cs.pos stop = s → cs.pos it = a →
    SimS (T := T) (fun r cs' r' => KeepsBut cs it it cs' ∧ r' = r) (drainLoop stop it f pos tmp) cs (Algo.drainLoop s f a pos tmp) := by
  intro f
  induction f with
  | zero => intros; exact .fuel
  | succ f ih =>
    intro cs s a pos tmp es ea
    refine .posIs ea (.posIs es ?_)
    simp only [Algo.drainLoop]
    split
    · refine .value ea fun x => ?_
      split
      · refine .next ea fun a' => ?_
        refine (ih (by curs) (by curs)).mono ?_
        rintro _ cs2 _ ⟨⟨e1, e2⟩, e3⟩
        exact ⟨⟨e1, fun h h1 h2 => by rw [e2 h h1 h2, Cur.move_ne h1]⟩, e3⟩
      · exact .panic
    · exact .pure ⟨⟨rfl, fun _ _ _ => rfl⟩, rfl⟩

theorem copyBack_sim {it : Han} {tmp : List T} : ∀ (k idx : Nat) {cs : Cur Int} {a : Int}, cs.pos it = a →
    SimS (T := T) (fun _ cs' _ => KeepsBut cs it it cs') (copyBack tmp it k idx) cs (Algo.copyBack tmp k idx a) := by
  intro k
  induction k with
  | zero => intros; exact .pure ⟨rfl, fun _ _ _ => rfl⟩
  | succ k ih =>
    intro idx cs a ea
    simp only [copyBack, Algo.copyBack]
    cases tmp[idx]? with
    | none => exact .panic
    | some x =>
      refine .setValue ea (.next ea fun a' => ?_)
      refine (ih _ (by curs)).mono ?_
      rintro _ cs2 _ ⟨e1, e2⟩
      exact ⟨e1, fun h h1 h2 => by rw [e2 h h1 h2, Cur.move_ne h1]⟩

theorem KeepsBut.keeps {cs cs' cs'' : Cur Int} {x y : Han} (h : KeepsBut cs' x y cs'') (k : cs.Keeps cs') (hx : cs.n ≤ x) (hy : cs.n ≤ y) : cs.Keeps cs'' :=
  ⟨by rw [h.1]; exact k.1, fun z hz => by rw [h.2 z (by omega) (by omega), k.2 z hz]⟩

theorem merge_sim {first mid last : Han} (hf : first < cs.n) (hm : mid < cs.n) (hl : last < cs.n) {tmp : List T} {a m b : Int}
    (ea : cs.pos first = a) (em : cs.pos mid = m) (eb : cs.pos last = b) :
    SimS (T := T) (fun r cs' r' => r = r' ∧ cs.Keeps cs') (merge cmp first mid last tmp) cs (Algo.merge cmp a m b tmp) := by
  refine .posIs eb (.posIs ea (.clone (.clone ?_)))
  refine .bind (mergeLoop_sim (by cn) (by cn) (by cn) (by cn) (by cn) _ (by curs) (by curs) (by curs) (by curs)) ?_
  rintro ⟨pos1, tmp1⟩ cs1 _ ⟨k1, rfl⟩
  have g1 : cs.Keeps cs1 := k1.keeps (by keeps) (by cn) (by cn)
  have n1 := k1.1
  simp only [Cur.push_n] at n1
  have := g1.pos hm
  have := g1.pos hl
  refine .bind (drainLoop_sim (by omega) _ (by curs) rfl) ?_
  rintro ⟨pos2, tmp2⟩ cs2 _ ⟨k2, rfl⟩
  have g2 : cs.Keeps cs2 := k2.keeps g1 (by cn) (by cn)
  have n2 := k2.1
  have := g2.pos hl
  have := k2.2 (cs.n + 1) (by cn) (by cn)
  refine .bind (drainLoop_sim (by cn) _ (by curs) this) ?_
  rintro ⟨pos3, tmp3⟩ cs3 _ ⟨k3, rfl⟩
  have g3 : cs.Keeps cs3 := k3.keeps g2 (by cn) (by cn)
  have n3 := k3.1
  have := g3.pos hf
  refine .clone (.bind (copyBack_sim _ _ (by curs)) ?_)
  rintro _ cs4 _ k4
  exact .pure ⟨rfl, k4.keeps (g3.push' _) (by omega) (by omega)⟩

theorem mergeSort_sim : ∀ (f : Nat) {cs : Cur Int} {first last : Han} {a b : Int} {tmp : List T}, first < cs.n → last < cs.n → cs.pos first = a → cs.pos last = b →
    SimS (T := T) (fun r cs' r' => r = r' ∧ cs.Keeps cs') (mergeSort cmp f first last tmp) cs (Algo.mergeSort cmp f a b tmp) := by
  intro f
  induction f with
  | zero => intros; exact .fuel
  | succ f ih =>
    intro cs first last a b tmp hf hl ea eb
    refine .posIs ea (.posIs eb ?_)
    simp only [Algo.mergeSort]
    split
    · exact .pure ⟨rfl, .refl _⟩
    refine .posIs ea (.posIs eb (.iteratorAt ?_))
    refine .bind (ih (by cn) (by cn) (by curs) (by curs)) ?_
    rintro tmp1 cs1 _ ⟨rfl, k1⟩
    have n1 := k1.1
    simp only [Cur.push_n] at n1
    have g1 : cs.Keeps cs1 := .trans (by keeps) k1
    have := k1.pos (h := cs.n) (by simp)
    have := g1.pos hl
    refine .bind (ih (by omega) (by omega) (by curs) (by curs)) ?_
    rintro tmp2 cs2 _ ⟨rfl, k2⟩
    have n2 := k2.1
    have g2 : cs.Keeps cs2 := g1.trans k2
    have := k2.pos (h := cs.n) (by omega)
    have := g2.pos hl
    have := g2.pos hf
    refine (merge_sim (by omega) (by omega) (by omega) (by curs) (by curs) (by curs)).mono ?_
    rintro r cs3 _ ⟨rfl, k3⟩
    exact ⟨rfl, g2.trans k3⟩

theorem stable_sim {first last : Han} (hf : first < cs.n) (hl : last < cs.n) (zero : T) (fuel : Nat) :
    SimS (T := T) (fun _ cs' _ => cs.Keeps cs') (stable zero cmp fuel first last) cs (Algo.stable zero cmp fuel (cs.pos first) (cs.pos last)) := by
  refine .position (.position ?_)
  simp only [Algo.stable]
  split
  · exact .panic
  refine .bind (mergeSort_sim _ hf hl rfl rfl) ?_
  rintro _ cs1 _ ⟨rfl, k⟩
  exact .pure k

end GoSTL.Obj
