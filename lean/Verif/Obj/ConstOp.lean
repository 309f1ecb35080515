import Verif.Obj.AlgoSim
import Verif.Algo.ConstOp
/-!
# `algorithm/const_op.go` on iterator objects

For any iterator type (`ConstIter`: its `Equal`, `Next` and `Value`); the container does not change. A visitor is a program on the iterator object it is given.
-/
namespace GoSTL.Obj
open GoSTL.Algo (ConstIter)

variable {I T α β γ δ : Type}

/-- A program on the iterator objects of an unchanging container. -/
abbrev CProg (I α : Type) := StateT (Cur I) Res α

/-- `Clone`: a new object at the same place (utils/iterator/iterator.go:8). -/
def cloneC (h : Han) : CProg I Han := fun cs => .ok (cs.n, cs.push (cs.pos h))
/-- `Equal` (utils/iterator/iterator.go:9). -/
def equalC (it : ConstIter I T) (h h' : Han) : CProg I Bool := fun cs => .ok (it.eq (cs.pos h) (cs.pos h'), cs)
/-- `Value` (utils/iterator/iterator.go:7). -/
def valueC (it : ConstIter I T) (h : Han) : CProg I T := fun cs => do let x ← it.value (cs.pos h); .ok (x, cs)
/-- `Next` moves the object (utils/iterator/iterator.go:6). -/
def nextC (it : ConstIter I T) (h : Han) : CProg I Unit := fun cs => do let p ← it.next (cs.pos h); .ok ((), cs.move h p)
/-- The budget is used up. -/
def fuelC : CProg I α := fun _ => .outOfFuel

variable (it : ConstIter I T)

/-- algorithm/const_op.go:11-15. -/
def countLoop (cmp : T → T → Int) (iter last : Han) (val : T) : Nat → Nat → CProg I Nat
  | 0, _ => fuelC
  | f + 1, count => do
    let e ← equalC it iter last
    if e = true then pure count else do
    let x ← valueC it iter
    nextC it iter
    countLoop cmp iter last val f (if cmp x val = 0 then count + 1 else count)

/-- algorithm/const_op.go:9-17 `Count`. -/
def count (cmp : T → T → Int) (fuel : Nat) (first last : Han) (val : T) : CProg I Nat := do
  let iter ← cloneC first
  countLoop it cmp iter last val fuel 0

/-- algorithm/const_op.go:22-26. -/
def countIfLoop (f : Han → CProg I Bool) (iter last : Han) : Nat → Nat → CProg I Nat
  | 0, _ => fuelC
  | n + 1, count => do
    let e ← equalC it iter last
    if e = true then pure count else do
    let b ← f iter
    nextC it iter
    countIfLoop f iter last n (if b then count + 1 else count)

/-- algorithm/const_op.go:20-28 `CountIf`. -/
def countIf (fuel : Nat) (first last : Han) (f : Han → CProg I Bool) : CProg I Nat := do
  let iter ← cloneC first
  countIfLoop it f iter last fuel 0

/-- algorithm/const_op.go:32-37. -/
def findLoop (cmp : T → T → Int) (iter last : Han) (val : T) : Nat → CProg I Han
  | 0 => fuelC
  | n + 1 => do
    let e ← equalC it iter last
    if e = true then pure last else do
    let x ← valueC it iter
    if cmp x val = 0 then pure iter else do
    nextC it iter
    findLoop cmp iter last val n

/-- algorithm/const_op.go:31-38 `Find`: the returned iterator. -/
def find (cmp : T → T → Int) (fuel : Nat) (first last : Han) (val : T) : CProg I Han := do
  let iter ← cloneC first
  findLoop it cmp iter last val fuel

/-- algorithm/const_op.go:42-47. -/
def findIfLoop (f : Han → CProg I Bool) (iter last : Han) : Nat → CProg I Han
  | 0 => fuelC
  | n + 1 => do
    let e ← equalC it iter last
    if e = true then pure last else do
    let b ← f iter
    if b = true then pure iter else do
    nextC it iter
    findIfLoop f iter last n

/-- algorithm/const_op.go:41-48 `FindIf`: the returned iterator. -/
def findIf (fuel : Nat) (first last : Han) (f : Han → CProg I Bool) : CProg I Han := do
  let iter ← cloneC first
  findIfLoop it f iter last fuel

/-- algorithm/const_op.go:56-60, 70-74; `best` is the variable `largest` respectively `smallest`. -/
def extremeLoop (better : Int → Bool) (cmp : T → T → Int) (iter last : Han) : Nat → Han → CProg I Han
  | 0, _ => fuelC
  | n + 1, best => do
    let e ← equalC it iter last
    if e = true then pure best else do
    let x ← valueC it iter
    let b ← valueC it best
    if better (cmp x b) = true then do
      let best ← cloneC iter
      nextC it iter
      extremeLoop better cmp iter last n best
    else do
      nextC it iter
      extremeLoop better cmp iter last n best

/-- algorithm/const_op.go:51-62, 65-76 `MaxElement` (`better c = c > 0`) and `MinElement` (`better c = c < 0`): the returned iterator. -/
def extreme (better : Int → Bool) (cmp : T → T → Int) (fuel : Nat) (first last : Han) : CProg I Han := do
  let e ← equalC it first last
  if e = true then pure last else do
  let iter ← cloneC first
  extremeLoop it better cmp iter last fuel first

/-- algorithm/const_op.go:51-62 `MaxElement`. -/
def maxElement (cmp : T → T → Int) (fuel : Nat) (first last : Han) : CProg I Han := extreme it (fun c => decide (c > 0)) cmp fuel first last

/-- algorithm/const_op.go:65-76 `MinElement`. -/
def minElement (cmp : T → T → Int) (fuel : Nat) (first last : Han) : CProg I Han := extreme it (fun c => decide (c < 0)) cmp fuel first last

/-- algorithm/const_op.go:80-84. -/
def anyOfLoop (f : Han → CProg I Bool) (iter last : Han) : Nat → CProg I Bool
  | 0 => fuelC
  | n + 1 => do
    let e ← equalC it iter last
    if e = true then pure false else do
    let b ← f iter
    if b = true then pure true else do
    nextC it iter
    anyOfLoop f iter last n

/-- algorithm/const_op.go:79-86 `AnyOf`. -/
def anyOf (fuel : Nat) (first last : Han) (f : Han → CProg I Bool) : CProg I Bool := do
  let iter ← cloneC first
  anyOfLoop it f iter last fuel

/-- algorithm/const_op.go:90-94. -/
def allOfLoop (f : Han → CProg I Bool) (iter last : Han) : Nat → CProg I Bool
  | 0 => fuelC
  | n + 1 => do
    let e ← equalC it iter last
    if e = true then pure true else do
    let b ← f iter
    if b = false then pure false else do
    nextC it iter
    allOfLoop f iter last n

/-- algorithm/const_op.go:89-96 `AllOf`. -/
def allOf (fuel : Nat) (first last : Han) (f : Han → CProg I Bool) : CProg I Bool := do
  let iter ← cloneC first
  allOfLoop it f iter last fuel

/-- algorithm/const_op.go:99-101 `NoneOf`. -/
def noneOf (fuel : Nat) (first last : Han) (f : Han → CProg I Bool) : CProg I Bool := do
  let b ← anyOf it fuel first last f
  pure !b

/-! ## Simulation -/

/-- Same outcome, with related values. -/
def SimC (R : α → Cur I → β → Prop) : Res (α × Cur I) → Res β → Prop
  | .ok r, .ok b => R r.1 r.2 b
  | .panic, .panic => True
  | .outOfFuel, .outOfFuel => True
  | _, _ => False

variable {it} {R : α → Cur I → β → Prop} {R' : γ → Cur I → δ → Prop} {cs : Cur I} {cmp : T → T → Int}

theorem SimC.mono {R R' : α → Cur I → β → Prop} {r : Res (α × Cur I)} {q : Res β} (s : SimC R r q) (h : ∀ a cs' b, R a cs' b → R' a cs' b) : SimC R' r q := by
  match r, q, s with
  | .ok r, .ok b, s => exact h _ _ _ s
  | .panic, .panic, _ => trivial
  | .outOfFuel, .outOfFuel, _ => trivial

theorem SimC.clone {h : Han} {f : Han → CProg I γ} {q : Res δ} (s : SimC R' (f cs.n (cs.push (cs.pos h))) q) : SimC R' ((cloneC h >>= f) cs) q := s
theorem SimC.equal {h h' : Han} {i j : I} (e : cs.pos h = i) (e' : cs.pos h' = j) {f : Bool → CProg I γ} {q : Res δ} (s : SimC R' (f (it.eq i j) cs) q) :
    SimC R' ((equalC it h h' >>= f) cs) q := by subst e e'; exact s
theorem SimC.value {h : Han} {i : I} (e : cs.pos h = i) {f : T → CProg I γ} {g : T → Res δ} (s : ∀ x, SimC R' (f x cs) (g x)) :
    SimC R' ((valueC it h >>= f) cs) (it.value i >>= g) := by
  subst e
  show SimC R' ((it.value (cs.pos h) >>= fun x => Res.ok (x, cs)) >>= fun r => f r.1 r.2) _
  cases it.value (cs.pos h) with
  | ok x => exact s x
  | panic => trivial
  | outOfFuel => trivial
theorem SimC.next {h : Han} {i : I} (e : cs.pos h = i) {f : Unit → CProg I γ} {g : I → Res δ} (s : ∀ p, SimC R' (f () (cs.move h p)) (g p)) :
    SimC R' ((nextC it h >>= f) cs) (it.next i >>= g) := by
  subst e
  show SimC R' ((it.next (cs.pos h) >>= fun p => Res.ok ((), cs.move h p)) >>= fun r => f r.1 r.2) _
  cases it.next (cs.pos h) with
  | ok x => exact s x
  | panic => trivial
  | outOfFuel => trivial
theorem SimC.visit {f : Han → CProg I Bool} {h : Han} {b : Bool} {cs1 : Cur I} (e : f h cs = .ok (b, cs1)) {k : Bool → CProg I γ} {q : Res δ}
    (s : SimC R' (k b cs1) q) : SimC R' ((f h >>= k) cs) q := by
  show SimC R' (f h cs >>= fun r => k r.1 r.2) _
  rw [e]; exact s
theorem SimC.pure {a : γ} {b : δ} (h : R' a cs b) : SimC R' ((pure a : CProg I γ) cs) (.ok b) := h
theorem SimC.fuel : SimC R' ((fuelC : CProg I γ) cs) (.outOfFuel : Res δ) := trivial

/-- A visitor that answers `p`, for the place the iterator it is given stands at, and moves no iterator that exists; it may make new ones and move those. -/
def Polite (f : Han → CProg I Bool) (p : I → Bool) : Prop := ∀ cs h, h < cs.n → ∃ cs', f h cs = .ok (p (cs.pos h), cs') ∧ cs.Keeps cs'

/-- All objects but `x` stand where they stood; there may be new ones. -/
def KeepsBut1 (cs : Cur I) (x : Han) (cs' : Cur I) : Prop := cs.n ≤ cs'.n ∧ ∀ h < cs.n, h ≠ x → cs'.pos h = cs.pos h

theorem KeepsBut1.refl (cs : Cur I) (x : Han) : KeepsBut1 cs x cs := ⟨Nat.le_refl _, fun _ _ _ => rfl⟩
theorem KeepsBut1.of_move {cs cs' : Cur I} {x : Han} {p : I} (h : KeepsBut1 (cs.move x p) x cs') : KeepsBut1 cs x cs' :=
  ⟨h.1, fun y hy hne => (h.2 y hy hne).trans (Cur.move_ne hne)⟩
theorem KeepsBut1.of_keeps {cs cs1 cs' : Cur I} {x : Han} (k : cs.Keeps cs1) (h : KeepsBut1 cs1 x cs') : KeepsBut1 cs x cs' :=
  ⟨Nat.le_trans k.1 h.1, fun y hy hne => (h.2 y (Nat.lt_of_lt_of_le hy k.1) hne).trans (k.2 y hy)⟩
theorem KeepsBut1.of_push {cs cs' : Cur I} {p : I} (h : KeepsBut1 (cs.push p) cs.n cs') : cs.Keeps cs' :=
  ⟨by have := h.1; simp only [Cur.push_n] at this; omega, fun y hy => (h.2 y (by simp only [Cur.push_n]; omega) (by omega)).trans (Cur.push_old hy)⟩

theorem countLoop_sim {iter last : Han} {val : T} (hne : last ≠ iter) : ∀ (f n : Nat) {cs : Cur I} {i j : I}, cs.pos iter = i → cs.pos last = j →
    SimC (fun r cs' r' => r = r' ∧ KeepsBut1 cs iter cs') (countLoop it cmp iter last val f n cs) (Algo.countLoop it cmp j val f i n) := by
  intro f
  induction f with
  | zero => intros; exact .fuel
  | succ f ih =>
    intro n cs i j ei ej
    refine .equal ei ej ?_
    simp only [Algo.countLoop]
    split
    · exact .pure ⟨rfl, .refl _ _⟩
    refine .value ei fun x => .next ei fun p => ?_
    refine (ih _ (by curs) (by curs)).mono ?_
    rintro _ cs' _ ⟨rfl, k⟩
    exact ⟨rfl, k.of_move⟩

theorem countIfLoop_sim {iter last : Han} {f : Han → CProg I Bool} {p : I → Bool} (hf : Polite f p) (hne : last ≠ iter) :
    ∀ (n c : Nat) {cs : Cur I} {i j : I}, iter < cs.n → last < cs.n → cs.pos iter = i → cs.pos last = j →
    SimC (fun r cs' r' => r = r' ∧ KeepsBut1 cs iter cs') (countIfLoop it f iter last n c cs) (Algo.countIfLoop it p j n i c) := by
  intro n
  induction n with
  | zero => intros; exact .fuel
  | succ n ih =>
    intro c cs i j hi hj ei ej
    refine .equal ei ej ?_
    simp only [Algo.countIfLoop]
    split
    · exact .pure ⟨rfl, .refl _ _⟩
    obtain ⟨cs1, e1, k1⟩ := hf cs iter hi
    refine .visit e1 ?_
    have g1 := k1.pos hi
    have g2 := k1.pos hj
    have g3 := k1.1
    rw [ei]
    refine .next (by curs) fun q => ?_
    refine (ih _ (by cn) (by cn) (by curs) (by curs)).mono ?_
    rintro _ cs' _ ⟨rfl, k⟩
    exact ⟨rfl, .of_keeps k1 k.of_move⟩

/-- The result of `Find`: the object `last` itself, when `r` is where it stands; or else `iter`, in front of `last`. -/
def FoundAt (it : ConstIter I T) (cs : Cur I) (iter last : Han) (h : Han) (cs' : Cur I) (r : I) : Prop :=
  KeepsBut1 cs iter cs' ∧ cs'.pos h = r ∧ (h = last ∧ r = cs.pos last ∨ h = iter ∧ it.eq r (cs.pos last) = false)

theorem findLoop_sim {iter last : Han} {val : T} (hne : last ≠ iter) : ∀ (f : Nat) {cs : Cur I} {i j : I}, last < cs.n → cs.pos iter = i → cs.pos last = j →
    SimC (FoundAt it cs iter last) (findLoop it cmp iter last val f cs) (Algo.find it cmp j val f i) := by
  intro f
  induction f with
  | zero => intros; exact .fuel
  | succ f ih =>
    intro cs i j hl ei ej
    refine .equal ei ej ?_
    simp only [Algo.find]
    split
    · exact .pure ⟨.refl _ _, ej, .inl ⟨rfl, ej.symm⟩⟩
    next hneq =>
    refine .value ei fun x => ?_
    split
    · exact .pure ⟨.refl _ _, ei, .inr ⟨rfl, by rw [ej]; simpa using hneq⟩⟩
    refine .next ei fun p => ?_
    refine (ih (by cn) (by curs) (by curs)).mono ?_
    rintro h cs' r ⟨k1, k2, k3⟩
    rw [Cur.move_ne hne] at k3
    exact ⟨k1.of_move, k2, k3⟩

theorem findIfLoop_sim {iter last : Han} {f : Han → CProg I Bool} {p : I → Bool} (hf : Polite f p) (hne : last ≠ iter) :
    ∀ (n : Nat) {cs : Cur I} {i j : I}, iter < cs.n → last < cs.n → cs.pos iter = i → cs.pos last = j →
    SimC (FoundAt it cs iter last) (findIfLoop it f iter last n cs) (Algo.findIf it p j n i) := by
  intro n
  induction n with
  | zero => intros; exact .fuel
  | succ n ih =>
    intro cs i j hi hl ei ej
    refine .equal ei ej ?_
    simp only [Algo.findIf]
    split
    · exact .pure ⟨.refl _ _, ej, .inl ⟨rfl, ej.symm⟩⟩
    next hneq =>
    obtain ⟨cs1, e1, k1⟩ := hf cs iter hi
    refine .visit e1 ?_
    have g1 := k1.pos hi
    have g2 := k1.pos hl
    have g3 := k1.1
    rw [ei]
    split
    · exact .pure ⟨.of_keeps k1 (.refl _ _), by rw [g1, ei], .inr ⟨rfl, by rw [ej]; simpa using hneq⟩⟩
    refine .next (by curs) fun q => ?_
    refine (ih (by cn) (by cn) (by curs) (by curs)).mono ?_
    rintro h cs' r ⟨k2, k3, k4⟩
    rw [Cur.move_ne hne, g2] at k4
    exact ⟨.of_keeps k1 k2.of_move, k3, k4⟩

theorem anyOfLoop_sim {iter last : Han} {f : Han → CProg I Bool} {p : I → Bool} (hf : Polite f p) (hne : last ≠ iter) :
    ∀ (n : Nat) {cs : Cur I} {i j : I}, iter < cs.n → last < cs.n → cs.pos iter = i → cs.pos last = j →
    SimC (fun r cs' r' => r = r' ∧ KeepsBut1 cs iter cs') (anyOfLoop it f iter last n cs) (Algo.anyOf it p j n i) := by
  intro n
  induction n with
  | zero => intros; exact .fuel
  | succ n ih =>
    intro cs i j hi hl ei ej
    refine .equal ei ej ?_
    simp only [Algo.anyOf]
    split
    · exact .pure ⟨rfl, .refl _ _⟩
    obtain ⟨cs1, e1, k1⟩ := hf cs iter hi
    refine .visit e1 ?_
    have g1 := k1.pos hi
    have g2 := k1.pos hl
    have g3 := k1.1
    rw [ei]
    split
    · exact .pure ⟨rfl, .of_keeps k1 (.refl _ _)⟩
    refine .next (by curs) fun q => ?_
    refine (ih (by cn) (by cn) (by curs) (by curs)).mono ?_
    rintro h cs' r ⟨k2, k3⟩
    exact ⟨k2, .of_keeps k1 k3.of_move⟩

theorem allOfLoop_sim {iter last : Han} {f : Han → CProg I Bool} {p : I → Bool} (hf : Polite f p) (hne : last ≠ iter) :
    ∀ (n : Nat) {cs : Cur I} {i j : I}, iter < cs.n → last < cs.n → cs.pos iter = i → cs.pos last = j →
    SimC (fun r cs' r' => r = r' ∧ KeepsBut1 cs iter cs') (allOfLoop it f iter last n cs) (Algo.allOf it p j n i) := by
  intro n
  induction n with
  | zero => intros; exact .fuel
  | succ n ih =>
    intro cs i j hi hl ei ej
    refine .equal ei ej ?_
    simp only [Algo.allOf, Bool.not_eq_true']
    split
    · exact .pure ⟨rfl, .refl _ _⟩
    obtain ⟨cs1, e1, k1⟩ := hf cs iter hi
    refine .visit e1 ?_
    have g1 := k1.pos hi
    have g2 := k1.pos hl
    have g3 := k1.1
    rw [ei]
    split
    · exact .pure ⟨rfl, .of_keeps k1 (.refl _ _)⟩
    refine .next (by curs) fun q => ?_
    refine (ih (by cn) (by cn) (by curs) (by curs)).mono ?_
    rintro h cs' r ⟨k2, k3⟩
    exact ⟨k2, .of_keeps k1 k3.of_move⟩

/-- The result of the loop of `MaxElement` and `MinElement`: `best` itself or a new object. -/
def BestAt (cs : Cur I) (iter best : Han) (h : Han) (cs' : Cur I) (r : I) : Prop :=
  KeepsBut1 cs iter cs' ∧ h < cs'.n ∧ cs'.pos h = r ∧ (h = best ∨ cs.n ≤ h)

theorem extremeLoop_sim {better : Int → Bool} {iter last : Han} (hne : last ≠ iter) : ∀ (f : Nat) {cs : Cur I} {best : Han} {i j b : I}, best ≠ iter → iter < cs.n →
    last < cs.n → best < cs.n → cs.pos iter = i → cs.pos last = j → cs.pos best = b →
    SimC (BestAt cs iter best) (extremeLoop it better cmp iter last f best cs) (Algo.extremeLoop it better cmp j f i b) := by
  intro f
  induction f with
  | zero => intros; exact .fuel
  | succ f ih =>
    intro cs best i j b hbi hi hl hb ei ej eb
    refine .equal ei ej ?_
    simp only [Algo.extremeLoop]
    split
    · exact .pure ⟨.refl _ _, hb, eb, .inl rfl⟩
    refine .value ei fun x => .value eb fun y => ?_
    split
    · refine .clone (.next (i := i) (by curs) fun p => ?_)
      refine (ih (by omega) (by cn) (by cn) (by cn) (by curs) (by curs) (by curs)).mono ?_
      rintro h cs' r ⟨k1, k2, k3, k4⟩
      refine ⟨.of_keeps (.push _ _) k1.of_move, k2, k3, .inr ?_⟩
      simp only [Cur.push_n, Cur.move_n] at k4
      omega
    · refine .next ei fun p => ?_
      refine (ih hbi (by cn) (by cn) (by cn) (by curs) (by curs) (by curs)).mono ?_
      rintro h cs' r ⟨k1, k2, k3, k4⟩
      exact ⟨k1.of_move, k2, k3, k4⟩

end GoSTL.Obj
