import Verif.Vector.Props
import Verif.Array.Props
import Verif.Deque.Props
/-!
# C102: iterators of vectors, arrays and deques while the containers change

A program with any number of containers and any number of iterators that stay around while the containers are changed. An iterator object
is a container and a position; both are recorded, nothing else (ds/vector/iterator.go:13-16, ds/array/iterator.go:13-16,
ds/deque/iterator.go:13-16).
-/
namespace GoSTL.Moving
open GoSTL.Seq

/-- An iterator object: the container it was made for and its position (vector/iterator.go:13-16, array/iterator.go:13-16, deque/iterator.go:13-16). -/
structure It where
  on : Nat
  pos : Int
deriving DecidableEq

/-- The part of a container package the iterators use, on a state `W` holding all containers: all the calls on containers, and the three
calls `Size`, `At` and `Set`/`SetAt` on the container of a number. -/
structure Kit (W C O T : Type) where
  call : C → W → Res (O × W)
  size : W → Nat → Res Int
  get : W → Nat → Int → Res T
  set : W → Nat → Int → T → Res W

/-- The program state: the containers, and the iterators in their order of creation. -/
structure St (W : Type) where
  w : W
  its : List It

/-- What a program does: calls on containers, calls that make iterators, calls on iterators. Containers and iterators are named by the order of
their creation. -/
inductive IOp (C T : Type)
  | call (c : C)
  | begin_ (i : Nat)
  | end_ (i : Nat)
  | first (i : Nat)
  | last (i : Nat)
  | iterAt (i : Nat) (pos : Int)
  | isValid (k : Nat)
  | value (k : Nat)
  | setValue (k : Nat) (val : T)
  | next (k : Nat)
  | prev (k : Nat)
  | clone (k : Nat)
  | iteratorAt (k : Nat) (pos : Int)
  | position (k : Nat)
  | equal (j k : Nat)

/-- What it gets back; `made` is a new iterator, the next in number. -/
inductive IOut (O T : Type)
  | call (o : O)
  | made
  | unit
  | bool (b : Bool)
  | val (x : T)
  | pos (p : Int)
deriving DecidableEq

variable {W C O T : Type}

/-- A new iterator. -/
def St.push (s : St W) (it : It) : St W := { s with its := s.its ++ [it] }

/-- The iterator's position changes. -/
def St.move (s : St W) (k : Nat) (it : It) (pos : Int) : St W := { s with its := s.its.set k { it with pos := pos } }

/-- The iterator object of a number. -/
def St.it (s : St W) (k : Nat) : Res It := Res.ofOption s.its[k]?

/-- One step. A program names only containers and iterators it has made; anything else is a nil dereference here.
The constructors are vector.go:174-197, array.go:82-105, deque.go:400-423 (`Begin`, `End`, `First`, `Last`, `IterAt`); the methods vector/iterator.go:19-78,
array/iterator.go:19-77 and deque/iterator.go:19-77, the same code three times. -/
def istep (K : Kit W C O T) (op : IOp C T) (s : St W) : Res (IOut O T × St W) :=
  match op with
  | .call c => do let (o, w) ← K.call c s.w; .ok (.call o, { s with w := w })
  | .begin_ i => do let _ ← K.size s.w i; .ok (.made, s.push ⟨i, 0⟩)
  | .end_ i => do let n ← K.size s.w i; .ok (.made, s.push ⟨i, n⟩)
  | .first i => do let _ ← K.size s.w i; .ok (.made, s.push ⟨i, 0⟩)
  | .last i => do let n ← K.size s.w i; .ok (.made, s.push ⟨i, n - 1⟩)
  | .iterAt i pos => do let _ ← K.size s.w i; .ok (.made, s.push ⟨i, pos⟩)
  | .isValid k => do
    let it ← s.it k
    let n ← K.size s.w it.on
    .ok (.bool (if it.pos ≥ 0 ∧ it.pos < n then true else false), s)
  | .value k => do
    let it ← s.it k
    let x ← K.get s.w it.on it.pos
    .ok (.val x, s)
  | .setValue k val => do
    let it ← s.it k
    let w ← K.set s.w it.on it.pos val
    .ok (.unit, { s with w := w })
  | .next k => do
    let it ← s.it k
    let n ← K.size s.w it.on
    .ok (.unit, if it.pos < n then s.move k it (it.pos + 1) else s)
  | .prev k => do
    let it ← s.it k
    .ok (.unit, if it.pos ≥ 0 then s.move k it (it.pos - 1) else s)
  | .clone k => do let it ← s.it k; .ok (.made, s.push ⟨it.on, it.pos⟩)
  | .iteratorAt k pos => do let it ← s.it k; .ok (.made, s.push ⟨it.on, pos⟩)
  | .position k => do let it ← s.it k; .ok (.pos it.pos, s)
  | .equal j k => do
    let a ← s.it j
    let b ← s.it k
    .ok (.bool (if b.on = a.on ∧ b.pos = a.pos then true else false), s)

/-- A program: any sequence of steps. -/
def irun (K : Kit W C O T) : List (IOp C T) → St W → Res (List (IOut O T) × St W)
  | [], s => .ok ([], s)
  | op :: ops, s => do
    let (o, s) ← istep K op s
    let (os, s) ← irun K ops s
    .ok (o :: os, s)

/-! ## Specification -/

/-- One step on plain sequences, `call` being what a call does to them. An iterator is a number: it stands at that position of its sequence, whatever the
sequence has become since. -/
def ispec (call : C → List (List T) → Res (O × List (List T))) (op : IOp C T) (s : St (List (List T))) : Res (IOut O T × St (List (List T))) :=
  match op with
  | .call c => do let (o, ls) ← call c s.w; .ok (.call o, ⟨ls, s.its⟩)
  | .begin_ i => do let _ ← Res.ofOption s.w[i]?; .ok (.made, ⟨s.w, s.its ++ [⟨i, 0⟩]⟩)
  | .end_ i => do let l ← Res.ofOption s.w[i]?; .ok (.made, ⟨s.w, s.its ++ [⟨i, l.length⟩]⟩)
  | .first i => do let _ ← Res.ofOption s.w[i]?; .ok (.made, ⟨s.w, s.its ++ [⟨i, 0⟩]⟩)
  | .last i => do let l ← Res.ofOption s.w[i]?; .ok (.made, ⟨s.w, s.its ++ [⟨i, l.length - 1⟩]⟩)
  | .iterAt i pos => do let _ ← Res.ofOption s.w[i]?; .ok (.made, ⟨s.w, s.its ++ [⟨i, pos⟩]⟩)
  | .isValid k => do
    let it ← Res.ofOption s.its[k]?
    let l ← Res.ofOption s.w[it.on]?
    .ok (.bool (at? l it.pos).isSome, s)
  | .value k => do
    let it ← Res.ofOption s.its[k]?
    let l ← Res.ofOption s.w[it.on]?
    let x ← Res.ofOption (at? l it.pos)
    .ok (.val x, s)
  | .setValue k val => do
    let it ← Res.ofOption s.its[k]?
    let l ← Res.ofOption s.w[it.on]?
    .ok (.unit, ⟨s.w.set it.on (setAt l it.pos val), s.its⟩)
  | .next k => do
    let it ← Res.ofOption s.its[k]?
    let l ← Res.ofOption s.w[it.on]?
    .ok (.unit, ⟨s.w, s.its.set k ⟨it.on, max it.pos (min (it.pos + 1) l.length)⟩⟩)
  | .prev k => do
    let it ← Res.ofOption s.its[k]?
    .ok (.unit, ⟨s.w, s.its.set k ⟨it.on, min it.pos (max (it.pos - 1) (-1))⟩⟩)
  | .clone k => do let it ← Res.ofOption s.its[k]?; .ok (.made, ⟨s.w, s.its ++ [it]⟩)
  | .iteratorAt k pos => do let it ← Res.ofOption s.its[k]?; .ok (.made, ⟨s.w, s.its ++ [⟨it.on, pos⟩]⟩)
  | .position k => do let it ← Res.ofOption s.its[k]?; .ok (.pos it.pos, s)
  | .equal j k => do
    let a ← Res.ofOption s.its[j]?
    let b ← Res.ofOption s.its[k]?
    .ok (.bool (decide (a = b)), s)

/-- A program on plain sequences. -/
def ispecRun (call : C → List (List T) → Res (O × List (List T))) : List (IOp C T) → St (List (List T)) → Res (List (IOut O T) × St (List (List T)))
  | [], s => .ok ([], s)
  | op :: ops, s => do
    let (o, s) ← ispec call op s
    let (os, s) ← ispecRun call ops s
    .ok (o :: os, s)

/-! ## Proof -/

/-- A state holding containers shows the sequences `ls`. -/
def Rel {A : Type} (Rep : W → List (List T) → Prop) (r : Res (A × W)) (q : Res (A × List (List T))) : Prop :=
  match q with
  | .ok (o, ls) => ∃ w, r = .ok (o, w) ∧ Rep w ls
  | .panic => r = .panic
  | .outOfFuel => False

/-- The containers behave as plain sequences. -/
structure Good (K : Kit W C O T) (call : C → List (List T) → Res (O × List (List T))) (Rep : W → List (List T) → Prop) : Prop where
  call : ∀ c w ls, Rep w ls → Rel Rep (K.call c w) (call c ls)
  size : ∀ w ls i, Rep w ls → K.size w i = (do let l ← Res.ofOption ls[i]?; .ok (l.length : Int))
  get : ∀ w ls i p, Rep w ls → K.get w i p = (do let l ← Res.ofOption ls[i]?; Res.ofOption (at? l p))
  set : ∀ w ls i p v, Rep w ls → match ls[i]? with
    | some l => ∃ w', K.set w i p v = .ok w' ∧ Rep w' (ls.set i (setAt l p v))
    | none => K.set w i p v = .panic

/-- The states agree: same iterators, and the containers show the sequences. -/
def Sim (Rep : W → List (List T) → Prop) (s : St W) (q : St (List (List T))) : Prop := Rep s.w q.w ∧ s.its = q.its

/-- Same result, and the states reached agree. -/
def SimRes {A : Type} (Rep : W → List (List T) → Prop) (r : Res (A × St W)) (q : Res (A × St (List (List T)))) : Prop :=
  match q with
  | .ok (o, q') => ∃ s', r = .ok (o, s') ∧ Sim Rep s' q'
  | .panic => r = .panic
  | .outOfFuel => False

variable {K : Kit W C O T} {call : C → List (List T) → Res (O × List (List T))} {Rep : W → List (List T) → Prop}

theorem set_same {α : Type} {l : List α} {k : Nat} {a : α} (h : l[k]? = some a) : l.set k a = l := by
  apply List.ext_getElem?
  intro j
  rw [List.getElem?_set]
  split
  · next c =>
    subst c
    rw [h]
    have := (List.getElem?_eq_some_iff.1 h).1
    simp [this]
  · rfl

theorem at?_some_iff {l : List T} {p : Int} : (at? l p).isSome = true ↔ p ≥ 0 ∧ p < l.length := by
  unfold at?
  by_cases c : 0 ≤ p
  · rw [if_pos c]
    rcases Nat.lt_or_ge p.toNat l.length with h | h
    · rw [List.getElem?_eq_getElem h]; simp; omega
    · rw [List.getElem?_eq_none h]; simp; omega
  · rw [if_neg c]
    simp; omega

theorem istep_spec (g : Good K call Rep) {s : St W} {q : St (List (List T))} (h : Sim Rep s q) (op : IOp C T) :
    SimRes Rep (istep K op s) (ispec call op q) := by
  obtain ⟨hr, hi⟩ := h
  obtain ⟨w, its⟩ := s
  obtain ⟨ls, its'⟩ := q
  simp only at hi hr
  subst hi
  cases op with
  | call c =>
    have := g.call c w ls hr
    simp only [istep, ispec]
    revert this
    cases call c ls with
    | ok r =>
      rintro ⟨w', e, hr'⟩
      exact ⟨⟨w', its⟩, by simp only [e, Res.ok_bind], hr', rfl⟩
    | panic => intro e; simp only [Rel] at e; simp only [e]; rfl
    | outOfFuel => intro e; exact e.elim
  | begin_ i =>
    simp only [istep, ispec, g.size w ls i hr]
    cases ls[i]? with
    | none => rfl
    | some l => exact ⟨_, rfl, hr, rfl⟩
  | end_ i =>
    simp only [istep, ispec, g.size w ls i hr]
    cases ls[i]? with
    | none => rfl
    | some l => exact ⟨_, rfl, hr, rfl⟩
  | first i =>
    simp only [istep, ispec, g.size w ls i hr]
    cases ls[i]? with
    | none => rfl
    | some l => exact ⟨_, rfl, hr, rfl⟩
  | last i =>
    simp only [istep, ispec, g.size w ls i hr]
    cases ls[i]? with
    | none => rfl
    | some l => exact ⟨_, rfl, hr, rfl⟩
  | iterAt i pos =>
    simp only [istep, ispec, g.size w ls i hr]
    cases ls[i]? with
    | none => rfl
    | some l => exact ⟨_, rfl, hr, rfl⟩
  | isValid k =>
    simp only [istep, ispec, St.it]
    cases its[k]? with
    | none => rfl
    | some it =>
      simp only [Res.ofOption_some, Res.ok_bind, g.size w ls it.on hr]
      cases ls[it.on]? with
      | none => rfl
      | some l =>
        refine ⟨⟨w, its⟩, ?_, hr, rfl⟩
        simp only [Res.ofOption_some, Res.ok_bind]
        have := at?_some_iff (l := l) (p := it.pos)
        by_cases c : it.pos ≥ 0 ∧ it.pos < l.length
        · rw [if_pos c, this.2 c]
        · rw [if_neg c, Bool.eq_false_iff.2 (fun x => c (this.1 x))]
  | value k =>
    simp only [istep, ispec, St.it]
    cases its[k]? with
    | none => rfl
    | some it =>
      simp only [Res.ofOption_some, Res.ok_bind, g.get w ls it.on it.pos hr]
      cases ls[it.on]? with
      | none => rfl
      | some l =>
        simp only [Res.ofOption_some, Res.ok_bind]
        cases at? l it.pos with
        | none => rfl
        | some x => exact ⟨_, rfl, hr, rfl⟩
  | setValue k v =>
    simp only [istep, ispec, St.it]
    cases its[k]? with
    | none => rfl
    | some it =>
      simp only [Res.ofOption_some, Res.ok_bind]
      have := g.set w ls it.on it.pos v hr
      revert this
      cases ls[it.on]? with
      | none => intro e; simp only [e]; rfl
      | some l =>
        rintro ⟨w', e, hr'⟩
        exact ⟨⟨w', its⟩, by simp only [e, Res.ok_bind], hr', rfl⟩
  | next k =>
    simp only [istep, ispec, St.it]
    cases hk : its[k]? with
    | none => rfl
    | some it =>
      simp only [Res.ofOption_some, Res.ok_bind, g.size w ls it.on hr]
      cases ls[it.on]? with
      | none => rfl
      | some l =>
        refine ⟨_, rfl, ?_⟩
        show Sim Rep (if it.pos < (l.length : Int) then _ else _) _
        by_cases c : it.pos < (l.length : Int)
        · rw [if_pos c]
          refine ⟨hr, ?_⟩
          simp only [St.move]
          rw [show max it.pos (min (it.pos + 1) (l.length : Int)) = it.pos + 1 by omega]
        · rw [if_neg c]
          refine ⟨hr, ?_⟩
          rw [show max it.pos (min (it.pos + 1) (l.length : Int)) = it.pos by omega]
          exact (set_same hk).symm
  | prev k =>
    simp only [istep, ispec, St.it]
    cases hk : its[k]? with
    | none => rfl
    | some it =>
      refine ⟨_, rfl, ?_⟩
      show Sim Rep (if it.pos ≥ 0 then _ else _) _
      by_cases c : it.pos ≥ 0
      · rw [if_pos c]
        refine ⟨hr, ?_⟩
        simp only [St.move]
        rw [show min it.pos (max (it.pos - 1) (-1)) = it.pos - 1 by omega]
      · rw [if_neg c]
        refine ⟨hr, ?_⟩
        rw [show min it.pos (max (it.pos - 1) (-1)) = it.pos by omega]
        exact (set_same hk).symm
  | clone k =>
    simp only [istep, ispec, St.it]
    cases its[k]? with
    | none => rfl
    | some it => exact ⟨_, rfl, hr, rfl⟩
  | iteratorAt k pos =>
    simp only [istep, ispec, St.it]
    cases its[k]? with
    | none => rfl
    | some it => exact ⟨_, rfl, hr, rfl⟩
  | position k =>
    simp only [istep, ispec, St.it]
    cases its[k]? with
    | none => rfl
    | some it => exact ⟨_, rfl, hr, rfl⟩
  | equal j k =>
    simp only [istep, ispec, St.it]
    cases its[j]? with
    | none => rfl
    | some a =>
      simp only [Res.ofOption_some, Res.ok_bind]
      cases its[k]? with
      | none => rfl
      | some b =>
        refine ⟨⟨w, its⟩, ?_, hr, rfl⟩
        simp only [Res.ofOption_some, Res.ok_bind]
        by_cases c : b.on = a.on ∧ b.pos = a.pos
        · have : a = b := by cases a; cases b; simp only at c; simp [c]
          rw [if_pos c, decide_eq_true this]
        · have : a ≠ b := by rintro rfl; exact c ⟨rfl, rfl⟩
          rw [if_neg c, decide_eq_false this]

theorem irun_spec (g : Good K call Rep) (ops : List (IOp C T)) : ∀ {s : St W} {q : St (List (List T))}, Sim Rep s q →
    SimRes Rep (irun K ops s) (ispecRun call ops q) := by
  induction ops with
  | nil => intro s q h; exact ⟨s, rfl, h⟩
  | cons op ops ih =>
    intro s q h
    have h1 := istep_spec g h op
    simp only [irun, ispecRun]
    revert h1
    cases ispec call op q with
    | panic => intro e; simp only [SimRes] at e; simp only [e]; rfl
    | outOfFuel => intro e; exact e.elim
    | ok r =>
      rintro ⟨s1, e, h1⟩
      have h2 := ih h1
      simp only [e, Res.ok_bind]
      revert h2
      cases ispecRun call ops r.2 with
      | panic => intro e; simp only [SimRes] at e; simp only [e]; rfl
      | outOfFuel => intro e; exact e.elim
      | ok r2 =>
        rintro ⟨s2, e2, h2⟩
        exact ⟨s2, by simp only [e2, Res.ok_bind], h2⟩

/-! ## Vectors -/

/-- Vectors: `At` and `SetAt` (vector.go:72-77, 112-117, 49-51). -/
def vecKit (zero : T) : Kit (Vector.World T) (Vector.Call T) (Vector.Out T) T where
  call := Vector.wstep zero
  size w i := do let s ← Res.ofOption w.vecs[i]?; .ok (Vector.size s)
  get w i p := do let s ← Res.ofOption w.vecs[i]?; Vector.at_ w.mem s p
  set w i p v := do let s ← Res.ofOption w.vecs[i]?; let m ← Vector.setAt w.mem s p v; .ok { w with mem := m }

/-- The vectors show the sequences. -/
def vecRep (w : Vector.World T) (ls : List (List T)) : Prop := Vector.WInv w ∧ Vector.shows w = ls

theorem setAt_eq (l : List T) (p : Int) (v : T) : setAt l p v = if 0 ≤ p ∧ p < l.length then l.set p.toNat v else l := by
  unfold setAt
  by_cases c : 0 ≤ p
  · by_cases c1 : p < l.length
    · rw [if_pos c, if_pos ⟨c, c1⟩]
    · rw [if_pos c, if_neg (by omega), List.set_eq_of_length_le (by omega)]
  · rw [if_neg c, if_neg (by omega)]

theorem vecGood (zero : T) : Good (vecKit zero) Vector.specCall vecRep where
  call := by
    rintro c w ls ⟨h, rfl⟩
    have := Vector.wstep_refines (zero := zero) h c
    simp only [Rel]
    revert this
    rcases Vector.specCall c (Vector.shows w) with ⟨o, ls⟩ | _ | _
    · rintro ⟨w', e, h1, h2⟩; exact ⟨w', e, h1, h2⟩
    · exact id
    · exact id
  size := by
    rintro w ls i ⟨h, rfl⟩
    simp only [vecKit, Vector.shows_get]
    cases hi : w.vecs[i]? with
    | none => rfl
    | some s => simp [(h.wf i s hi).contents_length, Vector.size]
  get := by
    rintro w ls i p ⟨h, rfl⟩
    simp only [vecKit, Vector.shows_get]
    cases hi : w.vecs[i]? with
    | none => rfl
    | some s => simp only [Option.map_some, Res.ofOption_some, Res.ok_bind]; exact Vector.at_spec (h.wf i s hi) p
  set := by
    rintro w ls i p v ⟨h, rfl⟩
    have hr := Vector.wstep_refines (zero := zero) h (.on i (.setAt p v))
    simp only [vecKit, Vector.shows_get, Vector.specCall, Vector.specStep, Vector.wstep, Vector.step] at hr ⊢
    cases hi : w.vecs[i]? with
    | none => rfl
    | some s =>
      simp only [hi, Option.map_some, Res.ofOption_some, Res.ok_bind] at hr ⊢
      obtain ⟨w', e, h1, h2⟩ := hr
      refine ⟨w', ?_, h1, by rw [h2, setAt_eq]⟩
      cases em : Vector.setAt w.mem s p v with
      | ok m =>
        rw [em] at e
        simp only [Res.ok_bind, Res.ok.injEq, Prod.mk.injEq, true_and] at e
        rw [set_same hi] at e
        simp only [Res.ok_bind, ← e]
      | panic => rw [em] at e; simp at e
      | outOfFuel => rw [em] at e; simp at e

/-- A program with vectors: the steps above, and the three calls on a vector that take iterators and return one. -/
inductive VOp (T : Type)
  | it (op : IOp (Vector.Call T) T)
  | insert (i k : Nat) (val : T) (extra : Nat)
  | erase (i k : Nat) (extra : Nat)
  | eraseRange (i j k : Nat) (extra : Nat)

/-- vector.go:200-219 `Insert`, `Erase`, `EraseRange`: they take the position out of the iterators, whichever vector these were made for. -/
def vstep (zero : T) (op : VOp T) (s : St (Vector.World T)) : Res (IOut (Vector.Out T) T × St (Vector.World T)) :=
  match op with
  | .it op => istep (vecKit zero) op s
  | .insert i k val extra => do
    let iter ← s.it k
    let index := iter.pos
    let (_, w) ← Vector.wstep zero (.on i (.insertAt index val extra)) s.w
    .ok (.made, St.push ⟨w, s.its⟩ ⟨i, index⟩)
  | .erase i k extra => do
    let iter ← s.it k
    let index := iter.pos
    let (_, w) ← Vector.wstep zero (.on i (.eraseAt index extra)) s.w
    .ok (.made, St.push ⟨w, s.its⟩ ⟨i, index⟩)
  | .eraseRange i j k extra => do
    let first ← s.it j
    let last ← s.it k
    let (_, w) ← Vector.wstep zero (.on i (.eraseIndexRange first.pos last.pos extra)) s.w
    .ok (.made, St.push ⟨w, s.its⟩ ⟨i, first.pos⟩)

/-- A program of these steps. -/
def vrun (zero : T) : List (VOp T) → St (Vector.World T) → Res (List (IOut (Vector.Out T) T) × St (Vector.World T))
  | [], s => .ok ([], s)
  | op :: ops, s => do
    let (o, s) ← vstep zero op s
    let (os, s) ← vrun zero ops s
    .ok (o :: os, s)

/-- The same on plain sequences. -/
def vspec (op : VOp T) (s : St (List (List T))) : Res (IOut (Vector.Out T) T × St (List (List T))) :=
  match op with
  | .it op => ispec Vector.specCall op s
  | .insert i k val _ => do
    let it ← Res.ofOption s.its[k]?
    let l ← Res.ofOption s.w[i]?
    .ok (.made, ⟨s.w.set i (Vector.ins l it.pos val), s.its ++ [⟨i, it.pos⟩]⟩)
  | .erase i k _ => do
    let it ← Res.ofOption s.its[k]?
    let l ← Res.ofOption s.w[i]?
    .ok (.made, ⟨s.w.set i (Vector.del l it.pos (it.pos + 1)), s.its ++ [⟨i, it.pos⟩]⟩)
  | .eraseRange i j k _ => do
    let a ← Res.ofOption s.its[j]?
    let b ← Res.ofOption s.its[k]?
    let l ← Res.ofOption s.w[i]?
    .ok (.made, ⟨s.w.set i (Vector.del l a.pos b.pos), s.its ++ [⟨i, a.pos⟩]⟩)

/-- A program of these steps, on plain sequences. -/
def vspecRun : List (VOp T) → St (List (List T)) → Res (List (IOut (Vector.Out T) T) × St (List (List T)))
  | [], s => .ok ([], s)
  | op :: ops, s => do
    let (o, s) ← vspec op s
    let (os, s) ← vspecRun ops s
    .ok (o :: os, s)

theorem vcall {zero : T} {w : Vector.World T} {i : Nat} {op : Vector.Op T} {o : Vector.Out T} {ls : List (List T)} {f : List T → List T} (h : vecRep w ls)
    (e : ∀ l, Vector.specStep op l = .ok (o, f l)) : match ls[i]? with
    | some l => ∃ w', Vector.wstep zero (.on i op) w = .ok (o, w') ∧ vecRep w' (ls.set i (f l))
    | none => Vector.wstep zero (.on i op) w = .panic := by
  obtain ⟨h, rfl⟩ := h
  have hr := Vector.wstep_refines (zero := zero) h (.on i op)
  simp only [Vector.specCall] at hr
  revert hr
  cases (Vector.shows w)[i]? with
  | none => exact id
  | some l =>
    simp only [e, Res.ok_bind]
    rintro ⟨w', e, h1, h2⟩
    exact ⟨w', e, h1, h2⟩

theorem vstep_spec {zero : T} {s : St (Vector.World T)} {q : St (List (List T))} (h : Sim vecRep s q) (op : VOp T) :
    SimRes vecRep (vstep zero op s) (vspec op q) := by
  cases op with
  | it op => exact istep_spec (vecGood zero) h op
  | insert i k v e =>
    obtain ⟨w, its⟩ := s
    obtain ⟨ls, its'⟩ := q
    obtain ⟨hr, hi⟩ := h
    simp only at hi hr
    subst hi
    simp only [vstep, vspec, St.it]
    cases its[k]? with
    | none => rfl
    | some it =>
      simp only [Res.ofOption_some, Res.ok_bind]
      have := vcall (zero := zero) (i := i) (op := .insertAt it.pos v e) (o := .unit) (f := fun l => Vector.ins l it.pos v) hr (fun _ => rfl)
      revert this
      cases ls[i]? with
      | none => intro e; simp only [e]; rfl
      | some l => rintro ⟨w', e, h'⟩; exact ⟨⟨w', its ++ [⟨i, it.pos⟩]⟩, by simp only [e, Res.ok_bind]; rfl, h', rfl⟩
  | erase i k e =>
    obtain ⟨w, its⟩ := s
    obtain ⟨ls, its'⟩ := q
    obtain ⟨hr, hi⟩ := h
    simp only at hi hr
    subst hi
    simp only [vstep, vspec, St.it]
    cases its[k]? with
    | none => rfl
    | some it =>
      simp only [Res.ofOption_some, Res.ok_bind]
      have := vcall (zero := zero) (i := i) (op := .eraseAt it.pos e) (o := .unit) (f := fun l => Vector.del l it.pos (it.pos + 1)) hr (fun _ => rfl)
      revert this
      cases ls[i]? with
      | none => intro e; simp only [e]; rfl
      | some l => rintro ⟨w', e, h'⟩; exact ⟨⟨w', its ++ [⟨i, it.pos⟩]⟩, by simp only [e, Res.ok_bind]; rfl, h', rfl⟩
  | eraseRange i j k e =>
    obtain ⟨w, its⟩ := s
    obtain ⟨ls, its'⟩ := q
    obtain ⟨hr, hi⟩ := h
    simp only at hi hr
    subst hi
    simp only [vstep, vspec, St.it]
    cases its[j]? with
    | none => rfl
    | some a =>
      simp only [Res.ofOption_some, Res.ok_bind]
      cases its[k]? with
      | none => rfl
      | some b =>
      simp only [Res.ofOption_some, Res.ok_bind]
      have := vcall (zero := zero) (i := i) (op := .eraseIndexRange a.pos b.pos e) (o := .unit) (f := fun l => Vector.del l a.pos b.pos) hr (fun _ => rfl)
      revert this
      cases ls[i]? with
      | none => intro e; simp only [e]; rfl
      | some l => rintro ⟨w', e, h'⟩; exact ⟨⟨w', its ++ [⟨i, a.pos⟩]⟩, by simp only [e, Res.ok_bind]; rfl, h', rfl⟩

theorem vrun_spec {zero : T} (ops : List (VOp T)) : ∀ {s : St (Vector.World T)} {q : St (List (List T))}, Sim vecRep s q →
    SimRes vecRep (vrun zero ops s) (vspecRun ops q) := by
  induction ops with
  | nil => intro s q h; exact ⟨s, rfl, h⟩
  | cons op ops ih =>
    intro s q h
    have h1 := vstep_spec (zero := zero) h op
    simp only [vrun, vspecRun]
    revert h1
    cases vspec op q with
    | panic => intro e; simp only [SimRes] at e; simp only [e]; rfl
    | outOfFuel => intro e; exact e.elim
    | ok r =>
      rintro ⟨s1, e, h1⟩
      have h2 := ih h1
      simp only [e, Res.ok_bind]
      revert h2
      cases vspecRun ops r.2 with
      | panic => intro e; simp only [SimRes] at e; simp only [e]; rfl
      | outOfFuel => intro e; exact e.elim
      | ok r2 =>
        rintro ⟨s2, e2, h2⟩
        exact ⟨s2, by simp only [e2, Res.ok_bind], h2⟩

/-- **C102** Vectors: for every program that changes any number of vectors while any number of iterators are around, everything the program sees is what it
would see if the vectors were plain sequences and the iterators positions in them. Growing, reallocating and shrinking a vector never leaves an iterator with
stale elements, `SetValue` writes the current vector, and a step panics exactly if the specification says so. -/
theorem C102_vector (zero : T) (ops : List (VOp T)) :
    match vspecRun ops ⟨[], []⟩ with
    | .ok (os, q) => ∃ s, vrun zero ops ⟨Vector.start, []⟩ = .ok (os, s) ∧ Vector.shows s.w = q.w ∧ s.its = q.its
    | .panic => vrun zero ops ⟨Vector.start, []⟩ = .panic
    | .outOfFuel => False := by
  have h := vrun_spec (zero := zero) ops (s := ⟨Vector.start, []⟩) (q := ⟨[], []⟩) ⟨⟨Vector.start_inv, rfl⟩, rfl⟩
  revert h
  cases vspecRun ops ⟨[], []⟩ with
  | ok r => rintro ⟨s, e, ⟨_, h⟩, hi⟩; exact ⟨s, e, h, hi⟩
  | panic => exact id
  | outOfFuel => exact id

/-! ## Arrays -/

/-- Arrays: `Set`, `At`, `Size` (array.go:34-47, 60-62). -/
def arrKit (zero : T) : Kit (Arr.World T) (Arr.Call T) (Arr.Out T) T where
  call := Arr.step zero
  size w i := do let s ← Arr.hdr w i; .ok (Arr.size s)
  get w i p := do let s ← Arr.hdr w i; Arr.at_ w.mem s p
  set w i p v := do let s ← Arr.hdr w i; let m ← Arr.set w.mem s p v; .ok { w with mem := m }

/-- The arrays show the sequences. -/
def arrRep (w : Arr.World T) (ls : List (List T)) : Prop := Arr.Inv w ∧ Arr.shows w = ls

theorem arrGood (zero : T) : Good (arrKit zero) (Arr.specStep zero) arrRep where
  call := by
    rintro c w ls ⟨h, rfl⟩
    have := Arr.step_refines (zero := zero) h c
    simp only [Rel]
    revert this
    simp only [Arr.Refines]
    rcases Arr.specStep zero c (Arr.shows w) with ⟨o, ls⟩ | _ | _
    · rintro ⟨w', e, h1, h2⟩; exact ⟨w', e, h1, h2⟩
    · exact id
    · exact id
  size := by
    rintro w ls i ⟨h, rfl⟩
    simp only [arrKit, Arr.shows_get, Arr.hdr]
    cases hi : w.arrs[i]? with
    | none => rfl
    | some s => simp [(h.wf i s hi).contents_length, Arr.size]
  get := by
    rintro w ls i p ⟨h, rfl⟩
    simp only [arrKit, Arr.shows_get, Arr.hdr]
    cases hi : w.arrs[i]? with
    | none => rfl
    | some s => simp only [Option.map_some, Res.ofOption_some, Res.ok_bind]; exact Arr.at_spec (h.wf i s hi) p
  set := by
    rintro w ls i p v ⟨h, rfl⟩
    simp only [arrKit, Arr.shows_get, Arr.hdr]
    cases hi : w.arrs[i]? with
    | none => rfl
    | some s =>
      obtain ⟨m', e, d⟩ := Arr.set_spec (h.wf i s hi) p v
      obtain ⟨h1, h2⟩ := Arr.mem_update h hi d
      exact ⟨_, by simp only [Res.ofOption_some, Res.ok_bind, e], h1, by rw [h2, setAt_eq]⟩

/-- **C102** Arrays, in the same way: after `SwapArray` an iterator shows what has come into its array. -/
theorem C102_array (zero : T) (ops : List (IOp (Arr.Call T) T)) :
    match ispecRun (Arr.specStep zero) ops ⟨[], []⟩ with
    | .ok (os, q) => ∃ s, irun (arrKit zero) ops ⟨Arr.start, []⟩ = .ok (os, s) ∧ Arr.shows s.w = q.w ∧ s.its = q.its
    | .panic => irun (arrKit zero) ops ⟨Arr.start, []⟩ = .panic
    | .outOfFuel => False := by
  have h := irun_spec (arrGood zero) ops (s := ⟨Arr.start, []⟩) (q := ⟨[], []⟩) ⟨⟨Arr.start_inv, rfl⟩, rfl⟩
  revert h
  cases ispecRun (Arr.specStep zero) ops ⟨[], []⟩ with
  | ok r => rintro ⟨s, e, ⟨_, h⟩, hi⟩; exact ⟨s, e, h, hi⟩
  | panic => exact id
  | outOfFuel => exact id

/-! ## Deques -/

/-- Calls on several deques. -/
inductive DCall (T : Type)
  | new
  | on (i : Nat) (op : Deque.Op T)

/-- One call (deque.go:28-34 `New`, deque.go:37-276 the methods). -/
def dcall (cfg : Deque.Cfg T) (c : DCall T) (ds : List (Deque.Deq T)) : Res (Deque.Out T × List (Deque.Deq T)) :=
  match c with
  | .new => .ok (.unit, ds ++ [Deque.new])
  | .on i op => do
    let d ← Res.ofOption ds[i]?
    let (o, d) ← Deque.step cfg op d
    .ok (o, ds.set i d)

/-- The same on plain sequences. -/
def dspec (c : DCall T) (ls : List (List T)) : Res (Deque.Out T × List (List T)) :=
  match c with
  | .new => .ok (.unit, ls ++ [[]])
  | .on i op => do
    let l ← Res.ofOption ls[i]?
    let (o, l) ← Deque.specStep op l
    .ok (o, ls.set i l)

/-- Deques: `Set`, `At`, `Size`. -/
def deqKit (cfg : Deque.Cfg T) : Kit (List (Deque.Deq T)) (DCall T) (Deque.Out T) T where
  call := dcall cfg
  size ds i := do let d ← Res.ofOption ds[i]?; .ok (Deque.size d)
  get ds i p := do let d ← Res.ofOption ds[i]?; Deque.at_ cfg d p
  set ds i p v := do let d ← Res.ofOption ds[i]?; let (_, d) ← Deque.set cfg d p v; .ok (ds.set i d)

/-- The deques hold the sequences. -/
def deqRep (cfg : Deque.Cfg T) (ds : List (Deque.Deq T)) (ls : List (List T)) : Prop := List.Forall₂ (Deque.Inv cfg) ds ls

theorem deqRep.get {cfg : Deque.Cfg T} {ds : List (Deque.Deq T)} {ls : List (List T)} (h : deqRep cfg ds ls) (i : Nat) :
    (ds[i]? = none ∧ ls[i]? = none) ∨ ∃ d l, ds[i]? = some d ∧ ls[i]? = some l ∧ Deque.Inv cfg d l := by
  induction h generalizing i with
  | nil => exact .inl ⟨rfl, rfl⟩
  | cons h1 h2 ih =>
    cases i with
    | zero => exact .inr ⟨_, _, rfl, rfl, h1⟩
    | succ i => simpa using ih i

theorem deqRep.set {cfg : Deque.Cfg T} {ds : List (Deque.Deq T)} {ls : List (List T)} (h : deqRep cfg ds ls) (i : Nat) {d : Deque.Deq T} {l : List T}
    (hd : Deque.Inv cfg d l) : deqRep cfg (ds.set i d) (ls.set i l) := by
  induction h generalizing i with
  | nil => exact .nil
  | cons h1 h2 ih =>
    cases i with
    | zero => exact .cons hd h2
    | succ i => exact .cons h1 (ih i)

theorem deqRep.push {cfg : Deque.Cfg T} {ds : List (Deque.Deq T)} {ls : List (List T)} (h : deqRep cfg ds ls) {d : Deque.Deq T} {l : List T}
    (hd : Deque.Inv cfg d l) : deqRep cfg (ds ++ [d]) (ls ++ [l]) := by
  induction h with
  | nil => exact .cons hd .nil
  | cons h1 h2 ih => exact .cons h1 ih

theorem deqGood {cfg : Deque.Cfg T} (hg : cfg.Good) : Good (deqKit cfg) dspec (deqRep cfg) where
  call := by
    intro c ds ls h
    cases c with
    | new => exact ⟨_, rfl, h.push Deque.new_inv⟩
    | on i op =>
      simp only [deqKit, dcall, dspec]
      rcases h.get i with ⟨e1, e2⟩ | ⟨d, l, e1, e2, hd⟩
      · simp only [e1, e2]; rfl
      · simp only [e1, e2, Res.ofOption_some, Res.ok_bind]
        have := Deque.step_refines hg hd op
        revert this
        simp only [Deque.Refines]
        rcases Deque.specStep op l with ⟨o, l'⟩ | _ | _
        · rintro ⟨d', e, h'⟩; exact ⟨_, by simp only [e, Res.ok_bind], h.set i h'⟩
        · intro e; simp only [e]; rfl
        · exact False.elim
  size := by
    intro ds ls i h
    simp only [deqKit]
    rcases h.get i with ⟨e1, e2⟩ | ⟨d, l, e1, e2, hd⟩
    · simp only [e1, e2]; rfl
    · have : Deque.size d = (l.length : Int) := hd.size
      simp only [e1, e2, Res.ofOption_some, Res.ok_bind, this]
  get := by
    intro ds ls i p h
    simp only [deqKit]
    rcases h.get i with ⟨e1, e2⟩ | ⟨d, l, e1, e2, hd⟩
    · simp only [e1, e2]; rfl
    · simp only [e1, e2, Res.ofOption_some, Res.ok_bind]; exact Deque.at_spec hg hd p
  set := by
    intro ds ls i p v h
    simp only [deqKit]
    rcases h.get i with ⟨e1, e2⟩ | ⟨d, l, e1, e2, hd⟩
    · simp only [e1, e2]; rfl
    · obtain ⟨d', e, h'⟩ := Deque.set_spec hg hd p v
      simp only [e1, e2, Res.ofOption_some, Res.ok_bind, e]
      refine ⟨_, rfl, ?_⟩
      have := h.set i h'
      convert this using 2
      rw [setAt_eq]
      by_cases c : 0 ≤ p ∧ p < (l.length : Int)
      · rw [if_pos c, if_neg (by omega)]
      · rw [if_neg c, if_pos (by omega)]

/-- **C102** Deques, in the same way: an iterator stands at a position counted from the current front, whatever segments have come and gone. -/
theorem C102_deque {cfg : Deque.Cfg T} (hg : cfg.Good) (ops : List (IOp (DCall T) T)) :
    match ispecRun dspec ops ⟨[], []⟩ with
    | .ok (os, q) => ∃ s, irun (deqKit cfg) ops ⟨[], []⟩ = .ok (os, s) ∧ List.Forall₂ (fun d l => Deque.size d = (l.length : Int) ∧
        ∀ p, Deque.at_ cfg d p = Res.ofOption (at? l p)) s.w q.w ∧ s.its = q.its
    | .panic => irun (deqKit cfg) ops ⟨[], []⟩ = .panic
    | .outOfFuel => False := by
  have h := irun_spec (deqGood hg) ops (s := ⟨[], []⟩) (q := ⟨[], []⟩) ⟨.nil, rfl⟩
  revert h
  cases ispecRun dspec ops ⟨[], []⟩ with
  | ok r => rintro ⟨s, e, h, hi⟩; exact ⟨s, e, h.imp fun d l hd => ⟨hd.size, Deque.at_spec hg hd⟩, hi⟩
  | panic => exact id
  | outOfFuel => exact id

/-! ## What iterators keep showing -/

/-- **C102** Nothing but `Next` and `Prev` on the iterator itself moves an iterator, and nothing makes it an iterator of another container. -/
theorem C102_stays (K : Kit W C O T) {op : IOp C T} {s s' : St W} {o : IOut O T} (e : istep K op s = .ok (o, s')) {k : Nat} {it : It} (hk : s.its[k]? = some it) :
    (∃ p, s'.its[k]? = some ⟨it.on, p⟩) ∧ (op ≠ .next k → op ≠ .prev k → s'.its[k]? = some it) := by
  have keep : ∀ (l : List It), (s.its ++ l)[k]? = some it := fun l => by
    rw [List.getElem?_append_left (List.getElem?_eq_some_iff.1 hk).1, hk]
  cases op <;> simp only [istep, St.it, St.push] at e
  case call c =>
    obtain ⟨⟨o1, w1⟩, -, e⟩ := Res.bind_eq_ok.1 e
    obtain ⟨-, rfl⟩ := Prod.mk.inj (Res.ok.inj e); exact ⟨⟨_, hk⟩, fun _ _ => hk⟩
  case begin_ | end_ | first | last | iterAt | clone | iteratorAt =>
    obtain ⟨n, -, e⟩ := Res.bind_eq_ok.1 e
    obtain ⟨-, rfl⟩ := Prod.mk.inj (Res.ok.inj e); exact ⟨⟨_, keep _⟩, fun _ _ => keep _⟩
  case isValid | value | equal =>
    obtain ⟨n, -, e⟩ := Res.bind_eq_ok.1 e
    obtain ⟨m, -, e⟩ := Res.bind_eq_ok.1 e
    obtain ⟨-, rfl⟩ := Prod.mk.inj (Res.ok.inj e); exact ⟨⟨_, hk⟩, fun _ _ => hk⟩
  case position =>
    obtain ⟨n, -, e⟩ := Res.bind_eq_ok.1 e
    obtain ⟨-, rfl⟩ := Prod.mk.inj (Res.ok.inj e); exact ⟨⟨_, hk⟩, fun _ _ => hk⟩
  case setValue =>
    obtain ⟨n, -, e⟩ := Res.bind_eq_ok.1 e
    obtain ⟨m, -, e⟩ := Res.bind_eq_ok.1 e
    obtain ⟨-, rfl⟩ := Prod.mk.inj (Res.ok.inj e); exact ⟨⟨_, hk⟩, fun _ _ => hk⟩
  case next j =>
    obtain ⟨n, e0, e⟩ := Res.bind_eq_ok.1 e
    obtain ⟨m, -, e⟩ := Res.bind_eq_ok.1 e
    obtain ⟨-, rfl⟩ := Prod.mk.inj (Res.ok.inj e)
    split
    · simp only [St.move, List.getElem?_set]
      by_cases c : j = k
      · subst c
        rw [hk] at e0; cases e0
        exact ⟨⟨it.pos + 1, by simp [(List.getElem?_eq_some_iff.1 hk).1]⟩, fun h _ => (h rfl).elim⟩
      · simp only [if_neg c]; exact ⟨⟨_, hk⟩, fun _ _ => hk⟩
    · exact ⟨⟨_, hk⟩, fun _ _ => hk⟩
  case prev j =>
    obtain ⟨n, e0, e⟩ := Res.bind_eq_ok.1 e
    obtain ⟨-, rfl⟩ := Prod.mk.inj (Res.ok.inj e)
    split
    · simp only [St.move, List.getElem?_set]
      by_cases c : j = k
      · subst c
        rw [hk] at e0; cases e0
        exact ⟨⟨it.pos - 1, by simp [(List.getElem?_eq_some_iff.1 hk).1]⟩, fun _ h => (h rfl).elim⟩
      · simp only [if_neg c]; exact ⟨⟨_, hk⟩, fun _ _ => hk⟩
    · exact ⟨⟨_, hk⟩, fun _ _ => hk⟩

/-- What comes to stand at a position: what stood at some position before, a new value, or nothing. -/
inductive Src (T : Type)
  | old (q : Int)
  | new (v : T)
  | gone

/-- Seen from the contents before. -/
def Src.see (l : List T) : Src T → Option T
  | .old q => at? l q
  | .new v => some v
  | .gone => none

/-- Inserting `v` at `q` into `n` elements: what comes to stand at `p`. -/
def insSrc (n p q : Int) (v : T) : Src T := if q < 0 ∨ q > n ∨ p < q then .old p else if p = q then .new v else .old (p - 1)

/-- Removing `a .. b-1` of `n` elements: what comes to stand at `p`. -/
def delSrc (n p a b : Int) : Src T := if a < 0 ∨ a > b ∨ b > n ∨ p < a then .old p else .old (p + (b - a))

/-- Setting `q`. -/
def setSrc (n p q : Int) (v : T) : Src T := if p = q ∧ 0 ≤ q ∧ q < n then .new v else .old p

/-- What comes to stand at position `p` of a vector of `n` elements by a call. -/
def vecSrc (n p : Int) : Vector.Op T → Src T
  | .pushBack v _ => insSrc n p n v
  | .setAt q v => setSrc n p q v
  | .insertAt q v _ => insSrc n p q v
  | .insert q v _ => insSrc n p q v
  | .eraseAt q _ => delSrc n p q (q + 1)
  | .erase q _ => delSrc n p q (q + 1)
  | .eraseIndexRange a b _ => delSrc n p a b
  | .eraseRange a b _ => delSrc n p a b
  | .popBack => if p < n - 1 then .old p else .gone
  | .clear => .gone
  | .resize m => if p < m then .old p else .gone
  | .at _ | .front | .back | .reserve _ | .shrinkToFit | .size | .empty => .old p

/-- What comes to stand at position `p` of a deque of `n` elements by a call. -/
def deqSrc (n p : Int) : Deque.Op T → Src T
  | .pushFront v => insSrc n p 0 v
  | .pushBack v => insSrc n p n v
  | .insert q v => insSrc n p q v
  | .popFront => delSrc n p 0 1
  | .popBack => delSrc n p (n - 1) n
  | .eraseAt q => delSrc n p q (q + 1)
  | .eraseRange a b => delSrc n p a b
  | .set q v => setSrc n p q v
  | .clear => .gone
  | .at _ | .front | .back | .size | .empty => .old p

theorem at?_neg {l : List T} {p : Int} (h : p < 0) : at? l p = none := if_neg (by omega)
theorem at?_nat (l : List T) (k : Nat) : at? l (k : Int) = l[k]? := by simp [at?]

theorem at?_ins (l : List T) (p : Int) (q : Nat) (v : T) (hq : q ≤ l.length) : at? (l.take q ++ v :: l.drop q) p = (insSrc l.length p q v).see l := by
  unfold insSrc
  rcases (by omega : p < 0 ∨ p ≥ 0) with c | c
  · rw [if_pos (by omega), at?_neg c, Src.see, at?_neg c]
  · obtain ⟨k, rfl⟩ : ∃ k : Nat, p = k := ⟨p.toNat, by omega⟩
    rw [at?_nat, List.getElem?_append]
    rw [show (List.take q l).length = q by simp; omega]
    rcases Nat.lt_trichotomy k q with h | h | h
    · rw [if_pos h, if_pos (by omega), Src.see, at?_nat, List.getElem?_take_of_lt h]
    · subst h
      rw [if_neg (by omega), if_neg (by omega), if_pos rfl]; simp [Src.see]
    · rw [if_neg (by omega), if_neg (by omega), if_neg (by omega), Src.see, show (k : Int) - 1 = ((k - 1 : Nat) : Int) by omega, at?_nat]
      obtain ⟨d, rfl⟩ : ∃ d, k = q + 1 + d := ⟨k - (q + 1), by omega⟩
      rw [show q + 1 + d - q = d + 1 by omega, List.getElem?_cons_succ, List.getElem?_drop]
      congr 1; omega

theorem at?_del (l : List T) (p : Int) (a b : Nat) (hab : a ≤ b) (hb : b ≤ l.length) : at? (l.take a ++ l.drop b) p = (delSrc l.length p a b : Src T).see l := by
  unfold delSrc
  rcases (by omega : p < 0 ∨ p ≥ 0) with c | c
  · rw [if_pos (by omega), at?_neg c, Src.see, at?_neg c]
  · obtain ⟨k, rfl⟩ : ∃ k : Nat, p = k := ⟨p.toNat, by omega⟩
    rw [at?_nat, List.getElem?_append]
    rw [show (List.take a l).length = a by simp; omega]
    rcases Nat.lt_or_ge k a with h | h
    · rw [if_pos h, if_pos (by omega), Src.see, at?_nat, List.getElem?_take_of_lt h]
    · rw [if_neg (by omega), if_neg (by omega), Src.see, show (k : Int) + (b - a) = ((b + (k - a) : Nat) : Int) by omega, at?_nat, List.getElem?_drop]

theorem at?_setAt (l : List T) (p q : Int) (v : T) : at? (setAt l q v) p = (setSrc l.length p q v).see l := by
  unfold setSrc setAt
  rcases (by omega : q < 0 ∨ q ≥ 0) with c | c
  · rw [if_neg (by omega), if_neg (by omega)]; rfl
  · rw [if_pos c]
    rcases (by omega : p < 0 ∨ p ≥ 0) with c1 | c1
    · rw [if_neg (by omega), at?_neg c1, Src.see, at?_neg c1]
    · obtain ⟨k, rfl⟩ : ∃ k : Nat, p = k := ⟨p.toNat, by omega⟩
      obtain ⟨j, rfl⟩ : ∃ j : Nat, q = j := ⟨q.toNat, by omega⟩
      rw [at?_nat, Int.toNat_natCast, List.getElem?_set]
      by_cases h : j = k
      · subst h
        rw [if_pos rfl]
        by_cases h2 : j < l.length
        · rw [if_pos h2, if_pos (by omega)]; rfl
        · rw [if_neg h2, if_neg (by omega), Src.see, at?_nat, List.getElem?_eq_none (by omega)]
      · rw [if_neg h, if_neg (by omega), Src.see, at?_nat]

theorem at?_ins' (l : List T) (p q : Int) (v : T) : at? (Vector.ins l q v) p = (insSrc l.length p q v).see l := by
  unfold Vector.ins
  by_cases c : 0 ≤ q ∧ q ≤ l.length
  · obtain ⟨j, rfl⟩ : ∃ j : Nat, q = j := ⟨q.toNat, by omega⟩
    rw [if_pos c]; exact at?_ins l p j v (by omega)
  · rw [if_neg c, insSrc, if_pos (by omega)]; rfl

theorem at?_del' (l : List T) (p a b : Int) : at? (Vector.del l a b) p = (delSrc l.length p a b : Src T).see l := by
  unfold Vector.del
  by_cases c : 0 ≤ a ∧ a ≤ b ∧ b ≤ l.length
  · obtain ⟨i, rfl⟩ : ∃ j : Nat, a = j := ⟨a.toNat, by omega⟩
    obtain ⟨j, rfl⟩ : ∃ j : Nat, b = j := ⟨b.toNat, by omega⟩
    rw [if_pos c]; exact at?_del l p i j (by omega) (by omega)
  · rw [if_neg c, delSrc, if_pos (by omega)]; rfl

theorem at?_take (l : List T) (p : Int) (m : Nat) : at? (l.take m) p = if p < m then at? l p else none := by
  rcases (by omega : p < 0 ∨ p ≥ 0) with c | c
  · rw [at?_neg c, at?_neg c]; split <;> rfl
  · obtain ⟨k, rfl⟩ : ∃ k : Nat, p = k := ⟨p.toNat, by omega⟩
    rw [at?_nat, at?_nat, List.getElem?_take]
    by_cases h : k < m
    · rw [if_pos h, if_pos (by omega)]
    · rw [if_neg h, if_neg (by omega)]

theorem see_ite {c : Prop} [Decidable c] {l : List T} {a b : Src T} : (if c then a else b).see l = if c then a.see l else b.see l := by split <;> rfl

theorem vecSrc_spec {op : Vector.Op T} {l l' : List T} {o : Vector.Out T} (e : Vector.specStep op l = .ok (o, l')) (p : Int) :
    at? l' p = (vecSrc l.length p op).see l := by
  have fin : ∀ {a b : List T} {o1 o2 : Vector.Out T}, (Res.ok (o1, a) : Res (Vector.Out T × List T)) = .ok (o2, b) → b = a := fun h => (Prod.mk.inj (Res.ok.inj h)).2.symm
  cases op <;> simp only [Vector.specStep] at e
  case pushBack v x =>
    rw [fin e]
    have := at?_ins l p l.length v (Nat.le_refl _)
    simpa [vecSrc] using this
  case setAt q v => rw [fin e, ← setAt_eq, at?_setAt]; rfl
  case insertAt q v x => rw [fin e]; exact at?_ins' l p q v
  case insert q v x => rw [fin e]; exact at?_ins' l p q v
  case eraseAt q x => rw [fin e]; exact at?_del' l p q (q + 1)
  case erase q x => rw [fin e]; exact at?_del' l p q (q + 1)
  case eraseIndexRange a b x => rw [fin e]; exact at?_del' l p a b
  case eraseRange a b x => rw [fin e]; exact at?_del' l p a b
  case «at» q =>
    split at e
    · split at e
      · rw [fin e]; rfl
      · cases e
    · cases e
  case front => split at e; · rw [fin e]; rfl
                · cases e
  case back => split at e; · rw [fin e]; rfl
               · cases e
  case popBack =>
    split at e
    · next x hx =>
      rw [fin e, List.dropLast_eq_take, at?_take]
      have : l ≠ [] := by rintro rfl; cases hx
      have : 0 < l.length := List.length_pos_iff.2 this
      rw [vecSrc, see_ite]; simp only [Src.see]
      rw [show ((l.length - 1 : Nat) : Int) = (l.length : Int) - 1 by omega]
    · cases e
  case reserve => rw [fin e]; rfl
  case shrinkToFit => rw [fin e]; rfl
  case clear => rw [fin e]; simp only [vecSrc, Src.see]; unfold at?; split <;> simp
  case resize m =>
    split at e
    · cases e
    · rw [fin e, at?_take]
      rw [vecSrc, see_ite]; simp only [Src.see]
      rw [show ((m.toNat : Nat) : Int) = m by omega]
  case size => rw [fin e]; rfl
  case empty => rw [fin e]; rfl

theorem deqSrc_spec {op : Deque.Op T} {l l' : List T} {o : Deque.Out T} (e : Deque.specStep op l = .ok (o, l')) (p : Int) :
    at? l' p = (deqSrc l.length p op).see l := by
  have fin : ∀ {a b : List T} {o1 o2 : Deque.Out T}, (Res.ok (o1, a) : Res (Deque.Out T × List T)) = .ok (o2, b) → b = a := fun h => (Prod.mk.inj (Res.ok.inj h)).2.symm
  cases op <;> simp only [Deque.specStep] at e
  case pushFront v =>
    rw [fin e]
    have := at?_ins l p 0 v (Nat.zero_le _)
    simpa [deqSrc] using this
  case pushBack v =>
    rw [fin e]
    have := at?_ins l p l.length v (Nat.le_refl _)
    simpa [deqSrc] using this
  case insert q v =>
    rw [fin e]
    have := at?_ins' l p q v
    unfold Vector.ins at this
    rw [← show (deqSrc (↑l.length) p (.insert q v)) = insSrc (l.length : Int) p q v from rfl] at this
    rw [← this]
    by_cases c : 0 ≤ q ∧ q ≤ l.length
    · rw [if_pos c, if_neg (by omega)]
    · rw [if_neg c, if_pos (by omega)]
  case popFront =>
    cases l with
    | nil => cases e
    | cons x l =>
      rw [fin e]
      have := at?_del (x :: l) p 0 1 (by omega) (by simp)
      simpa [deqSrc] using this
  case popBack =>
    split at e
    · cases e
    · next x hx =>
      rw [fin e, List.dropLast_eq_take]
      have : l ≠ [] := by rintro rfl; cases hx
      have hl : 0 < l.length := List.length_pos_iff.2 this
      have := at?_del l p (l.length - 1) l.length (by omega) (Nat.le_refl _)
      rw [List.drop_length, List.append_nil] at this
      rw [this, show ((l.length - 1 : Nat) : Int) = (l.length : Int) - 1 by omega]; rfl
  case eraseAt q =>
    rw [fin e]
    have := at?_del' l p q (q + 1)
    rw [← show (deqSrc (↑l.length) p (.eraseAt q) : Src T) = delSrc (l.length : Int) p q (q + 1) from rfl] at this
    rw [← this]
    unfold Vector.del
    by_cases c : q < 0 ∨ q ≥ l.length
    · rw [if_pos c, if_neg (by omega)]
    · rw [if_neg c, if_pos (by omega), List.eraseIdx_eq_take_drop_succ, show (q + 1).toNat = q.toNat + 1 by omega]
  case eraseRange a b =>
    rw [fin e]
    have := at?_del' l p a b
    rw [← show (deqSrc (↑l.length) p (.eraseRange a b) : Src T) = delSrc (l.length : Int) p a b from rfl] at this
    rw [← this]
    unfold Vector.del
    by_cases c : a < 0 ∨ a ≥ b ∨ b > l.length
    · rw [if_pos c]
      split
      · have : a = b := by omega
        subst this
        rw [List.take_append_drop]
      · rfl
    · rw [if_neg c, if_pos (by omega)]
  case set q v =>
    rw [fin e]
    have : (if q < 0 ∨ q ≥ (l.length : Int) then l else l.set q.toNat v) = setAt l q v := by
      rw [setAt_eq]
      by_cases c : 0 ≤ q ∧ q < (l.length : Int)
      · rw [if_pos c, if_neg (by omega)]
      · rw [if_neg c, if_pos (by omega)]
    rw [this, at?_setAt]; rfl
  case clear => rw [fin e]; simp only [deqSrc, Src.see]; unfold at?; split <;> simp
  case «at» q =>
    split at e
    · cases e
    · split at e
      · cases e
      · rw [fin e]; rfl
  case front => split at e; · cases e
                · rw [fin e]; rfl
  case back => split at e; · cases e
               · rw [fin e]; rfl
  case size => rw [fin e]; rfl
  case empty => rw [fin e]; rfl

/-- States a program with vectors reaches. -/
def VReach (zero : T) (s : St (Vector.World T)) : Prop := ∃ ops os, vrun zero ops ⟨Vector.start, []⟩ = .ok (os, s)

theorem VReach.sim {zero : T} {s : St (Vector.World T)} (h : VReach zero s) : ∃ q, Sim vecRep s q := by
  obtain ⟨ops, os, e⟩ := h
  have h := vrun_spec (zero := zero) ops (s := ⟨Vector.start, []⟩) (q := ⟨[], []⟩) ⟨⟨Vector.start_inv, rfl⟩, rfl⟩
  revert h
  cases vspecRun ops ⟨[], []⟩ with
  | ok r => rintro ⟨s', e', h⟩; rw [e] at e'; obtain ⟨-, rfl⟩ := Prod.mk.inj (Res.ok.inj e'); exact ⟨_, h⟩
  | panic => intro h; simp only [SimRes] at h; rw [e] at h; cases h
  | outOfFuel => exact False.elim

/-- States a program with deques reaches. -/
def DReach (cfg : Deque.Cfg T) (s : St (List (Deque.Deq T))) : Prop := ∃ ops os, irun (deqKit cfg) ops ⟨[], []⟩ = .ok (os, s)

theorem DReach.sim {cfg : Deque.Cfg T} (hg : cfg.Good) {s : St (List (Deque.Deq T))} (h : DReach cfg s) : ∃ q, Sim (deqRep cfg) s q := by
  obtain ⟨ops, os, e⟩ := h
  have h := irun_spec (deqGood hg) ops (s := ⟨[], []⟩) (q := ⟨[], []⟩) ⟨.nil, rfl⟩
  revert h
  cases ispecRun dspec ops ⟨[], []⟩ with
  | ok r => rintro ⟨s', e', h⟩; rw [e] at e'; obtain ⟨-, rfl⟩ := Prod.mk.inj (Res.ok.inj e'); exact ⟨_, h⟩
  | panic => intro h; simp only [SimRes] at h; rw [e] at h; cases h
  | outOfFuel => exact False.elim

/-- **C102** In every state a program with vectors reaches, a call on vector `i` leaves an iterator of that vector at position `p` showing exactly what the
table `vecSrc` says in terms of the contents `l` before: its own element if the change was beyond it (or a reallocation), its neighbour's if something was inserted
or removed at or before it. -/
theorem C102_vector_shows {zero : T} {s s' : St (Vector.World T)} (h : VReach zero s) {i k : Nat} {p : Int} {l : List T} (hk : s.its[k]? = some ⟨i, p⟩)
    (hl : (Vector.shows s.w)[i]? = some l) {op : Vector.Op T} {o : IOut (Vector.Out T) T} (e : vstep zero (.it (.call (.on i op))) s = .ok (o, s')) :
    vstep zero (.it (.value k)) s' = (do let x ← Res.ofOption ((vecSrc l.length p op).see l); .ok (.val x, s')) := by
  obtain ⟨q, hq⟩ := h.sim
  have hs := vstep_spec (zero := zero) hq (.it (.call (.on i op)))
  rw [e] at hs
  obtain ⟨⟨hw, hsh⟩, hits⟩ := hq
  simp only [vspec, ispec, Vector.specCall, ← hsh, hl] at hs
  revert hs
  cases e1 : Vector.specStep op l with
  | panic => intro x; cases x
  | outOfFuel => exact False.elim
  | ok r =>
    obtain ⟨o1, l'⟩ := r
    rintro ⟨s1, e2, ⟨hw1, hsh1⟩, hits1⟩
    obtain ⟨-, rfl⟩ := Prod.mk.inj (Res.ok.inj e2)
    simp only at hsh1 hits1
    have hil : i < (Vector.shows s.w).length := (List.getElem?_eq_some_iff.1 hl).1
    have hg := (vecGood zero).get s'.w _ i p ⟨hw1, rfl⟩
    rw [hsh1, List.getElem?_set_self hil] at hg
    simp only [Res.ofOption_some, Res.ok_bind] at hg
    simp only [vstep, istep, St.it, hits1, ← hits, hk, Res.ofOption_some, Res.ok_bind, hg]
    rw [vecSrc_spec e1 p]

/-- **C102** The same for deques and the table `deqSrc`: after `PushFront` an iterator shows its left neighbour, after `PopFront` its right one, and calls at or beyond the back
leave it alone. -/
theorem C102_deque_shows {cfg : Deque.Cfg T} (hg : cfg.Good) {s s' : St (List (Deque.Deq T))} (h : DReach cfg s) {i k : Nat} {p : Int} {d : Deque.Deq T} {l : List T}
    (hk : s.its[k]? = some ⟨i, p⟩) (hd : s.w[i]? = some d) (hl : Deque.size d = (l.length : Int) ∧ ∀ p, Deque.at_ cfg d p = Res.ofOption (at? l p))
    {op : Deque.Op T} {o : IOut (Deque.Out T) T} (e : istep (deqKit cfg) (.call (.on i op)) s = .ok (o, s')) :
    istep (deqKit cfg) (.value k) s' = (do let x ← Res.ofOption ((deqSrc l.length p op).see l); .ok (.val x, s')) := by
  obtain ⟨q, hq⟩ := h.sim hg
  have hs := istep_spec (deqGood hg) hq (.call (.on i op))
  rw [e] at hs
  obtain ⟨hr, hits⟩ := hq
  rcases deqRep.get hr i with ⟨e1, -⟩ | ⟨d1, l1, e1, e2, hi⟩
  · rw [hd] at e1; cases e1
  rw [hd] at e1; cases e1
  have hll : l = l1 := by
    have hlen : l.length = l1.length := by
      have h1 := hl.1; have h2 : Deque.size d = (l1.length : Int) := hi.size; omega
    apply List.ext_getElem?
    intro n
    have h1 := hl.2 n
    rw [Deque.at_spec hg hi, at?_nat, at?_nat] at h1
    revert h1
    cases l[n]? <;> cases l1[n]? <;> simp [Res.ofOption] <;> intro h <;> exact h.symm
  subst hll
  simp only [ispec, dspec, e2, Res.ofOption_some, Res.ok_bind] at hs
  revert hs
  cases e3 : Deque.specStep op l with
  | panic => intro x; cases x
  | outOfFuel => exact False.elim
  | ok r =>
    obtain ⟨o1, l'⟩ := r
    rintro ⟨s1, e4, hr1, hits1⟩
    obtain ⟨-, rfl⟩ := Prod.mk.inj (Res.ok.inj e4)
    simp only at hr1 hits1
    have hil : i < q.w.length := (List.getElem?_eq_some_iff.1 e2).1
    have hgt := (deqGood hg).get s'.w _ i p hr1
    rw [List.getElem?_set_self hil] at hgt
    simp only [Res.ofOption_some, Res.ok_bind] at hgt
    simp only [istep, St.it, hits1, ← hits, hk, Res.ofOption_some, Res.ok_bind, hgt]
    rw [deqSrc_spec e3 p]

/-! ## Cases -/

/-- A program: two vectors, three iterators, with growth, insertion and erasure under them. -/
def vdemo : List (VOp Nat) :=
  [.it (.call (.new 0)), .it (.call (.on 0 (.pushBack 10 0))), .it (.call (.on 0 (.pushBack 20 0))), .it (.begin_ 0), .it (.last 0), .it (.value 1),
   .it (.call (.on 0 (.pushBack 30 0))), .it (.value 1), .it (.setValue 1 21), .insert 0 0 5 1, .it (.value 0), .it (.value 1), .it (.next 1), .it (.value 1),
   .it (.call (.newFromVector 0)), .eraseRange 1 0 1 0, .it (.isValid 1), .it (.equal 0 2), .erase 0 1 0, .it (.value 4), .it (.prev 0), .it (.prev 0), .it (.position 0)]

set_option maxRecDepth 40000 in
/-- What it sees. -/
example : ∃ q, vspecRun vdemo ⟨[], []⟩ = .ok ([.call .unit, .call .unit, .call .unit, .made, .made, .val 20, .call .unit, .val 20, .unit, .made, .val 5, .val 10, .unit, .val 21,
    .call .unit, .made, .bool true, .bool true, .made, .val 30, .unit, .unit, .pos (-1)], q) ∧ q.w = [[5, 10, 30], [21, 30]] := ⟨_, rfl, rfl⟩

set_option maxRecDepth 40000 in
/-- The code does the same. -/
example : ∃ s, vrun 0 vdemo ⟨Vector.start, []⟩ = .ok ([.call .unit, .call .unit, .call .unit, .made, .made, .val 20, .call .unit, .val 20, .unit, .made, .val 5, .val 10, .unit, .val 21,
    .call .unit, .made, .bool true, .bool true, .made, .val 30, .unit, .unit, .pos (-1)], s) := ⟨_, rfl⟩

/-- Deques: `PushFront` and `PopFront` under an iterator. -/
def ddemo : List (IOp (DCall Nat) Nat) :=
  [.call .new, .call (.on 0 (.pushBack 1)), .call (.on 0 (.pushBack 2)), .iterAt 0 1, .value 0, .call (.on 0 (.pushFront 9)), .value 0, .call (.on 0 .popFront), .call (.on 0 .popFront),
   .isValid 0, .next 0, .position 0, .prev 0, .value 0]

set_option maxRecDepth 40000 in
example : ∃ s, irun (deqKit (Deque.goCfg 0)) ddemo ⟨[], []⟩ = .ok ([.call .unit, .call .unit, .call .unit, .made, .val 2, .call .unit, .val 1, .call (.val 9), .call (.val 1),
    .bool false, .unit, .pos 1, .unit, .val 2], s) := ⟨_, rfl⟩

/-- Arrays: an iterator sees the array exchanged under it. -/
def ademo : List (IOp (Arr.Call Nat) Nat) :=
  [.call (.new 2), .call (.new 2), .last 0, .clone 0, .setValue 0 7, .call (.swapArray 0 1), .value 1, .iterAt 1 1, .value 2, .equal 0 1, .equal 0 2]

set_option maxRecDepth 40000 in
example : ∃ s, irun (arrKit 0) ademo ⟨Arr.start, []⟩ = .ok ([.call .unit, .call .unit, .made, .made, .unit, .call .unit, .val 0, .made, .val 7, .bool true, .bool false], s) := ⟨_, rfl⟩

end GoSTL.Moving
