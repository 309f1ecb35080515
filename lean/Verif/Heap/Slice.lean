import Verif.Heap.Props
import Verif.Heap.AnyCmp
import Verif.GoSlice.Mem
/-!
# `ds/priorityqueue/priority_queue.go` on a Go slice

`ElementHolder.elements` is a slice with a backing array; `Verif/Heap/Model.lean` has only the elements. The operations of `heap.go` call the
methods of the holder. `extra` is the spare room the runtime gives an array it reallocates.
-/
namespace GoSTL.Heap.Slice
open GoSTL.Seq GoSTL.Algo GoSTL.GoSlice
variable {T : Type}

/-- priority_queue.go:49-51 `Less`. -/
def lessAt (cmp : T → T → Int) (m : Mem T) (s : Slice) (i j : Int) : Res Bool := do
  let x ← read m s i
  let y ← read m s j
  .ok (decide (cmp x y < 0))

/-- priority_queue.go:54-56 `Swap`: both reads come before both writes. -/
def swapAt (m : Mem T) (s : Slice) (i j : Int) : Res (Mem T) := do
  let x ← read m s i
  let y ← read m s j
  let m ← write m s i y
  write m s j x

/-- priority_queue.go:27-34 `ElementHolder.Pop`. -/
def holderPop (m : Mem T) (s : Slice) : Res (T × Slice) :=
  if s.len = 0 then .panic else do
    let x ← read m s (s.len - 1)
    let s ← reslice s 0 (s.len - 1)
    .ok (x, s)

/-- heap.go:82-91 `up`, with a step budget. -/
def upLoop (cmp : T → T → Int) (s : Slice) : Nat → Mem T → Int → Res (Mem T)
  | 0, _, _ => .outOfFuel
  | f + 1, m, j => do
    let i := (j - 1).tdiv 2
    if i = j then .ok m else do
      let b ← lessAt cmp m s j i
      if !b then .ok m else do
        let m ← swapAt m s i j
        upLoop cmp s f m i

/-- heap.go:100-103. -/
def child (cmp : T → T → Int) (m : Mem T) (s : Slice) (n j1 : Int) : Res Int :=
  if j1 + 1 < n then do
    let b ← lessAt cmp m s (j1 + 1) j1
    .ok (if b then j1 + 1 else j1)
  else .ok j1

/-- heap.go:93-111 `down`, with a step budget. -/
def downLoop (cmp : T → T → Int) (s : Slice) (n : Int) : Nat → Mem T → Int → Res (Int × Mem T)
  | 0, _, _ => .outOfFuel
  | f + 1, m, i => do
    let j1 := 2 * i + 1
    if j1 ≥ n ∨ j1 < 0 then .ok (i, m) else do
      let j ← child cmp m s n j1
      let b ← lessAt cmp m s j i
      if !b then .ok (i, m) else do
        let m ← swapAt m s i j
        downLoop cmp s n f m j

/-- heap.go:82-91. -/
def up (cmp : T → T → Int) (m : Mem T) (s : Slice) (j : Int) : Res (Mem T) := upLoop cmp s (s.len + 1) m j

/-- heap.go:93-111. -/
def down (cmp : T → T → Int) (m : Mem T) (s : Slice) (i0 n : Int) : Res (Bool × Mem T) := do
  let (i, m) ← downLoop cmp s n (s.len + 1) m i0
  .ok (decide (i > i0), m)

/-- heap.go:44-47 `Push`, priority_queue.go:22-24 `ElementHolder.Push`. -/
def push (zero : T) (cmp : T → T → Int) (m : Mem T) (s : Slice) (x : T) (extra : Nat) : Res (Mem T × Slice) := do
  let (m, s) := append zero m s [x] extra
  let m ← up cmp m s (s.len - 1)
  .ok (m, s)

/-- heap.go:52-57 `Pop`. -/
def pop (cmp : T → T → Int) (m : Mem T) (s : Slice) : Res (T × Mem T × Slice) := do
  let n : Int := s.len - 1
  let m ← swapAt m s 0 n
  let (_, m) ← down cmp m s 0 n
  let (x, s) ← holderPop m s
  .ok (x, m, s)

/-- priority_queue.go:98-144; `extra` is used by `Push` alone. -/
def step (zero : T) (cmp : T → T → Int) (extra : Nat) (op : Op T) (m : Mem T) (s : Slice) : Res (Out T × Mem T × Slice) :=
  match op with
  | .push x => do let (m, s) ← push zero cmp m s x extra; .ok (.unit, m, s)
  | .pop => do let (x, m, s) ← pop cmp m s; .ok (.val x, m, s)
  | .top => if s.len = 0 then .panic else do let x ← read m s 0; .ok (.val x, m, s)
  | .empty => .ok (.bool (decide (s.len = 0)), m, s)
  | .size => .ok (.int s.len, m, s)
  | .clear => do let s ← reslice s 0 0; .ok (.unit, m, s)

/-- A history; every call comes with a growth decision of the runtime. -/
def run (zero : T) (cmp : T → T → Int) : List (Op T × Nat) → Mem T → Slice → Res (List (Out T) × Mem T × Slice)
  | [], m, s => .ok ([], m, s)
  | (op, extra) :: ops, m, s => do
    let (o, m, s) ← step zero cmp extra op m s
    let (os, m, s) ← run zero cmp ops m s
    .ok (o :: os, m, s)

/-- priority_queue.go:80-95 `New`: the slice of `make([]T, 0)`. -/
def new (zero : T) : Res (Mem T × Slice) := make zero [] 0 0

/-! ## The slice behaves like the list of its elements -/

/-- Two computations end in the same way, with results that belong together. -/
inductive Both {α β : Type} (R : α → β → Prop) : Res α → Res β → Prop
  | ok {a b} : R a b → Both R (.ok a) (.ok b)
  | panic : Both R .panic .panic
  | fuel : Both R .outOfFuel .outOfFuel

theorem Both.bind {α β γ δ : Type} {R : α → β → Prop} {S : γ → δ → Prop} {r : Res α} {q : Res β} {f : α → Res γ} {g : β → Res δ} (h : Both R r q)
    (hf : ∀ a b, R a b → Both S (f a) (g b)) : Both S (r >>= f) (q >>= g) := by
  cases h with
  | ok h => exact hf _ _ h
  | panic => exact .panic
  | fuel => exact .fuel

theorem Both.eq {α : Type} (r : Res α) : Both (fun a b => a = b) r r := by cases r <;> constructor; rfl

/-- The slice shows the list. -/
abbrev Shows (s : Slice) (m : Mem T) (h : List T) : Prop := WF m s ∧ contents m s = h

variable {cmp : T → T → Int}

theorem lessAt_both {s : Slice} {m : Mem T} {h : List T} (hs : Shows s m h) (i j : Int) : lessAt cmp m s i j = Heap.lessAt cmp h i j := by
  obtain ⟨hw, rfl⟩ := hs
  simp only [lessAt, Heap.lessAt, read_eq hw]

theorem swapAt_both {s : Slice} {m : Mem T} {h : List T} (hs : Shows s m h) (i j : Int) : Both (Shows s) (swapAt m s i j) (Heap.swapAt h i j) := by
  obtain ⟨hw, rfl⟩ := hs
  simp only [swapAt, Heap.swapAt, read_eq hw]
  cases hx : at? (contents m s) i with
  | none => exact .panic
  | some x =>
    cases hy : at? (contents m s) j with
    | none => exact .panic
    | some y =>
      simp only [Res.ofOption_some, Res.ok_bind, lswap, hx, hy]
      have hb : ∀ {k : Int} {z : T}, at? (contents m s) k = some z → 0 ≤ k ∧ k < s.len := by
        intro k z hk
        unfold at? at hk
        split at hk
        next h0 =>
          refine ⟨h0, ?_⟩
          have := (List.getElem?_eq_some_iff.1 hk).1
          rw [hw.contents_length] at this
          omega
        · cases hk
      obtain ⟨i0, i1⟩ := hb hx
      obtain ⟨j0, j1⟩ := hb hy
      obtain ⟨m1, e1, w1, c1, -, -⟩ := write_spec hw i0 i1 y
      obtain ⟨m2, e2, w2, c2, -, -⟩ := write_spec w1 j0 j1 x
      rw [e1, Res.ok_bind, e2]
      refine .ok ⟨w2, ?_⟩
      rw [c2, c1]
      simp only [setAt, i0, j0, if_true]

theorem child_both {s : Slice} {m : Mem T} {h : List T} (hs : Shows s m h) (n j1 : Int) : child cmp m s n j1 = Heap.child cmp h n j1 := by
  simp only [child, Heap.child, lessAt_both hs]

theorem upLoop_both {s : Slice} : ∀ (f : Nat) {m : Mem T} {h : List T}, Shows s m h → ∀ j, Both (Shows s) (upLoop cmp s f m j) (Heap.upLoop cmp f h j) := by
  intro f
  induction f with
  | zero => intro m h _ j; exact .fuel
  | succ f ih =>
    intro m h hs j
    simp only [upLoop, Heap.upLoop]
    split
    · exact .ok hs
    · rw [lessAt_both hs]
      refine (Both.eq _).bind fun a b e => ?_
      subst e
      split
      · exact .ok hs
      · exact (swapAt_both hs _ _).bind fun m' h' hs' => ih hs' _

theorem downLoop_both {s : Slice} {n : Int} : ∀ (f : Nat) {m : Mem T} {h : List T}, Shows s m h → ∀ i,
    Both (fun a b => a.1 = b.1 ∧ Shows s a.2 b.2) (downLoop cmp s n f m i) (Heap.downLoop cmp n f h i) := by
  intro f
  induction f with
  | zero => intro m h _ j; exact .fuel
  | succ f ih =>
    intro m h hs j
    simp only [downLoop, Heap.downLoop]
    split
    · exact .ok ⟨rfl, hs⟩
    · rw [child_both hs]
      refine (Both.eq _).bind fun a b e => ?_
      subst e
      rw [lessAt_both hs]
      refine (Both.eq _).bind fun a b e => ?_
      subst e
      split
      · exact .ok ⟨rfl, hs⟩
      · exact (swapAt_both hs _ _).bind fun m' h' hs' => ih hs' _

theorem up_both {s : Slice} {m : Mem T} {h : List T} (hs : Shows s m h) (j : Int) : Both (Shows s) (up cmp m s j) (Heap.up cmp h j) := by
  have hl : s.len = h.length := by rw [← hs.2, hs.1.contents_length]
  simp only [up, Heap.up, hl]
  exact upLoop_both _ hs j

theorem down_both {s : Slice} {m : Mem T} {h : List T} (hs : Shows s m h) (i n : Int) :
    Both (fun a b => a.1 = b.1 ∧ Shows s a.2 b.2) (down cmp m s i n) (Heap.down cmp h i n) := by
  have hl : s.len = h.length := by rw [← hs.2, hs.1.contents_length]
  simp only [down, Heap.down, hl]
  refine (downLoop_both _ hs i).bind fun a b e => ?_
  exact .ok ⟨by rw [e.1], e.2⟩

/-- What a call may leave: the new header shows the new list. -/
abbrev Left (a : Mem T × Slice) (h : List T) : Prop := Shows a.2 a.1 h

theorem push_both (zero : T) {s : Slice} {m : Mem T} {h : List T} (hs : Shows s m h) (x : T) (extra : Nat) :
    Both Left (push zero cmp m s x extra) (Heap.push cmp h x) := by
  obtain ⟨m', s', e, w, c, -, -, hl, -⟩ := append_spec zero hs.1 [x] extra
  rw [hs.2] at c
  have hl' : (s'.len : Int) - 1 = (h ++ [x]).length - 1 := by rw [← c, w.contents_length]
  simp only [push, e, Heap.push]
  have := up_both (cmp := cmp) (s := s') (m := m') ⟨w, c⟩ (s'.len - 1)
  rw [hl'] at this ⊢
  have h2 := this.bind (S := Left) (f := fun m => .ok (m, s')) (g := fun h => .ok h) fun a b e => .ok e
  rwa [show ∀ r : Res (List T), (r >>= fun h => .ok h) = r by intro r; cases r <;> rfl] at h2

/-- The header after `ElementHolder.Pop` points to the same array, which is not changed. -/
theorem holderPop_both {s : Slice} {m : Mem T} {h : List T} (hs : Shows s m h) :
    Both (fun a b => a.1 = b.1 ∧ Shows a.2 m b.2 ∧ a.2.arr = s.arr ∧ h = b.2 ++ [b.1]) (holderPop m s) (Heap.holderPop h) := by
  have hl : s.len = h.length := by rw [← hs.2, hs.1.contents_length]
  unfold holderPop Heap.holderPop
  rcases List.eq_nil_or_concat h with rfl | ⟨h', x, rfl⟩
  · rw [if_pos (by simpa using hl)]; exact .panic
  · simp only [List.concat_eq_append] at *
    rw [if_neg (by rw [hl]; simp)]
    simp only [List.getLast?_append, List.getLast?_singleton, Option.some_or, List.dropLast_concat]
    have e1 : read m s (s.len - 1) = .ok x := by
      rw [read_eq hs.1, hs.2, hl]
      simp [at?]
    obtain ⟨s', e, w, c, ea, -⟩ := reslice_prefix hs.1 (k := s.len - 1) (by rw [hl]; simp) (by omega)
    rw [e1, Res.ok_bind, e, Res.ok_bind]
    refine .ok ⟨rfl, ⟨w, ?_⟩, ea, rfl⟩
    rw [c, hs.2, hl]
    simp

theorem pop_both {s : Slice} {m : Mem T} {h : List T} (hs : Shows s m h) :
    Both (fun a b => a.1 = b.1 ∧ Left a.2 b.2 ∧ a.2.2.arr = s.arr ∧ ∀ y ∈ b.2 ++ [b.1], y ∈ backing a.2.1 s) (pop cmp m s) (Heap.pop cmp h) := by
  have hl : s.len = h.length := by rw [← hs.2, hs.1.contents_length]
  simp only [pop, Heap.pop, hl]
  refine (swapAt_both hs _ _).bind fun m1 h1 hs1 => ?_
  refine (down_both hs1 _ _).bind fun a b e => ?_
  obtain ⟨a1, m2⟩ := a
  obtain ⟨b1, h2⟩ := b
  obtain ⟨-, hs2⟩ := e
  have h3 := (holderPop_both hs2).bind (S := fun a b => a.1 = b.1 ∧ Left a.2 b.2 ∧ a.2.2.arr = s.arr ∧ ∀ y ∈ b.2 ++ [b.1], y ∈ backing a.2.1 s)
    (f := fun x => .ok (x.1, m2, x.2)) (g := fun x => .ok x) fun a b e => by
      obtain ⟨e1, e2, e3, e4⟩ := e
      refine .ok ⟨e1, e2, e3, fun y hy => ?_⟩
      rw [← e4, ← hs2.2] at hy
      exact List.mem_of_mem_drop (List.mem_of_mem_take hy)
  rwa [show ∀ r : Res (T × List T), (r >>= fun h => .ok h) = r by intro r; cases r <;> rfl] at h3

theorem step_both (zero : T) (extra : Nat) (op : Op T) {s : Slice} {m : Mem T} {h : List T} (hs : Shows s m h) :
    Both (fun a b => a.1 = b.1 ∧ Left a.2 b.2) (step zero cmp extra op m s) (Heap.step cmp op h) := by
  have hl : s.len = h.length := by rw [← hs.2, hs.1.contents_length]
  cases op with
  | push x => exact (push_both zero hs x extra).bind fun a b e => .ok ⟨rfl, e⟩
  | pop => exact (pop_both hs).bind fun a b e => .ok ⟨by rw [e.1], e.2.1⟩
  | top =>
    simp only [step, Heap.step]
    cases h with
    | nil => rw [if_pos (by simpa using hl)]; exact .panic
    | cons x h =>
      rw [if_neg (by rw [hl]; simp), read_eq hs.1, hs.2]
      exact .ok ⟨rfl, hs⟩
  | empty => simp only [step, Heap.step, hl]; exact .ok ⟨rfl, hs⟩
  | size => simp only [step, Heap.step, hl]; exact .ok ⟨rfl, hs⟩
  | clear =>
    obtain ⟨s', e, w, c, -⟩ := reslice_prefix hs.1 (k := 0) (by omega) (by omega)
    simp only [step, Heap.step, e, Res.ok_bind]
    exact .ok ⟨rfl, w, by rw [c]; rfl⟩

theorem run_both (zero : T) : ∀ (ops : List (Op T × Nat)) {s : Slice} {m : Mem T} {h : List T}, Shows s m h →
    Both (fun a b => a.1 = b.1 ∧ Left a.2 b.2) (run zero cmp ops m s) (Heap.run cmp (ops.map Prod.fst) h) := by
  intro ops
  induction ops with
  | nil => intro s m h hs; exact .ok ⟨rfl, hs⟩
  | cons op ops ih =>
    intro s m h hs
    obtain ⟨op, extra⟩ := op
    simp only [run, List.map_cons, Heap.run]
    refine (step_both zero extra op hs).bind fun a b e => ?_
    obtain ⟨o, m1, s1⟩ := a
    obtain ⟨o', h1⟩ := b
    obtain ⟨rfl, e⟩ := e
    refine (ih e).bind fun a b e => ?_
    exact .ok ⟨by rw [e.1], e.2⟩

theorem new_shows (zero : T) : ∃ m s, new zero = .ok (m, s) ∧ Shows s m [] := by
  obtain ⟨m, s, e, w, c, -⟩ := make_spec zero [] (len := 0) (cap := 0) (by omega) (by omega)
  exact ⟨m, s, e, w, c⟩

/-- **C27**, on Go slices: for every lawful comparator, every history and every growth of the backing arrays, the calls answer like a priority queue. -/
theorem C27_slice (hc : LawfulCmp cmp) (zero : T) (ops : List (Op T × Nat)) :
    ∃ m s, new zero = .ok (m, s) ∧ SpecRun cmp (ops.map Prod.fst) [] (outs (run zero cmp ops m s)) := by
  obtain ⟨m, s, e, hs⟩ := new_shows zero
  refine ⟨m, s, e, ?_⟩
  have h1 := C27_history hc (ops.map Prod.fst)
  have h2 := run_both (cmp := cmp) zero ops hs
  revert h1 h2
  generalize run zero cmp ops m s = r
  generalize Heap.run cmp (ops.map Prod.fst) [] = q
  intro h1 h2
  cases h2 with
  | @ok a b e =>
    obtain ⟨a1, a2⟩ := a; obtain ⟨b1, b2⟩ := b
    obtain ⟨rfl, -⟩ := e
    exact h1
  | panic => exact h1
  | fuel => exact h1

/-- The queue keeps `x` alive: it is stored somewhere in the backing array. -/
def Retains (m : Mem T) (s : Slice) (x : T) : Prop := x ∈ backing m s

/-- **C93 violated** by the priority queue: with any comparator, after any history, `Pop` (which removes `x`) and `Clear` (which removes everything) leave every
element the queue held before the call in its backing array, `x` included. -/
theorem C93_priorityqueue_violated (zero : T) (ops : List (Op T × Nat)) {m0 m : Mem T} {s0 s : Slice} {os : List (Out T)} (hn : new zero = .ok (m0, s0))
    (hr : run zero cmp ops m0 s0 = .ok (os, m, s)) (extra : Nat) :
    (contents m s ≠ [] → ∃ x m' s', step zero cmp extra .pop m s = .ok (.val x, m', s') ∧ (x :: contents m' s').Perm (contents m s) ∧ ∀ y ∈ contents m s, Retains m' s' y) ∧
    (∃ s', step zero cmp extra .clear m s = .ok (.unit, m, s') ∧ contents m s' = [] ∧ ∀ y ∈ contents m s, Retains m s' y) := by
  obtain ⟨m1, s1, e1, hs1⟩ := new_shows zero
  rw [e1] at hn; cases hn
  have hb := run_both (cmp := cmp) zero ops hs1
  rw [hr] at hb
  have hw : WF m s := by
    revert hb
    generalize Heap.run cmp (ops.map Prod.fst) [] = q
    intro hb
    cases hb with | ok e => exact e.2.1
  have hs : Shows s m (contents m s) := ⟨hw, rfl⟩
  constructor
  · intro hne
    obtain ⟨x, h', e, hp⟩ : ∃ x h', Heap.pop cmp (contents m s) = .ok (x, h') ∧ (x :: h').Perm (contents m s) := by
      obtain ⟨x, l, hx⟩ := List.exists_cons_of_ne_nil hne
      obtain ⟨h', e, hp⟩ := pop_any cmp x l
      rw [hx]
      exact ⟨x, h', e, hp.cons x⟩
    have hb := pop_both (cmp := cmp) hs
    rw [e] at hb
    cases hq : pop cmp m s with
    | panic => rw [hq] at hb; cases hb
    | outOfFuel => rw [hq] at hb; cases hb
    | ok a =>
      rw [hq] at hb
      obtain ⟨x', m', s'⟩ := a
      cases hb with
      | ok e =>
        obtain ⟨rfl, e2, e3, e4⟩ := e
        refine ⟨x', m', s', by simp only [step, hq, Res.ok_bind], by rw [e2.2]; exact hp, fun y hy => ?_⟩
        have := e4 y (by
          have := hp.mem_iff.2 hy
          rw [List.mem_append, List.mem_singleton]
          exact (List.mem_cons.1 this).symm)
        have e3 : s'.arr = s.arr := e3
        unfold Retains backing at *
        rw [e3]
        exact this
  · obtain ⟨s', e, w, c, ea, -⟩ := reslice_prefix hw (k := 0) (by omega) (by omega)
    refine ⟨s', by simp only [step, e, Res.ok_bind], by rw [c]; rfl, fun y hy => ?_⟩
    have := List.mem_of_mem_drop (List.mem_of_mem_take hy)
    simp only [Retains, backing, ea] at this ⊢
    exact this

/-- Non-vacuity: after pushing 5 and 3 and popping 3, the queue with the one element 5 still keeps 3 alive. -/
example : ∃ m s, run (0 : Int) (fun x y => x - y) [(.push 5, 3), (.push 3, 0), (.pop, 0)] [[]] ⟨0, 0, 0, 0⟩ = .ok ([.unit, .unit, .val 3], m, s) ∧ contents m s = [5] ∧ Retains m s 3 :=
  ⟨[[], [5, 3, 0, 0]], ⟨1, 0, 1, 4⟩, rfl, rfl, by simp [Retains, backing]⟩

/-- `C93_priorityqueue_violated` on two queued elements. -/
example : ∃ x m' s', step (0 : Int) (fun x y => x - y) 0 .pop [[], [3, 5, 0, 0]] ⟨1, 0, 2, 4⟩ = .ok (.val x, m', s') ∧ (x :: contents m' s').Perm [3, 5] ∧ ∀ y ∈ [3, 5], Retains m' s' y :=
  (C93_priorityqueue_violated (cmp := fun x y => x - y) (0 : Int) [(.push 5, 3), (.push 3, 0)] (m0 := [[]]) (s0 := ⟨0, 0, 0, 0⟩) (m := [[], [3, 5, 0, 0]]) (s := ⟨1, 0, 2, 4⟩)
    (os := [.unit, .unit]) rfl rfl 0).1 (by simp [contents, backing])

/-- `C27_slice` on a history with two reallocations. -/
example : ∃ m s, new (0 : Int) = .ok (m, s) ∧ SpecRun (fun x y : Int => x - y) [.push 5, .push 3, .push 4, .pop, .top, .clear, .pop] []
    (outs (run (0 : Int) (fun x y => x - y) [(.push 5, 0), (.push 3, 0), (.push 4, 2), (.pop, 0), (.top, 0), (.clear, 0), (.pop, 0)] m s)) :=
  C27_slice ⟨fun x y => by omega, fun x y z => by omega⟩ 0 [(.push 5, 0), (.push 3, 0), (.push 4, 2), (.pop, 0), (.top, 0), (.clear, 0), (.pop, 0)]

end GoSTL.Heap.Slice
