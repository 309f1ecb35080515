import Verif.Adapter.Props
/-!
# Stacks and queues over containers that the caller supplies (`WithContainer`)

`WithContainer(c)` makes the adapter work on `c` itself: what `c` holds already is in the adapter, and several adapters (and the caller) may use the
same container. Here a program creates containers, adapters over them, and calls all of them in any order.
-/
namespace GoSTL.Adapter.Shared
variable {C T : Type}

/-! ## Model -/

/-- container.go:4-15 `Container` with `PushFront`. -/
structure Full (C T : Type) extends Container C T where
  pushFront : C → T → Res C

/-- What an adapter is. -/
inductive Kind
  | stack
  | queue
  deriving DecidableEq

/-- The containers, and for every adapter its kind and its container (queue.go:48-51, stack.go:47-50). -/
structure World (C : Type) where
  cells : List C
  adapters : List (Kind × Nat)

/-- Direct calls of the container. -/
inductive COp (T : Type)
  | pushBack (v : T)
  | pushFront (v : T)
  | front
  | back
  | popFront
  | popBack
  | empty
  | size
  | clear

/-- What a program does. -/
inductive Op (C T : Type)
  /-- A new container of the caller. -/
  | mk (c : C)
  /-- `queue.New(WithContainer(c))`, queue.go:33-37, 54-67. -/
  | newQueue (c : Nat)
  /-- `stack.New(WithContainer(c))`, stack.go:32-36, 53-66. -/
  | newStack (c : Nat)
  | onQueue (a : Nat) (op : QueueOp T)
  | onStack (a : Nat) (op : StackOp T)
  | direct (c : Nat) (op : COp T)

/-- A direct call of the container (container.go:4-15). -/
def cStep (K : Full C T) (op : COp T) (c : C) : Res (Out T × C) :=
  match op with
  | .pushBack v => do let c ← K.pushBack c v; .ok (.unit, c)
  | .pushFront v => do let c ← K.pushFront c v; .ok (.unit, c)
  | .front => do let x ← K.front c; .ok (.val x, c)
  | .back => do let x ← K.back c; .ok (.val x, c)
  | .popFront => do let (x, c) ← K.popFront c; .ok (.val x, c)
  | .popBack => do let (x, c) ← K.popBack c; .ok (.val x, c)
  | .empty => do let b ← K.empty c; .ok (.bool b, c)
  | .size => do let n ← K.size c; .ok (.int n, c)
  | .clear => do let c ← K.clear c; .ok (.unit, c)

/-- A call that works on cell `i`. -/
def onCell (cells : List C) (i : Nat) (f : C → Res (Out T × C)) : Res (Out T × List C) := do
  let c ← Res.ofOption cells[i]?
  let (o, c) ← f c
  .ok (o, cells.set i c)

/-- The container of adapter `a`, which must be of the given kind. -/
def cellOf (adapters : List (Kind × Nat)) (k : Kind) (a : Nat) : Res Nat := do
  let (k', i) ← Res.ofOption adapters[a]?
  if k' = k then .ok i else .panic

/-- queue.go:54-130, stack.go:53-125. -/
def step (K : Full C T) (op : Op C T) (w : World C) : Res (Out T × World C) :=
  match op with
  | .mk c => .ok (.unit, { w with cells := w.cells ++ [c] })
  | .newQueue i => if i < w.cells.length then .ok (.unit, { w with adapters := w.adapters ++ [(.queue, i)] }) else .panic
  | .newStack i => if i < w.cells.length then .ok (.unit, { w with adapters := w.adapters ++ [(.stack, i)] }) else .panic
  | .onQueue a op => do
    let i ← cellOf w.adapters .queue a
    let (o, cells) ← onCell w.cells i (queueStep K.toContainer op)
    .ok (o, { w with cells := cells })
  | .onStack a op => do
    let i ← cellOf w.adapters .stack a
    let (o, cells) ← onCell w.cells i (stackStep K.toContainer op)
    .ok (o, { w with cells := cells })
  | .direct i op => do
    let (o, cells) ← onCell w.cells i (cStep K op)
    .ok (o, { w with cells := cells })

/-! ## Specification: numbered sequences -/

/-- What a call reads or changes of a sequence: queues and stacks push at the end, queues pop at the front, stacks at the end. -/
def cSpec (op : COp T) (l : List T) : Res (Out T × List T) :=
  match op with
  | .pushBack v => .ok (.unit, l ++ [v])
  | .pushFront v => .ok (.unit, v :: l)
  | .front => do let x ← Res.ofOption l.head?; .ok (.val x, l)
  | .back => do let x ← Res.ofOption l.getLast?; .ok (.val x, l)
  | .popFront => do let x ← Res.ofOption l.head?; .ok (.val x, l.tail)
  | .popBack => do let x ← Res.ofOption l.getLast?; .ok (.val x, l.dropLast)
  | .empty => .ok (.bool l.isEmpty, l)
  | .size => .ok (.int l.length, l)
  | .clear => .ok (.unit, [])

/-- The container call that a queue call makes (queue.go:70-123). -/
def QueueOp.toC : QueueOp T → COp T
  | .push v => .pushBack v
  | .pop => .popFront
  | .front => .front
  | .back => .back
  | .size => .size
  | .empty => .empty
  | .clear => .clear

/-- The container call that a stack call makes (stack.go:69-114). -/
def StackOp.toC : StackOp T → COp T
  | .push v => .pushBack v
  | .pop => .popBack
  | .top => .back
  | .size => .size
  | .empty => .empty
  | .clear => .clear

/-- `start c` is what container `c` holds when it comes into play. -/
def specStep (start : C → List T) (op : Op C T) (w : World (List T)) : Res (Out T × World (List T)) :=
  match op with
  | .mk c => .ok (.unit, { w with cells := w.cells ++ [start c] })
  | .newQueue i => if i < w.cells.length then .ok (.unit, { w with adapters := w.adapters ++ [(.queue, i)] }) else .panic
  | .newStack i => if i < w.cells.length then .ok (.unit, { w with adapters := w.adapters ++ [(.stack, i)] }) else .panic
  | .onQueue a op => do
    let i ← cellOf w.adapters .queue a
    let (o, cells) ← onCell w.cells i (cSpec (QueueOp.toC op))
    .ok (o, { w with cells := cells })
  | .onStack a op => do
    let i ← cellOf w.adapters .stack a
    let (o, cells) ← onCell w.cells i (cSpec (StackOp.toC op))
    .ok (o, { w with cells := cells })
  | .direct i op => do
    let (o, cells) ← onCell w.cells i (cSpec op)
    .ok (o, { w with cells := cells })

/-! ## Proof -/

/-- A container that holds a sequence, as `Lawful`, with `PushFront`. -/
structure LawfulFull (K : Full C T) (R : C → List T → Prop) : Prop extends Lawful K.toContainer R where
  pushFront : ∀ c l v, R c l → ∃ c', K.pushFront c v = .ok c' ∧ R c' (v :: l)

theorem c_step {K : Full C T} {R : C → List T → Prop} (hK : LawfulFull K R) (op : COp T) (c : C) (l : List T) (h : R c l) :
    Agree R (cStep K op c) (cSpec op l) := by
  cases op with
  | pushBack v => obtain ⟨c', e, h'⟩ := hK.pushBack c l v h; simp only [cStep, cSpec, e, Res.ok_bind]; exact .ok h'
  | pushFront v => obtain ⟨c', e, h'⟩ := hK.pushFront c l v h; simp only [cStep, cSpec, e, Res.ok_bind]; exact .ok h'
  | front =>
    simp only [cStep, cSpec, hK.front c l h]
    cases l.head? with
    | none => exact .panic
    | some x => exact .ok h
  | back =>
    simp only [cStep, cSpec, hK.back c l h]
    cases l.getLast? with
    | none => exact .panic
    | some x => exact .ok h
  | popFront =>
    cases l with
    | nil => simp only [cStep, cSpec, hK.popFront0 c h, Res.panic_bind]; exact .panic
    | cons x l => obtain ⟨c', e, h'⟩ := hK.popFront c x l h; simp only [cStep, cSpec, e, Res.ok_bind]; exact .ok h'
  | popBack =>
    rcases List.eq_nil_or_concat l with rfl | ⟨l, x, rfl⟩
    · simp only [cStep, cSpec, hK.popBack0 c h, Res.panic_bind]; exact .panic
    · rw [List.concat_eq_append] at h ⊢
      obtain ⟨c', e, h'⟩ := hK.popBack c x l h
      simp only [cStep, cSpec, e, Res.ok_bind, List.getLast?_concat, List.dropLast_concat]; exact .ok h'
  | empty => simp only [cStep, cSpec, hK.empty c l h, Res.ok_bind]; exact .ok h
  | size => simp only [cStep, cSpec, hK.size c l h, Res.ok_bind]; exact .ok h
  | clear => obtain ⟨c', e, h'⟩ := hK.clear c l h; simp only [cStep, cSpec, e, Res.ok_bind]; exact .ok h'

theorem queue_is (K : Full C T) (op : QueueOp T) (c : C) : queueStep K.toContainer op c = cStep K (QueueOp.toC op) c := by cases op <;> rfl

theorem stack_is (K : Full C T) (op : StackOp T) (c : C) : stackStep K.toContainer op c = cStep K (StackOp.toC op) c := by cases op <;> rfl

/-- The containers hold the sequences; the adapters are the same. -/
structure WRel (R : C → List T → Prop) (w : World C) (s : World (List T)) : Prop where
  cells : List.Forall₂ R w.cells s.cells
  adapters : w.adapters = s.adapters

theorem forall₂_set {R : C → List T → Prop} : ∀ {cs : List C} {ls : List (List T)}, List.Forall₂ R cs ls → ∀ (i : Nat) {c : C} {l : List T}, R c l →
    List.Forall₂ R (cs.set i c) (ls.set i l)
  | _, _, .nil, _, _, _, _ => .nil
  | _, _, .cons h hs, 0, _, _, hr => .cons hr hs
  | _, _, .cons h hs, i + 1, _, _, hr => .cons h (forall₂_set hs i hr)

theorem forall₂_get {R : C → List T → Prop} : ∀ {cs : List C} {ls : List (List T)}, List.Forall₂ R cs ls → ∀ (i : Nat),
    (cs[i]? = none ∧ ls[i]? = none) ∨ ∃ c l, cs[i]? = some c ∧ ls[i]? = some l ∧ R c l
  | _, _, .nil, _ => .inl ⟨rfl, rfl⟩
  | _, _, .cons h hs, 0 => .inr ⟨_, _, rfl, rfl, h⟩
  | _, _, .cons h hs, i + 1 => by simpa using forall₂_get hs i

theorem onCell_agree {K : Full C T} {R : C → List T → Prop} (hK : LawfulFull K R) {cs : List C} {ls : List (List T)} (h : List.Forall₂ R cs ls) (i : Nat) (op : COp T) :
    Agree (List.Forall₂ R) (onCell cs i (cStep K op)) (onCell ls i (cSpec op)) := by
  rcases forall₂_get h i with ⟨e1, e2⟩ | ⟨c, l, e1, e2, hr⟩
  · simp only [onCell, e1, e2]; exact .panic
  · have := c_step hK op c l hr
    simp only [onCell, e1, e2, Res.ofOption_some, Res.ok_bind]
    revert this
    generalize cStep K op c = a
    generalize cSpec op l = b
    intro this
    cases this with
    | panic => exact .panic
    | ok hr' => exact .ok (forall₂_set h i hr')

theorem finish {R : C → List T → Prop} {a : Res (Out T × List C)} {b : Res (Out T × List (List T))} (h : Agree (List.Forall₂ R) a b)
    {w : World C} {s : World (List T)} (hw : WRel R w s) :
    Agree (WRel R) (a >>= fun x => .ok (x.1, { w with cells := x.2 })) (b >>= fun x => .ok (x.1, { s with cells := x.2 })) := by
  cases h with
  | panic => exact .panic
  | ok h => exact .ok ⟨h, hw.adapters⟩

theorem cellOf_cases (as : List (Kind × Nat)) (k : Kind) (a : Nat) : cellOf as k a = .panic ∨ ∃ i, cellOf as k a = .ok i := by
  unfold cellOf
  cases as[a]? with
  | none => exact .inl rfl
  | some x =>
    simp only [Res.ofOption_some, Res.ok_bind]
    split
    · exact .inr ⟨_, rfl⟩
    · exact .inl rfl

theorem step_agree {K : Full C T} {R : C → List T → Prop} (hK : LawfulFull K R) (start : C → List T) (op : Op C T) (hop : ∀ c, op = .mk c → R c (start c))
    (w : World C) (s : World (List T)) (hw : WRel R w s) : Agree (WRel R) (step K op w) (specStep start op s) := by
  have hlen := hw.cells.length_eq
  have ha : ∀ k a, cellOf w.adapters k a = cellOf s.adapters k a := by rw [hw.adapters]; intros; rfl
  cases op with
  | mk c => exact .ok ⟨List.rel_append hw.cells (.cons (hop c rfl) .nil), hw.adapters⟩
  | newQueue i =>
    simp only [step, specStep, hlen]
    split
    · exact .ok ⟨hw.cells, by rw [hw.adapters]⟩
    · exact .panic
  | newStack i =>
    simp only [step, specStep, hlen]
    split
    · exact .ok ⟨hw.cells, by rw [hw.adapters]⟩
    · exact .panic
  | onQueue a op =>
    have e : queueStep K.toContainer op = cStep K (QueueOp.toC op) := funext (queue_is K op)
    simp only [step, specStep, ha, e]
    rcases cellOf_cases s.adapters .queue a with h | ⟨i, h⟩
    · rw [h]; exact .panic
    · rw [h]; exact finish (onCell_agree hK hw.cells i _) hw
  | onStack a op =>
    have e : stackStep K.toContainer op = cStep K (StackOp.toC op) := funext (stack_is K op)
    simp only [step, specStep, ha, e]
    rcases cellOf_cases s.adapters .stack a with h | ⟨i, h⟩
    · rw [h]; exact .panic
    · rw [h]; exact finish (onCell_agree hK hw.cells i _) hw
  | direct i op => exact finish (onCell_agree hK hw.cells i _) hw

theorem run_agree {K : Full C T} {R : C → List T → Prop} (hK : LawfulFull K R) (start : C → List T) (ops : List (Op C T)) (hop : ∀ c, .mk c ∈ ops → R c (start c)) :
    ∀ {w : World C} {s : World (List T)}, WRel R w s → Agree (WRel R) (runAll (step K) ops w) (runAll (specStep start) ops s) := by
  induction ops with
  | nil => intro w s h; exact .ok h
  | cons op ops ih =>
    intro w s h
    have := step_agree hK start op (fun c e => hop c (by simp [e])) w s h
    simp only [runAll]
    revert this
    generalize step K op w = a
    generalize specStep start op s = b
    intro this
    cases this with
    | panic => exact .panic
    | ok h1 =>
      have := ih (fun c e => hop c (by simp [e])) h1
      simp only [Res.ok_bind]
      revert this
      generalize runAll (step K) ops _ = a
      generalize runAll (specStep start) ops _ = b
      intro this
      cases this with
      | panic => exact .panic
      | ok h2 => exact .ok h2

/-! ## The containers of the library -/

/-- A deque, or list `l` of a world of lists (the other lists of that world are not used). -/
abbrev Cell (T : Type) := Deque.Deq T ⊕ (Nat × BidList.World T)

/-- The state of a result, changed. -/
def mapL {α β : Type} {A : Type} (f : α → β) : Res (A × α) → Res (A × β)
  | .ok (a, x) => .ok (a, f x)
  | .panic => .panic
  | .outOfFuel => .outOfFuel

/-- The result, changed. -/
def map1 {α β : Type} (f : α → β) : Res α → Res β
  | .ok x => .ok (f x)
  | .panic => .panic
  | .outOfFuel => .outOfFuel

/-- Either of the two containers that the library offers (deque.go, bidlist.go). -/
def either (cfg : Deque.Cfg T) : Full (Cell T) T where
  pushBack
    | .inl d, v => map1 .inl ((dequeContainer cfg).pushBack d v)
    | .inr (l, w), v => map1 (fun w => .inr (l, w)) ((listContainer l).pushBack w v)
  pushFront
    | .inl d, v => map1 .inl (Deque.pushFront cfg d v)
    | .inr (l, w), v => map1 (fun w => .inr (l, w)) (BidList.pushFront w l v)
  front
    | .inl d => (dequeContainer cfg).front d
    | .inr (l, w) => (listContainer l).front w
  back
    | .inl d => (dequeContainer cfg).back d
    | .inr (l, w) => (listContainer l).back w
  popFront
    | .inl d => mapL .inl ((dequeContainer cfg).popFront d)
    | .inr (l, w) => mapL (fun w => .inr (l, w)) ((listContainer l).popFront w)
  popBack
    | .inl d => mapL .inl ((dequeContainer cfg).popBack d)
    | .inr (l, w) => mapL (fun w => .inr (l, w)) ((listContainer l).popBack w)
  empty
    | .inl d => (dequeContainer cfg).empty d
    | .inr (l, w) => (listContainer l).empty w
  size
    | .inl d => (dequeContainer cfg).size d
    | .inr (l, w) => (listContainer l).size w
  clear
    | .inl d => map1 .inl ((dequeContainer cfg).clear d)
    | .inr (l, w) => map1 (fun w => .inr (l, w)) ((listContainer l).clear w)

/-- What a deque or list holds. -/
def CellHolds (cfg : Deque.Cfg T) : Cell T → List T → Prop
  | .inl d, vs => Deque.Inv cfg d vs
  | .inr (l, w), vs => HoldsList l w vs

open BidList BidList.Spec in
theorem list_pushFront (l : Nat) (w : BidList.World T) (vs : List T) (v : T) (h : HoldsList l w vs) : ∃ w', BidList.pushFront w l v = .ok w' ∧ HoldsList l w' (v :: vs) := by
  obtain ⟨S, hi, hl, rfl⟩ := h
  have hf := BidList.step_refines hi (.pushFront l v) (by simp [fresh, handles])
  simp only [BidList.step, BidList.specStep, hl, if_true] at hf
  revert hf
  cases e : pushFront w l v with
  | ok w' =>
    intro hf
    simp only [Res.ok_bind] at hf
    cases hf with
    | ok h' =>
      have hl' : l < S.seqs.length := hl
      refine ⟨w', rfl, _, h', by simpa [Spec.isList, setSeq, addVal] using hl', ?_⟩
      rw [setSeq_seq_self (by exact hl)]
      have hlt : ∀ n ∈ S.seq l, n < S.vals.length := fun n hn => hi.mem_lt hn
      have hv : (S.addVal v).vals[S.vals.length]? = some v := by simp [addVal]
      show (S.addVal v).valsOf _ = _
      rw [valsOf_cons hv, valsOf_grow hlt]
  | panic => intro hf; cases hf
  | outOfFuel => intro hf; cases hf

theorem map1_ok {α β : Type} (f : α → β) {x : Res α} {a : α} (h : x = .ok a) : map1 f x = .ok (f a) := by rw [h]; rfl
theorem mapL_ok {α β A : Type} (f : α → β) {x : Res (A × α)} {y : A} {a : α} (h : x = .ok (y, a)) : mapL f x = .ok (y, f a) := by rw [h]; rfl

theorem either_lawful {cfg : Deque.Cfg T} (hg : cfg.Good) : LawfulFull (either cfg) (CellHolds cfg) where
  pushBack c l v h := by
    cases c with
    | inl d => obtain ⟨d', e, h'⟩ := (deque_lawful hg).pushBack d l v h; exact ⟨.inl d', map1_ok _ e, h'⟩
    | inr p => obtain ⟨d', e, h'⟩ := (list_lawful p.1).pushBack p.2 l v h; exact ⟨.inr (p.1, d'), map1_ok _ e, h'⟩
  pushFront c l v h := by
    cases c with
    | inl d => obtain ⟨d', e, h'⟩ := Deque.pushFront_spec hg h v; exact ⟨.inl d', map1_ok _ e, h'⟩
    | inr p => obtain ⟨d', e, h'⟩ := list_pushFront p.1 p.2 l v h; exact ⟨.inr (p.1, d'), map1_ok _ e, h'⟩
  front c l h := by
    cases c with
    | inl d => exact (deque_lawful hg).front d l h
    | inr p => exact (list_lawful p.1).front p.2 l h
  back c l h := by
    cases c with
    | inl d => exact (deque_lawful hg).back d l h
    | inr p => exact (list_lawful p.1).back p.2 l h
  popFront c x l h := by
    cases c with
    | inl d => obtain ⟨d', e, h'⟩ := (deque_lawful hg).popFront d x l h; exact ⟨.inl d', mapL_ok _ e, h'⟩
    | inr p => obtain ⟨d', e, h'⟩ := (list_lawful p.1).popFront p.2 x l h; exact ⟨.inr (p.1, d'), mapL_ok _ e, h'⟩
  popFront0 c h := by
    cases c with
    | inl d => show mapL _ _ = _; rw [(deque_lawful hg).popFront0 d h]; rfl
    | inr p => show mapL _ _ = _; rw [(list_lawful p.1).popFront0 p.2 h]; rfl
  popBack c x l h := by
    cases c with
    | inl d => obtain ⟨d', e, h'⟩ := (deque_lawful hg).popBack d x l h; exact ⟨.inl d', mapL_ok _ e, h'⟩
    | inr p => obtain ⟨d', e, h'⟩ := (list_lawful p.1).popBack p.2 x l h; exact ⟨.inr (p.1, d'), mapL_ok _ e, h'⟩
  popBack0 c h := by
    cases c with
    | inl d => show mapL _ _ = _; rw [(deque_lawful hg).popBack0 d h]; rfl
    | inr p => show mapL _ _ = _; rw [(list_lawful p.1).popBack0 p.2 h]; rfl
  empty c l h := by
    cases c with
    | inl d => exact (deque_lawful hg).empty d l h
    | inr p => exact (list_lawful p.1).empty p.2 l h
  size c l h := by
    cases c with
    | inl d => exact (deque_lawful hg).size d l h
    | inr p => exact (list_lawful p.1).size p.2 l h
  clear c l h := by
    cases c with
    | inl d => obtain ⟨d', e, h'⟩ := (deque_lawful hg).clear d l h; exact ⟨.inl d', map1_ok _ e, h'⟩
    | inr p => obtain ⟨d', e, h'⟩ := (list_lawful p.1).clear p.2 l h; exact ⟨.inr (p.1, d'), map1_ok _ e, h'⟩

/-! ## Theorems -/

/-- **C86** For every container implementation `K` that behaves as a sequence (`R c l`: container `c` holds the elements `l`), every program that makes containers
(also non-empty ones), stacks and queues over them (several over the same one, too) and calls all of these in any order gets the results of plain sequences, one for
each container: a queue or stack starts with what its container holds, pushes at the end of it, pops at its front or end, and sees what others do to it. -/
theorem C86_given_container {K : Full C T} {R : C → List T → Prop} (hK : LawfulFull K R) (start : C → List T) (ops : List (Op C T))
    (hop : ∀ c, .mk c ∈ ops → R c (start c)) :
    outs (runAll (step K) ops ⟨[], []⟩) = outs (runAll (specStep start) ops ⟨[], []⟩) :=
  (run_agree hK start ops hop ⟨.nil, rfl⟩).outs_eq

/-- **C86** for the deques and lists of the library. -/
theorem C86_library {cfg : Deque.Cfg T} (hg : cfg.Good) (start : Cell T → List T) (ops : List (Op (Cell T) T)) (hop : ∀ c, .mk c ∈ ops → CellHolds cfg c (start c)) :
    outs (runAll (step (either cfg)) ops ⟨[], []⟩) = outs (runAll (specStep start) ops ⟨[], []⟩) :=
  C86_given_container (either_lawful hg) start ops hop

/-- **C86** A queue and a stack over one container are two ends of one sequence: after any program, what the queue pushes the stack pops next, and the other adapters
on the container see it gone. -/
theorem C86_two_ends {K : Full C T} {R : C → List T → Prop} (hK : LawfulFull K R) (start : C → List T) (ops : List (Op C T)) (hop : ∀ c, .mk c ∈ ops → R c (start c))
    {os : List (Out T)} {w : World C} (hr : runAll (step K) ops ⟨[], []⟩ = .ok (os, w)) {q s i : Nat} (hq : w.adapters[q]? = some (.queue, i)) (hs : w.adapters[s]? = some (.stack, i))
    (hi : i < w.cells.length) (v : T) :
    ∃ n, outs (runAll (step K) [.onStack s .size, .onQueue q (.push v), .onQueue q .back, .onStack s .pop, .onQueue q .size] w) = .ok [.int n, .unit, .val v, .val v, .int n] := by
  have h := run_agree hK start ops hop (w := ⟨[], []⟩) (s := ⟨[], []⟩) ⟨.nil, rfl⟩
  rw [hr] at h
  revert h
  generalize runAll (specStep start) ops _ = b
  intro h
  cases h with
  | ok hw =>
    rename_i s'
    have := (run_agree hK start [.onStack s .size, .onQueue q (.push v), .onQueue q .back, .onStack s .pop, .onQueue q .size] (by simp) hw).outs_eq
    rw [this]
    have hi' : i < s'.cells.length := by rw [← hw.cells.length_eq]; exact hi
    have hl : s'.cells[i]? = some s'.cells[i] := List.getElem?_eq_getElem hi'
    rw [hw.adapters] at hq hs
    have e1 : cellOf s'.adapters .queue q = .ok i := by simp [cellOf, hq]
    have e2 : cellOf s'.adapters .stack s = .ok i := by simp [cellOf, hs]
    refine ⟨s'.cells[i].length, ?_⟩
    simp [runAll, specStep, e1, e2, onCell, hl, cSpec, QueueOp.toC, StackOp.toC, hi', outs]

/-- A program with a filled deque, an empty list, and several adapters. -/
def demo : List (Op (Cell Nat) Nat) :=
  [.mk (.inl Deque.new), .direct 0 (.pushFront 5), .direct 0 (.pushFront 4), .newQueue 0, .newStack 0, .onQueue 0 (.push 6), .onStack 1 .pop, .onQueue 0 .pop,
   .mk (.inr (0, BidList.newList ⟨[], []⟩)), .newStack 1, .onStack 2 (.push 9), .direct 1 .popFront, .onStack 2 .empty, .onQueue 0 .size]

/-- What the two containers of the demo hold at first. -/
def demoStart : Cell Nat → List Nat := fun _ => []

/-- C86 is not vacuous: the demo meets the hypotheses, and this is what it returns. -/
example : outs (runAll (step (either (Deque.goCfg 0))) demo ⟨[], []⟩) =
    .ok [.unit, .unit, .unit, .unit, .unit, .unit, .val 6, .val 4, .unit, .unit, .unit, .val 9, .bool true, .int 1] := by
  rw [C86_library (Deque.goCfg_good 0) demoStart demo]
  · rfl
  · intro c hc
    simp only [demo, List.mem_cons, reduceCtorEq, Op.mk.injEq, List.not_mem_nil, or_false, false_or] at hc
    rcases hc with rfl | rfl
    · exact Deque.new_inv
    · exact newList_holds BidList.start BidList.specStart BidList.start_inv

set_option maxRecDepth 40000 in
/-- `C86_given_container` and `C86_two_ends` for the library's own containers, on the demo program: adapter 0 is a queue and adapter 1 a stack over cell 0. -/
example : ∃ os w, runAll (step (either (Deque.goCfg 0))) demo ⟨[], []⟩ = .ok (os, w) ∧
    ∃ n, outs (runAll (step (either (Deque.goCfg 0))) [.onStack 1 .size, .onQueue 0 (.push 3), .onQueue 0 .back, .onStack 1 .pop, .onQueue 0 .size] w) =
      .ok [.int n, .unit, .val 3, .val 3, .int n] := by
  have hd : ∀ c, .mk c ∈ demo → CellHolds (Deque.goCfg 0) c (demoStart c) := by
    intro c hc
    simp only [demo, List.mem_cons, reduceCtorEq, Op.mk.injEq, List.not_mem_nil, or_false, false_or] at hc
    rcases hc with rfl | rfl
    · exact Deque.new_inv
    · exact newList_holds BidList.start BidList.specStart BidList.start_inv
  have hK := either_lawful (Deque.goCfg_good (0 : Nat))
  have hg := C86_given_container hK demoStart demo hd
  have h0 : ∃ os w, runAll (step (either (Deque.goCfg 0))) demo ⟨[], []⟩ = .ok (os, w) ∧ w.adapters[0]? = some (.queue, 0) ∧ w.adapters[1]? = some (.stack, 0) ∧
    0 < w.cells.length := ⟨_, _, rfl, rfl, rfl, by decide⟩
  obtain ⟨os, w, e, e0, e1, e2⟩ := h0
  exact ⟨os, w, e, C86_two_ends hK demoStart demo hd e e0 e1 e2 3⟩

end GoSTL.Adapter.Shared
