import Verif.Adapter.Model
/-!
# C03, C04: queues are first-in-first-out, stacks last-in-first-out, on both containers
-/
namespace GoSTL.Adapter
variable {C T : Type}

/-! ## Specification -/

/-- A queue as a sequence, oldest value first. -/
def queueSpec (op : QueueOp T) (q : List T) : Res (Out T × List T) :=
  match op with
  | .push v => .ok (.unit, q ++ [v])
  | .pop => match q with
    | [] => .panic
    | x :: q => .ok (.val x, q)
  | .front => match q with
    | [] => .panic
    | x :: _ => .ok (.val x, q)
  | .back => match q.getLast? with
    | none => .panic
    | some x => .ok (.val x, q)
  | .size => .ok (.int q.length, q)
  | .empty => .ok (.bool q.isEmpty, q)
  | .clear => .ok (.unit, [])

/-- A stack as a sequence, newest value first. -/
def stackSpec (op : StackOp T) (s : List T) : Res (Out T × List T) :=
  match op with
  | .push v => .ok (.unit, v :: s)
  | .pop => match s with
    | [] => .panic
    | x :: s => .ok (.val x, s)
  | .top => match s with
    | [] => .panic
    | x :: _ => .ok (.val x, s)
  | .size => .ok (.int s.length, s)
  | .empty => .ok (.bool s.isEmpty, s)
  | .clear => .ok (.unit, [])

/-- The results of a run, or how it ended. -/
def outs {α β : Type} : Res (α × β) → Res α
  | .ok (a, _) => .ok a
  | .panic => .panic
  | .outOfFuel => .outOfFuel

/-! ## Lawful containers -/

/-- The container behaves as the sequence `R` relates it to. -/
structure Lawful (K : Container C T) (R : C → List T → Prop) : Prop where
  pushBack : ∀ c l v, R c l → ∃ c', K.pushBack c v = .ok c' ∧ R c' (l ++ [v])
  front : ∀ c l, R c l → K.front c = Res.ofOption l.head?
  back : ∀ c l, R c l → K.back c = Res.ofOption l.getLast?
  popFront : ∀ c x l, R c (x :: l) → ∃ c', K.popFront c = .ok (x, c') ∧ R c' l
  popFront0 : ∀ c, R c [] → K.popFront c = .panic
  popBack : ∀ c x l, R c (l ++ [x]) → ∃ c', K.popBack c = .ok (x, c') ∧ R c' l
  popBack0 : ∀ c, R c [] → K.popBack c = .panic
  empty : ∀ c l, R c l → K.empty c = .ok l.isEmpty
  size : ∀ c l, R c l → K.size c = .ok l.length
  clear : ∀ c l, R c l → ∃ c', K.clear c = .ok c' ∧ R c' []

/-- Both panic, or both return the same and the states still correspond. -/
inductive Agree {α S S' : Type} (R : S → S' → Prop) : Res (α × S) → Res (α × S') → Prop
  | ok {a : α} {s : S} {s' : S'} : R s s' → Agree R (.ok (a, s)) (.ok (a, s'))
  | panic : Agree R .panic .panic

theorem Agree.outs_eq {α S S' : Type} {R : S → S' → Prop} {a : Res (α × S)} {b : Res (α × S')} (h : Agree R a b) : outs a = outs b := by
  cases h <;> rfl

theorem runAll_agree {Op Out S S' : Type} {R : S → S' → Prop} {f : Op → S → Res (Out × S)} {g : Op → S' → Res (Out × S')}
    (hfg : ∀ op s s', R s s' → Agree R (f op s) (g op s')) (ops : List Op) :
    ∀ {s : S} {s' : S'}, R s s' → Agree R (runAll f ops s) (runAll g ops s') := by
  induction ops with
  | nil => intro s s' h; exact .ok h
  | cons op ops ih =>
    intro s s' h
    have h1 := hfg op s s' h
    simp only [runAll]
    revert h1
    generalize f op s = a
    generalize g op s' = b
    intro h1
    cases h1 with
    | panic => exact .panic
    | ok hr =>
      have h2 := ih hr
      simp only [Res.ok_bind]
      revert h2
      generalize runAll f ops _ = a
      generalize runAll g ops _ = b
      intro h2
      cases h2 with
      | panic => exact .panic
      | ok hr => exact .ok hr

theorem queue_step {K : Container C T} {R : C → List T → Prop} (hK : Lawful K R) (op : QueueOp T) (c : C) (l : List T) (h : R c l) :
    Agree R (queueStep K op c) (queueSpec op l) := by
  cases op with
  | push v =>
    obtain ⟨c', e, h'⟩ := hK.pushBack c l v h
    simp only [queueStep, queueSpec, e, Res.ok_bind]; exact .ok h'
  | pop =>
    cases l with
    | nil => simp only [queueStep, queueSpec, hK.popFront0 c h, Res.panic_bind]; exact .panic
    | cons x l =>
      obtain ⟨c', e, h'⟩ := hK.popFront c x l h
      simp only [queueStep, queueSpec, e, Res.ok_bind]; exact .ok h'
  | front =>
    cases l with
    | nil => simp only [queueStep, queueSpec, hK.front c _ h]; exact .panic
    | cons x l => simp only [queueStep, queueSpec, hK.front c _ h]; exact .ok h
  | back =>
    simp only [queueStep, queueSpec, hK.back c _ h]
    cases l.getLast? with
    | none => exact .panic
    | some x => exact .ok h
  | size => simp only [queueStep, queueSpec, hK.size c _ h]; exact .ok h
  | empty => simp only [queueStep, queueSpec, hK.empty c _ h]; exact .ok h
  | clear =>
    obtain ⟨c', e, h'⟩ := hK.clear c l h
    simp only [queueStep, queueSpec, e, Res.ok_bind]; exact .ok h'

theorem stack_step {K : Container C T} {R : C → List T → Prop} (hK : Lawful K R) (op : StackOp T) (c : C) (l : List T) (h : R c l.reverse) :
    Agree (fun c l => R c l.reverse) (stackStep K op c) (stackSpec op l) := by
  cases op with
  | push v =>
    obtain ⟨c', e, h'⟩ := hK.pushBack c _ v h
    simp only [stackStep, stackSpec, e, Res.ok_bind]; exact .ok (by simpa using h')
  | pop =>
    cases l with
    | nil => simp only [stackStep, stackSpec, hK.popBack0 c h, Res.panic_bind]; exact .panic
    | cons x l =>
      obtain ⟨c', e, h'⟩ := hK.popBack c x l.reverse (by simpa using h)
      simp only [stackStep, stackSpec, e, Res.ok_bind]; exact .ok h'
  | top =>
    cases l with
    | nil => simp only [stackStep, stackSpec, hK.back c _ h]; exact .panic
    | cons x l =>
      have : K.back c = .ok x := by rw [hK.back c _ h]; simp
      simp only [stackStep, stackSpec, this]; exact .ok h
  | size =>
    have : K.size c = .ok (l.length : Int) := by rw [hK.size c _ h]; simp
    simp only [stackStep, stackSpec, this]; exact .ok h
  | empty =>
    have : K.empty c = .ok l.isEmpty := by rw [hK.empty c _ h]; simp
    simp only [stackStep, stackSpec, this]; exact .ok h
  | clear =>
    obtain ⟨c', e, h'⟩ := hK.clear c _ h
    simp only [stackStep, stackSpec, e, Res.ok_bind]; exact .ok h'

/-! ## The two containers are lawful -/

theorem deque_lawful {cfg : Deque.Cfg T} (hg : cfg.Good) : Lawful (dequeContainer cfg) (Deque.Inv cfg) where
  pushBack c l v h := Deque.pushBack_spec hg h v
  front c l h := Deque.front_spec h
  back c l h := Deque.back_spec h
  popFront c x l h := Deque.popFront_spec hg h
  popFront0 c h := Deque.popFront_panic h
  popBack c x l h := Deque.popBack_spec hg h
  popBack0 c h := Deque.popBack_panic h
  empty c l h := by
    simp only [dequeContainer, Deque.empty, h.size]
    cases l <;> simp; omega
  size c l h := by simp only [dequeContainer, Deque.size, h.size]
  clear c l h := Deque.clear_spec hg h

/-- List `l` of the world holds the values `vs`. -/
def HoldsList (l : Nat) (w : BidList.World T) (vs : List T) : Prop :=
  ∃ S, BidList.WInv w S ∧ S.isList l ∧ S.valsOf (S.seq l) = vs

open BidList BidList.Spec in
theorem list_lawful (l : Nat) : Lawful (listContainer (T := T) l) (HoldsList l) where
  pushBack w vs v h := by
    obtain ⟨S, hi, hl, rfl⟩ := h
    obtain ⟨w', e, h', -⟩ := pushBack_spec hi v (seqs_some hl)
    have hl' : l < S.seqs.length := hl
    refine ⟨w', by simp [listContainer, pushBack, e], _, h', by simpa [Spec.isList, setSeq, addVal] using hl', ?_⟩
    rw [setSeq_seq_self (by exact hl)]
    have hlt : ∀ n ∈ S.seq l, n < S.vals.length := fun n hn => hi.mem_lt hn
    show (S.addVal v).valsOf _ = _
    rw [valsOf_append, valsOf_grow hlt, hi.nnode]
    simp [valsOf, addVal]
  front w vs h := by
    obtain ⟨S, hi, hl, rfl⟩ := h
    have := step_refines hi (.front l) (by simp [fresh, handles])
    simp only [step, specStep] at this
    simp only [listContainer]
    cases e : (S.valsOf (S.seq l)).head? <;> rw [e] at this <;> revert this <;> cases front w l <;> intro this <;> cases this <;> rfl
  back w vs h := by
    obtain ⟨S, hi, hl, rfl⟩ := h
    have := step_refines hi (.back l) (by simp [fresh, handles])
    simp only [step, specStep] at this
    simp only [listContainer]
    cases e : (S.valsOf (S.seq l)).getLast? <;> rw [e] at this <;> revert this <;> cases back w l <;> intro this <;> cases this <;> rfl
  popFront w x vs h := by
    obtain ⟨S, hi, hl, e⟩ := h
    obtain ⟨n, s, hs⟩ : ∃ n s, S.seq l = n :: s := by
      cases e' : S.seq l with
      | nil => rw [e'] at e; cases e
      | cons n s => exact ⟨n, s, rfl⟩
    have hn : n ∈ S.seq l := by rw [hs]; simp
    have hlt := hi.mem_lt hn
    have hv : S.vals[n]? = some S.vals[n] := by simp
    rw [hs, valsOf_cons hv] at e
    injection e with e1 e2
    have hf := step_refines hi (.popFront l) (by simp [fresh, handles])
    simp only [step, specStep, hs, List.head?_cons, hv, List.tail_cons, e1] at hf
    revert hf
    cases e3 : popFront w l with
    | ok p =>
      intro hf
      obtain ⟨y, w'⟩ := p
      cases hf with
      | ok h' =>
        refine ⟨w', by simp [listContainer, e3], _, h', by simpa [Spec.isList, setSeq] using hl, ?_⟩
        rw [setSeq_seq_self hl]; exact e2
    | panic => intro hf; cases hf
    | outOfFuel => intro hf; cases hf
  popFront0 w h := by
    obtain ⟨S, hi, hl, e⟩ := h
    have hs : S.seq l = [] := by
      rw [← List.length_eq_zero_iff, ← valsOf_length (fun n hn => hi.mem_lt hn), e]; rfl
    have hf := step_refines hi (.popFront l) (by simp [fresh, handles])
    simp only [step, specStep, hs, List.head?_nil] at hf
    simp only [listContainer]
    revert hf
    cases popFront w l <;> intro hf <;> cases hf
    rfl
  popBack w x vs h := by
    obtain ⟨S, hi, hl, e⟩ := h
    have hne : S.seq l ≠ [] := by
      intro e'; rw [e'] at e; simp [valsOf] at e
    obtain ⟨s, n, hs⟩ : ∃ s n, S.seq l = s ++ [n] := ⟨_, _, (List.dropLast_append_getLast hne).symm⟩
    have hn : n ∈ S.seq l := by rw [hs]; simp
    have hlt := hi.mem_lt hn
    have hv : S.vals[n]? = some S.vals[n] := by simp
    rw [hs, valsOf_concat hv] at e
    obtain ⟨e2, e1⟩ := List.append_inj' e rfl
    injection e1 with e1 _
    have hf := step_refines hi (.popBack l) (by simp [fresh, handles])
    simp only [step, specStep, hs, List.getLast?_concat, hv, List.dropLast_concat, e1] at hf
    revert hf
    cases e3 : popBack w l with
    | ok p =>
      intro hf
      obtain ⟨y, w'⟩ := p
      cases hf with
      | ok h' =>
        refine ⟨w', by simp [listContainer, e3], _, h', by simpa [Spec.isList, setSeq] using hl, ?_⟩
        rw [setSeq_seq_self hl]; exact e2
    | panic => intro hf; cases hf
    | outOfFuel => intro hf; cases hf
  popBack0 w h := by
    obtain ⟨S, hi, hl, e⟩ := h
    have hs : S.seq l = [] := by
      rw [← List.length_eq_zero_iff, ← valsOf_length (fun n hn => hi.mem_lt hn), e]; rfl
    have hf := step_refines hi (.popBack l) (by simp [fresh, handles])
    simp only [step, specStep, hs, List.getLast?_nil] at hf
    simp only [listContainer]
    revert hf
    cases popBack w l <;> intro hf <;> cases hf
    rfl
  empty w vs h := by
    obtain ⟨S, hi, hl, rfl⟩ := h
    have : (S.valsOf (S.seq l)).length = (S.seq l).length := valsOf_length (fun n hn => hi.mem_lt hn)
    simp only [listContainer, empty, hi.lst_good hl, Res.ok_bind]
    rw [← this]
    cases S.valsOf (S.seq l) <;> simp; omega
  size w vs h := by
    obtain ⟨S, hi, hl, rfl⟩ := h
    simp only [listContainer, len, hi.lst_good hl, Res.ok_bind]
    rw [valsOf_length (fun n hn => hi.mem_lt hn)]
  clear w vs h := by
    obtain ⟨S, hi, hl, rfl⟩ := h
    obtain ⟨w', e, h'⟩ := step_clear hi hl
    have hl' : l < S.seqs.length := hl
    refine ⟨w', e, _, h', by simpa [Spec.isList, setSeq] using hl', ?_⟩
    have : ({ S.setSeq l [] with stale := S.stale ++ S.seq l } : Spec T).seq l = [] := by simp [seq, setSeq, hl']
    rw [this]; rfl

/-! ## The properties -/

/-- C03: every history of calls on a queue over a deque returns what the first-in-first-out sequence returns (and panics where it
has nothing to return). The code's deque is `Deque.goCfg`. -/
theorem C03_queue_deque {cfg : Deque.Cfg T} (hg : cfg.Good) (ops : List (QueueOp T)) :
    outs (runAll (queueStep (dequeContainer cfg)) ops Deque.new) = outs (runAll queueSpec ops []) :=
  (runAll_agree (queue_step (deque_lawful hg)) ops Deque.new_inv).outs_eq

theorem newList_holds (w : BidList.World T) (S : BidList.Spec T) (h : BidList.WInv w S) :
    HoldsList w.lists.length (BidList.newList w) [] := by
  refine ⟨_, BidList.step_newList h, ?_, ?_⟩
  · simp [BidList.Spec.isList, h.nlist]
  · simp [BidList.Spec.seq, BidList.Spec.valsOf, h.nlist]

/-- C03 over a list: the list may live in a world with any other lists. -/
theorem C03_queue_list {w : BidList.World T} {S : BidList.Spec T} (h : BidList.Reachable w S) (ops : List (QueueOp T)) :
    outs (runAll (queueStep (listContainer w.lists.length)) ops (BidList.newList w)) = outs (runAll queueSpec ops []) :=
  (runAll_agree (queue_step (list_lawful _)) ops (newList_holds w S h.inv)).outs_eq

/-- C04: every history of calls on a stack over a deque returns what the last-in-first-out sequence returns. -/
theorem C04_stack_deque {cfg : Deque.Cfg T} (hg : cfg.Good) (ops : List (StackOp T)) :
    outs (runAll (stackStep (dequeContainer cfg)) ops Deque.new) = outs (runAll stackSpec ops []) :=
  (runAll_agree (stack_step (deque_lawful hg)) ops (s := Deque.new) (s' := []) Deque.new_inv).outs_eq

theorem C04_stack_list {w : BidList.World T} {S : BidList.Spec T} (h : BidList.Reachable w S) (ops : List (StackOp T)) :
    outs (runAll (stackStep (listContainer w.lists.length)) ops (BidList.newList w)) = outs (runAll stackSpec ops []) :=
  (runAll_agree (stack_step (list_lawful _)) ops (s' := []) (newList_holds w S h.inv)).outs_eq

/-- Pushed and popped values of a history and its results. -/
def pushed : List (QueueOp T) → List T
  | [] => []
  | .push v :: ops => v :: pushed ops
  | _ :: ops => pushed ops
/-- What the pops of a program returned, in order. -/
def popped : List (QueueOp T) → List (Out T) → List T
  | .pop :: ops, .val x :: os => x :: popped ops os
  | _ :: ops, _ :: os => popped ops os
  | _, _ => []

/-- First in, first out: without `Clear` the values popped are, in order, the first values pushed. -/
theorem C03_fifo (ops : List (QueueOp T)) (hc : QueueOp.clear ∉ ops) : ∀ (q q' : List T) (os : List (Out T)),
    runAll queueSpec ops q = .ok (os, q') → popped ops os ++ q' = q ++ pushed ops := by
  induction ops with
  | nil => intro q q' os e; cases e; simp [popped, pushed]
  | cons op ops ih =>
    intro q q' os e
    have hc' : QueueOp.clear ∉ ops := fun c => hc (by simp [c])
    simp only [runAll] at e
    obtain ⟨⟨o, q1⟩, e1, e⟩ := Res.bind_eq_ok.1 e
    obtain ⟨⟨os1, q2⟩, e2, e⟩ := Res.bind_eq_ok.1 e
    cases e
    have := ih hc' _ _ _ e2
    cases op with
    | clear => simp at hc
    | push v => cases e1; simp [popped, pushed, this]
    | pop =>
      cases q with
      | nil => cases e1
      | cons x q => cases e1; simp [popped, pushed, this]
    | front =>
      cases q with
      | nil => cases e1
      | cons x q => cases e1; simpa [popped, pushed] using this
    | back =>
      simp only [queueSpec] at e1
      split at e1
      · cases e1
      · cases e1; simpa [popped, pushed] using this
    | size => cases e1; simpa [popped, pushed] using this
    | empty => cases e1; simpa [popped, pushed] using this

example : outs (runAll (queueStep (dequeContainer Deque.smallCfg)) [.push 1, .push 2, .push 3, .pop, .pop, .push 4, .front, .back, .size]
    Deque.new) = .ok [.unit, .unit, .unit, .val 1, .val 2, .unit, .val 3, .val 4, .int 2] := rfl
example : outs (runAll (stackStep (listContainer 0)) [.push 1, .push 2, .pop, .push 3, .top, .clear, .empty] (BidList.newList BidList.start)) =
    .ok [.unit, .unit, .val 2, .unit, .val (3 : Nat), .unit, .bool true] := rfl

/-! ### The theorems on concrete programs -/

example : outs (runAll (queueStep (dequeContainer (Deque.goCfg 0))) [.push 1, .push 2, .pop, .back, .pop, .pop] Deque.new) =
    outs (runAll queueSpec [.push 1, .push 2, .pop, .back, .pop, .pop] []) := C03_queue_deque (Deque.goCfg_good 0) _
example : ∃ w : BidList.World Nat, outs (runAll (queueStep (listContainer w.lists.length)) [.push 1, .push 2, .pop, .size] (BidList.newList w)) = .ok [.unit, .unit, .val 1, .int 1] := by
  obtain ⟨w, h⟩ := BidList.demo_reachable
  exact ⟨w, (C03_queue_list h _).trans rfl⟩
example : popped [.push 1, .push 2, .pop, .push 3, .pop] [.unit, .unit, .val 1, .unit, .val 2] ++ [3] = [] ++ pushed [.push 1, .push 2, .pop, .push 3, .pop] :=
  C03_fifo [.push 1, .push 2, .pop, .push 3, .pop] (by simp) [] [3] [.unit, .unit, .val 1, .unit, .val 2] rfl
example : outs (runAll (stackStep (dequeContainer (Deque.goCfg 0))) [.push 1, .push 2, .pop, .top, .pop, .pop] Deque.new) =
    outs (runAll stackSpec [.push 1, .push 2, .pop, .top, .pop, .pop] []) := C04_stack_deque (Deque.goCfg_good 0) _
example : ∃ w : BidList.World Nat, outs (runAll (stackStep (listContainer w.lists.length)) [.push 1, .push 2, .pop, .size] (BidList.newList w)) = .ok [.unit, .unit, .val 2, .int 1] := by
  obtain ⟨w, h⟩ := BidList.demo_reachable
  exact ⟨w, (C04_stack_list h _).trans rfl⟩

end GoSTL.Adapter
