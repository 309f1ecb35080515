import Verif.Conc.IterRace
import Verif.Adapter.Shared
/-!
# C87: goroutine-safe stacks and queues over one container

`WithGoroutineSafe` gives every adapter a lock of its own (queue.go:26-30, stack.go:25-29: `&gosync.RWMutex{}` each time the option is applied), also when several
adapters get the same container by `WithContainer`.
-/
namespace GoSTL.Conc
open Adapter
variable {ι τ S Op Out T : Type} [DecidableEq ι] [DecidableEq τ]

/-- queue.go:70-130, stack.go:69-125: a call of an adapter with lock `a` on container `i`: `Lock` or `RLock`, the container's method, `Unlock` or `RUnlock`. -/
def adapterCode {writes : Op → Bool} {stp : Op → S → Res (Out × S)} (impl : Impl ι writes stp) (a i : ι) (op : Op) (k : Res Out → Code ι S) : Code ι S :=
  .acq a (writes op) ((impl.code i op).toCode fun r => .rel a (writes op) (k r))

theorem run_adapter_call {writes : Op → Bool} {stp : Op → S → Res (Out × S)} (impl : Impl ι writes stp) {a i : ι} {op : Op} (hop : writes op = true)
    {t : τ} {k : Res Out → Code ι S} (c : DConf ι S τ) (hl : c.lck a = ⟨fun _ => 0, none, none⟩) (h : c.thr t = adapterCode impl a i op k)
    (hch : (lift stp op (c.obj i)).1 ≠ c.obj i) :
    ∃ f k' l, (∀ b, b ≠ a → l b = c.lck b) ∧ DSteps c ⟨c.obj, l, Function.update c.thr t (.upd i f k')⟩ := by
  simp only [adapterCode, hop] at h
  have s1 := (DSteps.refl c).step (.wait h (by rw [hl]))
  have s2 := s1.step (.lock (t := t) (i := a) h (by simp) (by simp [hl]) (by simp [hl]))
  generalize hc1 : ({ c with lck := _, thr := _ } : DConf ι S τ) = c1 at s2
  have hok := impl.ok i op
  rw [hop] at hok
  have h1 : c1.thr t = (impl.code i op).toCode (fun r => Code.rel a true (k r)) := by rw [← hc1]; simp
  have h2 : c1.obj = c.obj := by rw [← hc1]
  have h3 : Function.update c1.thr t = Function.update c.thr t := by rw [← hc1]; funext x; simp [Function.update_idem]
  have h4 : ∀ b, b ≠ a → c1.lck b = c.lck b := by intro b hb; rw [← hc1]; simp [Function.update_of_ne hb]
  obtain ⟨f, k', s3⟩ := run_writer _ _ hok c1 h1 (by rw [h2, (impl.eff i op c.obj).1]; exact hch)
  rw [h2, h3] at s3
  exact ⟨f, k', _, h4, s2.trans s3⟩

/-- Two adapters with different locks, on the same container: two calls that change it race. -/
theorem two_locks_race {writes : Op → Bool} {stp : Op → S → Res (Out × S)} (impl : Impl ι writes stp) {a b i : ι} (hab : a ≠ b) {op op' : Op}
    (hop : writes op = true) (hop' : writes op' = true) {o : ι → S} (hch : (lift stp op (o i)).1 ≠ o i) (hch' : (lift stp op' (o i)).1 ≠ o i)
    {k k' : Res Out → Code ι S} {t u : τ} (htu : t ≠ u) {code : τ → Code ι S}
    (ht : code t = adapterCode impl a i op k) (hu : code u = adapterCode impl b i op' k') :
    ∃ c, DSteps (dstart o code) c ∧ DRace c := by
  obtain ⟨f, kk, l, hl, s1⟩ := run_adapter_call impl hop (dstart o code) rfl ht hch
  obtain ⟨f', kk', l', -, s2⟩ := run_adapter_call impl hop' ⟨o, l, Function.update code t (.upd i f kk)⟩ (hl b (Ne.symm hab)) (t := u) (k := k')
    (by show Function.update code t _ u = _; rw [Function.update_of_ne (Ne.symm htu)]; exact hu) hch'
  refine ⟨_, s1.trans s2, u, t, i, Ne.symm htu, ⟨f', kk', by simp⟩, .inr ⟨f, kk, ?_⟩⟩
  simp [Function.update_of_ne htu]

/-- The calls of a container through a queue or through a stack. -/
abbrev AOp (T : Type) := QueueOp T ⊕ StackOp T

/-- The calls that take `Lock` (queue.go:70-123, stack.go:69-114). -/
def aWrites : AOp T → Bool
  | .inl op => queueWrites op
  | .inr op => stackWrites op

/-- queue.go:70-123, stack.go:69-114. -/
def aStep {C : Type} (K : Container C T) (op : AOp T) (c : C) : Res (Adapter.Out T × C) :=
  match op with
  | .inl op => queueStep K op c
  | .inr op => stackStep K op c

theorem push_changes {C : Type} {K : Container C T} {R : C → List T → Prop} (hK : Lawful K R) {c : C} {l : List T} (h : R c l) (v : T) (op : AOp T)
    (hop : op = .inl (.push v) ∨ op = .inr (.push v)) : (lift (aStep K) op c).1 ≠ c := by
  obtain ⟨c', e, h'⟩ := hK.pushBack c l v h
  have hne : c' ≠ c := by
    rintro rfl
    have h1 := hK.size _ _ h
    have h2 := hK.size _ _ h'
    rw [h1] at h2
    simp at h2
  rcases hop with rfl | rfl <;> simpa [lift, aStep, queueStep, stackStep, e] using hne

/-- **C87 is false** of stacks and queues with `WithGoroutineSafe` over one container given by `WithContainer`: each has its own lock, so two pushes race, whatever the
container, its content, the code of its methods and the kinds of the two adapters. -/
theorem C87_violated {C : Type} {K : Container C T} {R : C → List T → Prop} (hK : Lawful K R) (impl : Impl ι aWrites (aStep K)) {a b i : ι} (hab : a ≠ b)
    {o : ι → C} {l : List T} (ho : R (o i) l) {v v' : T} {op op' : AOp T} (hop : op = .inl (.push v) ∨ op = .inr (.push v)) (hop' : op' = .inl (.push v') ∨ op' = .inr (.push v'))
    {k k' : Res (Adapter.Out T) → Code ι C} {t u : τ} (htu : t ≠ u) {code : τ → Code ι C}
    (ht : code t = adapterCode impl a i op k) (hu : code u = adapterCode impl b i op' k') : ∃ c, DSteps (dstart o code) c ∧ DRace c :=
  two_locks_race impl hab (by rcases hop with rfl | rfl <;> rfl) (by rcases hop' with rfl | rfl <;> rfl)
    (push_changes hK ho v op hop) (push_changes hK ho v' op' hop') htu ht hu

/-- A call of an adapter on what the container holds, in its order: both kinds push at the end, queues pop at the front, stacks at the end. -/
def aSpec (op : AOp T) (l : List T) : Res (Adapter.Out T × List T) :=
  match op with
  | .inl op => Shared.cSpec (Shared.QueueOp.toC op) l
  | .inr op => Shared.cSpec (Shared.StackOp.toC op) l

/-- One goroutine-safe adapter per container, over a container that already holds `p i`: every concurrent execution amounts to calls on sequences, one at a time, and has no
race. Missing from C87: several adapters over one container, for which it is false. (Nothing here uses that the calls of a container are of one kind: a queue and a stack that
shared the lock as well would be covered.) -/
theorem C87_one_adapter_partial {L C : Type} {K : Shared.Full C T} {R : C → List T → Prop} (hK : Shared.LawfulFull K R)
    (client : Client ι τ L (AOp T) (Adapter.Out T)) (impl : Impl ι aWrites (aStep K.toContainer)) {o : ι → C} {p : ι → List T} (h0 : ∀ i, R (o i) (p i))
    {l : τ → L} {log : List τ} {c : Conf ι C τ L} (h : Run (client.prog impl) o l log c) :
    ∃ p' l', seqRun aSpec client log p l = some (p', l') ∧
      (∀ t x, c.thr t = .out x → l' t = x) ∧ (∀ t x i w m, c.thr t = .ins x i w m → l' t = x) ∧
      (∀ i, (∀ t, ¬ Holds c t i true) → R (c.obj i) (p' i)) ∧ ¬ Race c := by
  refine C58_linearizable (fun op s a hr => ?_) client impl h0 h
  cases op with
  | inl op => simp only [aStep, aSpec, Shared.queue_is]; exact Shared.c_step hK _ _ _ hr
  | inr op => simp only [aStep, aSpec, Shared.stack_is]; exact Shared.c_step hK _ _ _ hr

theorem a_readers {C : Type} (K : Container C T) : ReadersRead aWrites (aStep K) := by
  intro op s x s' hw h
  cases op with
  | inl op => exact queue_readers K op s x s' hw h
  | inr op => exact stack_readers K op s x s' hw h

/-- A queue (lock 1) and a stack (lock 2) over the empty deque 0: two pushes race. -/
example : ∃ c, DSteps (dstart (fun _ : Fin 3 => (Deque.new : Deque.Deq Int)) fun t : Fin 2 =>
      if t = 0 then adapterCode (Impl.whole (a_readers (dequeContainer (Deque.goCfg 0)))) 1 0 (.inl (.push 7)) fun _ => .done
      else adapterCode (Impl.whole (a_readers (dequeContainer (Deque.goCfg 0)))) 2 0 (.inr (.push 8)) fun _ => .done) c ∧ DRace c :=
  C87_violated (ι := Fin 3) (τ := Fin 2) (deque_lawful (Deque.goCfg_good (0 : Int))) _ (a := 1) (b := 2) (by decide) Deque.new_inv (v := 7) (v' := 8) (.inl rfl) (.inr rfl) (t := (0 : Fin 2)) (u := (1 : Fin 2)) (by decide) rfl rfl

end GoSTL.Conc
