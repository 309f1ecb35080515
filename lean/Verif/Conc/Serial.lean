import Verif.Conc.Specs
import Verif.Conc.Ketama
import Verif.Conc.SetAlg
import Verif.Conc.Sharing
import Verif.Conc.SharedContainer
import Verif.Skiplist.Props
import Verif.Comparator.Props
/-!
# Every order of calls is possible

The converse of `C58_linearizable`: the goroutines may run their critical sections one at a time, in any order their programs allow. So the
executions the theorems of C58 speak about exist for every client and every container, and every sequential history of the reference is the
history of some execution.
-/
namespace GoSTL.Conc
variable {ι σ τ L S A Op Out : Type} [DecidableEq ι] [DecidableEq τ]

/-- **C58** Every order of calls is possible: whatever the calls of the goroutines `log`, made one at a time in that order on the sequential model, return,
there is an execution in which the goroutines make these calls in this order, get these results, and leave the containers in this state. -/
theorem C58_every_order_possible {writes : Op → Bool} {stp : Op → S → Res (Out × S)} (client : Client ι τ L Op Out) (impl : Impl ι writes stp)
    {o p : ι → S} {l l' : τ → L} {log : List τ} (h : seqRun stp client log o l = some (p, l')) :
    ∃ c, Run (client.prog impl) o l log c ∧ c.obj = p ∧ ∀ t, c.thr t = .out (l' t) := by
  have key : ∀ (log : List τ) (o : ι → S) (l : τ → L) (p : ι → S) (l' : τ → L), seqRun stp client log o l = some (p, l') →
      exec (client.prog impl) log { obj := o, loc := l } = some { obj := p, loc := l' } := by
    intro log
    induction log with
    | nil => intro o l p l' h; cases h; rfl
    | cons t ts ih =>
      intro o l p l' h
      simp only [seqRun] at h
      cases hc : client t (l t) with
      | none => rw [hc] at h; cases h
      | some x =>
        obtain ⟨i, op, k⟩ := x
        rw [hc] at h
        simp only [exec, astep, Client.prog, hc, Option.map_some, Option.bind_some, Micro.map_run, impl_run]
        exact ih _ _ _ _ h
  exact ⟨_, exec_run (key log o l p l' h), rfl, fun _ => rfl⟩

/-! ## Concrete executions for the theorems of C58

Two goroutines follow fixed lists of calls; the log says in which order the calls are made. -/

/-- Goroutines that follow a fixed list of calls and collect the results. -/
def scripted (script : τ → List (ι × Op)) : Client ι τ (Nat × List (Res Out)) Op Out := fun t l =>
  (script t)[l.1]?.map fun x => (x.1, x.2, fun r => (l.1 + 1, l.2 ++ [r]))

/-- Such goroutines can make their calls in any order. -/
theorem script_run {writes : Op → Bool} {stp : Op → S → Res (Out × S)} (impl : Impl ι writes stp) (script : τ → List (ι × Op)) (o : ι → S) (log : List τ)
    (h : (seqRun stp (scripted script) log o (fun _ => (0, []))).isSome = true) : ∃ c, Run ((scripted script).prog impl) o (fun _ => (0, [])) log c := by
  cases e : seqRun stp (scripted script) log o (fun _ => (0, [])) with
  | none => rw [e] at h; cases h
  | some x => obtain ⟨c, hc, -⟩ := C58_every_order_possible (scripted script) impl (p := x.1) (l' := x.2) e; exact ⟨c, hc⟩

/-- Two goroutines with three calls each on one container. -/
abbrev two (a b c d : Op) : Fin 2 → List (Unit × Op) := fun t => if t = 0 then [((), a), ((), b)] else [((), c), ((), d)]

/-- `C58_queue` on such an execution. -/
example : ∃ c, Run ((scripted (two (.push 7) .pop .pop .pop)).prog (Impl.whole (queue_readers (Adapter.dequeContainer (Deque.goCfg (0 : Int)))))) (fun _ => Deque.new) (fun _ => (0, [])) [0, 1, 1, 0] c ∧ ¬ Race c := by
  obtain ⟨c, h⟩ := script_run (Impl.whole (queue_readers (Adapter.dequeContainer (Deque.goCfg (0 : Int))))) (two (.push 7) .pop .pop .pop) (fun _ => Deque.new) [0, 1, 1, 0] rfl
  obtain ⟨-, -, -, -, -, -, hr⟩ := C58_queue (Deque.goCfg_good 0) _ _ h
  exact ⟨c, h, hr⟩

/-- `C58_stack` on such an execution. -/
example : ∃ c, Run ((scripted (two (.push 7) .pop .pop .size)).prog (Impl.whole (stack_readers (Adapter.dequeContainer (Deque.goCfg (0 : Int)))))) (fun _ => Deque.new) (fun _ => (0, [])) [0, 1, 1, 0] c ∧ ¬ Race c := by
  obtain ⟨c, h⟩ := script_run (Impl.whole (stack_readers (Adapter.dequeContainer (Deque.goCfg (0 : Int))))) (two (.push 7) .pop .pop .size) (fun _ => Deque.new) [0, 1, 1, 0] rfl
  obtain ⟨-, -, -, -, -, -, hr⟩ := C58_stack (Deque.goCfg_good 0) _ _ h
  exact ⟨c, h, hr⟩

/-- `C58_queue_list` on such an execution. -/
example : ∃ c, Run ((scripted (two (.push 7) .pop .pop .pop)).prog (Impl.whole (queue_readers (Adapter.listContainer (T := Int) 0)))) (fun _ => BidList.newList BidList.start) (fun _ => (0, [])) [0, 1, 1, 0] c ∧ ¬ Race c := by
  obtain ⟨c, h⟩ := script_run (Impl.whole (queue_readers (Adapter.listContainer (T := Int) 0))) (two (.push 7) .pop .pop .pop) (fun _ => BidList.newList BidList.start) [0, 1, 1, 0] rfl
  obtain ⟨-, -, -, -, -, -, hr⟩ := C58_queue_list ⟨[], _, trivial, rfl, rfl⟩ _ _ h
  exact ⟨c, h, hr⟩

/-- `C58_stack_list` on such an execution. -/
example : ∃ c, Run ((scripted (two (.push 7) .pop .pop .size)).prog (Impl.whole (stack_readers (Adapter.listContainer (T := Int) 0)))) (fun _ => BidList.newList BidList.start) (fun _ => (0, [])) [0, 1, 1, 0] c ∧ ¬ Race c := by
  obtain ⟨c, h⟩ := script_run (Impl.whole (stack_readers (Adapter.listContainer (T := Int) 0))) (two (.push 7) .pop .pop .size) (fun _ => BidList.newList BidList.start) [0, 1, 1, 0] rfl
  obtain ⟨-, -, -, -, -, -, hr⟩ := C58_stack_list ⟨[], _, trivial, rfl, rfl⟩ _ _ h
  exact ⟨c, h, hr⟩

/-- `C58_map` on such an execution. -/
example : ∃ c, Run ((scripted (two (.insert 1 10) (.erase 2) (.get 1) .entries)).prog (Impl.whole (map_readers (V := Int) intCmp))) (fun _ => RB.Tree.new) (fun _ => (0, [])) [0, 1, 1, 0] c ∧ ¬ Race c := by
  obtain ⟨c, h⟩ := script_run (Impl.whole (map_readers (V := Int) intCmp)) (two (.insert 1 10) (.erase 2) (.get 1) .entries) (fun _ => RB.Tree.new) [0, 1, 1, 0] rfl
  obtain ⟨-, -, -, -, -, -, hr⟩ := C58_map intCmp_lawful _ _ h
  exact ⟨c, h, hr⟩

/-- `C58_set` on such an execution. -/
example : ∃ c, Run ((scripted (two (.insert 1) (.erase 2) (.contains 1) .elements)).prog (Impl.whole (set_readers intCmp))) (fun _ => RB.Tree.new) (fun _ => (0, [])) [0, 1, 1, 0] c ∧ ¬ Race c := by
  obtain ⟨c, h⟩ := script_run (Impl.whole (set_readers intCmp)) (two (.insert 1) (.erase 2) (.contains 1) .elements) (fun _ => RB.Tree.new) [0, 1, 1, 0] rfl
  obtain ⟨-, -, -, -, -, -, hr⟩ := C58_set intCmp_lawful _ _ h
  exact ⟨c, h, hr⟩

/-- `C58_multimap` on such an execution. -/
example : ∃ c, Run ((scripted (two (.insert 1 10) (.erase 2) (.get 1) .entries)).prog (Impl.whole (multimap_readers (V := Int) intCmp))) (fun _ => RB.Tree.new) (fun _ => (0, [])) [0, 1, 1, 0] c ∧ ¬ Race c := by
  obtain ⟨c, h⟩ := script_run (Impl.whole (multimap_readers (V := Int) intCmp)) (two (.insert 1 10) (.erase 2) (.get 1) .entries) (fun _ => RB.Tree.new) [0, 1, 1, 0] rfl
  obtain ⟨-, -, -, -, -, -, hr⟩ := C58_multimap intCmp_lawful _ _ h
  exact ⟨c, h, hr⟩

/-- `C58_multiset` on such an execution. -/
example : ∃ c, Run ((scripted (two (.insert 1) (.erase 2) (.insert 1) (.count 1))).prog (Impl.whole (multiset_readers intCmp))) (fun _ => RB.Tree.new) (fun _ => (0, [])) [0, 1, 1, 0] c ∧ ¬ Race c := by
  obtain ⟨c, h⟩ := script_run (Impl.whole (multiset_readers intCmp)) (two (.insert 1) (.erase 2) (.insert 1) (.count 1)) (fun _ => RB.Tree.new) [0, 1, 1, 0] rfl
  obtain ⟨-, -, -, -, -, -, hr⟩ := C58_multiset intCmp_lawful _ _ h
  exact ⟨c, h, hr⟩

/-- `C58_priority_queue` on such an execution. -/
example : ∃ c, Run ((scripted (two (.push 7) .pop .pop .top)).prog (Impl.whole (pq_readers intCmp))) (fun _ => []) (fun _ => (0, [])) [0, 1, 1, 0] c ∧ ¬ Race c := by
  obtain ⟨c, h⟩ := script_run (Impl.whole (pq_readers intCmp)) (two (.push 7) .pop .pop .top) (fun _ => []) [0, 1, 1, 0] rfl
  obtain ⟨-, -, -, -, -, -, hr⟩ := C58_priority_queue intCmp_lawful _ _ h
  exact ⟨c, h, hr⟩

/-- `C58_hamt` on such an execution. -/
example : ∃ c, Run ((scripted (two (.call (.insert [1, 2] 7)) .keys (.call (.get [1, 2])) (.call (.erase [1, 2])))).prog (Impl.whole (keys_readers Hamt.Keys (hamt_readers (T := Int) Hamt.fnv1)))) (fun _ => Hamt.new) (fun _ => (0, [])) [0, 1, 1, 0] c ∧ ¬ Race c := by
  obtain ⟨c, h⟩ := script_run (Impl.whole (keys_readers Hamt.Keys (hamt_readers (T := Int) Hamt.fnv1))) (two (.call (.insert [1, 2] 7)) .keys (.call (.get [1, 2])) (.call (.erase [1, 2]))) (fun _ => Hamt.new) [0, 1, 1, 0] rfl
  obtain ⟨-, -, -, -, -, -, hr⟩ := C58_hamt Hamt.fnv1 _ _ h
  exact ⟨c, h, hr⟩

/-- `C58_bloom` on such an execution. -/
example : ∃ c, Run ((scripted (two (.add [1, 2]) .data (.contains [1, 2]) (.contains [3]))).prog (Impl.whole (bloom_readers Bloom.exHash))) (fun _ => Bloom.new 100 3) (fun _ => (0, [])) [0, 1, 1, 0] c ∧ ¬ Race c := by
  obtain ⟨c, h⟩ := script_run (Impl.whole (bloom_readers Bloom.exHash)) (two (.add [1, 2]) .data (.contains [1, 2]) (.contains [3])) (fun _ => Bloom.new 100 3) [0, 1, 1, 0] rfl
  obtain ⟨-, -, -, -, -, -, hr⟩ := C58_bloom Bloom.exHash_good (by decide) (by decide) (by decide) _ _ h
  exact ⟨c, h, hr⟩

/-- `C58_skiplist` on such an execution. -/
example : ∃ w0, Skiplist.New 3 = .ok w0 ∧ ∃ c, Run ((scripted (two (.call (.insert (5 : Int) (50 : Int) 6)) .keys (.call (.get 5)) (.call (.remove 5)))).prog
      (Impl.whole (keys_readers Skiplist.Keys (skip_readers fun a b : Int => a - b)))) (fun _ => w0) (fun _ => (0, [])) [0, 1, 1, 0] c ∧ ¬ Race c := by
  have h0 : ∃ w0 : Skiplist.SL Int Int, Skiplist.New 3 = .ok w0 := ⟨_, rfl⟩
  obtain ⟨w0, e⟩ := h0
  obtain ⟨c, h⟩ := script_run (Impl.whole (keys_readers Skiplist.Keys (skip_readers fun a b : Int => a - b)))
    (two (.call (.insert (5 : Int) (50 : Int) 6)) .keys (.call (.get 5)) (.call (.remove 5))) (fun _ => w0) [0, 1, 1, 0] rfl
  obtain ⟨-, -, -, -, -, -, hr⟩ := C58_skiplist Skiplist.subCmp_lawful (by decide) (by decide) e _ _ h
  exact ⟨w0, e, c, h, hr⟩

/-- `C58_ketama`, `C57_no_remove_partial` and `C57_kept_node_partial`: goroutine 1 adds a node and goroutine 0 looks a key up, in this order. -/
example : ∃ c, Run (KScript.prog (fun (t : Fin 2) done => if done = [] then some (if t = 1 then KCall.add [[7]] else .get [8]) else none)
      (Impl.whole (ketama_readers Bloom.exHash))) (fun _ => Ketama.new 2) (fun _ => ⟨[], none⟩) [1, 0, 0] c ∧ ¬ Race c ∧ ¬ Crashed c 0 := by
  have e : ∃ p l', seqRun (ketamaStep Bloom.exHash) (KScript.client fun (t : Fin 2) done => if done = [] then some (if t = 1 then KCall.add [[7]] else .get [8]) else none) [1, 0, 0]
    (fun _ => Ketama.new 2) (fun _ => ⟨[], none⟩) = some (p, l') := ⟨_, _, rfl⟩
  obtain ⟨p, l', e⟩ := e
  obtain ⟨c, h, -⟩ := C58_every_order_possible _ (Impl.whole (ketama_readers Bloom.exHash)) e
  obtain ⟨-, -, -, -, -, -, hr⟩ := C58_ketama Bloom.exHash_good _ _ (.new : Ketama.Hist Bloom.exHash 2 _ _) h
  refine ⟨c, h, hr, C57_no_remove_partial Bloom.exHash_good (fun t done nodes => ?_) _ (.new : Ketama.Hist Bloom.exHash 2 _ _) h 0⟩
  split_ifs <;> simp

/-- `C57_kept_node_partial`: the ring holds `[1]` and `[2]`; goroutine 1 removes `[1]` between the two critical sections of the `Get` of goroutine 0. -/
example : ∃ (k0 : Ketama.Ketama) (c : _), Run (KScript.prog (fun (t : Fin 2) done => if done = [] then some (if t = 1 then KCall.remove [[1]] else .get [8]) else none)
      (Impl.whole (ketama_readers Bloom.exHash))) (fun _ => k0) (fun _ => ⟨[], none⟩) [0, 1, 0] c ∧ ¬ Crashed c 0 := by
  have h0 : ∃ k p l', Ketama.add Bloom.exHash (Ketama.new 2) [[1], [2]] = .ok k ∧ Ketama.get Bloom.exHash k [2] = .ok (some [2]) ∧
      seqRun (ketamaStep Bloom.exHash) (KScript.client fun (t : Fin 2) done => if done = [] then some (if t = 1 then KCall.remove [[1]] else .get [8]) else none) [0, 1, 0]
      (fun _ => k) (fun _ => ⟨[], none⟩) = some (p, l') := ⟨_, _, _, rfl, rfl, rfl⟩
  obtain ⟨k0, p, l', ea, eg, e⟩ := h0
  have hh := (Ketama.Hist.new (H := Bloom.exHash) (r := 2)).add ea
  have hp : ∃ p, ([[1], [2]].foldl (Ketama.claim Bloom.exHash 2) fun _ => none) p = some [2] := by
    obtain ⟨p, hp, -⟩ := (Ketama.C54_get_is_clockwise_owner Bloom.exHash_good hh [2] (some [2])).1.1 eg
    exact ⟨p, hp⟩
  obtain ⟨c, h, -⟩ := C58_every_order_possible _ (Impl.whole (ketama_readers Bloom.exHash)) e
  refine ⟨k0, c, h, C57_kept_node_partial Bloom.exHash_good (n := [2]) (fun t done nodes => ?_) _ hh hp h 0⟩
  split_ifs <;> simp
  rintro rfl
  decide

/-- `C57_violated` for a concrete hash, node and key. -/
example := C57_violated Bloom.exHash_good (r := 2) (by decide) [7] [8] (Impl.whole (ketama_readers Bloom.exHash))

/-- When all are outside, a goroutine can enter its next critical section. -/
theorem run_enter {prog : Prog ι σ τ L} {o : ι → σ} {l l' : τ → L} {log : List τ} {c : Conf ι σ τ L} (h : Run prog o l log c) (ht : ∀ t, c.thr t = .out (l' t))
    {t : τ} {s : Sec ι σ L} (hs : prog t (l' t) = some s) : ∃ c', Run prog o l log c' ∧ c'.thr t = .ins (l' t) s.lock s.write s.body :=
  ⟨_, h.silent (.enter (ht t) hs (by rintro t' w' ⟨x, m, h⟩; rw [ht] at h; cases h)), Function.update_self t _ c.thr⟩

/-- `C58_sections_atomic`, `C58_race_free` and `C58_no_deadlock` on an execution in which goroutine 1 has entered its second section and goroutine 0 is outside. -/
example : ∃ c, Run ((scripted (two (.push 7) .pop .pop .pop)).prog (Impl.whole (pq_readers intCmp))) (fun _ => []) (fun _ => (0, [])) [0, 1] c ∧
    (∃ l i w m, c.thr 1 = .ins l i w m) ∧ ¬ Race c ∧
    (∃ a, exec ((scripted (two (.push 7) .pop .pop .pop)).prog (Impl.whole (pq_readers intCmp))) [0, 1] ⟨fun _ => [], fun _ => (0, [])⟩ = some a) ∧
    ∃ c' l', Steps ((scripted (two (.push 7) .pop .pop .pop)).prog (Impl.whole (pq_readers intCmp))) c c' ∧ c'.thr 1 = .out l' := by
  obtain ⟨c, h, ho, ht⟩ := C58_every_order_possible (scripted (two (.push 7) .pop .pop .pop)) (Impl.whole (pq_readers intCmp)) (o := fun _ => [])
    (l := fun _ => (0, [])) (log := [0, 1]) rfl
  obtain ⟨c1, h1, ht1⟩ := run_enter h ht (t := 1) rfl
  have hd := client_disciplined (scripted (two (.push 7) .pop .pop .pop)) (Impl.whole (ι := Unit) (pq_readers intCmp))
  obtain ⟨a, ea, -⟩ := C58_sections_atomic hd h1
  obtain ⟨c', l', s1, s2, -⟩ := (C58_no_deadlock (prog := (scripted (two (.push 7) .pop .pop .pop)).prog (Impl.whole (pq_readers intCmp))) c1).1 1 _ _ _ _ ht1
  exact ⟨c1, h1, ⟨_, _, _, _, ht1⟩, C58_race_free hd h1, ⟨a, ea⟩, c', l', s1, s2⟩

/-- `C58_linearizable` and `C58_linearizable_rel` are the general forms of the theorems above; here with the sequential model itself as the reference. -/
example : ∃ c, Run ((scripted (two (.push 7) .pop .pop .pop)).prog (Impl.whole (pq_readers intCmp))) (fun _ => []) (fun _ => (0, [])) [0, 1, 1, 0] c ∧ ¬ Race c := by
  obtain ⟨c, h⟩ := script_run (Impl.whole (pq_readers intCmp)) (two (.push 7) .pop .pop .pop) (fun _ => []) [0, 1, 1, 0] rfl
  obtain ⟨-, -, -, -, -, -, hr⟩ := C58_linearizable_self _ _ h
  exact ⟨c, h, hr⟩

/-- `C58_readers_only_read` for the containers of the library. -/
example := C58_readers_only_read (V := Int) (Adapter.dequeContainer (Deque.goCfg (0 : Int))) intCmp intCmp Hamt.fnv1 Bloom.exHash

/-- `C59_violated` for the code that reads `other` once, and the union. -/
example := C59_violated (AlgImpl.mk' Bool intCmp) .union

/-- `C59_frozen_partial`: the first goroutine computes the union, the second inserts 7 into `s`; `other` is not changed. -/
example : ∃ c, Run (frozenClient.prog (Impl.whole (set_readers intCmp)) (AlgImpl.mk' Bool intCmp)) (fun _ => RB.Tree.new) (fun _ => 0) [true, false] c ∧ ¬ Race c := by
  have hF : frozenClient.Respects (fun i => i = false) := by
    intro t l x k h
    match t, l, h with
    | true, 0, h => cases h; exact .inr rfl
    | false, 0, h => cases h; exact fun _ => by decide
  have h0 : ∃ a, exec (frozenClient.prog (Impl.whole (set_readers intCmp)) (AlgImpl.mk' Bool intCmp)) [true, false] ⟨fun _ => RB.Tree.new, fun _ => 0⟩ = some a := ⟨_, rfl⟩
  obtain ⟨a, e⟩ := h0
  have h := exec_run e
  obtain ⟨-, -, -, -, -, -, hr⟩ := C59_frozen_partial hF _ _ h
  exact ⟨_, h, hr⟩

/-- `C64_no_deadlock_partial` and `C64_every_execution_ends_partial`: two goroutines, one reads an object under `RLock`, the other updates it under `Lock`. -/
example : (∀ c, DSteps (dstart (fun _ : Unit => (0 : Int)) fun t : Fin 2 => if t = 0 then Code.acq () false (.read () fun _ => .rel () false .done)
      else .acq () true (.upd () (· + 1) (.rel () true .done))) c → ∀ t, c.thr t ≠ .done → ∃ c', DStep c c') ∧
    ¬ ∃ f : Nat → DConf Unit Int (Fin 2), f 0 = dstart (fun _ => 0) (fun t => if t = 0 then Code.acq () false (.read () fun _ => .rel () false .done)
      else .acq () true (.upd () (· + 1) (.rel () true .done))) ∧ ∀ n, DStep (f n) (f (n + 1)) := by
  have h : ∀ t : Fin 2, OneLock none (if t = 0 then Code.acq () false (.read () fun _ => .rel () false .done)
      else .acq () true (.upd () (fun x : Int => x + 1) (.rel () true .done))) := by
    intro t
    split <;> simp [OneLock]
  exact ⟨fun c s t ht => C64_no_deadlock_partial h s ht, C64_every_execution_ends_partial h⟩

/-- `C75_only_writers_lock` for the containers of the library. -/
example : ∃ w0 : Skiplist.SL Int Int, Skiplist.New 3 = .ok w0 ∧ ∀ op, keysWrites skipWrites op = true ↔
    Changes (keysStep (Skiplist.step (K := Int) (V := Int) fun a b => a - b) Skiplist.Keys) w0 op := by
  have h0 : ∃ w0 : Skiplist.SL Int Int, Skiplist.New 3 = .ok w0 := ⟨_, rfl⟩
  obtain ⟨w0, e⟩ := h0
  exact ⟨w0, e, (C75_only_writers_lock (Deque.goCfg_good (0 : Int)) Skiplist.subCmp_lawful intCmp Hamt.fnv1 (by decide) (by decide) e).2.2.2.2.2.2.2.2⟩

/-- `C75_bloom_data_violated`: two goroutines call `Data` on a new filter. -/
example : ¬ Changes (bloomStep Bloom.exHash) (Bloom.new 100 3) .data ∧ ∃ c, DSteps (dstart (fun _ : Unit => Bloom.new 100 3) fun _ : Fin 2 =>
      callCode (Impl.whole (bloom_readers Bloom.exHash)) () .data fun _ => .done) c ∧ ∀ c', DStep c c' →
      c'.thr 1 = callCode (Impl.whole (bloom_readers Bloom.exHash)) () .data fun _ => .done := by
  obtain ⟨h, c, h1, -, h2⟩ := C75_bloom_data_violated (τ := Fin 2) Bloom.exHash (Bloom.new 100 3) (Impl.whole (bloom_readers Bloom.exHash)) () (t := 0) (u := 1) (by decide)
    (o := fun _ => Bloom.new 100 3) (code := fun _ => callCode (Impl.whole (bloom_readers Bloom.exHash)) () .data fun _ => .done) rfl rfl
  exact ⟨h, c, h1, h2⟩

/-- `C75_ketama_get_violated`: two goroutines look keys up. -/
example := C75_ketama_get_violated (τ := Fin 2) Bloom.exHash (Ketama.new 2) (Impl.whole (ketama_readers Bloom.exHash)) () (t := 0) (u := 1) (by decide) (key := [7]) (key' := [8])
    (o := fun _ => Ketama.new 2) (code := fun t => if t = 0 then callCode (Impl.whole (ketama_readers Bloom.exHash)) () (.lookup [7]) fun _ => .done
      else callCode (Impl.whole (ketama_readers Bloom.exHash)) () (.lookup [8]) fun _ => .done) rfl rfl

/-- `C87_one_adapter_partial`: one adapter, used as a queue by goroutine 0 and as a stack by goroutine 1, over the empty deque. -/
example : ∃ c, Run ((scripted (two (.inl (.push (7 : Int))) (.inl .pop) (.inr (.push 8)) (.inr .pop))).prog
      (Impl.whole (a_readers (Adapter.Shared.either (Deque.goCfg 0)).toContainer))) (fun _ => .inl Deque.new) (fun _ => (0, [])) [0, 1, 1, 0] c ∧ ¬ Race c := by
  obtain ⟨c, h⟩ := script_run (Impl.whole (a_readers (Adapter.Shared.either (Deque.goCfg (0 : Int))).toContainer))
    (two (.inl (.push (7 : Int))) (.inl .pop) (.inr (.push 8)) (.inr .pop)) (fun _ => .inl Deque.new) [0, 1, 1, 0] rfl
  obtain ⟨-, -, -, -, -, -, hr⟩ := C87_one_adapter_partial (Adapter.Shared.either_lawful (Deque.goCfg_good (0 : Int))) _ _ (o := fun _ => .inl Deque.new) (p := fun _ => []) (fun _ => Deque.new_inv) h
  exact ⟨c, h, hr⟩

end GoSTL.Conc
