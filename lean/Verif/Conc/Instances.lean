import Verif.Conc.Objects
import Verif.TreeMap.SetProps
import Verif.TreeMap.MultiProps
import Verif.Hamt.Props
import Verif.Skiplist.Props
import Verif.Heap.Props
import Verif.Bloom.Props
/-!
# C58 for the goroutine-safe containers

For each container: its calls, which of them take `Lock` (the others take `RLock`), and what the calls of all goroutines together amount to.
-/
namespace GoSTL.Conc
variable {ι τ L : Type} [DecidableEq ι] [DecidableEq τ]

/-! ## Queue and Stack -/

/-- queue.go:69-122: `Push`, `Pop` and `Clear` take `Lock` (86, 110, 118), the others `RLock`. -/
def queueWrites {T : Type} : Adapter.QueueOp T → Bool
  | .push _ | .pop | .clear => true
  | .front | .back | .size | .empty => false

/-- stack.go:68-113: `Push`, `Pop` and `Clear` take `Lock` (85, 101, 109), the others `RLock`. -/
def stackWrites {T : Type} : Adapter.StackOp T → Bool
  | .push _ | .pop | .clear => true
  | .top | .size | .empty => false

/-- C58 for queues over deques: every concurrent execution amounts to calls on first-in-first-out sequences, one at a time. -/
theorem C58_queue {T : Type} {cfg : Deque.Cfg T} (hg : cfg.Good) (client : Client ι τ L (Adapter.QueueOp T) (Adapter.Out T))
    (impl : Impl ι queueWrites (Adapter.queueStep (Adapter.dequeContainer cfg))) {l : τ → L} {log : List τ} {c : Conf ι (Deque.Deq T) τ L}
    (h : Run (client.prog impl) (fun _ => Deque.new) l log c) :
    ∃ p l', seqRun Adapter.queueSpec client log (fun _ => []) l = some (p, l') ∧
      (∀ t x, c.thr t = .out x → l' t = x) ∧ (∀ t x i w m, c.thr t = .ins x i w m → l' t = x) ∧
      (∀ i, (∀ t, ¬ Holds c t i true) → Deque.Inv cfg (c.obj i) (p i)) ∧ ¬ Race c :=
  C58_linearizable (fun op s a hr => Adapter.queue_step (Adapter.deque_lawful hg) op s a hr) client impl (fun _ => Deque.new_inv) h

theorem queue_readers {T C : Type} (K : Adapter.Container C T) : ReadersRead queueWrites (Adapter.queueStep K) := by
  intro op s o s' hw h
  cases op <;> simp only [queueWrites, Bool.true_eq_false, reduceCtorEq] at hw <;>
    simp only [Adapter.queueStep, Res.bind_eq_ok, Res.ok.injEq, Prod.mk.injEq] at h <;> obtain ⟨x, -, -, h⟩ := h <;> exact h.symm

/-- C58 for stacks over deques: last-in-first-out sequences. -/
theorem C58_stack {T : Type} {cfg : Deque.Cfg T} (hg : cfg.Good) (client : Client ι τ L (Adapter.StackOp T) (Adapter.Out T))
    (impl : Impl ι stackWrites (Adapter.stackStep (Adapter.dequeContainer cfg))) {l : τ → L} {log : List τ} {c : Conf ι (Deque.Deq T) τ L}
    (h : Run (client.prog impl) (fun _ => Deque.new) l log c) :
    ∃ p l', seqRun Adapter.stackSpec client log (fun _ => []) l = some (p, l') ∧
      (∀ t x, c.thr t = .out x → l' t = x) ∧ (∀ t x i w m, c.thr t = .ins x i w m → l' t = x) ∧
      (∀ i, (∀ t, ¬ Holds c t i true) → Deque.Inv cfg (c.obj i) (p i).reverse) ∧ ¬ Race c :=
  C58_linearizable (R := fun c l => Deque.Inv cfg c l.reverse) (fun op s a hr => Adapter.stack_step (Adapter.deque_lawful hg) op s a hr) client impl
    (fun _ => Deque.new_inv) h

theorem stack_readers {T C : Type} (K : Adapter.Container C T) : ReadersRead stackWrites (Adapter.stackStep K) := by
  intro op s o s' hw h
  cases op <;> simp only [stackWrites, Bool.true_eq_false, reduceCtorEq] at hw <;>
    simp only [Adapter.stackStep, Res.bind_eq_ok, Res.ok.injEq, Prod.mk.injEq] at h <;> obtain ⟨x, -, -, h⟩ := h <;> exact h.symm

/-! ## Map -/

section Map
open TreeMap RB
variable {K V : Type}

/-- The calls of map.go:56-186, multimap.go:30-147; `entries` is a `Traversal` that collects. -/
inductive MapOp (K V : Type)
  | insert (k : K) (v : V)
  | erase (k : K)
  | get (k : K)
  | contains (k : K)
  | size
  | clear
  | entries

/-- What they return. -/
inductive MapOut (K V : Type)
  | unit
  | val (v : Option V)
  | bool (b : Bool)
  | int (n : Int)
  | list (kvs : List (K × V))

/-- map.go:56-186: `Insert`, `Erase`, `Clear` take `Lock` (57, 82, 155), the others `RLock`. -/
def mapWrites : MapOp K V → Bool
  | .insert .. | .erase _ | .clear => true
  | .get _ | .contains _ | .size | .entries => false

/-- map.go:56-186. `entries` is `Traversal` with a visitor that collects everything. (The methods that return iterators are left out: what is
done with an iterator happens without the lock. `EraseIter` is left out for the same reason.) -/
def mapStep (cmp : K → K → Int) (op : MapOp K V) (t : Tree K V) : Res (MapOut K V × Tree K V) :=
  match op with
  | .insert k v => do let t ← mapInsert cmp t k v; .ok (.unit, t)
  | .erase k => do let t ← eraseOne cmp t k; .ok (.unit, t)
  | .get k => do let v ← get cmp t k; .ok (.val v, t)
  | .contains k => do let b ← contains cmp t k; .ok (.bool b, t)
  | .size => .ok (.int (size t), t)
  | .clear => .ok (.unit, clear t)
  | .entries => do let kvs ← mapTraversal t (fun kvs k v => (kvs ++ [(k, v)], true)) []; .ok (.list kvs, t)

/-- A map as the list of its entries, smallest key first. -/
def mapSpec (cmp : K → K → Int) (op : MapOp K V) (m : List (K × V)) : Res (MapOut K V × List (K × V)) :=
  match op with
  | .insert k v => .ok (.unit, if m.any (fun e => decide (cmp k e.1 = 0)) then m.map (fun e => if cmp k e.1 = 0 then (e.1, v) else e)
      else m.filter (fun e => decide (cmp e.1 k < 0)) ++ (k, v) :: m.filter (fun e => decide (cmp k e.1 < 0)))
  | .erase k => .ok (.unit, m.filter fun e => decide (cmp k e.1 ≠ 0))
  | .get k => .ok (.val ((m.find? fun e => decide (cmp k e.1 = 0)).map Prod.snd), m)
  | .contains k => .ok (.bool (m.any fun e => decide (cmp k e.1 = 0)), m)
  | .size => .ok (.int m.length, m)
  | .clear => .ok (.unit, [])
  | .entries => .ok (.list m, m)

/-- The tree holds the entries, in strictly increasing key order. -/
def MapRep (cmp : K → K → Int) (t : Tree K V) (m : List (K × V)) : Prop := HoldsKV cmp t m ∧ Strict cmp m

theorem strict_others {cmp : K → K → Int} (hc : LawfulCmp cmp) {A B : List (K × V)} {k' k : K} {v : V} (h : Strict cmp (A ++ (k', v) :: B)) (hk : cmp k k' = 0) :
    (∀ e ∈ A, cmp e.1 k < 0 ∧ cmp k e.1 ≠ 0) ∧ (∀ e ∈ B, cmp k e.1 < 0) := by
  simp only [Strict, List.pairwise_append, List.pairwise_cons] at h
  constructor
  · intro e he
    have h1 := h.2.2 e he (k', v) (by simp)
    have h2 := (hc.congr_right (a := e.1) (hc.eq_symm.1 hk)).1.1 h1
    have := hc.swap e.1 k
    exact ⟨h2, by omega⟩
  · intro e he
    have h1 := h.2.1.1 e he
    exact (hc.congr_left (c := e.1) hk).1.2 h1

theorem feedKV_collect (kvs acc : List (K × V)) : feedKV (fun (acc : List (K × V)) k v => (acc ++ [(k, v)], true)) kvs acc = acc ++ kvs := by
  induction kvs generalizing acc with
  | nil => simp [feedKV]
  | cons e kvs ih => obtain ⟨k, v⟩ := e; simp [feedKV, ih]

theorem map_step {cmp : K → K → Int} (hc : LawfulCmp cmp) (op : MapOp K V) (t : Tree K V) (m : List (K × V)) (h : MapRep cmp t m) :
    Adapter.Agree (MapRep cmp) (mapStep cmp op t) (mapSpec cmp op m) := by
  obtain ⟨h1, h2⟩ := h
  cases op with
  | insert k v =>
    obtain ⟨xs, h1, rfl⟩ := h1
    rcases h1.findNode hc k with ⟨h4, h5⟩ | ⟨A, i, k', v', B, rfl, h4, h5, -⟩
    · have hn : ∀ e ∈ xs.map (·.2), cmp k e.1 ≠ 0 := by
        intro e he
        rw [List.mem_map] at he
        obtain ⟨x, hx, rfl⟩ := he
        exact h5 x hx
      obtain ⟨s', e, h6⟩ := HoldsKV.insert hc ⟨xs, h1, rfl⟩ k v
      obtain ⟨A, B, e1, e2, h7⟩ := h2.insert hc k v hn
      rw [e2] at h6
      simp only [mapStep, mapInsert, h4, e, Res.ok_bind, mapSpec]
      rw [if_neg (by
        simp only [List.any_eq_true, decide_eq_true_eq]
        rintro ⟨e, he, hk⟩
        exact hn e he hk)]
      have hs := strict_others hc h7 (hc.refl k)
      have f1 : (List.map (·.2) xs).filter (fun e => decide (cmp e.1 k < 0)) = A := by
        rw [e1, List.filter_append, List.filter_eq_self.2, List.filter_eq_nil_iff.2, List.append_nil]
        · intro a ha
          have := hs.2 a ha
          have := hc.swap k a.1
          simp; omega
        · intro a ha; simpa using (hs.1 a ha).1
      have f2 : (List.map (·.2) xs).filter (fun e => decide (cmp k e.1 < 0)) = B := by
        rw [e1, List.filter_append, List.filter_eq_nil_iff.2, List.filter_eq_self.2, List.nil_append]
        · intro a ha; simpa using hs.2 a ha
        · intro a ha
          have := (hs.1 a ha).1
          have := hc.swap a.1 k
          simp; omega
      rw [f1, f2]
      exact .ok ⟨h6, h7⟩
    · have h6 := HoldsKV.setValue h1 v
      simp only [List.map_append, List.map_cons] at h2 h6 ⊢
      have hs := strict_others hc h2 h5
      simp only [mapStep, mapInsert, h4, Res.ok_bind, Res.pure_eq, mapSpec]
      rw [if_pos (by simp [h5])]
      rw [show List.map (fun e : K × V => if cmp k e.1 = 0 then (e.1, v) else e) (List.map (·.2) A ++ (k', v') :: List.map (·.2) B) =
        List.map (·.2) A ++ (k', v) :: List.map (·.2) B from ?_]
      · exact .ok ⟨h6, h2.set⟩
      · rw [List.map_append, List.map_cons, if_pos h5]
        congr 1
        · conv_rhs => rw [← List.map_id (List.map (·.2) A)]
          refine List.map_congr_left fun a ha => ?_
          rw [if_neg (hs.1 a ha).2]; rfl
        · congr 1
          conv_rhs => rw [← List.map_id (List.map (·.2) B)]
          refine List.map_congr_left fun a ha => ?_
          have := hs.2 a ha
          rw [if_neg (by omega)]; rfl
  | erase k =>
    obtain ⟨s', e, h3⟩ := h1.eraseOne hc k
    simp only [mapStep, mapSpec, e, Res.ok_bind]
    have : m.eraseP (keq cmp k) = m.filter fun e => decide (cmp k e.1 ≠ 0) := by
      by_cases ha : ∃ e ∈ m, cmp k e.1 = 0
      · obtain ⟨⟨k', v⟩, hm, hk⟩ := ha
        obtain ⟨A, B, rfl⟩ := List.append_of_mem hm
        have hs := strict_others hc h2 hk
        rw [List.eraseP_append_right _ (fun a ha => by simpa [keq] using (hs.1 a ha).2), List.eraseP_cons_of_pos (by simpa [keq] using hk),
          List.filter_append, List.filter_cons_of_neg (by simpa using hk), List.filter_eq_self.2, List.filter_eq_self.2]
        · intro a ha
          have := hs.2 a ha
          simp; omega
        · intro a ha; simpa using (hs.1 a ha).2
      · rw [List.eraseP_of_forall_not, List.filter_eq_self.2]
        · intro a ha'; simpa using fun hk => ha ⟨a, ha', hk⟩
        · intro a ha'; simpa [keq] using fun hk => ha ⟨a, ha', hk⟩
    rw [this] at h3
    exact .ok ⟨h3, h2.sublist List.filter_sublist⟩
  | get k =>
    simp only [mapStep, mapSpec, h1.get hc, Res.ok_bind]
    exact .ok ⟨h1, h2⟩
  | contains k =>
    simp only [mapStep, mapSpec, h1.contains hc, Res.ok_bind]
    exact .ok ⟨h1, h2⟩
  | size =>
    simp only [mapStep, mapSpec, h1.size]
    exact .ok ⟨h1, h2⟩
  | clear => exact .ok ⟨h1.clear, List.Pairwise.nil⟩
  | entries =>
    simp only [mapStep, mapSpec, h1.mapTraversal, Res.ok_bind, feedKV_collect, List.nil_append]
    exact .ok ⟨h1, h2⟩

/-- C58 for maps: every concurrent execution amounts to calls on sorted association lists, one at a time. -/
theorem C58_map {cmp : K → K → Int} (hc : LawfulCmp cmp) (client : Client ι τ L (MapOp K V) (MapOut K V))
    (impl : Impl ι mapWrites (mapStep cmp)) {l : τ → L} {log : List τ} {c : Conf ι (Tree K V) τ L}
    (h : Run (client.prog impl) (fun _ => Tree.new) l log c) :
    ∃ p l', seqRun (mapSpec cmp) client log (fun _ => []) l = some (p, l') ∧
      (∀ t x, c.thr t = .out x → l' t = x) ∧ (∀ t x i w m, c.thr t = .ins x i w m → l' t = x) ∧
      (∀ i, (∀ t, ¬ Holds c t i true) → MapRep cmp (c.obj i) (p i)) ∧ ¬ Race c :=
  C58_linearizable (map_step hc) client impl (fun _ => ⟨HoldsKV.new, List.Pairwise.nil⟩) h

theorem map_readers (cmp : K → K → Int) : ReadersRead mapWrites (mapStep (V := V) cmp) := by
  intro op s o s' hw h
  cases op <;> simp only [mapWrites, Bool.true_eq_false, reduceCtorEq] at hw <;>
    simp only [mapStep, Res.bind_eq_ok, Res.ok.injEq, Prod.mk.injEq] at h
  · obtain ⟨x, -, -, h⟩ := h; exact h.symm
  · obtain ⟨x, -, -, h⟩ := h; exact h.symm
  · exact h.2.symm
  · obtain ⟨x, -, -, h⟩ := h; exact h.symm

end Map

/-! ## Set -/

section Set
open TreeMap RB
variable {K : Type}

/-- The calls of set.go:62-169; `elements` is a `Traversal` that collects. -/
inductive SetOp (K : Type)
  | insert (x : K)
  | erase (x : K)
  | contains (x : K)
  | size
  | clear
  | elements

/-- What they return. -/
inductive SetOut (K : Type)
  | unit
  | bool (b : Bool)
  | int (n : Int)
  | list (xs : List K)

/-- set.go:62-169: `Insert`, `Erase`, `Clear` take `Lock` (63, 75, 134), the others `RLock`. -/
def setWrites : SetOp K → Bool
  | .insert _ | .erase _ | .clear => true
  | .contains _ | .size | .elements => false

/-- set.go:62-169. `elements` is `Traversal` with a visitor that collects everything. -/
def setStep (cmp : K → K → Int) (op : SetOp K) (t : Tree K Bool) : Res (SetOut K × Tree K Bool) :=
  match op with
  | .insert x => do let t ← setInsert cmp t x; .ok (.unit, t)
  | .erase x => do let t ← eraseOne cmp t x; .ok (.unit, t)
  | .contains x => do let b ← contains cmp t x; .ok (.bool b, t)
  | .size => .ok (.int (size t), t)
  | .clear => .ok (.unit, clear t)
  | .elements => do let xs ← setTraversal t (fun xs x => (xs ++ [x], true)) []; .ok (.list xs, t)

/-- A set as the list of its elements, smallest first. -/
def setSpec (cmp : K → K → Int) (op : SetOp K) (m : List K) : Res (SetOut K × List K) :=
  match op with
  | .insert x => .ok (.unit, if m.any (fun e => decide (cmp x e = 0)) then m
      else m.filter (fun e => decide (cmp e x < 0)) ++ x :: m.filter (fun e => decide (cmp x e < 0)))
  | .erase x => .ok (.unit, m.filter fun e => decide (cmp x e ≠ 0))
  | .contains x => .ok (.bool (m.any fun e => decide (cmp x e = 0)), m)
  | .size => .ok (.int m.length, m)
  | .clear => .ok (.unit, [])
  | .elements => .ok (.list m, m)

/-- The tree holds the elements, in strictly increasing order. -/
def SetRep (cmp : K → K → Int) (t : Tree K Bool) (m : List K) : Prop := ∃ kvs, MapRep cmp t kvs ∧ kvs.map (·.1) = m

theorem feedKeys_collect (xs acc : List K) : feedKeys (fun (acc : List K) k => (acc ++ [k], true)) xs acc = acc ++ xs := by
  induction xs generalizing acc with
  | nil => simp [feedKeys]
  | cons e xs ih => simp [feedKeys, ih]

theorem filter_fst {p : K → Bool} (kvs : List (K × Bool)) : (kvs.map (·.1)).filter p = (kvs.filter fun e => p e.1).map (·.1) := by
  rw [List.filter_map]; rfl

theorem agree_inv {S S' O : Type} {R : S → S' → Prop} {r : Res (O × S)} {o : O} {s' : S'} (h : Adapter.Agree R r (.ok (o, s'))) :
    ∃ s, r = .ok (o, s) ∧ R s s' := by
  generalize hy : (Res.ok (o, s') : Res (O × S')) = y at h
  cases h with
  | ok h => cases hy; exact ⟨_, rfl, h⟩
  | panic => cases hy

theorem set_step {cmp : K → K → Int} (hc : LawfulCmp cmp) (op : SetOp K) (t : Tree K Bool) (m : List K) (h : SetRep cmp t m) :
    Adapter.Agree (SetRep cmp) (setStep cmp op t) (setSpec cmp op m) := by
  obtain ⟨kvs, h, rfl⟩ := h
  cases op with
  | insert x =>
    by_cases ha : ∃ e ∈ kvs, cmp x e.1 = 0
    · obtain ⟨⟨xs, h1, rfl⟩, h2⟩ := h
      rcases h1.findNode hc x with ⟨h4, h5⟩ | ⟨A, i, k', v', B, rfl, h4, h5, -⟩
      · obtain ⟨e, he, hk⟩ := ha
        rw [List.mem_map] at he
        obtain ⟨y, hy, rfl⟩ := he
        exact absurd hk (h5 y hy)
      · simp only [setStep, setSpec, setInsert, h4, Res.ok_bind, Res.pure_eq]
        rw [if_pos (by
          obtain ⟨e, he, hk⟩ := ha
          simp only [List.any_eq_true, decide_eq_true_eq]
          exact ⟨e.1, List.mem_map.2 ⟨e, he, rfl⟩, hk⟩)]
        exact .ok ⟨_, ⟨⟨_, h1, rfl⟩, h2⟩, rfl⟩
    · have hs := map_step hc (.insert x true) t kvs h
      simp only [mapSpec] at hs
      rw [if_neg (by
        simp only [List.any_eq_true, decide_eq_true_eq]
        exact ha)] at hs
      obtain ⟨t', e, hr⟩ := agree_inv hs
      simp only [mapStep, Res.bind_eq_ok, Res.ok.injEq, Prod.mk.injEq, true_and] at e
      obtain ⟨t'', e, rfl⟩ := e
      have e' : setInsert cmp t x = .ok t'' := by
        obtain ⟨⟨xs, h1, rfl⟩, h2⟩ := h
        rcases h1.findNode hc x with ⟨h4, h5⟩ | ⟨A, i, k', v', B, rfl, h4, h5, -⟩
        · simpa [mapInsert, setInsert, h4] using e
        · exact absurd ⟨(k', v'), by simp, h5⟩ ha
      simp only [setStep, setSpec, e', Res.ok_bind]
      rw [if_neg (by
        simp only [List.any_eq_true, decide_eq_true_eq, List.mem_map]
        rintro ⟨y, ⟨e, he, rfl⟩, hk⟩
        exact ha ⟨e, he, hk⟩), filter_fst, filter_fst]
      exact .ok ⟨_, hr, by simp⟩
  | erase x =>
    obtain ⟨t', e, hr⟩ := agree_inv (map_step hc (.erase x) t kvs h)
    simp only [mapStep, Res.bind_eq_ok, Res.ok.injEq, Prod.mk.injEq, true_and] at e
    obtain ⟨t'', e, rfl⟩ := e
    simp only [setStep, setSpec, e, Res.ok_bind, filter_fst]
    exact .ok ⟨_, hr, rfl⟩
  | contains x =>
    simp only [setStep, setSpec, h.1.contains hc, Res.ok_bind, List.any_map]
    exact .ok ⟨_, h, rfl⟩
  | size =>
    simp only [setStep, setSpec, h.1.size, List.length_map]
    exact .ok ⟨_, h, rfl⟩
  | clear => exact .ok ⟨[], ⟨h.1.clear, List.Pairwise.nil⟩, rfl⟩
  | elements =>
    simp only [setStep, setSpec, h.1.setTraversal, Res.ok_bind, feedKeys_collect, List.nil_append]
    exact .ok ⟨_, h, rfl⟩

/-- C58 for sets (without the set algebra, see C59): every concurrent execution amounts to calls on sorted lists, one at a time. -/
theorem C58_set {cmp : K → K → Int} (hc : LawfulCmp cmp) (client : Client ι τ L (SetOp K) (SetOut K))
    (impl : Impl ι setWrites (setStep cmp)) {l : τ → L} {log : List τ} {c : Conf ι (Tree K Bool) τ L}
    (h : Run (client.prog impl) (fun _ => Tree.new) l log c) :
    ∃ p l', seqRun (setSpec cmp) client log (fun _ => []) l = some (p, l') ∧
      (∀ t x, c.thr t = .out x → l' t = x) ∧ (∀ t x i w m, c.thr t = .ins x i w m → l' t = x) ∧
      (∀ i, (∀ t, ¬ Holds c t i true) → SetRep cmp (c.obj i) (p i)) ∧ ¬ Race c :=
  C58_linearizable (set_step hc) client impl (fun _ => ⟨[], ⟨HoldsKV.new, List.Pairwise.nil⟩, rfl⟩) h

theorem set_readers (cmp : K → K → Int) : ReadersRead setWrites (setStep cmp) := by
  intro op s o s' hw h
  cases op <;> simp only [setWrites, Bool.true_eq_false, reduceCtorEq] at hw <;>
    simp only [setStep, Res.bind_eq_ok, Res.ok.injEq, Prod.mk.injEq] at h
  · obtain ⟨x, -, -, h⟩ := h; exact h.symm
  · exact h.2.symm
  · obtain ⟨x, -, -, h⟩ := h; exact h.symm

end Set

/-! ## Hamt, Skiplist -/

/-- hamt.go:258-284: `Insert` and `Erase` take `Lock` (261, 281), `Get` takes `RLock` (271). -/
def hamtWrites {T : Type} : Hamt.Op T → Bool
  | .insert .. | .erase _ => true
  | .get _ => false

theorem hamt_readers {T : Type} (hashOf : Hamt.Key → Hamt.Hash) : ReadersRead hamtWrites (Hamt.step (T := T) hashOf) := by
  intro op s o s' hw h
  cases op <;> simp only [hamtWrites, Bool.true_eq_false, reduceCtorEq] at hw
  simp only [Hamt.step, Res.bind_eq_ok, Res.ok.injEq, Prod.mk.injEq] at h
  obtain ⟨x, -, -, h⟩ := h; exact h.symm

/-- skiplist.go:86-162: `Insert` and `Remove` take `Lock` (87, 139), `Get` and `Len` take `RLock` (117, 160). -/
def skipWrites {K V : Type} : Skiplist.Op K V → Bool
  | .insert .. | .remove _ => true
  | .get _ | .len => false

theorem skip_readers {K V : Type} (cmp : K → K → Int) : ReadersRead skipWrites (Skiplist.step (K := K) (V := V) cmp) := by
  intro op s o s' hw h
  cases op <;> simp only [skipWrites, Bool.true_eq_false, reduceCtorEq] at hw <;>
    simp only [Skiplist.step, Res.bind_eq_ok, Res.ok.injEq, Prod.mk.injEq] at h
  · obtain ⟨x, -, -, h⟩ := h; exact h.symm
  · exact h.2.symm

/-! ## Priority queue, MultiMap, MultiSet, Bloom filter (see `Conc/Specs` for their theorems) -/

/-- priority_queue.go:98-144: `Push`, `Pop`, `Clear` take `Lock` (99, 107, 131), the others `RLock`. -/
def pqWrites {T : Type} : Heap.Op T → Bool
  | .push _ | .pop | .clear => true
  | .top | .empty | .size => false

theorem pq_readers {T : Type} (cmp : T → T → Int) : ReadersRead pqWrites (Heap.step cmp) := by
  intro op s o s' hw h
  cases op <;> simp only [pqWrites, Bool.true_eq_false, reduceCtorEq] at hw
  · cases s <;> simp only [Heap.step, Res.ok.injEq, Prod.mk.injEq, reduceCtorEq] at h
    exact h.2.symm
  · simp only [Heap.step, Res.ok.injEq, Prod.mk.injEq] at h; exact h.2.symm
  · simp only [Heap.step, Res.ok.injEq, Prod.mk.injEq] at h; exact h.2.symm

section Multi
open TreeMap RB
variable {K V : Type}

/-- multimap.go:30-147: `Insert`, `Erase`, `Clear` take `Lock` (31, 51, 116), the others `RLock`. -/
def multiMapStep (cmp : K → K → Int) (op : MapOp K V) (t : Tree K V) : Res (MapOut K V × Tree K V) :=
  match op with
  | .insert k v => do let t ← multiMapInsert cmp t k v; .ok (.unit, t)
  | .erase k => do let t ← eraseAll cmp t k; .ok (.unit, t)
  | .get k => do let v ← get cmp t k; .ok (.val v, t)
  | .contains k => do let b ← contains cmp t k; .ok (.bool b, t)
  | .size => .ok (.int (size t), t)
  | .clear => .ok (.unit, clear t)
  | .entries => do let kvs ← mapTraversal t (fun kvs k v => (kvs ++ [(k, v)], true)) []; .ok (.list kvs, t)

theorem multimap_readers (cmp : K → K → Int) : ReadersRead mapWrites (multiMapStep (V := V) cmp) := by
  intro op s o s' hw h
  cases op <;> simp only [mapWrites, Bool.true_eq_false, reduceCtorEq] at hw <;>
    simp only [multiMapStep, Res.bind_eq_ok, Res.ok.injEq, Prod.mk.injEq] at h
  · obtain ⟨x, -, -, h⟩ := h; exact h.symm
  · obtain ⟨x, -, -, h⟩ := h; exact h.symm
  · exact h.2.symm
  · obtain ⟨x, -, -, h⟩ := h; exact h.symm

/-- The calls of multiset.go:33-164. -/
inductive MultiSetOp (K : Type)
  | insert (x : K)
  | erase (x : K)
  | eraseAll (x : K)
  | contains (x : K)
  | count (x : K)
  | size
  | clear
  | elements

/-- multiset.go:33-164: `Insert`, `Erase`, `EraseAll`, `Clear` take `Lock` (34, 42, 53, 129), the others `RLock`. -/
def multiSetWrites : MultiSetOp K → Bool
  | .insert _ | .erase _ | .eraseAll _ | .clear => true
  | .contains _ | .count _ | .size | .elements => false

/-- multiset.go:33-164. -/
def multiSetStep (cmp : K → K → Int) (op : MultiSetOp K) (t : Tree K Bool) : Res (SetOut K × Tree K Bool) :=
  match op with
  | .insert x => do let t ← multiSetInsert cmp t x; .ok (.unit, t)
  | .erase x => do let t ← eraseOne cmp t x; .ok (.unit, t)
  | .eraseAll x => do let t ← eraseAll cmp t x; .ok (.unit, t)
  | .contains x => do let b ← contains cmp t x; .ok (.bool b, t)
  | .count x => do let n ← count cmp t x; .ok (.int n, t)
  | .size => .ok (.int (size t), t)
  | .clear => .ok (.unit, clear t)
  | .elements => do let xs ← setTraversal t (fun xs x => (xs ++ [x], true)) []; .ok (.list xs, t)

theorem multiset_readers (cmp : K → K → Int) : ReadersRead multiSetWrites (multiSetStep cmp) := by
  intro op s o s' hw h
  cases op <;> simp only [multiSetWrites, Bool.true_eq_false, reduceCtorEq] at hw <;>
    simp only [multiSetStep, Res.bind_eq_ok, Res.ok.injEq, Prod.mk.injEq] at h
  · obtain ⟨x, -, -, h⟩ := h; exact h.symm
  · obtain ⟨x, -, -, h⟩ := h; exact h.symm
  · exact h.2.symm
  · obtain ⟨x, -, -, h⟩ := h; exact h.symm

end Multi

/-- The calls of bloom.go:90-123. -/
inductive BloomOp
  | add (v : List Bitmap.Byte)
  | contains (v : List Bitmap.Byte)
  | data

/-- What they return. -/
inductive BloomOut
  | unit
  | bool (b : Bool)
  | bytes (d : List Bitmap.Byte)

/-- bloom.go:90-123: `Add` and `Data` take `Lock` (91, 116), `Contains` takes `RLock` (102). -/
def bloomWrites : BloomOp → Bool
  | .add _ | .data => true
  | .contains _ => false

/-- bloom.go:90-123. -/
def bloomStep (H : List Bitmap.Byte → List Bitmap.Byte) (op : BloomOp) (bf : Bloom.BloomFilter) : Res (BloomOut × Bloom.BloomFilter) :=
  match op with
  | .add v => do let bf ← Bloom.add H bf v; .ok (.unit, bf)
  | .contains v => do let b ← Bloom.contains H bf v; .ok (.bool b, bf)
  | .data => .ok (.bytes (Bloom.data bf), bf)

theorem bloom_readers (H : List Bitmap.Byte → List Bitmap.Byte) : ReadersRead bloomWrites (bloomStep H) := by
  intro op s o s' hw h
  cases op <;> simp only [bloomWrites, Bool.true_eq_false, reduceCtorEq] at hw
  simp only [bloomStep, Res.bind_eq_ok, Res.ok.injEq, Prod.mk.injEq] at h
  obtain ⟨x, -, -, h⟩ := h; exact h.symm

/-! ## A concrete execution -/

/-- Three goroutines and one map: goroutine 0 inserts 1 ↦ 10, the others get 1. The local state is the result of the call, once made. -/
def exClient : Client Unit (Fin 3) (Option (Res (MapOut Int Int))) (MapOp Int Int) (MapOut Int Int) := fun t l =>
  match l with
  | some _ => none
  | none => some ((), if t = 0 then .insert 1 10 else .get 1, some)

/-- The program of this client. -/
def exProg : Prog Unit (RB.Tree Int Int) (Fin 3) (Option (Res (MapOut Int Int))) := exClient.prog (Impl.whole (map_readers intCmp))

/-- Goroutine 0 inserts; then both readers hold the lock at once; the one that entered last leaves first. Both see the value. -/
example : ∃ c, Run exProg (fun _ => RB.Tree.new) (fun _ => none) [0, 2, 1] c ∧
    c.thr 1 = .out (some (.ok (.val (some 10)))) ∧ c.thr 2 = .out (some (.ok (.val (some 10)))) := by
  have h0 : Run exProg (fun _ => RB.Tree.new) (fun _ => none) [] _ := .init
  have h1 := h0.silent (.enter (t := 0) rfl rfl (by rintro t w ⟨l, m, h⟩; cases h))
  have h2 := h1.silent (.read (t := 0) rfl)
  have h3 := h2.silent (.upd (t := 0) rfl)
  have h4 := h3.left (.leave (t := 0) rfl)
  have h5 := h4.silent (.enter (t := 1) rfl rfl (by
    rintro t w ⟨l, m, h⟩
    match t, h with
    | 0, h => cases h
    | 1, h => cases h
    | 2, h => cases h))
  have h6 := h5.silent (.enter (t := 2) rfl rfl (by
    rintro t w ⟨l, m, h⟩
    match t, h with
    | 0, h => cases h
    | 1, h => cases h; exact ⟨rfl, rfl⟩
    | 2, h => cases h))
  have h7 := h6.silent (.read (t := 1) rfl)
  have h8 := h7.silent (.read (t := 2) rfl)
  have h9 := h8.left (.leave (t := 2) rfl)
  have h10 := h9.left (.leave (t := 1) rfl)
  exact ⟨_, h10, rfl, rfl⟩

end GoSTL.Conc
