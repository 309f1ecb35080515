import Verif.Conc.Instances
/-!
# C58 for containers whose specification leaves choices, and the read-locked methods

The results of a priority queue (which of several equal elements comes first), a hash trie (the order of its keys) or a Bloom filter (false positives) are
not determined by the abstract state; their specifications are relations.
-/
namespace GoSTL.Conc
variable {ι τ L S A Op Out : Type} [DecidableEq ι] [DecidableEq τ]

/-- The goroutines of the list make their next call, one at a time, on objects that behave as the relation `spec` allows: `spec op a r` says that on an
object in state `a` the call `op` may end with `r`, a result and a new state, or a panic. -/
inductive SeqRel (spec : Op → A → Res (Out × A) → Prop) (client : Client ι τ L Op Out) : List τ → (ι → A) → (τ → L) → (ι → A) → (τ → L) → Prop
  | nil {p l} : SeqRel spec client [] p l p l
  | ok {t ts p l p' l' i op k r a} : client t (l t) = some (i, op, k) → spec op (p i) (.ok (r, a)) →
      SeqRel spec client ts (Function.update p i a) (Function.update l t (k (.ok r))) p' l' → SeqRel spec client (t :: ts) p l p' l'
  | panic {t ts p l p' l' i op k} : client t (l t) = some (i, op, k) → spec op (p i) .panic →
      SeqRel spec client ts p (Function.update l t (k .panic)) p' l' → SeqRel spec client (t :: ts) p l p' l'

/-- One call of the sequential model ends as the specification allows. -/
def Refines (stp : Op → S → Res (Out × S)) (spec : Op → A → Res (Out × A) → Prop) (R : S → A → Prop) : Prop :=
  ∀ op s a, R s a → (stp op s = .panic ∧ spec op a .panic) ∨ ∃ r s' a', stp op s = .ok (r, s') ∧ R s' a' ∧ spec op a (.ok (r, a'))

theorem exec_seqRel {writes : Op → Bool} {stp : Op → S → Res (Out × S)} {spec : Op → A → Res (Out × A) → Prop} {R : S → A → Prop}
    (hR : Refines stp spec R) (client : Client ι τ L Op Out) (impl : Impl ι writes stp) :
    ∀ (log : List τ) (o : ι → S) (p : ι → A) (l : τ → L) (a : AConf ι S τ L), (∀ i, R (o i) (p i)) →
    exec (client.prog impl) log { obj := o, loc := l } = some a →
    ∃ p', SeqRel spec client log p l p' a.loc ∧ ∀ i, R (a.obj i) (p' i) := by
  intro log
  induction log with
  | nil => intro o p l a h e; cases e; exact ⟨p, .nil, h⟩
  | cons t ts ih =>
    intro o p l a h e
    simp only [exec, astep, Client.prog] at e
    cases hc : client t (l t) with
    | none => simp [hc] at e
    | some x =>
      obtain ⟨i, op, k⟩ := x
      simp only [hc, Option.map_some, Option.bind_some, Micro.map_run, impl_run] at e
      rcases hR op _ _ (h i) with ⟨h1, h2⟩ | ⟨r, s', a', h1, h2, h3⟩
      · have e1 : lift stp op (o i) = (o i, .panic) := by simp [lift, h1]
        simp only [e1, Function.update_eq_self] at e
        obtain ⟨p', h4, h5⟩ := ih _ p _ a h e
        exact ⟨p', .panic hc h2 h4, h5⟩
      · have e1 : lift stp op (o i) = (s', .ok r) := by simp [lift, h1]
        simp only [e1] at e
        obtain ⟨p', h4, h5⟩ := ih _ (Function.update p i a') _ a (by
          intro j
          by_cases hj : j = i
          · subst hj; simpa using h2
          · simpa [Function.update_of_ne hj] using h j) e
        exact ⟨p', .ok hc h3 h4, h5⟩

/-- C58: linearizability with respect to a relation. Let the sequential methods `stp` of a container refine `spec`. Then, for any number of
goroutine-safe containers and of goroutines, any clients and any interleaving, the calls finished so far, made one at a time in the order in which the locks
were released, can have given every goroutine the same results; every container not being written represents the abstract state; there is no data race. -/
theorem C58_linearizable_rel {writes : Op → Bool} {stp : Op → S → Res (Out × S)} {spec : Op → A → Res (Out × A) → Prop} {R : S → A → Prop}
    (hR : Refines stp spec R) (client : Client ι τ L Op Out) (impl : Impl ι writes stp)
    {o : ι → S} {p : ι → A} (h0 : ∀ i, R (o i) (p i)) {l : τ → L} {log : List τ} {c : Conf ι S τ L} (h : Run (client.prog impl) o l log c) :
    ∃ p' l', SeqRel spec client log p l p' l' ∧
      (∀ t x, c.thr t = .out x → l' t = x) ∧ (∀ t x i w m, c.thr t = .ins x i w m → l' t = x) ∧
      (∀ i, (∀ t, ¬ Holds c t i true) → R (c.obj i) (p' i)) ∧ ¬ Race c := by
  obtain ⟨a, e, h1, h2, h3⟩ := C58_sections_atomic (client_disciplined client impl) h
  obtain ⟨p', e', hp⟩ := exec_seqRel hR client impl log o p l a h0 e
  refine ⟨p', a.loc, e', h1, h2, fun i hi => ?_, C58_race_free (client_disciplined client impl) h⟩
  rw [← h3 i hi]
  exact hp i

/-! ## Priority queue -/

/-- C58 for priority queues: every concurrent execution amounts to calls on bags, one at a time, where `Pop` and `Top` return an element that no other
element of the bag precedes and panic on the empty bag (`Heap.SpecStep`). -/
theorem C58_priority_queue {T : Type} {cmp : T → T → Int} (hc : LawfulCmp cmp) (client : Client ι τ L (Heap.Op T) (Heap.Out T))
    (impl : Impl ι pqWrites (Heap.step cmp)) {l : τ → L} {log : List τ} {c : Conf ι (List T) τ L} (h : Run (client.prog impl) (fun _ => []) l log c) :
    ∃ p l', SeqRel (Heap.SpecStep cmp) client log (fun _ => []) l p l' ∧
      (∀ t x, c.thr t = .out x → l' t = x) ∧ (∀ t x i w m, c.thr t = .ins x i w m → l' t = x) ∧
      (∀ i, (∀ t, ¬ Holds c t i true) → Heap.IsHeap cmp (c.obj i) ∧ (c.obj i).Perm (p i)) ∧ ¬ Race c := by
  refine C58_linearizable_rel (R := fun s q => Heap.IsHeap cmp s ∧ s.Perm q) (fun op s q hr => ?_) client impl
    (fun _ => ⟨fun k x y _ hx => by simp at hx, .refl _⟩) h
  rcases Heap.step_refines hc op hr.1 hr.2 with h | ⟨o, h', q', h1, h2, h3, h4⟩
  · exact .inl h
  · exact .inr ⟨o, h', q', h1, ⟨h2, h3⟩, h4⟩

/-! ## MultiMap and MultiSet -/

section Multi
open TreeMap RB
variable {K V : Type}

/-- One call on a multimap that holds the entries `m`, oldest first: `Get` returns the oldest value of the key; a traversal lists all entries in key order,
entries with equal keys oldest first. -/
inductive MultiMapSpec (cmp : K → K → Int) : MapOp K V → List (K × V) → Res (MapOut K V × List (K × V)) → Prop
  | insert {k v m} : MultiMapSpec cmp (.insert k v) m (.ok (.unit, m ++ [(k, v)]))
  | erase {k m} : MultiMapSpec cmp (.erase k) m (.ok (.unit, m.filter fun e => decide (cmp k e.1 ≠ 0)))
  | get {k m} : MultiMapSpec cmp (.get k) m (.ok (.val ((m.find? fun e => decide (cmp k e.1 = 0)).map Prod.snd), m))
  | contains {k m} : MultiMapSpec cmp (.contains k) m (.ok (.bool (m.any fun e => decide (cmp k e.1 = 0)), m))
  | size {m} : MultiMapSpec cmp .size m (.ok (.int m.length, m))
  | clear {m} : MultiMapSpec cmp .clear m (.ok (.unit, []))
  | entries {m kvs} : kvs.Perm m → kvs.Pairwise (fun a b => cmp a.1 b.1 ≤ 0) →
      (∀ k, kvs.filter (fun e => decide (cmp k e.1 = 0)) = m.filter fun e => decide (cmp k e.1 = 0)) →
      MultiMapSpec cmp .entries m (.ok (.list kvs, m))

theorem multimap_refines {cmp : K → K → Int} (hc : LawfulCmp cmp) : Refines (multiMapStep (V := V) cmp) (MultiMapSpec cmp) (MultiInv cmp) := by
  intro op s m hi
  right
  obtain ⟨kvs, h1, h2⟩ := hi
  have hi : MultiInv cmp s m := ⟨kvs, h1, h2⟩
  cases op with
  | insert k v =>
    obtain ⟨s', e, h'⟩ := hi.insert hc k v
    exact ⟨_, s', _, by (simp only [multiMapStep, multiMapInsert, e, Res.ok_bind] <;> rfl), h', .insert⟩
  | erase k =>
    obtain ⟨s', e, h'⟩ := hi.eraseAll hc k
    refine ⟨_, s', _, by (simp only [multiMapStep, e, Res.ok_bind] <;> rfl), h', ?_⟩
    have : (m.filter fun e => !keq cmp k e) = m.filter fun e => decide (cmp k e.1 ≠ 0) := by
      congr 1; funext e; simp [keq]
    rw [this]; exact .erase
  | get k =>
    refine ⟨_, s, _, by (simp only [multiMapStep, h1.get hc, Res.ok_bind] <;> rfl), hi, ?_⟩
    rw [h2.find?]; exact .get
  | contains k =>
    refine ⟨_, s, _, by (simp only [multiMapStep, h1.contains hc, Res.ok_bind] <;> rfl), hi, ?_⟩
    rw [h2.1.any_eq]; exact .contains
  | size =>
    refine ⟨_, s, _, by (simp only [multiMapStep, h1.size] <;> rfl), hi, ?_⟩
    rw [h2.1.length_eq]; exact .size
  | clear => exact ⟨_, _, _, rfl, ⟨[], h1.clear, List.Perm.nil, fun _ => rfl⟩, .clear⟩
  | entries =>
    refine ⟨_, s, _, by (simp only [multiMapStep, h1.mapTraversal, Res.ok_bind, feedKV_collect, List.nil_append] <;> rfl), hi, ?_⟩
    exact .entries h2.1 h1.sorted h2.2

/-- C58 for multimaps: every concurrent execution amounts to calls on bags of entries, one at a time. -/
theorem C58_multimap {cmp : K → K → Int} (hc : LawfulCmp cmp) (client : Client ι τ L (MapOp K V) (MapOut K V)) (impl : Impl ι mapWrites (multiMapStep cmp))
    {l : τ → L} {log : List τ} {c : Conf ι (Tree K V) τ L} (h : Run (client.prog impl) (fun _ => Tree.new) l log c) :
    ∃ p l', SeqRel (MultiMapSpec cmp) client log (fun _ => []) l p l' ∧
      (∀ t x, c.thr t = .out x → l' t = x) ∧ (∀ t x i w m, c.thr t = .ins x i w m → l' t = x) ∧
      (∀ i, (∀ t, ¬ Holds c t i true) → MultiInv cmp (c.obj i) (p i)) ∧ ¬ Race c :=
  C58_linearizable_rel (multimap_refines hc) client impl (fun _ => ⟨[], HoldsKV.new, List.Perm.nil, fun _ => rfl⟩) h

/-- One call on a multiset that holds the elements `m`, oldest first: `Erase` removes the oldest equal element, `EraseAll` all of them. -/
inductive MultiSetSpec (cmp : K → K → Int) : MultiSetOp K → List K → Res (SetOut K × List K) → Prop
  | insert {x m} : MultiSetSpec cmp (.insert x) m (.ok (.unit, m ++ [x]))
  | erase {x m} : MultiSetSpec cmp (.erase x) m (.ok (.unit, m.eraseP fun y => decide (cmp x y = 0)))
  | eraseAll {x m} : MultiSetSpec cmp (.eraseAll x) m (.ok (.unit, m.filter fun y => decide (cmp x y ≠ 0)))
  | contains {x m} : MultiSetSpec cmp (.contains x) m (.ok (.bool (m.any fun y => decide (cmp x y = 0)), m))
  | count {x m} : MultiSetSpec cmp (.count x) m (.ok (.int (m.countP fun y => decide (cmp y x = 0)), m))
  | size {m} : MultiSetSpec cmp .size m (.ok (.int m.length, m))
  | clear {m} : MultiSetSpec cmp .clear m (.ok (.unit, []))
  | elements {m xs} : xs.Perm m → xs.Pairwise (fun a b => cmp a b ≤ 0) →
      (∀ x, xs.filter (fun y => decide (cmp x y = 0)) = m.filter fun y => decide (cmp x y = 0)) → MultiSetSpec cmp .elements m (.ok (.list xs, m))

theorem multiset_refines {cmp : K → K → Int} (hc : LawfulCmp cmp) :
    Refines (multiSetStep cmp) (MultiSetSpec cmp) (fun s m => MultiInv cmp s (m.map fun x => (x, true))) := by
  intro op s m hi
  right
  beta_reduce at hi ⊢
  obtain ⟨kvs, h1, h2⟩ := hi
  have hi : MultiInv cmp s (m.map fun x => (x, true)) := ⟨kvs, h1, h2⟩
  have hp : (kvs.map (·.1)).Perm m := by
    have := h2.1.map (·.1)
    simpa [Function.comp_def] using this
  cases op with
  | insert x =>
    obtain ⟨s', e, h'⟩ := hi.insert hc x true
    refine ⟨_, s', m ++ [x], by (simp only [multiSetStep, multiSetInsert, e, Res.ok_bind] <;> rfl), ?_, .insert⟩
    simpa using h'
  | erase x =>
    obtain ⟨s', e, h'⟩ := hi.eraseOne hc x
    rw [List.eraseP_map] at h'
    exact ⟨_, s', _, by (simp only [multiSetStep, e, Res.ok_bind] <;> rfl), h', .erase⟩
  | eraseAll x =>
    obtain ⟨s', e, h'⟩ := hi.eraseAll hc x
    rw [List.filter_map] at h'
    have : m.filter ((fun e : K × Bool => !keq cmp x e) ∘ fun x => (x, true)) = m.filter fun y => decide (cmp x y ≠ 0) := by
      congr 1; funext e; simp [keq]
    rw [this] at h'
    exact ⟨_, s', _, by (simp only [multiSetStep, e, Res.ok_bind] <;> rfl), h', .eraseAll⟩
  | contains x =>
    refine ⟨_, s, _, by (simp only [multiSetStep, h1.contains hc, Res.ok_bind] <;> rfl), hi, ?_⟩
    have : kvs.any (keq cmp x) = m.any fun y => decide (cmp x y = 0) := by rw [h2.1.any_eq, List.any_map]; rfl
    have h := MultiSetSpec.contains (cmp := cmp) (x := x) (m := m)
    rw [← this] at h; exact h
  | count x =>
    refine ⟨_, s, _, by (simp only [multiSetStep, h1.count, Res.ok_bind] <;> rfl), hi, ?_⟩
    rw [hp.countP_eq]; exact .count
  | size =>
    refine ⟨_, s, _, by (simp only [multiSetStep, h1.size] <;> rfl), hi, ?_⟩
    rw [h2.1.length_eq, List.length_map]; exact .size
  | clear => exact ⟨_, _, [], rfl, ⟨[], h1.clear, List.Perm.nil, fun _ => rfl⟩, .clear⟩
  | elements =>
    refine ⟨_, s, _, by (simp only [multiSetStep, h1.setTraversal, Res.ok_bind, feedKeys_collect, List.nil_append] <;> rfl), hi, .elements hp ?_ fun x => ?_⟩
    · rw [List.pairwise_map]; exact h1.sorted
    · have := congrArg (List.map (·.1)) (h2.2 x)
      rw [List.filter_map, List.map_map] at this
      rw [List.filter_map]
      have e : ((fun x : K × Bool => x.1) ∘ fun x => (x, true)) = id := rfl
      rw [e, List.map_id] at this
      exact this

/-- C58 for multisets: every concurrent execution amounts to calls on bags, one at a time. -/
theorem C58_multiset {cmp : K → K → Int} (hc : LawfulCmp cmp) (client : Client ι τ L (MultiSetOp K) (SetOut K)) (impl : Impl ι multiSetWrites (multiSetStep cmp))
    {l : τ → L} {log : List τ} {c : Conf ι (Tree K Bool) τ L} (h : Run (client.prog impl) (fun _ => Tree.new) l log c) :
    ∃ p l', SeqRel (MultiSetSpec cmp) client log (fun _ => []) l p l' ∧
      (∀ t x, c.thr t = .out x → l' t = x) ∧ (∀ t x i w m, c.thr t = .ins x i w m → l' t = x) ∧
      (∀ i, (∀ t, ¬ Holds c t i true) → MultiInv cmp (c.obj i) ((p i).map fun x => (x, true))) ∧ ¬ Race c :=
  C58_linearizable_rel (multiset_refines hc) client impl (fun _ => ⟨[], HoldsKV.new, List.Perm.nil, fun _ => rfl⟩) h

end Multi

/-! ## Bloom filter -/

/-- One call on a Bloom filter to which the values `m` were added: `Contains` is true for all of them, `Data` is an export that a filter holding all of them can
be made from. -/
inductive BloomSpec (H : List Bitmap.Byte → List Bitmap.Byte) : BloomOp → List (List Bitmap.Byte) → Res (BloomOut × List (List Bitmap.Byte)) → Prop
  | add {v m} : BloomSpec H (.add v) m (.ok (.unit, v :: m))
  | contains {v m b} : (v ∈ m → b = true) → BloomSpec H (.contains v) m (.ok (.bool b, m))
  | data {m d bf} : Bloom.newFromData d = .ok bf → (∀ v ∈ m, Bloom.contains H bf v = .ok true) → BloomSpec H .data m (.ok (.bytes d, m))

/-- A filter of valid parameters that has all the values of `m`. -/
def BloomRep (H : List Bitmap.Byte → List Bitmap.Byte) (bf : Bloom.BloomFilter) (m : List (List Bitmap.Byte)) : Prop :=
  Bloom.Good bf ∧ bf.m < 2 ^ 64 ∧ ∀ v ∈ m, Bloom.contains H bf v = .ok true

theorem bloom_refines {H : List Bitmap.Byte → List Bitmap.Byte} (hH : Bloom.GoodHash H) : Refines (bloomStep H) (BloomSpec H) (BloomRep H) := by
  rintro op bf m ⟨hg, hm, h⟩
  right
  cases op with
  | add v =>
    obtain ⟨bf', xs, e1, -, hg', hm', -, -⟩ := Bloom.add_spec hH hg v
    refine ⟨_, bf', v :: m, by (simp only [bloomStep, e1, Res.ok_bind] <;> rfl), ⟨hg', by omega, fun w hw => ?_⟩, .add⟩
    rcases List.mem_cons.1 hw with rfl | hw
    · obtain ⟨bf2, e2, -, -, h2⟩ := Bloom.addAll_good hH [w] hg
      simp only [Bloom.addAll, e1, Res.ok_bind] at e2
      cases e2; exact h2 w (by simp)
    · obtain ⟨bf2, e2, h2⟩ := Bloom.C31_monotone hH hg w v (h w hw)
      rw [e1] at e2; cases e2; exact h2
  | contains v =>
    obtain ⟨ys, -, c1⟩ := Bloom.contains_spec hH hg v
    refine ⟨_, bf, m, by (simp only [bloomStep, c1, Res.ok_bind] <;> rfl), ⟨hg, hm, h⟩, .contains fun hv => ?_⟩
    have := h v hv
    rw [c1] at this; exact Res.ok.inj this
  | data => exact ⟨_, bf, m, rfl, ⟨hg, hm, h⟩, .data (Bloom.C32_roundtrip hg.size hm (by have := hg.k; omega)) h⟩

/-- C58 for Bloom filters: every concurrent execution amounts to calls on sets with false positives, one at a time. -/
theorem C58_bloom {H : List Bitmap.Byte → List Bitmap.Byte} (hH : Bloom.GoodHash H) {m k : Nat} (hm : 0 < m) (hm' : m ≤ 2 ^ 64 - 8) (hk : k < 2 ^ 63)
    (client : Client ι τ L BloomOp BloomOut) (impl : Impl ι bloomWrites (bloomStep H))
    {l : τ → L} {log : List τ} {c : Conf ι Bloom.BloomFilter τ L} (h : Run (client.prog impl) (fun _ => Bloom.new m k) l log c) :
    ∃ p l', SeqRel (BloomSpec H) client log (fun _ => []) l p l' ∧
      (∀ t x, c.thr t = .out x → l' t = x) ∧ (∀ t x i w m, c.thr t = .ins x i w m → l' t = x) ∧
      (∀ i, (∀ t, ¬ Holds c t i true) → ∀ v ∈ p i, Bloom.contains H (c.obj i) v = .ok true) ∧ ¬ Race c := by
  obtain ⟨p, l', h1, h2, h3, h4, h5⟩ := C58_linearizable_rel (bloom_refines hH) client impl (p := fun _ => [])
    (fun _ => ⟨Bloom.new_good hm hm' hk, by show m < _; omega, by simp⟩) h
  exact ⟨p, l', h1, h2, h3, fun i hi => (h4 i hi).2.2, h5⟩

/-! ## Hash trie and skip list, with `Keys` -/

/-- A call of `Insert`, `Get` or `Erase` (`Remove`, `Len`), or `Keys`. -/
inductive KeysOp (O : Type)
  | call (op : O)
  | keys

/-- What such a call returns. -/
inductive KeysOut (O K : Type)
  | call (o : O)
  | keys (ks : List K)

/-- hamt.go:258-311, skiplist.go:86-162, 196-215: `Keys`, like `Traversal`, takes `RLock`; what it reads is the result of its one critical section. -/
def keysWrites {O : Type} (w : O → Bool) : KeysOp O → Bool
  | .call op => w op
  | .keys => false

/-- One call of a base method, or `Keys`. -/
def keysStep {O R K S : Type} (stp : O → S → Res (R × S)) (keys : S → Res (List K)) (op : KeysOp O) (s : S) : Res (KeysOut R K × S) :=
  match op with
  | .call op => do let (r, s) ← stp op s; .ok (.call r, s)
  | .keys => do let ks ← keys s; .ok (.keys ks, s)

theorem keys_readers {O R K S : Type} {w : O → Bool} {stp : O → S → Res (R × S)} (keys : S → Res (List K)) (h : ReadersRead w stp) :
    ReadersRead (keysWrites w) (keysStep stp keys) := by
  intro op s o s' hw e
  cases op with
  | call op =>
    simp only [keysStep, Res.bind_eq_ok, Res.ok.injEq, Prod.mk.injEq] at e
    obtain ⟨⟨r, s1⟩, e1, -, rfl⟩ := e
    exact h op s r s1 hw e1
  | keys =>
    simp only [keysStep, Res.bind_eq_ok, Res.ok.injEq, Prod.mk.injEq] at e
    obtain ⟨ks, -, -, e⟩ := e
    exact e.symm

/-- One call on a finite map; `Keys` lists the present keys, each once, in some order. -/
inductive HamtSpec {T : Type} : KeysOp (Hamt.Op T) → (Hamt.Key → Option T) → Res (KeysOut (Hamt.Out T) Hamt.Key × (Hamt.Key → Option T)) → Prop
  | call {op m} : HamtSpec (.call op) m (.ok (.call (Hamt.specStep op m).1, (Hamt.specStep op m).2))
  | keys {ks m} : ks.Nodup → (∀ k, k ∈ ks ↔ (m k).isSome = true) → HamtSpec .keys m (.ok (.keys ks, m))

theorem hamt_refines {T : Type} (hashOf : Hamt.Key → Hamt.Hash) :
    Refines (keysStep (Hamt.step (T := T) hashOf) Hamt.Keys) HamtSpec (Hamt.Agree hashOf) := by
  intro op h m ha
  right
  cases op with
  | call op =>
    obtain ⟨h', e, ha'⟩ := Hamt.step_agree ha op
    exact ⟨_, h', _, by simp only [keysStep, e, Res.ok_bind], ha', .call⟩
  | keys =>
    obtain ⟨ks, e, h1, h2⟩ := Hamt.keys_agree ha
    exact ⟨_, h, m, by simp only [keysStep, e, Res.ok_bind], ha, .keys h1 h2⟩

/-- C58 for hash tries: every concurrent execution amounts to calls on finite maps, one at a time. -/
theorem C58_hamt {T : Type} (hashOf : Hamt.Key → Hamt.Hash) (client : Client ι τ L (KeysOp (Hamt.Op T)) (KeysOut (Hamt.Out T) Hamt.Key))
    (impl : Impl ι (keysWrites hamtWrites) (keysStep (Hamt.step hashOf) Hamt.Keys))
    {l : τ → L} {log : List τ} {c : Conf ι (Hamt.Node T) τ L} (h : Run (client.prog impl) (fun _ => Hamt.new) l log c) :
    ∃ p l', SeqRel HamtSpec client log (fun _ => Hamt.emptyMap) l p l' ∧
      (∀ t x, c.thr t = .out x → l' t = x) ∧ (∀ t x i w m, c.thr t = .ins x i w m → l' t = x) ∧
      (∀ i, (∀ t, ¬ Holds c t i true) → Hamt.Agree hashOf (c.obj i) (p i)) ∧ ¬ Race c :=
  C58_linearizable_rel (hamt_refines hashOf) client impl (fun _ => Hamt.agree_new hashOf) h

/-- One call on a finite map with ordered keys; `Keys` lists the keys in increasing order. -/
inductive SkipSpec {K V : Type} (cmp : K → K → Int) : KeysOp (Skiplist.Op K V) → List (K × V) → Res (KeysOut (Skiplist.Out V) K × List (K × V)) → Prop
  | call {op m} : SkipSpec cmp (.call op) m (.ok (.call (Skiplist.specStep cmp op m).1, (Skiplist.specStep cmp op m).2))
  | keys {L m : List (K × V)} : L.Perm m → L.Pairwise (fun x y => cmp x.1 y.1 < 0) → SkipSpec cmp .keys m (.ok (.keys (L.map Prod.fst), m))

theorem skip_refines {K V : Type} {cmp : K → K → Int} (hc : LawfulCmp cmp) :
    Refines (keysStep (Skiplist.step cmp) (Skiplist.Keys (K := K) (V := V))) (SkipSpec cmp) (Skiplist.Agree cmp) := by
  intro op h m ha
  right
  cases op with
  | call op =>
    obtain ⟨h', e, ha'⟩ := Skiplist.step_agree hc ha op
    exact ⟨_, h', _, by simp only [keysStep, e, Res.ok_bind], ha', .call⟩
  | keys =>
    obtain ⟨L, h1, h2, e, -⟩ := Skiplist.traversal_agree ha
    exact ⟨_, h, m, by simp only [keysStep, e, Res.ok_bind], ha, .keys h1 h2⟩

/-- C58 for skip lists: every concurrent execution, whatever the random draws, amounts to calls on finite maps, one at a time. -/
theorem C58_skiplist {K V : Type} {cmp : K → K → Int} (hc : LawfulCmp cmp) {n : Nat} (h1 : 1 ≤ n) (h2 : n ≤ 64) {w0 : Skiplist.SL K V} (hn : Skiplist.New n = .ok w0)
    (client : Client ι τ L (KeysOp (Skiplist.Op K V)) (KeysOut (Skiplist.Out V) K))
    (impl : Impl ι (keysWrites skipWrites) (keysStep (Skiplist.step cmp) Skiplist.Keys))
    {l : τ → L} {log : List τ} {c : Conf ι (Skiplist.SL K V) τ L} (h : Run (client.prog impl) (fun _ => w0) l log c) :
    ∃ p l', SeqRel (SkipSpec cmp) client log (fun _ => []) l p l' ∧
      (∀ t x, c.thr t = .out x → l' t = x) ∧ (∀ t x i w m, c.thr t = .ins x i w m → l' t = x) ∧
      (∀ i, (∀ t, ¬ Holds c t i true) → Skiplist.Agree cmp (c.obj i) (p i)) ∧ ¬ Race c := by
  refine C58_linearizable_rel (skip_refines hc) client impl (fun _ => ?_) h
  obtain ⟨w0', e0, a0⟩ := Skiplist.agree_new (K := K) (V := V) (cmp := cmp) h1 h2
  rw [hn] at e0; cases e0; exact a0

/-! ## Queue and Stack over lists -/

/-- C58 for queues over doubly linked lists (`WithListContainer`). -/
theorem C58_queue_list {T : Type} {w0 : BidList.World T} {S0 : BidList.Spec T} (hw : BidList.Reachable w0 S0)
    (client : Client ι τ L (Adapter.QueueOp T) (Adapter.Out T)) (impl : Impl ι queueWrites (Adapter.queueStep (Adapter.listContainer w0.lists.length)))
    {l : τ → L} {log : List τ} {c : Conf ι (BidList.World T) τ L} (h : Run (client.prog impl) (fun _ => BidList.newList w0) l log c) :
    ∃ p l', seqRun Adapter.queueSpec client log (fun _ => []) l = some (p, l') ∧
      (∀ t x, c.thr t = .out x → l' t = x) ∧ (∀ t x i w m, c.thr t = .ins x i w m → l' t = x) ∧
      (∀ i, (∀ t, ¬ Holds c t i true) → Adapter.HoldsList w0.lists.length (c.obj i) (p i)) ∧ ¬ Race c :=
  C58_linearizable (fun op s a hr => Adapter.queue_step (Adapter.list_lawful _) op s a hr) client impl (fun _ => Adapter.newList_holds w0 S0 hw.inv) h

/-- C58 for stacks over doubly linked lists (`WithListContainer`). -/
theorem C58_stack_list {T : Type} {w0 : BidList.World T} {S0 : BidList.Spec T} (hw : BidList.Reachable w0 S0)
    (client : Client ι τ L (Adapter.StackOp T) (Adapter.Out T)) (impl : Impl ι stackWrites (Adapter.stackStep (Adapter.listContainer w0.lists.length)))
    {l : τ → L} {log : List τ} {c : Conf ι (BidList.World T) τ L} (h : Run (client.prog impl) (fun _ => BidList.newList w0) l log c) :
    ∃ p l', seqRun Adapter.stackSpec client log (fun _ => []) l = some (p, l') ∧
      (∀ t x, c.thr t = .out x → l' t = x) ∧ (∀ t x i w m, c.thr t = .ins x i w m → l' t = x) ∧
      (∀ i, (∀ t, ¬ Holds c t i true) → Adapter.HoldsList w0.lists.length (c.obj i) (p i).reverse) ∧ ¬ Race c :=
  C58_linearizable (R := fun c l => Adapter.HoldsList w0.lists.length c l.reverse) (fun op s a hr => Adapter.stack_step (Adapter.list_lawful _) op s a hr) client
    impl (fun _ => Adapter.newList_holds w0 S0 hw.inv) h

/-! ## The methods that take `RLock` only read -/

/-- C58: in every container the methods that take only `RLock` leave the container as it was, so that code satisfying the discipline of `Impl` exists
(`Impl.whole`) and the theorems of C58 are about programs that exist. -/
theorem C58_readers_only_read {T K V C : Type} (K0 : Adapter.Container C T) (cmp : K → K → Int) (cmpT : T → T → Int) (hashOf : Hamt.Key → Hamt.Hash)
    (H : List Bitmap.Byte → List Bitmap.Byte) :
    ReadersRead queueWrites (Adapter.queueStep K0) ∧ ReadersRead stackWrites (Adapter.stackStep K0) ∧
    ReadersRead mapWrites (mapStep (V := V) cmp) ∧ ReadersRead mapWrites (multiMapStep (V := V) cmp) ∧
    ReadersRead setWrites (setStep cmp) ∧ ReadersRead multiSetWrites (multiSetStep cmp) ∧
    ReadersRead (keysWrites hamtWrites) (keysStep (Hamt.step (T := T) hashOf) Hamt.Keys) ∧
    ReadersRead (keysWrites skipWrites) (keysStep (Skiplist.step (K := K) (V := V) cmp) Skiplist.Keys) ∧
    ReadersRead pqWrites (Heap.step cmpT) ∧ ReadersRead bloomWrites (bloomStep H) :=
  ⟨queue_readers K0, stack_readers K0, map_readers cmp, multimap_readers cmp, set_readers cmp, multiset_readers cmp, keys_readers _ (hamt_readers hashOf),
    keys_readers _ (skip_readers cmp), pq_readers cmpT, bloom_readers H⟩

/-! ## A concrete execution -/

/-- Two goroutines and one priority queue: goroutine 0 pushes 7, goroutine 1 pops (and panics if it is first). -/
def exPQ : Client Unit (Fin 2) (Option (Res (Heap.Out Int))) (Heap.Op Int) (Heap.Out Int) := fun t l =>
  match l with
  | some _ => none
  | none => some ((), if t = 0 then .push 7 else .pop, some)

/-- Goroutine 1 goes first and panics; the queue still works afterwards. -/
example : ∃ c, Run (exPQ.prog (Impl.whole (pq_readers intCmp))) (fun _ => []) (fun _ => none) [1, 0] c ∧
    c.thr 1 = .out (some .panic) ∧ c.thr 0 = .out (some (.ok .unit)) ∧ c.obj () = [7] := by
  have h0 : Run (exPQ.prog (Impl.whole (pq_readers intCmp))) (fun _ => []) (fun _ => none) [] _ := .init
  have h1 := h0.silent (.enter (t := 1) rfl rfl (by rintro t w ⟨l, m, h⟩; cases h))
  have h2 := h1.silent (.read (t := 1) rfl)
  have h3 := h2.silent (.upd (t := 1) rfl)
  have h4 := h3.left (.leave (t := 1) rfl)
  have h5 := h4.silent (.enter (t := 0) rfl rfl (by
    rintro t w ⟨l, m, h⟩
    match t, h with
    | 0, h => cases h
    | 1, h => cases h))
  have h6 := h5.silent (.read (t := 0) rfl)
  have h7 := h6.silent (.upd (t := 0) rfl)
  have h8 := h7.left (.leave (t := 0) rfl)
  exact ⟨_, h8, rfl, rfl, rfl⟩

end GoSTL.Conc
