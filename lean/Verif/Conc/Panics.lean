import Verif.Conc.Instances
import Verif.Conc.Serial
import Verif.RBTree.Crash
/-!
# C89: goroutine-safe maps and sets whose comparator panics

The methods unlock in a deferred call (`defer m.locker.Unlock()`, map.go:57-58 and so on), so a call whose comparator panics still releases the lock; a goroutine that
recovers goes on. Here the comparator is a partial function of the two keys: where it is not defined, it panics.
-/
namespace GoSTL.Conc
open GoSTL.Algo (CmpFn)
variable {ι τ L S A Op Out K V : Type} [DecidableEq ι] [DecidableEq τ]

/-- The goroutines of the list make their next call, one at a time, on objects that behave like `spec`. A call that `may` panic can return, or panic in the comparator: then
it has no effect, and its goroutine goes on with the result `none`. The last two arguments are the objects and local states in the end. -/
inductive SeqP (spec : Op → A → Res (Out × A)) (may : Op → A → Prop) (client : Client ι τ L Op (Option Out)) :
    List τ → (ι → A) → (τ → L) → (ι → A) → (τ → L) → Prop
  | nil {o l} : SeqP spec may client [] o l o l
  | panics {t ts i op k o l o' l'} : client t (l t) = some (i, op, k) → may op (o i) →
      SeqP spec may client ts o (Function.update l t (k (.ok none))) o' l' → SeqP spec may client (t :: ts) o l o' l'
  | returns {t ts i op k r a o l o' l'} : client t (l t) = some (i, op, k) → spec op (o i) = .ok (r, a) →
      SeqP spec may client ts (Function.update o i a) (Function.update l t (k (.ok (some r)))) o' l' → SeqP spec may client (t :: ts) o l o' l'

theorem seqRun_panics {stp : Op → S → Res (Option Out × S)} {spec : Op → A → Res (Out × A)} {may : Op → A → Prop} {R : S → A → Prop}
    (hR : ∀ op s a, R s a → (stp op s = .ok (none, s) ∧ may op a) ∨ ∃ o s' a', stp op s = .ok (some o, s') ∧ spec op a = .ok (o, a') ∧ R s' a')
    (client : Client ι τ L Op (Option Out)) : ∀ (log : List τ) (o o' : ι → S) (p : ι → A) (l l' : τ → L), (∀ i, R (o i) (p i)) →
    seqRun stp client log o l = some (o', l') →
    ∃ p', SeqP spec may client log p l p' l' ∧ ∀ i, R (o' i) (p' i) := by
  intro log
  induction log with
  | nil => intro o o' p l l' h e; cases e; exact ⟨p, .nil, h⟩
  | cons t ts ih =>
    intro o o' p l l' h e
    simp only [seqRun] at e
    cases hc : client t (l t) with
    | none => simp [hc] at e
    | some x =>
      obtain ⟨i, op, k⟩ := x
      simp only [hc, Option.bind_some] at e
      rcases hR op _ _ (h i) with ⟨hs, hm⟩ | ⟨r, s', a', hs, ha, hr⟩
      · simp only [lift, hs, Function.update_eq_self] at e
        obtain ⟨p', e2, h'⟩ := ih o o' p _ l' h e
        exact ⟨p', .panics hc hm e2, h'⟩
      · simp only [lift, hs] at e
        obtain ⟨p', e2, h'⟩ := ih _ o' (Function.update p i a') _ l' (by
          intro j
          by_cases hj : j = i
          · subst hj; simpa using hr
          · simpa [Function.update_of_ne hj] using h j) e
        exact ⟨p', .returns hc ha e2, h'⟩

/-! ## The calls -/

section
open TreeMap RB

/-- A comparator that is a partial function of its arguments. -/
def partialCmp (p : K → K → Option Int) : CmpFn Unit K := fun _ x y => (p x y).map fun r => (r, ())

theorem partialCmp_answers {p : K → K → Option Int} {f : K → K → Int} (h : ∀ x y r, p x y = some r → r = f x y) : (partialCmp p).Answers f := by
  intro s x y r s' e
  simp only [partialCmp, Option.map_eq_some_iff, Prod.mk.injEq] at e
  obtain ⟨r', e, rfl, -⟩ := e
  exact h x y r' e

theorem partialCmp_pure (p : K → K → Option Int) (s s' : Unit) (x y : K) (h : partialCmp p s x y = none) : partialCmp p s' x y = none := h

/-- ds/rbtree/rbtree.go:35-41 `Find`, as `Get` and `Contains` of maps and sets use it (map.go:69-78, 162-170). -/
def findC {σ : Type} (ask : CmpFn σ K) (key : K) : TM σ K V (Option V) := do
  let node ← findNodeC ask key
  match node with
  | some i => do let n ← nodeC i; pure (some n.value)
  | none => pure none

/-- What a goroutine gets from a call: a result, or `none` when the comparator panicked and the goroutine recovered. The deferred unlock has run in both cases. -/
def outcome {σ α O : Type} (g : α → O) : Algo.Out σ (Tree K V) α → Res (Option O × Tree K V)
  | .done a t _ => .ok (some (g a), t)
  | .crashed t => .ok (none, t)
  | .panicked => .panic
  | .outOfFuel => .outOfFuel

/-- map.go:56-186 with a comparator that may panic; see `mapStep`. -/
def mapStepP (p : K → K → Option Int) (op : MapOp K V) (t : Tree K V) : Res (Option (MapOut K V) × Tree K V) :=
  match op with
  | .insert k v => outcome (fun _ => .unit) (mapInsertC (partialCmp p) k v () t)
  | .erase k => outcome (fun _ => .unit) (eraseOneC (partialCmp p) k () t)
  | .get k => outcome (fun v => .val v) (findC (partialCmp p) k () t)
  | .contains k => outcome (fun v => .bool v.isSome) (findC (partialCmp p) k () t)
  | .size => .ok (some (.int (size t)), t)
  | .clear => .ok (some .unit, clear t)
  | .entries => do let kvs ← mapTraversal t (fun kvs k v => (kvs ++ [(k, v)], true)) []; .ok (some (.list kvs), t)

/-- set.go:62-169 with a comparator that may panic; see `setStep`. -/
def setStepP (p : K → K → Option Int) (op : SetOp K) (t : Tree K Bool) : Res (Option (SetOut K) × Tree K Bool) :=
  match op with
  | .insert x => outcome (fun _ => .unit) (setInsertC (partialCmp p) x () t)
  | .erase x => outcome (fun _ => .unit) (eraseOneC (partialCmp p) x () t)
  | .contains x => outcome (fun v => .bool v.isSome) (findC (partialCmp p) x () t)
  | .size => .ok (some (.int (size t)), t)
  | .clear => .ok (some .unit, clear t)
  | .elements => do let xs ← setTraversal t (fun xs x => (xs ++ [x], true)) []; .ok (some (.list xs), t)

theorem findC_agrees {σ : Type} {ask : CmpFn σ K} {f : K → K → Int} (ha : ask.Answers f) (key : K) (s : σ) (t : Tree K V) :
    RB.Agree (findC ask key s t) (withTree t (t.find f key)) := by
  simp only [findC, Tree.find, withTree, Res.bind_assoc'']
  refine RB.Agree.bind_lookup (findNodeC_agrees ha key s t) fun node s' _ => ?_
  cases node with
  | none => rfl
  | some i =>
    simp only [Res.bind_assoc'']
    exact RB.Agree.bind_read fun n _ => rfl

/-- The comparator panics for two of the keys. -/
def Undefined (p : K → K → Option Int) (keys : List K) : Prop := ∃ x ∈ keys, ∃ y ∈ keys, p x y = none

theorem Undefined.of_asked {p : K → K → Option Int} {D : List K} (h : Asked (partialCmp p) D) : Undefined p D := by
  obtain ⟨st, x, y, hx, hy, e⟩ := h
  exact ⟨x, hx, y, hy, by simpa [partialCmp] using e⟩

/-- The calls that may panic: those with a key, when the comparator is not defined for that key and the keys of the map. -/
def mapMay (p : K → K → Option Int) (op : MapOp K V) (m : List (K × V)) : Prop :=
  match op with
  | .insert k _ | .erase k | .get k | .contains k => Undefined p (k :: m.map (·.1))
  | .size | .clear | .entries => False

/-- The calls that may panic. -/
def setMay (p : K → K → Option Int) (op : SetOp K) (m : List K) : Prop :=
  match op with
  | .insert k | .erase k | .contains k => Undefined p (k :: m)
  | .size | .clear | .elements => False

theorem findC_crashed {σ : Type} {ask : CmpFn σ K} {key : K} {st : σ} {s s' : Tree K V} {es : List (Id × K × V)} (h : RB.Holds s es)
    (e : findC ask key st s = .crashed s') : s' = s ∧ Asked ask (key :: es.map (·.2.1)) := by
  have hf := (C88_tree_lookups_end ask key st h).1
  rcases crashed_bind e with e | ⟨a, s1, st1, e1, e⟩
  · rw [e] at hf; exact hf
  · cases a with
    | none => cases e
    | some i => obtain ⟨n, -, e⟩ := crashed_read e; cases e

/-- A call with a panic leaves the tree; without, it does what it does with the total comparator. -/
theorem outcome_agree {σ α O : Type} {g : α → O} {o : Algo.Out σ (Tree K V) α} {t : Tree K V} {r : Res (O × Tree K V)} {r' : Res (α × Tree K V)}
    (h : RB.Agree o r') (hr : r = r' >>= fun x => .ok (g x.1, x.2)) (hok : ∃ x, r = .ok x) {M : Prop} (hcr : ∀ t', o = .crashed t' → t' = t ∧ M) :
    (outcome g o = .ok (none, t) ∧ M) ∨ ∃ x t', outcome g o = .ok (some x, t') ∧ r = .ok (x, t') := by
  cases o with
  | done a t' s => have h : r' = .ok (a, t') := h; subst h; exact .inr ⟨g a, t', rfl, hr⟩
  | crashed t' => rw [(hcr t' rfl).1]; exact .inl ⟨rfl, (hcr t' rfl).2⟩
  | panicked =>
    have h : r' = .panic := h
    obtain ⟨x, e⟩ := hok; rw [hr, h] at e; cases e
  | outOfFuel =>
    have h : r' = .outOfFuel := h
    obtain ⟨x, e⟩ := hok; rw [hr, h] at e; cases e

theorem mapStepP_spec {f : K → K → Int} (hc : LawfulCmp f) {p : K → K → Option Int} (hp : ∀ x y r, p x y = some r → r = f x y)
    (op : MapOp K V) (t : Tree K V) (m : List (K × V)) (h : MapRep f t m) :
    (mapStepP p op t = .ok (none, t) ∧ mapMay p op m) ∨ ∃ o t' m', mapStepP p op t = .ok (some o, t') ∧ mapSpec f op m = .ok (o, m') ∧ MapRep f t' m' := by
  have hs := map_step hc op t m h
  obtain ⟨xs, hx, hxm⟩ := h.1
  have hh := hx.1
  have hk : ∀ k, Asked (partialCmp p) (k :: xs.map (·.2.1)) → Undefined p (k :: m.map (·.1)) := fun k g => by
    have := Undefined.of_asked g
    rwa [show xs.map (·.2.1) = m.map (·.1) by rw [← hxm, List.map_map]; rfl] at this
  obtain ⟨o, m', hm⟩ : ∃ o m', mapSpec f op m = .ok (o, m') := by cases op <;> exact ⟨_, _, rfl⟩
  rw [hm] at hs ⊢
  obtain ⟨t', e, hr⟩ := agree_inv hs
  have ha := partialCmp_answers hp
  suffices hfin : (mapStepP p op t = .ok (none, t) ∧ mapMay p op m) ∨ ∃ x t'', mapStepP p op t = .ok (some x, t'') ∧ mapStep f op t = .ok (x, t'') by
    rcases hfin with h1 | ⟨x, t'', h1, h2⟩
    · exact .inl h1
    · rw [e] at h2; cases h2; exact .inr ⟨_, _, _, h1, rfl, hr⟩
  cases op with
  | insert k v =>
    refine outcome_agree (mapInsertC_agrees ha k v () t) ?_ ⟨_, e⟩
      fun t' e => ⟨(C88_tree_insert_pure (partialCmp p) (partialCmp_pure p) k ()).2.1 t t' xs v hh e,
        hk k ((C88_tree_insert_asks (partialCmp p) k ()).2.1 t t' xs v hh e)⟩
    simp only [mapStep]; cases mapInsert f t k v <;> rfl
  | erase k =>
    refine outcome_agree (eraseOneC_agrees ha k () t) ?_ ⟨_, e⟩ fun t' e => by
      have := C88_tree_erase (partialCmp p) k () hh
      rw [e] at this; exact ⟨this.1, hk k this.2⟩
    simp only [mapStep]; cases eraseOne f t k <;> rfl
  | get k =>
    refine outcome_agree (findC_agrees ha k () t) ?_ ⟨_, e⟩ fun t' e => by
      have := findC_crashed hh e
      exact ⟨this.1, hk k this.2⟩
    simp only [mapStep, withTree, TreeMap.get]
    show (Tree.find f t k >>= _) = _
    cases Tree.find f t k <;> rfl
  | contains k =>
    refine outcome_agree (findC_agrees ha k () t) ?_ ⟨_, e⟩ fun t' e => by
      have := findC_crashed hh e
      exact ⟨this.1, hk k this.2⟩
    simp only [mapStep, withTree, TreeMap.contains]
    cases Tree.find f t k <;> rfl
  | size => exact .inr ⟨_, _, rfl, rfl⟩
  | clear => exact .inr ⟨_, _, rfl, rfl⟩
  | entries =>
    simp only [mapStep, Res.bind_eq_ok] at e
    obtain ⟨kvs, e1, e2⟩ := e
    refine .inr ⟨.list kvs, t, ?_, ?_⟩
    · simp only [mapStepP, e1, Res.ok_bind]
    · simp only [mapStep, e1, Res.ok_bind]

theorem setStepP_spec {f : K → K → Int} (hc : LawfulCmp f) {p : K → K → Option Int} (hp : ∀ x y r, p x y = some r → r = f x y)
    (op : SetOp K) (t : Tree K Bool) (m : List K) (h : SetRep f t m) :
    (setStepP p op t = .ok (none, t) ∧ setMay p op m) ∨ ∃ o t' m', setStepP p op t = .ok (some o, t') ∧ setSpec f op m = .ok (o, m') ∧ SetRep f t' m' := by
  have hs := set_step hc op t m h
  obtain ⟨kvs, ⟨⟨xs, hx, hxm⟩, -⟩, hm0⟩ := h
  have hh := hx.1
  have hk : ∀ k, Asked (partialCmp p) (k :: xs.map (·.2.1)) → Undefined p (k :: m) := fun k g => by
    have := Undefined.of_asked g
    rwa [show xs.map (·.2.1) = m by rw [← hm0, ← hxm, List.map_map]; rfl] at this
  obtain ⟨o, m', hm⟩ : ∃ o m', setSpec f op m = .ok (o, m') := by cases op <;> exact ⟨_, _, rfl⟩
  rw [hm] at hs ⊢
  obtain ⟨t', e, hr⟩ := agree_inv hs
  have ha := partialCmp_answers hp
  suffices hfin : (setStepP p op t = .ok (none, t) ∧ setMay p op m) ∨ ∃ x t'', setStepP p op t = .ok (some x, t'') ∧ setStep f op t = .ok (x, t'') by
    rcases hfin with h1 | ⟨x, t'', h1, h2⟩
    · exact .inl h1
    · rw [e] at h2; cases h2; exact .inr ⟨_, _, _, h1, rfl, hr⟩
  cases op with
  | insert k =>
    refine outcome_agree (setInsertC_agrees ha k () t) ?_ ⟨_, e⟩
      fun t' e => ⟨(C88_tree_insert_pure (V := Bool) (partialCmp p) (partialCmp_pure p) k ()).2.2 t t' xs hh e,
        hk k ((C88_tree_insert_asks (V := Bool) (partialCmp p) k ()).2.2 t t' xs hh e)⟩
    simp only [setStep]; cases setInsert f t k <;> rfl
  | erase k =>
    refine outcome_agree (eraseOneC_agrees ha k () t) ?_ ⟨_, e⟩ fun t' e => by
      have := C88_tree_erase (partialCmp p) k () hh
      rw [e] at this; exact ⟨this.1, hk k this.2⟩
    simp only [setStep]; cases eraseOne f t k <;> rfl
  | contains k =>
    refine outcome_agree (findC_agrees ha k () t) ?_ ⟨_, e⟩ fun t' e => by
      have := findC_crashed hh e
      exact ⟨this.1, hk k this.2⟩
    simp only [setStep, withTree, TreeMap.contains]
    cases Tree.find f t k <;> rfl
  | size => exact .inr ⟨_, _, rfl, rfl⟩
  | clear => exact .inr ⟨_, _, rfl, rfl⟩
  | elements =>
    simp only [setStep, Res.bind_eq_ok] at e
    obtain ⟨kvs, e1, e2⟩ := e
    refine .inr ⟨.list kvs, t, ?_, ?_⟩
    · simp only [setStepP, e1, Res.ok_bind]
    · simp only [setStep, e1, Res.ok_bind]

/-- **C89** for maps. The comparator answers as the order `f` or panics, depending on the keys. For any number of maps and goroutines, any clients that recover from
panics and any interleaving: the finished calls, made one at a time on sorted association lists in the order in which the locks were released, give every goroutine the
results it got, where a call may panic only if the comparator does for the call's key and keys of the map, and then has no effect. There is no data race. -/
theorem C89_map {f : K → K → Int} (hc : LawfulCmp f) {p : K → K → Option Int} (hp : ∀ x y r, p x y = some r → r = f x y)
    (client : Client ι τ L (MapOp K V) (Option (MapOut K V))) (impl : Impl ι mapWrites (mapStepP p)) {l : τ → L} {log : List τ}
    {c : Conf ι (Tree K V) τ L} (h : Run (client.prog impl) (fun _ => Tree.new) l log c) :
    ∃ m l', SeqP (mapSpec f) (mapMay p) client log (fun _ => []) l m l' ∧
      (∀ t x, c.thr t = .out x → l' t = x) ∧ (∀ t x i w b, c.thr t = .ins x i w b → l' t = x) ∧
      (∀ i, (∀ t, ¬ Holds c t i true) → MapRep f (c.obj i) (m i)) ∧ ¬ Race c := by
  obtain ⟨o', l', e, h1, h2, h3, h4⟩ := C58_linearizable_self client impl h
  obtain ⟨m, e2, h5⟩ := seqRun_panics (mapStepP_spec hc hp) client log _ o' (fun _ => []) l l'
    (fun _ => ⟨HoldsKV.new, List.Pairwise.nil⟩) e
  exact ⟨m, l', e2, h1, h2, fun i hi => by rw [h3 i hi]; exact h5 i, h4⟩

/-- **C89** for sets. -/
theorem C89_set {f : K → K → Int} (hc : LawfulCmp f) {p : K → K → Option Int} (hp : ∀ x y r, p x y = some r → r = f x y)
    (client : Client ι τ L (SetOp K) (Option (SetOut K))) (impl : Impl ι setWrites (setStepP p)) {l : τ → L} {log : List τ}
    {c : Conf ι (Tree K Bool) τ L} (h : Run (client.prog impl) (fun _ => Tree.new) l log c) :
    ∃ m l', SeqP (setSpec f) (setMay p) client log (fun _ => []) l m l' ∧
      (∀ t x, c.thr t = .out x → l' t = x) ∧ (∀ t x i w b, c.thr t = .ins x i w b → l' t = x) ∧
      (∀ i, (∀ t, ¬ Holds c t i true) → SetRep f (c.obj i) (m i)) ∧ ¬ Race c := by
  obtain ⟨o', l', e, h1, h2, h3, h4⟩ := C58_linearizable_self client impl h
  obtain ⟨m, e2, h5⟩ := seqRun_panics (setStepP_spec hc hp) client log _ o' (fun _ => []) l l'
    (fun _ => ⟨[], ⟨HoldsKV.new, List.Pairwise.nil⟩, rfl⟩) e
  exact ⟨m, l', e2, h1, h2, fun i hi => by rw [h3 i hi]; exact h5 i, h4⟩

/-! ## Cases that meet the hypotheses -/

theorem findC_reads {p : K → K → Option Int} {O : Type} (g : Option V → O) (k : K) (s s' : Tree K V) (o : Option O)
    (h : outcome g (findC (partialCmp p) k () s) = .ok (o, s')) : s' = s := by
  have hr : ReadOnly (findC (partialCmp p) k : TM Unit K V (Option V)) := .bind (readOnly_findNode _ k) fun node => by
    cases node with
    | none => exact .pure _
    | some i => exact .bind (.read _) fun n => .pure _
  have := hr () s
  cases e : findC (partialCmp p) k () s with
  | done a t st => rw [e] at this h; cases h; exact this
  | crashed t => rw [e] at this h; cases h; exact this
  | panicked => rw [e] at h; cases h
  | outOfFuel => rw [e] at h; cases h

theorem mapP_readers (p : K → K → Option Int) : ReadersRead mapWrites (mapStepP (V := V) p) := by
  intro op s o s' hw h
  cases op <;> simp only [mapWrites, Bool.true_eq_false, reduceCtorEq] at hw
  · exact findC_reads _ _ _ _ _ h
  · exact findC_reads _ _ _ _ _ h
  · cases h; rfl
  · simp only [mapStepP, Res.bind_eq_ok, Res.ok.injEq, Prod.mk.injEq] at h
    obtain ⟨x, -, -, h⟩ := h; exact h.symm

theorem setP_readers (p : K → K → Option Int) : ReadersRead setWrites (setStepP p) := by
  intro op s o s' hw h
  cases op <;> simp only [setWrites, Bool.true_eq_false, reduceCtorEq] at hw
  · exact findC_reads _ _ _ _ _ h
  · cases h; rfl
  · simp only [setStepP, Res.bind_eq_ok, Res.ok.injEq, Prod.mk.injEq] at h
    obtain ⟨x, -, -, h⟩ := h; exact h.symm

/-- A comparator of integers that panics when it meets a 0. -/
def pz (x y : Int) : Option Int := if x = 0 ∨ y = 0 then none else some (x - y)

theorem pz_answers : ∀ x y r, pz x y = some r → r = x - y := by
  intro x y r h
  unfold pz at h
  split at h
  · cases h
  · cases h; rfl

/-- Goroutine `true` inserts 1 and then 0, goroutine `false` asks for 1; each keeps what it got. -/
def pzClient : Client Unit Bool (Nat × List (Res (Option (MapOut Int Nat)))) (MapOp Int Nat) (Option (MapOut Int Nat))
  | true, (0, rs) => some ((), .insert 1 10, fun r => (1, rs ++ [r]))
  | true, (1, rs) => some ((), .insert 0 5, fun r => (2, rs ++ [r]))
  | false, (0, rs) => some ((), .get 1, fun r => (1, rs ++ [r]))
  | _, _ => none

/-- What the goroutines get when `true` makes both its calls before `false` makes its own: the second insertion panics, the map still answers. -/
example : (seqRun (mapStepP pz) pzClient [true, true, false] (fun _ => Tree.new) (fun _ => (0, []))).map (fun x => (x.2 true, x.2 false)) =
    some ((2, [.ok (some .unit), .ok none]), (1, [.ok (some (.val (some 10)))])) := by rfl

/-- `C89_map` for an execution of these goroutines in which all three calls are finished. -/
example : ∃ c, Run (pzClient.prog (Impl.whole (mapP_readers pz))) (fun _ => Tree.new) (fun _ => (0, [])) [true, true, false] c ∧
    ∃ m l', SeqP (mapSpec (fun x y : Int => x - y)) (mapMay pz) pzClient [true, true, false] (fun _ => []) (fun _ => (0, [])) m l' ∧ m () = [(1, 10)] := by
  have e : ∃ x, seqRun (mapStepP pz) pzClient [true, true, false] (fun _ => Tree.new) (fun _ => (0, [])) = some x := ⟨_, rfl⟩
  obtain ⟨⟨o, l1⟩, e⟩ := e
  obtain ⟨c, h, ho, ht⟩ := C58_every_order_possible pzClient (Impl.whole (mapP_readers pz)) e
  refine ⟨c, h, ?_⟩
  obtain ⟨m, l', h1, -, -, h2, -⟩ := C89_map (f := fun x y : Int => x - y) ⟨fun x y => by omega, fun x y z => by omega⟩ pz_answers pzClient
    (Impl.whole (mapP_readers pz)) h
  refine ⟨m, l', h1, ?_⟩
  have h3 := h2 () (by rintro t ⟨x, b, hb⟩; rw [ht t] at hb; cases hb)
  have h4 : mapTraversal (c.obj ()) (fun (kvs : List (Int × Nat)) k v => (kvs ++ [(k, v)], true)) [] = .ok [(1, 10)] := by
    rw [ho]
    cases e; rfl
  rw [h3.1.mapTraversal, feedKV_collect] at h4
  simpa using h4

/-- `C89_set`: both goroutines insert 1, 0 and 2 into one set; 0 panics. -/
def pzSetClient : Client Unit Bool Nat (SetOp Int) (Option (SetOut Int)) := fun _ l =>
  if l = 0 then some ((), .insert 1, fun _ => 1) else if l = 1 then some ((), .insert 0, fun _ => 2)
  else if l = 2 then some ((), .insert 2, fun _ => 3) else none

example : ∃ c m l', Run (pzSetClient.prog (Impl.whole (setP_readers pz))) (fun _ => Tree.new) (fun _ => 0) [true, false, true, false, false] c ∧
    SeqP (setSpec (fun x y : Int => x - y)) (setMay pz) pzSetClient [true, false, true, false, false] (fun _ => []) (fun _ => 0) m l' := by
  have e : ∃ x, seqRun (setStepP pz) pzSetClient [true, false, true, false, false] (fun _ => Tree.new) (fun _ => 0) = some x := ⟨_, rfl⟩
  obtain ⟨⟨o, l1⟩, e⟩ := e
  obtain ⟨c, h, ho, ht⟩ := C58_every_order_possible pzSetClient (Impl.whole (setP_readers pz)) e
  obtain ⟨m, l', h1, -⟩ := C89_set (f := fun x y : Int => x - y) ⟨fun x y => by omega, fun x y z => by omega⟩ pz_answers pzSetClient
    (Impl.whole (setP_readers pz)) h
  exact ⟨c, m, l', h, h1⟩

end

end GoSTL.Conc
