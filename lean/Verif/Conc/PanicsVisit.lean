import Verif.Conc.PanicsSkip
import Verif.Conc.Deadlock
import Verif.Hamt.Stop
/-!
# C101: goroutine-safe containers whose visitors panic

`Traversal` calls the visitor under `RLock`, and unlocks in a deferred call (map.go:149-150, multimap.go:111-112, set.go:161-162, multiset.go:156-157, skiplist.go:197-198,
hamt.go:315-316). So a visitor that panics releases the lock on its way out; a goroutine that recovers goes on, with whatever the visitor wrote down so far.
-/
namespace GoSTL.Conc

/-- How one call of a visitor ends: it returns true, or false, or it panics. -/
inductive Verdict
  | go
  | stop
  | panic

/-- A visitor of `X`s, with the variables `W` that it captures: what it leaves in them counts however it ends. -/
abbrev VisitFn (W X : Type) := W → X → W × Verdict

/-- What a traversal of the `X`s does with a visitor: it shows them one by one, as long as the visitor returns true. The flag says whether the visitor panicked. -/
def feedP {W X : Type} (visit : VisitFn W X) : List X → W → W × Bool
  | [], w => (w, false)
  | x :: xs, w => match visit w x with
    | (w, .go) => feedP visit xs w
    | (w, .stop) => (w, false)
    | (w, .panic) => (w, true)

/-! ## The walks -/

section Tree
open TreeMap RB
variable {K V W : Type}

/-- ds/rbtree/rbtree.go:400-404, the loop of `Traversal`; a panic of the visitor ends it (and, with it, `Traversal`, map.go:148-153 and multimap.go:110-115). -/
def treeWalkLoop (t : Tree K V) (visit : VisitFn W (K × V)) : Nat → Option Id → W → Res (W × Bool)
  | 0, _, _ => .outOfFuel
  | _ + 1, none, w => .ok (w, false)
  | f + 1, some i, w => do
    let n ← t.node i
    match visit w (n.key, n.value) with
    | (w, .go) => do
      let nx ← t.successor i
      treeWalkLoop t visit f nx w
    | (w, .stop) => .ok (w, false)
    | (w, .panic) => .ok (w, true)

/-- map.go:181-186, multimap.go:142-147 `Traversal`, by ds/rbtree/rbtree.go:399-405. -/
def mapWalk (visit : VisitFn W (K × V)) (t : Tree K V) (w : W) : Res (W × Bool) := do
  let n ← t.first
  treeWalkLoop t visit t.fuel n w

/-- ds/set/set.go:164-168, ds/set/multiset.go:159-163, the loop of `Traversal`. -/
def setWalkLoop (t : Tree K V) (visit : VisitFn W K) : Nat → Option Id → W → Res (W × Bool)
  | 0, _, _ => .outOfFuel
  | _ + 1, none, w => .ok (w, false)
  | f + 1, some i, w => do
    let n ← t.node i
    match visit w n.key with
    | (w, .go) => do
      let nx ← t.successor i
      setWalkLoop t visit f nx w
    | (w, .stop) => .ok (w, false)
    | (w, .panic) => .ok (w, true)

/-- ds/set/set.go:160-169, ds/set/multiset.go:155-164 `Traversal`. -/
def setWalk (visit : VisitFn W K) (t : Tree K V) (w : W) : Res (W × Bool) := do
  let n ← t.first
  setWalkLoop t visit t.fuel n w

end Tree

/-- A visitor that panics, as one that writes down that it panicked and stops. -/
def noted {W X : Type} (visit : VisitFn W X) (s : W × Bool) (x : X) : (W × Bool) × Bool :=
  match visit s.1 x with
  | (w, .go) => ((w, false), true)
  | (w, .stop) => ((w, false), false)
  | (w, .panic) => ((w, true), false)

section Skip
variable {K V W : Type}

/-- skiplist.go:200-204, the loop of `Traversal`. -/
def skipWalkLoop (visit : VisitFn W (K × V)) (s : Skiplist.SL K V) : Nat → Option Nat → W → Res (W × Bool)
  | 0, _, _ => .outOfFuel
  | _ + 1, none, w => .ok (w, false)
  | f + 1, some a, w => do
    let e ← Res.ofOption s.elems[a]?
    match visit w (e.key, e.value) with
    | (w, .go) => do
      let n ← Skiplist.nextAt s (.elem a) 0
      skipWalkLoop visit s f n w
    | (w, .stop) => .ok (w, false)
    | (w, .panic) => .ok (w, true)

/-- skiplist.go:196-205 `Traversal`. -/
def skipWalk (visit : VisitFn W (K × V)) (s : Skiplist.SL K V) (w : W) : Res (W × Bool) := do
  let n ← Skiplist.nextAt s .head 0
  skipWalkLoop visit s (Skiplist.budget s) n w

end Skip

section Trie
variable {T W : Type}

/-- hamt.go:170-174: the chain of one `KvNode`. -/
def trieKvs (visit : VisitFn W (Hamt.Key × T)) : List (Hamt.Key × T) → W → W × Verdict
  | [], w => (w, .go)
  | kv :: l, w =>
    match visit w kv with
    | (w, .go) => trieKvs visit l w
    | (w, .stop) => (w, .stop)
    | (w, .panic) => (w, .panic)

/-- hamt.go:165-176: the loop over the children. What the call on a nested node returns is not looked at, but a panic in it ends the loop. -/
def trieLoop (visit : VisitFn W (Hamt.Key × T)) (rec : List (Hamt.Entry T) → W → Res (W × Bool)) : List (Hamt.Entry T) → W → Res (W × Bool)
  | [], w => .ok (w, false)
  | .node _ _ cs :: es, w => do
    match ← rec cs w with
    | (w, false) => trieLoop visit rec es w
    | (w, true) => .ok (w, true)
  | .kv _ l :: es, w =>
    match trieKvs visit l w with
    | (w, .go) => trieLoop visit rec es w
    | (w, .stop) => .ok (w, false)
    | (w, .panic) => .ok (w, true)

/-- hamt.go:164-177 `traversal`. -/
def trieWalkN (visit : VisitFn W (Hamt.Key × T)) : Nat → List (Hamt.Entry T) → W → Res (W × Bool)
  | 0, _, _ => .outOfFuel
  | f + 1, cs, w => trieLoop visit (trieWalkN visit f) cs w

/-- hamt.go:314-319 `Traversal`. -/
def trieWalk (visit : VisitFn W (Hamt.Key × T)) (h : Hamt.Node T) (w : W) : Res (W × Bool) := trieWalkN visit Hamt.levels h.children w

end Trie

/-! ## The calls -/

/-- A call of another method, or of `Traversal` with a visitor whose variables hold `w` when the call is made. -/
inductive WalkOp (O W X : Type)
  | call (op : O)
  | walk (visit : VisitFn W X) (w : W)

/-- What a goroutine gets: the result of the method, or what the visitor left in its variables and whether it panicked (the goroutine has recovered). -/
inductive WalkOut (R W : Type)
  | call (r : R)
  | walked (w : W) (panicked : Bool)

/-- `Traversal` takes `RLock`. -/
def walkWrites {O W X : Type} (writes : O → Bool) : WalkOp O W X → Bool
  | .call op => writes op
  | .walk .. => false

/-- One call of another method, or of `Traversal`. -/
def walkStep {O R S W X : Type} (stp : O → S → Res (R × S)) (trav : VisitFn W X → S → W → Res (W × Bool)) (op : WalkOp O W X) (s : S) : Res (WalkOut R W × S) :=
  match op with
  | .call op => do let (r, s) ← stp op s; .ok (.call r, s)
  | .walk visit w => do let (w, b) ← trav visit s w; .ok (.walked w b, s)

/-- One call on the abstract state, where `shows a visit w r` says that a traversal of `a` may end with `r`. The traversal leaves the container as it is, whether the visitor
panics or not. -/
inductive WalkSpec {O R A W X : Type} (spec : O → A → Res (R × A) → Prop) (shows : A → VisitFn W X → W → W × Bool → Prop) : WalkOp O W X → A → Res (WalkOut R W × A) → Prop
  | call {op a r a'} : spec op a (.ok (r, a')) → WalkSpec spec shows (.call op) a (.ok (.call r, a'))
  | panic {op a} : spec op a .panic → WalkSpec spec shows (.call op) a .panic
  | walk {visit w a w' b} : shows a visit w (w', b) → WalkSpec spec shows (.walk visit w) a (.ok (.walked w' b, a))

theorem walk_readers {O R S W X : Type} {writes : O → Bool} {stp : O → S → Res (R × S)} (trav : VisitFn W X → S → W → Res (W × Bool)) (h : ReadersRead writes stp) :
    ReadersRead (walkWrites writes) (walkStep stp trav) := by
  intro op s o s' hw e
  cases op with
  | call op =>
    simp only [walkStep, Res.bind_eq_ok, Res.ok.injEq, Prod.mk.injEq] at e
    obtain ⟨⟨r, s1⟩, e1, -, rfl⟩ := e
    exact h op s r s1 hw e1
  | walk visit w =>
    simp only [walkStep, Res.bind_eq_ok, Res.ok.injEq, Prod.mk.injEq] at e
    obtain ⟨ks, -, -, e⟩ := e
    exact e.symm

theorem walk_refines {O R S A W X : Type} {stp : O → S → Res (R × S)} {trav : VisitFn W X → S → W → Res (W × Bool)} {spec : O → A → Res (R × A) → Prop}
    {shows : A → VisitFn W X → W → W × Bool → Prop} {Rep : S → A → Prop} (h : Refines stp spec Rep)
    (ht : ∀ s a visit w, Rep s a → ∃ r, trav visit s w = .ok r ∧ shows a visit w r) : Refines (walkStep stp trav) (WalkSpec spec shows) Rep := by
  intro op s a ha
  cases op with
  | call op =>
    rcases h op s a ha with ⟨e, h1⟩ | ⟨r, s', a', e, h1, h2⟩
    · exact .inl ⟨by simp only [walkStep, e]; rfl, .panic h1⟩
    · exact .inr ⟨_, s', a', by simp only [walkStep, e, Res.ok_bind], h1, .call h2⟩
  | walk visit w =>
    obtain ⟨⟨w', b⟩, e, h1⟩ := ht s a visit w ha
    exact .inr ⟨_, s, a, by simp only [walkStep, e, Res.ok_bind], ha, .walk h1⟩

theorem refines_of_agree {O R S A : Type} {stp : O → S → Res (R × S)} {spec : O → A → Res (R × A)} {Rep : S → A → Prop}
    (h : ∀ op s a, Rep s a → Adapter.Agree Rep (stp op s) (spec op a)) : Refines stp (fun op a r => spec op a = r) Rep := by
  intro op s a ha
  have h1 := h op s a ha
  generalize e : stp op s = x at h1
  generalize e' : spec op a = y at h1
  cases h1 with
  | ok h => exact .inr ⟨_, _, _, rfl, h, e'⟩
  | panic => exact .inl ⟨rfl, e'⟩

/-! ## Trees -/

section Tree
open TreeMap RB
variable {ι τ L K V W : Type} [DecidableEq ι] [DecidableEq τ]

theorem treeWalkLoop_eq (t : Tree K V) (visit : VisitFn W (K × V)) : ∀ (f : Nat) (i : Option Id) (w : W),
    treeWalkLoop t visit f i w = t.traversalLoop (fun s k v => noted visit s (k, v)) f i (w, false) := by
  intro f
  induction f with
  | zero => intro i w; rfl
  | succ f ih =>
    intro i w
    cases i with
    | none => rfl
    | some i =>
      simp only [treeWalkLoop, Tree.traversalLoop, noted]
      congr 1; funext n
      rcases visit w (n.key, n.value) with ⟨w', b⟩
      cases b
      · simp only [ih]; rfl
      · rfl
      · rfl

theorem setWalkLoop_eq (t : Tree K V) (visit : VisitFn W K) : ∀ (f : Nat) (i : Option Id) (w : W),
    setWalkLoop t visit f i w = setTraversalLoop t (noted visit) f i (w, false) := by
  intro f
  induction f with
  | zero => intro i w; rfl
  | succ f ih =>
    intro i w
    cases i with
    | none => rfl
    | some i =>
      simp only [setWalkLoop, setTraversalLoop, noted]
      congr 1; funext n
      rcases visit w n.key with ⟨w', b⟩
      cases b
      · simp only [ih]
      · rfl
      · rfl

theorem feedKV_noted (visit : VisitFn W (K × V)) : ∀ (kvs : List (K × V)) (w : W), feedKV (fun s k v => noted visit s (k, v)) kvs (w, false) = feedP visit kvs w := by
  intro kvs
  induction kvs with
  | nil => intro w; rfl
  | cons e kvs ih =>
    intro w
    obtain ⟨k, v⟩ := e
    simp only [feedKV, feedP, noted]
    rcases visit w (k, v) with ⟨w', b⟩
    cases b
    · exact ih w'
    · rfl
    · rfl

theorem feedKeys_noted (visit : VisitFn W K) : ∀ (ks : List K) (w : W), feedKeys (noted visit) ks (w, false) = feedP visit ks w := by
  intro ks
  induction ks with
  | nil => intro w; rfl
  | cons k ks ih =>
    intro w
    simp only [feedKeys, feedP, noted]
    rcases visit w k with ⟨w', b⟩
    cases b
    · exact ih w'
    · rfl
    · rfl

theorem mapWalk_spec {cmp : K → K → Int} (visit : VisitFn W (K × V)) {t : Tree K V} {kvs : List (K × V)} (h : HoldsKV cmp t kvs) (w : W) :
    mapWalk visit t w = .ok (feedP visit kvs w) := by
  have := h.mapTraversal (fun s k v => noted visit s (k, v)) (w, false)
  rw [feedKV_noted] at this
  rw [← this]
  simp only [mapWalk, TreeMap.mapTraversal, Tree.traversal, treeWalkLoop_eq]

theorem setWalk_spec {cmp : K → K → Int} (visit : VisitFn W K) {t : Tree K V} {kvs : List (K × V)} (h : HoldsKV cmp t kvs) (w : W) :
    setWalk visit t w = .ok (feedP visit (kvs.map (·.1)) w) := by
  have := h.setTraversal (noted visit) (w, false)
  rw [feedKeys_noted] at this
  rw [← this]
  simp only [setWalk, TreeMap.setTraversal, setWalkLoop_eq]

/-- A traversal of a list shows it in order. -/
def ShowsInOrder {X : Type} (m : List X) (visit : VisitFn W X) (w : W) (r : W × Bool) : Prop := r = feedP visit m w

/-- **C101** for maps. Any number of maps and goroutines, any clients, any interleaving; a call may be a `Traversal` with a visitor that at any entry returns true or false or panics, and
the clients recover. Then the finished calls, made one at a time on finite maps in the order in which the locks were released, give every goroutine the results it got: a
traversal shows the entries in key order up to the first one at which the visitor does not return true, and changes nothing. There is no data race, and every map that is not being
written holds the entries of its finite map. -/
theorem C101_map {cmp : K → K → Int} (hc : LawfulCmp cmp) (client : Client ι τ L (WalkOp (MapOp K V) W (K × V)) (WalkOut (MapOut K V) W))
    (impl : Impl ι (walkWrites mapWrites) (walkStep (mapStep cmp) mapWalk)) {l : τ → L} {log : List τ} {c : Conf ι (Tree K V) τ L}
    (h : Run (client.prog impl) (fun _ => Tree.new) l log c) :
    ∃ p l', SeqRel (WalkSpec (fun op m r => mapSpec cmp op m = r) ShowsInOrder) client log (fun _ => []) l p l' ∧
      (∀ t x, c.thr t = .out x → l' t = x) ∧ (∀ t x i w m, c.thr t = .ins x i w m → l' t = x) ∧
      (∀ i, (∀ t, ¬ Holds c t i true) → MapRep cmp (c.obj i) (p i)) ∧ ¬ Race c :=
  C58_linearizable_rel (walk_refines (shows := ShowsInOrder) (refines_of_agree (map_step hc)) fun _ _ visit w hr => ⟨_, mapWalk_spec visit hr.1 w, rfl⟩) client impl
    (fun _ => ⟨HoldsKV.new, List.Pairwise.nil⟩) h

/-- **C101** for sets. -/
theorem C101_set {cmp : K → K → Int} (hc : LawfulCmp cmp) (client : Client ι τ L (WalkOp (SetOp K) W K) (WalkOut (SetOut K) W))
    (impl : Impl ι (walkWrites setWrites) (walkStep (setStep cmp) setWalk)) {l : τ → L} {log : List τ} {c : Conf ι (Tree K Bool) τ L}
    (h : Run (client.prog impl) (fun _ => Tree.new) l log c) :
    ∃ p l', SeqRel (WalkSpec (fun op m r => setSpec cmp op m = r) ShowsInOrder) client log (fun _ => []) l p l' ∧
      (∀ t x, c.thr t = .out x → l' t = x) ∧ (∀ t x i w m, c.thr t = .ins x i w m → l' t = x) ∧
      (∀ i, (∀ t, ¬ Holds c t i true) → SetRep cmp (c.obj i) (p i)) ∧ ¬ Race c := by
  refine C58_linearizable_rel (walk_refines (shows := ShowsInOrder) (refines_of_agree (set_step hc)) fun _ _ visit w hr => ?_) client impl
    (fun _ => ⟨[], ⟨HoldsKV.new, List.Pairwise.nil⟩, rfl⟩) h
  obtain ⟨kvs, h1, rfl⟩ := hr
  exact ⟨_, setWalk_spec visit h1.1 w, rfl⟩

/-- A traversal shows the members of a bag `m`, given oldest first, in the order of their keys, those with equal keys oldest first. -/
def ShowsSorted {X : Type} (cmp : K → K → Int) (key : X → K) (m : List X) (visit : VisitFn W X) (w : W) (r : W × Bool) : Prop :=
  ∃ xs : List X, xs.Perm m ∧ xs.Pairwise (fun a b => cmp (key a) (key b) ≤ 0) ∧
    (∀ k, xs.filter (fun x => decide (cmp k (key x) = 0)) = m.filter fun x => decide (cmp k (key x) = 0)) ∧ r = feedP visit xs w

/-- **C101** for multimaps. -/
theorem C101_multimap {cmp : K → K → Int} (hc : LawfulCmp cmp) (client : Client ι τ L (WalkOp (MapOp K V) W (K × V)) (WalkOut (MapOut K V) W))
    (impl : Impl ι (walkWrites mapWrites) (walkStep (multiMapStep cmp) mapWalk)) {l : τ → L} {log : List τ} {c : Conf ι (Tree K V) τ L}
    (h : Run (client.prog impl) (fun _ => Tree.new) l log c) :
    ∃ p l', SeqRel (WalkSpec (MultiMapSpec cmp) (ShowsSorted cmp Prod.fst)) client log (fun _ => []) l p l' ∧
      (∀ t x, c.thr t = .out x → l' t = x) ∧ (∀ t x i w m, c.thr t = .ins x i w m → l' t = x) ∧
      (∀ i, (∀ t, ¬ Holds c t i true) → MultiInv cmp (c.obj i) (p i)) ∧ ¬ Race c := by
  refine C58_linearizable_rel (walk_refines (multimap_refines hc) fun _ _ visit w hr => ?_) client impl
    (fun _ => ⟨[], HoldsKV.new, List.Perm.nil, fun _ => rfl⟩) h
  obtain ⟨kvs, h1, h2⟩ := hr
  exact ⟨_, mapWalk_spec visit h1 w, kvs, h2.1, h1.sorted, h2.2, rfl⟩

/-- **C101** for multisets. -/
theorem C101_multiset {cmp : K → K → Int} (hc : LawfulCmp cmp) (client : Client ι τ L (WalkOp (MultiSetOp K) W K) (WalkOut (SetOut K) W))
    (impl : Impl ι (walkWrites multiSetWrites) (walkStep (multiSetStep cmp) setWalk)) {l : τ → L} {log : List τ} {c : Conf ι (Tree K Bool) τ L}
    (h : Run (client.prog impl) (fun _ => Tree.new) l log c) :
    ∃ p l', SeqRel (WalkSpec (MultiSetSpec cmp) (ShowsSorted cmp id)) client log (fun _ => []) l p l' ∧
      (∀ t x, c.thr t = .out x → l' t = x) ∧ (∀ t x i w m, c.thr t = .ins x i w m → l' t = x) ∧
      (∀ i, (∀ t, ¬ Holds c t i true) → MultiInv cmp (c.obj i) ((p i).map fun x => (x, true))) ∧ ¬ Race c := by
  refine C58_linearizable_rel (walk_refines (multiset_refines hc) fun _ m visit w hr => ?_) client impl
    (fun _ => ⟨[], HoldsKV.new, List.Perm.nil, fun _ => rfl⟩) h
  obtain ⟨kvs, h1, h2⟩ := hr
  refine ⟨_, setWalk_spec visit h1 w, kvs.map (·.1), ?_, ?_, fun x => ?_, rfl⟩
  · have := h2.1.map (·.1)
    simpa [Function.comp_def] using this
  · rw [List.pairwise_map]; exact h1.sorted
  · have := congrArg (List.map (·.1)) (h2.2 x)
    rw [List.filter_map, List.map_map] at this
    rw [List.filter_map]
    have e : ((fun x : K × Bool => x.1) ∘ fun x => (x, true)) = id := rfl
    rw [e, List.map_id] at this
    exact this

end Tree

/-! ## Skip lists -/

section Skip
variable {ι τ L K V W : Type} [DecidableEq ι] [DecidableEq τ]

theorem skipWalkLoop_eq (visit : VisitFn W (K × V)) (s : Skiplist.SL K V) : ∀ (f : Nat) (i : Option Nat) (w : W),
    skipWalkLoop visit s f i w = Skiplist.travLoop (fun s k v => noted visit s (k, v)) s f i (w, false) := by
  intro f
  induction f with
  | zero => intro i w; rfl
  | succ f ih =>
    intro i w
    cases i with
    | none => rfl
    | some i =>
      simp only [skipWalkLoop, Skiplist.travLoop]
      congr 1; funext n
      rcases hv : visit w (n.key, n.value) with ⟨w', b⟩
      cases b <;> simp [noted, hv, ih]

theorem visitAll_noted (visit : VisitFn W (K × V)) : ∀ (kvs : List (K × V)) (w : W), Skiplist.visitAll (fun s k v => noted visit s (k, v)) kvs (w, false) = feedP visit kvs w := by
  intro kvs
  induction kvs with
  | nil => intro w; rfl
  | cons e kvs ih =>
    intro w
    obtain ⟨k, v⟩ := e
    simp only [Skiplist.visitAll, feedP]
    rcases hv : visit w (k, v) with ⟨w', b⟩
    have hn : noted visit (w, false) (k, v) = match b with | .go => ((w', false), true) | .stop => ((w', false), false) | .panic => ((w', true), false) := by
      simp only [noted, hv]; cases b <;> rfl
    cases b <;> simp [hn, ih]

/-- A traversal shows the entries of a map with ordered keys in increasing order. -/
def ShowsIncreasing (cmp : K → K → Int) (m : List (K × V)) (visit : VisitFn W (K × V)) (w : W) (r : W × Bool) : Prop :=
  ∃ kvs : List (K × V), kvs.Perm m ∧ kvs.Pairwise (fun x y => cmp x.1 y.1 < 0) ∧ r = feedP visit kvs w

theorem skipWalk_spec {cmp : K → K → Int} {s : Skiplist.SL K V} {m : List (K × V)} (h : Skiplist.Agree cmp s m) (visit : VisitFn W (K × V)) (w : W) :
    ∃ r, skipWalk visit s w = .ok r ∧ ShowsIncreasing cmp m visit w r := by
  obtain ⟨kvs, h1, h2, -, h3⟩ := Skiplist.traversal_agree h
  refine ⟨_, ?_, kvs, h1, h2, rfl⟩
  have := h3 _ (fun s k v => noted visit s (k, v)) (w, false)
  rw [visitAll_noted] at this
  rw [← this]
  simp only [skipWalk, Skiplist.Traversal, skipWalkLoop_eq]

/-- **C101** for skip lists. -/
theorem C101_skiplist {cmp : K → K → Int} (hc : LawfulCmp cmp) {n : Nat} (h1 : 1 ≤ n) (h2 : n ≤ 64) {w0 : Skiplist.SL K V} (hn : Skiplist.New n = .ok w0)
    (client : Client ι τ L (WalkOp (KeysOp (Skiplist.Op K V)) W (K × V)) (WalkOut (KeysOut (Skiplist.Out V) K) W))
    (impl : Impl ι (walkWrites (keysWrites skipWrites)) (walkStep (keysStep (Skiplist.step cmp) Skiplist.Keys) skipWalk)) {l : τ → L} {log : List τ}
    {c : Conf ι (Skiplist.SL K V) τ L} (h : Run (client.prog impl) (fun _ => w0) l log c) :
    ∃ p l', SeqRel (WalkSpec (SkipSpec cmp) (ShowsIncreasing cmp)) client log (fun _ => []) l p l' ∧
      (∀ t x, c.thr t = .out x → l' t = x) ∧ (∀ t x i w m, c.thr t = .ins x i w m → l' t = x) ∧
      (∀ i, (∀ t, ¬ Holds c t i true) → Skiplist.Agree cmp (c.obj i) (p i)) ∧ ¬ Race c := by
  refine C58_linearizable_rel (walk_refines (skip_refines hc) fun _ _ visit w hr => skipWalk_spec hr visit w) client impl (fun _ => ?_) h
  obtain ⟨w0', e0, a0⟩ := Skiplist.agree_new (K := K) (V := V) (cmp := cmp) h1 h2
  rw [hn] at e0; cases e0; exact a0

end Skip

/-! ## Hash tries -/

section Trie
variable {ι τ L T W : Type} [DecidableEq ι] [DecidableEq τ]
open Hamt (Key Hash)

open Classical in
/-- Of the entries `E`, in this order, the visitor is shown some and ends with `r`: a panic ends everything; after a stop at `x`, the entries whose keys are `Nearest` to `x` are left
out, and the others still come (C49). -/
inductive TrieShown (hashOf : Key → Hash) (present : Key → Prop) (visit : VisitFn W (Key × T)) : W → List (Key × T) → W × Bool → Prop
  | nil {w} : TrieShown hashOf present visit w [] (w, false)
  | go {w w' x E r} : visit w x = (w', .go) → TrieShown hashOf present visit w' E r → TrieShown hashOf present visit w (x :: E) r
  | stop {w w' x E r} : visit w x = (w', .stop) → TrieShown hashOf present visit w' (E.filter fun y => ¬ Hamt.Nearest hashOf present x.1 y.1) r →
      TrieShown hashOf present visit w (x :: E) r
  | panic {w w' x E} : visit w x = (w', .panic) → TrieShown hashOf present visit w (x :: E) (w', true)

/-- Like `noted`; after a panic, nothing happens. -/
def numb (visit : VisitFn W (Key × T)) (s : W × Bool) (k : Key) (v : T) : (W × Bool) × Bool := if s.2 then (s, false) else noted visit s (k, v)

theorem visits_numb (visit : VisitFn W (Key × T)) (w : W) : ∀ V : List (Key × T), Hamt.visits (numb visit) (w, true) V = (w, true) := by
  intro V
  induction V with
  | nil => rfl
  | cons x V ih => simpa [Hamt.visits, numb] using ih

theorem trieKvs_eq (visit : VisitFn W (Key × T)) : ∀ (l : List (Key × T)) (w w' : W) (v : Verdict), trieKvs visit l w = (w', v) →
    Hamt.visitKvs (numb visit) l (w, false) = match v with | .go => ((w', false), true) | .stop => ((w', false), false) | .panic => ((w', true), false) := by
  intro l
  induction l with
  | nil => intro w w' v e; cases e; rfl
  | cons x l ih =>
    intro w w' v e
    obtain ⟨k, u⟩ := x
    simp only [trieKvs] at e
    rcases hv : visit w (k, u) with ⟨w1, b⟩
    rw [hv] at e
    have hn : numb visit (w, false) k u = match b with | .go => ((w1, false), true) | .stop => ((w1, false), false) | .panic => ((w1, true), false) := by
      simp only [numb, noted, hv, Bool.false_eq_true, if_false]
      cases b <;> rfl
    simp only [Hamt.visitKvs, hn]
    cases b with
    | go => exact ih w1 w' v e
    | stop => cases e; rfl
    | panic => cases e; rfl

theorem trieWalkN_eq {hashOf : Key → Hash} (visit : VisitFn W (Key × T)) : ∀ (f : Nat) (path : List Nat) (cs : List (Hamt.Entry T)) (w : W),
    path.length ≤ 10 → (∀ c ∈ cs, Hamt.WF hashOf (path ++ [Hamt.posAt path.length c]) c) → 11 ≤ f + path.length →
    trieWalkN visit f cs w = Hamt.traversal (numb visit) f cs (w, false) := by
  intro f
  induction f with
  | zero => intro path cs w h _ hf; omega
  | succ f ih =>
    intro path cs
    simp only [trieWalkN, Hamt.traversal]
    induction cs with
    | nil => intro w _ _ _; rfl
    | cons c cs ihc =>
      intro w hl hw hf
      have hwc := hw c (by simp)
      have hws : ∀ c ∈ cs, Hamt.WF hashOf (path ++ [Hamt.posAt path.length c]) c := fun x hx => hw x (by simp [hx])
      have hrest := fun w => ihc w hl hws hf
      cases c with
      | kv h l =>
        simp only [trieLoop, Hamt.travLoop]
        rcases hv : trieKvs visit l w with ⟨w', v⟩
        rw [trieKvs_eq visit l w w' v hv]
        cases v with
        | go => exact hrest w'
        | stop => rfl
        | panic => rfl
      | node bm p cs' =>
        cases hwc with
        | node w1 w2 w3 w4 =>
        have e := ih _ cs' w w1 w3 (by simp; omega)
        simp only [trieLoop, Hamt.travLoop]
        rw [e]
        obtain ⟨V, e1, -⟩ := Hamt.traversal_spec (numb visit) f _ cs' (w, false) w1 w3 (by simp; omega)
        rw [e1]
        simp only [Res.ok_bind]
        rcases hr : Hamt.visits (numb visit) (w, false) V with ⟨w', b⟩
        cases b with
        | false => exact hrest w'
        | true =>
          obtain ⟨V', e2, -⟩ := Hamt.traversal_spec (numb visit) (f + 1) path cs (w', true) hl hws hf
          simp only [Hamt.traversal] at e2
          rw [e2, visits_numb]

theorem trieShown_of {hashOf : Key → Hash} {present : Key → Prop} {visit : VisitFn W (Key × T)} : ∀ {s : W × Bool} {E V : List (Key × T)},
    Hamt.Shown hashOf present (numb visit) s E V → ∀ w, s = (w, false) → TrieShown hashOf present visit w E (Hamt.visits (numb visit) s V) := by
  intro s E V h
  induction h with
  | nil => rintro w rfl; exact .nil
  | @go s x E V e h ih =>
    rintro w rfl
    rcases hv : visit w x with ⟨w', v⟩
    have hn : numb visit (w, false) x.1 x.2 = match v with | .go => ((w', false), true) | .stop => ((w', false), false) | .panic => ((w', true), false) := by
      simp only [numb, noted, hv, Bool.false_eq_true, if_false]
      cases v <;> rfl
    cases v with
    | go =>
      simp only [Hamt.visits, List.foldl_cons]
      exact .go hv (ih w' (by rw [hn]))
    | stop => rw [hn] at e; cases e
    | panic => rw [hn] at e; cases e
  | @stop s x E V e h ih =>
    rintro w rfl
    rcases hv : visit w x with ⟨w', v⟩
    have hn : numb visit (w, false) x.1 x.2 = match v with | .go => ((w', false), true) | .stop => ((w', false), false) | .panic => ((w', true), false) := by
      simp only [numb, noted, hv, Bool.false_eq_true, if_false]
      cases v <;> rfl
    cases v with
    | go => rw [hn] at e; cases e
    | stop =>
      simp only [Hamt.visits, List.foldl_cons]
      exact .stop hv (ih w' (by rw [hn]))
    | panic =>
      simp only [Hamt.visits, List.foldl_cons, hn]
      have := visits_numb visit w' V
      simp only [Hamt.visits] at this
      rw [this]
      exact .panic hv

/-- A traversal of a hash trie shows a listing of the map, as far as `TrieShown` says. -/
def ShowsTrie (hashOf : Key → Hash) (m : Key → Option T) (visit : VisitFn W (Key × T)) (w : W) (r : W × Bool) : Prop :=
  ∃ L : List (Key × T), (L.map Prod.fst).Nodup ∧ (∀ k v, (k, v) ∈ L ↔ m k = some v) ∧ TrieShown hashOf (fun k => (m k).isSome = true) visit w L r

theorem trieWalk_spec {hashOf : Key → Hash} {h : Hamt.Node T} {m : Key → Option T} (ha : Hamt.Agree hashOf h m) (visit : VisitFn W (Key × T)) (w : W) :
    ∃ r, trieWalk visit h w = .ok r ∧ ShowsTrie hashOf m visit w r := by
  obtain ⟨L, h1, h2, h3⟩ := Hamt.traversal_agree_shown ha
  obtain ⟨V, e, hV⟩ := h3 _ (numb visit) (w, false)
  refine ⟨_, ?_, L, h1, h2, trieShown_of hV w rfl⟩
  rw [← e]
  exact trieWalkN_eq visit Hamt.levels [] h.children w (by simp) ha.1.sub (by simp [Hamt.levels])

/-- **C101** for hash tries. -/
theorem C101_hamt (hashOf : Key → Hash) (client : Client ι τ L (WalkOp (KeysOp (Hamt.Op T)) W (Key × T)) (WalkOut (KeysOut (Hamt.Out T) Key) W))
    (impl : Impl ι (walkWrites (keysWrites hamtWrites)) (walkStep (keysStep (Hamt.step hashOf) Hamt.Keys) trieWalk))
    {l : τ → L} {log : List τ} {c : Conf ι (Hamt.Node T) τ L} (h : Run (client.prog impl) (fun _ => Hamt.new) l log c) :
    ∃ p l', SeqRel (WalkSpec HamtSpec (ShowsTrie hashOf)) client log (fun _ => Hamt.emptyMap) l p l' ∧
      (∀ t x, c.thr t = .out x → l' t = x) ∧ (∀ t x i w m, c.thr t = .ins x i w m → l' t = x) ∧
      (∀ i, (∀ t, ¬ Holds c t i true) → Hamt.Agree hashOf (c.obj i) (p i)) ∧ ¬ Race c :=
  C58_linearizable_rel (walk_refines (hamt_refines hashOf) fun _ _ visit w hr => trieWalk_spec hr visit w) client impl (fun _ => Hamt.agree_new hashOf) h

end Trie

/-! ## No goroutine waits forever -/

/-- **C101**, the lock: finitely many goroutines, each making any finite number of calls on any number of containers of one of the kinds above, visitors that panic included. In every
reachable state where a goroutine is not finished some goroutine can go on, and there is no infinite execution: no lock stays taken after a panic. -/
theorem C101_calls_end {ι τ L O R S W X : Type} [DecidableEq ι] [DecidableEq τ] [Finite τ] {writes : O → Bool} {stp : O → S → Res (R × S)}
    {trav : VisitFn W X → S → W → Res (W × Bool)} (client : Client ι τ L (WalkOp O W X) (WalkOut R W)) (impl : Impl ι (walkWrites writes) (walkStep stp trav))
    (calls : τ → Nat) (l : τ → L) (o : ι → S) :
    (∀ c t, DSteps (dstart o fun t => client.code impl t (calls t) (l t)) c → c.thr t ≠ .done → ∃ c', DStep c c') ∧
    ¬ ∃ f : Nat → DConf ι S τ, f 0 = dstart o (fun t => client.code impl t (calls t) (l t)) ∧ ∀ n, DStep (f n) (f (n + 1)) :=
  C64_containers_partial client impl calls l o

/-! ## Cases that meet the hypotheses -/

/-- A visitor that writes down the keys, and panics at key 5. -/
def panicAt5 (w : List Int) (x : Int × Int) : List Int × Verdict := (w ++ [x.1], if x.1 = 5 then .panic else .go)
/-- A visitor that writes down the elements, stops at 4 and panics at 5. -/
def panicAt5' (w : List Int) (x : Int) : List Int × Verdict := (w ++ [x], if x = 5 then .panic else if x = 4 then .stop else .go)
/-- A visitor that panics at the key `[2]`. -/
def panicAt2 (w : List Hamt.Key) (x : Hamt.Key × Int) : List Hamt.Key × Verdict := (w ++ [x.1], if x.1 = [2] then .panic else .go)

/-- Goroutine 0 inserts 3 and walks; goroutine 1 inserts 5 and 7. The walk comes last, and panics at 5. -/
def panicScript : Fin 2 → List (Unit × WalkOp (MapOp Int Int) (List Int) (Int × Int)) :=
  two (.call (.insert 3 30)) (.walk panicAt5 []) (.call (.insert 5 50)) (.call (.insert 7 70))

set_option maxRecDepth 40000 in
/-- `C101_map` on an execution of two goroutines. -/
example : ∃ c, Run ((scripted panicScript).prog (Impl.whole (walk_readers mapWalk (map_readers (fun a b : Int => a - b))))) (fun _ => RB.Tree.new) (fun _ => (0, [])) [1, 0, 1, 0] c ∧ ¬ Race c := by
  obtain ⟨c, h⟩ := script_run (Impl.whole (walk_readers mapWalk (map_readers (fun a b : Int => a - b)))) panicScript (fun _ => RB.Tree.new) [1, 0, 1, 0] rfl
  obtain ⟨-, -, -, -, -, -, hr⟩ := C101_map Skiplist.subCmp_lawful _ _ h
  exact ⟨c, h, hr⟩

set_option maxRecDepth 40000 in
/-- What goroutine 0 gets in that execution: its visitor has seen 3 and 5, and panicked. -/
example : (seqRun (walkStep (mapStep (fun a b : Int => a - b)) mapWalk) (scripted panicScript) [1, 0, 1, 0] (fun _ => RB.Tree.new) (fun _ => (0, []))).map (fun x => (x.2 0).2) =
    some [.ok (.call .unit), .ok (.walked [3, 5] true)] := rfl

/-- The same for `C101_set`, `C101_multimap`, `C101_multiset`, `C101_skiplist` and `C101_hamt`. -/
def panicSetScript : Fin 2 → List (Unit × WalkOp (SetOp Int) (List Int) Int) := two (.call (.insert 3)) (.walk panicAt5' []) (.call (.insert 5)) (.call (.insert 7))
/-- For `C101_multiset`. -/
def panicMultiSetScript : Fin 2 → List (Unit × WalkOp (MultiSetOp Int) (List Int) Int) := two (.call (.insert 3)) (.walk panicAt5' []) (.call (.insert 5)) (.call (.insert 5))
/-- For `C101_multimap`. -/
def panicMultiScript : Fin 2 → List (Unit × WalkOp (MapOp Int Int) (List Int) (Int × Int)) :=
  two (.call (.insert 3 30)) (.walk panicAt5 []) (.call (.insert 5 50)) (.call (.insert 5 70))
/-- For `C101_skiplist`. -/
def panicSkipScript : Fin 2 → List (Unit × WalkOp (KeysOp (Skiplist.Op Int Int)) (List Int) (Int × Int)) :=
  two (.call (.call (.insert 3 30 1))) (.walk panicAt5 []) (.call (.call (.insert 5 50 0))) (.call .keys)
/-- For `C101_hamt`. -/
def panicTrieScript : Fin 2 → List (Unit × WalkOp (KeysOp (Hamt.Op Int)) (List Hamt.Key) (Hamt.Key × Int)) :=
  two (.call (.call (.insert [2] 30))) (.walk panicAt2 []) (.call (.call (.insert [3] 50))) (.call .keys)

set_option maxRecDepth 40000 in
example : ∃ c, Run ((scripted panicSetScript).prog (Impl.whole (walk_readers setWalk (set_readers (fun a b : Int => a - b))))) (fun _ => RB.Tree.new) (fun _ => (0, [])) [1, 0, 1, 0] c ∧ ¬ Race c := by
  obtain ⟨c, h⟩ := script_run (Impl.whole (walk_readers setWalk (set_readers (fun a b : Int => a - b)))) panicSetScript (fun _ => RB.Tree.new) [1, 0, 1, 0] rfl
  obtain ⟨-, -, -, -, -, -, hr⟩ := C101_set Skiplist.subCmp_lawful _ _ h
  exact ⟨c, h, hr⟩

set_option maxRecDepth 40000 in
example : ∃ c, Run ((scripted panicMultiScript).prog (Impl.whole (walk_readers mapWalk (multimap_readers (fun a b : Int => a - b))))) (fun _ => RB.Tree.new) (fun _ => (0, [])) [1, 0, 1, 0] c ∧ ¬ Race c := by
  obtain ⟨c, h⟩ := script_run (Impl.whole (walk_readers mapWalk (multimap_readers (fun a b : Int => a - b)))) panicMultiScript (fun _ => RB.Tree.new) [1, 0, 1, 0] rfl
  obtain ⟨-, -, -, -, -, -, hr⟩ := C101_multimap Skiplist.subCmp_lawful _ _ h
  exact ⟨c, h, hr⟩

set_option maxRecDepth 40000 in
example : ∃ c, Run ((scripted panicMultiSetScript).prog (Impl.whole (walk_readers setWalk (multiset_readers (fun a b : Int => a - b))))) (fun _ => RB.Tree.new) (fun _ => (0, [])) [1, 0, 1, 0] c ∧ ¬ Race c := by
  obtain ⟨c, h⟩ := script_run (Impl.whole (walk_readers setWalk (multiset_readers (fun a b : Int => a - b)))) panicMultiSetScript (fun _ => RB.Tree.new) [1, 0, 1, 0] rfl
  obtain ⟨-, -, -, -, -, -, hr⟩ := C101_multiset Skiplist.subCmp_lawful _ _ h
  exact ⟨c, h, hr⟩

set_option maxRecDepth 40000 in
example : ∃ w0, Skiplist.New 2 = .ok w0 ∧ ∃ c, Run ((scripted panicSkipScript).prog (Impl.whole (walk_readers skipWalk (keys_readers Skiplist.Keys (skip_readers (fun a b : Int => a - b))))))
    (fun _ => w0) (fun _ => (0, [])) [1, 0, 1, 0] c ∧ ¬ Race c := by
  have h0 : ∃ w0 : Skiplist.SL Int Int, Skiplist.New 2 = .ok w0 := ⟨_, rfl⟩
  obtain ⟨w0, e⟩ := h0
  obtain ⟨c, h⟩ := script_run (Impl.whole (walk_readers skipWalk (keys_readers Skiplist.Keys (skip_readers (fun a b : Int => a - b))))) panicSkipScript (fun _ => w0) [1, 0, 1, 0] rfl
  obtain ⟨-, -, -, -, -, -, hr⟩ := C101_skiplist Skiplist.subCmp_lawful (by decide) (by decide) e _ _ h
  exact ⟨w0, e, c, h, hr⟩

set_option maxRecDepth 40000 in
example : ∃ c, Run ((scripted panicTrieScript).prog (Impl.whole (walk_readers trieWalk (keys_readers Hamt.Keys (hamt_readers Hamt.demoHash))))) (fun _ => Hamt.new) (fun _ => (0, [])) [1, 0, 1, 0] c ∧ ¬ Race c := by
  obtain ⟨c, h⟩ := script_run (Impl.whole (walk_readers trieWalk (keys_readers Hamt.Keys (hamt_readers Hamt.demoHash)))) panicTrieScript (fun _ => Hamt.new) [1, 0, 1, 0] rfl
  obtain ⟨-, -, -, -, -, -, hr⟩ := C101_hamt Hamt.demoHash _ _ h
  exact ⟨c, h, hr⟩

/-- The traversals of trees, on lists. -/
example : feedP panicAt5' [3, 5, 6] [] = ([3, 5], true) ∧ feedP panicAt5' [3, 4, 5] [] = ([3, 4], false) := ⟨rfl, rfl⟩

/-- A panic in a nested node of a trie ends the whole traversal, a stop there does not (C49): the hash is the length of the key, `[2]` and the key of length 65 share a slot, `[3, 3]` is in the next. -/
example : ∃ os h, Hamt.run Hamt.demoHash [.insert [2] 20, .insert (List.replicate 65 0) 30, .insert [3, 3] 5] (Hamt.new : Hamt.Node Int) = .ok (os, h) ∧
    trieWalk panicAt2 h [] = .ok ([[2]], true) ∧
    trieWalk (fun w x => (w ++ [x.1], .stop)) h [] = .ok ([[2], [3, 3]], false) := ⟨_, _, rfl, rfl, rfl⟩

end GoSTL.Conc
