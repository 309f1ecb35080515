import Verif.Conc.Instances
/-!
# C59: `Intersect`, `Union` and `Diff` of goroutine-safe sets

set.go:187-189, 211-213, 243-245: the three methods take `s.locker.RLock()` and nothing of `other`; set.go:193, 217, 249 and the loops read
`other.tree`.
-/
namespace GoSTL.Conc
open TreeMap RB
variable {ι τ L K : Type} [DecidableEq ι] [DecidableEq τ]

/-- set.go:187-266 `Intersect`, `Union`, `Diff`. -/
inductive AlgOp
  | intersect
  | union
  | diff

/-- The sequential models of the three methods. -/
def algSem (cmp : K → K → Int) : AlgOp → Tree K Bool → Tree K Bool → Res (Tree K Bool)
  | .intersect => TreeMap.intersect cmp
  | .union => TreeMap.union cmp
  | .diff => TreeMap.diff cmp

/-- Code that only reads, and only objects `s` and `other`. -/
def Micro.ReadsOnly {σ α : Type} (s other : ι) : Micro ι σ α → Prop
  | .ret _ => True
  | .read j k => (j = s ∨ j = other) ∧ ∀ x, (k x).ReadsOnly s other
  | .upd .. => False

/-- Code of the three methods, in single reads: alone, it does what the sequential model does. -/
structure AlgImpl (ι : Type) [DecidableEq ι] (cmp : K → K → Int) where
  code : AlgOp → ι → ι → Micro ι (Tree K Bool) (Res (Tree K Bool))
  ok : ∀ a s other, (code a s other).ReadsOnly s other
  eff : ∀ a s other o, ((code a s other).run o).2 = algSem cmp a (o s) (o other)

/-! ## The race -/

/-- Running alone from `o`, the body reads object `j`. -/
def Micro.ReadsAt {σ α : Type} (j : ι) : Micro ι σ α → (ι → σ) → Prop
  | .ret _, _ => False
  | .read i k, o => i = j ∨ (k (o i)).ReadsAt j o
  | .upd i f k, o => k.ReadsAt j (Function.update o i (f (o i)))

theorem readsOnly_run {σ α : Type} {s other : ι} : ∀ (m : Micro ι σ α), m.ReadsOnly s other → ∀ o, (m.run o).1 = o := by
  intro m
  induction m with
  | ret a => intro _ o; rfl
  | read j k ih => intro h o; exact ih _ (h.2 _) o
  | upd j f k => intro h; exact h.elim

/-- Code that does not read `other` does not depend on it. -/
theorem not_readsAt {σ α : Type} {s other j : ι} : ∀ (m : Micro ι σ α), m.ReadsOnly s other → ∀ o, ¬ m.ReadsAt j o → ∀ v,
    (m.run (Function.update o j v)).2 = (m.run o).2 := by
  intro m
  induction m with
  | ret a => intro _ o _ v; rfl
  | read i k ih =>
    intro h o hn v
    simp only [Micro.ReadsAt, not_or] at hn
    simp only [Micro.run]
    rw [Function.update_of_ne hn.1]
    exact ih _ (h.2 _) o hn.2 v
  | upd j f k => intro h; exact h.elim

/-- Inside a section, a goroutine can run until it is about to read `j`. -/
theorem reach_read {σ : Type} {s other j : ι} {prog : Prog ι σ τ L} {o : ι → σ} {l : τ → L} {log : List τ} {t : τ} {l0 : L} {i : ι} {w : Bool} :
    ∀ (m : Micro ι σ L) (c : Conf ι σ τ L), m.ReadsOnly s other → m.ReadsAt j c.obj → c.thr t = .ins l0 i w m → Run prog o l log c →
    ∃ c' k, Run prog o l log c' ∧ c'.obj = c.obj ∧ c'.thr t = .ins l0 i w (.read j k) ∧ ∀ t', t' ≠ t → c'.thr t' = c.thr t' := by
  intro m
  induction m with
  | ret a => intro c _ h; exact h.elim
  | read q k ih =>
    intro c hr h ht hrun
    by_cases hq : q = j
    · subst hq; exact ⟨c, k, hrun, rfl, ht, fun _ _ => rfl⟩
    · rcases h with h | h
      · exact absurd h hq
      · obtain ⟨c', k', h1, h2, h3, h4⟩ := ih (c.obj q) { c with thr := Function.update c.thr t (.ins l0 i w (k (c.obj q))) } (hr.2 _) h (by simp) (hrun.silent (.read ht))
        exact ⟨c', k', h1, h2, h3, fun t' hne => by rw [h4 t' hne]; simp [Function.update_of_ne hne]⟩
  | upd j f k => intro c h; exact h.elim

theorem map_readsOnly {σ α β : Type} {s other : ι} (g : α → β) (m : Micro ι σ α) : (m.map g).ReadsOnly s other ↔ m.ReadsOnly s other := by
  induction m with
  | ret a => rfl
  | read j k ih => simp [Micro.map, Micro.ReadsOnly, ih]
  | upd j f k ih => rfl

theorem map_readsAt {σ α β : Type} {j : ι} (g : α → β) (m : Micro ι σ α) (o : ι → σ) : (m.map g).ReadsAt j o ↔ m.ReadsAt j o := by
  induction m generalizing o with
  | ret a => rfl
  | read i k ih => simp [Micro.map, Micro.ReadsAt, ih]
  | upd i f k ih => simp [Micro.map, Micro.ReadsAt, ih]

/-- The set {x}. -/
def single (x : Int) : Tree Int Bool := match setInsert intCmp Tree.new x with
  | .ok t => t
  | _ => Tree.new

/-- Two sets: `s` (`true`) is {1} and `other` (`false`) is empty. -/
def raceSets : Bool → Tree Int Bool := fun b => if b then single 1 else Tree.new

/-- Goroutine `true` calls `s.Intersect(other)` (or `Union`, `Diff`) under the read lock of `s`; goroutine `false` calls `other.Insert(2)`, in a
single read and a single update, under the write lock of `other`. The local state is the result of the call, once made. -/
def raceProg (A : AlgImpl Bool intCmp) (a : AlgOp) : Prog Bool (Tree Int Bool) Bool (Option (Res (Tree Int Bool))) := fun t l =>
  match l, t with
  | some _, _ => none
  | none, true => some { lock := true, write := false, body := (A.code a true false).map some }
  | none, false => some { lock := false, write := true, body :=
      ((Impl.whole (ι := Bool) (set_readers intCmp)).code false (.insert 2)).map fun _ => some (.ok Tree.new) }

/-- Another value of `other` on which the method's result differs from that on the empty set. -/
def AlgOp.probe : AlgOp → Tree Int Bool
  | .intersect => single 1
  | .union => single 2
  | .diff => single 1

theorem probe_differs (a : AlgOp) : algSem intCmp a (single 1) a.probe ≠ algSem intCmp a (single 1) Tree.new := by
  intro h
  have h2 : (do let t ← algSem intCmp a (single 1) a.probe; Res.ok (size t)) = (do let t ← algSem intCmp a (single 1) Tree.new; Res.ok (size t)) := by
    rw [h]
  cases a with
  | intersect =>
    have : (Res.ok 1 : Res Int) = .ok 0 := h2
    cases this
  | union =>
    have : (Res.ok 2 : Res Int) = .ok 1 := h2
    cases this
  | diff =>
    have : (Res.ok 0 : Res Int) = .ok 1 := h2
    cases this

/-- C59 is false of the code: whatever the code of `Intersect`, `Union` and `Diff` looks like, as long as it computes the right result when
running alone and takes only the read lock of `s`, there is an interleaving with one concurrent `other.Insert(2)` that reaches a data race on
`other`. -/
theorem C59_violated (A : AlgImpl Bool intCmp) (a : AlgOp) : ∃ log c, Run (raceProg A a) raceSets (fun _ => none) log c ∧ Race c := by
  have hread : (A.code a true false).ReadsAt false raceSets := by
    by_contra hn
    have h1 := not_readsAt _ (A.ok a true false) raceSets hn a.probe
    rw [A.eff, A.eff] at h1
    exact probe_differs a h1
  have h0 : Run (raceProg A a) raceSets (fun _ => none) [] _ := .init
  have h1 := h0.silent (.enter (t := true) rfl rfl (by rintro t w ⟨l, m, h⟩; cases h))
  obtain ⟨c, k, h2, h3, h4, h5⟩ := reach_read (t := true) (s := true) (other := false) (j := false) ((A.code a true false).map some) _
    ((map_readsOnly _ _).2 (A.ok a true false)) ((map_readsAt _ _ _).2 hread) rfl h1
  have h6 : c.thr false = .out none := by rw [h5 false (by decide)]; rfl
  have h7 := h2.silent (.enter (t := false) h6 rfl (by
    rintro t w ⟨l, m, h⟩
    cases t with
    | false => rw [h6] at h; cases h
    | true => rw [h4] at h; cases h))
  have h8 := h7.silent (.read (t := false) rfl)
  exact ⟨_, _, h8, false, true, false, false, by decide, ⟨_, _, _, .inr ⟨rfl, _, _, rfl⟩⟩, ⟨none, true, false, .inl ⟨rfl, k, h4⟩⟩⟩

/-! ## The methods in single reads -/

/-- Continue with a result, or end with the panic. -/
def Micro.ofRes {σ α β : Type} (r : Res α) (k : α → Micro ι σ (Res β)) : Micro ι σ (Res β) :=
  match r with
  | .ok a => k a
  | .panic => .ret .panic
  | .outOfFuel => .ret .outOfFuel

/-- set.go:194-205: one iteration of the loop of `Intersect` (see `TreeMap.intersectLoop`): the iterators and the result set afterwards. -/
def intersectIter (cmp : K → K → Int) (s o : Tree K Bool) (a b : RB.Id) (r : Tree K Bool) : Res (Option RB.Id × Option RB.Id × Tree K Bool) := do
  let ka ← iterKey s (some a)
  let kb ← iterKey o (some b)
  if cmp ka kb = 0 then do
    let r ← r.insert cmp ka true
    let a ← iterNext s (some a)
    let b ← iterNext o (some b)
    .ok (a, b, r)
  else if cmp ka kb < 0 then do
    let a ← iterNext s (some a)
    .ok (a, some b, r)
  else do
    let b ← iterNext o (some b)
    .ok (some a, b, r)

/-- set.go:194-205, the loop of `Intersect`: each iteration reads `s` once and `other` once. (The code reads them several times in each iteration;
the executions of this model are executions of the code in which the reads of one iteration are not interrupted.) -/
def intersectLoopM (cmp : K → K → Int) (s other : ι) : Nat → Option RB.Id → Option RB.Id → Tree K Bool → Micro ι (Tree K Bool) (Res (Tree K Bool))
  | f + 1, some a, some b, r => .read s fun S => .read other fun O => .ofRes (intersectIter cmp S O a b r) fun x =>
      intersectLoopM cmp s other f x.1 x.2.1 x.2.2
  | 0, _, _, _ => .ret .outOfFuel
  | _ + 1, _, _, r => .ret (.ok r)

/-- set.go:187-207 `Intersect`, in single reads. -/
def intersectM (cmp : K → K → Int) (s other : ι) : Micro ι (Tree K Bool) (Res (Tree K Bool)) :=
  .read s fun S => .read other fun O => .ofRes (do let a ← S.first; let b ← O.first; .ok (a, b)) fun x =>
    intersectLoopM cmp s other (S.fuel + O.fuel) x.1 x.2 Tree.new

theorem ofRes_run {σ α β : Type} (r : Res α) (k : α → Micro ι σ (Res β)) (o : ι → σ) (g : α → Res β) (h : ∀ a, ((k a).run o).2 = g a) :
    ((Micro.ofRes r k).run o).2 = r.bind g := by
  cases r with
  | ok a => exact h a
  | panic => rfl
  | outOfFuel => rfl

theorem intersectLoop_iter (cmp : K → K → Int) (s o : Tree K Bool) (f : Nat) (a b : RB.Id) (r : Tree K Bool) :
    intersectLoop cmp s o (f + 1) (some a) (some b) r = (intersectIter cmp s o a b r).bind fun x => intersectLoop cmp s o f x.1 x.2.1 x.2.2 := by
  simp only [intersectLoop, intersectIter]
  cases iterKey s (some a) with
  | ok ka =>
    cases iterKey o (some b) with
    | ok kb =>
      simp only [Res.ok_bind]
      split
      · cases r.insert cmp ka true with
        | ok r =>
          cases iterNext s (some a) with
          | ok a => cases iterNext o (some b) <;> rfl
          | panic => rfl
          | outOfFuel => rfl
        | panic => rfl
        | outOfFuel => rfl
      · split
        · cases iterNext s (some a) <;> rfl
        · cases iterNext o (some b) <;> rfl
    | panic => rfl
    | outOfFuel => rfl
  | panic => rfl
  | outOfFuel => rfl

theorem intersectLoopM_run (cmp : K → K → Int) (s other : ι) (o : ι → Tree K Bool) : ∀ f a b r,
    ((intersectLoopM cmp s other f a b r).run o).2 = intersectLoop cmp (o s) (o other) f a b r := by
  intro f
  induction f with
  | zero => intro a b r; cases a <;> cases b <;> rfl
  | succ f ih =>
    intro a b r
    cases a with
    | none => cases b <;> rfl
    | some a =>
      cases b with
      | none => rfl
      | some b =>
        rw [intersectLoop_iter]
        exact ofRes_run _ _ _ _ fun x => ih _ _ _

/-- Running alone, the single reads do what `TreeMap.intersect` does. -/
theorem intersectM_run (cmp : K → K → Int) (s other : ι) (o : ι → Tree K Bool) : ((intersectM cmp s other).run o).2 = TreeMap.intersect cmp (o s) (o other) := by
  have : TreeMap.intersect cmp (o s) (o other) = (do let a ← (o s).first; let b ← (o other).first; .ok (a, b)).bind fun x =>
      intersectLoop cmp (o s) (o other) ((o s).fuel + (o other).fuel) x.1 x.2 Tree.new := by
    simp only [TreeMap.intersect]
    cases (o s).first with
    | ok a => cases (o other).first <;> rfl
    | panic => rfl
    | outOfFuel => rfl
  rw [this]
  exact ofRes_run _ _ _ _ fun x => intersectLoopM_run cmp s other o _ _ _ _

theorem ofRes_reads {σ α β : Type} {s other : ι} (r : Res α) (k : α → Micro ι σ (Res β)) (h : ∀ a, (k a).ReadsOnly s other) :
    (Micro.ofRes r k).ReadsOnly s other := by
  cases r with
  | ok a => exact h a
  | panic => trivial
  | outOfFuel => trivial

theorem intersectLoopM_reads (cmp : K → K → Int) (s other : ι) : ∀ f a b r, (intersectLoopM cmp s other f a b r).ReadsOnly s other := by
  intro f
  induction f with
  | zero => intro a b r; cases a <;> cases b <;> trivial
  | succ f ih =>
    intro a b r
    cases a with
    | none => cases b <;> trivial
    | some a =>
      cases b with
      | none => trivial
      | some b =>
        refine ⟨.inl rfl, fun S => ⟨.inr rfl, fun O => ?_⟩⟩
        exact ofRes_reads _ _ fun x => ih _ _ _

theorem intersectM_reads (cmp : K → K → Int) (s other : ι) : (intersectM cmp s other).ReadsOnly s other := by
  refine ⟨.inl rfl, fun S => ⟨.inr rfl, fun O => ?_⟩⟩
  exact ofRes_reads _ _ fun x => intersectLoopM_reads cmp s other _ _ _ _

/-- There is such code. -/
def AlgImpl.mk' (ι : Type) [DecidableEq ι] (cmp : K → K → Int) : AlgImpl ι cmp where
  code a s other := match a with
    | .intersect => intersectM cmp s other
    | .union => .read s fun S => .read other fun O => .ret (TreeMap.union cmp S O)
    | .diff => .read s fun S => .read other fun O => .ret (TreeMap.diff cmp S O)
  ok a s other := by
    cases a with
    | intersect => exact intersectM_reads cmp s other
    | union => exact ⟨.inl rfl, fun _ => ⟨.inr rfl, fun _ => trivial⟩⟩
    | diff => exact ⟨.inl rfl, fun _ => ⟨.inr rfl, fun _ => trivial⟩⟩
  eff a s other o := by
    cases a with
    | intersect => exact intersectM_run cmp s other o
    | union => rfl
    | diff => rfl

/-! ## A result that no sequential execution gives -/

/-- The set of the elements of the list. -/
def setOf : List Int → Tree Int Bool → Tree Int Bool
  | [], t => t
  | x :: xs, t => match setInsert intCmp t x with
    | .ok t => setOf xs t
    | _ => t

/-- The elements of a set that a method returned. -/
def elemsOf (r : Res (Tree Int Bool)) : Res (List Int) := r.bind fun t => setTraversal t (fun xs x => (xs ++ [x], true)) []

/-- `s` is {1, 2, 3}, `other` is {1, 2}. -/
def tornSets : Bool → Tree Int Bool := fun b => if b then setOf [1, 2, 3] Tree.new else setOf [1, 2] Tree.new

/-- Local states: a number of calls made and the elements of the returned set. -/
structure TornLoc where
  calls : Nat
  res : Option (Res (List Int))

/-- Goroutine `true` calls `s.Intersect(other)`; goroutine `false` calls `other.Erase(1)`, then `other.Insert(3)`. -/
def tornProg : Prog Bool (Tree Int Bool) Bool TornLoc := fun t l =>
  match t, l.calls with
  | true, 0 => some { lock := true, write := false, body := (intersectM intCmp true false).map fun r => ⟨1, some (elemsOf r)⟩ }
  | false, 0 => some { lock := false, write := true, body :=
      ((Impl.whole (ι := Bool) (set_readers intCmp)).code false (.erase 1)).map fun _ => ⟨1, none⟩ }
  | false, 1 => some { lock := false, write := true, body :=
      ((Impl.whole (ι := Bool) (set_readers intCmp)).code false (.insert 3)).map fun _ => ⟨2, none⟩ }
  | _, _ => none

set_option maxRecDepth 20000 in
/-- C59 is false of the code, in its results too: while `s` is {1, 2, 3} and `other` is successively {1, 2}, {2} and {2, 3}, `s.Intersect(other)`
returns {1, 2, 3}, which is the intersection of `s` with none of them. -/
theorem C59_not_linearizable : (∃ log c, Run tornProg tornSets (fun _ => ⟨0, none⟩) log c ∧ c.thr true = .out ⟨1, some (.ok [1, 2, 3])⟩) ∧
    ∀ n ∈ [[1, 2], [2], [2, 3]], elemsOf (TreeMap.intersect intCmp (setOf [1, 2, 3] Tree.new) (setOf n Tree.new)) = .ok n := by
  constructor
  · have h0 : Run tornProg tornSets (fun _ => ⟨0, none⟩) [] _ := .init
    have h1 := h0.silent (.enter (t := true) rfl rfl (by rintro t w ⟨l, m, h⟩; cases h))
    have h2 := h1.silent (.read (t := true) rfl)
    have h3 := h2.silent (.read (t := true) rfl)
    have h4 := h3.silent (.read (t := true) rfl)
    have h5 := h4.silent (.read (t := true) rfl)
    have h6 := h5.silent (.enter (t := false) rfl rfl (by
      rintro t w ⟨l, m, h⟩
      cases t with
      | false => cases h
      | true => cases h))
    have h7 := h6.silent (.read (t := false) rfl)
    have h8 := h7.silent (.upd (t := false) rfl)
    have h9 := h8.left (.leave (t := false) rfl)
    have h10 := h9.silent (.enter (t := false) rfl rfl (by
      rintro t w ⟨l, m, h⟩
      cases t with
      | false => cases h
      | true => cases h))
    have h11 := h10.silent (.read (t := false) rfl)
    have h12 := h11.silent (.upd (t := false) rfl)
    have h13 := h12.left (.leave (t := false) rfl)
    have h14 := h13.silent (.read (t := true) rfl)
    have h15 := h14.silent (.read (t := true) rfl)
    have h16 := h15.silent (.read (t := true) rfl)
    have h17 := h16.silent (.read (t := true) rfl)
    have h18 := h17.left (.leave (t := true) rfl)
    exact ⟨_, _, h18, rfl⟩
  · intro n hn
    simp only [List.mem_cons, List.not_mem_nil, or_false] at hn
    rcases hn with rfl | rfl | rfl <;> rfl

/-! ## What holds: the argument is the receiver itself, or a set that nobody changes any more -/

/-- A call of a method of a set, or of one of the three set-algebra methods. -/
inductive SetCall (ι K : Type)
  | op (i : ι) (op : SetOp K)
  | alg (a : AlgOp) (s other : ι)

/-- What the client gets back. -/
inductive SetCallOut (K : Type)
  | out (r : Res (SetOut K))
  | set (r : Res (Tree K Bool))

/-- A client: from its local state, the next call of a goroutine and what it makes of the result. -/
abbrev SetClient (ι τ L K : Type) := τ → L → Option (SetCall ι K × (SetCallOut K → L))

/-- The concurrent program: a method call is one critical section of its set, for reading or writing; `Intersect`, `Union`, `Diff` are one critical
section of `s`, for reading. -/
def SetClient.prog {cmp : K → K → Int} (client : SetClient ι τ L K) (impl : Impl ι setWrites (setStep cmp)) (A : AlgImpl ι cmp) :
    Prog ι (Tree K Bool) τ L := fun t l =>
  match client t l with
  | none => none
  | some (.op i op, k) => some { lock := i, write := setWrites op, body := (impl.code i op).map fun r => k (.out r) }
  | some (.alg a s other, k) => some { lock := s, write := false, body := (A.code a s other).map fun r => k (.set r) }

/-- The client gives to `Intersect`, `Union`, `Diff` the receiver itself or a set of `F`, and calls no `Insert`, `Erase`, `Clear` on sets of `F`. -/
def SetClient.Respects (client : SetClient ι τ L K) (F : ι → Prop) : Prop := ∀ t l x k, client t l = some (x, k) →
  match x with
  | .op i op => setWrites op = true → ¬ F i
  | .alg _ s other => other = s ∨ F other

/-- The sequential execution: the goroutines of the list make their next call, one at a time. -/
def setSeqRun (cmp : K → K → Int) (client : SetClient ι τ L K) : List τ → (ι → Tree K Bool) → (τ → L) → Option ((ι → Tree K Bool) × (τ → L))
  | [], o, l => some (o, l)
  | t :: ts, o, l =>
    match client t (l t) with
    | none => none
    | some (.op i op, k) => setSeqRun cmp client ts (Function.update o i (lift (setStep cmp) op (o i)).1)
        (Function.update l t (k (.out (lift (setStep cmp) op (o i)).2)))
    | some (.alg a s other, k) => setSeqRun cmp client ts o (Function.update l t (k (.set (algSem cmp a (o s) (o other)))))

theorem readsOnly_ok {σ α : Type} {F : ι → Prop} {s other : ι} (hF : other = s ∨ F other) : ∀ (m : Micro ι σ α), m.ReadsOnly s other → m.Ok F s false := by
  intro m
  induction m with
  | ret a => exact fun _ => trivial
  | read j k ih =>
    rintro ⟨hj, h⟩
    refine ⟨?_, fun x => ih x (h x)⟩
    rcases hj with rfl | rfl
    · exact .inl rfl
    · exact hF
  | upd j f k => exact fun h => h.elim

theorem Micro.Ok.mono {σ α : Type} {F : ι → Prop} {i : ι} {w : Bool} (hw : w = true → ¬ F i) : ∀ (m : Micro ι σ α), m.Ok (fun _ => False) i w → m.Ok F i w := by
  intro m
  induction m with
  | ret a => exact fun _ => trivial
  | read j k ih => exact fun h => ⟨.inl (h.1.resolve_right id), fun x => ih x (h.2 x)⟩
  | upd j f k ih => exact fun h => ⟨h.1, h.2.1, h.1 ▸ hw h.2.1, ih h.2.2.2⟩

theorem setClient_disciplined {cmp : K → K → Int} {F : ι → Prop} {client : SetClient ι τ L K} (hF : client.Respects F)
    (impl : Impl ι setWrites (setStep cmp)) (A : AlgImpl ι cmp) : Disciplined F (client.prog impl A) := by
  intro t l s h
  simp only [SetClient.prog] at h
  cases hc : client t l with
  | none => simp [hc] at h
  | some x =>
    obtain ⟨x, k⟩ := x
    have hr := hF t l x k hc
    cases x with
    | op i op =>
      simp only [hc, Option.some.injEq] at h
      subst h
      exact (Micro.map_ok _ _).2 (Micro.Ok.mono hr _ (impl.ok i op))
    | alg a s other =>
      simp only [hc, Option.some.injEq] at h
      subst h
      exact (Micro.map_ok _ _).2 (readsOnly_ok hr _ (A.ok a s other))

/-- C59, what holds: if `Intersect`, `Union` and `Diff` are only given the receiver itself or sets that nobody changes (any more), then every
concurrent execution of method calls and set-algebra calls is free of data races and amounts to the finished calls made one at a time. Missing: any
other argument (`C59_violated`). -/
theorem C59_frozen_partial {cmp : K → K → Int} {F : ι → Prop} {client : SetClient ι τ L K} (hF : client.Respects F)
    (impl : Impl ι setWrites (setStep cmp)) (A : AlgImpl ι cmp) {o : ι → Tree K Bool} {l : τ → L} {log : List τ} {c : Conf ι (Tree K Bool) τ L}
    (h : Run (client.prog impl A) o l log c) : ∃ o' l', setSeqRun cmp client log o l = some (o', l') ∧
      (∀ t x, c.thr t = .out x → l' t = x) ∧ (∀ t x i w m, c.thr t = .ins x i w m → l' t = x) ∧
      (∀ i, (∀ t, ¬ Holds c t i true) → c.obj i = o' i) ∧ ¬ Race c := by
  have hd := setClient_disciplined hF impl A
  obtain ⟨a, e, h1, h2, h3⟩ := C58_sections_atomic hd h
  refine ⟨a.obj, a.loc, ?_, h1, h2, fun i hi => (h3 i hi).symm, C58_race_free hd h⟩
  have key : ∀ (log : List τ) (o : ι → Tree K Bool) (l : τ → L) (a : AConf ι (Tree K Bool) τ L),
      exec (client.prog impl A) log { obj := o, loc := l } = some a → setSeqRun cmp client log o l = some (a.obj, a.loc) := by
    intro log
    induction log with
    | nil => intro o l a e; cases e; rfl
    | cons t ts ih =>
      intro o l a e
      simp only [exec, astep, SetClient.prog] at e
      cases hc : client t (l t) with
      | none => simp [hc] at e
      | some x =>
        obtain ⟨x, k⟩ := x
        cases x with
        | op i op =>
          simp only [hc, Option.bind_some, Micro.map_run, impl_run] at e
          simp only [setSeqRun, hc]
          exact ih _ _ a e
        | alg q s other =>
          simp only [hc, Option.bind_some, Micro.map_run, readsOnly_run _ (A.ok q s other), A.eff] at e
          simp only [setSeqRun, hc]
          exact ih _ _ a e
  exact key log o l a e

/-- A client to which this applies: one goroutine computes `s.Union(other)` while another inserts 7 into `s`; `other` is not changed. -/
def frozenClient : SetClient Bool Bool Nat Int := fun t l =>
  match t, l with
  | true, 0 => some (.alg .union true false, fun _ => 1)
  | false, 0 => some (.op true (.insert 7), fun _ => 1)
  | _, _ => none

example : frozenClient.Respects (fun i => i = false) := by
  intro t l x k h
  match t, l, h with
  | true, 0, h => cases h; exact .inr rfl
  | false, 0, h => cases h; exact fun _ => by decide

end GoSTL.Conc
