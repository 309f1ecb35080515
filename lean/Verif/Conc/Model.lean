import Mathlib.Logic.Function.Basic
/-!
# Goroutines, objects and reader/writer locks

Objects are named by `ι`; every object has a state of type `σ` and one `sync.RWMutex` (utils/sync/locker.go:8-13; `WithGoroutineSafe` of every
container sets `option.locker = &gosync.RWMutex{}`). Goroutines are named by `τ` (any type: any number of them). A goroutine alternates between
running outside and running one critical section:

    x.locker.Lock()   (or RLock)
    defer x.locker.Unlock()   (or RUnlock)
    body

`sync.RWMutex` is modelled by its specification: `Lock` succeeds when no goroutine holds the lock, `RLock` when no goroutine holds it for
writing. (Go may delay an `RLock` in favour of a waiting `Lock`; the model has those schedules and more.) The bodies run in steps of single
reads and updates of one object; steps of different goroutines interleave arbitrarily. Memory is sequentially consistent: that is what the Go
memory model gives to programs without data races, and `C58_race_free` shows there are none.
-/
namespace GoSTL.Conc

/-- A body: a sequence of single reads and updates of objects, each depending on what was read before. -/
inductive Micro (ι σ α : Type) where
  | ret (a : α)
  | read (i : ι) (k : σ → Micro ι σ α)
  | upd (i : ι) (f : σ → σ) (k : Micro ι σ α)

/-- A critical section: which lock, for writing or for reading, and the body, which ends with the new local state of the goroutine. -/
structure Sec (ι σ L : Type) where
  lock : ι
  write : Bool
  body : Micro ι σ L

/-- A goroutine: outside with a local state, or inside a critical section with the remaining body. `start` is its local state when it entered. -/
inductive TState (ι σ L : Type) where
  | out (l : L)
  | ins (start : L) (lock : ι) (write : Bool) (m : Micro ι σ L)

/-- A program: from its local state, the next critical section a goroutine enters (`none`: finished). -/
abbrev Prog (ι σ τ L : Type) := τ → L → Option (Sec ι σ L)

/-- A configuration: the state of every object, and what every goroutine is doing. -/
structure Conf (ι σ τ L : Type) where
  obj : ι → σ
  thr : τ → TState ι σ L

variable {ι σ τ L α β : Type} [DecidableEq ι] [DecidableEq τ]

/-- Goroutine `t` holds lock `i` (for writing if `w`). -/
def Holds (c : Conf ι σ τ L) (t : τ) (i : ι) (w : Bool) : Prop := ∃ l m, c.thr t = .ins l i w m

/-- `Lock` (`w`) or `RLock` (not `w`) of lock `i` can succeed. -/
def Free (c : Conf ι σ τ L) (i : ι) (w : Bool) : Prop := ∀ t w', Holds c t i w' → w = false ∧ w' = false

/-- One step of one goroutine. The label is `some t` when goroutine `t` leaves a critical section. -/
inductive Step (prog : Prog ι σ τ L) : Conf ι σ τ L → Option τ → Conf ι σ τ L → Prop
  | enter {c : Conf ι σ τ L} {t l s} : c.thr t = .out l → prog t l = some s → Free c s.lock s.write →
      Step prog c none { c with thr := Function.update c.thr t (.ins l s.lock s.write s.body) }
  | read {c : Conf ι σ τ L} {t l i w j k} : c.thr t = .ins l i w (.read j k) →
      Step prog c none { c with thr := Function.update c.thr t (.ins l i w (k (c.obj j))) }
  | upd {c : Conf ι σ τ L} {t l i w j f k} : c.thr t = .ins l i w (.upd j f k) →
      Step prog c none { obj := Function.update c.obj j (f (c.obj j)), thr := Function.update c.thr t (.ins l i w k) }
  | leave {c : Conf ι σ τ L} {t l i w l'} : c.thr t = .ins l i w (.ret l') →
      Step prog c (some t) { c with thr := Function.update c.thr t (.out l') }

/-- Executions from the initial objects `o` and local states `l`, with the order in which critical sections were left. -/
inductive Run (prog : Prog ι σ τ L) (o : ι → σ) (l : τ → L) : List τ → Conf ι σ τ L → Prop
  | init : Run prog o l [] { obj := o, thr := fun t => .out (l t) }
  | silent {log c c'} : Run prog o l log c → Step prog c none c' → Run prog o l log c'
  | left {log c t c'} : Run prog o l log c → Step prog c (some t) c' → Run prog o l (log ++ [t]) c'

/-! ## One at a time -/

/-- A body running alone. -/
def Micro.run : Micro ι σ α → (ι → σ) → (ι → σ) × α
  | .ret a, o => (o, a)
  | .read i k, o => (k (o i)).run o
  | .upd i f k, o => k.run (Function.update o i (f (o i)))

/-- Objects and local states when nobody is inside. -/
structure AConf (ι σ τ L : Type) where
  obj : ι → σ
  loc : τ → L

/-- Goroutine `t` executes its next critical section alone. -/
def astep (prog : Prog ι σ τ L) (t : τ) (a : AConf ι σ τ L) : Option (AConf ι σ τ L) :=
  match prog t (a.loc t) with
  | none => none
  | some s => some { obj := (s.body.run a.obj).1, loc := Function.update a.loc t (s.body.run a.obj).2 }

/-- The goroutines of the list execute their next critical section one at a time, in that order. -/
def exec (prog : Prog ι σ τ L) : List τ → AConf ι σ τ L → Option (AConf ι σ τ L)
  | [], a => some a
  | t :: ts, a => (astep prog t a).bind (exec prog ts)

/-! ## The discipline -/

/-- The body reads only object `i` and objects of `F`, and updates only `i`, only if `w` and only if `i` is not in `F`. -/
def Micro.Ok (F : ι → Prop) (i : ι) (w : Bool) : Micro ι σ α → Prop
  | .ret _ => True
  | .read j k => (j = i ∨ F j) ∧ ∀ s, (k s).Ok F i w
  | .upd j _ k => j = i ∧ w = true ∧ ¬ F j ∧ k.Ok F i w

/-- Every critical section accesses only the object whose lock it holds, and updates it only under `Lock`; it may also read objects of `F`,
which nobody updates. -/
def Disciplined (F : ι → Prop) (prog : Prog ι σ τ L) : Prop := ∀ t l s, prog t l = some s → s.body.Ok F s.lock s.write

/-- The next step of goroutine `t` accesses object `j`, updating it if `w`. -/
def Accesses (c : Conf ι σ τ L) (t : τ) (j : ι) (w : Bool) : Prop :=
  ∃ l i w', (w = false ∧ ∃ k, c.thr t = .ins l i w' (.read j k)) ∨ (w = true ∧ ∃ f k, c.thr t = .ins l i w' (.upd j f k))

/-- A data race: two goroutines may access the same object at the same time, one of them updating it. -/
def Race (c : Conf ι σ τ L) : Prop := ∃ t t' j w, t ≠ t' ∧ Accesses c t j true ∧ Accesses c t' j w

end GoSTL.Conc
