import Verif.Conc.Proofs
import Verif.Adapter.Props
/-!
# Linearizability of containers whose methods hold the lock for their whole body

`stp op s` is the sequential model of one method call (result and new state). A goroutine-safe container runs the same code between `Lock` and
`Unlock` (or `RLock` and `RUnlock`), in single reads and updates that other goroutines' steps may interleave. `Impl` is any such code whose effect
*when run alone* is the sequential model, with `writes` telling which methods take `Lock`.
-/
namespace GoSTL.Conc
variable {ι τ L S A Op Out : Type} [DecidableEq ι] [DecidableEq τ]

/-- A method call as a total function. A call that panics ends with that result (the deferred `Unlock` still runs); the panics of the containers
modelled here happen before anything is changed. -/
def lift (stp : Op → S → Res (Out × S)) (op : Op) (s : S) : S × Res Out :=
  match stp op s with
  | .ok (o, s') => (s', .ok o)
  | .panic => (s, .panic)
  | .outOfFuel => (s, .outOfFuel)

/-- The code of the methods of object `i`, in single reads and updates. -/
structure Impl (ι : Type) [DecidableEq ι] (writes : Op → Bool) (stp : Op → S → Res (Out × S)) where
  code : ι → Op → Micro ι S (Res Out)
  /-- It accesses only its own object, and only `Lock`ed methods update it. -/
  ok : ∀ i op, (code i op).Ok (fun _ => False) i (writes op)
  /-- Alone, it does what the sequential model does. -/
  eff : ∀ i op o, ((code i op).run o).1 i = (lift stp op (o i)).1 ∧ ((code i op).run o).2 = (lift stp op (o i)).2

/-- The methods that take `RLock` leave the sequential model unchanged. -/
def ReadersRead (writes : Op → Bool) (stp : Op → S → Res (Out × S)) : Prop := ∀ op s o s', writes op = false → stp op s = .ok (o, s') → s' = s

/-- There is such code, whenever the methods that take `RLock` only read. -/
def Impl.whole {writes : Op → Bool} {stp : Op → S → Res (Out × S)} (h : ReadersRead writes stp) : Impl ι writes stp where
  code i op := if writes op then .read i fun s => .upd i (fun _ => (lift stp op s).1) (.ret (lift stp op s).2) else .read i fun s => .ret (lift stp op s).2
  ok i op := by
    split
    · next hw => exact ⟨.inl rfl, fun s => ⟨rfl, hw, id, trivial⟩⟩
    · exact ⟨.inl rfl, fun s => trivial⟩
  eff i op o := by
    split
    · simp [Micro.run]
    · next hw =>
      simp only [Micro.run, and_true]
      simp only [lift]
      cases hs : stp op (o i) with
      | ok p => obtain ⟨x, s'⟩ := p; exact (h op _ x s' (by simpa using hw) hs).symm
      | panic => rfl
      | outOfFuel => rfl

/-- A client: from its local state a goroutine calls a method of an object and continues with the result. -/
abbrev Client (ι τ L Op Out : Type) := τ → L → Option (ι × Op × (Res Out → L))

/-- Continue with the result of a body. -/
def Micro.map {α β : Type} (g : α → β) : Micro ι S α → Micro ι S β
  | .ret a => .ret (g a)
  | .read i k => .read i fun s => (k s).map g
  | .upd i f k => .upd i f (k.map g)

/-- The concurrent program: every call is one critical section. -/
def Client.prog {writes : Op → Bool} {stp : Op → S → Res (Out × S)} (client : Client ι τ L Op Out) (impl : Impl ι writes stp) : Prog ι S τ L :=
  fun t l => (client t l).map fun x => { lock := x.1, write := writes x.2.1, body := (impl.code x.1 x.2.1).map x.2.2 }

/-- The sequential execution: the goroutines of the list make their next call, one at a time, on objects that behave like `spec`. -/
def seqRun (spec : Op → A → Res (Out × A)) (client : Client ι τ L Op Out) : List τ → (ι → A) → (τ → L) → Option ((ι → A) × (τ → L))
  | [], o, l => some (o, l)
  | t :: ts, o, l => (client t (l t)).bind fun (i, op, k) =>
      seqRun spec client ts (Function.update o i (lift spec op (o i)).1) (Function.update l t (k (lift spec op (o i)).2))

theorem Micro.map_ok {α β : Type} (g : α → β) {F : ι → Prop} {i : ι} {w : Bool} (m : Micro ι S α) : (m.map g).Ok F i w ↔ m.Ok F i w := by
  induction m with
  | ret a => rfl
  | read j k ih => simp [Micro.map, Micro.Ok, ih]
  | upd j f k ih => simp [Micro.map, Micro.Ok, ih]

theorem Micro.map_run {α β : Type} (g : α → β) (m : Micro ι S α) (o : ι → S) : (m.map g).run o = ((m.run o).1, g (m.run o).2) := by
  induction m generalizing o with
  | ret a => rfl
  | read j k ih => simp [Micro.map, Micro.run, ih]
  | upd j f k ih => simp [Micro.map, Micro.run, ih]

theorem client_disciplined {writes : Op → Bool} {stp : Op → S → Res (Out × S)} (client : Client ι τ L Op Out) (impl : Impl ι writes stp) :
    Disciplined (fun _ => False) (client.prog impl) := by
  intro t l s h
  simp only [Client.prog, Option.map_eq_some_iff] at h
  obtain ⟨x, -, rfl⟩ := h
  rw [Micro.map_ok]
  exact impl.ok _ _

theorem impl_run {writes : Op → Bool} {stp : Op → S → Res (Out × S)} (impl : Impl ι writes stp) (i : ι) (op : Op) (o : ι → S) :
    (impl.code i op).run o = (Function.update o i (lift stp op (o i)).1, (lift stp op (o i)).2) := by
  obtain ⟨h1, h2⟩ := impl.eff i op o
  obtain ⟨-, -, h3, -⟩ := run_local (impl.code i op) (impl.ok i op) o o rfl fun _ _ => rfl
  apply Prod.ext
  · funext j
    by_cases hj : j = i
    · subst hj; simp [h1]
    · simp [Function.update_of_ne hj, h3 j (.inl hj)]
  · exact h2

theorem exec_seqRun {writes : Op → Bool} {stp : Op → S → Res (Out × S)} {spec : Op → A → Res (Out × A)} {R : S → A → Prop}
    (hR : ∀ op s a, R s a → Adapter.Agree R (stp op s) (spec op a)) (client : Client ι τ L Op Out) (impl : Impl ι writes stp) :
    ∀ (log : List τ) (o : ι → S) (p : ι → A) (l : τ → L) (a : AConf ι S τ L), (∀ i, R (o i) (p i)) →
    exec (client.prog impl) log { obj := o, loc := l } = some a →
    ∃ p', seqRun spec client log p l = some (p', a.loc) ∧ ∀ i, R (a.obj i) (p' i) := by
  intro log
  induction log with
  | nil => intro o p l a h e; cases e; exact ⟨p, rfl, h⟩
  | cons t ts ih =>
    intro o p l a h e
    simp only [exec, astep, Client.prog] at e
    cases hc : client t (l t) with
    | none => simp [hc] at e
    | some x =>
      obtain ⟨i, op, k⟩ := x
      simp only [hc, Option.map_some, Option.bind_some, Micro.map_run, impl_run] at e
      have hs := hR op _ _ (h i)
      have hl : (lift stp op (o i)).2 = (lift spec op (p i)).2 ∧ R (lift stp op (o i)).1 (lift spec op (p i)).1 := by
        simp only [lift]
        revert hs
        generalize stp op (o i) = x
        generalize spec op (p i) = y
        intro hs
        cases hs with
        | ok h => exact ⟨rfl, h⟩
        | panic => exact ⟨rfl, h i⟩
      obtain ⟨p', e', h'⟩ := ih _ (Function.update p i (lift spec op (p i)).1) _ a (by
        intro j
        by_cases hj : j = i
        · subst hj; simpa using hl.2
        · simpa [Function.update_of_ne hj] using h j) e
      refine ⟨p', ?_, h'⟩
      simp only [seqRun, hc, Option.bind_some]
      rw [← hl.1]
      exact e'

/-- C58: linearizability. Let the sequential methods `stp` of a container refine `spec`. Then, for any number of goroutine-safe containers and of
goroutines, any clients and any interleaving of the methods' steps, the calls finished so far, made one at a time on objects that behave like
`spec`, in the order in which the locks were released, give every goroutine the same results (the same local state); and every container not
being written represents the same abstract state. -/
theorem C58_linearizable {writes : Op → Bool} {stp : Op → S → Res (Out × S)} {spec : Op → A → Res (Out × A)} {R : S → A → Prop}
    (hR : ∀ op s a, R s a → Adapter.Agree R (stp op s) (spec op a)) (client : Client ι τ L Op Out) (impl : Impl ι writes stp)
    {o : ι → S} {p : ι → A} (h0 : ∀ i, R (o i) (p i)) {l : τ → L} {log : List τ} {c : Conf ι S τ L} (h : Run (client.prog impl) o l log c) :
    ∃ p' l', seqRun spec client log p l = some (p', l') ∧
      (∀ t x, c.thr t = .out x → l' t = x) ∧ (∀ t x i w m, c.thr t = .ins x i w m → l' t = x) ∧
      (∀ i, (∀ t, ¬ Holds c t i true) → R (c.obj i) (p' i)) ∧ ¬ Race c := by
  obtain ⟨a, e, h1, h2, h3⟩ := C58_sections_atomic (client_disciplined client impl) h
  obtain ⟨p', e', hp⟩ := exec_seqRun hR client impl log o p l a h0 e
  refine ⟨p', a.loc, e', h1, h2, fun i hi => ?_, C58_race_free (client_disciplined client impl) h⟩
  rw [← h3 i hi]
  exact hp i

/-- C58 for a container seen as its own specification. -/
theorem C58_linearizable_self {writes : Op → Bool} {stp : Op → S → Res (Out × S)}
    (client : Client ι τ L Op Out) (impl : Impl ι writes stp) {o : ι → S} {l : τ → L} {log : List τ} {c : Conf ι S τ L}
    (h : Run (client.prog impl) o l log c) : ∃ p' l', seqRun stp client log o l = some (p', l') ∧
      (∀ t x, c.thr t = .out x → l' t = x) ∧ (∀ t x i w m, c.thr t = .ins x i w m → l' t = x) ∧
      (∀ i, (∀ t, ¬ Holds c t i true) → c.obj i = p' i) ∧ ¬ Race c := by
  obtain ⟨a, e, h1, h2, h3⟩ := C58_sections_atomic (client_disciplined client impl) h
  have key : ∀ (log : List τ) (o : ι → S) (l : τ → L) (a : AConf ι S τ L), exec (client.prog impl) log { obj := o, loc := l } = some a →
      seqRun stp client log o l = some (a.obj, a.loc) := by
    intro log
    induction log with
    | nil => intro o l a e; cases e; rfl
    | cons t ts ih =>
      intro o l a e
      simp only [exec, astep, Client.prog] at e
      cases hc : client t (l t) with
      | none => simp [hc] at e
      | some x =>
        obtain ⟨i, op, k⟩ := x
        simp only [hc, Option.map_some, Option.bind_some, Micro.map_run, impl_run] at e
        simp only [seqRun, hc, Option.bind_some]
        exact ih _ _ a e
  exact ⟨a.obj, a.loc, key log o l a e, h1, h2, fun i hi => (h3 i hi).symm, C58_race_free (client_disciplined client impl) h⟩

end GoSTL.Conc
