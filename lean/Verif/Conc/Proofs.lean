import Verif.Conc.Model
import Mathlib.Tactic.Common
/-!
# Critical sections are atomic, there are no data races, and something can always run
-/
namespace GoSTL.Conc
variable {ι σ τ L α : Type} [DecidableEq ι] [DecidableEq τ]

/-- A disciplined body depends only on its own object and on `F`, and changes only its own object, and nothing if it is a reader. -/
theorem run_local {F : ι → Prop} {i : ι} {w : Bool} : ∀ (m : Micro ι σ α), m.Ok F i w → ∀ o o' : ι → σ, o i = o' i → (∀ j, F j → o j = o' j) →
    (m.run o).2 = (m.run o').2 ∧ (m.run o).1 i = (m.run o').1 i ∧ (∀ j, j ≠ i ∨ F j → (m.run o).1 j = o j) ∧ (w = false → (m.run o).1 = o) := by
  intro m
  induction m with
  | ret a => intro _ o o' h _; exact ⟨rfl, h, fun _ _ => rfl, fun _ => rfl⟩
  | read j k ih =>
    rintro ⟨hj, hk⟩ o o' h hF
    simp only [Micro.run]
    have : o j = o' j := by rcases hj with rfl | hj; exacts [h, hF j hj]
    rw [← this]
    exact ih _ (hk _) o o' h hF
  | upd j f k ih =>
    rintro ⟨rfl, hw, hnF, hk⟩ o o' h hF
    simp only [Micro.run]
    obtain ⟨h1, h2, h3, h4⟩ := ih hk (Function.update o j (f (o j))) (Function.update o' j (f (o' j))) (by simp [h]) (by
      intro q hq
      have hne : q ≠ j := by rintro rfl; exact hnF hq
      simp [Function.update_of_ne hne, hF q hq])
    refine ⟨h1, h2, fun q hq => ?_, fun hf => by rw [hw] at hf; cases hf⟩
    have hne : q ≠ j := by rcases hq with hq | hq; exacts [hq, fun e => hnF (e ▸ hq)]
    rw [h3 q hq, Function.update_of_ne hne]

/-- The invariant linking an interleaved configuration to the one reached by running the finished sections one at a time. -/
structure Sim (F : ι → Prop) (prog : Prog ι σ τ L) (c : Conf ι σ τ L) (a : AConf ι σ τ L) : Prop where
  excl : ∀ t t' i w w', t ≠ t' → Holds c t i w → Holds c t' i w' → w = false ∧ w' = false
  out : ∀ t l, c.thr t = .out l → a.loc t = l
  ins : ∀ t l i w m, c.thr t = .ins l i w m → a.loc t = l ∧ m.Ok F i w ∧ ∃ s, prog t l = some s ∧ s.lock = i ∧ s.write = w ∧
    (m.run c.obj).2 = (s.body.run a.obj).2 ∧ (m.run c.obj).1 i = (s.body.run a.obj).1 i
  same : ∀ i, (∀ t, ¬ Holds c t i true) → a.obj i = c.obj i
  frozen : ∀ i, F i → a.obj i = c.obj i

theorem Sim.init {F : ι → Prop} {prog : Prog ι σ τ L} (o : ι → σ) (l : τ → L) : Sim F prog { obj := o, thr := fun t => .out (l t) } { obj := o, loc := l } where
  excl := by rintro t t' i w w' - ⟨_, _, h⟩; cases h
  out := by intro t l h; cases h; rfl
  ins := by intro t l i w m h; cases h
  same := fun _ _ => rfl
  frozen := fun _ _ => rfl

theorem holds_update {c : Conf ι σ τ L} {t t' : τ} {l i w m j w'} {o : ι → σ}
    (h : Holds { obj := o, thr := Function.update c.thr t (.ins l i w m) } t' j w') : (t' = t ∧ j = i ∧ w' = w) ∨ (t' ≠ t ∧ Holds c t' j w') := by
  obtain ⟨l', m', h⟩ := h
  by_cases ht : t' = t
  · subst ht
    simp at h
    exact .inl ⟨rfl, h.2.1.symm, h.2.2.1.symm⟩
  · simp [Function.update_of_ne ht] at h
    exact .inr ⟨ht, l', m', h⟩

theorem holds_update_out {c : Conf ι σ τ L} {t t' : τ} {l j w'} (h : Holds { c with thr := Function.update c.thr t (.out l) } t' j w') :
    t' ≠ t ∧ Holds c t' j w' := by
  obtain ⟨l', m', h⟩ := h
  by_cases ht : t' = t
  · subst ht; simp at h
  · simp [Function.update_of_ne ht] at h
    exact ⟨ht, l', m', h⟩

/-- `Holds` is not affected by a step inside a section. -/
theorem holds_inside {c : Conf ι σ τ L} {t t' : τ} {l i w m m' j w'} {o : ι → σ} (ht : c.thr t = .ins l i w m) :
    Holds { obj := o, thr := Function.update c.thr t (.ins l i w m') } t' j w' ↔ Holds c t' j w' := by
  constructor
  · intro h
    rcases holds_update h with ⟨rfl, rfl, rfl⟩ | ⟨-, h⟩
    · exact ⟨l, m, ht⟩
    · exact h
  · rintro ⟨l', m1, h⟩
    by_cases hne : t' = t
    · subst hne
      rw [ht] at h; cases h
      exact ⟨l, m', by simp⟩
    · exact ⟨l', m1, by simp [Function.update_of_ne hne, h]⟩

theorem Sim.step_none {F : ι → Prop} {prog : Prog ι σ τ L} (hd : Disciplined F prog) {c c' : Conf ι σ τ L} {a : AConf ι σ τ L} (h : Sim F prog c a)
    (hs : Step prog c none c') : Sim F prog c' a := by
  cases hs with
  | @enter t l s hl hp hf =>
    refine ⟨?_, ?_, ?_, ?_, ?_⟩
    · intro t1 t2 i w w' hne h1 h2
      rcases holds_update h1 with ⟨a1, b1, c1⟩ | ⟨n1, h1⟩ <;> rcases holds_update h2 with ⟨a2, b2, c2⟩ | ⟨n2, h2⟩
      · exact absurd (a1.trans a2.symm) hne
      · subst b1 c1; exact hf _ _ h2
      · subst b2 c2; exact (hf _ _ h1).symm
      · exact h.excl t1 t2 i w w' hne h1 h2
    · intro t' l' ht'
      by_cases hne : t' = t
      · subst hne; simp at ht'
      · simp [Function.update_of_ne hne] at ht'; exact h.out t' l' ht'
    · intro t' l' i w m ht'
      by_cases hne : t' = t
      · subst hne
        simp at ht'
        obtain ⟨rfl, rfl, rfl, rfl⟩ := ht'
        have hok := hd _ _ _ hp
        have hsame := h.same s.lock (by
          intro t2 h2
          have := (hf t2 true h2).2
          cases this)
        obtain ⟨r1, r2, -⟩ := run_local s.body hok c.obj a.obj hsame.symm fun j hj => (h.frozen j hj).symm
        exact ⟨h.out _ _ hl, hok, s, hp, rfl, rfl, r1, r2⟩
      · simp [Function.update_of_ne hne] at ht'
        exact h.ins t' l' i w m ht'
    · intro i hi
      refine h.same i fun t2 h2 => hi t2 ?_
      obtain ⟨l2, m2, h2⟩ := h2
      have hne : t2 ≠ t := by rintro rfl; rw [hl] at h2; cases h2
      exact ⟨l2, m2, by simp [Function.update_of_ne hne, h2]⟩
    · exact h.frozen
  | @read t l i w j k ht =>
    refine ⟨?_, ?_, ?_, ?_, ?_⟩
    · intro t1 t2 i w w' hne h1 h2
      exact h.excl t1 t2 i w w' hne ((holds_inside ht).1 h1) ((holds_inside ht).1 h2)
    · intro t' l' ht'
      by_cases hne : t' = t
      · subst hne; simp at ht'
      · simp [Function.update_of_ne hne] at ht'; exact h.out t' l' ht'
    · intro t' l' i' w' m ht'
      by_cases hne : t' = t
      · subst hne
        simp at ht'
        obtain ⟨rfl, rfl, rfl, rfl⟩ := ht'
        obtain ⟨g1, ⟨-, g2⟩, s, g3, g4, g5, g6, g7⟩ := h.ins _ _ _ _ _ ht
        exact ⟨g1, g2 _, s, g3, g4, g5, g6, g7⟩
      · simp [Function.update_of_ne hne] at ht'
        exact h.ins t' l' i' w' m ht'
    · intro i hi
      exact h.same i fun t2 h2 => hi t2 ((holds_inside ht).2 h2)
    · exact h.frozen
  | @upd t l i w j f k ht =>
    obtain ⟨g1, ⟨rfl, rfl, hnF, g2⟩, s, g3, g4, g5, g6, g7⟩ := h.ins _ _ _ _ _ ht
    refine ⟨?_, ?_, ?_, ?_, ?_⟩
    · intro t1 t2 i w w' hne h1 h2
      exact h.excl t1 t2 i w w' hne ((holds_inside ht).1 h1) ((holds_inside ht).1 h2)
    · intro t' l' ht'
      by_cases hne : t' = t
      · subst hne; simp at ht'
      · simp [Function.update_of_ne hne] at ht'; exact h.out t' l' ht'
    · intro t' l' i' w' m ht'
      by_cases hne : t' = t
      · subst hne
        simp at ht'
        obtain ⟨rfl, rfl, rfl, rfl⟩ := ht'
        exact ⟨g1, g2, s, g3, g4, g5, g6, g7⟩
      · simp [Function.update_of_ne hne] at ht'
        have hij : i' ≠ j := by
          rintro rfl
          have := (h.excl t' t i' w' true hne ⟨_, _, ht'⟩ ⟨_, _, ht⟩).2
          cases this
        obtain ⟨k1, k2, s', k3, k4, k5, k6, k7⟩ := h.ins _ _ _ _ _ ht'
        obtain ⟨r1, r2, -⟩ := run_local m k2 (Function.update c.obj j (f (c.obj j))) c.obj (by simp [Function.update_of_ne hij]) (by
          intro q hq
          have : q ≠ j := by rintro rfl; exact hnF hq
          simp [Function.update_of_ne this])
        exact ⟨k1, k2, s', k3, k4, k5, by rw [r1, k6], by rw [r2, k7]⟩
    · intro i hi
      have hij : i ≠ j := by
        rintro rfl
        exact hi t ((holds_inside ht).2 ⟨_, _, ht⟩)
      show a.obj i = Function.update c.obj j (f (c.obj j)) i
      rw [Function.update_of_ne hij]
      exact h.same i fun t2 h2 => hi t2 ((holds_inside ht).2 h2)
    · intro q hq
      have : q ≠ j := by rintro rfl; exact hnF hq
      show a.obj q = Function.update c.obj j (f (c.obj j)) q
      rw [Function.update_of_ne this]
      exact h.frozen q hq

theorem Sim.step_left {F : ι → Prop} {prog : Prog ι σ τ L} (hd : Disciplined F prog) {c c' : Conf ι σ τ L} {t : τ} {a : AConf ι σ τ L} (h : Sim F prog c a)
    (hs : Step prog c (some t) c') : ∃ a', astep prog t a = some a' ∧ Sim F prog c' a' := by
  cases hs with
  | @leave t l i w l' ht =>
    obtain ⟨g1, g2, s, g3, g4, g5, g6, g7⟩ := h.ins _ _ _ _ _ ht
    simp only [Micro.run] at g6 g7
    have hok := hd _ _ _ g3
    rw [g4, g5] at hok
    obtain ⟨-, -, r3, r4⟩ := run_local s.body hok a.obj a.obj rfl fun _ _ => rfl
    refine ⟨{ obj := (s.body.run a.obj).1, loc := Function.update a.loc t l' }, by simp [astep, g1, g3, ← g6], ?_, ?_, ?_, ?_, ?_⟩
    · intro t1 t2 i w w' hne h1 h2
      exact h.excl t1 t2 i w w' hne (holds_update_out h1).2 (holds_update_out h2).2
    · intro t' l2 ht'
      by_cases hne : t' = t
      · subst hne; simp at ht'; simp [ht']
      · simp [Function.update_of_ne hne] at ht' ⊢; exact h.out t' l2 ht'
    · intro t' l2 i2 w2 m2 ht'
      have hne : t' ≠ t := by rintro rfl; simp at ht'
      simp [Function.update_of_ne hne] at ht'
      obtain ⟨k1, k2, s', k3, k4, k5, k6, k7⟩ := h.ins _ _ _ _ _ ht'
      have hok' := hd _ _ _ k3
      rw [k4, k5] at hok'
      have ha : (s.body.run a.obj).1 i2 = a.obj i2 := by
        by_cases hij : i2 = i
        · subst hij
          have := (h.excl t' t i2 w2 w hne ⟨_, _, ht'⟩ ⟨_, _, ht⟩).2
          rw [r4 this]
        · exact r3 i2 (.inl hij)
      obtain ⟨q1, q2, -⟩ := run_local s'.body hok' (s.body.run a.obj).1 a.obj ha fun j hj => r3 j (.inr hj)
      refine ⟨by simp [Function.update_of_ne hne, k1], k2, s', k3, k4, k5, ?_, ?_⟩
      · show (m2.run c.obj).2 = _
        rw [k6]; exact q1.symm
      · show (m2.run c.obj).1 i2 = _
        rw [k7]; exact q2.symm
    · intro j hj
      show (s.body.run a.obj).1 j = c.obj j
      by_cases hji : j = i
      · subst hji; exact g7.symm
      · rw [r3 j (.inl hji)]
        refine h.same j ?_
        rintro t2 ⟨l2, m2, h2⟩
        have hne : t2 ≠ t := by
          rintro rfl
          rw [ht] at h2; cases h2; exact hji rfl
        exact hj t2 ⟨l2, m2, by simp [Function.update_of_ne hne, h2]⟩
    · intro j hj
      show (s.body.run a.obj).1 j = c.obj j
      rw [r3 j (.inr hj)]
      exact h.frozen j hj

theorem exec_append {prog : Prog ι σ τ L} (xs ys : List τ) (a : AConf ι σ τ L) :
    exec prog (xs ++ ys) a = (exec prog xs a).bind (exec prog ys) := by
  induction xs generalizing a with
  | nil => rfl
  | cons x xs ih =>
    simp only [List.cons_append, exec]
    cases astep prog x a with
    | none => rfl
    | some b => simp [ih]

theorem run_sim {F : ι → Prop} {prog : Prog ι σ τ L} (hd : Disciplined F prog) {o : ι → σ} {l : τ → L} {log : List τ} {c : Conf ι σ τ L}
    (h : Run prog o l log c) : ∃ a, exec prog log { obj := o, loc := l } = some a ∧ Sim F prog c a := by
  induction h with
  | init => exact ⟨_, rfl, Sim.init o l⟩
  | silent _ hs ih =>
    obtain ⟨a, e, h⟩ := ih
    exact ⟨a, e, h.step_none hd hs⟩
  | left _ hs ih =>
    obtain ⟨a, e, h⟩ := ih
    obtain ⟨a', e', h'⟩ := h.step_left hd hs
    exact ⟨a', by simp [exec_append, e, exec, e'], h'⟩

/-- Critical sections are atomic: after any interleaving, running the sections left so far one at a time, in the order they were left, gives the
same local state to every goroutine (those inside a section have not started it), and the same state to every object that is not being
written. -/
theorem C58_sections_atomic {F : ι → Prop} {prog : Prog ι σ τ L} (hd : Disciplined F prog) {o : ι → σ} {l : τ → L} {log : List τ} {c : Conf ι σ τ L}
    (h : Run prog o l log c) : ∃ a, exec prog log { obj := o, loc := l } = some a ∧
      (∀ t l', c.thr t = .out l' → a.loc t = l') ∧ (∀ t l' i w m, c.thr t = .ins l' i w m → a.loc t = l') ∧
      (∀ i, (∀ t, ¬ Holds c t i true) → a.obj i = c.obj i) := by
  obtain ⟨a, e, h⟩ := run_sim hd h
  exact ⟨a, e, h.out, fun t l' i w m ht => (h.ins t l' i w m ht).1, h.same⟩

/-- No interleaving reaches a data race. -/
theorem C58_race_free {F : ι → Prop} {prog : Prog ι σ τ L} (hd : Disciplined F prog) {o : ι → σ} {l : τ → L} {log : List τ} {c : Conf ι σ τ L}
    (h : Run prog o l log c) : ¬ Race c := by
  obtain ⟨a, -, h⟩ := run_sim hd h
  rintro ⟨t, t', j, w, hne, ⟨l1, i1, w1, ⟨hw, -⟩ | ⟨-, f, k, ht⟩⟩, ⟨l2, i2, w2, ⟨-, k', ht'⟩ | ⟨-, f', k', ht'⟩⟩⟩
  · cases hw
  · cases hw
  · obtain ⟨-, ⟨rfl, rfl, hnF, -⟩, -⟩ := h.ins _ _ _ _ _ ht
    obtain ⟨-, ⟨hj, -⟩, -⟩ := h.ins _ _ _ _ _ ht'
    rcases hj with rfl | hj
    · have := (h.excl t t' _ _ _ hne ⟨_, _, ht⟩ ⟨_, _, ht'⟩).1
      cases this
    · exact hnF hj
  · obtain ⟨-, ⟨rfl, rfl, hnF, -⟩, -⟩ := h.ins _ _ _ _ _ ht
    obtain ⟨-, ⟨rfl, rfl, -, -⟩, -⟩ := h.ins _ _ _ _ _ ht'
    have := (h.excl t t' _ _ _ hne ⟨_, _, ht⟩ ⟨_, _, ht'⟩).1
    cases this

/-- Some number of steps of any goroutines. -/
inductive Steps (prog : Prog ι σ τ L) : Conf ι σ τ L → Conf ι σ τ L → Prop
  | refl {c} : Steps prog c c
  | step {c e c' c''} : Step prog c e c' → Steps prog c' c'' → Steps prog c c''

/-- No deadlock: a goroutine inside a section can always run to its end, whatever the others are doing, and when nobody is inside, every
unfinished goroutine can enter its next section. -/
theorem C58_no_deadlock {prog : Prog ι σ τ L} (c : Conf ι σ τ L) :
    (∀ t l i w m, c.thr t = .ins l i w m → ∃ c' l', Steps prog c c' ∧ c'.thr t = .out l' ∧ ∀ t', t' ≠ t → c'.thr t' = c.thr t') ∧
    ((∀ t i w, ¬ Holds c t i w) → ∀ t l s, c.thr t = .out l → prog t l = some s →
      ∃ c', Step prog c none c' ∧ c'.thr t = .ins l s.lock s.write s.body) := by
  constructor
  · intro t l i w m
    induction m generalizing c with
    | ret a => exact fun ht => ⟨_, a, .step (.leave ht) .refl, by simp, fun t' hne => by simp [Function.update_of_ne hne]⟩
    | read j k ih =>
      intro ht
      obtain ⟨c', l', h1, h2, h3⟩ := ih (c.obj j) { c with thr := Function.update c.thr t (.ins l i w (k (c.obj j))) } (by simp)
      exact ⟨c', l', .step (.read ht) h1, h2, fun t' hne => by rw [h3 t' hne]; simp [Function.update_of_ne hne]⟩
    | upd j f k ih =>
      intro ht
      obtain ⟨c', l', h1, h2, h3⟩ := ih { obj := Function.update c.obj j (f (c.obj j)), thr := Function.update c.thr t (.ins l i w k) } (by simp)
      exact ⟨c', l', .step (.upd ht) h1, h2, fun t' hne => by rw [h3 t' hne]; simp [Function.update_of_ne hne]⟩
  · intro hno t l s ht hp
    exact ⟨_, .enter ht hp fun t' w' h => absurd h (hno _ _ _), by simp⟩

/-- Inside a section and with the lock held, a goroutine can run to the end of the body. -/
theorem run_body {prog : Prog ι σ τ L} {o : ι → σ} {l : τ → L} {log : List τ} {t : τ} {l0 : L} {i : ι} {w : Bool} :
    ∀ (m : Micro ι σ L) (c : Conf ι σ τ L), c.thr t = .ins l0 i w m → Run prog o l log c →
    Run prog o l (log ++ [t]) { obj := (m.run c.obj).1, thr := Function.update c.thr t (.out (m.run c.obj).2) } := by
  intro m
  induction m with
  | ret a => intro c ht h; exact h.left (.leave ht)
  | read j k ih =>
    intro c ht h
    have := ih (c.obj j) { c with thr := Function.update c.thr t (.ins l0 i w (k (c.obj j))) } (by simp) (h.silent (.read ht))
    simpa [Micro.run] using this
  | upd j f k ih =>
    intro c ht h
    have := ih { obj := Function.update c.obj j (f (c.obj j)), thr := Function.update c.thr t (.ins l0 i w k) } (by simp) (h.silent (.upd ht))
    simpa [Micro.run] using this

theorem astep_run {prog : Prog ι σ τ L} {o : ι → σ} {l : τ → L} {log : List τ} {t : τ} {a a' : AConf ι σ τ L}
    (h : Run prog o l log { obj := a.obj, thr := fun t => .out (a.loc t) }) (e : astep prog t a = some a') :
    Run prog o l (log ++ [t]) { obj := a'.obj, thr := fun t => .out (a'.loc t) } := by
  simp only [astep] at e
  cases hp : prog t (a.loc t) with
  | none => simp [hp] at e
  | some s =>
    simp only [hp, Option.some.injEq] at e
    subst e
    have h1 := h.silent (.enter (t := t) rfl hp (by rintro t w ⟨l, m, h⟩; cases h))
    have h2 := run_body (t := t) (l0 := a.loc t) (i := s.lock) (w := s.write) s.body _ (by simp) h1
    have : (fun t' => TState.out (ι := ι) (σ := σ) (Function.update a.loc t (s.body.run a.obj).2 t')) =
        Function.update (Function.update (fun t => .out (a.loc t)) t (.ins (a.loc t) s.lock s.write s.body)) t (.out (s.body.run a.obj).2) := by
      funext t'
      by_cases ht : t' = t
      · subst ht; simp
      · simp [Function.update_of_ne ht]
    rw [this]
    exact h2

/-- The other direction of `C58_sections_atomic`: every sequential execution is a concurrent one. -/
theorem exec_run {prog : Prog ι σ τ L} {o : ι → σ} {l : τ → L} {log : List τ} {a : AConf ι σ τ L}
    (e : exec prog log { obj := o, loc := l } = some a) : Run prog o l log { obj := a.obj, thr := fun t => .out (a.loc t) } := by
  have key : ∀ (ts pre : List τ) (b : AConf ι σ τ L), Run prog o l pre { obj := b.obj, thr := fun t => .out (b.loc t) } →
      exec prog ts b = some a → Run prog o l (pre ++ ts) { obj := a.obj, thr := fun t => .out (a.loc t) } := by
    intro ts
    induction ts with
    | nil => intro pre b h e; cases e; simpa using h
    | cons t ts ih =>
      intro pre b h e
      simp only [exec, Option.bind_eq_some_iff] at e
      obtain ⟨b', e1, e2⟩ := e
      have := ih (pre ++ [t]) b' (astep_run h e1) e2
      simpa using this
  simpa using key log [] _ .init e

end GoSTL.Conc
