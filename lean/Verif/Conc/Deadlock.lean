import Verif.Conc.Instances
import Mathlib.Data.DFinsupp.WellFounded
/-!
# C64: locks, waiting and deadlock

`Conc/Model` takes a whole method as one critical section. Here acquiring and releasing a lock are statements of their own, so that code can hold
several locks or ask for the same lock twice, as a visitor does that calls the container it is traversing. `sync.RWMutex` is modelled in more detail: a
goroutine that calls `Lock` first announces itself (it becomes the waiting writer, if there is no other), from then on `RLock` blocks, and it gets the
lock when no goroutine holds it; see the documentation of `sync.RWMutex`: "If any goroutine calls RWMutex.Lock while the lock is already held by one or
more readers, concurrent calls to RWMutex.RLock will block until the writer has acquired (and released) the lock".
-/
namespace GoSTL.Conc

/-- The code of a goroutine: reads and updates of objects, `Lock`/`RLock` (`acq i true`/`acq i false`) and `Unlock`/`RUnlock` (`rel`). -/
inductive Code (ι σ : Type) where
  | done
  | read (i : ι) (k : σ → Code ι σ)
  | upd (i : ι) (f : σ → σ) (k : Code ι σ)
  | acq (i : ι) (w : Bool) (k : Code ι σ)
  | rel (i : ι) (w : Bool) (k : Code ι σ)

/-- `sync.RWMutex`: how often each goroutine holds it for reading, who holds it for writing, and who waits for writing. -/
structure RW (τ : Type) where
  readers : τ → Nat
  writer : Option τ
  waiting : Option τ

/-- A configuration: the objects, their locks (Go's `sync.RWMutex`), and what is left to run of every goroutine. -/
structure DConf (ι σ τ : Type) where
  obj : ι → σ
  lck : ι → RW τ
  thr : τ → Code ι σ

variable {ι σ τ L S Op Out : Type} [DecidableEq ι] [DecidableEq τ]

/-- One step of one goroutine. -/
inductive DStep : DConf ι σ τ → DConf ι σ τ → Prop
  | read {c : DConf ι σ τ} {t i k} : c.thr t = .read i k → DStep c { c with thr := Function.update c.thr t (k (c.obj i)) }
  | upd {c : DConf ι σ τ} {t i f k} : c.thr t = .upd i f k →
      DStep c { c with obj := Function.update c.obj i (f (c.obj i)), thr := Function.update c.thr t k }
  /-- `RLock`: nobody holds the lock for writing or waits for it. -/
  | rlock {c : DConf ι σ τ} {t i k} : c.thr t = .acq i false k → (c.lck i).writer = none → (c.lck i).waiting = none →
      DStep c { c with lck := Function.update c.lck i { c.lck i with readers := Function.update (c.lck i).readers t ((c.lck i).readers t + 1) },
                       thr := Function.update c.thr t k }
  /-- `Lock`, first half: announce. -/
  | wait {c : DConf ι σ τ} {t i k} : c.thr t = .acq i true k → (c.lck i).waiting = none →
      DStep c { c with lck := Function.update c.lck i { c.lck i with waiting := some t } }
  /-- `Lock`, second half: get the lock when nobody holds it. -/
  | lock {c : DConf ι σ τ} {t i k} : c.thr t = .acq i true k → (c.lck i).waiting = some t → (c.lck i).writer = none → (∀ u, (c.lck i).readers u = 0) →
      DStep c { c with lck := Function.update c.lck i { c.lck i with writer := some t, waiting := none }, thr := Function.update c.thr t k }
  | runlock {c : DConf ι σ τ} {t i k} : c.thr t = .rel i false k → 0 < (c.lck i).readers t →
      DStep c { c with lck := Function.update c.lck i { c.lck i with readers := Function.update (c.lck i).readers t ((c.lck i).readers t - 1) },
                       thr := Function.update c.thr t k }
  | unlock {c : DConf ι σ τ} {t i k} : c.thr t = .rel i true k → (c.lck i).writer = some t →
      DStep c { c with lck := Function.update c.lck i { c.lck i with writer := none }, thr := Function.update c.thr t k }

/-- Any number of steps. -/
inductive DSteps : DConf ι σ τ → DConf ι σ τ → Prop
  | refl (c : DConf ι σ τ) : DSteps c c
  | step {c c' c'' : DConf ι σ τ} : DSteps c c' → DStep c' c'' → DSteps c c''

/-- Goroutines about to run `code` on the objects `o`, all locks free. -/
def dstart (o : ι → σ) (code : τ → Code ι σ) : DConf ι σ τ :=
  { obj := o, lck := fun _ => ⟨fun _ => 0, none, none⟩, thr := code }

/-! ## One lock at a time -/

/-- The code, started while holding `h` (a lock, for writing or not; or none), holds at most one lock at a time, releases what it holds the way it was
acquired, and ends holding nothing. -/
def OneLock : Option (ι × Bool) → Code ι σ → Prop
  | h, .done => h = none
  | h, .read _ k => ∀ s, OneLock h (k s)
  | h, .upd _ _ k => OneLock h k
  | h, .acq i w k => h = none ∧ OneLock (some (i, w)) k
  | h, .rel i w k => h = some (i, w) ∧ OneLock none k

/-- What each goroutine holds, and that the locks know it. -/
structure DInv (held : τ → Option (ι × Bool)) (c : DConf ι σ τ) : Prop where
  code : ∀ t, OneLock (held t) (c.thr t)
  readers : ∀ i t, (c.lck i).readers t = if held t = some (i, false) then 1 else 0
  writer : ∀ i t, (c.lck i).writer = some t ↔ held t = some (i, true)
  waiting : ∀ i t, (c.lck i).waiting = some t → ∃ k, c.thr t = .acq i true k

theorem upd_apply {α β : Type} [DecidableEq α] (f : α → β) (a b : α) (v : β) : Function.update f a v b = if b = a then v else f b := by
  simp [Function.update_apply]

theorem dinv_start (o : ι → σ) (code : τ → Code ι σ) (h : ∀ t, OneLock none (code t)) : DInv (fun _ => none) (dstart o code) where
  code := h
  readers i t := by simp [dstart]
  writer i t := by simp [dstart]
  waiting i t e := by simp [dstart] at e

theorem dinv_step {held : τ → Option (ι × Bool)} {c c' : DConf ι σ τ} (h : DInv held c) (s : DStep c c') : ∃ held', DInv held' c' := by
  cases s with
  | @read t i k e =>
    refine ⟨held, fun u => ?_, h.readers, h.writer, fun j u hu => ?_⟩
    · have := h.code t; rw [e] at this
      simp only [upd_apply]; split
      · next q => subst q; exact this _
      · exact h.code u
    · obtain ⟨k', hk⟩ := h.waiting j u hu
      refine ⟨k', ?_⟩
      simp only [upd_apply]; split
      · next q => subst q; rw [e] at hk; cases hk
      · exact hk
  | @upd t i f k e =>
    refine ⟨held, fun u => ?_, h.readers, h.writer, fun j u hu => ?_⟩
    · have := h.code t; rw [e] at this
      simp only [upd_apply]; split
      · next q => subst q; exact this
      · exact h.code u
    · obtain ⟨k', hk⟩ := h.waiting j u hu
      refine ⟨k', ?_⟩
      simp only [upd_apply]; split
      · next q => subst q; rw [e] at hk; cases hk
      · exact hk
  | @rlock t i k e hw hq =>
    have ht := h.code t; rw [e] at ht
    obtain ⟨h0, h1⟩ := ht
    refine ⟨Function.update held t (some (i, false)), fun u => ?_, fun j u => ?_, fun j u => ?_, fun j u hu => ?_⟩
    · simp only [upd_apply]; split
      · next q => subst q; exact h1
      · exact h.code u
    · have a := h.readers j u
      simp only [upd_apply]
      by_cases q : j = i
      · subst q
        simp only [if_true, upd_apply]
        by_cases q : u = t
        · subst q; simp [h.readers, h0]
        · simp [q, a]
      · simp only [q, if_false]
        by_cases q' : u = t
        · subst q'; simp [a, h0, Ne.symm q]
        · simp [q', a]
    · have a := h.writer j u
      simp only [upd_apply]
      by_cases q : u = t
      · subst q
        have : (c.lck j).writer ≠ some u := by rw [Ne, a, h0]; simp
        by_cases q : j = i <;> simp [q]
        · subst q; exact this
        · exact this
      · by_cases q' : j = i
        · subst q'; simp [q, a]
        · simp [q, q', a]
    · have hu' : (c.lck j).waiting = some u := by
        simp only [upd_apply] at hu
        by_cases q : j = i
        · subst q; simpa using hu
        · simpa [q] using hu
      obtain ⟨k', hk⟩ := h.waiting j u hu'
      refine ⟨k', ?_⟩
      simp only [upd_apply]; split
      · next q => subst q; rw [e] at hk; cases hk
      · exact hk
  | @wait t i k e hq =>
    refine ⟨held, h.code, fun j u => ?_, fun j u => ?_, fun j u hu => ?_⟩
    · simp only [upd_apply]
      by_cases q : j = i
      · subst q; simp [h.readers]
      · simp [q, h.readers]
    · simp only [upd_apply]
      by_cases q : j = i
      · subst q; simp [h.writer]
      · simp [q, h.writer]
    · simp only [upd_apply] at hu
      by_cases q : j = i
      · subst q
        simp at hu
        subst hu; exact ⟨k, e⟩
      · simp [q] at hu
        exact h.waiting j u hu
  | @lock t i k e hq hw hr =>
    have ht := h.code t; rw [e] at ht
    obtain ⟨h0, h1⟩ := ht
    refine ⟨Function.update held t (some (i, true)), fun u => ?_, fun j u => ?_, fun j u => ?_, fun j u hu => ?_⟩
    · simp only [upd_apply]; split
      · next q => subst q; exact h1
      · exact h.code u
    · have a := h.readers j u
      simp only [upd_apply]
      by_cases q : u = t
      · subst q
        rw [h0] at a
        by_cases q : j = i <;> simp [q]
        · subst q; simpa using a
        · simpa using a
      · by_cases q' : j = i
        · subst q'; simp [q, a]
        · simp [q, q', a]
    · have a := h.writer j u
      simp only [upd_apply]
      by_cases q' : j = i
      · subst q'
        by_cases q : u = t
        · subst q; simp
        · rw [hw] at a
          simp [q, Ne.symm q]
          intro hh; exact absurd (a.2 hh) (by simp)
      · by_cases q : u = t
        · subst q
          rw [h0] at a
          simp [q', Ne.symm q', a]
        · simp [q, q', a]
    · simp only [upd_apply] at hu
      by_cases q : j = i
      · subst q; simp at hu
      · simp [q] at hu
        obtain ⟨k', hk⟩ := h.waiting j u hu
        refine ⟨k', ?_⟩
        simp only [upd_apply]; split
        · next q2 => subst q2; rw [e] at hk; cases hk; exact absurd rfl q
        · exact hk
  | @runlock t i k e hr =>
    have ht := h.code t; rw [e] at ht
    obtain ⟨h0, h1⟩ := ht
    refine ⟨Function.update held t none, fun u => ?_, fun j u => ?_, fun j u => ?_, fun j u hu => ?_⟩
    · simp only [upd_apply]; split
      · next q => subst q; exact h1
      · exact h.code u
    · have a := h.readers j u
      simp only [upd_apply]
      by_cases q : u = t
      · subst q
        rw [h0] at a
        by_cases q : j = i
        · subst q; simp [a]
        · simp [q, a, Ne.symm q]
      · by_cases q' : j = i
        · subst q'; simp [q, a]
        · simp [q, q', a]
    · have a := h.writer j u
      simp only [upd_apply]
      by_cases q : u = t
      · subst q
        rw [h0] at a
        have : (c.lck j).writer ≠ some u := by rw [Ne, a]; simp
        by_cases q : j = i
        · subst q; simp [this]
        · simp [q, this]
      · by_cases q' : j = i
        · subst q'; simp [q, a]
        · simp [q, q', a]
    · have hu' : (c.lck j).waiting = some u := by
        simp only [upd_apply] at hu
        by_cases q : j = i
        · subst q; simpa using hu
        · simpa [q] using hu
      obtain ⟨k', hk⟩ := h.waiting j u hu'
      refine ⟨k', ?_⟩
      simp only [upd_apply]; split
      · next q => subst q; rw [e] at hk; cases hk
      · exact hk
  | @unlock t i k e hw =>
    have ht := h.code t; rw [e] at ht
    obtain ⟨h0, h1⟩ := ht
    refine ⟨Function.update held t none, fun u => ?_, fun j u => ?_, fun j u => ?_, fun j u hu => ?_⟩
    · simp only [upd_apply]; split
      · next q => subst q; exact h1
      · exact h.code u
    · have a := h.readers j u
      simp only [upd_apply]
      by_cases q : u = t
      · subst q
        rw [h0] at a
        by_cases q : j = i
        · subst q; simp at a; simp [a]
        · simp at a; simp [q, a]
      · by_cases q' : j = i
        · subst q'; simp [q, a]
        · simp [q, q', a]
    · have a := h.writer j u
      simp only [upd_apply]
      by_cases q : u = t
      · subst q
        rw [h0] at a
        by_cases q : j = i
        · subst q; simp
        · have : (c.lck j).writer ≠ some u := by rw [Ne, a]; simp [Ne.symm q]
          simp [q, this]
      · by_cases q' : j = i
        · subst q'
          rw [hw] at a
          simp [q]
          intro hh; exact q (Option.some.inj (a.2 hh)).symm
        · simp [q, q', a]
    · have hu' : (c.lck j).waiting = some u := by
        simp only [upd_apply] at hu
        by_cases q : j = i
        · subst q; simpa using hu
        · simpa [q] using hu
      obtain ⟨k', hk⟩ := h.waiting j u hu'
      refine ⟨k', ?_⟩
      simp only [upd_apply]; split
      · next q => subst q; rw [e] at hk; cases hk
      · exact hk

theorem dinv_progress {held : τ → Option (ι × Bool)} {c : DConf ι σ τ} (h : DInv held c) {t : τ} (ht : c.thr t ≠ .done) : ∃ c', DStep c c' := by
  by_cases hh : ∃ u x, held u = some x
  · obtain ⟨u, ⟨i, w⟩, hu⟩ := hh
    have hc := h.code u
    rw [hu] at hc
    cases e : c.thr u with
    | done => rw [e] at hc; cases hc
    | read j k => exact ⟨_, .read e⟩
    | upd j f k => exact ⟨_, .upd e⟩
    | acq j w' k => rw [e] at hc; cases hc.1
    | rel j w' k =>
      rw [e] at hc
      obtain ⟨h1, -⟩ := hc
      cases h1
      cases w with
      | false => exact ⟨_, .runlock e (by rw [h.readers, if_pos hu]; omega)⟩
      | true => exact ⟨_, .unlock e ((h.writer i u).2 hu)⟩
  · have hn : ∀ u, held u = none := by
      intro u
      cases e : held u with
      | none => rfl
      | some x => exact absurd ⟨u, x, e⟩ hh
    have hr : ∀ i u, (c.lck i).readers u = 0 := fun i u => by rw [h.readers, hn]; simp
    have hw : ∀ i, (c.lck i).writer = none := by
      intro i
      cases e : (c.lck i).writer with
      | none => rfl
      | some u => have := (h.writer i u).1 e; rw [hn] at this; cases this
    cases e : c.thr t with
    | done => exact absurd e ht
    | read j k => exact ⟨_, .read e⟩
    | upd j f k => exact ⟨_, .upd e⟩
    | acq j w k =>
      cases hq : (c.lck j).waiting with
      | some u =>
        obtain ⟨k', hk⟩ := h.waiting j u hq
        exact ⟨_, .lock hk hq (hw j) (hr j)⟩
      | none =>
        cases w with
        | false => exact ⟨_, .rlock e (hw j) hq⟩
        | true => exact ⟨_, .wait e hq⟩
    | rel j w k =>
      have := h.code t
      rw [e, hn] at this
      cases this.1

theorem dsteps_inv {held : τ → Option (ι × Bool)} {c c' : DConf ι σ τ} (h : DInv held c) (s : DSteps c c') : ∃ held', DInv held' c' := by
  induction s with
  | refl => exact ⟨held, h⟩
  | step _ s ih => obtain ⟨_, ih⟩ := ih; exact dinv_step ih s

/-- **C64** No deadlock: while goroutines use goroutine-safe containers only through calls that take one lock at a time, there is, in every state they can
reach, as long as one of them is not finished, one that can go on. Any number of goroutines and containers, any interleaving, with writers waiting. -/
theorem C64_no_deadlock_partial {o : ι → σ} {code : τ → Code ι σ} (h : ∀ t, OneLock none (code t)) {c : DConf ι σ τ} (s : DSteps (dstart o code) c)
    {t : τ} (ht : c.thr t ≠ .done) : ∃ c', DStep c c' := by
  obtain ⟨held, hi⟩ := dsteps_inv (dinv_start o code h) s
  exact dinv_progress hi ht

/-! ## Every execution ends -/

/-- What is left after one step of the code. -/
inductive Code.Sub : Code ι σ → Code ι σ → Prop
  | read {i k} (s : σ) : Sub (k s) (.read i k)
  | upd {i f k} : Sub k (.upd i f k)
  | acq {i w k} : Sub k (.acq i w k)
  | rel {i w k} : Sub k (.rel i w k)

theorem Code.sub_wf : WellFounded (Code.Sub : Code ι σ → Code ι σ → Prop) := by
  constructor
  intro c
  induction c with
  | done => exact ⟨_, fun _ h => by cases h⟩
  | read i k ih => exact ⟨_, fun _ h => by cases h; exact ih _⟩
  | upd i f k ih => exact ⟨_, fun _ h => by cases h; exact ih⟩
  | acq i w k ih => exact ⟨_, fun _ h => by cases h; exact ih⟩
  | rel i w k ih => exact ⟨_, fun _ h => by cases h; exact ih⟩

open Classical in
/-- What a goroutine still has to do: its code, and whether it has yet to announce itself. -/
noncomputable def todo (c : DConf ι σ τ) (t : τ) : Code ι σ × Nat := (c.thr t, if ∃ i, (c.lck i).waiting = some t then 0 else 1)

theorem todo_congr {c c' : DConf ι σ τ} {u : τ} (h1 : c'.thr u = c.thr u)
    (h2 : (∃ j, (c'.lck j).waiting = some u) ↔ ∃ j, (c.lck j).waiting = some u) : todo c' u = todo c u := by
  classical exact Prod.ext h1 (if_congr h2 rfl rfl)

theorem todo_step {held : τ → Option (ι × Bool)} {c c' : DConf ι σ τ} (h : DInv held c) (s : DStep c c') :
    ∃ t, Prod.Lex Code.Sub (· < ·) (todo c' t) (todo c t) ∧ ∀ u, u ≠ t → todo c' u = todo c u := by
  have wsame : ∀ (i : ι) (r : RW τ) (t : τ), r.waiting = (c.lck i).waiting →
      ((∃ j, (Function.update c.lck i r j).waiting = some t) ↔ ∃ j, (c.lck j).waiting = some t) := by
    intro i r t hr
    refine exists_congr fun j => ?_
    simp only [upd_apply]
    by_cases q : j = i
    · subst q; simp [hr]
    · simp [q]
  cases s with
  | @read t i k e =>
    refine ⟨t, ?_, fun u hu => by simp [todo, upd_apply, hu]⟩
    apply Prod.Lex.left
    simp only [e, Function.update_self]; exact .read _
  | @upd t i f k e =>
    refine ⟨t, ?_, fun u hu => by simp [todo, upd_apply, hu]⟩
    apply Prod.Lex.left
    simp only [e, Function.update_self]; exact .upd
  | @rlock t i k e hw hq =>
    refine ⟨t, ?_, fun u hu => todo_congr (Function.update_of_ne hu _ _) (wsame _ _ _ rfl)⟩
    apply Prod.Lex.left
    simp only [e, Function.update_self]; exact .acq
  | @wait t i k e hq =>
    refine ⟨t, ?_, fun u hu => ?_⟩
    · have h1 : ∃ j, (Function.update c.lck i { c.lck i with waiting := some t } j).waiting = some t := ⟨i, by simp⟩
      have h2 : ¬ ∃ j, (c.lck j).waiting = some t := by
        rintro ⟨j, hj⟩
        obtain ⟨k', hk⟩ := h.waiting j t hj
        rw [e] at hk; cases hk
        rw [hq] at hj; cases hj
      simp only [todo, if_pos h1, if_neg h2]
      exact Prod.Lex.right _ (by omega)
    · have : (∃ j, (Function.update c.lck i { c.lck i with waiting := some t } j).waiting = some u) ↔ ∃ j, (c.lck j).waiting = some u := by
        refine exists_congr fun j => ?_
        simp only [upd_apply]
        by_cases q : j = i
        · subst q; simp [hq, Ne.symm hu]
        · simp [q]
      exact todo_congr rfl this
  | @lock t i k e hq hw hr =>
    refine ⟨t, ?_, fun u hu => ?_⟩
    · apply Prod.Lex.left
      simp only [e, Function.update_self]; exact .acq
    · have : (∃ j, (Function.update c.lck i { c.lck i with writer := some t, waiting := none } j).waiting = some u) ↔ ∃ j, (c.lck j).waiting = some u := by
        refine exists_congr fun j => ?_
        simp only [upd_apply]
        by_cases q : j = i
        · subst q; simp [hq, Ne.symm hu]
        · simp [q]
      exact todo_congr (Function.update_of_ne hu _ _) this
  | @runlock t i k e hr =>
    refine ⟨t, ?_, fun u hu => todo_congr (Function.update_of_ne hu _ _) (wsame _ _ _ rfl)⟩
    apply Prod.Lex.left
    simp only [e, Function.update_self]; exact .rel
  | @unlock t i k e hw =>
    refine ⟨t, ?_, fun u hu => todo_congr (Function.update_of_ne hu _ _) (wsame _ _ _ rfl)⟩
    apply Prod.Lex.left
    simp only [e, Function.update_self]; exact .rel

/-- **C64** Every execution of finitely many goroutines ends; by `C64_no_deadlock_partial` it ends with all goroutines finished. -/
theorem C64_every_execution_ends_partial [Finite τ] {o : ι → σ} {code : τ → Code ι σ} (h : ∀ t, OneLock none (code t)) :
    ¬ ∃ f : Nat → DConf ι σ τ, f 0 = dstart o code ∧ ∀ n, DStep (f n) (f (n + 1)) := by
  rintro ⟨f, h0, hs⟩
  have hi : ∀ n, ∃ held, DInv held (f n) := by
    intro n
    induction n with
    | zero => rw [h0]; exact ⟨_, dinv_start o code h⟩
    | succ n ih => obtain ⟨_, ih⟩ := ih; exact dinv_step ih (hs n)
  have wf : WellFounded (Pi.Lex (WellOrderingRel : τ → τ → Prop) (fun {_} => Prod.Lex (Code.Sub : Code ι σ → Code ι σ → Prop) (· < · : Nat → Nat → Prop))) :=
    Pi.Lex.wellFounded _ fun _ => WellFounded.prod_lex Code.sub_wf Nat.lt_wfRel.wf
  have hd : ∀ n, Pi.Lex (WellOrderingRel : τ → τ → Prop) (fun {_} => Prod.Lex (Code.Sub : Code ι σ → Code ι σ → Prop) (· < · : Nat → Nat → Prop))
      (todo (f (n + 1))) (todo (f n)) := by
    intro n
    obtain ⟨_, hi⟩ := hi n
    obtain ⟨t, h1, h2⟩ := todo_step hi (hs n)
    refine ⟨t, fun u hu => h2 u ?_, h1⟩
    rintro rfl
    exact irrefl_of WellOrderingRel _ hu
  have no : ∀ x n, todo (f n) = x → False := by
    intro x
    induction x using wf.induction with
    | _ x ih => intro n hn; exact ih _ (hn ▸ hd n) (n + 1) rfl
  exact no _ 0 rfl

/-! ## The containers -/

/-- The reads and updates of a body, then `k`. -/
def Micro.toCode {α : Type} : Micro ι S α → (α → Code ι S) → Code ι S
  | .ret a, k => k a
  | .read i g, k => .read i fun s => (g s).toCode k
  | .upd i f g, k => .upd i f (g.toCode k)

/-- A method call: `Lock` or `RLock`, the body, the deferred `Unlock` or `RUnlock` (also after a panic), then `k`. -/
def callCode {writes : Op → Bool} {stp : Op → S → Res (Out × S)} (impl : Impl ι writes stp) (i : ι) (op : Op) (k : Res Out → Code ι S) : Code ι S :=
  .acq i (writes op) ((impl.code i op).toCode fun r => .rel i (writes op) (k r))

/-- The first `n` calls of a client. -/
def Client.code {writes : Op → Bool} {stp : Op → S → Res (Out × S)} (client : Client ι τ L Op Out) (impl : Impl ι writes stp) (t : τ) : Nat → L → Code ι S
  | 0, _ => .done
  | n + 1, l => match client t l with
    | none => .done
    | some (i, op, k) => callCode impl i op fun r => client.code impl t n (k r)

theorem oneLock_toCode {α : Type} (h : Option (ι × Bool)) (m : Micro ι S α) (k : α → Code ι S) (hk : ∀ a, OneLock h (k a)) : OneLock h (m.toCode k) := by
  induction m with
  | ret a => exact hk a
  | read i g ih => exact fun s => ih s
  | upd i f g ih => exact ih

theorem oneLock_client {writes : Op → Bool} {stp : Op → S → Res (Out × S)} (client : Client ι τ L Op Out) (impl : Impl ι writes stp) (t : τ) :
    ∀ (n : Nat) (l : L), OneLock none (client.code impl t n l) := by
  intro n
  induction n with
  | zero => intro l; rfl
  | succ n ih =>
    intro l
    unfold Client.code
    cases client t l with
    | none => rfl
    | some x =>
      obtain ⟨i, op, k⟩ := x
      exact ⟨rfl, oneLock_toCode _ _ _ fun r => ⟨rfl, ih _⟩⟩

/-- **C64** for the containers: any number of goroutine-safe containers of one kind, finitely many goroutines, each making any finite number of calls that
depend on the results before (the calls of `C58_map`, `C58_set`, … or any other methods that lock, run their body and unlock). In every reachable state
where a goroutine is not finished some goroutine can go on, and there is no infinite execution: all calls return. -/
theorem C64_containers_partial [Finite τ] {writes : Op → Bool} {stp : Op → S → Res (Out × S)} (client : Client ι τ L Op Out) (impl : Impl ι writes stp)
    (calls : τ → Nat) (l : τ → L) (o : ι → S) :
    (∀ c t, DSteps (dstart o fun t => client.code impl t (calls t) (l t)) c → c.thr t ≠ .done → ∃ c', DStep c c') ∧
    ¬ ∃ f : Nat → DConf ι S τ, f 0 = dstart o (fun t => client.code impl t (calls t) (l t)) ∧ ∀ n, DStep (f n) (f (n + 1)) :=
  ⟨fun _ _ s ht => C64_no_deadlock_partial (fun t => oneLock_client client impl t _ _) s ht, C64_every_execution_ends_partial fun t => oneLock_client client impl t _ _⟩

/-! ## Visitors that call the container they are visiting -/

/-- Code that, holding `i` for reading, asks for `i` for writing before it gives it back. -/
def AsksToWrite (i : ι) : Code ι σ → Prop
  | .done => False
  | .read _ k => ∀ s, AsksToWrite i (k s)
  | .upd _ _ k => AsksToWrite i k
  | .acq j w k => (j = i ∧ w = true) ∨ AsksToWrite i k
  | .rel j _ k => j ≠ i ∧ AsksToWrite i k

theorem asks_step {i : ι} {t : τ} {c c' : DConf ι σ τ} (h1 : 0 < (c.lck i).readers t) (h2 : AsksToWrite i (c.thr t)) (s : DStep c c') :
    0 < (c'.lck i).readers t ∧ AsksToWrite i (c'.thr t) := by
  cases s with
  | @read u j k e =>
    refine ⟨h1, ?_⟩
    simp only [upd_apply]; split
    · next q => subst q; rw [e] at h2; exact h2 _
    · exact h2
  | @upd u j f k e =>
    refine ⟨h1, ?_⟩
    simp only [upd_apply]; split
    · next q => subst q; rw [e] at h2; exact h2
    · exact h2
  | @rlock u j k e hw hq =>
    constructor
    · simp only [upd_apply]
      by_cases q : i = j
      · subst q
        simp only [if_true, upd_apply]; split
        · omega
        · exact h1
      · simp only [q, if_false]; exact h1
    · simp only [upd_apply]; split
      · next q =>
        subst q; rw [e] at h2
        rcases h2 with ⟨-, h2⟩ | h2
        · cases h2
        · exact h2
      · exact h2
  | @wait u j k e hq =>
    refine ⟨?_, h2⟩
    simp only [upd_apply]
    by_cases q : i = j
    · subst q; simpa using h1
    · simp only [q, if_false]; exact h1
  | @lock u j k e hq hw hr =>
    have hj : i ≠ j := by rintro rfl; have := hr t; omega
    refine ⟨by simp only [upd_apply, hj, if_false]; exact h1, ?_⟩
    simp only [upd_apply]; split
    · next q =>
      subst q; rw [e] at h2
      rcases h2 with ⟨h2, -⟩ | h2
      · exact absurd h2.symm hj
      · exact h2
    · exact h2
  | @runlock u j k e hr =>
    by_cases q : u = t
    · subst q
      rw [e] at h2
      obtain ⟨h3, h2⟩ := h2
      exact ⟨by simp only [upd_apply, Ne.symm h3, if_false]; exact h1, by simpa [upd_apply] using h2⟩
    · constructor
      · simp only [upd_apply]
        by_cases q' : i = j
        · subst q'
          simp only [if_true, upd_apply, Ne.symm q, if_false]; exact h1
        · simp only [q', if_false]; exact h1
      · simp only [upd_apply, Ne.symm q, if_false]; exact h2
  | @unlock u j k e hw =>
    constructor
    · simp only [upd_apply]
      by_cases q : i = j
      · subst q; simpa using h1
      · simp only [q, if_false]; exact h1
    · simp only [upd_apply]; split
      · next q => subst q; rw [e] at h2; exact h2.2
      · exact h2

/-- **C64 is false of visitors that change the container**: a goroutine that, while it holds the container's lock for reading (in `Traversal`), calls a
method that takes `Lock` never finishes, in any execution, whatever the other goroutines do. -/
theorem C64_visitor_write_blocks {i : ι} {t : τ} {o : ι → σ} {code : τ → Code ι σ} {k : Code ι σ} (ht : code t = .acq i false k)
    (hk : AsksToWrite i k) {c : DConf ι σ τ} (s : DSteps (dstart o code) c) : c.thr t ≠ .done := by
  have key : c.thr t = .acq i false k ∨ (0 < (c.lck i).readers t ∧ AsksToWrite i (c.thr t)) := by
    induction s with
    | refl => exact .inl ht
    | step _ s ih =>
      rcases ih with ih | ⟨h1, h2⟩
      · cases s with
        | @rlock u j k' e hw hq =>
          by_cases q : u = t
          · subst q; rw [ih] at e; cases e
            right; simp only [Function.update_self]; exact ⟨by omega, hk⟩
          · left; simp only [upd_apply, Ne.symm q, if_false]; exact ih
        | @wait u j k' e hq => exact .inl ih
        | @read u j k' e => left; simp only [upd_apply]; split <;> [(next q => subst q; rw [ih] at e; cases e); exact ih]
        | @upd u j f k' e => left; simp only [upd_apply]; split <;> [(next q => subst q; rw [ih] at e; cases e); exact ih]
        | @lock u j k' e hq hw hr => left; simp only [upd_apply]; split <;> [(next q => subst q; rw [ih] at e; cases e); exact ih]
        | @runlock u j k' e hr => left; simp only [upd_apply]; split <;> [(next q => subst q; rw [ih] at e; cases e); exact ih]
        | @unlock u j k' e hw => left; simp only [upd_apply]; split <;> [(next q => subst q; rw [ih] at e; cases e); exact ih]
      · exact .inr (asks_step h1 h2 s)
  intro hd
  rcases key with h | ⟨-, h⟩ <;> rw [hd] at h <;> cases h

/-- A goroutine at its second `RLock` of a lock for which another one waits to write: both are blocked for good. -/
theorem blocked_step {i : ι} {t u : τ} {kt ku : Code ι σ} {c c' : DConf ι σ τ} (h1 : 0 < (c.lck i).readers t) (h2 : c.thr t = .acq i false kt)
    (h3 : (c.lck i).waiting = some u) (h4 : c.thr u = .acq i true ku) (s : DStep c c') :
    0 < (c'.lck i).readers t ∧ c'.thr t = .acq i false kt ∧ (c'.lck i).waiting = some u ∧ c'.thr u = .acq i true ku := by
  have other : ∀ {v : τ} {x : Code ι σ}, v ≠ t → v ≠ u → Function.update c.thr v x t = .acq i false kt ∧ Function.update c.thr v x u = .acq i true ku :=
    fun a b => ⟨by rw [Function.update_of_ne (Ne.symm a)]; exact h2, by rw [Function.update_of_ne (Ne.symm b)]; exact h4⟩
  cases s with
  | @read v j k e =>
    have := other (v := v) (x := k (c.obj j)) (by rintro rfl; rw [h2] at e; cases e) (by rintro rfl; rw [h4] at e; cases e)
    exact ⟨h1, this.1, h3, this.2⟩
  | @upd v j f k e =>
    have := other (v := v) (x := k) (by rintro rfl; rw [h2] at e; cases e) (by rintro rfl; rw [h4] at e; cases e)
    exact ⟨h1, this.1, h3, this.2⟩
  | @rlock v j k e hw hq =>
    have hv : v ≠ t := by rintro rfl; rw [h2] at e; cases e; rw [h3] at hq; cases hq
    have hj : i ≠ j := by rintro rfl; rw [h3] at hq; cases hq
    have := other (v := v) (x := k) hv (by rintro rfl; rw [h4] at e; cases e)
    simp only [upd_apply, hj, if_false] at this ⊢
    exact ⟨h1, this.1, h3, this.2⟩
  | @wait v j k e hq =>
    have hj : i ≠ j := by rintro rfl; rw [h3] at hq; cases hq
    simp only [upd_apply, hj, if_false]
    exact ⟨h1, h2, h3, h4⟩
  | @lock v j k e hq hw hr =>
    have hj : i ≠ j := by rintro rfl; have := hr t; omega
    have := other (v := v) (x := k) (by rintro rfl; rw [h2] at e; cases e) (by rintro rfl; rw [h4] at e; cases e; exact hj rfl)
    simp only [upd_apply, hj, if_false] at this ⊢
    exact ⟨h1, this.1, h3, this.2⟩
  | @runlock v j k e hr =>
    have hv : v ≠ t := by rintro rfl; rw [h2] at e; cases e
    have := other (v := v) (x := k) hv (by rintro rfl; rw [h4] at e; cases e)
    refine ⟨?_, this.1, ?_, this.2⟩
    · simp only [upd_apply]
      by_cases q' : i = j
      · subst q'
        simp only [if_true, upd_apply, Ne.symm hv, if_false]; exact h1
      · simp only [q', if_false]; exact h1
    · simp only [upd_apply]
      by_cases q' : i = j
      · subst q'; simpa using h3
      · simp only [q', if_false]; exact h3
  | @unlock v j k e hw =>
    have hv : v ≠ t := by rintro rfl; rw [h2] at e; cases e
    have := other (v := v) (x := k) hv (by rintro rfl; rw [h4] at e; cases e)
    refine ⟨?_, this.1, ?_, this.2⟩
    · simp only [upd_apply]
      by_cases q' : i = j
      · subst q'; simpa using h1
      · simp only [q', if_false]; exact h1
    · simp only [upd_apply]
      by_cases q' : i = j
      · subst q'; simpa using h3
      · simp only [q', if_false]; exact h3

theorem DSteps.trans {c c' c'' : DConf ι σ τ} (a : DSteps c c') (b : DSteps c' c'') : DSteps c c'' := by
  induction b with
  | refl => exact a
  | step _ s ih => exact ih.step s

/-- A goroutine can run the reads and updates of a body alone. -/
theorem run_toCode {α : Type} {t : τ} (m : Micro ι S α) (k : α → Code ι S) : ∀ (c : DConf ι S τ), c.thr t = m.toCode k →
    ∃ a o', DSteps c { obj := o', lck := c.lck, thr := Function.update c.thr t (k a) } := by
  induction m with
  | ret a =>
    intro c h
    refine ⟨a, c.obj, ?_⟩
    have : Function.update c.thr t (k a) = c.thr := by rw [show k a = c.thr t from h.symm, Function.update_eq_self]
    rw [this]; exact .refl _
  | read i g ih =>
    intro c h
    obtain ⟨a, o', s⟩ := ih (c.obj i) { c with thr := Function.update c.thr t ((g (c.obj i)).toCode k) } (by simp)
    refine ⟨a, o', ?_⟩
    simp only [Function.update_idem] at s
    exact ((DSteps.refl c).step (.read h)).trans s
  | upd i f g ih =>
    intro c h
    obtain ⟨a, o', s⟩ := ih { c with obj := Function.update c.obj i (f (c.obj i)), thr := Function.update c.thr t (g.toCode k) } (by simp)
    refine ⟨a, o', ?_⟩
    simp only [Function.update_idem] at s
    exact ((DSteps.refl c).step (.upd h)).trans s

/-- **C64 is false of visitors that read the container**: let goroutine `t` call a `Traversal` whose visitor calls a method that takes `RLock` of the same
container, and `u` any method that takes `Lock`. There is an execution after which neither ever finishes, whatever happens next and whatever other
goroutines there are. -/
theorem C64_visitor_read_can_block {α : Type} {i : ι} {t u : τ} (htu : t ≠ u) {o : ι → S} {code : τ → Code ι S} {m : Micro ι S α} {kt : α → Code ι S} {ku : Code ι S}
    (ht : code t = .acq i false (m.toCode fun a => .acq i false (kt a))) (hu : code u = .acq i true ku) :
    ∃ c, DSteps (dstart o code) c ∧ ∀ c', DSteps c c' → c'.thr t ≠ .done ∧ c'.thr u ≠ .done := by
  let c1 : DConf ι S τ := { dstart o code with
    lck := Function.update (dstart o code).lck i { (dstart o code).lck i with readers := Function.update ((dstart o code).lck i).readers t (((dstart o code).lck i).readers t + 1) }
    thr := Function.update (dstart o code).thr t (m.toCode fun a => .acq i false (kt a)) }
  have s1 : DSteps (dstart o code) c1 := (DSteps.refl (dstart o code)).step (.rlock (t := t) ht rfl rfl)
  obtain ⟨a, o', s2⟩ := run_toCode (t := t) m (fun a => .acq i false (kt a)) c1 (by simp [c1])
  have s3 := s1.trans s2
  simp only [c1, Function.update_idem] at s3
  have s4 := s3.step (.wait (t := u) (i := i) (k := ku) (by
    show Function.update code t _ u = _
    rw [Function.update_of_ne (Ne.symm htu)]; exact hu) (by simp [dstart]))
  refine ⟨_, s4, fun c' s => ?_⟩
  have key : 0 < (c'.lck i).readers t ∧ c'.thr t = .acq i false (kt a) ∧ (c'.lck i).waiting = some u ∧ c'.thr u = .acq i true ku := by
    induction s with
    | refl =>
      refine ⟨by simp, by simp [dstart], by simp, ?_⟩
      show Function.update code t _ u = _
      rw [Function.update_of_ne (Ne.symm htu)]; exact hu
    | step _ s ih => exact blocked_step ih.1 ih.2.1 ih.2.2.1 ih.2.2.2 s
  rw [key.2.1, key.2.2.2]
  constructor <;> simp

/-! ## Instances -/

/-- A `Traversal` (or any other method that takes `RLock`) during which the visitor calls method `op` of the same container and continues with its result:
`pre` are the reads before the call, `k` is everything after it. set.go:160-169, multiset.go:155-164, map.go:181-189, multimap.go:142-150, hamt.go:314-319,
skiplist.go:196-205 call the visitor while holding `RLock`. -/
def visitingCode {α : Type} {writes : Op → Bool} {stp : Op → S → Res (Out × S)} (impl : Impl ι writes stp) (i : ι) (pre : Micro ι S α) (op : α → Op)
    (k : α → Res Out → Code ι S) : Code ι S :=
  .acq i false (pre.toCode fun a => callCode impl i (op a) (k a))

theorem asks_toCode {α : Type} {i : ι} (m : Micro ι S α) {k : α → Code ι S} (hk : ∀ a, AsksToWrite i (k a)) : AsksToWrite i (m.toCode k) := by
  induction m with
  | ret a => exact hk a
  | read j g ih => exact fun s => ih s
  | upd j f g ih => exact ih

/-- **C64 is false**: for every container, a goroutine whose visitor calls a writing method of the container being visited never finishes. -/
theorem C64_visitor_write_violated {α : Type} {writes : Op → Bool} {stp : Op → S → Res (Out × S)} (impl : Impl ι writes stp) {i : ι} {pre : Micro ι S α}
    {op : α → Op} (hop : ∀ a, writes (op a) = true) {k : α → Res Out → Code ι S} {t : τ} {o : ι → S} {code : τ → Code ι S}
    (ht : code t = visitingCode impl i pre op k) {c : DConf ι S τ} (s : DSteps (dstart o code) c) : c.thr t ≠ .done :=
  C64_visitor_write_blocks ht (asks_toCode _ fun a => .inl ⟨rfl, hop a⟩) s

/-- **C64 is false**: for every container, a goroutine whose visitor calls a reading method of the container being visited, and another one calling any
writing method, can block each other for good. -/
theorem C64_visitor_read_violated {α : Type} {writes : Op → Bool} {stp : Op → S → Res (Out × S)} (impl : Impl ι writes stp) {i : ι} {pre : Micro ι S α}
    {op : α → Op} {op' : Op} (hop : ∀ a, writes (op a) = false) (hop' : writes op' = true) {k : α → Res Out → Code ι S} {k' : Res Out → Code ι S} {t u : τ}
    (htu : t ≠ u) {o : ι → S} {code : τ → Code ι S} (ht : code t = visitingCode impl i pre op k) (hu : code u = callCode impl i op' k') :
    ∃ c, DSteps (dstart o code) c ∧ ∀ c', DSteps c c' → c'.thr t ≠ .done ∧ c'.thr u ≠ .done := by
  refine C64_visitor_read_can_block (i := i) htu (m := pre) (kt := fun a => (impl.code i (op a)).toCode fun r => .rel i false (k a r))
    (ku := (impl.code i op').toCode fun r => .rel i true (k' r)) ?_ ?_
  · rw [ht]
    simp only [visitingCode, callCode, hop]
  · rw [hu]
    simp only [callCode, hop']

/-- A queue of numbers, goroutine 0 pushes, goroutine 1 pops twice: `C64_containers_partial` applies. -/
example : ∀ c t, DSteps (dstart (fun _ : Unit => (Deque.new : Deque.Deq Int)) fun t : Fin 2 =>
      Client.code (fun t n => if t = 0 then some ((), .push n, fun _ => n + 1) else some ((), .pop, fun _ => n))
        (Impl.whole (queue_readers (Adapter.dequeContainer (Deque.goCfg 0)))) t (if t = 0 then 5 else 2) (0 : Int)) c → c.thr t ≠ .done → ∃ c', DStep c c' :=
  (C64_containers_partial _ _ _ _ _).1

/-- A set whose visitor inserts the successor of every element it sees: it never finishes, alone or not. -/
example {τ : Type} [DecidableEq τ] (t : τ) (o : Unit → RB.Tree Int Bool) (code : τ → Code Unit (RB.Tree Int Bool))
    (ht : code t = visitingCode (Impl.whole (set_readers intCmp)) () (.read () fun s => .ret s.size) (fun n => .insert (n + 1)) fun _ _ => .rel () false .done)
    {c : DConf Unit (RB.Tree Int Bool) τ} (s : DSteps (dstart o code) c) : c.thr t ≠ .done :=
  C64_visitor_write_violated _ (fun _ => rfl) ht s

/-- A set whose visitor asks `Contains` and a goroutine that clears the set can block each other. -/
example : ∃ c : DConf Unit (RB.Tree Int Bool) (Fin 2), DSteps (dstart (fun _ => RB.Tree.new) fun t => if t = 0 then
      visitingCode (Impl.whole (set_readers intCmp)) () (.read () fun s => .ret s.size) (fun n => .contains (n + 1)) fun _ _ => .rel () false .done
      else callCode (Impl.whole (set_readers intCmp)) () .clear fun _ => .done) c ∧ ∀ c', DSteps c c' → c'.thr 0 ≠ .done ∧ c'.thr 1 ≠ .done :=
  C64_visitor_read_violated (Impl.whole (set_readers intCmp)) (fun _ => rfl) rfl (by decide) rfl rfl

end GoSTL.Conc
