import Verif.Conc.Specs
import Verif.Conc.Panics
import Verif.Conc.Serial
import Verif.Skiplist.Crash
/-!
# C89: goroutine-safe skip lists whose comparator panics

The methods of `ds/skiplist/skiplist.go` unlock in a deferred call (87-88, 117-118, 139-140, 160-161, 197-198), so a call whose comparator panics still releases the lock. All comparisons
come before the first write, so here the panics may depend on anything, not only on the keys: each call comes with the state the comparator is in.
-/
namespace GoSTL.Conc
open GoSTL.Algo (CmpFn)
open GoSTL.Skiplist (SM)
variable {ι τ L K V σ : Type} [DecidableEq ι] [DecidableEq τ]

/-- What a goroutine gets from a call: a result, or `none` when the comparator panicked and the goroutine recovered. -/
def skipOutcome {O : Type} : Algo.Out σ (Skiplist.SL K V) O → Res (Option O × Skiplist.SL K V)
  | .done a w _ => .ok (some a, w)
  | .crashed w => .ok (none, w)
  | .panicked => .panic
  | .outOfFuel => .outOfFuel

/-- skiplist.go:86-163, 207-215: one call, with the state the comparator is in. -/
def skipStepP (ask : CmpFn σ K) (op : KeysOp (Skiplist.Op K V × σ)) (w : Skiplist.SL K V) :
    Res (Option (KeysOut (Skiplist.Out V) K) × Skiplist.SL K V) :=
  match op with
  | .call (op, s) => do let (r, w) ← skipOutcome (Skiplist.stepE ask op s w); .ok (r.map .call, w)
  | .keys => do let ks ← Skiplist.Keys w; .ok (some (.keys ks), w)

/-- The locks, as `skipWrites`. -/
def skipWritesP : KeysOp (Skiplist.Op K V × σ) → Bool := keysWrites fun op => skipWrites op.1

/-- One call on a finite map with ordered keys, or a panic without effect, which is possible only when the comparator can panic for the key of the call and a key of
the map. -/
inductive SkipSpecP (cmp : K → K → Int) (ask : CmpFn σ K) :
    KeysOp (Skiplist.Op K V × σ) → List (K × V) → Res (Option (KeysOut (Skiplist.Out V) K) × List (K × V)) → Prop
  | panics {op s m} : Skiplist.Asked ask op m → SkipSpecP cmp ask (.call (op, s)) m (.ok (none, m))
  | call {op s m r m'} : SkipSpec cmp (.call op) m (.ok (r, m')) → SkipSpecP cmp ask (.call (op, s)) m (.ok (some r, m'))
  | keys {m r m'} : SkipSpec cmp .keys m (.ok (r, m')) → SkipSpecP cmp ask .keys m (.ok (some r, m'))

theorem skipP_refines {cmp : K → K → Int} (hc : LawfulCmp cmp) {ask : CmpFn σ K} (ha : ask.Answers cmp) :
    Refines (skipStepP (V := V) ask) (SkipSpecP cmp ask) (Skiplist.Agree cmp) := by
  intro op w m h
  right
  cases op with
  | call x =>
    obtain ⟨op, s⟩ := x
    obtain ⟨w', e, h'⟩ := Skiplist.step_agree hc h op
    obtain ⟨G, hi, hp⟩ := h
    have hs := Skiplist.stepE_holds ha hi op s
    rw [e] at hs
    cases o : Skiplist.stepE ask op s w with
    | done r t s' =>
      rw [o] at hs; cases hs
      exact ⟨_, _, _, by simp only [skipStepP, o, skipOutcome, Res.ok_bind]; rfl, h', .call .call⟩
    | crashed t =>
      rw [o] at hs; obtain ⟨rfl, k, hk, kv, hkv, hq⟩ := hs
      exact ⟨_, _, _, by simp only [skipStepP, o, skipOutcome, Res.ok_bind]; rfl, ⟨G, hi, hp⟩, .panics ⟨k, hk, kv, hp.subset hkv, hq⟩⟩
    | panicked => rw [o] at hs; cases hs
    | outOfFuel => rw [o] at hs; cases hs
  | keys =>
    obtain ⟨L, h1, h2, e, -⟩ := Skiplist.traversal_agree h
    exact ⟨_, w, m, by simp only [skipStepP, e, Res.ok_bind], h, .keys (.keys h1 h2)⟩

/-- **C89** for skip lists. The comparator answers as the order `cmp` or panics, at any call of it. For any number of skip lists with a maximum level from 1 to 64 and goroutines, any clients that
recover from panics, any random draws and any interleaving: the finished calls, made one at a time on finite maps in the order in which the locks were released, give every
goroutine the results it got, where a call may panic only if the comparator can for the call's key and a key of the map, and then has no effect. There is no
data race. -/
theorem C89_skiplist {cmp : K → K → Int} (hc : LawfulCmp cmp) {ask : CmpFn σ K} (ha : ask.Answers cmp) {n : Nat} (h1 : 1 ≤ n) (h2 : n ≤ 64) {w0 : Skiplist.SL K V}
    (hn : Skiplist.New n = .ok w0) (client : Client ι τ L (KeysOp (Skiplist.Op K V × σ)) (Option (KeysOut (Skiplist.Out V) K)))
    (impl : Impl ι skipWritesP (skipStepP ask)) {l : τ → L} {log : List τ} {c : Conf ι (Skiplist.SL K V) τ L}
    (h : Run (client.prog impl) (fun _ => w0) l log c) :
    ∃ p l', SeqRel (SkipSpecP cmp ask) client log (fun _ => []) l p l' ∧
      (∀ t x, c.thr t = .out x → l' t = x) ∧ (∀ t x i w m, c.thr t = .ins x i w m → l' t = x) ∧
      (∀ i, (∀ t, ¬ Holds c t i true) → Skiplist.Agree cmp (c.obj i) (p i)) ∧ ¬ Race c := by
  refine C58_linearizable_rel (skipP_refines hc ha) client impl (fun _ => ?_) h
  obtain ⟨w0', e0, a0⟩ := Skiplist.agree_new (K := K) (V := V) (cmp := cmp) h1 h2
  rw [hn] at e0; cases e0; exact a0

/-! ## Cases that meet the hypotheses -/

/-- A computation that leaves the skip list as it is, also when the comparator panics. -/
def SkipReads {α : Type} (m : SM σ K V α) : Prop := ∀ s w, match m s w with
  | .done _ w' _ => w' = w
  | .crashed w' => w' = w
  | .panicked | .outOfFuel => True

theorem SkipReads.pure {α : Type} (a : α) : SkipReads (Pure.pure a : SM σ K V α) := fun _ _ => rfl

theorem SkipReads.read {α : Type} (r : Skiplist.SL K V → Res α) : SkipReads (SM.read r : SM σ K V α) := by
  intro s w
  rw [SM.read]
  cases r w <;> trivial

theorem SkipReads.cmp (ask : CmpFn σ K) (x y : K) : SkipReads (SM.cmp ask x y : SM σ K V Int) := by
  intro s w
  rw [SM.cmp]
  cases ask s x y with
  | none => rfl
  | some q => rfl

theorem SkipReads.bind {α β : Type} {m : SM σ K V α} {k : α → SM σ K V β} (hm : SkipReads m) (hk : ∀ a, SkipReads (k a)) : SkipReads (m >>= k) := by
  intro s w
  have e : (m >>= k) s w = SM.bind m k s w := rfl
  rw [e, SM.bind]
  have := hm s w
  cases o : m s w with
  | done a w' s' => rw [o] at this; have this : w' = w := this; subst this; exact hk a s' w'
  | crashed w' => rw [o] at this; exact this
  | panicked => trivial
  | outOfFuel => trivial

theorem skipReads_getWalk (ask : CmpFn σ K) (key : K) (i : Nat) : ∀ (n : Nat) (pre : Skiplist.Ref) (o : Option Nat),
    SkipReads (Skiplist.getWalkE (V := V) ask key i n pre o) := by
  intro n
  induction n with
  | zero => intro _ _ s w; trivial
  | succ n ih =>
    intro pre o
    cases o with
    | none => exact .pure _
    | some a =>
      refine .bind (.read _) fun e => .bind (.cmp _ _ _) fun r => ?_
      split
      · exact .pure _
      · split
        · exact .pure _
        · exact .bind (.read _) fun n => ih _ _

theorem skipReads_getLoop (ask : CmpFn σ K) (key : K) : ∀ (n : Nat) (pre : Skiplist.Ref), SkipReads (Skiplist.getLoopE (V := V) ask key n pre) := by
  intro n
  induction n with
  | zero => intro _; exact .pure _
  | succ n ih =>
    intro pre
    refine .bind (.read _) fun nx => .bind (.read _) fun b => .bind (skipReads_getWalk _ _ _ _ _ _) fun r => ?_
    cases r with
    | inl v => exact .pure _
    | inr p => exact ih _

theorem skipP_readers (ask : CmpFn σ K) : ReadersRead skipWritesP (skipStepP (V := V) ask) := by
  intro op s o s' hw h
  cases op with
  | call x =>
    obtain ⟨op, st⟩ := x
    have hr : SkipReads (Skiplist.stepE (V := V) ask op) := by
      cases op with
      | insert => cases hw
      | remove => cases hw
      | get k => exact .bind (.bind (.read _) fun m => skipReads_getLoop _ _ _ _) fun v => .pure _
      | len => exact .bind (.read _) fun v => .pure _
    have := hr st s
    simp only [skipStepP, Res.bind_eq_ok, Res.ok.injEq, Prod.mk.injEq] at h
    obtain ⟨⟨r, w⟩, e, -, rfl⟩ := h
    cases o : Skiplist.stepE ask op st s with
    | done r t s' => rw [o] at this e; cases e; exact this
    | crashed t => rw [o] at this e; cases e; exact this
    | panicked => rw [o] at e; cases e
    | outOfFuel => rw [o] at e; cases e
  | keys =>
    simp only [skipStepP, Res.bind_eq_ok, Res.ok.injEq, Prod.mk.injEq] at h
    obtain ⟨x, -, -, h⟩ := h; exact h.symm

/-- `C89_skiplist` on an execution of two goroutines: 1 inserts 5 and asks for it, 0 inserts 3, where the comparator panics (its state is 0), and then asks for the keys. -/
example : ∃ w0, Skiplist.New 2 = .ok w0 ∧ ∃ c, Run ((scripted (two (.call (.insert (3 : Int) (30 : Int) 0, 0)) .keys (.call (.insert 5 50 0, 9)) (.call (.get 5, 9)))).prog
      (Impl.whole (skipP_readers Skiplist.fuse))) (fun _ => w0) (fun _ => (0, [])) [1, 0, 1, 0] c ∧ ¬ Race c := by
  have h0 : ∃ w0 : Skiplist.SL Int Int, Skiplist.New 2 = .ok w0 := ⟨_, rfl⟩
  obtain ⟨w0, e⟩ := h0
  obtain ⟨c, h⟩ := script_run (Impl.whole (skipP_readers Skiplist.fuse))
    (two (.call (.insert (3 : Int) (30 : Int) 0, 0)) .keys (.call (.insert 5 50 0, 9)) (.call (.get 5, 9))) (fun _ => w0) [1, 0, 1, 0] rfl
  obtain ⟨-, -, -, -, -, -, hr⟩ := C89_skiplist Skiplist.subCmp_lawful Skiplist.fuse_answers (by decide) (by decide) e _ _ h
  exact ⟨w0, e, c, h, hr⟩

/-- What the calls of that execution get: the insertion of 3 panics after that of 5. -/
example : skipStepP Skiplist.fuse (.call (.insert 3 30 0, 0)) (⟨[⟨5, 50, [none, none]⟩], [some 0, some 0], 2, 1⟩ : Skiplist.SL Int Int) =
    .ok (none, ⟨[⟨5, 50, [none, none]⟩], [some 0, some 0], 2, 1⟩) := rfl

end GoSTL.Conc
