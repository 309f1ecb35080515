import Verif.Heap.AnyCmp
import Verif.Algo.Crash
/-!
# C88: heaps and priority queues with a comparator that panics, or changes its mind, at any call

The code of `Verif/Heap/Model.lean` with the comparator calls as effects (see `Verif/Algo/CrashModel.lean`); `handle_push` and the like show
that with a comparator that is a function it is that code.
-/
namespace GoSTL.Heap
open GoSTL.Seq GoSTL.Algo
variable {T σ : Type}

/-- priority_queue.go:49-51 `Less`. -/
def lessC (i j : Int) : CProg T Bool := do
  let x ← valueC i
  let y ← valueC j
  let r ← callCmp x y
  pure (decide (r < 0))

/-- heap.go:82-91 `up`, with a step budget. The two elements are exchanged by priority_queue.go:54-56 `Swap`. -/
def upLoopC : Nat → Int → CProg T Unit
  | 0, _ => .outOfFuel
  | f + 1, j => do
    let i := (j - 1).tdiv 2
    if i = j then pure () else do
      let b ← lessC j i
      if !b then pure () else do
        swapC i j
        upLoopC f i

/-- heap.go:100-103: the child of `i` the element is compared with; `j1` is the left one. -/
def childC (n j1 : Int) : CProg T Int :=
  if j1 + 1 < n then do
    let b ← lessC (j1 + 1) j1
    pure (if b then j1 + 1 else j1)
  else pure j1

/-- heap.go:93-111 `down` from position `i`, with a step budget; returns the final position. -/
def downLoopC (n : Int) : Nat → Int → CProg T Int
  | 0, _ => .outOfFuel
  | f + 1, i => do
    let j1 := 2 * i + 1
    if j1 ≥ n ∨ j1 < 0 then pure i else do
      let j ← childC n j1
      let b ← lessC j i
      if !b then pure i else do
        swapC i j
        downLoopC n f j

/-- heap.go:82-91 `up` in a heap of `len` elements. -/
def upC (len : Nat) (j : Int) : CProg T Unit := upLoopC (len + 1) j

/-- heap.go:93-111 `down` in a heap of `len` elements. -/
def downC (len : Nat) (i0 n : Int) : CProg T Bool := do
  let i ← downLoopC n (len + 1) i0
  pure (decide (i > i0))

/-- heap.go:34-40 `Init`: the loop from position `i` down to 0. -/
def initLoopC (len : Nat) (n : Int) : Nat → CProg T Unit
  | 0 => pure ()
  | i + 1 => do
    let _ ← downC len i n
    initLoopC len n i

/-- heap.go:34-40 `Init`. -/
def initC (ask : CmpFn σ T) (s : σ) (h : List T) : Algo.Out σ (List T) Unit :=
  runC listOps ask (initLoopC h.length h.length (h.length / 2)) s h

/-- heap.go:44-47 `Push`: the element is appended, then moved up. -/
def pushC (ask : CmpFn σ T) (s : σ) (h : List T) (x : T) : Algo.Out σ (List T) Unit :=
  let h := h ++ [x]
  runC listOps ask (upC h.length (h.length - 1)) s h

/-- The rest of heap.go:52-57 `Pop` and 61-70 `Remove` after the elements are moved: priority_queue.go:27-34 `ElementHolder.Pop`. -/
def finishPop {α : Type} : Algo.Out σ (List T) α → Algo.Out σ (List T) T
  | .done _ h s =>
    match holderPop h with
    | .ok (x, h) => .done x h s
    | .panic => .panicked
    | .outOfFuel => .outOfFuel
  | .crashed h => .crashed h
  | .panicked => .panicked
  | .outOfFuel => .outOfFuel

/-- heap.go:52-57 `Pop`, the part that moves elements. -/
def popMoves (len : Nat) : CProg T Unit := do
  let n : Int := len - 1
  swapC 0 n
  let _ ← downC len 0 n
  pure ()

/-- heap.go:52-57 `Pop`. -/
def popC (ask : CmpFn σ T) (s : σ) (h : List T) : Algo.Out σ (List T) T := finishPop (runC listOps ask (popMoves h.length) s h)

/-- heap.go:61-70 `Remove`, the part that moves elements. -/
def removeMoves (len : Nat) (i : Int) : CProg T Unit :=
  let n : Int := len - 1
  if n ≠ i then do
    swapC i n
    let b ← downC len i n
    if !b then upC len i else pure ()
  else pure ()

/-- heap.go:61-70 `Remove`. -/
def removeC (ask : CmpFn σ T) (s : σ) (h : List T) (i : Int) : Algo.Out σ (List T) T :=
  finishPop (runC listOps ask (removeMoves h.length i) s h)

/-- heap.go:76-80 `Fix`. -/
def fixC (ask : CmpFn σ T) (s : σ) (h : List T) (i : Int) : Algo.Out σ (List T) Unit :=
  runC listOps ask (do
    let b ← downC h.length i h.length
    if !b then upC h.length i else pure ()) s h

/-! ## With a comparator that is a function this is the code of `Verif/Heap/Model.lean` -/

theorem run_swap_eq (h : List T) (i j : Int) : Seq.run listOps (swapValue i j) h = (swapAt h i j >>= fun h => .ok ((), h)) := by
  by_cases hi : 0 ≤ i ∧ i < h.length
  · by_cases hj : 0 ≤ j ∧ j < h.length
    · rw [run_swapValue hi hj, swapAt_ok hi hj]; rfl
    · obtain ⟨x, hx⟩ := at?_ge hi
      have e : at? h j = none := by
        cases e : at? h j with
        | none => rfl
        | some y => exact (hj (at?_lt e)).elim
      rw [run_swapValue_panic (by omega)]
      simp only [swapAt, hx, e, Res.ofOption, Res.ok_bind]; rfl
  · have e : at? h i = none := by
      cases e : at? h i with
      | none => rfl
      | some y => exact (hi (at?_lt e)).elim
    rw [run_swapValue_panic (by omega)]
    simp only [swapAt, e, Res.ofOption]; rfl

theorem run_handle_less (f : T → T → Int) (h : List T) (i j : Int) :
    Seq.run listOps ((lessC i j).handle f) h = (lessAt f h i j >>= fun b => .ok (b, h)) := by
  simp only [lessC, handle_bind, handle_valueC, handle_callCmp, handle_pure, Prog.pure_bind', value, lessAt]
  show Seq.run listOps (.get i fun x => .get j fun y => .ret (decide (f x y < 0))) h = _
  simp only [Seq.run, listOps]
  cases at? h i with
  | none => rfl
  | some x =>
    cases at? h j with
    | none => rfl
    | some y => rfl

theorem run_handle_upLoop (f : T → T → Int) (n : Nat) (h : List T) (j : Int) :
    Seq.run listOps ((upLoopC n j).handle f) h = (upLoop f n h j >>= fun h => .ok ((), h)) := by
  induction n generalizing h j with
  | zero => rfl
  | succ n ih =>
    simp only [upLoopC, upLoop]
    split
    · rfl
    · rw [handle_bind, run_bind, run_handle_less]
      cases lessAt f h j ((j - 1).tdiv 2) with
      | ok b =>
        simp only [Res.ok_bind, handle_ite]
        split
        · rfl
        · rw [handle_bind, run_bind, handle_swapC, run_swap_eq]
          cases swapAt h ((j - 1).tdiv 2) j with
          | ok h' => simp only [Res.ok_bind, ih]
          | panic => rfl
          | outOfFuel => rfl
      | panic => rfl
      | outOfFuel => rfl

theorem run_handle_child (f : T → T → Int) (h : List T) (n j1 : Int) :
    Seq.run listOps ((childC n j1).handle f) h = (child f h n j1 >>= fun j => .ok (j, h)) := by
  simp only [childC, child]
  split
  · rw [handle_bind, run_bind, run_handle_less]
    cases lessAt f h (j1 + 1) j1 with
    | ok b => rfl
    | panic => rfl
    | outOfFuel => rfl
  · rfl

theorem run_handle_downLoop (f : T → T → Int) (m : Int) (n : Nat) (h : List T) (i : Int) :
    Seq.run listOps ((downLoopC m n i).handle f) h = downLoop f m n h i := by
  induction n generalizing h i with
  | zero => rfl
  | succ n ih =>
    simp only [downLoopC, downLoop]
    split
    · rfl
    · rw [handle_bind, run_bind, run_handle_child]
      cases child f h m (2 * i + 1) with
      | ok j =>
        simp only [Res.ok_bind]
        rw [handle_bind, run_bind, run_handle_less]
        cases lessAt f h j i with
        | ok b =>
          simp only [Res.ok_bind, handle_ite]
          split
          · rfl
          · rw [handle_bind, run_bind, handle_swapC, run_swap_eq]
            cases swapAt h i j with
            | ok h' => simp only [Res.ok_bind, ih]
            | panic => rfl
            | outOfFuel => rfl
        | panic => rfl
        | outOfFuel => rfl
      | panic => rfl
      | outOfFuel => rfl

theorem run_handle_down (f : T → T → Int) (h : List T) (i n : Int) :
    Seq.run listOps ((downC h.length i n).handle f) h = down f h i n := by
  unfold downC down
  rw [handle_bind, run_bind, run_handle_downLoop]
  rfl

/-- **C88** With a comparator that answers as the function `f`, when it does not panic, `Push` and `Pop` end as with `f`. -/
theorem C88_heap_agree {ask : CmpFn σ T} {f : T → T → Int} (ha : ask.Answers f) (s : σ) (h : List T) (x : T) :
    (∀ h' s', pushC ask s h x = .done () h' s' → push f h x = .ok h') ∧
    (∀ y h' s', popC ask s h = .done y h' s' → pop f h = .ok (y, h')) := by
  constructor
  · intro h' s' e
    have := runC_agrees listOps ha (upC (h ++ [x]).length ((h ++ [x]).length - 1)) s (h ++ [x])
    unfold pushC at e
    rw [e] at this
    simp only [Agrees, upC, run_handle_upLoop] at this
    rw [Res.bind_eq_ok] at this
    obtain ⟨h2, e2, e3⟩ := this
    cases e3
    exact e2
  · intro y h' s' e
    have := runC_agrees listOps ha (popMoves h.length) s h
    unfold popC at e
    cases e1 : runC listOps ask (popMoves h.length) s h with
    | done a h1 s1 =>
      rw [e1] at e this
      simp only [Agrees, popMoves] at this
      rw [handle_bind, run_bind, handle_swapC, run_swap_eq, Res.bind_eq_ok] at this
      obtain ⟨⟨u, h2⟩, e2, e3⟩ := this
      rw [Res.bind_eq_ok] at e2
      obtain ⟨h3, e2, e4⟩ := e2
      cases e4
      have hn : h.length = h2.length := by
        simp only [swapAt] at e2
        rw [Res.bind_eq_ok] at e2
        obtain ⟨_, _, e2⟩ := e2
        rw [Res.bind_eq_ok] at e2
        obtain ⟨_, _, e2⟩ := e2
        cases e2
        simp
      simp only [handle_bind] at e3
      rw [run_bind, hn, run_handle_down, Res.bind_eq_ok] at e3
      obtain ⟨⟨b, h4⟩, e5, e6⟩ := e3
      cases e6
      unfold pop
      simp only
      rw [e2, Res.ok_bind, hn, e5, Res.ok_bind]
      simp only [finishPop] at e
      cases e7 : holderPop h4 with
      | ok q => rw [e7] at e; cases e; rfl
      | panic => rw [e7] at e; cases e
      | outOfFuel => rw [e7] at e; cases e
    | crashed h1 => rw [e1] at e; cases e
    | panicked => rw [e1] at e; cases e
    | outOfFuel => rw [e1] at e; cases e

theorem swapAt_len {h h' : List T} {i j : Int} (e : swapAt h i j = .ok h') : h.length = h'.length := by
  simp only [swapAt] at e
  rw [Res.bind_eq_ok] at e
  obtain ⟨_, _, e⟩ := e
  rw [Res.bind_eq_ok] at e
  obtain ⟨_, _, e⟩ := e
  cases e
  simp

theorem downLoop_len (f : T → T → Int) (n : Int) : ∀ (g : Nat) (h : List T) (i : Int) {r}, downLoop f n g h i = .ok r → h.length = r.2.length := by
  intro g
  induction g with
  | zero => intro h i r e; cases e
  | succ g ih =>
    intro h i r e
    simp only [downLoop] at e
    split at e
    · cases e; rfl
    · rw [Res.bind_eq_ok] at e
      obtain ⟨j, -, e⟩ := e
      rw [Res.bind_eq_ok] at e
      obtain ⟨b, -, e⟩ := e
      split at e
      · cases e; rfl
      · rw [Res.bind_eq_ok] at e
        obtain ⟨h', e1, e⟩ := e
        exact (swapAt_len e1).trans (ih _ _ e)

theorem down_len (f : T → T → Int) {h : List T} {i n : Int} {r} (e : down f h i n = .ok r) : h.length = r.2.length := by
  unfold down at e
  rw [Res.bind_eq_ok] at e
  obtain ⟨⟨j, h'⟩, e1, e⟩ := e
  cases e
  exact downLoop_len f n _ _ _ e1

theorem run_handle_initLoop (f : T → T → Int) (n : Int) (i : Nat) (h : List T) :
    Seq.run listOps ((initLoopC h.length n i).handle f) h = (initLoop f n i h >>= fun h => .ok ((), h)) := by
  induction i generalizing h with
  | zero => rfl
  | succ i ih =>
    simp only [initLoopC, initLoop]
    rw [handle_bind, run_bind, run_handle_down]
    cases e : down f h i n with
    | ok r =>
      obtain ⟨b, h'⟩ := r
      have hl := down_len f e
      simp only [Res.ok_bind]
      rw [hl, ih]
    | panic => rfl
    | outOfFuel => rfl

theorem run_handle_fix (f : T → T → Int) (h : List T) (i n : Int) :
    Seq.run listOps ((do let b ← downC h.length i n; if !b then upC h.length i else pure () : CProg T Unit).handle f) h =
      ((do let (b, h) ← down f h i n; if !b then up f h i else .ok h : Res (List T)) >>= fun h => .ok ((), h)) := by
  rw [handle_bind, run_bind, run_handle_down]
  cases e : down f h i n with
  | ok r =>
    obtain ⟨b, h'⟩ := r
    have hl := down_len f e
    simp only [Res.ok_bind, handle_ite]
    split
    · rw [hl, upC, run_handle_upLoop]; rfl
    · rfl
  | panic => rfl
  | outOfFuel => rfl

/-- **C88** The same of `Init`, `Fix` and `Remove`: with a comparator that answers as the function `f`, when it does not panic, they end as
with `f`. -/
theorem C88_heap_agree_rest {ask : CmpFn σ T} {f : T → T → Int} (ha : ask.Answers f) (s : σ) (h : List T) (i : Int) :
    (∀ h' s', initC ask s h = .done () h' s' → init f h = .ok h') ∧
    (∀ h' s', fixC ask s h i = .done () h' s' → fix f h i = .ok h') ∧
    (∀ y h' s', removeC ask s h i = .done y h' s' → remove f h i = .ok (y, h')) := by
  refine ⟨?_, ?_, ?_⟩
  · intro h' s' e
    have := runC_agrees listOps ha (initLoopC h.length h.length (h.length / 2)) s h
    unfold initC at e
    rw [e] at this
    simp only [Agrees, run_handle_initLoop] at this
    rw [Res.bind_eq_ok] at this
    obtain ⟨h2, e2, e3⟩ := this
    cases e3
    exact e2
  · intro h' s' e
    have := runC_agrees listOps ha (do
      let b ← downC h.length i h.length
      if !b then upC h.length i else pure ()) s h
    unfold fixC at e
    rw [e] at this
    simp only [Agrees] at this
    rw [run_handle_fix, Res.bind_eq_ok] at this
    obtain ⟨h2, e2, e3⟩ := this
    cases e3
    exact e2
  · intro y h' s' e
    have := runC_agrees listOps ha (removeMoves h.length i) s h
    unfold removeC at e
    cases e1 : runC listOps ask (removeMoves h.length i) s h with
    | done a h1 s1 =>
      rw [e1] at e this
      simp only [Agrees, removeMoves] at this
      have fin : holderPop h1 = .ok (y, h') := by
        simp only [finishPop] at e
        cases e7 : holderPop h1 with
        | ok q => rw [e7] at e; cases e; rfl
        | panic => rw [e7] at e; cases e
        | outOfFuel => rw [e7] at e; cases e
      unfold remove
      simp only
      split at this
      · next hn =>
        rw [if_pos hn]
        rw [handle_bind, run_bind, handle_swapC, run_swap_eq, Res.bind_eq_ok] at this
        obtain ⟨⟨u, h2⟩, e2, e3⟩ := this
        rw [Res.bind_eq_ok] at e2
        obtain ⟨h3, e2, e4⟩ := e2
        cases e4
        have hn := swapAt_len e2
        rw [hn] at e3
        have e3 := (run_handle_fix f h2 i (h2.length - 1)).symm.trans e3
        rw [Res.bind_eq_ok] at e3
        obtain ⟨h4, e5, e6⟩ := e3
        cases e6
        rw [Res.bind_eq_ok] at e5
        obtain ⟨⟨b, h5⟩, e5, e6⟩ := e5
        rw [e2, Res.ok_bind, hn, e5, Res.ok_bind]
        simp only at e6 ⊢
        split at e6
        · next hb => rw [if_pos hb, e6, Res.ok_bind, fin]
        · next hb => rw [if_neg hb]; cases e6; exact fin
      · next hn =>
        rw [if_neg hn]
        cases this
        exact fin
    | crashed h1 => rw [e1] at e; cases e
    | panicked => rw [e1] at e; cases e
    | outOfFuel => rw [e1] at e; cases e

/-! ## Every answer and every crash -/

theorem safe_less {h : List T} {E : List T → Prop} {i j : Int} (hi : 0 ≤ i ∧ i < h.length) (hj : 0 ≤ j ∧ j < h.length) (hE : E h) :
    Safe AnyAnswer (lessC i j) h (fun _ h' => h' = h) E := by
  obtain ⟨x, hx⟩ := at?_ge hi
  obtain ⟨y, hy⟩ := at?_ge hj
  unfold lessC
  exact .bind_lift (run_value hx) (.bind_lift (run_value hy) (.bind_cmp hE fun r _ => rfl))

theorem safe_child {h : List T} {E : List T → Prop} {n j1 : Int} (h0 : 0 ≤ j1) (h1 : j1 < n) (hn : n ≤ h.length) (hE : E h) :
    Safe AnyAnswer (childC n j1) h (fun j h' => h' = h ∧ j1 ≤ j ∧ j < n) E := by
  unfold childC
  split
  · refine (safe_less (by omega) (by omega) hE).then fun b h' e => ?_
    exact ⟨e, by split <;> omega, by split <;> omega⟩
  · exact ⟨rfl, by omega, h1⟩

/-- `h₀` is the heap the call began with; only its first `n` elements are exchanged. -/
theorem safe_downLoop (n : Int) {h₀ : List T} (hn : n ≤ h₀.length) : ∀ (f : Nat) (h : List T) (i : Int), 0 ≤ i → n - i < f → 1 ≤ f →
    Moves n h₀ h → Safe AnyAnswer (downLoopC n f i) h (fun i' h' => Moves n h₀ h' ∧ i ≤ i') (Moves n h₀) := by
  intro f
  induction f with
  | zero => intro h i _ _ hf; omega
  | succ f ih =>
    intro h i hi hf _ m
    have len := m.length
    push_cast at hf
    unfold downLoopC
    simp only
    split
    · exact ⟨m, by omega⟩
    · refine (safe_child (by omega) (by omega) (by omega) m).then ?_
      rintro j h' ⟨rfl, j1, j2⟩
      refine (safe_less (by omega) (by omega) m).then ?_
      rintro b h'' rfl
      split
      · exact ⟨m, by omega⟩
      · refine .bind_lift (run_swapValue (by omega) (by omega)) ?_
        exact (ih _ j (by omega) (by omega) (by omega) (m.trans (.swap (by omega) (by omega) (by omega)))).mono
          (fun _ _ h => ⟨h.1, by omega⟩) fun _ => id

theorem safe_down {n : Int} {h₀ h : List T} {i : Int} (hi : 0 ≤ i) (hn : n ≤ h₀.length) (m : Moves n h₀ h) :
    Safe AnyAnswer (downC h₀.length i n) h (fun _ h' => Moves n h₀ h') (Moves n h₀) := by
  unfold downC
  exact (safe_downLoop n hn _ h i hi (by push_cast; omega) (by omega) m).then fun _ _ h => h.1

theorem safe_upLoop (n : Int) {h₀ : List T} (hn : n ≤ h₀.length) : ∀ (f : Nat) (h : List T) (j : Int), 0 ≤ j → j < n → j < f →
    Moves n h₀ h → Safe AnyAnswer (upLoopC f j) h (fun _ h' => Moves n h₀ h') (Moves n h₀) := by
  intro f
  induction f with
  | zero => intro h j h0 _ hf; simp at hf; omega
  | succ f ih =>
    intro h j h0 hj hf m
    have len := m.length
    push_cast at hf
    unfold upLoopC
    simp only
    by_cases hz : j = 0
    · subst hz
      have : ((0 : Int) - 1).tdiv 2 = 0 := by decide
      rw [this, if_pos rfl]
      exact m
    · rw [tdiv_par (by omega)]
      simp only [par]
      rw [if_neg (by omega)]
      refine (safe_less (by omega) (by omega) m).then ?_
      rintro b h' rfl
      split
      · exact m
      · refine .bind_lift (run_swapValue (by omega) (by omega)) ?_
        exact ih _ ((j - 1) / 2) (by omega) (by omega) (by omega) (m.trans (.swap (by omega) (by omega) (by omega)))

theorem safe_up {n : Int} {h₀ h : List T} {j : Int} (h0 : 0 ≤ j) (hj : j < n) (hn : n ≤ h₀.length) (m : Moves n h₀ h) :
    Safe AnyAnswer (upC h₀.length j) h (fun _ h' => Moves n h₀ h') (Moves n h₀) :=
  safe_upLoop n hn _ h j h0 hj (by push_cast; omega) m

theorem safe_initLoop {n : Int} {h₀ : List T} (hn : n ≤ h₀.length) : ∀ (i : Nat) (h : List T), Moves n h₀ h →
    Safe AnyAnswer (initLoopC h₀.length n i) h (fun _ h' => Moves n h₀ h') (Moves n h₀) := by
  intro i
  induction i with
  | zero => intro h m; exact m
  | succ i ih =>
    intro h m
    unfold initLoopC
    exact (safe_down (by omega) hn m).then fun _ h' m' => ih h' m'

/-- What `Safe` says of a heap call. -/
theorem Safe.heap {α : Type} {p : CProg T α} {h : List T} {Q : α → List T → Prop} {E : List T → Prop} (hs : Safe AnyAnswer p h Q E)
    (ask : CmpFn σ T) (s : σ) :
    (∃ a h' s', runC listOps ask p s h = .done a h' s' ∧ Q a h') ∨ ∃ h', runC listOps ask p s h = .crashed h' ∧ E h' := by
  obtain ⟨h', -, h2⟩ := hs.run listOps_lawful (ask := ask) (fun _ _ _ _ _ _ => trivial) (c := h) trivial s
  exact h2.imp (fun ⟨a, s', e, q⟩ => ⟨a, h', s', e, q⟩) (fun h => ⟨h', h⟩)

/-- **C88** `Init` with any comparator whatsoever: whether it returns or the comparator panics, the collection holds the same elements. -/
theorem C88_heap_init (ask : CmpFn σ T) (s : σ) (h : List T) : ∃ h', EndsIn (initC ask s h) h' ∧ h'.Perm h := by
  rcases Safe.heap (safe_initLoop (n := h.length) (h₀ := h) (by omega) (h.length / 2) h (.refl _ _)) ask s with
    ⟨a, h', s', e, m⟩ | ⟨h', e, m⟩
  · exact ⟨h', .inl ⟨a, s', e⟩, m.perm⟩
  · exact ⟨h', .inr e, m.perm⟩

/-- **C88** `Push` (of the heap and of the priority queue) with any comparator whatsoever: whether it returns or the comparator panics,
the new element and all the old ones are held. Missing from the full claim: that they stay in heap order (false, `C88_violated_order`). -/
theorem C88_heap_push_partial (ask : CmpFn σ T) (s : σ) (h : List T) (x : T) : ∃ h', EndsIn (pushC ask s h x) h' ∧ h'.Perm (x :: h) := by
  have hp : (h ++ [x]).Perm (x :: h) := by simpa using (List.perm_append_comm (l₁ := h) (l₂ := [x]))
  rcases Safe.heap (safe_up (n := (h ++ [x]).length) (h₀ := h ++ [x]) (h := h ++ [x]) (j := (h ++ [x]).length - 1)
    (by simp) (by simp) (by omega) (.refl _ _)) ask s with ⟨a, h', s', e, m⟩ | ⟨h', e, m⟩
  · exact ⟨h', .inl ⟨a, s', e⟩, m.perm.trans hp⟩
  · exact ⟨h', .inr e, m.perm.trans hp⟩

theorem perm_dropLast {h : List T} {y : T} (e : h.getLast? = some y) : (y :: h.dropLast).Perm h := by
  obtain ⟨l, rfl⟩ := List.getLast?_eq_some_iff.1 e
  simpa using (List.perm_append_comm (l₁ := [y]) (l₂ := l))

/-- What is known of the collection before the last element is taken off it: it has the same elements as at the beginning, and the
element to be returned is the last. -/
structure Ready (h : List T) (i : Int) (h' : List T) : Prop where
  perm : h'.Perm h
  last : at? h' (h.length - 1) = at? h i

theorem getLast?_eq_at? (h : List T) : h.getLast? = at? h (h.length - 1) := by
  cases h with
  | nil => rfl
  | cons x h =>
    have e : (((x :: h).length : Int) - 1) = ((x :: h).length - 1 : Nat) := by simp
    rw [e, at?_nat, List.getLast?_eq_getElem?]

theorem finishPop_spec {α : Type} {o : Algo.Out σ (List T) α} {h : List T} {i : Int} {x : T} (hx : at? h i = some x)
    (ho : (∃ a h' s', o = .done a h' s' ∧ Ready h i h') ∨ ∃ h', o = .crashed h' ∧ h'.Perm h) :
    (∃ h' s', finishPop o = .done x h' s' ∧ (x :: h').Perm h) ∨ ∃ h', finishPop o = .crashed h' ∧ h'.Perm h := by
  rcases ho with ⟨a, h', s', rfl, hp, hl⟩ | ⟨h', rfl, hp⟩
  · have e : h'.getLast? = some x := by rw [getLast?_eq_at?, hp.length_eq, hl, hx]
    exact .inl ⟨h'.dropLast, s', by simp only [finishPop, holderPop, e], (perm_dropLast e).trans hp⟩
  · exact .inr ⟨h', rfl, hp⟩

theorem ready_of_moves {h h' : List T} {i : Int} (hi : 0 ≤ i ∧ i < h.length) (m : Moves ((h.length : Int) - 1) (lswap h i (h.length - 1)) h') :
    Ready h i h' := by
  refine ⟨m.perm.trans (lswap_perm _ _ _), ?_⟩
  rw [m.rest _ (by omega), at?_lswap (by omega) (by omega), if_pos rfl]

/-- **C88** `Pop` (of the heap and of the priority queue) of a non-empty collection with any comparator whatsoever: it returns the element
`Top` shows and keeps the others, or the comparator panics and all elements are still held. -/
theorem C88_heap_pop (ask : CmpFn σ T) (s : σ) (x : T) (h : List T) :
    (∃ h' s', popC ask s (x :: h) = .done x h' s' ∧ h'.Perm h) ∨
      ∃ h', popC ask s (x :: h) = .crashed h' ∧ h'.Perm (x :: h) := by
  generalize hg : x :: h = g
  have hx : at? g 0 = some x := by rw [← hg]; rfl
  have hn := at?_lt hx
  have hs : Safe AnyAnswer (popMoves g.length) g (fun _ h' => Ready g 0 h') (fun h' => h'.Perm g) := by
    unfold popMoves
    simp only
    refine .bind_lift (run_swapValue (by omega) (by omega)) ?_
    have d := safe_down (n := g.length - 1) (h₀ := lswap g 0 (g.length - 1)) (h := lswap g 0 (g.length - 1)) (i := 0) (by omega)
      (by simp) (.refl _ _)
    rw [lswap_length] at d
    exact .bind (d.mono (fun _ h' m' => ready_of_moves hn m') fun h' m' => (ready_of_moves hn m').perm)
  rcases finishPop_spec hx (Safe.heap hs ask s) with ⟨h', s', e, hp⟩ | h2
  · refine .inl ⟨h', s', e, ?_⟩
    rw [← hg] at hp
    exact hp.cons_inv
  · exact .inr h2

/-- **C88** `Remove` of an existing position with any comparator whatsoever: it returns the element of that position and keeps the others,
or the comparator panics and all elements are still held. -/
theorem C88_heap_remove (ask : CmpFn σ T) (s : σ) (h : List T) (i : Int) (x : T) (hx : at? h i = some x) :
    (∃ h' s', removeC ask s h i = .done x h' s' ∧ (x :: h').Perm h) ∨ ∃ h', removeC ask s h i = .crashed h' ∧ h'.Perm h := by
  have hn := at?_lt hx
  have hs : Safe AnyAnswer (removeMoves h.length i) h (fun _ h' => Ready h i h') (fun h' => h'.Perm h) := by
    unfold removeMoves
    simp only
    split
    · refine .bind_lift (run_swapValue (by omega) (by omega)) ?_
      have d := safe_down (n := h.length - 1) (h₀ := lswap h i (h.length - 1)) (h := lswap h i (h.length - 1)) (i := i) (by omega)
        (by simp) (.refl _ _)
      rw [lswap_length] at d
      refine .bind (d.mono (fun b h' m' => ?_) fun h' m' => (ready_of_moves hn m').perm)
      show Safe AnyAnswer (if (!b) = true then upC h.length i else pure ()) h' _ _
      split
      · have u := safe_up (n := h.length - 1) (h₀ := lswap h i (h.length - 1)) (h := h') (j := i) (by omega) (by omega) (by simp) m'
        rw [lswap_length] at u
        exact u.mono (fun _ h' m' => ready_of_moves hn m') fun h' m' => (ready_of_moves hn m').perm
      · exact ready_of_moves hn m'
    · next e =>
      exact ⟨.refl _, by rw [show (h.length : Int) - 1 = i by omega]⟩
  exact finishPop_spec hx (Safe.heap hs ask s)

/-- **C88** `Fix` of an existing position with any comparator whatsoever: whether it returns or the comparator panics, the collection
holds the same elements. -/
theorem C88_heap_fix (ask : CmpFn σ T) (s : σ) (h : List T) (i : Int) (hi : 0 ≤ i ∧ i < h.length) :
    ∃ h', EndsIn (fixC ask s h i) h' ∧ h'.Perm h := by
  have hs : Safe AnyAnswer (do
      let b ← downC h.length i h.length
      if !b then upC h.length i else pure ()) h (fun _ h' => Moves (h.length : Int) h h') (Moves (h.length : Int) h) := by
    refine (safe_down hi.1 (by omega) (.refl _ _)).then fun b h' m => ?_
    split
    · exact safe_up hi.1 hi.2 (by omega) m
    · exact m
  rcases Safe.heap hs ask s with ⟨a, h', s', e, m⟩ | ⟨h', e, m⟩
  · exact ⟨h', .inl ⟨a, s', e⟩, m.perm⟩
  · exact ⟨h', .inr e, m.perm⟩

/-! ## Histories of a priority queue -/

/-- A call of a priority queue that calls the comparator (priority_queue.go:98-112). -/
inductive Call (T : Type)
  | push (x : T)
  | pop

/-- One call, made while the comparator is in state `s`, on a queue holding `q.1`; `q.2` are the elements returned so far. A call that ends
in a panic of the comparator leaves the queue as it is then (the caller recovers and goes on); `Pop` of an empty queue panics in
`Swap(0, -1)` and leaves it as it was. -/
def after (ask : CmpFn σ T) (c : Call T) (s : σ) (q : List T × List T) : Option (List T × List T) :=
  match c with
  | .push x =>
    match pushC ask s q.1 x with
    | .done _ h _ => some (h, q.2)
    | .crashed h => some (h, q.2)
    | .panicked => none
    | .outOfFuel => none
  | .pop =>
    match popC ask s q.1 with
    | .done x h _ => some (h, x :: q.2)
    | .crashed h => some (h, q.2)
    | .panicked => if q.1 = [] then some q else none
    | .outOfFuel => none

/-- A history of calls, each with the state the comparator is in when it is made. -/
def history (ask : CmpFn σ T) : List (Call T × σ) → List T × List T → Option (List T × List T)
  | [], q => some q
  | (c, s) :: cs, q => (after ask c s q).bind (history ask cs)

/-- The elements pushed in a history. -/
def pushed : List (Call T × σ) → List T
  | [] => []
  | (.push x, _) :: cs => x :: pushed cs
  | (.pop, _) :: cs => pushed cs

theorem after_perm (ask : CmpFn σ T) (c : Call T) (s : σ) (q : List T × List T) :
    ∃ q', after ask c s q = some q' ∧ (q'.1 ++ q'.2).Perm (pushed [(c, s)] ++ (q.1 ++ q.2)) := by
  obtain ⟨h, r⟩ := q
  cases c with
  | push x =>
    obtain ⟨h', e, hp⟩ := C88_heap_push_partial ask s h x
    refine ⟨(h', r), ?_, ?_⟩
    · rcases e with ⟨a, s', e⟩ | e <;> simp only [after, e]
    · simpa [pushed] using hp.append_right r
  | pop =>
    cases h with
    | nil => exact ⟨([], r), by simp [after, popC, finishPop, popMoves, runC, listOps, at?, swapC, swapValue, value, CProg.lift,
        bind, CProg.bind, Prog.bind, Res.ofOption], by simp [pushed]⟩
    | cons x h =>
      rcases C88_heap_pop ask s x h with ⟨h', s', e, hp⟩ | ⟨h', e, hp⟩
      · refine ⟨(h', x :: r), by simp only [after, e], ?_⟩
        simp only [pushed, List.nil_append, List.cons_append]
        exact List.perm_middle.trans ((hp.append_right r).cons x)
      · refine ⟨(h', r), by simp only [after, e], ?_⟩
        simpa [pushed] using hp.append_right r

/-- **C88** Over every history of a priority queue, with any comparator whatsoever and any of its calls ending in a panic of the
comparator, the elements held and the elements returned together are exactly the elements pushed, each as often as it was pushed. -/
theorem C88_pqueue_history (ask : CmpFn σ T) (cs : List (Call T × σ)) (q : List T × List T) :
    ∃ q', history ask cs q = some q' ∧ (q'.1 ++ q'.2).Perm (pushed cs ++ (q.1 ++ q.2)) := by
  induction cs generalizing q with
  | nil => exact ⟨q, rfl, .refl _⟩
  | cons c cs ih =>
    obtain ⟨c, s⟩ := c
    obtain ⟨q1, e1, p1⟩ := after_perm ask c s q
    obtain ⟨q2, e2, p2⟩ := ih q1
    refine ⟨q2, by simp only [history, e1, Option.bind_some, e2], p2.trans ((p1.append_left _).trans ?_)⟩
    cases c with
    | push x => simpa [pushed] using List.perm_middle
    | pop => simp [pushed]

/-- **C88 does not extend to the order**: after a `Push` that the comparator's panic ends, `Top` and `Pop` return an element that is not
the least, also if the comparator never panics again. Here 1 is pushed and the comparator panics at its first call. -/
theorem C88_violated_order : ∃ h s, pushC fuse 0 [4, 5, 6] 1 = .crashed h ∧ popC fuse 20 h = .done (4 : Int) [1, 5, 6] s :=
  ⟨_, _, rfl, rfl⟩

/-- The comparator panics at the second comparison of `Push`, and at the third of `Pop`. -/
example : pushC fuse 1 [2, 5, 3] 1 = .crashed [2, 1, 3, (5 : Int)] := by rfl
example : popC fuse 2 [1, 2, 3, 5, (4 : Int)] = .crashed [2, 4, 3, 5, 1] := by rfl
example := C88_heap_push_partial fuse 1 [2, 5, 3] 1
example := C88_heap_pop flip true 1 [2, 3, 5, 4]
example := C88_heap_remove fuse 1 [1, 2, 3, 5, 4] 1 2 rfl
example := C88_heap_fix fuse 1 [1, 2, 9, 5, 4] 2 (by decide)
example := C88_heap_init flip true [4, 2, 3, 1]
example : history fuse [(.push 3, 0), (.push 1, 0), (.pop, 5), (.push 2, 3), (.pop, 0)] ([], []) = some ([2], [1, (3 : Int)]) := by rfl
example := C88_heap_agree fuse_answers 5 [1, 2, 3] 0
example := C88_heap_agree_rest fuse_answers 9 [4, 2, 3] 1
example : ∃ s, initC fuse 9 [4, 2, (3 : Int)] = .done () [2, 4, 3] s := ⟨_, rfl⟩

end GoSTL.Heap
