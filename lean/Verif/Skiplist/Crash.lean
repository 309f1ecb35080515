import Verif.Skiplist.AnyCmp
import Verif.Algo.Crash
/-!
# C88: the skip list with a comparator that panics, or changes its mind, at any call

The code of `Verif/Skiplist/Model.lean` with the comparator calls as effects (see `Verif/Algo/CrashModel.lean`): a computation takes the
comparator's state and the skip list, and a panic of the comparator yields the skip list as it is then. `stepE_agrees` shows that with a
comparator that is a function it is that code. `prevNodesCache` may be half written after a panic; the next search writes all of it before
anything reads it (skiplist.go:178-193), so it is not part of the state here either.
-/
namespace GoSTL.Skiplist
open GoSTL.Algo (CmpFn)
variable {K V σ α β : Type}

/-- A computation on a skip list that may call the comparator. -/
def SM (σ K V α : Type) : Type := σ → SL K V → Algo.Out σ (SL K V) α

namespace SM

/-- No step. -/
def pure (a : α) : SM σ K V α := fun s w => .done a w s

/-- One step after the other; a panic ends it. -/
def bind (m : SM σ K V α) (f : α → SM σ K V β) : SM σ K V β := fun s w =>
  match m s w with
  | .done a w s => f a s w
  | .crashed w => .crashed w
  | .panicked => .panicked
  | .outOfFuel => .outOfFuel

instance : Monad (SM σ K V) where
  pure := pure
  bind := bind

/-- A part of the code that only reads the skip list and calls no comparator. -/
def read (r : SL K V → Res α) : SM σ K V α := fun s w =>
  match r w with
  | .ok a => .done a w s
  | .panic => .panicked
  | .outOfFuel => .outOfFuel

/-- A part of the code that changes the skip list and calls no comparator. -/
def write (f : SL K V → Res (SL K V)) : SM σ K V Unit := fun s w =>
  match f w with
  | .ok w => .done () w s
  | .panic => .panicked
  | .outOfFuel => .outOfFuel

/-- A call of the comparator. -/
def cmp (ask : CmpFn σ K) (x y : K) : SM σ K V Int := fun s w =>
  match ask s x y with
  | some (r, s) => .done r w s
  | none => .crashed w

/-- A loop that used up its budget. -/
def outOfFuel : SM σ K V α := fun _ _ => .outOfFuel

end SM

/-- Reading the element a pointer points to. -/
def elemE (a : Nat) : SM σ K V (Elem K V) := SM.read fun w => Res.ofOption w.elems[a]?

/-- The read `r.next[i]`. -/
def nextE (r : Ref) (i : Nat) : SM σ K V (Option Nat) := SM.read fun w => nextAt w r i

/-- skiplist.go:183-188: the loop along level `i`. -/
def walkE (ask : CmpFn σ K) (key : K) (i : Nat) : Nat → Ref → Option Nat → SM σ K V Ref
  | 0, _, _ => SM.outOfFuel
  | _ + 1, prev, none => pure prev
  | f + 1, prev, some a => do
    let e ← elemE a
    let r ← SM.cmp ask e.key key
    if r ≥ 0 then pure prev
    else do
      let n ← nextE (.elem a) i
      walkE ask key i f (.elem a) n

/-- skiplist.go:182-190: one level of `findPrevNodes`. -/
def prevLevelE (ask : CmpFn σ K) (key : K) (i : Nat) (prev : Ref) : SM σ K V Ref := do
  let h ← nextE .head i
  match h with
  | none => pure prev
  | some _ => do
    let n ← nextE prev i
    let b ← SM.read fun w => .ok (budget w)
    walkE ask key i b prev n

/-- skiplist.go:178-193 `findPrevNodes`. -/
def findPrevsE (ask : CmpFn σ K) (key : K) : Nat → Ref → List Ref → SM σ K V (List Ref)
  | 0, _, acc => pure acc
  | i + 1, prev, acc => do
    let p ← prevLevelE ask key i prev
    findPrevsE ask key i p (p :: acc)

/-- skiplist.go:91: is the element after the place found the one with the key? -/
def sameE (ask : CmpFn σ K) (key : K) (n0 : Option Nat) : SM σ K V (Option (Nat × Elem K V)) :=
  match n0 with
  | none => pure none
  | some a => do
    let e ← elemE a
    let r ← SM.cmp ask e.key key
    if r = 0 then pure (some (a, e)) else pure none

/-- skiplist.go:93: the new value for the key that is there. -/
def setValue (a : Nat) (e : Elem K V) (value : V) (w : SL K V) : Res (SL K V) := .ok { w with elems := w.elems.set a { e with value := value } }

/-- skiplist.go:97-112: the new element is made and linked in. -/
def addElem (key : K) (value : V) (draw : BitVec 64) (prevs : List Ref) (w : SL K V) : Res (SL K V) := do
  let level ← randomLevel 65 w.maxLevel draw
  let e := w.elems.length
  let w1 := { w with elems := w.elems ++ [⟨key, value, List.replicate level none⟩] }
  let w2 ← link e prevs level 0 w1
  .ok { w2 with len := w2.len + 1 }

/-- skiplist.go:86-113 `Insert`. -/
def insertE (ask : CmpFn σ K) (key : K) (value : V) (draw : BitVec 64) : SM σ K V Unit := do
  let m ← SM.read fun w => .ok w.maxLevel
  let prevs ← findPrevsE ask key m .head []
  let p0 ← SM.read fun _ => Res.ofOption prevs[0]?
  let n0 ← nextE p0 0
  let same ← sameE ask key n0
  match same with
  | some (a, e) => SM.write (setValue a e value)
  | none => SM.write (addElem key value draw prevs)

/-- skiplist.go:123-132: the loop of `Get` along a level; the comparator is called once for an element. -/
def getWalkE (ask : CmpFn σ K) (key : K) (i : Nat) : Nat → Ref → Option Nat → SM σ K V (Sum V Ref)
  | 0, _, _ => SM.outOfFuel
  | _ + 1, pre, none => pure (.inr pre)
  | f + 1, pre, some a => do
    let e ← elemE a
    let r ← SM.cmp ask e.key key
    if r = 0 then pure (.inl e.value)
    else if r > 0 then pure (.inr pre)
    else do
      let n ← nextE (.elem a) i
      getWalkE ask key i f (.elem a) n

/-- skiplist.go:121-133: the levels `i-1 .. 0`. -/
def getLoopE (ask : CmpFn σ K) (key : K) : Nat → Ref → SM σ K V (Option V)
  | 0, _ => pure none
  | i + 1, pre => do
    let n ← nextE pre i
    let b ← SM.read fun w => .ok (budget w)
    let r ← getWalkE ask key i b pre n
    match r with
    | .inl v => pure (some v)
    | .inr pre => getLoopE ask key i pre

/-- skiplist.go:116-135 `Get`. -/
def getE (ask : CmpFn σ K) (key : K) : SM σ K V (Option V) := do
  let m ← SM.read fun w => .ok w.maxLevel
  getLoopE ask key m .head

/-- skiplist.go:151-154: the element is unlinked. -/
def dropElem (a : Nat) (e : Elem K V) (prevs : List Ref) (w : SL K V) : Res (SL K V) := do
  let w ← unlink a prevs e.next.length 0 w
  .ok { w with len := w.len - 1 }

/-- skiplist.go:138-156 `Remove`. -/
def removeE (ask : CmpFn σ K) (key : K) : SM σ K V Bool := do
  let m ← SM.read fun w => .ok w.maxLevel
  let prevs ← findPrevsE ask key m .head []
  let p0 ← SM.read fun _ => Res.ofOption prevs[0]?
  let n0 ← nextE p0 0
  match n0 with
  | none => pure false
  | some a => do
    let e ← elemE a
    let r ← SM.cmp ask e.key key
    if r ≠ 0 then pure false
    else do
      SM.write (dropElem a e prevs)
      pure true

/-- skiplist.go:86-163: one call. -/
def stepE (ask : CmpFn σ K) (op : Op K V) : SM σ K V (Out V) :=
  match op with
  | .insert k v draw => do insertE ask k v draw; pure .unit
  | .get k => do let v ← getE ask k; pure (.val v)
  | .remove k => do let b ← removeE ask k; pure (.bool b)
  | .len => do let n ← SM.read fun w => .ok (Len w); pure (.int n)

/-- A history of calls, each with the state the comparator is in when it is made; the caller recovers from panics of the comparator, `none` in the list of
results. -/
def historyE (ask : CmpFn σ K) : List (Op K V × σ) → SL K V → Res (List (Option (Out V)) × SL K V)
  | [], w => .ok ([], w)
  | (op, s) :: cs, w =>
    match stepE ask op s w with
    | .done o w _ => do let (os, w) ← historyE ask cs w; .ok (some o :: os, w)
    | .crashed w => do let (os, w) ← historyE ask cs w; .ok (none :: os, w)
    | .panicked => .panic
    | .outOfFuel => .outOfFuel

/-! ## With a comparator that is a function -/

/-- How the end of a computation compares with what the code for a function yields: a panic of the comparator leaves the state `w`, and implies `Q`. -/
def AgreeC (w : SL K V) (Q : Prop) (o : Algo.Out σ (SL K V) α) (r : Res (α × SL K V)) : Prop :=
  match o with
  | .done a t _ => r = .ok (a, t)
  | .crashed t => t = w ∧ Q
  | .panicked => r = .panic
  | .outOfFuel => r = .outOfFuel

/-- The value of a lookup, with the state. -/
abbrev withState (w : SL K V) (r : Res α) : Res (α × SL K V) := r >>= fun a => .ok (a, w)

theorem res_assoc {γ : Type} (r : Res α) (f : α → Res β) (g : β → Res γ) : (r >>= f >>= g) = r >>= fun a => f a >>= g := by
  cases r <;> rfl

section
variable {w : SL K V} {Q : Prop}

theorem AgreeC.bind_read {r : SL K V → Res α} {k : α → SM σ K V β} {q : α → Res (β × SL K V)} {s : σ}
    (hk : ∀ a, r w = .ok a → AgreeC w Q (k a s w) (q a)) : AgreeC w Q ((SM.read r >>= k) s w) (r w >>= q) := by
  have e : (SM.read r >>= k) s w = SM.bind (SM.read r) k s w := rfl
  rw [e, SM.bind, SM.read]
  cases o : r w with
  | ok a => exact hk a o
  | panic => rfl
  | outOfFuel => rfl

theorem AgreeC.write {f : SL K V → Res (SL K V)} {s : σ} :
    AgreeC w Q ((SM.write f : SM σ K V Unit) s w) (f w >>= fun t => .ok ((), t)) := by
  rw [SM.write]
  cases o : f w <;> rfl

theorem AgreeC.bind_cmp {ask : CmpFn σ K} {f : K → K → Int} (ha : ask.Answers f) {x y : K} {k : Int → SM σ K V β}
    {r : Res (β × SL K V)} {s : σ} (hq : ∀ s, ask s x y = none → Q) (hk : ∀ s', AgreeC w Q (k (f x y) s' w) r) : AgreeC w Q ((SM.cmp ask x y >>= k) s w) r := by
  have e : (SM.cmp ask x y >>= k) s w = SM.bind (SM.cmp ask x y) k s w := rfl
  rw [e, SM.bind, SM.cmp]
  cases o : ask s x y with
  | none => exact ⟨rfl, hq s o⟩
  | some q => obtain ⟨a, s'⟩ := q; rw [ha s x y a s' o]; exact hk s'

theorem AgreeC.bind_lookup {m : SM σ K V α} {k : α → SM σ K V β} {r : Res α} {q : α → Res (β × SL K V)} {s : σ}
    (h : AgreeC w Q (m s w) (withState w r)) (hk : ∀ a s', r = .ok a → AgreeC w Q (k a s' w) (q a)) : AgreeC w Q ((m >>= k) s w) (r >>= q) := by
  have e : (m >>= k) s w = SM.bind m k s w := rfl
  rw [e, SM.bind]
  cases o : m s w with
  | done a t s' =>
    rw [o] at h
    cases r with
    | ok b => cases h; exact hk _ s' rfl
    | panic => cases h
    | outOfFuel => cases h
  | crashed t => rw [o] at h; exact h
  | panicked =>
    rw [o] at h
    cases r with
    | ok b => cases h
    | panic => rfl
    | outOfFuel => cases h
  | outOfFuel =>
    rw [o] at h
    cases r with
    | ok b => cases h
    | panic => cases h
    | outOfFuel => rfl

theorem AgreeC.bind_pure {m : SM σ K V α} {g : α → β} {r : Res (α × SL K V)} {s : σ} (h : AgreeC w Q (m s w) r) :
    AgreeC w Q ((m >>= fun a => pure (g a)) s w) (r >>= fun x => .ok (g x.1, x.2)) := by
  have e : (m >>= fun a => pure (g a)) s w = SM.bind m (fun a => SM.pure (g a)) s w := rfl
  rw [e, SM.bind]
  cases o : m s w with
  | done a t s' => rw [o] at h; have h : r = _ := h; rw [h]; rfl
  | crashed t => rw [o] at h; exact h
  | panicked => rw [o] at h; have h : r = _ := h; rw [h]; rfl
  | outOfFuel => rw [o] at h; have h : r = _ := h; rw [h]; rfl

/-! ## Only the keys that are there are compared -/

/-- Pointers into the store that are not nil and can be followed. -/
structure Reach (w : SL K V) (ids : Nat → Prop) : Prop where
  head : ∀ i a, nextAt w .head i = .ok (some a) → ids a
  next : ∀ a, ids a → ∀ i b, nextAt w (.elem a) i = .ok (some b) → ids b

/-- The node is the head or one of `ids`. -/
def Live (ids : Nat → Prop) : Ref → Prop
  | .head => True
  | .elem a => ids a

theorem Reach.at {ids : Nat → Prop} (h : Reach w ids) {r : Ref} (hr : Live ids r) {i a : Nat} (e : nextAt w r i = .ok (some a)) : ids a := by
  cases r with
  | head => exact h.head i a e
  | elem b => exact h.next b hr i a e

variable {ids : Nat → Prop} {ask : CmpFn σ K} {f : K → K → Int}

theorem walk_live (h : Reach w ids) (key : K) (i : Nat) : ∀ (n : Nat) (prev : Ref) (o : Option Nat) (p : Ref), Live ids prev → (∀ a, o = some a → ids a) →
    walk f w key i n prev o = .ok p → Live ids p := by
  intro n
  induction n with
  | zero => intro prev o p _ _ e; cases e
  | succ n ih =>
    intro prev o p hp ho e
    cases o with
    | none => cases e; exact hp
    | some a =>
      simp only [walk, Res.bind_eq_ok] at e
      obtain ⟨el, _, e⟩ := e
      split at e
      · cases e; exact hp
      · rw [Res.bind_eq_ok] at e
        obtain ⟨nx, e1, e⟩ := e
        exact ih (.elem a) _ _ (ho a rfl) (fun b hb => by subst hb; exact h.next a (ho a rfl) i b e1) e

theorem walkE_agrees (ha : ask.Answers f) (h : Reach w ids) (key : K) (hq : ∀ a e s, ids a → w.elems[a]? = some e → ask s e.key key = none → Q) (i : Nat) :
    ∀ (n : Nat) (prev : Ref) (o : Option Nat) (s : σ), (∀ a, o = some a → ids a) →
    AgreeC w Q (walkE ask key i n prev o s w) (withState w (walk f w key i n prev o)) := by
  intro n
  induction n with
  | zero => intro _ _ _ _; rfl
  | succ n ih =>
    intro prev o s ho
    cases o with
    | none => rfl
    | some a =>
      simp only [walkE, walk, withState, res_assoc, elemE]
      refine AgreeC.bind_read fun e he => AgreeC.bind_cmp ha (fun s g => hq a e s (ho a rfl) (by cases hx : w.elems[a]? <;> simp_all [Res.ofOption]) g) fun s => ?_
      split
      · rfl
      · rw [res_assoc]
        exact AgreeC.bind_read fun nx e1 => ih _ _ _ fun b hb => by subst hb; exact h.next a (ho a rfl) i b e1

theorem prevLevelE_agrees (ha : ask.Answers f) (h : Reach w ids) (key : K) (hq : ∀ a e s, ids a → w.elems[a]? = some e → ask s e.key key = none → Q) (i : Nat)
    (prev : Ref) (hp : Live ids prev) (s : σ) :
    AgreeC w Q (prevLevelE ask key i prev s w) (withState w (prevLevel f w key i prev)) := by
  simp only [prevLevelE, prevLevel, withState, res_assoc, nextE]
  refine AgreeC.bind_read fun hd e0 => ?_
  cases hd with
  | none => rfl
  | some a =>
    simp only [res_assoc]
    refine AgreeC.bind_read fun nx e1 => ?_
    exact walkE_agrees ha h key hq i _ _ _ _ fun b hb => by subst hb; exact h.at hp e1

theorem prevLevel_live (h : Reach w ids) (key : K) (i : Nat) {prev p : Ref} (hp : Live ids prev) (e : prevLevel f w key i prev = .ok p) : Live ids p := by
  simp only [prevLevel, Res.bind_eq_ok] at e
  obtain ⟨hd, e0, e⟩ := e
  cases hd with
  | none => cases e; exact hp
  | some a =>
    simp only [Res.bind_eq_ok] at e
    obtain ⟨nx, e1, e⟩ := e
    exact walk_live h key i _ _ _ _ hp (fun b hb => by subst hb; exact h.at hp e1) e

theorem findPrevsE_agrees (ha : ask.Answers f) (h : Reach w ids) (key : K) (hq : ∀ a e s, ids a → w.elems[a]? = some e → ask s e.key key = none → Q) :
    ∀ (n : Nat) (prev : Ref) (acc : List Ref) (s : σ), Live ids prev →
    AgreeC w Q (findPrevsE ask key n prev acc s w) (withState w (findPrevs f w key n prev acc)) := by
  intro n
  induction n with
  | zero => intro _ _ _ _; rfl
  | succ n ih =>
    intro prev acc s hp
    simp only [findPrevsE, findPrevs, withState, res_assoc]
    exact AgreeC.bind_lookup (prevLevelE_agrees ha h key hq n prev hp s) fun p s' e => ih _ _ _ (prevLevel_live h key n hp e)

theorem findPrevs_live (h : Reach w ids) (key : K) : ∀ (n : Nat) (prev : Ref) (acc ps : List Ref), Live ids prev → (∀ r ∈ acc, Live ids r) →
    findPrevs f w key n prev acc = .ok ps → ∀ r ∈ ps, Live ids r := by
  intro n
  induction n with
  | zero => intro prev acc ps _ hacc e; cases e; exact hacc
  | succ n ih =>
    intro prev acc ps hp hacc e
    simp only [findPrevs, Res.bind_eq_ok] at e
    obtain ⟨p, e1, e⟩ := e
    have := prevLevel_live h key n hp e1
    exact ih _ _ _ this (fun r hr => by rcases List.mem_cons.1 hr with rfl | hr; exacts [this, hacc r hr]) e

theorem getWalk_live (h : Reach w ids) (key : K) (i : Nat) : ∀ (n : Nat) (pre : Ref) (o : Option Nat) (p : Ref), Live ids pre → (∀ a, o = some a → ids a) →
    getWalk f w key i n pre o = .ok (.inr p) → Live ids p := by
  intro n
  induction n with
  | zero => intro prev o p _ _ e; cases e
  | succ n ih =>
    intro prev o p hp ho e
    cases o with
    | none => cases e; exact hp
    | some a =>
      simp only [getWalk, Res.bind_eq_ok] at e
      obtain ⟨el, _, e⟩ := e
      split at e
      · cases e
      · split at e
        · cases e; exact hp
        · rw [Res.bind_eq_ok] at e
          obtain ⟨nx, e1, e⟩ := e
          exact ih (.elem a) _ _ (ho a rfl) (fun b hb => by subst hb; exact h.next a (ho a rfl) i b e1) e

theorem getWalkE_agrees (ha : ask.Answers f) (h : Reach w ids) (key : K) (hq : ∀ a e s, ids a → w.elems[a]? = some e → ask s e.key key = none → Q) (i : Nat) :
    ∀ (n : Nat) (pre : Ref) (o : Option Nat) (s : σ), (∀ a, o = some a → ids a) →
    AgreeC w Q (getWalkE ask key i n pre o s w) (withState w (getWalk f w key i n pre o)) := by
  intro n
  induction n with
  | zero => intro _ _ _ _; rfl
  | succ n ih =>
    intro prev o s ho
    cases o with
    | none => rfl
    | some a =>
      simp only [getWalkE, getWalk, withState, res_assoc, elemE]
      refine AgreeC.bind_read fun e he => AgreeC.bind_cmp ha (fun s g => hq a e s (ho a rfl) (by cases hx : w.elems[a]? <;> simp_all [Res.ofOption]) g) fun s => ?_
      split
      · rfl
      · split
        · rfl
        · rw [res_assoc]
          exact AgreeC.bind_read fun nx e1 => ih _ _ _ fun b hb => by subst hb; exact h.next a (ho a rfl) i b e1

theorem getLoopE_agrees (ha : ask.Answers f) (h : Reach w ids) (key : K) (hq : ∀ a e s, ids a → w.elems[a]? = some e → ask s e.key key = none → Q) :
    ∀ (n : Nat) (pre : Ref) (s : σ), Live ids pre →
    AgreeC w Q (getLoopE ask key n pre s w) (withState w (getLoop f w key n pre)) := by
  intro n
  induction n with
  | zero => intro _ _ _; rfl
  | succ n ih =>
    intro pre s hp
    simp only [getLoopE, getLoop, withState, res_assoc, nextE]
    refine AgreeC.bind_read fun nx e1 => ?_
    refine AgreeC.bind_lookup (m := SM.read (fun w => .ok (budget w)) >>= fun b => getWalkE ask key n b pre nx)
      (getWalkE_agrees ha h key hq n _ _ _ s fun b hb => by subst hb; exact h.at hp e1) fun r s' e2 => ?_
    cases r with
    | inl v => rfl
    | inr p => exact ih _ _ (getWalk_live h key n _ _ _ _ hp (fun b hb => by subst hb; exact h.at hp e1) e2)

/-- skiplist.go:91. -/
def sameR (f : K → K → Int) (w : SL K V) (key : K) (n0 : Option Nat) : Res (Option (Nat × Elem K V)) :=
  match n0 with
  | none => .ok none
  | some a => do
    let e ← Res.ofOption w.elems[a]?
    if f e.key key = 0 then .ok (some (a, e)) else .ok none

/-- skiplist.go:91-112: what `Insert` does when the search is over. -/
def insertEnd (key : K) (value : V) (draw : BitVec 64) (prevs : List Ref) (w : SL K V) (same : Option (Nat × Elem K V)) : Res (SL K V) :=
  match same with
  | some (a, e) => setValue a e value w
  | none => addElem key value draw prevs w

theorem Insert_eq (f : K → K → Int) (key : K) (value : V) (draw : BitVec 64) (w : SL K V) :
    Insert f key value draw w = (findPrevs f w key w.maxLevel .head [] >>= fun prevs => Res.ofOption prevs[0]? >>= fun p0 => nextAt w p0 0 >>= fun n0 =>
      sameR f w key n0 >>= insertEnd key value draw prevs w) := by
  unfold Insert
  congr 1; funext prevs
  congr 1; funext p0
  congr 1; funext n0
  cases n0 with
  | none => rfl
  | some a =>
    simp only [sameR, res_assoc]
    congr 1; funext e
    split <;> rfl

theorem insertE_agrees (ha : ask.Answers f) (h : Reach w ids) (key : K) (hq : ∀ a e s, ids a → w.elems[a]? = some e → ask s e.key key = none → Q)
    (value : V) (draw : BitVec 64) (s : σ) :
    AgreeC w Q (insertE ask key value draw s w) (Insert f key value draw w >>= fun w => .ok ((), w)) := by
  simp only [Insert_eq, res_assoc]
  show AgreeC w Q ((findPrevsE ask key w.maxLevel .head [] >>= _) s w) _
  refine AgreeC.bind_lookup (findPrevsE_agrees ha h key hq _ _ _ s trivial) fun prevs s1 e1 => ?_
  have hl := findPrevs_live h key _ .head [] _ trivial (by simp) e1
  refine AgreeC.bind_read (r := fun _ => Res.ofOption prevs[0]?) fun p0 e2 => ?_
  have hp0 : Live ids p0 := by
    cases hx : prevs[0]? with
    | none => rw [hx] at e2; cases e2
    | some r => rw [hx] at e2; cases e2; exact hl _ (List.mem_of_getElem? hx)
  refine AgreeC.bind_read fun n0 e3 => ?_
  refine AgreeC.bind_lookup (m := sameE ask key n0) ?_ fun same s2 _ => ?_
  · cases n0 with
    | none => rfl
    | some a =>
      simp only [sameE, sameR, withState, res_assoc, elemE]
      refine AgreeC.bind_read fun e he => AgreeC.bind_cmp ha
        (fun s g => hq a e s (h.at hp0 e3) (by cases hx : w.elems[a]? <;> simp_all [Res.ofOption]) g) fun s => ?_
      split <;> rfl
  · cases same with
    | none => exact AgreeC.write
    | some x => exact AgreeC.write

theorem getE_agrees (ha : ask.Answers f) (h : Reach w ids) (key : K) (hq : ∀ a e s, ids a → w.elems[a]? = some e → ask s e.key key = none → Q) (s : σ) :
    AgreeC w Q (getE ask key s w) (withState w (Get f key w)) := getLoopE_agrees ha h key hq _ _ _ trivial

theorem removeE_agrees (ha : ask.Answers f) (h : Reach w ids) (key : K) (hq : ∀ a e s, ids a → w.elems[a]? = some e → ask s e.key key = none → Q)
    (s : σ) : AgreeC w Q (removeE ask key s w) (Remove f key w) := by
  simp only [Remove]
  show AgreeC w Q ((findPrevsE ask key w.maxLevel .head [] >>= _) s w) _
  refine AgreeC.bind_lookup (findPrevsE_agrees ha h key hq _ _ _ s trivial) fun prevs s1 e1 => ?_
  have hl := findPrevs_live h key _ .head [] _ trivial (by simp) e1
  refine AgreeC.bind_read (r := fun _ => Res.ofOption prevs[0]?) fun p0 e2 => ?_
  have hp0 : Live ids p0 := by
    cases hx : prevs[0]? with
    | none => rw [hx] at e2; cases e2
    | some r => rw [hx] at e2; cases e2; exact hl _ (List.mem_of_getElem? hx)
  refine AgreeC.bind_read fun n0 e3 => ?_
  cases n0 with
  | none => rfl
  | some a =>
    refine AgreeC.bind_read fun e he => AgreeC.bind_cmp ha
      (fun s g => hq a e s (h.at hp0 e3) (by cases hx : w.elems[a]? <;> simp_all [Res.ofOption]) g) fun s => ?_
    split
    · rfl
    · have := AgreeC.bind_pure (g := fun _ => true) (AgreeC.write (σ := σ) (w := w) (Q := Q) (f := dropElem a e prevs) (s := s))
      simpa only [dropElem, res_assoc, Res.ok_bind] using this

/-- The key of a call. -/
def Op.key? : Op K V → Option K
  | .insert k _ _ | .get k | .remove k => some k
  | .len => none

theorem stepE_agrees (ha : ask.Answers f) (h : Reach w ids) (op : Op K V)
    (hq : ∀ k a e s, op.key? = some k → ids a → w.elems[a]? = some e → ask s e.key k = none → Q) (s : σ) :
    AgreeC w Q (stepE ask op s w) (step f op w) := by
  cases op with
  | insert k v draw =>
    have := AgreeC.bind_pure (g := fun _ => (Out.unit : Out V)) (insertE_agrees ha h k (fun a e s => hq k a e s rfl) v draw s)
    simpa only [step, stepE, res_assoc, Res.ok_bind] using this
  | get k =>
    have := AgreeC.bind_pure (g := fun v => (Out.val v : Out V)) (getE_agrees ha h k (fun a e s => hq k a e s rfl) s)
    simpa only [step, stepE, withState, res_assoc, Res.ok_bind] using this
  | remove k =>
    exact AgreeC.bind_pure (g := fun v => (Out.bool v : Out V)) (removeE_agrees ha h k (fun a e s => hq k a e s rfl) s)
  | len => rfl

end

/-- What the invariant says about the pointers. -/
theorem Inv.reach {cmp : K → K → Int} {w : SL K V} {G : List (Cell K V)} (h : Inv cmp w G) : Reach w (fun a => ∃ c ∈ G, c.id = a) := by
  have sg : ∀ (i : Nat) (L : List (Cell K V)) (r : Ref), Sg w i r L none → (∀ a, nextAt w r i = .ok (some a) → ∃ c ∈ L, c.id = a) ∧
      ∀ c ∈ L, ∀ a, nextAt w (.elem c.id) i = .ok (some a) → ∃ d ∈ L, d.id = a := by
    intro i L
    induction L with
    | nil =>
      intro r hs
      refine ⟨fun a e => ?_, by simp⟩
      have := hs.first
      rw [e] at this; cases this
    | cons c L ih =>
      intro r hs
      have hs2 : Sg w i (.elem c.id) L none := hs.2
      refine ⟨fun a e => ?_, fun d hd a e => ?_⟩
      · have := hs.first
        rw [e] at this; cases this
        exact ⟨c, by simp, rfl⟩
      · rcases List.mem_cons.1 hd with rfl | hd
        · obtain ⟨x, hx, rfl⟩ := (ih _ hs2).1 a e
          exact ⟨x, by simp [hx], rfl⟩
        · obtain ⟨x, hx, rfl⟩ := (ih _ hs2).2 d hd a e
          exact ⟨x, by simp [hx], rfl⟩
  have lt : ∀ (r : Ref) (i a : Nat), nextAt w r i = .ok (some a) → (r = .head → i < w.maxLevel) := by
    rintro r i a e rfl
    by_contra hc
    simp only [nextAt] at e
    rw [List.getElem?_eq_none (by rw [h.headLen]; omega)] at e
    cases e
  constructor
  · intro i a e
    obtain ⟨c, hc, rfl⟩ := (sg i _ _ (h.seg i (lt _ i a e rfl))).1 a e
    exact ⟨c, (mem_lvl hc).1, rfl⟩
  · rintro _ ⟨c, hc, rfl⟩ i b e
    obtain ⟨el, h1, _, _, h2⟩ := (h.stored c hc).elem
    have hi : i < c.h := by
      by_contra hn
      simp only [nextAt, h1, Res.ofOption_some, Res.ok_bind] at e
      rw [List.getElem?_eq_none (by omega)] at e
      cases e
    have hm := (h.height c hc).2
    obtain ⟨d, hd, rfl⟩ := (sg i _ _ (h.seg i (by omega))).2 c (List.mem_filter.2 ⟨hc, by simpa using hi⟩) b e
    exact ⟨d, (mem_lvl hd).1, rfl⟩

/-! ## C88 -/

/-- The call has a key, and there is an entry with whose key and the key of the call the comparator can panic. -/
def Asked (ask : CmpFn σ K) (op : Op K V) (L : List (K × V)) : Prop := ∃ k, op.key? = some k ∧ ∃ kv ∈ L, ∃ s, ask s kv.1 k = none

/-- A call in a state with the entries `L`: a panic of the comparator leaves the state as it was and comes from asking about an entry and the key; otherwise
the call does what it does with the function `f`. -/
theorem stepE_holds {cmp f : K → K → Int} {ask : CmpFn σ K} (ha : ask.Answers f) {w : SL K V} {G : List (Cell K V)} (h : Inv cmp w G) (op : Op K V) (s : σ) :
    AgreeC w (Asked ask op (G.map Cell.kv)) (stepE ask op s w) (step f op w) := by
  refine stepE_agrees ha h.reach op ?_ s
  rintro k _ e s hk ⟨c, hc, rfl⟩ he ha
  obtain ⟨e', h1, h2, -, -⟩ := (h.stored c hc).elem
  rw [h1] at he; cases he
  exact ⟨k, hk, c.kv, List.mem_map_of_mem hc, s, by rw [← ha, h2]; rfl⟩

/-- What a history of calls may do with the entries when the comparator answers as `cmp` or panics: a call that panics (`none`) changes nothing, and asked
about its key and an entry; the others do what they may do with `cmp`. -/
inductive MayHistory (cmp : K → K → Int) (ask : CmpFn σ K) : List (Op K V × σ) → List (K × V) → List (Option (Out V)) → List (K × V) → Prop
  | nil {L} : MayHistory cmp ask [] L [] L
  | panics {op s cs L os L'} : Asked ask op L → MayHistory cmp ask cs L os L' → MayHistory cmp ask ((op, s) :: cs) L (none :: os) L'
  | returns {op s cs L o L1 os L'} : MayStep cmp op L o L1 → MayHistory cmp ask cs L1 os L' → MayHistory cmp ask ((op, s) :: cs) L (some o :: os) L'

/-- The calls that returned. -/
def returned : List (Op K V × σ) → List (Option (Out V)) → List (Op K V)
  | (op, _) :: cs, some _ :: os => op :: returned cs os
  | _ :: cs, none :: os => returned cs os
  | _, _ => []

theorem history_any (cmp : K → K → Int) {ask : CmpFn σ K} (ha : ask.Answers cmp) : ∀ (cs : List (Op K V × σ)) {w : SL K V} {G : List (Cell K V)},
    Inv before w G → ∃ os w' G', historyE ask cs w = .ok (os, w') ∧ Inv before w' G' ∧ MayHistory cmp ask cs (G.map Cell.kv) os (G'.map Cell.kv) ∧
      run cmp (returned cs os) w = .ok (os.filterMap id, w') := by
  intro cs
  induction cs with
  | nil => intro w G hi; exact ⟨[], w, G, rfl, hi, .nil, rfl⟩
  | cons c cs ih =>
    obtain ⟨op, s⟩ := c
    intro w G hi
    have hs := stepE_holds ha hi op s
    obtain ⟨o, w1, G1, e1, h1, m1⟩ := step_any cmp hi op
    rw [e1] at hs
    cases e : stepE ask op s w with
    | done o' w' s' =>
      rw [e] at hs
      cases hs
      obtain ⟨os, w2, G2, e2, h2, m2, r2⟩ := ih h1
      exact ⟨some o :: os, w2, G2, by simp only [historyE, e, e2, Res.ok_bind], h2, .returns m1 m2, by simp [returned, run, e1, r2]⟩
    | crashed w' =>
      rw [e] at hs
      obtain ⟨rfl, hq⟩ := hs
      obtain ⟨os, w2, G2, e2, h2, m2, r2⟩ := ih hi
      exact ⟨none :: os, w2, G2, by simp only [historyE, e, e2, Res.ok_bind], h2, .panics hq m2, by simpa [returned] using r2⟩
    | panicked => rw [e] at hs; cases hs
    | outOfFuel => rw [e] at hs; cases hs

/-- **C88** for skip lists. The comparator answers as an arbitrary function `cmp`, or panics, at any call of it; the caller recovers. With every maximum level from 1 to 64,
every history and all random draws: no call loops or panics otherwise; a call that panics had asked the comparator about its key and the key of an entry, and leaves all entries as
they are; the other calls do what they may do with `cmp`; and without the calls that panicked the history has the same results and ends in the same state. Missing from the full claim: comparators
that answer the same question differently (false, `C88_violated_skiplist`). -/
theorem C88_skiplist_partial (cmp : K → K → Int) {ask : CmpFn σ K} (ha : ask.Answers cmp) (n : Nat) (h1 : 1 ≤ n) (h2 : n ≤ 64) (cs : List (Op K V × σ)) :
    ∃ w0 w os L, New n = .ok w0 ∧ historyE ask cs w0 = .ok (os, w) ∧ MayHistory cmp ask cs [] os L ∧ Len w = L.length ∧ Keys w = .ok (L.map Prod.fst) ∧
      run cmp (returned cs os) w0 = .ok (os.filterMap id, w) := by
  obtain ⟨w0, e0, G0, hi0, hp0⟩ := agree_new (K := K) (V := V) (cmp := before) h1 h2
  have : G0.map Cell.kv = [] := List.perm_nil.1 hp0
  obtain ⟨os, w, G, e, hi, m, r⟩ := history_any cmp ha cs hi0
  rw [this] at m
  refine ⟨w0, w, os, G.map Cell.kv, e0, e, m, ?_, ?_, r⟩
  · rw [Len, hi.count, List.length_map]
  · have hall : lvl 0 G = G := lvl_zero hi (fun _ h => h)
    have hs := hi.seg 0 hi.max1
    rw [hall] at hs
    simp only [Keys, Traversal, hs.first, Res.ok_bind]
    rw [travLoop_spec _ G _ .head _ (hi.fuel (.refl _)) hi.stored hs]
    have : ∀ (L : List (K × V)) (acc : List K), visitAll (fun (s : List K) k _ => (s ++ [k], true)) L acc = acc ++ L.map Prod.fst := by
      intro L
      induction L with
      | nil => simp [visitAll]
      | cons x L ih =>
        obtain ⟨k, v⟩ := x
        intro acc
        simp [visitAll, ih]
    exact congrArg Res.ok ((this _ []).trans (List.nil_append _))

/-- **C88** for skip lists with a comparator that is the order `cmp` where it does not panic: the entries after any history with panics are those of a finite
map after the calls that returned. -/
theorem C88_skiplist_lawful {cmp : K → K → Int} (hc : LawfulCmp cmp) {ask : CmpFn σ K} (ha : ask.Answers cmp) (n : Nat) (h1 : 1 ≤ n) (h2 : n ≤ 64)
    (cs : List (Op K V × σ)) :
    ∃ w0 w os, ∃ L : List (K × V), New n = .ok w0 ∧ historyE ask cs w0 = .ok (os, w) ∧ os.filterMap id = (specRun cmp (returned cs os) []).1 ∧
      L.Perm (specRun cmp (returned cs os) []).2 ∧ L.Pairwise (fun x y => cmp x.1 y.1 < 0) ∧ Keys w = .ok (L.map Prod.fst) ∧ Len w = L.length := by
  obtain ⟨w0, w, os, L, e0, e, -, hl, hk, r⟩ := C88_skiplist_partial cmp ha n h1 h2 cs
  obtain ⟨w0', e0', ag⟩ := agree_new (K := K) (V := V) (cmp := cmp) h1 h2
  rw [e0] at e0'; cases e0'
  obtain ⟨w', e', ag'⟩ := run_agree hc (returned cs os) ag
  rw [r] at e'
  have e' := Res.ok.inj e'
  obtain ⟨L', p1, p2, p3, -⟩ := traversal_agree ag'
  have ew : w = w' := congrArg Prod.snd e'
  subst ew
  refine ⟨w0, w, os, L', e0, e, congrArg Prod.fst e', p1, p2, p3, ?_⟩
  rw [hl]
  rw [p3] at hk
  have := congrArg List.length (Res.ok.inj hk)
  simp only [List.length_map] at this
  rw [this]

/-! ## Cases that meet the hypotheses -/

/-- A comparator of integers that panics when its state is 0; the state counts down with every call. -/
def fuse : CmpFn Nat Int := fun s x y => match s with
  | 0 => none
  | s + 1 => some (x - y, s)

theorem fuse_answers : fuse.Answers (fun x y => x - y) := by
  intro s x y r s' e
  cases s with
  | zero => cases e
  | succ s => cases e; rfl

/-- The second insertion panics in its second comparison, the removal in its first; the others do what they do without. -/
example : ∃ w0 w : SL Int Int, New 2 = .ok w0 ∧
    historyE fuse [(.insert 5 50 0, 9), (.insert 3 30 0, 1), (.remove 5, 0), (.get 5, 9), (.len, 0)] w0 =
      .ok ([some .unit, none, none, some (.val (some 50)), some (.int 1)], w) := by
  have e1 : stepE fuse (.insert 5 50 0) 9 ⟨[], [none, none], 2, 0⟩ = .done .unit (⟨[⟨5, 50, [none, none]⟩], [some 0, some 0], 2, 1⟩ : SL Int Int) 9 := rfl
  have e2 : stepE fuse (.insert 3 30 0) 1 (⟨[⟨5, 50, [none, none]⟩], [some 0, some 0], 2, 1⟩ : SL Int Int) =
      .crashed ⟨[⟨5, 50, [none, none]⟩], [some 0, some 0], 2, 1⟩ := rfl
  have e3 : stepE fuse (.remove 5) 0 (⟨[⟨5, 50, [none, none]⟩], [some 0, some 0], 2, 1⟩ : SL Int Int) =
      .crashed ⟨[⟨5, 50, [none, none]⟩], [some 0, some 0], 2, 1⟩ := rfl
  have e4 : stepE fuse (.get 5) 9 (⟨[⟨5, 50, [none, none]⟩], [some 0, some 0], 2, 1⟩ : SL Int Int) =
      .done (.val (some 50)) ⟨[⟨5, 50, [none, none]⟩], [some 0, some 0], 2, 1⟩ 8 := rfl
  have e5 : stepE fuse .len 0 (⟨[⟨5, 50, [none, none]⟩], [some 0, some 0], 2, 1⟩ : SL Int Int) =
      .done (.int 1) ⟨[⟨5, 50, [none, none]⟩], [some 0, some 0], 2, 1⟩ 0 := rfl
  exact ⟨_, _, rfl, by simp only [historyE, e1, e2, e3, e4, e5, Res.ok_bind]; rfl⟩

/-- `C88_skiplist_partial` and `C88_skiplist_lawful` for such a program. -/
example := C88_skiplist_partial (fun x y : Int => x - y) fuse_answers 3 (by decide) (by decide)
  [(.insert 5 (50 : Int) 0, 9), (.insert 7 70 0, 1), (.insert 3 30 6, 9), (.remove 5, 0), (.get 5, 9), (.remove 3, 9), (.len, 0)]

example := C88_skiplist_lawful subCmp_lawful fuse_answers 3 (by decide) (by decide)
  [(.insert 5 (50 : Int) 0, 9), (.insert 7 70 0, 1), (.insert 3 30 6, 9), (.remove 5, 0), (.get 5, 9), (.remove 3, 9), (.len, 0)]

/-! ## A comparator that changes its mind -/

/-- A comparator of integers that answers what it is told to, one answer for each call, and tells the truth when there is nothing left. -/
def told : CmpFn (List Int) Int := fun s x y => match s with
  | [] => some (x - y, [])
  | r :: s => some (r, s)

/-- 10 and 5 are inserted on two levels; the second time the comparator says on the upper level that 10 is not before 5, and on the lower level that it is.
Then 5 is removed: the comparator says on the upper level that 5 and 10 are before 5, and is right on the lower level. -/
def fooled : List (Op Int Int × List Int) := [(.insert 10 100 0, []), (.insert 5 50 0, [1, -1]), (.remove 5, [-1, -1, 0, 0])]

/-- The skip list after that. -/
def fooledList : SL Int Int := ⟨[⟨10, 100, [none, some 0]⟩, ⟨5, 50, [none, some 0]⟩], [some 0, some 1], 2, 1⟩

/-- The walk along the upper level never ends. -/
theorem fooled_getWalk : ∀ (f : Nat) (r : Ref), getWalk (fun x y : Int => x - y) fooledList 20 1 f r (some 0) = .outOfFuel := by
  intro f
  induction f with
  | zero => intro _; rfl
  | succ f ih =>
    intro r
    have : getWalk (fun x y : Int => x - y) fooledList 20 1 (f + 1) r (some 0) = getWalk (fun x y : Int => x - y) fooledList 20 1 f (.elem 0) (some 0) := by
      simp [getWalk, fooledList, nextAt, Res.ofOption]
    rw [this, ih]

/-- **C88** fails for skip lists when the comparator answers inconsistently: after three calls that return, a later `Get` with honest answers loops
forever, whatever the number of steps it is allowed. -/
theorem C88_violated_skiplist : ∃ w0 : SL Int Int, New 2 = .ok w0 ∧
    historyE told fooled w0 = .ok ([some .unit, some .unit, some (.bool true)], fooledList) ∧
    ∀ f, getWalk (fun x y : Int => x - y) fooledList 20 1 (f + 1) .head (some 1) = .outOfFuel := by
  have e1 : stepE told (.insert 10 100 0) [] ⟨[], [none, none], 2, 0⟩ = .done .unit (⟨[⟨10, 100, [none, none]⟩], [some 0, some 0], 2, 1⟩ : SL Int Int) [] := rfl
  have e2 : stepE told (.insert 5 50 0) [1, -1] (⟨[⟨10, 100, [none, none]⟩], [some 0, some 0], 2, 1⟩ : SL Int Int) =
      .done .unit ⟨[⟨10, 100, [some 1, none]⟩, ⟨5, 50, [none, some 0]⟩], [some 0, some 1], 2, 2⟩ [] := rfl
  have e3 : stepE told (.remove 5) [-1, -1, 0, 0] (⟨[⟨10, 100, [some 1, none]⟩, ⟨5, 50, [none, some 0]⟩], [some 0, some 1], 2, 2⟩ : SL Int Int) =
      .done (.bool true) fooledList [] := rfl
  refine ⟨⟨[], [none, none], 2, 0⟩, rfl, by simp only [historyE, fooled, e1, e2, e3, Res.ok_bind], fun f => ?_⟩
  have : getWalk (fun x y : Int => x - y) fooledList 20 1 (f + 1) .head (some 1) = getWalk (fun x y : Int => x - y) fooledList 20 1 f (.elem 1) (some 0) := by
    simp [getWalk, fooledList, nextAt, Res.ofOption]
  rw [this, fooled_getWalk]

end GoSTL.Skiplist
