import Verif.RBTree.Holds
import Verif.RBTree.Props
import Verif.Algo.Crash
import Verif.TreeMap.Model
/-!
# C88: the red-black tree, maps and sets with a comparator that panics, or changes its mind, at any call

The code of `Verif/RBTree/Model.lean` and `Verif/TreeMap/Model.lean` with the comparator calls as effects (see
`Verif/Algo/CrashModel.lean`): a computation takes the comparator's state and the tree, and a panic of the comparator yields the tree as it is
then. `insertC_agrees` and the like show that with a comparator that is a function it is that code.
-/
namespace GoSTL.RB
open GoSTL.Algo (CmpFn Out)
variable {K V σ α β : Type}

/-- A computation on a tree that may call the comparator. -/
def TM (σ K V α : Type) : Type := σ → Tree K V → Out σ (Tree K V) α

namespace TM

/-- No step. -/
def pure (a : α) : TM σ K V α := fun s t => .done a t s

/-- One step after the other; a panic ends it. -/
def bind (m : TM σ K V α) (f : α → TM σ K V β) : TM σ K V β := fun s t =>
  match m s t with
  | .done a t s => f a s t
  | .crashed t => .crashed t
  | .panicked => .panicked
  | .outOfFuel => .outOfFuel

instance : Monad (TM σ K V) where
  pure := pure
  bind := bind

/-- A part of the code that only reads the tree and calls no comparator. -/
def read (r : Tree K V → Res α) : TM σ K V α := fun s t =>
  match r t with
  | .ok a => .done a t s
  | .panic => .panicked
  | .outOfFuel => .outOfFuel

/-- A part of the code that changes the tree and calls no comparator. -/
def write (w : Tree K V → Res (Tree K V)) : TM σ K V Unit := fun s t =>
  match w t with
  | .ok t => .done () t s
  | .panic => .panicked
  | .outOfFuel => .outOfFuel

/-- A call of the comparator. -/
def cmp (ask : CmpFn σ K) (x y : K) : TM σ K V Int := fun s t =>
  match ask s x y with
  | some (r, s) => .done r t s
  | none => .crashed t

/-- A loop that used up its budget. -/
def outOfFuel : TM σ K V α := fun _ _ => .outOfFuel

end TM

/-- Reading the node a pointer points to. -/
def nodeC (i : Id) : TM σ K V (Node K V) := TM.read fun t => t.node i

/-- ds/rbtree/rbtree.go:359-374 `findLowerBoundNode`. -/
def lowerBoundFromC (ask : CmpFn σ K) (key : K) : Nat → Option Id → TM σ K V (Option Id)
  | 0, _ => TM.outOfFuel
  | _ + 1, none => pure none
  | f + 1, some xi => do
    let xn ← nodeC xi
    let r ← TM.cmp ask key xn.key
    if r ≤ 0 then do
      let ret ← lowerBoundFromC ask key f xn.left
      match ret with
      | none => pure (some xi)
      | some r => do
        let rn ← nodeC r
        let q ← TM.cmp ask rn.key xn.key
        if q ≤ 0 then pure (some r) else pure (some xi)
    else lowerBoundFromC ask key f xn.right

/-- ds/rbtree/rbtree.go:355-357 `FindLowerBoundNode`. -/
def findLowerBoundNodeC (ask : CmpFn σ K) (key : K) : TM σ K V (Option Id) := do
  let q ← TM.read fun t => .ok (t.fuel, t.root)
  lowerBoundFromC ask key q.1 q.2

/-- ds/rbtree/rbtree.go:381-396 `findUpperBoundNode`. -/
def upperBoundFromC (ask : CmpFn σ K) (key : K) : Nat → Option Id → TM σ K V (Option Id)
  | 0, _ => TM.outOfFuel
  | _ + 1, none => pure none
  | f + 1, some xi => do
    let xn ← nodeC xi
    let r ← TM.cmp ask key xn.key
    if r ≥ 0 then upperBoundFromC ask key f xn.right
    else do
      let ret ← upperBoundFromC ask key f xn.left
      match ret with
      | none => pure (some xi)
      | some r => do
        let rn ← nodeC r
        let q ← TM.cmp ask rn.key xn.key
        if q ≤ 0 then pure (some r) else pure (some xi)

/-- ds/rbtree/rbtree.go:377-379 `FindUpperBoundNode`. -/
def findUpperBoundNodeC (ask : CmpFn σ K) (key : K) : TM σ K V (Option Id) := do
  let q ← TM.read fun t => .ok (t.fuel, t.root)
  upperBoundFromC ask key q.1 q.2

/-- ds/rbtree/rbtree.go:343-352 `findFirstNode`, 44-46 `FindNode`. -/
def findNodeC (ask : CmpFn σ K) (key : K) : TM σ K V (Option Id) := do
  let node ← findLowerBoundNodeC ask key
  match node with
  | none => pure none
  | some i => do
    let n ← nodeC i
    let r ← TM.cmp ask n.key key
    if r = 0 then pure (some i) else pure none

/-- ds/rbtree/rbtree.go:101-111, the descent of `Insert`. -/
def insertDescendC (ask : CmpFn σ K) (key : K) : Nat → Option Id → Option Id → TM σ K V (Option Id)
  | 0, _, _ => TM.outOfFuel
  | _ + 1, none, y => pure y
  | f + 1, some xi, _ => do
    let xn ← nodeC xi
    let r ← TM.cmp ask key xn.key
    if r < 0 then insertDescendC ask key f xn.left (some xi) else insertDescendC ask key f xn.right (some xi)

/-- ds/rbtree/rbtree.go:116-119: the first node of a tree. -/
def asRoot (t : Tree K V) (z : Id) : Res (Tree K V) := .ok { t.setBlack z true with root := some z }

/-- ds/rbtree/rbtree.go:120-125: the answer of the last comparison decides the side. -/
def linkChild (t : Tree K V) (B : Nat) (y z : Id) (r : Int) : Res (Tree K V) :=
  (if r < 0 then t.setLeft y (some z) else t.setRight y (some z)).insertFixup B z

/-- ds/rbtree/rbtree.go:100-126 `Insert`: the size is increased before the last comparison. -/
def insertC (ask : CmpFn σ K) (key : K) (value : V) : TM σ K V Unit := do
  let q ← TM.read fun t => .ok (t.fuel, t.root, t.next)
  let y ← insertDescendC ask key q.1 q.2.1 none
  TM.write fun t => .ok (t.alloc y key value)
  match y with
  | none => TM.write fun t => asRoot t q.2.2
  | some y => do
    let yn ← nodeC y
    let zn ← nodeC q.2.2
    let r ← TM.cmp ask zn.key yn.key
    TM.write fun t => linkChild t q.1 y q.2.2 r

/-- ds/map/map.go:56-66 `Map.Insert`. -/
def mapInsertC (ask : CmpFn σ K) (key : K) (value : V) : TM σ K V Unit := do
  let node ← findNodeC ask key
  match node with
  | some i => TM.write fun t => .ok (t.setValue i value)
  | none => insertC ask key value

/-- ds/set/set.go:62-71 `Set.Insert`. -/
def setInsertC (ask : CmpFn σ K) (x : K) : TM σ K Bool Unit := do
  let node ← findNodeC ask x
  match node with
  | some _ => pure ()
  | none => insertC ask x true

/-- ds/map/map.go:81-89 `Map.Erase`, ds/set/set.go:74-82 `Set.Erase`, ds/set/multiset.go:41-49 `MultiSet.Erase`. -/
def eraseOneC (ask : CmpFn σ K) (key : K) : TM σ K V Unit := do
  let node ← findNodeC ask key
  match node with
  | some i => TM.write fun t => t.delete (some i)
  | none => pure ()

/-- The loop of ds/map/multimap.go:54-60 `MultiMap.Erase` and ds/set/multiset.go:56-62 `MultiSet.EraseAll`. -/
def eraseAllLoopC (ask : CmpFn σ K) (key : K) : Nat → TM σ K V Unit
  | 0 => TM.outOfFuel
  | f + 1 => do
    let node ← findNodeC ask key
    match node with
    | none => pure ()
    | some i => do
      TM.write fun t => t.delete (some i)
      eraseAllLoopC ask key f

/-- ds/map/multimap.go:50-61 `MultiMap.Erase`, ds/set/multiset.go:52-63 `MultiSet.EraseAll`. -/
def eraseAllC (ask : CmpFn σ K) (key : K) : TM σ K V Unit := do
  let n ← TM.read fun t => .ok t.fuel
  eraseAllLoopC ask key n

/-! ## With a comparator that is a function this is the code of the other modules -/

/-- How the end of a computation compares with what the code for the function `f` yields. -/
def Agree (o : Out σ (Tree K V) α) (r : Res (α × Tree K V)) : Prop :=
  match o with
  | .done a t _ => r = .ok (a, t)
  | .crashed _ => True
  | .panicked => r = .panic
  | .outOfFuel => r = .outOfFuel

theorem Agree.bind {m : TM σ K V α} {k : α → TM σ K V β} {r : Res (α × Tree K V)} {q : α × Tree K V → Res (β × Tree K V)}
    {s : σ} {t : Tree K V} (h : Agree (m s t) r) (hk : ∀ a t' s', r = .ok (a, t') → Agree (k a s' t') (q (a, t'))) :
    Agree ((m >>= k) s t) (r >>= q) := by
  have e : (m >>= k) s t = TM.bind m k s t := rfl
  rw [e, TM.bind]
  cases o : m s t with
  | done a t' s' => rw [o] at h; have := hk a t' s' h; rw [h]; exact this
  | crashed t' => trivial
  | panicked => rw [o] at h; rw [h]; rfl
  | outOfFuel => rw [o] at h; rw [h]; rfl

/-- A part that only reads. -/
theorem Agree.bind_read {r : Tree K V → Res α} {k : α → TM σ K V β} {q : α → Res (β × Tree K V)} {s : σ} {t : Tree K V}
    (hk : ∀ a, r t = .ok a → Agree (k a s t) (q a)) : Agree ((TM.read r >>= k) s t) (r t >>= q) := by
  have e : (TM.read r >>= k) s t = TM.bind (TM.read r) k s t := rfl
  rw [e, TM.bind, TM.read]
  cases o : r t with
  | ok a => exact hk a o
  | panic => rfl
  | outOfFuel => rfl

theorem Agree.bind_write {w : Tree K V → Res (Tree K V)} {k : Unit → TM σ K V β} {q : Tree K V → Res (β × Tree K V)} {s : σ} {t : Tree K V}
    (hk : ∀ t', w t = .ok t' → Agree (k () s t') (q t')) : Agree ((TM.write w >>= k) s t) (w t >>= q) := by
  have e : (TM.write w >>= k) s t = TM.bind (TM.write w) k s t := rfl
  rw [e, TM.bind, TM.write]
  cases o : w t with
  | ok a => exact hk a o
  | panic => rfl
  | outOfFuel => rfl

theorem Agree.write {w : Tree K V → Res (Tree K V)} {s : σ} {t : Tree K V} :
    Agree ((TM.write w : TM σ K V Unit) s t) (w t >>= fun t => .ok ((), t)) := by
  rw [TM.write]
  cases o : w t <;> rfl

theorem Agree.bind_cmp {ask : CmpFn σ K} {f : K → K → Int} (ha : ask.Answers f) {x y : K} {k : Int → TM σ K V β}
    {r : Res (β × Tree K V)} {s : σ} {t : Tree K V} (hk : ∀ s', Agree (k (f x y) s' t) r) : Agree ((TM.cmp ask x y >>= k) s t) r := by
  have e : (TM.cmp ask x y >>= k) s t = TM.bind (TM.cmp ask x y) k s t := rfl
  rw [e, TM.bind, TM.cmp]
  cases o : ask s x y with
  | none => trivial
  | some q => obtain ⟨a, s'⟩ := q; rw [ha s x y a s' o]; exact hk s'

/-- The value of a lookup, with the tree. -/
abbrev withTree (t : Tree K V) (r : Res α) : Res (α × Tree K V) := r >>= fun a => .ok (a, t)

theorem Res.bind_assoc'' {γ : Type} (r : Res α) (f : α → Res β) (g : β → Res γ) : (r >>= f >>= g) = r >>= fun a => f a >>= g := by
  cases r <;> rfl

theorem Agree.bind_lookup {m : TM σ K V α} {k : α → TM σ K V β} {r : Res α} {q : α → Res (β × Tree K V)} {s : σ} {t : Tree K V}
    (h : Agree (m s t) (withTree t r)) (hk : ∀ a s', r = .ok a → Agree (k a s' t) (q a)) : Agree ((m >>= k) s t) (r >>= q) := by
  have e : (r >>= q) = (withTree t r >>= fun x => q x.1) := by cases r <;> rfl
  rw [e]
  refine Agree.bind h fun a t' s' e => ?_
  cases r with
  | ok b => cases e; exact hk a s' rfl
  | panic => cases e
  | outOfFuel => cases e

theorem lowerBoundFromC_agrees {ask : CmpFn σ K} {f : K → K → Int} (ha : ask.Answers f) (key : K) (n : Nat) (x : Option Id) (s : σ)
    (t : Tree K V) : Agree (lowerBoundFromC ask key n x s t) (withTree t (t.lowerBoundFrom f key n x)) := by
  induction n generalizing x s with
  | zero => rfl
  | succ n ih =>
    cases x with
    | none => rfl
    | some xi =>
      simp only [lowerBoundFromC, Tree.lowerBoundFrom, withTree, Res.bind_assoc'']
      refine Agree.bind_read fun xn _ => Agree.bind_cmp ha fun s => ?_
      split
      · rw [Res.bind_assoc'']
        refine Agree.bind_lookup (ih xn.left s) fun ret s' _ => ?_
        cases ret with
        | none => rfl
        | some r =>
          simp only [Res.bind_assoc'']
          refine Agree.bind_read fun rn _ => Agree.bind_cmp ha fun s => ?_
          split <;> rfl
      · exact ih _ _

theorem upperBoundFromC_agrees {ask : CmpFn σ K} {f : K → K → Int} (ha : ask.Answers f) (key : K) (n : Nat) (x : Option Id) (s : σ)
    (t : Tree K V) : Agree (upperBoundFromC ask key n x s t) (withTree t (t.upperBoundFrom f key n x)) := by
  induction n generalizing x s with
  | zero => rfl
  | succ n ih =>
    cases x with
    | none => rfl
    | some xi =>
      simp only [upperBoundFromC, Tree.upperBoundFrom, withTree, Res.bind_assoc'']
      refine Agree.bind_read fun xn _ => Agree.bind_cmp ha fun s => ?_
      split
      · exact ih _ _
      · rw [Res.bind_assoc'']
        refine Agree.bind_lookup (ih xn.left s) fun ret s' _ => ?_
        cases ret with
        | none => rfl
        | some r =>
          simp only [Res.bind_assoc'']
          refine Agree.bind_read fun rn _ => Agree.bind_cmp ha fun s => ?_
          split <;> rfl

theorem findLowerBoundNodeC_agrees {ask : CmpFn σ K} {f : K → K → Int} (ha : ask.Answers f) (key : K) (s : σ) (t : Tree K V) :
    Agree (findLowerBoundNodeC ask key s t) (withTree t (t.findLowerBoundNode f key)) := lowerBoundFromC_agrees ha key _ _ s t

theorem findUpperBoundNodeC_agrees {ask : CmpFn σ K} {f : K → K → Int} (ha : ask.Answers f) (key : K) (s : σ) (t : Tree K V) :
    Agree (findUpperBoundNodeC ask key s t) (withTree t (t.findUpperBoundNode f key)) := upperBoundFromC_agrees ha key _ _ s t

theorem findNodeC_agrees {ask : CmpFn σ K} {f : K → K → Int} (ha : ask.Answers f) (key : K) (s : σ) (t : Tree K V) :
    Agree (findNodeC ask key s t) (withTree t (t.findNode f key)) := by
  simp only [findNodeC, Tree.findNode, withTree, Res.bind_assoc'']
  refine Agree.bind_lookup (findLowerBoundNodeC_agrees ha key s t) fun node s' _ => ?_
  cases node with
  | none => rfl
  | some i =>
    simp only [Res.bind_assoc'']
    refine Agree.bind_read fun n _ => Agree.bind_cmp ha fun s => ?_
    split <;> rfl

theorem insertDescendC_agrees {ask : CmpFn σ K} {f : K → K → Int} (ha : ask.Answers f) (key : K) (n : Nat) (x y : Option Id) (s : σ)
    (t : Tree K V) : Agree (insertDescendC ask key n x y s t) (withTree t (t.insertDescend f key n x y)) := by
  induction n generalizing x y s with
  | zero => rfl
  | succ n ih =>
    cases x with
    | none => rfl
    | some xi =>
      simp only [insertDescendC, Tree.insertDescend, withTree, Res.bind_assoc'']
      refine Agree.bind_read fun xn _ => Agree.bind_cmp ha fun s => ?_
      split
      · exact ih _ _ _
      · exact ih _ _ _

theorem insertC_agrees {ask : CmpFn σ K} {f : K → K → Int} (ha : ask.Answers f) (key : K) (value : V) (s : σ) (t : Tree K V) :
    Agree (insertC ask key value s t) (t.insert f key value >>= fun t => .ok ((), t)) := by
  simp only [Tree.insert, Tree.insertB, Res.bind_assoc'']
  show Agree ((insertDescendC ask key t.fuel t.root none >>= _) s t) _
  refine Agree.bind_lookup (insertDescendC_agrees ha key _ _ _ s t) fun y s' _ => ?_
  refine Agree.bind_write (w := fun t => .ok (t.alloc y key value)) (q := fun t' => (match y with
    | none => pure { t'.setBlack t.next true with root := some t.next }
    | some y => do
      let yn ← t'.node y
      let zn ← t'.node t.next
      (if f zn.key yn.key < 0 then t'.setLeft y (some t.next) else t'.setRight y (some t.next)).insertFixup t.fuel t.next) >>=
        fun t => .ok ((), t)) fun t' e => ?_
  cases y with
  | none => exact Agree.write
  | some y =>
    simp only [Res.bind_assoc'']
    refine Agree.bind_read fun yn _ => Agree.bind_read fun zn _ => Agree.bind_cmp ha fun s => ?_
    exact Agree.write

theorem mapInsertC_agrees {ask : CmpFn σ K} {f : K → K → Int} (ha : ask.Answers f) (key : K) (value : V) (s : σ) (t : Tree K V) :
    Agree (mapInsertC ask key value s t) (TreeMap.mapInsert f t key value >>= fun t => .ok ((), t)) := by
  simp only [mapInsertC, TreeMap.mapInsert, Res.bind_assoc'']
  refine Agree.bind_lookup (findNodeC_agrees ha key s t) fun node s' _ => ?_
  cases node with
  | none => exact insertC_agrees ha key value s' t
  | some i => exact Agree.write (w := fun t => .ok (t.setValue i value))

theorem setInsertC_agrees {ask : CmpFn σ K} {f : K → K → Int} (ha : ask.Answers f) (x : K) (s : σ) (t : Tree K Bool) :
    Agree (setInsertC ask x s t) (TreeMap.setInsert f t x >>= fun t => .ok ((), t)) := by
  simp only [setInsertC, TreeMap.setInsert, Res.bind_assoc'']
  refine Agree.bind_lookup (findNodeC_agrees ha x s t) fun node s' _ => ?_
  cases node with
  | none => exact insertC_agrees ha x true s' t
  | some i => rfl

theorem eraseOneC_agrees {ask : CmpFn σ K} {f : K → K → Int} (ha : ask.Answers f) (key : K) (s : σ) (t : Tree K V) :
    Agree (eraseOneC ask key s t) (TreeMap.eraseOne f t key >>= fun t => .ok ((), t)) := by
  simp only [eraseOneC, TreeMap.eraseOne, Res.bind_assoc'']
  refine Agree.bind_lookup (findNodeC_agrees ha key s t) fun node s' _ => ?_
  cases node with
  | none => rfl
  | some i => exact Agree.write (w := fun t => t.delete (some i))

theorem eraseAllLoopC_agrees {ask : CmpFn σ K} {f : K → K → Int} (ha : ask.Answers f) (key : K) (n : Nat) (s : σ) (t : Tree K V) :
    Agree (eraseAllLoopC ask key n s t) (TreeMap.eraseAllLoop f key n t >>= fun t => .ok ((), t)) := by
  induction n generalizing s t with
  | zero => rfl
  | succ n ih =>
    simp only [eraseAllLoopC, TreeMap.eraseAllLoop, Res.bind_assoc'']
    refine Agree.bind_lookup (findNodeC_agrees ha key s t) fun node s' _ => ?_
    cases node with
    | none => rfl
    | some i =>
      simp only [Res.bind_assoc'']
      exact Agree.bind_write (w := fun t => t.delete (some i)) fun t' _ => ih s' t'

/-- **C88** With a comparator that panics at some calls and otherwise answers as the function `f` does: when no call of the comparator
panics, the calls of trees, maps and sets end exactly as with `f`. -/
theorem C88_tree_agree {ask : CmpFn σ K} {f : K → K → Int} (ha : ask.Answers f) (key : K) (value : V) (s : σ) (t : Tree K V) :
    Agree (findLowerBoundNodeC ask key s t) (withTree t (t.findLowerBoundNode f key)) ∧
    Agree (findUpperBoundNodeC ask key s t) (withTree t (t.findUpperBoundNode f key)) ∧
    Agree (findNodeC ask key s t) (withTree t (t.findNode f key)) ∧
    Agree (insertC ask key value s t) (t.insert f key value >>= fun t => .ok ((), t)) ∧
    Agree (mapInsertC ask key value s t) (TreeMap.mapInsert f t key value >>= fun t => .ok ((), t)) ∧
    Agree (eraseOneC ask key s t) (TreeMap.eraseOne f t key >>= fun t => .ok ((), t)) ∧
    Agree (eraseAllC ask key s t) (TreeMap.eraseAll f t key >>= fun t => .ok ((), t)) :=
  ⟨findLowerBoundNodeC_agrees ha key s t, findUpperBoundNodeC_agrees ha key s t, findNodeC_agrees ha key s t,
    insertC_agrees ha key value s t, mapInsertC_agrees ha key value s t, eraseOneC_agrees ha key s t,
    eraseAllLoopC_agrees ha key _ s t⟩

/-! ## Every crash -/

/-- The tree a computation leaves, when it returns or when the comparator panics. -/
def Leaves (o : Out σ (Tree K V) α) (P : Tree K V → Prop) : Prop :=
  match o with
  | .done _ t _ => P t
  | .crashed t => P t
  | .panicked => True
  | .outOfFuel => True

/-- The computation changes nothing, also when the comparator panics. -/
def ReadOnly (m : TM σ K V α) : Prop := ∀ s t, Leaves (m s t) (· = t)

theorem ReadOnly.pure (a : α) : ReadOnly (pure a : TM σ K V α) := fun _ _ => rfl

theorem ReadOnly.bind {m : TM σ K V α} {k : α → TM σ K V β} (h : ReadOnly m) (hk : ∀ a, ReadOnly (k a)) : ReadOnly (m >>= k) := by
  intro s t
  have e : (m >>= k) s t = TM.bind m k s t := rfl
  rw [e, TM.bind]
  have := h s t
  cases o : m s t with
  | done a t' s' => rw [o] at this; obtain rfl : t' = t := this; exact hk a s' t'
  | crashed t' => rw [o] at this; exact this
  | panicked => trivial
  | outOfFuel => trivial

theorem ReadOnly.read (r : Tree K V → Res α) : ReadOnly (TM.read r : TM σ K V α) := by
  intro s t
  rw [TM.read]
  cases r t with
  | ok a => rfl
  | panic => trivial
  | outOfFuel => trivial

theorem ReadOnly.cmp (ask : CmpFn σ K) (x y : K) : ReadOnly (TM.cmp ask x y : TM σ K V Int) := by
  intro s t
  rw [TM.cmp]
  cases ask s x y with
  | none => rfl
  | some q => rfl

theorem readOnly_lowerBoundFrom (ask : CmpFn σ K) (key : K) (n : Nat) (x : Option Id) :
    ReadOnly (lowerBoundFromC ask key n x : TM σ K V (Option Id)) := by
  induction n generalizing x with
  | zero => intro s t; trivial
  | succ n ih =>
    cases x with
    | none => exact .pure _
    | some xi =>
      refine .bind (.read _) fun xn => .bind (.cmp _ _ _) fun r => ?_
      split
      · refine .bind (ih _) fun ret => ?_
        cases ret with
        | none => exact .pure _
        | some r => refine .bind (.read _) fun rn => .bind (.cmp _ _ _) fun q => ?_; split <;> exact .pure _
      · exact ih _

theorem readOnly_upperBoundFrom (ask : CmpFn σ K) (key : K) (n : Nat) (x : Option Id) :
    ReadOnly (upperBoundFromC ask key n x : TM σ K V (Option Id)) := by
  induction n generalizing x with
  | zero => intro s t; trivial
  | succ n ih =>
    cases x with
    | none => exact .pure _
    | some xi =>
      refine .bind (.read _) fun xn => .bind (.cmp _ _ _) fun r => ?_
      split
      · exact ih _
      · refine .bind (ih _) fun ret => ?_
        cases ret with
        | none => exact .pure _
        | some r => refine .bind (.read _) fun rn => .bind (.cmp _ _ _) fun q => ?_; split <;> exact .pure _

theorem readOnly_findNode (ask : CmpFn σ K) (key : K) : ReadOnly (findNodeC ask key : TM σ K V (Option Id)) := by
  refine .bind (.bind (.read _) fun q => readOnly_lowerBoundFrom ask key _ _) fun node => ?_
  cases node with
  | none => exact .pure _
  | some i => refine .bind (.read _) fun n => .bind (.cmp _ _ _) fun r => ?_; split <;> exact .pure _

theorem readOnly_insertDescend (ask : CmpFn σ K) (key : K) (n : Nat) (x y : Option Id) :
    ReadOnly (insertDescendC ask key n x y : TM σ K V (Option Id)) := by
  induction n generalizing x y with
  | zero => intro s t; trivial
  | succ n ih =>
    cases x with
    | none => exact .pure _
    | some xi =>
      refine .bind (.read _) fun xn => .bind (.cmp _ _ _) fun r => ?_
      split
      · exact ih _ _
      · exact ih _ _

/-- **C88** The lookups (`FindNode`, `Find`, `Contains`, `Get`, `FindLowerBoundNode`, `LowerBound`, `FindUpperBoundNode`, `UpperBound`) of
trees, maps and sets leave the tree as it was, with any comparator whatsoever, also when it panics. -/
theorem C88_tree_lookups (ask : CmpFn σ K) (key : K) (s : σ) (t : Tree K V) :
    Leaves (findNodeC ask key s t) (· = t) ∧ Leaves (findLowerBoundNodeC ask key s t) (· = t) ∧
    Leaves (findUpperBoundNodeC ask key s t) (· = t) :=
  ⟨readOnly_findNode ask key s t, ReadOnly.bind (.read _) (fun _ => readOnly_lowerBoundFrom ask key _ _) s t,
    ReadOnly.bind (.read _) (fun _ => readOnly_upperBoundFrom ask key _ _) s t⟩

/-! ## On a well-formed tree -/

/-- The computation returns with `P`, or the comparator panics and the tree satisfies `Q`; nothing else panics and every loop ends. -/
def Ends (o : Out σ (Tree K V) α) (P : α → Tree K V → Prop) (Q : Tree K V → Prop) : Prop :=
  match o with
  | .done a t _ => P a t
  | .crashed t => Q t
  | .panicked => False
  | .outOfFuel => False

theorem Ends.bind {m : TM σ K V α} {k : α → TM σ K V β} {s : σ} {t : Tree K V} {P : α → Tree K V → Prop} {P' : β → Tree K V → Prop}
    {Q : Tree K V → Prop} (h : Ends (m s t) P Q) (hk : ∀ a t' s', P a t' → Ends (k a s' t') P' Q) : Ends ((m >>= k) s t) P' Q := by
  have e : (m >>= k) s t = TM.bind m k s t := rfl
  rw [e, TM.bind]
  cases o : m s t with
  | done a t' s' => rw [o] at h; exact hk a t' s' h
  | crashed t' => rw [o] at h; exact h
  | panicked => rw [o] at h; exact h
  | outOfFuel => rw [o] at h; exact h

theorem Ends.bind_read {r : Tree K V → Res α} {k : α → TM σ K V β} {s : σ} {t : Tree K V} {P' : β → Tree K V → Prop}
    {Q : Tree K V → Prop} {a : α} (h : r t = .ok a) (hk : Ends (k a s t) P' Q) : Ends ((TM.read r >>= k) s t) P' Q := by
  have e : (TM.read r >>= k) s t = TM.bind (TM.read r) k s t := rfl
  rw [e, TM.bind, TM.read, h]
  exact hk

theorem Ends.bind_cmp {ask : CmpFn σ K} {x y : K} {k : Int → TM σ K V β} {s : σ} {t : Tree K V} {P' : β → Tree K V → Prop}
    {Q : Tree K V → Prop} (hq : ask s x y = none → Q t) (hk : ∀ r s', Ends (k r s' t) P' Q) : Ends ((TM.cmp ask x y >>= k) s t) P' Q := by
  have e : (TM.cmp ask x y >>= k) s t = TM.bind (TM.cmp ask x y) k s t := rfl
  rw [e, TM.bind, TM.cmp]
  cases o : ask s x y with
  | none => exact hq o
  | some q => exact hk q.1 q.2

theorem Ends.mono {o : Out σ (Tree K V) α} {P P' : α → Tree K V → Prop} {Q Q' : Tree K V → Prop} (h : Ends o P Q)
    (hp : ∀ a t, P a t → P' a t) (hq : ∀ t, Q t → Q' t) : Ends o P' Q' := by
  cases o with
  | done a t s => exact hp _ _ h
  | crashed t => exact hq _ h
  | panicked => exact h
  | outOfFuel => exact h

/-- The comparator can panic when it is asked about two keys of the list. -/
def Asked (ask : CmpFn σ K) (D : List K) : Prop := ∃ st x y, x ∈ D ∧ y ∈ D ∧ ask st x y = none

theorem Asked.mono {ask : CmpFn σ K} {D D' : List K} (h : Asked ask D) (hD : ∀ x ∈ D, x ∈ D') : Asked ask D' := by
  obtain ⟨st, x, y, hx, hy, e⟩ := h
  exact ⟨st, x, y, hD x hx, hD y hy, e⟩

/-- The keys of a tree. -/
abbrev keysOf (t : T K V) : List K := t.entries.map (·.2.1)

theorem own_key {l r : T K V} {i b k v} : k ∈ keysOf (.node l i b k v r) :=
  List.mem_map.2 ⟨(i, k, v), by simp, rfl⟩

theorem left_key {l r : T K V} {i b k v x} (h : x ∈ keysOf l) : x ∈ keysOf (.node l i b k v r) := by
  simp only [keysOf, T.entries, List.map_append, List.mem_append]; exact .inl h

theorem right_key {l r : T K V} {i b k v x} (h : x ∈ keysOf r) : x ∈ keysOf (.node l i b k v r) := by
  simp only [keysOf, T.entries, List.map_append, List.map_cons, List.mem_append, List.mem_cons]; exact .inr (.inr h)

theorem Rep.mem_heap {h : Id → Option (Node K V)} {par : Option Id} {t : T K V} {j : Id} (hr : Rep h par t) (hj : j ∈ t.ids) :
    ∃ nd, h j = some nd ∧ nd.key ∈ keysOf t := by
  induction t generalizing par with
  | leaf => cases hj
  | node ll li lb lk lv lr ih1 ih2 =>
    obtain ⟨g1, g2, g3⟩ := hr
    simp only [T.ids, List.mem_append, List.mem_cons] at hj
    rcases hj with hj | rfl | hj
    · obtain ⟨nd, e, hk⟩ := ih1 g2 hj
      exact ⟨nd, e, left_key hk⟩
    · exact ⟨_, g1, own_key⟩
    · obtain ⟨nd, e, hk⟩ := ih2 g3 hj
      exact ⟨nd, e, by simp only [keysOf, T.entries, List.map_append, List.map_cons, List.mem_append, List.mem_cons]; exact .inr (.inr hk)⟩

theorem Asked.left {ask : CmpFn σ K} {key : K} {l r : T K V} {i b k v} (h : Asked ask (key :: keysOf l)) :
    Asked ask (key :: keysOf (.node l i b k v r)) := h.mono fun x hx => by
  simp only [keysOf, T.entries, List.map_append, List.mem_append, List.mem_cons] at hx ⊢
  tauto

theorem Asked.right {ask : CmpFn σ K} {key : K} {l r : T K V} {i b k v} (h : Asked ask (key :: keysOf r)) :
    Asked ask (key :: keysOf (.node l i b k v r)) := h.mono fun x hx => by
  simp only [keysOf, T.entries, List.map_append, List.map_cons, List.mem_append, List.mem_cons] at hx ⊢
  tauto

theorem lowerBoundFrom_ends (ask : CmpFn σ K) (key : K) (s : Tree K V) : ∀ (t : T K V) (par : Option Id) (n : Nat) (st : σ),
    Rep s.heap par t → t.height < n →
    Ends (lowerBoundFromC ask key n t.rootId st s) (fun a s' => s' = s ∧ ∀ i, a = some i → i ∈ t.ids)
      (fun s' => s' = s ∧ Asked ask (key :: keysOf t)) := by
  intro t
  induction t with
  | leaf =>
    intro par n st _ hn
    obtain ⟨m, rfl⟩ : ∃ m, n = m + 1 := ⟨n - 1, by omega⟩
    exact ⟨rfl, fun i h => by cases h⟩
  | node l i b k v r ihl ihr =>
    intro par n st hr hn
    obtain ⟨m, rfl⟩ : ∃ m, n = m + 1 := ⟨n - 1, by omega⟩
    obtain ⟨h1, h2, h3⟩ := hr
    simp only [T.height] at hn
    refine Ends.bind_read (by show s.node i = _; rw [Tree.node, h1]; rfl) (Ends.bind_cmp (fun e => ⟨rfl, _, _, _, List.mem_cons_self, List.mem_cons_of_mem _ own_key, e⟩) fun q st => ?_)
    split
    · refine Ends.bind ((ihl _ m st h2 (by omega)).mono (fun _ _ h => h) fun _ h => ⟨h.1, h.2.left⟩) fun ret s' st hret => ?_
      obtain ⟨rfl, hret⟩ := hret
      cases ret with
      | none => exact ⟨rfl, fun j h => by cases h; simp⟩
      | some j =>
        have hj := hret j rfl
        obtain ⟨nd, e, hk⟩ := h2.mem_heap hj
        refine Ends.bind_read (a := nd) (by show s'.node j = _; rw [Tree.node, e]; rfl)
          (Ends.bind_cmp (fun e => ⟨rfl, _, _, _, List.mem_cons_of_mem _ (left_key hk), List.mem_cons_of_mem _ own_key, e⟩) fun q st => ?_)
        split
        · exact ⟨rfl, fun x h => by cases h; simp [hj]⟩
        · exact ⟨rfl, fun x h => by cases h; simp⟩
    · exact (ihr _ m st h3 (by omega)).mono (fun a t h => ⟨h.1, fun i e => by simp [h.2 i e]⟩) fun t h => ⟨h.1, h.2.right⟩

theorem upperBoundFrom_ends (ask : CmpFn σ K) (key : K) (s : Tree K V) : ∀ (t : T K V) (par : Option Id) (n : Nat) (st : σ),
    Rep s.heap par t → t.height < n →
    Ends (upperBoundFromC ask key n t.rootId st s) (fun a s' => s' = s ∧ ∀ i, a = some i → i ∈ t.ids)
      (fun s' => s' = s ∧ Asked ask (key :: keysOf t)) := by
  intro t
  induction t with
  | leaf =>
    intro par n st _ hn
    obtain ⟨m, rfl⟩ : ∃ m, n = m + 1 := ⟨n - 1, by omega⟩
    exact ⟨rfl, fun i h => by cases h⟩
  | node l i b k v r ihl ihr =>
    intro par n st hr hn
    obtain ⟨m, rfl⟩ : ∃ m, n = m + 1 := ⟨n - 1, by omega⟩
    obtain ⟨h1, h2, h3⟩ := hr
    simp only [T.height] at hn
    refine Ends.bind_read (by show s.node i = _; rw [Tree.node, h1]; rfl) (Ends.bind_cmp (fun e => ⟨rfl, _, _, _, List.mem_cons_self, List.mem_cons_of_mem _ own_key, e⟩) fun q st => ?_)
    split
    · exact (ihr _ m st h3 (by omega)).mono (fun a t h => ⟨h.1, fun i e => by simp [h.2 i e]⟩) fun t h => ⟨h.1, h.2.right⟩
    · refine Ends.bind ((ihl _ m st h2 (by omega)).mono (fun _ _ h => h) fun _ h => ⟨h.1, h.2.left⟩) fun ret s' st hret => ?_
      obtain ⟨rfl, hret⟩ := hret
      cases ret with
      | none => exact ⟨rfl, fun j h => by cases h; simp⟩
      | some j =>
        have hj := hret j rfl
        obtain ⟨nd, e, hk⟩ := h2.mem_heap hj
        refine Ends.bind_read (a := nd) (by show s'.node j = _; rw [Tree.node, e]; rfl)
          (Ends.bind_cmp (fun e => ⟨rfl, _, _, _, List.mem_cons_of_mem _ (left_key hk), List.mem_cons_of_mem _ own_key, e⟩) fun q st => ?_)
        split
        · exact ⟨rfl, fun x h => by cases h; simp [hj]⟩
        · exact ⟨rfl, fun x h => by cases h; simp⟩

/-- The descent ends below a node of the tree whose key was compared with `key`. -/
theorem insertDescend_ends (ask : CmpFn σ K) (key : K) (s : Tree K V) : ∀ (t : T K V) (par y : Option Id) (n : Nat) (st : σ),
    Rep s.heap par t → t.height < n →
    Ends (insertDescendC ask key n t.rootId y st s)
      (fun a s' => s' = s ∧ (a = y ∨ ∃ i nd st, a = some i ∧ i ∈ t.ids ∧ s.heap i = some nd ∧ nd.key ∈ keysOf t ∧ ask st key nd.key ≠ none))
      (fun s' => s' = s ∧ Asked ask (key :: keysOf t)) := by
  intro t
  induction t with
  | leaf =>
    intro par y n st _ hn
    obtain ⟨m, rfl⟩ : ∃ m, n = m + 1 := ⟨n - 1, by omega⟩
    exact ⟨rfl, .inl rfl⟩
  | node l i b k v r ihl ihr =>
    intro par y n st hr hn
    obtain ⟨m, rfl⟩ : ∃ m, n = m + 1 := ⟨n - 1, by omega⟩
    obtain ⟨h1, h2, h3⟩ := hr
    simp only [T.height] at hn
    refine Ends.bind_read (by show s.node i = _; rw [Tree.node, h1]; rfl) ?_
    show Ends (TM.bind (TM.cmp ask key k) _ st s) _ _
    rw [TM.bind, TM.cmp]
    cases o : ask st key k with
    | none => exact ⟨rfl, _, _, _, List.mem_cons_self, List.mem_cons_of_mem _ own_key, o⟩
    | some q =>
      show Ends ((if q.1 < 0 then _ else _ : TM σ K V (Option Id)) q.2 s) _ _
      have own : ∃ j nd st, some i = some j ∧ j ∈ (T.node l i b k v r).ids ∧ s.heap j = some nd ∧
          nd.key ∈ keysOf (T.node l i b k v r) ∧ ask st key nd.key ≠ none := ⟨i, _, st, rfl, by simp, h1, own_key, by simp [o]⟩
      split
      · refine (ihl _ (some i) m q.2 h2 (by omega)).mono (fun a t h => ⟨h.1, .inr ?_⟩) fun t h => ⟨h.1, h.2.left⟩
        rcases h.2 with rfl | ⟨j, nd, st, e1, e2, e3, e4, e5⟩
        · exact own
        · exact ⟨j, nd, st, e1, by simp [e2], e3, left_key e4, e5⟩
      · refine (ihr _ (some i) m q.2 h3 (by omega)).mono (fun a t h => ⟨h.1, .inr ?_⟩) fun t h => ⟨h.1, h.2.right⟩
        rcases h.2 with rfl | ⟨j, nd, st, e1, e2, e3, e4, e5⟩
        · exact own
        · exact ⟨j, nd, st, e1, by simp [e2], e3, right_key e4, e5⟩

theorem lowerBound_ends (ask : CmpFn σ K) (key : K) {s : Tree K V} {t : T K V} (h : Reps s t) (st : σ) :
    Ends (findLowerBoundNodeC ask key st s) (fun a s' => s' = s ∧ ∀ i, a = some i → i ∈ t.ids)
      (fun s' => s' = s ∧ Asked ask (key :: keysOf t)) := by
  refine Ends.bind_read (a := (s.fuel, s.root)) rfl ?_
  rw [h.root]
  exact lowerBoundFrom_ends ask key s t none _ st h.rep h.height_lt

theorem upperBound_ends (ask : CmpFn σ K) (key : K) {s : Tree K V} {t : T K V} (h : Reps s t) (st : σ) :
    Ends (findUpperBoundNodeC ask key st s) (fun a s' => s' = s ∧ ∀ i, a = some i → i ∈ t.ids)
      (fun s' => s' = s ∧ Asked ask (key :: keysOf t)) := by
  refine Ends.bind_read (a := (s.fuel, s.root)) rfl ?_
  rw [h.root]
  exact upperBoundFrom_ends ask key s t none _ st h.rep h.height_lt

theorem findNode_ends (ask : CmpFn σ K) (key : K) {s : Tree K V} {t : T K V} (h : Reps s t) (st : σ) :
    Ends (findNodeC ask key st s) (fun a s' => s' = s ∧ ∀ i, a = some i → i ∈ t.ids)
      (fun s' => s' = s ∧ Asked ask (key :: keysOf t)) := by
  refine Ends.bind (lowerBound_ends ask key h st) fun ret s' st hret => ?_
  obtain ⟨rfl, hret⟩ := hret
  cases ret with
  | none => exact ⟨rfl, fun i e => by cases e⟩
  | some j =>
    obtain ⟨nd, e, hk⟩ := h.rep.mem_heap (hret j rfl)
    refine Ends.bind_read (a := nd) (by show s'.node j = _; rw [Tree.node, e]; rfl) 
      (Ends.bind_cmp (fun e => ⟨rfl, _, _, _, List.mem_cons_of_mem _ hk, List.mem_cons_self, e⟩) fun q st => ?_)
    split
    · exact ⟨rfl, fun i e => by cases e; exact hret _ rfl⟩
    · exact ⟨rfl, fun i e => by cases e⟩

/-- **C88** On every tree built by any calls, with any comparator: the lookups end, the node they answer is one of the tree, and the tree is
as before, also when the comparator panics; it is asked only about keys of the tree and the given key. -/
theorem C88_tree_lookups_end (ask : CmpFn σ K) (key : K) (st : σ) {s : Tree K V} {es : List (Id × K × V)} (h : Holds s es) :
    Ends (findNodeC ask key st s) (fun a s' => s' = s ∧ ∀ i, a = some i → Linked s i) (fun s' => s' = s ∧ Asked ask (key :: es.map (·.2.1))) ∧
    Ends (findLowerBoundNodeC ask key st s) (fun a s' => s' = s ∧ ∀ i, a = some i → Linked s i)
      (fun s' => s' = s ∧ Asked ask (key :: es.map (·.2.1))) ∧
    Ends (findUpperBoundNodeC ask key st s) (fun a s' => s' = s ∧ ∀ i, a = some i → Linked s i)
      (fun s' => s' = s ∧ Asked ask (key :: es.map (·.2.1))) := by
  obtain ⟨t, h1, -, rfl, -⟩ := h
  have w : ∀ (a : Option Id) (s' : Tree K V), (s' = s ∧ ∀ i, a = some i → i ∈ t.ids) → s' = s ∧ ∀ i, a = some i → Linked s i :=
    fun a s' g => ⟨g.1, fun i e => (linked_iff h1 i).2 (g.2 i e)⟩
  exact ⟨(findNode_ends ask key h1 st).mono w fun _ h => h, (lowerBound_ends ask key h1 st).mono w fun _ h => h,
    (upperBound_ends ask key h1 st).mono w fun _ h => h⟩

/-! ### Insert -/

/-- The tree is well formed and holds the entries `es`, whatever its count says. -/
def HoldsUncounted (s : Tree K V) (es : List (Id × K × V)) : Prop := ∃ t, Reps s t ∧ RBT t ∧ t.entries = es

theorem HoldsUncounted.fix {s : Tree K V} {es : List (Id × K × V)} (h : HoldsUncounted s es) :
    Holds { s with size := es.length } es := by
  obtain ⟨t, h1, h2, h3⟩ := h
  exact ⟨t, ⟨h1.root, h1.rep, h1.nodup, h1.fresh⟩, h2, h3, rfl⟩

theorem HoldsUncounted.walk {s : Tree K V} (B : List (Id × K × V)) : ∀ (A) (fuel : Nat), HoldsUncounted s (A ++ B) → B.length < fuel →
    walk s fuel (hd B) = .ok B := by
  induction B with
  | nil =>
    intro A fuel h hf
    obtain ⟨f, rfl⟩ : ∃ f, fuel = f + 1 := ⟨fuel - 1, by simp at hf; omega⟩
    simp [RB.walk]
  | cons e B ih =>
    intro A fuel h hf
    obtain ⟨f, rfl⟩ : ∃ f, fuel = f + 1 := ⟨fuel - 1, by simp at hf; omega⟩
    obtain ⟨i, k, v⟩ := e
    obtain ⟨t, g1, g2, g3⟩ := id h
    obtain ⟨n, h1, rfl, rfl⟩ := g1.lookup_entry (i := i) (k := k) (v := v) (by rw [g3]; simp)
    have h2 := successor_spec g1 g3
    have h3 := ih (A ++ [(i, n.key, n.value)]) f (by simpa using h) (by simp at hf; omega)
    simp [RB.walk, h1, h2, h3]

theorem HoldsUncounted.toList {s : Tree K V} {es} (h : HoldsUncounted s es) : toList s = .ok es := by
  obtain ⟨t, g1, g2, g3⟩ := id h
  have hl := g1.length_le
  rw [T.ids_eq, List.length_map, g3] at hl
  simp only [RB.toList, first_spec g1, g3, Res.ok_bind]
  exact HoldsUncounted.walk es [] s.fuel (by simpa using h) (by simp only [Tree.fuel]; omega)

theorem HoldsUncounted.isRbTree {s : Tree K V} {es} (h : HoldsUncounted s es) : s.isRbTree = .ok true := by
  obtain ⟨t, h1, h2, h3⟩ := h
  obtain ⟨ok, h5, h6⟩ := isRbTree_spec h1
  rw [h5, h6.2 h2]

theorem crashed_bind {m : TM σ K V α} {k : α → TM σ K V β} {s : σ} {t t' : Tree K V} (h : (m >>= k) s t = .crashed t') :
    m s t = .crashed t' ∨ ∃ a t1 s1, m s t = .done a t1 s1 ∧ k a s1 t1 = .crashed t' := by
  have e : (m >>= k) s t = TM.bind m k s t := rfl
  rw [e, TM.bind] at h
  cases o : m s t with
  | done a t1 s1 => rw [o] at h; exact .inr ⟨a, t1, s1, rfl, h⟩
  | crashed t1 => rw [o] at h; cases h; exact .inl rfl
  | panicked => rw [o] at h; cases h
  | outOfFuel => rw [o] at h; cases h

theorem crashed_read {r : Tree K V → Res α} {k : α → TM σ K V β} {s : σ} {t t' : Tree K V} (h : (TM.read r >>= k) s t = .crashed t') :
    ∃ a, r t = .ok a ∧ k a s t = .crashed t' := by
  have e : (TM.read r >>= k) s t = TM.bind (TM.read r) k s t := rfl
  rw [e, TM.bind, TM.read] at h
  cases o : r t with
  | ok a => rw [o] at h; exact ⟨a, rfl, h⟩
  | panic => rw [o] at h; cases h
  | outOfFuel => rw [o] at h; cases h

theorem not_crashed_write {w : Tree K V → Res (Tree K V)} {s : σ} {t t' : Tree K V} (h : (TM.write w : TM σ K V Unit) s t = .crashed t') :
    False := by
  rw [TM.write] at h
  cases o : w t <;> rw [o] at h <;> cases h

/-- The two ways in which `Insert` can end in a panic of the comparator. -/
theorem insert_crashed {ask : CmpFn σ K} {key : K} {value : V} {st : σ} {s s' : Tree K V} {t : T K V} (h : Reps s t)
    (e : insertC ask key value st s = .crashed s') :
    (s' = s ∧ Asked ask (key :: keysOf t)) ∨ ∃ y, ∃ nd : Node K V, ∃ st1 st2, s' = s.alloc (some y) key value ∧ nd.key ∈ keysOf t ∧
      ask st1 key nd.key ≠ none ∧ ask st2 key nd.key = none := by
  obtain ⟨q, e1, e⟩ := crashed_read e
  cases e1
  simp only at e
  have hd := insertDescend_ends ask key s t none none s.fuel st h.rep h.height_lt
  rw [← h.root] at hd
  rcases crashed_bind e with e | ⟨y, s1, st1, e1, e⟩
  · rw [e] at hd; exact .inl hd
  · rw [e1] at hd
    obtain ⟨rfl, hd⟩ := hd
    obtain e | ⟨u, s2, st2, e2, e⟩ := crashed_bind e
    · exact (not_crashed_write e).elim
    · cases e2
      cases y with
      | none => exact (not_crashed_write e).elim
      | some y =>
        rcases hd with hd | ⟨i, nd, st3, e3, hi, hn, ha⟩
        · cases hd
        · cases e3
          have hy := h.fresh y hi
          obtain ⟨yn, e4, e⟩ := crashed_read e
          obtain ⟨zn, e5, e⟩ := crashed_read e
          have e4 : Tree.node (s1.alloc (some y) key value) y = .ok yn := e4
          have e5 : Tree.node (s1.alloc (some y) key value) s1.next = .ok zn := e5
          rw [Tree.node, Tree.alloc] at e4 e5
          simp only [if_true, Nat.ne_of_lt hy, if_false, hn] at e4 e5
          cases e4; cases e5
          rcases crashed_bind e with e | ⟨r, s3, st4, -, e⟩
          · refine .inr ⟨y, nd, st3, st1, ?_, ha.1, ha.2, ?_⟩
            · rw [TM.cmp] at e
              simp only at e
              cases o : ask st1 key nd.key with
              | none => rw [o] at e; cases e; rfl
              | some q => rw [o] at e; cases e
            · rw [TM.cmp] at e
              simp only at e
              cases o : ask st1 key nd.key with
              | none => rfl
              | some q => rw [o] at e; cases e
          · exact (not_crashed_write e).elim

theorem HoldsUncounted.alloc {s : Tree K V} {es : List (Id × K × V)} (h : HoldsUncounted s es) (y : Option Id) (key : K) (value : V) :
    HoldsUncounted (s.alloc y key value) es := by
  obtain ⟨t, h1, h2, h3⟩ := h
  refine ⟨t, ⟨h1.root, h1.rep.frame fun i hi => ?_, h1.nodup, fun i hi => ?_⟩, h2, h3⟩
  · have := h1.fresh i hi
    simp only [Tree.alloc, Nat.ne_of_lt this, if_false]
  · have := h1.fresh i hi
    exact Nat.lt_succ_of_lt this

theorem Holds.uncounted {s : Tree K V} {es : List (Id × K × V)} (h : Holds s es) : HoldsUncounted s es := by
  obtain ⟨t, h1, h2, h3, -⟩ := h
  exact ⟨t, h1, h2, h3⟩

/-- What `Insert` leaves behind when the comparator panics. -/
theorem insert_crash {ask : CmpFn σ K} {key : K} {value : V} {st : σ} {s s' : Tree K V} {es : List (Id × K × V)} (h : Holds s es)
    (e : insertC ask key value st s = .crashed s') :
    toList s' = .ok es ∧ s'.isRbTree = .ok true ∧ (s'.size = es.length ∨ s'.size = es.length + 1) := by
  obtain ⟨t, h1, h2, h3, h4⟩ := id h
  rcases insert_crashed h1 e with ⟨rfl, -⟩ | ⟨y, nd, st1, st2, rfl, -⟩
  · exact ⟨h.toList, h.isRbTree, .inl h.size_eq⟩
  · have g := h.uncounted.alloc (some y) key value
    refine ⟨g.toList, g.isRbTree, .inr ?_⟩
    show s.size + 1 = _
    rw [h4]

theorem insert_crash_unchanged {ask : CmpFn σ K} (hp : ∀ s s' x y, ask s x y = none → ask s' x y = none) {key : K} {value : V} {st : σ}
    {s s' : Tree K V} {es : List (Id × K × V)} (h : Holds s es) (e : insertC ask key value st s = .crashed s') : s' = s := by
  obtain ⟨t, h1, -⟩ := h
  rcases insert_crashed h1 e with ⟨rfl, -⟩ | ⟨y, nd, st1, st2, -, -, h2, h3⟩
  · rfl
  · exact (h2 (hp _ _ _ _ h3)).elim

theorem mapInsert_crashed {ask : CmpFn σ K} {key : K} {value : V} {st : σ} {s s' : Tree K V} 
    (e : mapInsertC ask key value st s = .crashed s') : s' = s ∨ ∃ st', insertC ask key value st' s = .crashed s' := by
  have hr := readOnly_findNode ask key st s
  rcases crashed_bind e with e | ⟨a, s1, st1, e1, e⟩
  · rw [e] at hr; exact .inl hr
  · rw [e1] at hr
    obtain rfl : s1 = s := hr
    cases a with
    | none => exact .inr ⟨st1, e⟩
    | some i => exact (not_crashed_write e).elim

theorem setInsert_crashed {ask : CmpFn σ K} {key : K} {st : σ} {s s' : Tree K Bool} 
    (e : setInsertC ask key st s = .crashed s') : s' = s ∨ ∃ st', insertC ask key true st' s = .crashed s' := by
  have hr := readOnly_findNode ask key st s
  rcases crashed_bind e with e | ⟨a, s1, st1, e1, e⟩
  · rw [e] at hr; exact .inl hr
  · rw [e1] at hr
    obtain rfl : s1 = s := hr
    cases a with
    | none => exact .inr ⟨st1, e⟩
    | some i => cases e

/-- What is left when an insertion ends in a panic of the comparator: the entries are the same ones in the same order and the tree is
well formed; only its count may be one too many. -/
def Kept (es : List (Id × K × V)) (s' : Tree K V) : Prop :=
  toList s' = .ok es ∧ s'.isRbTree = .ok true ∧ (s'.size = es.length ∨ s'.size = es.length + 1)

/-- **C88** `Insert` of trees, maps and sets with a comparator that panics at any call: the entries are as before the call. Missing from the
full claim: that `Size` is as before (false, `C88_violated_size`). -/
theorem C88_tree_insert_partial (ask : CmpFn σ K) (key : K) (st : σ) :
    (∀ (s s' : Tree K V) (es : List (Id × K × V)) (value : V), Holds s es → insertC ask key value st s = .crashed s' → Kept es s') ∧
    (∀ (s s' : Tree K V) (es : List (Id × K × V)) (value : V), Holds s es → mapInsertC ask key value st s = .crashed s' → Kept es s') ∧
    (∀ (s s' : Tree K Bool) (es : List (Id × K × Bool)), Holds s es → setInsertC ask key st s = .crashed s' → Kept es s') := by
  refine ⟨fun s s' es value h e => insert_crash h e, fun s s' es value h e => ?_, fun s s' es h e => ?_⟩
  · rcases mapInsert_crashed e with rfl | ⟨st', e⟩
    · exact ⟨h.toList, h.isRbTree, .inl h.size_eq⟩
    · exact insert_crash h e
  · rcases setInsert_crashed e with rfl | ⟨st', e⟩
    · exact ⟨h.toList, h.isRbTree, .inl h.size_eq⟩
    · exact insert_crash h e

/-- **C88** When it depends only on the two keys whether the comparator panics, an insertion that panics leaves tree, map and set exactly as
they were, the count included. -/
theorem C88_tree_insert_pure (ask : CmpFn σ K) (hp : ∀ s s' x y, ask s x y = none → ask s' x y = none) (key : K) (st : σ) :
    (∀ (s s' : Tree K V) (es : List (Id × K × V)) (value : V), Holds s es → insertC ask key value st s = .crashed s' → s' = s) ∧
    (∀ (s s' : Tree K V) (es : List (Id × K × V)) (value : V), Holds s es → mapInsertC ask key value st s = .crashed s' → s' = s) ∧
    (∀ (s s' : Tree K Bool) (es : List (Id × K × Bool)), Holds s es → setInsertC ask key st s = .crashed s' → s' = s) := by
  refine ⟨fun s s' es value h e => insert_crash_unchanged hp h e, fun s s' es value h e => ?_, fun s s' es h e => ?_⟩
  · rcases mapInsert_crashed e with rfl | ⟨st', e⟩
    · rfl
    · exact insert_crash_unchanged hp h e
  · rcases setInsert_crashed e with rfl | ⟨st', e⟩
    · rfl
    · exact insert_crash_unchanged hp h e

theorem insert_asked {ask : CmpFn σ K} {key : K} {value : V} {st : σ} {s s' : Tree K V} {es : List (Id × K × V)} (h : Holds s es)
    (e : insertC ask key value st s = .crashed s') : Asked ask (key :: es.map (·.2.1)) := by
  obtain ⟨t, h1, -, rfl, -⟩ := h
  rcases insert_crashed h1 e with ⟨-, h2⟩ | ⟨y, nd, st1, st2, -, h2, -, h3⟩
  · exact h2
  · exact ⟨_, _, _, List.mem_cons_self, List.mem_cons_of_mem _ h2, h3⟩

/-- **C88** An insertion panics only when the comparator does, asked about keys of the tree and the given key. -/
theorem C88_tree_insert_asks (ask : CmpFn σ K) (key : K) (st : σ) :
    (∀ (s s' : Tree K V) (es : List (Id × K × V)) (value : V), Holds s es → insertC ask key value st s = .crashed s' →
      Asked ask (key :: es.map (·.2.1))) ∧
    (∀ (s s' : Tree K V) (es : List (Id × K × V)) (value : V), Holds s es → mapInsertC ask key value st s = .crashed s' →
      Asked ask (key :: es.map (·.2.1))) ∧
    (∀ (s s' : Tree K Bool) (es : List (Id × K × Bool)), Holds s es → setInsertC ask key st s = .crashed s' →
      Asked ask (key :: es.map (·.2.1))) := by
  refine ⟨fun s s' es value h e => insert_asked h e, fun s s' es value h e => ?_, fun s s' es h e => ?_⟩
  · have hf := (C88_tree_lookups_end ask key st h).1
    rcases crashed_bind e with e | ⟨a, s1, st1, e1, e⟩
    · rw [e] at hf; exact hf.2
    · rw [e1] at hf
      obtain rfl : s1 = s := hf.1
      cases a with
      | none => exact insert_asked h e
      | some i => exact (not_crashed_write e).elim
  · have hf := (C88_tree_lookups_end ask key st h).1
    rcases crashed_bind e with e | ⟨a, s1, st1, e1, e⟩
    · rw [e] at hf; exact hf.2
    · rw [e1] at hf
      obtain rfl : s1 = s := hf.1
      cases a with
      | none => exact insert_asked h e
      | some i => cases e

/-! ### Erase -/

/-- **C88** `Map.Erase`, `Set.Erase`, `MultiSet.Erase` with any comparator: the call ends; when the comparator panics nothing has changed,
otherwise nothing has changed or one entry is gone. The comparator is asked only about keys of the tree and the given key. -/
theorem C88_tree_erase (ask : CmpFn σ K) (key : K) (st : σ) {s : Tree K V} {es : List (Id × K × V)} (h : Holds s es) :
    Ends (eraseOneC ask key st s)
      (fun _ s' => s' = s ∨ ∃ A e B es', es = A ++ e :: B ∧ Holds s' es' ∧ es'.map (·.2) = (A ++ B).map (·.2))
      (fun s' => s' = s ∧ Asked ask (key :: es.map (·.2.1))) := by
  obtain ⟨t, h1, -, h3, -⟩ := id h
  have hf := findNode_ends ask key h1 st
  rw [keysOf, h3] at hf
  refine Ends.bind hf fun ret s1 st1 hret => ?_
  obtain ⟨rfl, hret⟩ := hret
  cases ret with
  | none => exact .inl rfl
  | some i =>
    have hi := hret i rfl
    rw [T.ids_eq, h3] at hi
    obtain ⟨⟨j, k, v⟩, he, rfl⟩ := List.mem_map.1 hi
    obtain ⟨A, B, rfl⟩ := List.append_of_mem he
    obtain ⟨s', es', e, g1, g2, -⟩ := h.delete
    show Ends ((TM.write fun t => t.delete (some j) : TM σ K V Unit) st1 s1) _ _
    rw [TM.write, e]
    exact .inr ⟨A, _, B, es', rfl, g1, g2⟩

theorem eraseAllLoop_ends (ask : CmpFn σ K) (key : K) (n : Nat) (st : σ) {s : Tree K V} {es : List (Id × K × V)} (h : Holds s es)
    (hn : es.length < n) :
    Ends (eraseAllLoopC ask key n st s) (fun _ s' => ∃ es', Holds s' es' ∧ (es'.map (·.2)).Sublist (es.map (·.2)))
      (fun s' => ∃ es', Holds s' es' ∧ (es'.map (·.2)).Sublist (es.map (·.2))) := by
  induction n generalizing st s es with
  | zero => omega
  | succ n ih =>
    obtain ⟨t, h1, -, h3, -⟩ := id h
    have hf := (findNode_ends ask key h1 st).mono (P' := fun a s' => s' = s ∧ ∀ i, a = some i → i ∈ t.ids)
      (Q' := fun s' => ∃ es', Holds s' es' ∧ (es'.map (·.2)).Sublist (es.map (·.2))) (fun _ _ h => h)
      (fun s' e => ⟨es, e.1 ▸ h, List.Sublist.refl _⟩)
    refine Ends.bind hf fun ret s1 st1 hret => ?_
    obtain ⟨rfl, hret⟩ := hret
    cases ret with
    | none => exact ⟨es, h, List.Sublist.refl _⟩
    | some i =>
      have hi := hret i rfl
      rw [T.ids_eq, h3] at hi
      obtain ⟨⟨j, k, v⟩, he, rfl⟩ := List.mem_map.1 hi
      obtain ⟨A, B, rfl⟩ := List.append_of_mem he
      obtain ⟨s', es', e, g1, g2, -⟩ := h.delete
      have hl : es'.length = (A ++ B).length := by simpa using congrArg List.length g2
      have hsub : (es'.map (·.2)).Sublist ((A ++ (j, k, v) :: B).map (·.2)) := by
        rw [g2]
        exact ((List.sublist_cons_self _ _).append_left A).map _
      refine Ends.bind (P := fun _ t => t = s') (m := TM.write fun t => t.delete (some j)) ?_ fun u s2 st2 hu => ?_
      · rw [TM.write, e]
        rfl
      · cases hu
        refine (ih st2 g1 (by simp at hn hl; omega)).mono (fun _ t g => ?_) fun t g => ?_
        · obtain ⟨es2, g3, g4⟩ := g; exact ⟨es2, g3, g4.trans hsub⟩
        · obtain ⟨es2, g3, g4⟩ := g; exact ⟨es2, g3, g4.trans hsub⟩

/-- **C88** `MultiMap.Erase` and `MultiSet.EraseAll` with any comparator: the call ends, and whether the comparator panics or not the tree is
well formed (its count included) and holds some of its entries, in the same order. -/
theorem C88_tree_eraseAll (ask : CmpFn σ K) (key : K) (st : σ) {s : Tree K V} {es : List (Id × K × V)} (h : Holds s es) :
    Ends (eraseAllC ask key st s) (fun _ s' => ∃ es', Holds s' es' ∧ (es'.map (·.2)).Sublist (es.map (·.2)))
      (fun s' => ∃ es', Holds s' es' ∧ (es'.map (·.2)).Sublist (es.map (·.2))) := by
  refine Ends.bind_read (a := s.fuel) rfl (eraseAllLoop_ends ask key _ st h ?_)
  have := h.length_le
  simp only [Tree.fuel]; omega

/-! ### Where this stops, and cases that meet the hypotheses -/

open GoSTL.Algo (fuse fuse_answers flip)

/-- The tree with the keys 2, 1, 3, inserted in this order. -/
def three : Res (Tree Int Nat) := do
  let t ← (Tree.new : Tree Int Nat).insert (fun x y => x - y) 2 20
  let t ← t.insert (fun x y => x - y) 1 10
  t.insert (fun x y => x - y) 3 30

/-- The keys and values of a tree, in order. -/
def pairs (t : Tree K V) : Res (List (K × V)) := do let es ← toList t; pure (es.map (·.2))

set_option maxRecDepth 40000 in
/-- **C88, violated for the count** A comparator that panics at its third call, during the insertion of a fourth key: the tree still holds
its three entries, and `Size` answers 4. -/
theorem C88_violated_size : ∃ t t' : Tree Int Nat, three = .ok t ∧ insertC fuse 4 40 2 t = .crashed t' ∧
    pairs t' = .ok [(1, 10), (2, 20), (3, 30)] ∧ t'.size = 4 := ⟨_, _, rfl, rfl, rfl, rfl⟩

/-- The tree with the keys 2, 1, inserted in this order. -/
def two : Res (Tree Int Nat) := do
  let t ← (Tree.new : Tree Int Nat).insert (fun x y => x - y) 2 20
  t.insert (fun x y => x - y) 1 10

set_option maxRecDepth 40000 in
/-- **C88, violated for the entries** A comparator that does not panic but changes its mind between two calls: the insertion of 3 asks twice
how 3 compares with 2; the first answer sends it to the right, the second one links it on the left, over the entry 1. The entry is lost, and
`Size` answers 3. -/
theorem C88_violated_entries : ∃ (t t' : Tree Int Nat) (s : Bool), two = .ok t ∧ pairs t = .ok [(1, 10), (2, 20)] ∧
    insertC flip 3 30 true t = .done () t' s ∧ pairs t' = .ok [(3, 30), (2, 20)] ∧ t'.size = 3 := ⟨_, _, _, rfl, rfl, rfl, rfl, rfl⟩

/-- The tree `three` is one the theorems speak about. -/
theorem three_holds : ∃ t es, three = .ok t ∧ Holds t es ∧ es.map (·.2) = [(1, 10), (2, 20), (3, 30)] := by
  have h0 := Holds.new (K := Int) (V := Nat)
  obtain ⟨t1, es1, e1, h1, -⟩ := h0.insert_any (fun x y => x - y) 2 20
  obtain ⟨t2, es2, e2, h2, -⟩ := h1.insert_any (fun x y => x - y) 1 10
  obtain ⟨t3, es3, e3, h3, -⟩ := h2.insert_any (fun x y => x - y) 3 30
  have e : three = .ok t3 := by rw [three, e1, Res.ok_bind, e2, Res.ok_bind, e3]
  refine ⟨t3, es3, e, h3, ?_⟩
  have h4 := h3.toList
  obtain ⟨t, t', g1, g2, g3, -⟩ := C88_violated_size
  have h5 : pairs t' = .ok (es3.map (·.2)) := by
    obtain rfl : t = t3 := by rw [e] at g1; cases g1; rfl
    have := (insert_crash h3 g2).1
    rw [pairs, this]; rfl
  rw [g3] at h5
  exact (Res.ok.inj h5).symm

set_option maxRecDepth 40000 in
/-- `C88_tree_erase` where the comparator panics at its second call, and where it does not panic. -/
example : ∃ t, three = .ok t ∧ eraseOneC fuse 2 1 t = .crashed t ∧
    ∃ t' s, eraseOneC fuse 2 9 t = .done () t' s ∧ pairs t' = .ok [(1, 10), (3, 30)] := ⟨_, rfl, rfl, _, _, rfl, rfl⟩

set_option maxRecDepth 40000 in
/-- `C88_tree_eraseAll` on the keys 5, 5, 5: the comparator panics when one of them is gone. -/
example : ∃ t1 t2 t3 t' : Tree Int Nat, Tree.new.insert (fun x y => x - y) 5 1 = .ok t1 ∧ t1.insert (fun x y => x - y) 5 2 = .ok t2 ∧
    t2.insert (fun x y => x - y) 5 3 = .ok t3 ∧ eraseAllC fuse 5 5 t3 = .crashed t' ∧ pairs t' = .ok [(5, 2), (5, 3)] ∧ t'.size = 2 :=
  ⟨_, _, _, _, rfl, rfl, rfl, rfl, rfl, rfl⟩

/-- A comparator on integers that cannot compare with 0. -/
def noZero : CmpFn Unit Int := fun _ x y => if x = 0 ∨ y = 0 then none else some (x - y, ())

set_option maxRecDepth 40000 in
/-- `C88_tree_insert_pure`: the insertion of 0 panics. -/
example : ∃ t, three = .ok t ∧ insertC noZero 0 7 () t = .crashed t ∧ mapInsertC noZero 0 7 () t = .crashed t := ⟨_, rfl, rfl, rfl⟩

example (t t' : Tree Int Nat) (es) (h : Holds t es) (e : mapInsertC noZero 0 7 () t = .crashed t') : t' = t :=
  (C88_tree_insert_pure noZero (fun _ _ _ _ h => h) 0 ()).2.1 t t' es 7 h e

/-- The hypotheses of the theorems on well-formed trees. -/
example : ∃ t es, three = .ok t ∧ Holds t es ∧ es.length = 3 ∧
    Ends (eraseAllC fuse 2 4 t) (fun _ s' => ∃ es', Holds s' es' ∧ (es'.map (·.2)).Sublist (es.map (·.2)))
      (fun s' => ∃ es', Holds s' es' ∧ (es'.map (·.2)).Sublist (es.map (·.2))) ∧
    (∀ s', insertC fuse 4 40 2 t = .crashed s' → Kept es s') ∧
    Ends (findLowerBoundNodeC flip 2 true t) (fun a s' => s' = t ∧ ∀ i, a = some i → Linked t i)
      (fun s' => s' = t ∧ Asked flip (2 :: es.map (·.2.1))) ∧
    (∀ s', insertC fuse 4 40 2 t = .crashed s' → Asked fuse (4 :: es.map (·.2.1))) ∧
    Agree (mapInsertC fuse 4 40 30 t) (TreeMap.mapInsert (fun x y => x - y) t 4 40 >>= fun t => .ok ((), t)) := by
  obtain ⟨t, es, e, h, h2⟩ := three_holds
  exact ⟨t, es, e, h, by simpa using congrArg List.length h2, C88_tree_eraseAll fuse 2 4 h,
    fun s' e => (C88_tree_insert_partial fuse 4 2).1 t s' es 40 h e, (C88_tree_lookups_end flip 2 true h).2.1,
    fun s' e => (C88_tree_insert_asks fuse 4 2).1 t s' es 40 h e,
    (C88_tree_agree fuse_answers 4 40 30 t).2.2.2.2.1⟩

end GoSTL.RB
