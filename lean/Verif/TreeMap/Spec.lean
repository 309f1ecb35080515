import Verif.TreeMap.Model
import Verif.RBTree.Spec
/-!
# Specifications of Map, MultiMap, Set and MultiSet

Each `…Hist` relation pairs the container state reached by a history of method calls with what a plain mathematical
object would hold after the same history. Results are compared up to the container's comparator `cmp`
(`cmp a b = 0` is key equality).
-/
namespace GoSTL.TreeMap
open GoSTL.RB

variable {K V : Type}

/-- Change the value of a finite map at (everything equal to) `k`. -/
def upd (cmp : K → K → Int) (f : K → Option V) (k : K) (o : Option V) : K → Option V :=
  fun k' => if cmp k' k = 0 then o else f k'

/-- Histories of a `Map`, with the finite map they denote. Iterators used by `SetValue`/`EraseIter` point to a node of
the tree (as those returned by `Find`, `First`, `Next`, … do). -/
inductive MapHist (cmp : K → K → Int) : Tree K V → (K → Option V) → Prop
  | new : MapHist cmp Tree.new fun _ => none
  | insert {s s' f k v} : MapHist cmp s f → mapInsert cmp s k v = .ok s' → MapHist cmp s' (upd cmp f k (some v))
  | erase {s s' f k} : MapHist cmp s f → eraseOne cmp s k = .ok s' → MapHist cmp s' (upd cmp f k none)
  | eraseIter {s s' f i k} : MapHist cmp s f → Linked s i → iterKey s (some i) = .ok k →
      eraseIter s (.map (some i)) = .ok s' → MapHist cmp s' (upd cmp f k none)
  | eraseIterEnd {s s' f} : MapHist cmp s f → eraseIter s (.map none) = .ok s' → MapHist cmp s' f
  | eraseIterOther {s s' f} : MapHist cmp s f → eraseIter s .other = .ok s' → MapHist cmp s' f
  | setValue {s s' f i k v} : MapHist cmp s f → Linked s i → iterKey s (some i) = .ok k →
      iterSetValue s (some i) v = .ok s' → MapHist cmp s' (upd cmp f k (some v))
  | clear {s f} : MapHist cmp s f → MapHist cmp (clear s) fun _ => none

/-- Histories of a `MultiMap`, with the chronological list of the entries still present. `SetValue` through an iterator
overwrites the value of that entry: the one with the same number of earlier entries of the same key. -/
inductive MultiMapHist (cmp : K → K → Int) : Tree K V → List (K × V) → Prop
  | new : MultiMapHist cmp Tree.new []
  | insert {s s' h k v} : MultiMapHist cmp s h → multiMapInsert cmp s k v = .ok s' → MultiMapHist cmp s' (h ++ [(k, v)])
  | erase {s s' h k} : MultiMapHist cmp s h → eraseAll cmp s k = .ok s' →
      MultiMapHist cmp s' (h.filter fun e => decide (cmp k e.1 ≠ 0))
  | setValue {s s' A i k v B H k' v' H' w} : MultiMapHist cmp s (H ++ (k', v') :: H') →
      toList s = .ok (A ++ (i, k, v) :: B) → cmp k k' = 0 →
      A.countP (fun e => decide (cmp k e.2.1 = 0)) = H.countP (fun e => decide (cmp k e.1 = 0)) →
      iterSetValue s (some i) w = .ok s' → MultiMapHist cmp s' (H ++ (k', w) :: H')
  | clear {s h} : MultiMapHist cmp s h → MultiMapHist cmp (clear s) []

/-- Histories of a `Set`, with the mathematical set they denote; results of `Intersect`, `Union` and `Diff` may be used
like any other set. -/
inductive SetHist (cmp : K → K → Int) : Tree K Bool → (K → Prop) → Prop
  | new : SetHist cmp Tree.new fun _ => False
  | insert {s s' m x} : SetHist cmp s m → setInsert cmp s x = .ok s' → SetHist cmp s' fun y => cmp y x = 0 ∨ m y
  | erase {s s' m x} : SetHist cmp s m → eraseOne cmp s x = .ok s' → SetHist cmp s' fun y => cmp y x ≠ 0 ∧ m y
  | clear {s m} : SetHist cmp s m → SetHist cmp (clear s) fun _ => False
  | intersect {s o r m n} : SetHist cmp s m → SetHist cmp o n → intersect cmp s o = .ok r → SetHist cmp r fun y => m y ∧ n y
  | union {s o r m n} : SetHist cmp s m → SetHist cmp o n → union cmp s o = .ok r → SetHist cmp r fun y => m y ∨ n y
  | diff {s o r m n} : SetHist cmp s m → SetHist cmp o n → diff cmp s o = .ok r → SetHist cmp r fun y => m y ∧ ¬ n y

/-- Histories of a `MultiSet`, with the chronological list of the elements still present. -/
inductive MultiSetHist (cmp : K → K → Int) : Tree K Bool → List K → Prop
  | new : MultiSetHist cmp Tree.new []
  | insert {s s' h x} : MultiSetHist cmp s h → multiSetInsert cmp s x = .ok s' → MultiSetHist cmp s' (h ++ [x])
  | erase {s s' h x} : MultiSetHist cmp s h → eraseOne cmp s x = .ok s' →
      MultiSetHist cmp s' (h.eraseP fun y => decide (cmp x y = 0))
  | eraseAll {s s' h x} : MultiSetHist cmp s h → eraseAll cmp s x = .ok s' →
      MultiSetHist cmp s' (h.filter fun y => decide (cmp x y ≠ 0))
  | clear {s h} : MultiSetHist cmp s h → MultiSetHist cmp (clear s) []

/-- `for it := first; it.IsValid(); it.Next() { collect it.Key(), it.Value() }`. -/
def iterWalk (t : Tree K V) : Nat → Option Id → Res (List (K × V))
  | 0, _ => .outOfFuel
  | f + 1, it => if iterIsValid it then do
      let k ← iterKey t it
      let v ← iterValue t it
      let it ← iterNext t it
      let rest ← iterWalk t f it
      pure ((k, v) :: rest)
    else pure []

/-- `for it := last; it.IsValid(); it.Prev() { collect it.Key(), it.Value() }`. -/
def iterWalkBack (t : Tree K V) : Nat → Option Id → Res (List (K × V))
  | 0, _ => .outOfFuel
  | f + 1, it => if iterIsValid it then do
      let k ← iterKey t it
      let v ← iterValue t it
      let it ← iterPrev t it
      let rest ← iterWalkBack t f it
      pure ((k, v) :: rest)
    else pure []

/-- Everything met from `Begin()` by `Next()`. -/
def iterList (t : Tree K V) : Res (List (K × V)) := do
  let it ← first t
  iterWalk t t.fuel it

/-- Everything met from `Last()` by `Prev()`. -/
def iterListBack (t : Tree K V) : Res (List (K × V)) := do
  let it ← last t
  iterWalkBack t t.fuel it

/-- Everything met from a given iterator by `Next()`. -/
def iterFrom (t : Tree K V) (it : Res (Option Id)) : Res (List (K × V)) := do
  let it ← it
  iterWalk t t.fuel it

/-- Feeding keys to a visitor that may stop. -/
def feedKeys {S : Type} (visit : S → K → S × Bool) : List K → S → S
  | [], s => s
  | k :: ks, s => match visit s k with
    | (s, true) => feedKeys visit ks s
    | (s, false) => s

/-- Feeding pairs to a visitor that may stop. -/
def feedKV {S : Type} (visit : S → K → V → S × Bool) : List (K × V) → S → S
  | [], s => s
  | (k, v) :: es, s => match visit s k v with
    | (s, true) => feedKV visit es s
    | (s, false) => s

end GoSTL.TreeMap
