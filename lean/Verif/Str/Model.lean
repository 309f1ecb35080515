import Verif.Deque.Model
import Verif.BidList.Model
import Verif.SimpleList.Model
import Verif.TreeMap.Model
/-!
# Model of the `String` methods of deque, the lists, set and multiset

`fmt.Sprintf("%v", x)` is a parameter `fmt : T → List Char`; strings are lists of characters.
(`Array.String` and `Vector.String` are a single call of `fmt.Sprintf` on the slice and are not modelled; `Queue.String` and `Stack.String` call the
method of their container.)
-/
namespace GoSTL.Str
open RB
variable {T : Type}

/-- The body of the loops: ds/deque/deque.go:390-393, ds/list/simplelist/simplelist.go:148-151, ds/list/bidlist/list.go:288-291,
ds/set/set.go:175-178, ds/set/multiset.go:170-173. -/
def addElem (fmt : T → List Char) (str : List Char) (v : T) : List Char :=
  let str := if str ≠ ['['] then str ++ [' '] else str
  str ++ fmt v

/-- deque.go:389-394, the loop. -/
def dequeLoop (cfg : Deque.Cfg T) (fmt : T → List Char) (d : Deque.Deq T) : Nat → Int → List Char → Res (List Char)
  | 0, _, _ => .outOfFuel
  | f + 1, i, str =>
    if i < Deque.size d then do
      let x ← Deque.at_ cfg d i
      dequeLoop cfg fmt d f (i + 1) (addElem fmt str x)
    else .ok str

/-- deque.go:387-398 `String`. -/
def dequeString (cfg : Deque.Cfg T) (fmt : T → List Char) (d : Deque.Deq T) : Res (List Char) := do
  let str ← dequeLoop cfg fmt d ((Deque.size d).toNat + 1) 0 ['[']
  .ok (str ++ [']'])

/-- simplelist.go:147-152, the loop from node `n` on. -/
def simpleLoop (fmt : T → List Char) (w : SimpleList.World T) : Nat → Option Nat → List Char → Res (List Char)
  | 0, _, _ => .outOfFuel
  | _ + 1, none, str => .ok str
  | f + 1, some n, str => do
    let nd ← SimpleList.node w n
    let m ← SimpleList.next w n
    simpleLoop fmt w f m (addElem fmt str nd.value)

/-- simplelist.go:145-155 `String`. -/
def simpleString (fmt : T → List Char) (w : SimpleList.World T) (f : Nat) : Res (List Char) := do
  let str ← simpleLoop fmt w f w.head ['[']
  .ok (str ++ [']'])

/-- list.go:287-292, the loop from node `n` on. -/
def bidLoop (fmt : T → List Char) (w : BidList.World T) : Nat → Option Nat → List Char → Res (List Char)
  | 0, _, _ => .outOfFuel
  | _ + 1, none, str => .ok str
  | f + 1, some n, str => do
    let nd ← BidList.node w n
    let m ← BidList.next w n
    bidLoop fmt w f m (addElem fmt str nd.value)

/-- list.go:285-295 `String` of list number `l`. -/
def bidString (fmt : T → List Char) (w : BidList.World T) (l : Nat) (f : Nat) : Res (List Char) := do
  let n ← BidList.frontNode w l
  let str ← bidLoop fmt w f n ['[']
  .ok (str ++ [']'])

/-- set.go:172-183, multiset.go:167-178 `String`. -/
def setString {K V : Type} (fmt : K → List Char) (t : Tree K V) : Res (List Char) := do
  let str ← TreeMap.setTraversal t (fun str v => (addElem fmt str v, true)) ['[']
  .ok (str ++ [']'])

end GoSTL.Str
