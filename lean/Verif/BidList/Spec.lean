import Verif.BidList.Model
/-!
# Specification of bidirectional lists: sequences of handles

No pointers: a list is the sequence of the handles of its nodes. `vals` holds the value behind every handle, `stale` the
handles whose list was cleared while they were in it (`Clear` does not detach them in the code, see C06).
-/
namespace GoSTL.BidList
variable {T : Type}

/-- The lists as sequences of handles, the value behind every handle, and the handles that a `Clear` has made stale. -/
structure Spec (T : Type) where
  seqs : List (List Nat)
  vals : List T
  stale : List Nat

/-- Put `n` right behind `m`. -/
def insAfter (m n : Nat) : List Nat → List Nat
  | [] => []
  | a :: l => if a = m then a :: n :: l else a :: insAfter m n l

/-- Put `n` right before `m`. -/
def insBefore (m n : Nat) : List Nat → List Nat
  | [] => []
  | a :: l => if a = m then n :: a :: l else a :: insBefore m n l

/-- The element behind / before `n`. -/
def after (n : Nat) (s : List Nat) : Option Nat := (s.drop (s.idxOf n + 1)).head?
/-- The element before `n`. -/
def before (n : Nat) (s : List Nat) : Option Nat := (s.take (s.idxOf n)).getLast?

namespace Spec

/-- The sequence of list `l` (empty for a list that does not exist). -/
def seq (S : Spec T) (l : Nat) : List Nat := S.seqs[l]?.getD []
/-- Is `l` a list at all? -/
def isList (S : Spec T) (l : Nat) : Prop := l < S.seqs.length
/-- Is `n` a handle at all? -/
def isNode (S : Spec T) (n : Nat) : Prop := n < S.vals.length
/-- List `l` becomes the sequence `s`. -/
def setSeq (S : Spec T) (l : Nat) (s : List Nat) : Spec T := { S with seqs := S.seqs.set l s }
/-- A new handle with value `v`: the next number. -/
def addVal (S : Spec T) (v : T) : Spec T := { S with vals := S.vals ++ [v] }
/-- The values behind a sequence of handles. -/
def valsOf (S : Spec T) (s : List Nat) : List T := s.filterMap (S.vals[·]?)

instance (S : Spec T) (l : Nat) : Decidable (S.isList l) := inferInstanceAs (Decidable (_ < _))
instance (S : Spec T) (l : Nat) : Decidable (S.isNode l) := inferInstanceAs (Decidable (_ < _))

end Spec

open Spec

/-- What each call does. -/
def specStep (op : Op T) (S : Spec T) : Res (Out T × Spec T) :=
  match op with
  | .newList => .ok (.unit, { S with seqs := S.seqs ++ [[]] })
  | .pushBack l v => if S.isList l then .ok (.unit, (S.addVal v).setSeq l (S.seq l ++ [S.vals.length])) else .panic
  | .pushFront l v => if S.isList l then .ok (.unit, (S.addVal v).setSeq l (S.vals.length :: S.seq l)) else .panic
  | .insertAfter l v m =>
    if ¬ S.isNode m then .panic else
    if m ∈ S.seq l then .ok (.node (some S.vals.length), (S.addVal v).setSeq l (insAfter m S.vals.length (S.seq l)))
    else .ok (.node none, S)
  | .insertBefore l v m =>
    if ¬ S.isNode m then .panic else
    if m ∈ S.seq l then .ok (.node (some S.vals.length), (S.addVal v).setSeq l (insBefore m S.vals.length (S.seq l)))
    else .ok (.node none, S)
  | .remove l n => match S.vals[n]? with
    | none => .panic
    | some x => .ok (.val x, if n ∈ S.seq l then S.setSeq l ((S.seq l).erase n) else S)
  | .popBack l => match (S.seq l).getLast? with
    | none => .panic
    | some n => match S.vals[n]? with
      | none => .panic
      | some x => .ok (.val x, S.setSeq l (S.seq l).dropLast)
  | .popFront l => match (S.seq l).head? with
    | none => .panic
    | some n => match S.vals[n]? with
      | none => .panic
      | some x => .ok (.val x, S.setSeq l (S.seq l).tail)
  | .moveToFront l n =>
    if ¬ S.isNode n then .panic else
    if n ∈ S.seq l then .ok (.unit, S.setSeq l (n :: (S.seq l).erase n)) else .ok (.unit, S)
  | .moveToBack l n =>
    if ¬ S.isNode n then .panic else
    if n ∈ S.seq l then .ok (.unit, S.setSeq l ((S.seq l).erase n ++ [n])) else .ok (.unit, S)
  | .moveAfter l n m =>
    if ¬ S.isNode n then .panic else
    if n ∉ S.seq l ∨ n = m then .ok (.unit, S) else
    if ¬ S.isNode m then .panic else
    if m ∉ S.seq l then .ok (.unit, S) else
    -- the code leaves the list alone when the front node is to go behind the back node (see C07)
    if (S.seq l).head? = some n ∧ (S.seq l).getLast? = some m then .ok (.unit, S) else
    .ok (.unit, S.setSeq l (insAfter m n ((S.seq l).erase n)))
  | .pushBackList l o =>
    if ¬ S.isList o then .panic else
    if S.seq o = [] then .ok (.unit, S) else
    -- the code dereferences nil when the receiver is empty (see C08)
    if S.seq l = [] then .panic else
    .ok (.unit, { S with vals := S.vals ++ S.valsOf (S.seq o) }.setSeq l (S.seq l ++ List.range' S.vals.length (S.seq o).length))
  | .pushFrontList l o =>
    if ¬ S.isList o then .panic else
    if S.seq o = [] then .ok (.unit, S) else
    if S.seq l = [] then .panic else
    .ok (.unit, { S with vals := S.vals ++ (S.valsOf (S.seq o)).reverse }.setSeq l
      ((List.range' S.vals.length (S.seq o).length).reverse ++ S.seq l))
  | .clear l => if S.isList l then .ok (.unit, { S.setSeq l [] with stale := S.stale ++ S.seq l }) else .panic
  | .setValue n v => if S.isNode n then .ok (.unit, { S with vals := S.vals.set n v }) else .panic
  | .value n => match S.vals[n]? with
    | none => .panic
    | some x => .ok (.val x, S)
  | .next n =>
    if ¬ S.isNode n then .panic else
    .ok (.node ((S.seqs.find? (n ∈ ·)).bind (after n)), S)
  | .prev n =>
    if ¬ S.isNode n then .panic else
    .ok (.node ((S.seqs.find? (n ∈ ·)).bind (before n)), S)
  | .frontNode l => if S.isList l then .ok (.node (S.seq l).head?, S) else .panic
  | .backNode l => if S.isList l then .ok (.node (S.seq l).getLast?, S) else .panic
  | .front l => match (S.valsOf (S.seq l)).head? with
    | none => .panic
    | some x => .ok (.val x, S)
  | .back l => match (S.valsOf (S.seq l)).getLast? with
    | none => .panic
    | some x => .ok (.val x, S)
  | .len l => if S.isList l then .ok (.int (S.seq l).length, S) else .panic
  | .empty l => if S.isList l then .ok (.bool (S.seq l).isEmpty, S) else .panic

/-- A history on sequences. -/
def specRun : List (Op T) → Spec T → Res (List (Out T) × Spec T)
  | [], S => .ok ([], S)
  | op :: ops, S => do
    let (o, S) ← specStep op S
    let (os, S) ← specRun ops S
    .ok (o :: os, S)

/-- Nothing yet. -/
def specStart : Spec T := { seqs := [], vals := [], stale := [] }

/-- The handles a call is given (reading and writing the value behind a handle is always fine and not listed). -/
def handles : Op T → List Nat
  | .insertAfter _ _ m | .insertBefore _ _ m => [m]
  | .remove _ n | .moveToFront _ n | .moveToBack _ n | .next n | .prev n => [n]
  | .moveAfter _ n m => [n, m]
  | _ => []

/-- The call is not given a handle of a node whose list was cleared around it. -/
def fresh (op : Op T) (S : Spec T) : Prop := ∀ n ∈ handles op, n ∉ S.stale

/-- No call of the history is given such a handle. -/
def noStale : List (Op T) → Spec T → Prop
  | [], _ => True
  | op :: ops, S => fresh op S ∧ ∀ o S', specStep op S = .ok (o, S') → noStale ops S'

end GoSTL.BidList
