import Verif.Vector.Model
/-!
# What vectors are supposed to be: plain sequences
-/
namespace GoSTL.Vector
variable {T : Type}

/-- Insert `v` before position `p`. -/
def ins (l : List T) (p : Int) (v : T) : List T :=
  if 0 ≤ p ∧ p ≤ l.length then l.take p.toNat ++ v :: l.drop p.toNat else l

/-- Remove positions `a .. b-1`. -/
def del (l : List T) (a b : Int) : List T :=
  if 0 ≤ a ∧ a ≤ b ∧ b ≤ l.length then l.take a.toNat ++ l.drop b.toNat else l

/-- A call on a plain sequence. Growth parameters (`extra`) are ignored: they must not be observable. -/
def specStep (op : Op T) (l : List T) : Res (Out T × List T) :=
  match op with
  | .pushBack v _ => .ok (.unit, l ++ [v])
  | .setAt p v => .ok (.unit, if 0 ≤ p ∧ p < l.length then l.set p.toNat v else l)
  | .insertAt p v _ => .ok (.unit, ins l p v)
  | .eraseAt p _ => .ok (.unit, del l p (p + 1))
  | .eraseIndexRange a b _ => .ok (.unit, del l a b)
  | .insert p v _ => .ok (.int p, ins l p v)
  | .erase p _ => .ok (.int p, del l p (p + 1))
  | .eraseRange a b _ => .ok (.int a, del l a b)
  | .at p => if 0 ≤ p then (match l[p.toNat]? with | some x => .ok (.val x, l) | none => .panic) else .panic
  | .front => match l.head? with | some x => .ok (.val x, l) | none => .panic
  | .back => match l.getLast? with | some x => .ok (.val x, l) | none => .panic
  | .popBack => match l.getLast? with | some x => .ok (.val x, l.dropLast) | none => .panic
  | .reserve _ => .ok (.unit, l)
  | .shrinkToFit => .ok (.unit, l)
  | .clear => .ok (.unit, [])
  | .resize n => if n < 0 then .panic else .ok (.unit, l.take n.toNat)
  | .size => .ok (.int l.length, l)
  | .empty => .ok (.bool l.isEmpty, l)

/-- Several independent sequences. -/
def specCall (c : Call T) (ls : List (List T)) : Res (Out T × List (List T)) :=
  match c with
  | .new k => if k < 0 then .panic else .ok (.unit, ls ++ [[]])
  | .newFromVector i => match ls[i]? with | some l => .ok (.unit, ls ++ [l]) | none => .panic
  | .on i op =>
    match ls[i]? with
    | none => .panic
    | some l => do let (o, l') ← specStep op l; .ok (o, ls.set i l')

/-- A program, on plain sequences. -/
def specRun : List (Call T) → List (List T) → Res (List (Out T) × List (List T))
  | [], ls => .ok ([], ls)
  | c :: cs, ls => do
    let (o, ls) ← specCall c ls
    let (os, ls) ← specRun cs ls
    .ok (o :: os, ls)

end GoSTL.Vector
