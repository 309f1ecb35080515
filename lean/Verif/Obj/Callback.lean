import Verif.Seq.Moving
import Verif.TreeMap.Moving
import Verif.Iters.Lists
import Verif.Iters.Props
/-!
# C105: the functions given to `CountIf`, `FindIf`, `AnyOf`, `AllOf` and `NoneOf`

The function is called with the iterator that the algorithm itself walks with, and it may do anything: read and write through it, move it, make other iterators, change
the container. Here it is an arbitrary program on the state that holds the containers and all the iterators.
-/
namespace GoSTL.Callback

variable {σ : Type}

/-! ## Model -/

/-- The calls the algorithms make on iterators, which are named by numbers, in a state that holds them and the containers. -/
structure Iterators (σ : Type) where
  clone : σ → Nat → Res (Nat × σ)
  equal : σ → Nat → Nat → Res Bool
  next : σ → Nat → Res σ

/-- The function given to the algorithm: it gets an iterator and does something. -/
abbrev Fn (σ : Type) := Nat → σ → Res (Bool × σ)

variable (M : Iterators σ)

/-- algorithm/const_op.go:22-26. -/
def countIfLoop (f : Fn σ) (iter last : Nat) : Nat → Nat → σ → Res (Nat × σ)
  | 0, _, _ => .outOfFuel
  | n + 1, count, s => do
    let e ← M.equal s iter last
    if e = true then .ok (count, s) else do
    let (b, s) ← f iter s
    let s ← M.next s iter
    countIfLoop f iter last n (if b then count + 1 else count) s

/-- algorithm/const_op.go:20-28 `CountIf`. -/
def countIf (fuel : Nat) (first last : Nat) (f : Fn σ) (s : σ) : Res (Nat × σ) := do
  let (iter, s) ← M.clone s first
  countIfLoop M f iter last fuel 0 s

/-- algorithm/const_op.go:42-46. -/
def findIfLoop (f : Fn σ) (iter last : Nat) : Nat → σ → Res (Nat × σ)
  | 0, _ => .outOfFuel
  | n + 1, s => do
    let e ← M.equal s iter last
    if e = true then .ok (last, s) else do
    let (b, s) ← f iter s
    if b = true then .ok (iter, s) else do
    let s ← M.next s iter
    findIfLoop f iter last n s

/-- algorithm/const_op.go:41-48 `FindIf`: the iterator it returns. -/
def findIf (fuel : Nat) (first last : Nat) (f : Fn σ) (s : σ) : Res (Nat × σ) := do
  let (iter, s) ← M.clone s first
  findIfLoop M f iter last fuel s

/-- algorithm/const_op.go:80-84. -/
def anyOfLoop (f : Fn σ) (iter last : Nat) : Nat → σ → Res (Bool × σ)
  | 0, _ => .outOfFuel
  | n + 1, s => do
    let e ← M.equal s iter last
    if e = true then .ok (false, s) else do
    let (b, s) ← f iter s
    if b = true then .ok (true, s) else do
    let s ← M.next s iter
    anyOfLoop f iter last n s

/-- algorithm/const_op.go:79-86 `AnyOf`. -/
def anyOf (fuel : Nat) (first last : Nat) (f : Fn σ) (s : σ) : Res (Bool × σ) := do
  let (iter, s) ← M.clone s first
  anyOfLoop M f iter last fuel s

/-- algorithm/const_op.go:90-94. -/
def allOfLoop (f : Fn σ) (iter last : Nat) : Nat → σ → Res (Bool × σ)
  | 0, _ => .outOfFuel
  | n + 1, s => do
    let e ← M.equal s iter last
    if e = true then .ok (true, s) else do
    let (b, s) ← f iter s
    if b = false then .ok (false, s) else do
    let s ← M.next s iter
    allOfLoop f iter last n s

/-- algorithm/const_op.go:89-96 `AllOf`. -/
def allOf (fuel : Nat) (first last : Nat) (f : Fn σ) (s : σ) : Res (Bool × σ) := do
  let (iter, s) ← M.clone s first
  allOfLoop M f iter last fuel s

/-- algorithm/const_op.go:99-101 `NoneOf`. -/
def noneOf (fuel : Nat) (first last : Nat) (f : Fn σ) (s : σ) : Res (Bool × σ) := do
  let (b, s) ← anyOf M fuel first last f s
  .ok (!b, s)

/-! ## Specification -/

/-- Calls of `g` at the places `a`, `a + 1`, …, `n` of them, until an answer says stop: before each call the iterator is put at the place. The answers, and the state afterwards; if all
places were visited the iterator is put behind the last. -/
def visit (stop : Bool → Bool) (g : σ → Res (Bool × σ)) (put : σ → Nat → σ) : Nat → Nat → σ → Res (List Bool × σ)
  | 0, a, s => .ok ([], put s a)
  | n + 1, a, s => do
    let (b, s) ← g (put s a)
    if stop b = true then .ok ([b], s) else do
    let (bs, s) ← visit stop g put n (a + 1) s
    .ok (b :: bs, s)

/-- What the five algorithms are to do on `n` places from place `a` on, when called in the state `s`; `t` is that state with one more iterator, `iter`, the algorithm's own: `CountIf` visits all and counts, `FindIf` and `AnyOf` stop at the first yes,
`AllOf` at the first no. -/
structure Visits (first last iter n a : Nat) (f : Fn σ) (put : σ → Nat → σ) (fuel : Nat) (s t : σ) : Prop where
  countIf : countIf M fuel first last f s = (do let (bs, s) ← visit (fun _ => false) (f iter) put n a t; .ok (bs.count true, s))
  findIf : findIf M fuel first last f s = (do let (bs, s) ← visit (fun b => b) (f iter) put n a t; .ok (if true ∈ bs then iter else last, s))
  anyOf : anyOf M fuel first last f s = (do let (bs, s) ← visit (fun b => b) (f iter) put n a t; .ok (decide (true ∈ bs), s))
  allOf : allOf M fuel first last f s = (do let (bs, s) ← visit (fun b => !b) (f iter) put n a t; .ok (decide (false ∉ bs), s))
  noneOf : noneOf M fuel first last f s = (do let (bs, s) ← visit (fun b => b) (f iter) put n a t; .ok (decide (true ∉ bs), s))

/-! ## Proof -/

/-- The common part of the loops. -/
def walk (stop : Bool → Bool) (f : Fn σ) (iter last : Nat) : Nat → σ → Res (List Bool × σ)
  | 0, _ => .outOfFuel
  | n + 1, s => do
    let e ← M.equal s iter last
    if e = true then .ok ([], s) else do
    let (b, s) ← f iter s
    if stop b = true then .ok ([b], s) else do
    let s ← M.next s iter
    let (bs, s) ← walk stop f iter last n s
    .ok (b :: bs, s)

variable {M} {f : Fn σ} {iter last : Nat}

theorem countIfLoop_walk : ∀ (n c : Nat) (s : σ), countIfLoop M f iter last n c s = (do
    let (bs, s) ← walk M (fun _ => false) f iter last n s
    .ok (c + bs.count true, s))
  | 0, _, _ => rfl
  | n + 1, c, s => by
    simp only [countIfLoop, walk]
    cases M.equal s iter last with
    | ok e =>
      simp only [Res.ok_bind]
      cases e with
      | true => rfl
      | false =>
        simp only [Bool.false_eq_true, if_false]
        cases f iter s with
        | ok x =>
          obtain ⟨b, s1⟩ := x
          simp only [Res.ok_bind]
          cases M.next s1 iter with
          | ok s2 =>
            simp only [Res.ok_bind]
            rw [countIfLoop_walk n]
            cases walk M (fun _ => false) f iter last n s2 with
            | ok y =>
              simp only [Res.ok_bind]
              cases b <;> simp [Nat.add_comm, Nat.add_left_comm]
            | panic => rfl
            | outOfFuel => rfl
          | panic => rfl
          | outOfFuel => rfl
        | panic => rfl
        | outOfFuel => rfl
    | panic => rfl
    | outOfFuel => rfl

theorem findIfLoop_walk : ∀ (n : Nat) (s : σ), findIfLoop M f iter last n s = (do
    let (bs, s) ← walk M (fun b => b) f iter last n s
    .ok (if true ∈ bs then iter else last, s))
  | 0, _ => rfl
  | n + 1, s => by
    simp only [findIfLoop, walk]
    cases M.equal s iter last with
    | ok e =>
      simp only [Res.ok_bind]
      cases e with
      | true => rfl
      | false =>
        simp only [Bool.false_eq_true, if_false]
        cases f iter s with
        | ok x =>
          obtain ⟨b, s1⟩ := x
          simp only [Res.ok_bind]
          cases b with
          | true => rfl
          | false =>
            simp only [Bool.false_eq_true, if_false]
            cases M.next s1 iter with
            | ok s2 =>
              simp only [Res.ok_bind]
              rw [findIfLoop_walk n]
              cases walk M (fun b => b) f iter last n s2 with
              | ok y => simp
              | panic => rfl
              | outOfFuel => rfl
            | panic => rfl
            | outOfFuel => rfl
        | panic => rfl
        | outOfFuel => rfl
    | panic => rfl
    | outOfFuel => rfl

theorem anyOfLoop_walk : ∀ (n : Nat) (s : σ), anyOfLoop M f iter last n s = (do
    let (bs, s) ← walk M (fun b => b) f iter last n s
    .ok (decide (true ∈ bs), s))
  | 0, _ => rfl
  | n + 1, s => by
    simp only [anyOfLoop, walk]
    cases M.equal s iter last with
    | ok e =>
      simp only [Res.ok_bind]
      cases e with
      | true => rfl
      | false =>
        simp only [Bool.false_eq_true, if_false]
        cases f iter s with
        | ok x =>
          obtain ⟨b, s1⟩ := x
          simp only [Res.ok_bind]
          cases b with
          | true => rfl
          | false =>
            simp only [Bool.false_eq_true, if_false]
            cases M.next s1 iter with
            | ok s2 =>
              simp only [Res.ok_bind]
              rw [anyOfLoop_walk n]
              cases walk M (fun b => b) f iter last n s2 with
              | ok y => simp
              | panic => rfl
              | outOfFuel => rfl
            | panic => rfl
            | outOfFuel => rfl
        | panic => rfl
        | outOfFuel => rfl
    | panic => rfl
    | outOfFuel => rfl

theorem allOfLoop_walk : ∀ (n : Nat) (s : σ), allOfLoop M f iter last n s = (do
    let (bs, s) ← walk M (fun b => !b) f iter last n s
    .ok (decide (false ∉ bs), s))
  | 0, _ => rfl
  | n + 1, s => by
    simp only [allOfLoop, walk]
    cases M.equal s iter last with
    | ok e =>
      simp only [Res.ok_bind]
      cases e with
      | true => rfl
      | false =>
        simp only [Bool.false_eq_true, if_false]
        cases f iter s with
        | ok x =>
          obtain ⟨b, s1⟩ := x
          simp only [Res.ok_bind]
          cases b with
          | false => rfl
          | true =>
            simp only [Bool.true_eq_false, Bool.not_true, Bool.false_eq_true, if_false]
            cases M.next s1 iter with
            | ok s2 =>
              simp only [Res.ok_bind]
              rw [allOfLoop_walk n]
              cases walk M (fun b => !b) f iter last n s2 with
              | ok y => simp
              | panic => rfl
              | outOfFuel => rfl
            | panic => rfl
            | outOfFuel => rfl
        | panic => rfl
        | outOfFuel => rfl
    | panic => rfl
    | outOfFuel => rfl

/-- The walk goes through the places `a`, …, `b - 1` and ends at `b`. -/
structure Goes (M : Iterators σ) (f : Fn σ) (iter last : Nat) (put : σ → Nat → σ) (ok : σ → Prop) (a b : Nat) : Prop where
  equal : ∀ s k, ok s → a ≤ k → k ≤ b → M.equal (put s k) iter last = .ok (decide (k = b))
  call : ∀ s k r s', ok s → a ≤ k → k < b → f iter (put s k) = .ok (r, s') → ok s' ∧ M.next s' iter = .ok (put s' (k + 1))

theorem walk_visit {put : σ → Nat → σ} {ok : σ → Prop} {a b : Nat} (g : Goes M f iter last put ok a b) (stop : Bool → Bool) :
    ∀ (n k fuel : Nat) (s : σ), a ≤ k → k + n = b → n < fuel → ok s → walk M stop f iter last fuel (put s k) = visit stop (f iter) put n k s := by
  intro n
  induction n with
  | zero =>
    intro k fuel s ha hb hf ho
    obtain ⟨m, rfl⟩ : ∃ m, fuel = m + 1 := ⟨fuel - 1, by omega⟩
    have hkb : k = b := by omega
    have h1 := g.equal s k ho ha (by omega)
    simp only [walk, visit, h1, hkb, decide_true, Res.ok_bind, if_true] at h1 ⊢
    rw [h1]; rfl
  | succ n ih =>
    intro k fuel s ha hb hf ho
    obtain ⟨m, rfl⟩ : ∃ m, fuel = m + 1 := ⟨fuel - 1, by omega⟩
    have : ¬ k = b := by omega
    simp only [walk, visit, g.equal s k ho ha (by omega), this, decide_false, Res.ok_bind, Bool.false_eq_true, if_false]
    cases e : f iter (put s k) with
    | ok x =>
      obtain ⟨r, s'⟩ := x
      simp only [Res.ok_bind]
      split
      · rfl
      · obtain ⟨h1, h2⟩ := g.call s k r s' ho ha (by omega) e
        rw [h2]
        simp only [Res.ok_bind]
        rw [ih (k + 1) m s' (by omega) (by omega) (by omega) h1]
    | panic => rfl
    | outOfFuel => rfl

theorem Goes.visits {put : σ → Nat → σ} {ok : σ → Prop} {a b first : Nat} (g : Goes M f iter last put ok a b) (hab : a ≤ b) {s t : σ} (hc : M.clone s first = .ok (iter, put t a)) (ho : ok t)
    {fuel : Nat} (hf : b - a < fuel) : Visits M first last iter (b - a) a f put fuel s t := by
  have h := fun stop => walk_visit g stop (b - a) a fuel t (Nat.le_refl _) (by omega) hf ho
  have hany : anyOf M fuel first last f s = (do let (bs, s) ← visit (fun b => b) (f iter) put (b - a) a t; .ok (decide (true ∈ bs), s)) := by
    rw [anyOf, hc]; simp only [Res.ok_bind]; rw [anyOfLoop_walk, h]
  refine ⟨?_, ?_, hany, ?_, ?_⟩
  · rw [countIf, hc]; simp only [Res.ok_bind]; rw [countIfLoop_walk, h]; simp only [Nat.zero_add]
  · rw [findIf, hc]; simp only [Res.ok_bind]; rw [findIfLoop_walk, h]
  · rw [allOf, hc]; simp only [Res.ok_bind]; rw [allOfLoop_walk, h]
  · rw [noneOf, hany]
    cases visit (fun b => b) (f iter) put (b - a) a t with
    | ok x => simp
    | panic => rfl
    | outOfFuel => rfl

/-! ## Vectors, arrays and deques -/

section
open GoSTL.Moving
variable {W C O T : Type} (K : Kit W C O T)

/-- vector/iterator.go, array/iterator.go, deque/iterator.go (`Moving.istep`). -/
def posIterators : Iterators (St W) where
  clone s k := do let (_, s') ← istep K (.clone k) s; .ok (s.its.length, s')
  equal s j k := do
    let (o, _) ← istep K (.equal j k) s
    match o with
    | .bool b => .ok b
    | _ => .panic
  next s k := do let (_, s) ← istep K (.next k) s; .ok s

/-- The iterator `iter` of container `i` is put at a position. -/
def putPos (iter i : Nat) (s : St W) (k : Nat) : St W := ⟨s.w, s.its.set iter ⟨i, k⟩⟩

/-- The function brings the iterator it gets, and the iterator `last`, back to where they were, and leaves the container longer than that position. `Inv` is anything that it keeps true of
the containers. -/
def StaysPos (Inv : W → Prop) (f : Fn (St W)) (iter last i a b : Nat) : Prop := ∀ s k r s', Inv s.w → a ≤ k → k < b → s.its[iter]? = some ⟨i, k⟩ → s.its[last]? = some ⟨i, b⟩ →
  f iter s = .ok (r, s') → Inv s'.w ∧ s'.its[iter]? = some ⟨i, k⟩ ∧ s'.its[last]? = some ⟨i, b⟩ ∧ ∃ n : Int, K.size s'.w i = .ok n ∧ (k : Int) < n

variable {K}

theorem putPos_self {iter i : Nat} {s : St W} {k : Nat} (h : s.its[iter]? = some ⟨i, k⟩) : putPos iter i s k = s := by
  simp only [putPos, Moving.set_same h]

theorem pos_goes {Inv : W → Prop} {f : Fn (St W)} {iter last i a b : Nat} (hne : iter ≠ last) (h : StaysPos K Inv f iter last i a b) :
    Goes (posIterators K) f iter last (putPos iter i) (fun s => Inv s.w ∧ iter < s.its.length ∧ s.its[last]? = some ⟨i, b⟩) a b where
  equal s k ho ha hb := by
    have h1 : (putPos iter i s k).its[iter]? = some ⟨i, k⟩ := by simp [putPos, ho.2.1]
    have h2 : (putPos iter i s k).its[last]? = some ⟨i, b⟩ := by simp only [putPos]; rw [List.getElem?_set_ne hne]; exact ho.2.2
    simp only [posIterators, istep, Moving.St.it, h1, h2, Res.ofOption_some, Res.ok_bind]
    by_cases c : k = b
    · simp [c]
    · have : ¬ (b : Int) = k := by omega
      simp [c, this]
  call s k r s' ho ha hb e := by
    have h1 : (putPos iter i s k).its[iter]? = some ⟨i, k⟩ := by simp [putPos, ho.2.1]
    have h2 : (putPos iter i s k).its[last]? = some ⟨i, b⟩ := by simp only [putPos]; rw [List.getElem?_set_ne hne]; exact ho.2.2
    obtain ⟨g0, g1, g2, n, g3, g4⟩ := h (putPos iter i s k) k r s' ho.1 ha hb h1 h2 e
    refine ⟨⟨g0, (List.getElem?_eq_some_iff.1 g1).1, g2⟩, ?_⟩
    simp only [posIterators, istep, Moving.St.it, g1, Res.ofOption_some, Res.ok_bind, g3, if_pos g4]
    rfl

/-- C105 for vectors, arrays and deques: called with iterators at positions `a ≤ b` of one container, and with any function that brings the iterator it is given and `last` back to where
they were and leaves more elements in the container than the position it was called for, the algorithms call the function for the positions `a`, …, `b - 1` in order, each time in the
state the last call left, until the answer is known. -/
theorem C105_positions_partial {s : St W} {first last i a b : Nat} (h1 : s.its[first]? = some ⟨i, a⟩) (h2 : s.its[last]? = some ⟨i, b⟩) (hab : a ≤ b) {Inv : W → Prop} (hi : Inv s.w)
    {f : Fn (St W)} (hf : StaysPos K Inv f s.its.length last i a b) {fuel : Nat} (hfuel : b - a < fuel) :
    Visits (posIterators K) first last s.its.length (b - a) a f (putPos s.its.length i) fuel s (s.push ⟨i, a⟩) := by
  have hl : last < s.its.length := (List.getElem?_eq_some_iff.1 h2).1
  refine (pos_goes (by omega) hf).visits hab ?_ ?_ hfuel
  · rw [putPos_self (by simp [Moving.St.push])]
    simp [posIterators, istep, Moving.St.it, h1]
  · exact ⟨hi, by simp [Moving.St.push], by simp only [Moving.St.push]; rw [List.getElem?_append_left hl]; exact h2⟩

end

/-! ## Maps, multimaps, sets and multisets -/

section
open GoSTL.TreeMap GoSTL.RB
variable {K V : Type} (cmp : K → K → Int)

/-- map/iterator.go, set/iterator.go (`TreeMap.cstep`). -/
def treeIterators : Iterators (CSt K V) where
  clone s k := do let (_, s') ← cstep cmp (.clone k) s; .ok (s.its.length, s')
  equal s j k := do
    let (o, _) ← cstep cmp (.equal j k) s
    match o with
    | .bool b => .ok b
    | _ => .panic
  next s k := do let (_, s) ← cstep cmp (.next k) s; .ok s

/-- The iterator `iter` is put at the `k`-th of the nodes `ids` (at the end, if there are fewer). -/
def putTree (iter : Nat) (ids : List Id) (s : CSt K V) (k : Nat) : CSt K V := ⟨s.t, s.its.set iter ids[k]?⟩

/-- The container has its entries, in order, in the nodes `ids`. -/
def InNodes (t : Tree K V) (ids : List Id) : Prop := ∃ xs : List (Id × K × V), HoldsS cmp t xs ∧ xs.map (·.1) = ids

/-- The function brings the iterator it gets, and `last`, back to where they were, and neither inserts nor erases (or undoes it). -/
def StaysTree (f : Fn (CSt K V)) (iter last : Nat) (ids : List Id) (b : Nat) : Prop := ∀ s k r s', k < b → InNodes cmp s.t ids → s.its[iter]? = some ids[k]? → s.its[last]? = some ids[b]? →
  f iter s = .ok (r, s') → InNodes cmp s'.t ids ∧ s'.its[iter]? = some ids[k]? ∧ s'.its[last]? = some ids[b]?

variable {cmp}

theorem set_same' {α : Type} {l : List α} {k : Nat} {a : α} (h : l[k]? = some a) : l.set k a = l := Moving.set_same h

theorem get_inj {α : Type} {l : List α} (hn : l.Nodup) {j k : Nat} (hk : j ≤ k) (hl : k ≤ l.length) (e : l[j]? = l[k]?) : j = k := by
  by_cases c : j = k
  · exact c
  · exfalso
    have hj : j < l.length := by omega
    rw [List.getElem?_eq_getElem hj] at e
    obtain ⟨h1, h2⟩ := List.getElem?_eq_some_iff.1 e.symm
    exact c ((List.Nodup.getElem_inj_iff hn).1 h2.symm)

theorem tree_goes {f : Fn (CSt K V)} {iter last : Nat} {ids : List Id} {a b : Nat} (hn : ids.Nodup) (hb : b ≤ ids.length) (hne : iter ≠ last) (h : StaysTree cmp f iter last ids b) :
    Goes (treeIterators cmp) f iter last (putTree iter ids) (fun s => InNodes cmp s.t ids ∧ iter < s.its.length ∧ s.its[last]? = some ids[b]?) a b where
  equal s k ho ha hk := by
    have h1 : (putTree iter ids s k).its[iter]? = some ids[k]? := by simp [putTree, ho.2.1]
    have h2 : (putTree iter ids s k).its[last]? = some ids[b]? := by simp only [putTree]; rw [List.getElem?_set_ne hne]; exact ho.2.2
    simp only [treeIterators, cstep, h1, h2, Res.ofOption_some, Res.ok_bind]
    by_cases c : k = b
    · simp [c]
    · have : ¬ ids[b]? = ids[k]? := fun e => c (get_inj hn hk hb e.symm)
      simp [c, this]
  call s k r s' ho ha hk e := by
    have h1 : (putTree iter ids s k).its[iter]? = some ids[k]? := by simp [putTree, ho.2.1]
    have h2 : (putTree iter ids s k).its[last]? = some ids[b]? := by simp only [putTree]; rw [List.getElem?_set_ne hne]; exact ho.2.2
    obtain ⟨g1, g2, g3⟩ := h (putTree iter ids s k) k r s' hk ho.1 h1 h2 e
    refine ⟨⟨g1, (List.getElem?_eq_some_iff.1 g2).1, g3⟩, ?_⟩
    obtain ⟨xs, hx, rfl⟩ := g1
    have hk' : k < (xs.map (·.1)).length := by omega
    have e1 := Iters.tree_next hx k _ (List.getElem?_eq_getElem hk')
    rw [List.getElem?_eq_getElem hk'] at g2
    simp only [treeIterators, cstep, g2, Res.ofOption_some, Res.ok_bind, e1]
    rfl

/-- C105 for maps, multimaps, sets and multisets: called with iterators to the `a`-th and the `b`-th entry (or the end), `a ≤ b`, and with any function that brings the iterator it is
given and `last` back to where they were and keeps the entries (it may change their values), the algorithms call the function for the entries in order, each time in the state the last call
left, until the answer is known. -/
theorem C105_ordered_partial {s : CSt K V} {ids : List Id} (hs : InNodes cmp s.t ids) {first last a b : Nat} (h1 : s.its[first]? = some ids[a]?) (h2 : s.its[last]? = some ids[b]?)
    (hab : a ≤ b) (hb : b ≤ ids.length) {f : Fn (CSt K V)} (hf : StaysTree cmp f s.its.length last ids b) {fuel : Nat} (hfuel : b - a < fuel) :
    Visits (treeIterators cmp) first last s.its.length (b - a) a f (putTree s.its.length ids) fuel s ⟨s.t, s.its ++ [ids[a]?]⟩ := by
  have hl : last < s.its.length := (List.getElem?_eq_some_iff.1 h2).1
  have hn : ids.Nodup := by
    obtain ⟨xs, hx, rfl⟩ := hs
    exact hx.1.nodup
  refine (tree_goes (a := a) hn hb (by omega) hf).visits hab ?_ ?_ hfuel
  · have : putTree s.its.length ids ⟨s.t, s.its ++ [ids[a]?]⟩ a = ⟨s.t, s.its ++ [ids[a]?]⟩ := by
      simp only [putTree]; rw [set_same' (by simp)]
    rw [this]
    simp [treeIterators, cstep, h1]
  · exact ⟨hs, by simp, by simp only; rw [List.getElem?_append_left hl]; exact h2⟩

end

/-! ## Lists -/

section
open GoSTL.Lists
variable {W C O T : Type} (K : Kit W C O T)

/-- bidlist/iterator.go, simplelist/iterator.go (`Lists.lstep`). -/
def listIterators : Iterators (St W) where
  clone s k := do let (_, s') ← lstep K (.clone k) s; .ok (s.its.length, s')
  equal s j k := do
    let (o, _) ← lstep K (.equal j k) s
    match o with
    | .bool b => .ok b
    | _ => .panic
  next s k := do let (_, s) ← lstep K (.next k) s; .ok s

/-- The iterator `iter` is put at the `k`-th of the nodes `ids` (at the end, if there are fewer). -/
def putList (iter : Nat) (ids : List Nat) (s : St W) (k : Nat) : St W := ⟨s.w, s.its.set iter ids[k]?⟩

/-- `Next` leads through the nodes `ids`, in this order, and ends there. -/
def Linked (w : W) (ids : List Nat) : Prop := ∀ k n, ids[k]? = some n → K.next w n = .ok ids[k + 1]?

/-- The function brings the iterator it gets, and `last`, back to where they were, and keeps the elements of the list and their order. `Inv` is anything more that it keeps true of the lists. -/
def StaysList (Inv : W → Prop) (f : Fn (St W)) (iter last : Nat) (ids : List Nat) (b : Nat) : Prop := ∀ s k r s', k < b → Inv s.w → Linked K s.w ids → s.its[iter]? = some ids[k]? → s.its[last]? = some ids[b]? →
  f iter s = .ok (r, s') → Inv s'.w ∧ Linked K s'.w ids ∧ s'.its[iter]? = some ids[k]? ∧ s'.its[last]? = some ids[b]?

variable {K}

theorem list_goes {Inv : W → Prop} {f : Fn (St W)} {iter last : Nat} {ids : List Nat} {a b : Nat} (hn : ids.Nodup) (hb : b ≤ ids.length) (hne : iter ≠ last) (h : StaysList K Inv f iter last ids b) :
    Goes (listIterators K) f iter last (putList iter ids) (fun s => (Inv s.w ∧ Linked K s.w ids) ∧ iter < s.its.length ∧ s.its[last]? = some ids[b]?) a b where
  equal s k ho ha hk := by
    have h1 : (putList iter ids s k).its[iter]? = some ids[k]? := by simp [putList, ho.2.1]
    have h2 : (putList iter ids s k).its[last]? = some ids[b]? := by simp only [putList]; rw [List.getElem?_set_ne hne]; exact ho.2.2
    simp only [listIterators, lstep, h1, h2, Res.ofOption_some, Res.ok_bind]
    by_cases c : k = b
    · simp [c]
    · have : ¬ ids[b]? = ids[k]? := fun e => c (get_inj hn hk hb e.symm)
      simp [c, this]
  call s k r s' ho ha hk e := by
    have h1 : (putList iter ids s k).its[iter]? = some ids[k]? := by simp [putList, ho.2.1]
    have h2 : (putList iter ids s k).its[last]? = some ids[b]? := by simp only [putList]; rw [List.getElem?_set_ne hne]; exact ho.2.2
    obtain ⟨g0, g1, g2, g3⟩ := h (putList iter ids s k) k r s' hk ho.1.1 ho.1.2 h1 h2 e
    refine ⟨⟨⟨g0, g1⟩, (List.getElem?_eq_some_iff.1 g2).1, g3⟩, ?_⟩
    have hk' : k < ids.length := by omega
    have e1 := g1 k _ (List.getElem?_eq_getElem hk')
    rw [List.getElem?_eq_getElem hk'] at g2
    simp only [listIterators, lstep, g2, Res.ofOption_some, Res.ok_bind, e1]
    rfl

/-- C105 for lists: called with iterators to the `a`-th and the `b`-th node (or the end) of a list, `a ≤ b`, and with any function that brings the iterator it is given and `last` back to
where they were and keeps the elements of the list and their order (it may change their values), the algorithms call the function for the elements in order, each time in the state the last
call left, until the answer is known. -/
theorem C105_lists_partial {Inv : W → Prop} {s : St W} (hi : Inv s.w) {ids : List Nat} (hn : ids.Nodup) (hs : Linked K s.w ids) {first last a b : Nat} (h1 : s.its[first]? = some ids[a]?) (h2 : s.its[last]? = some ids[b]?)
    (hab : a ≤ b) (hb : b ≤ ids.length) {f : Fn (St W)} (hf : StaysList K Inv f s.its.length last ids b) {fuel : Nat} (hfuel : b - a < fuel) :
    Visits (listIterators K) first last s.its.length (b - a) a f (putList s.its.length ids) fuel s ⟨s.w, s.its ++ [ids[a]?]⟩ := by
  have hl : last < s.its.length := (List.getElem?_eq_some_iff.1 h2).1
  refine (list_goes (a := a) hn hb (by omega) hf).visits hab ?_ ?_ hfuel
  · have : putList s.its.length ids ⟨s.w, s.its ++ [ids[a]?]⟩ a = ⟨s.w, s.its ++ [ids[a]?]⟩ := by
      simp only [putList]; rw [set_same' (by simp)]
    rw [this]
    simp [listIterators, lstep, h1]
  · exact ⟨⟨hi, hs⟩, by simp, by simp only; rw [List.getElem?_append_left hl]; exact h2⟩

/-- The nodes of every list of every reachable state are linked so. -/
theorem linked_bidlist {s : St (BidList.World T)} {q : St (BidList.Spec T)} (h : Reach bidKit bidSp BidList.fresh unstale unstale BidList.start BidList.specStart s q) {l : Nat} (hl : q.w.isList l) :
    Linked bidKit s.w (q.w.seq l) ∧ (q.w.seq l).Nodup :=
  ⟨(Iters.bid_chain (h.sim bidGood BidList.start_inv).inv hl).next, (Iters.bid_chain (h.sim bidGood BidList.start_inv).inv hl).nodup⟩

/-- The same of single lists. -/
theorem linked_simplelist {zero : T} {s : St (SimpleList.World T)} {q : St (SimpleList.Spec T)}
    (h : Reach (simpleKit zero) (simpleSp zero) SimpleList.okArgs inList (fun _ _ => False) SimpleList.new ⟨[], []⟩ s q) : Linked (simpleKit zero) s.w q.w.seq ∧ q.w.seq.Nodup :=
  ⟨(Iters.simple_chain (h.sim (simpleGood zero) SimpleList.new_inv).inv).next, (Iters.simple_chain (h.sim (simpleGood zero) SimpleList.new_inv).inv).nodup⟩

end

/-- The nodes of every reachable ordered container. -/
theorem inNodes_reachable {K V : Type} {cmp : K → K → Int} (hc : LawfulCmp cmp) {ops : List (TreeMap.COp K V)} (hl : TreeMap.AllLive cmp ops ⟨[], 0, []⟩) {os s}
    (e : TreeMap.crun cmp ops ⟨RB.Tree.new, []⟩ = .ok (os, s)) : ∃ ids, InNodes cmp s.t ids := by
  obtain ⟨z, q, h, -⟩ := TreeMap.crun_sim hc ops [] (q := ⟨[], 0, []⟩) TreeMap.csim_new (by simpa using hl) e
  exact ⟨_, _, h.holds, rfl⟩

/-! ## An example that is more than an example: updating in place while counting -/

section
open GoSTL.Moving GoSTL.Seq
variable {W C O T : Type}

/-- A function that reads `x` through its iterator, writes `h x`, and answers `p x`. -/
def through (K : Kit W C O T) (p : T → Bool) (h : T → T) : Fn (St W) := fun k s => do
  let (o, s) ← istep K (.value k) s
  match o with
  | .val x => do
    let (_, s) ← istep K (.setValue k (h x)) s
    .ok (p x, s)
  | _ => .panic

variable {K : Kit W C O T} {call : C → List (List T) → Res (O × List (List T))} {Rep : W → List (List T) → Prop} {p : T → Bool} {h : T → T}

theorem through_ok (g : Good K call Rep) {s : St W} {ls : List (List T)} {l : List T} {x : T} {i k j : Nat} (hr : Rep s.w ls) (hi : ls[i]? = some l) (hj : s.its[j]? = some ⟨i, k⟩) (hx : l[k]? = some x) :
    ∃ w', through K p h j s = .ok (p x, ⟨w', s.its⟩) ∧ Rep w' (ls.set i (l.set k (h x))) := by
  have h1 := g.get s.w ls i k hr
  have h2 := g.set s.w ls i k (h x) hr
  rw [hi] at h1 h2
  have ha : at? l (k : Int) = some x := by rw [at?_nat]; exact hx
  simp only [Res.ofOption_some, Res.ok_bind, ha] at h1
  obtain ⟨w', e, hw⟩ := h2
  have hk : k < l.length := (List.getElem?_eq_some_iff.1 hx).1
  rw [setAt_eq, if_pos (by omega)] at hw
  refine ⟨w', ?_, by simpa using hw⟩
  simp only [through, istep, Moving.St.it, hj, Res.ofOption_some, Res.ok_bind, h1, e]

theorem upd_step {l : List T} {k : Nat} (hk : k < l.length) {y : T} {n : Nat} :
    (l.set k y).take (k + 1) ++ (((l.set k y).drop (k + 1)).take n).map h ++ (l.set k y).drop (k + 1 + n) = l.take k ++ (y :: ((l.drop (k + 1)).take n).map h) ++ l.drop (k + (n + 1)) := by
  have h1 : (l.set k y).take (k + 1) = l.take k ++ [y] := by
    rw [List.take_succ_eq_append_getElem (by simpa using hk), List.take_set_of_le (Nat.le_refl _)]
    simp
  have h2 : ∀ m, k < m → (l.set k y).drop m = l.drop m := fun m hm => by rw [List.drop_set, if_pos hm]
  rw [h1, h2 _ (by omega), h2 _ (by omega), show k + 1 + n = k + (n + 1) by omega]
  simp

theorem through_visit (g : Good K call Rep) {i j : Nat} : ∀ (n k : Nat) (s : St W) (ls : List (List T)) (l : List T), Rep s.w ls → ls[i]? = some l → k + n ≤ l.length → j < s.its.length →
    ∃ w', visit (fun _ => false) (through K p h j) (putPos j i) n k s = .ok (((l.drop k).take n).map p, ⟨w', s.its.set j ⟨i, (k + n : Nat)⟩⟩) ∧
      Rep w' (ls.set i (l.take k ++ ((l.drop k).take n).map h ++ l.drop (k + n))) := by
  intro n
  induction n with
  | zero =>
    intro k s ls l hr hi hk hj
    refine ⟨s.w, by simp [visit, putPos], ?_⟩
    rw [show ls.set i (l.take k ++ ((l.drop k).take 0).map h ++ l.drop (k + 0)) = ls by
      rw [show l.take k ++ ((l.drop k).take 0).map h ++ l.drop (k + 0) = l by simp]
      exact set_same hi]
    exact hr
  | succ n ih =>
    intro k s ls l hr hi hk hj
    have hkl : k < l.length := by omega
    have hil : i < ls.length := (List.getElem?_eq_some_iff.1 hi).1
    obtain ⟨w1, e1, r1⟩ := through_ok (p := p) (h := h) g (s := putPos j i s k) (j := j) (i := i) (k := k) hr hi (by simp [putPos, hj]) (List.getElem?_eq_getElem hkl)
    obtain ⟨w2, e2, r2⟩ := ih (k + 1) ⟨w1, s.its.set j ⟨i, k⟩⟩ _ (l.set k (h l[k])) r1 (by simp [hil]) (by simp; omega) (by simpa using hj)
    refine ⟨w2, ?_, ?_⟩
    · simp only [visit, e1, Res.ok_bind, Bool.false_eq_true, if_false]
      rw [show (⟨w1, (putPos j i s k).its⟩ : St W) = ⟨w1, s.its.set j ⟨i, k⟩⟩ from rfl, e2]
      simp only [Res.ok_bind, List.set_set]
      rw [show (l.drop k).take (n + 1) = l[k] :: (l.drop (k + 1)).take n by rw [List.drop_eq_getElem_cons hkl, List.take_succ_cons]]
      rw [show (l.set k (h l[k])).drop (k + 1) = l.drop (k + 1) by rw [List.drop_set, if_pos (by omega)]]
      rw [show k + 1 + n = k + (n + 1) by omega]
      rfl
    · rw [List.set_set, upd_step hkl] at r2
      rw [show (l.drop k).take (n + 1) = l[k] :: (l.drop (k + 1)).take n by rw [List.drop_eq_getElem_cons hkl, List.take_succ_cons]]
      exact r2

theorem through_stays (g : Good K call Rep) (p : T → Bool) (h : T → T) (iter last i a b : Nat) :
    StaysPos K (fun w => ∃ ls l, Rep w ls ∧ ls[i]? = some l ∧ b ≤ l.length) (through K p h) iter last i a b := by
  rintro s k r s' ⟨ls, l, hr, hi, hb⟩ ha hk h1 h2 e
  obtain ⟨w', e1, r1⟩ := through_ok (p := p) (h := h) g hr hi h1 (List.getElem?_eq_getElem (show k < l.length by omega))
  rw [e] at e1
  cases e1
  have hil : i < ls.length := (List.getElem?_eq_some_iff.1 hi).1
  refine ⟨⟨_, l.set k (h l[k]), r1, by simp [hil], by simpa using hb⟩, h1, h2, ?_⟩
  have := g.size w' _ i r1
  rw [show (ls.set i (l.set k (h l[k])))[i]? = some (l.set k (h l[k])) by simp [hil]] at this
  exact ⟨_, this, by simp; omega⟩

/-- C105, a function that writes: `CountIf` over the positions `a`, …, `b - 1` of a vector, array or deque, with a function that replaces every element `x` it sees by `h x` and answers
`p x`, counts the old elements that satisfy `p`, and leaves exactly the elements of the range replaced. -/
theorem C105_update (g : Good K call Rep) (p : T → Bool) (h : T → T) {s : St W} {ls : List (List T)} {l : List T} {first last i a b : Nat} (hr : Rep s.w ls) (hi : ls[i]? = some l)
    (h1 : s.its[first]? = some ⟨i, a⟩) (h2 : s.its[last]? = some ⟨i, b⟩) (hab : a ≤ b) (hb : b ≤ l.length) {fuel : Nat} (hf : b - a < fuel) :
    ∃ w', countIf (posIterators K) fuel first last (through K p h) s = .ok (((l.drop a).take (b - a)).countP p, ⟨w', s.its ++ [⟨i, b⟩]⟩) ∧
      Rep w' (ls.set i (l.take a ++ ((l.drop a).take (b - a)).map h ++ l.drop b)) := by
  have hv := (C105_positions_partial (K := K) h1 h2 hab (Inv := fun w => ∃ ls l, Rep w ls ∧ ls[i]? = some l ∧ b ≤ l.length) ⟨ls, l, hr, hi, hb⟩ (through_stays g p h _ _ _ _ _) hf).countIf
  obtain ⟨w', e, r⟩ := through_visit (p := p) (h := h) g (i := i) (j := s.its.length) (b - a) a (s.push ⟨i, a⟩) ls l hr hi (by omega) (by simp [Moving.St.push])
  refine ⟨w', ?_, ?_⟩
  · rw [hv, e]
    simp only [Res.ok_bind]
    rw [show a + (b - a) = b by omega, List.count, List.countP_map]
    have : ((· == true) ∘ p) = p := by funext x; cases hx : p x <;> simp [hx]
    rw [this]
    simp [Moving.St.push]
  · rw [show a + (b - a) = b by omega] at r
    exact r

end

/-! ## What goes wrong otherwise -/

section
variable {f : Fn σ} {iter last : Nat}

/-- Once a round of the loop ends where it began, it goes on for ever. -/
theorem countIf_loops {s s1 : σ} {r : Bool} (h1 : M.equal s iter last = .ok false) (h2 : f iter s = .ok (r, s1)) (h3 : M.next s1 iter = .ok s) :
    ∀ (n c : Nat), countIfLoop M f iter last n c s = .outOfFuel
  | 0, _ => rfl
  | n + 1, c => by
    simp only [countIfLoop, h1, h2, h3, Res.ok_bind, Bool.false_eq_true, if_false]
    exact countIf_loops h1 h2 h3 n _

theorem countIf_round {s s1 s2 : σ} {r : Bool} (h1 : M.equal s iter last = .ok false) (h2 : f iter s = .ok (r, s1)) (h3 : M.next s1 iter = .ok s2)
    (h : ∀ n c, countIfLoop M f iter last n c s2 = .outOfFuel) : ∀ (n c : Nat), countIfLoop M f iter last n c s = .outOfFuel
  | 0, _ => rfl
  | n + 1, c => by
    simp only [countIfLoop, h1, h2, h3, Res.ok_bind, Bool.false_eq_true, if_false]
    exact h n _

theorem countIf_hangs {first : Nat} {s s1 : σ} (h1 : M.clone s first = .ok (iter, s1)) (h : ∀ n c, countIfLoop M f iter last n c s1 = .outOfFuel) (fuel : Nat) :
    countIf M fuel first last f s = .outOfFuel := by
  rw [countIf, h1]; exact h fuel 0

end

section
open GoSTL.Moving

/-- A function that looks at the element behind the one it is called for, by moving the iterator: is it 20? -/
def peek : Fn (St (Vector.World Nat)) := fun k s => do
  let (_, s) ← istep (vecKit 0) (.next k) s
  let (o, s) ← istep (vecKit 0) (.isValid k) s
  match o with
  | .bool true => do
    let (o, s) ← istep (vecKit 0) (.value k) s
    match o with
    | .val x => .ok (decide (x = 20), s)
    | _ => .panic
  | _ => .ok (false, s)

/-- A function that erases the element it is called for, and says it did. -/
def eraseIt : Fn (St (Vector.World Nat)) := fun k s => do
  let (o, s) ← istep (vecKit 0) (.position k) s
  match o with
  | .pos p => do
    let (_, s) ← istep (vecKit 0) (.call (.on 0 (.eraseAt p 0))) s
    .ok (true, s)
  | _ => .panic

/-- A vector 10, 20, 30 (with room for 4), and iterators to its begin, its second element and its end. -/
def three : List (VOp Nat) := [.it (.call (.new 4)), .it (.call (.on 0 (.pushBack 10 0))), .it (.call (.on 0 (.pushBack 20 0))), .it (.call (.on 0 (.pushBack 30 0))), .it (.begin_ 0),
  .it (.iterAt 0 1), .it (.end_ 0)]

/-- The world after `three`. -/
def threeW : Vector.World Nat := match vrun 0 three ⟨Vector.start, []⟩ with
  | .ok (_, s) => s.w
  | _ => Vector.start

/-- C105 does not hold of functions that move the iterator they are given: with `peek`, the first element that is followed by 20 is the one at position 0, but `FindIf` returns an iterator
at position 1, where the function left it. -/
theorem C105_findIf_violated : ∃ s s', (∃ os, vrun 0 three ⟨Vector.start, []⟩ = .ok (os, s)) ∧ findIf (posIterators (vecKit 0)) 10 0 2 peek s = .ok (3, s') ∧ s'.its[3]? = some ⟨0, 1⟩ :=
  ⟨_, _, ⟨_, rfl⟩, rfl, rfl⟩

/-- With `peek`, `CountIf` over the first element alone, from position 0 to position 1, never returns: the iterator is moved past `last`. -/
theorem C105_countIf_violated : ∃ s, (∃ os, vrun 0 three ⟨Vector.start, []⟩ = .ok (os, s)) ∧ ∀ fuel, countIf (posIterators (vecKit 0)) fuel 0 1 peek s = .outOfFuel :=
  ⟨_, ⟨_, rfl⟩, countIf_hangs (iter := 3) rfl (countIf_round (s2 := ⟨threeW, [⟨0, 0⟩, ⟨0, 1⟩, ⟨0, 3⟩, ⟨0, 2⟩]⟩) rfl rfl rfl
    (countIf_round (s2 := ⟨threeW, [⟨0, 0⟩, ⟨0, 1⟩, ⟨0, 3⟩, ⟨0, 3⟩]⟩) rfl rfl rfl (countIf_loops rfl rfl rfl)))⟩

/-- With a function that erases, `CountIf` over a whole vector never returns: `Next` does not move the iterator when the vector has become too short, and the end is not reached any more. -/
theorem C105_erasing_violated : ∃ s, (∃ os, vrun 0 three ⟨Vector.start, []⟩ = .ok (os, s)) ∧ ∀ fuel, countIf (posIterators (vecKit 0)) fuel 0 2 eraseIt s = .outOfFuel :=
  ⟨_, ⟨_, rfl⟩, countIf_hangs (iter := 3) rfl (countIf_round rfl rfl rfl (countIf_round rfl rfl rfl (countIf_loops rfl rfl rfl)))⟩

/-! ## Cases -/

/-- A function that appends a copy of every multiple of 4 it sees to the vector it walks. -/
def grow : Fn (St (Vector.World Nat)) := fun k s => do
  let (o, s) ← istep (vecKit 0) (.value k) s
  match o with
  | .val x =>
    if x % 4 = 0 then
      (do
        let (_, s) ← istep (vecKit 0) (.call (.on 0 (.pushBack x 7))) s
        .ok (true, s))
    else .ok (false, s)
  | _ => .panic

theorem grow_stays (iter last a b : Nat) : StaysPos (vecKit 0) (fun w => ∃ ls l, vecRep w ls ∧ ls[0]? = some l ∧ b ≤ l.length) grow iter last 0 a b := by
  rintro s k r s' ⟨ls, l, hr, hi, hb⟩ ha hk h1 h2 e
  have hk' : k < l.length := by omega
  have e1 : (vecKit 0).get s.w 0 (k : Int) = .ok l[k] := by
    rw [(vecGood 0).get s.w ls 0 k hr, hi]
    simp [at?_nat, hk']
  simp only [grow, istep, Moving.St.it, h1, Res.ofOption_some, Res.ok_bind, e1] at e
  have hsz : ∀ (w : Vector.World Nat) ls l, vecRep w ls → ls[0]? = some l → (vecKit 0).size w 0 = .ok (l.length : Int) := fun w ls l hr hi => by
    rw [(vecGood 0).size w ls 0 hr, hi]; rfl
  split at e
  · have h3 := (vecGood 0).call (.on 0 (.pushBack l[k] 7)) s.w ls hr
    rw [Vector.specCall, hi] at h3
    obtain ⟨w', e3, hw⟩ := h3
    rw [e3] at e
    cases e
    have hi' : (ls.set 0 (l ++ [l[k]]))[0]? = some (l ++ [l[k]]) := by
      have : 0 < ls.length := (List.getElem?_eq_some_iff.1 hi).1
      simp [this]
    exact ⟨⟨_, _, hw, hi', by simp; omega⟩, h1, h2, _, hsz _ _ _ hw hi', by simp; omega⟩
  · cases e
    exact ⟨⟨ls, l, hr, hi, hb⟩, h1, h2, _, hsz _ _ _ hr hi, by omega⟩

/-- `C105_positions_partial`: counting with `grow` in the vector 10, 20, 30 from begin to end visits the three elements that were there. -/
example : ∃ s os, vrun 0 three ⟨Vector.start, []⟩ = .ok (os, s) ∧ Visits (posIterators (vecKit 0)) 0 2 3 3 0 grow (putPos 3 0) 4 s (s.push ⟨0, 0⟩) ∧
    ∃ s', countIf (posIterators (vecKit 0)) 4 0 2 grow s = .ok (1, s') ∧ Vector.shows s'.w = [[10, 20, 30, 20]] := by
  refine ⟨_, _, rfl, ?_, _, rfl, rfl⟩
  obtain ⟨q, h1, h2⟩ := VReach.sim (zero := 0) ⟨three, _, rfl⟩
  have hw : q.w[0]? = some [10, 20, 30] := by rw [← h1.2]; rfl
  exact C105_positions_partial (K := vecKit 0) (first := 0) (last := 2) (i := 0) (a := 0) (b := 3) (fuel := 4) rfl rfl (by omega) ⟨q.w, _, h1, hw, by simp⟩ (grow_stays _ _ _ _) (by omega)

/-- `C105_update`: doubling 20 and 30 while counting the elements above 25. -/
example : ∃ s os, vrun 0 three ⟨Vector.start, []⟩ = .ok (os, s) ∧
    ∃ w', countIf (posIterators (vecKit 0)) 3 1 2 (through (vecKit 0) (fun x => decide (x > 25)) (· * 2)) s = .ok (1, ⟨w', s.its ++ [⟨0, 3⟩]⟩) ∧ Vector.shows w' = [[10, 40, 60]] := by
  refine ⟨_, _, rfl, ?_⟩
  obtain ⟨q, h1, h2⟩ := VReach.sim (zero := 0) ⟨three, _, rfl⟩
  have hq : q.w = [[10, 20, 30]] := by rw [← h1.2]; rfl
  obtain ⟨w', e, hr⟩ := C105_update (vecGood 0) (fun x => decide (x > 25)) (· * 2) (first := 1) (last := 2) (i := 0) (a := 1) (b := 3) (fuel := 3) h1 (l := [10, 20, 30]) (by rw [hq]; rfl) rfl rfl
    (by omega) (by simp) (by omega)
  rw [hq] at hr
  exact ⟨w', e, hr.2⟩

end

section
open GoSTL.TreeMap GoSTL.RB

/-- A function on map iterators that adds 1 to the value and answers whether it was above 15. -/
def bump : Fn (CSt Int Int) := fun k s => do
  let (o, s) ← cstep intCmp (.value k) s
  match o with
  | .val x => do
    let (_, s) ← cstep intCmp (.setValue k (x + 1)) s
    .ok (decide (x > 15), s)
  | _ => .panic

theorem bump_stays (iter last : Nat) (ids : List Id) (b : Nat) (hb : b ≤ ids.length) : StaysTree intCmp bump iter last ids b := by
  rintro s k r s' hk ⟨xs, hx, rfl⟩ h1 h2 e
  have hk' : k < (xs.map (·.1)).length := by omega
  obtain ⟨a, v, g1, -, g3⟩ := Iters.tree_at hx (List.getElem?_eq_getElem hk')
  rw [List.getElem?_eq_getElem hk'] at h1
  obtain ⟨nd, hn, -, -⟩ := hx.1.node (List.mem_of_getElem? g1)
  simp only [bump, cstep, h1, Res.ofOption_some, Res.ok_bind, g3, iterSetValue, hn] at e
  cases e
  refine ⟨⟨xs.take k ++ ((xs.map (·.1))[k], a, v + 1) :: xs.drop (k + 1), ⟨?_, ?_⟩, ?_⟩, by rw [List.getElem?_eq_getElem hk']; exact h1, h2⟩
  · have := hx.1
    rw [Iters.split_at g1] at this
    exact this.setValue (v + 1)
  · have := hx.2
    rw [Iters.split_at g1] at this
    simp only [SortedE, List.pairwise_append, List.pairwise_cons] at this ⊢
    refine ⟨this.1, this.2.1, fun x hx y hy => ?_⟩
    rcases List.mem_cons.1 hy with rfl | hy
    · exact this.2.2 x hx (((xs.map (·.1))[k]'hk'), a, v) (List.mem_cons_self ..)
    · exact this.2.2 x hx y (by simp [hy])
  · conv_rhs => rw [Iters.split_at g1]
    simp

/-- Walking a container tells its nodes. -/
theorem inNodes_eq {t : Tree Int Int} {ids : List Id} (h : InNodes intCmp t ids) (want : List Id) (h0 : t.first = .ok want[0]?) (h1 : ∀ k, k < want.length → iterNext t want[k]? = .ok want[k + 1]?) :
    ids = want := by
  obtain ⟨xs, hx, rfl⟩ := h
  refine List.ext_getElem? fun k => ?_
  have up : ∀ k, k ≤ want.length → (xs.map (·.1))[k]? = want[k]? := by
    intro k
    induction k with
    | zero =>
      intro _
      have := hx.1.first
      rw [h0] at this
      have := Res.ok.inj this
      rw [this, hd]
      cases xs <;> rfl
    | succ k ih =>
      intro hk
      have e := h1 k (by omega)
      have i := ih (by omega)
      rw [List.getElem?_eq_getElem (show k < want.length by omega)] at e i
      have := Iters.tree_next hx k _ i
      rw [e] at this
      exact (Res.ok.inj this).symm
  by_cases c : k ≤ want.length
  · exact up k c
  · have := up want.length (Nat.le_refl _)
    rw [List.getElem?_eq_none (l := want) (Nat.le_refl _), List.getElem?_eq_none_iff] at this
    rw [List.getElem?_eq_none (by omega), List.getElem?_eq_none (by omega)]

/-- A map 1 ↦ 10, 2 ↦ 20, 3 ↦ 30, 4 ↦ 5, an iterator to 2 and the end. -/
def four : List (COp Int Int) := [.put 2 20, .put 1 10, .put 3 30, .put 4 5, .find 2, .find 9]

/-- The state after it. -/
def fourSt : CSt Int Int := match crun intCmp four ⟨Tree.new, []⟩ with
  | .ok (_, s) => s
  | _ => ⟨Tree.new, []⟩

set_option maxRecDepth 40000 in
/-- `C105_ordered_partial`: counting with `bump` in a map over all entries but the first. -/
example : (∃ os, crun intCmp four ⟨Tree.new, []⟩ = .ok (os, fourSt)) ∧
    Visits (treeIterators intCmp) 0 1 2 3 1 bump (putTree 2 [1, 0, 2, 3]) 4 fourSt ⟨fourSt.t, fourSt.its ++ [some 0]⟩ ∧
    ∃ s', countIf (treeIterators intCmp) 4 0 1 bump fourSt = .ok (2, s') ∧ TreeMap.outs (crun intCmp [.get 1, .get 2, .get 3, .get 4] s') =
      .ok [.got (some 10), .got (some 21), .got (some 31), .got (some 6)] := by
  have e0 : crun intCmp four ⟨Tree.new, []⟩ = .ok ([.unit, .unit, .unit, .unit, .made, .made], fourSt) := rfl
  refine ⟨⟨_, e0⟩, ?_, _, rfl, rfl⟩
  obtain ⟨ids, h⟩ := inNodes_reachable intCmp_lawful (ops := four) (allLive_of _ _ rfl) e0
  have e := inNodes_eq h [1, 0, 2, 3] rfl (fun k hk => by
    have : k = 0 ∨ k = 1 ∨ k = 2 ∨ k = 3 := by simp at hk; omega
    rcases this with rfl | rfl | rfl | rfl <;> rfl)
  rw [e] at h
  have h1 : fourSt.its[0]? = some ([1, 0, 2, 3] : List Id)[1]? := rfl
  have h2 : fourSt.its[1]? = some ([1, 0, 2, 3] : List Id)[4]? := rfl
  exact C105_ordered_partial (a := 1) (b := 4) (fuel := 4) h h1 h2 (by omega) (by simp) (bump_stays _ _ _ _ (by simp)) (by omega)

end

section
open GoSTL.Lists

/-- A function on list iterators that adds 1 to the element and answers whether it was above 15. -/
def bumpL : Fn (St (BidList.World Nat)) := fun k s => do
  let (o, s) ← lstep bidKit (.value k) s
  match o with
  | .val x => do
    let (_, s) ← lstep bidKit (.setValue k (x + 1)) s
    .ok (decide (x > 15), s)
  | _ => .panic

theorem bumpL_stays (iter last l : Nat) (ids : List Nat) (b : Nat) (hb : b ≤ ids.length) :
    StaysList bidKit (fun w => ∃ S, BidList.WInv w S ∧ S.isList l ∧ S.seq l = ids) bumpL iter last ids b := by
  rintro s k r s' hk ⟨S, hw, hl, rfl⟩ hL h1 h2 e
  have hk' : k < (S.seq l).length := by omega
  have h1' := h1
  rw [List.getElem?_eq_getElem hk'] at h1'
  have hlt : (S.seq l)[k] < S.vals.length := hw.mem_lt (List.getElem_mem hk')
  have hv := bidGood.value s.w S (S.seq l)[k] hw
  obtain ⟨⟨w', e1, hw'⟩, -⟩ := bidGood.set s.w S (S.seq l)[k] (S.vals[(S.seq l)[k]] + 1) hw hlt
  rw [show (bidSp.vals S)[(S.seq l)[k]]? = some (S.vals[(S.seq l)[k]]) from List.getElem?_eq_getElem hlt] at hv
  simp only [bumpL, lstep, h1', hv, e1, Res.ofOption_some, Res.ok_bind] at e
  cases e
  refine ⟨⟨_, hw', hl, rfl⟩, ?_, h1, h2⟩
  exact (Iters.bid_chain hw' (l := l) hl).next

/-- A list 10, 20, 30, and iterators to 10 and to 30. -/
def lthree : List (LOp (BidList.Op Nat) Nat) := [.call .newList, .call (.pushBack 0 20), .call (.pushBack 0 30), .call (.pushFront 0 10), .newIterator (some 2), .newIterator (some 1)]

/-- `C105_lists_partial`: counting with `bumpL` from 10 to 30. -/
example : ∃ s q, Reach bidKit bidSp BidList.fresh unstale unstale BidList.start BidList.specStart s q ∧
    Visits (listIterators bidKit) 0 1 2 2 0 bumpL (putList 2 [2, 0, 1]) 3 s ⟨s.w, s.its ++ [some 2]⟩ ∧
    ∃ s', countIf (listIterators bidKit) 3 0 1 bumpL s = .ok (1, s') ∧ BidList.outs (lrun bidKit [.prev 1, .value 1, .prev 1, .value 1] s') = .ok [.unit, .val 21, .unit, .val 11] := by
  have h : Reach bidKit bidSp BidList.fresh unstale unstale (BidList.start (T := Nat)) BidList.specStart _ _ := ⟨lthree, _, bidOk_of _ _ rfl, rfl, rfl⟩
  refine ⟨_, _, h, ?_, _, rfl, rfl⟩
  have hl := linked_bidlist h (l := 0) (by decide)
  exact C105_lists_partial (a := 0) (b := 2) (ids := [2, 0, 1]) (fuel := 3) (first := 0) (last := 1) ⟨_, (h.sim bidGood BidList.start_inv).inv, by decide, rfl⟩ (by decide) hl.1 rfl rfl (by omega) (by simp)
    (bumpL_stays _ _ 0 _ _ (by simp)) (by omega)

end

end GoSTL.Callback
