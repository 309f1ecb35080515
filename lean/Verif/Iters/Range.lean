import Verif.Algo.ConstOp
import Mathlib.Data.List.Nodup
import Mathlib.Tactic.SplitIfs
/-!
# Ranges of node-based iterators

An iterator of the lists and of the trees is a node pointer; the nil pointer is the end. What the read-only algorithms
return on a range between two such iterators is stated in terms of the sequence of values the container holds.
-/
namespace GoSTL.Iters
open GoSTL.Algo

variable {I T : Type}

/-- `n` calls of `Next`. -/
def adv (it : ConstIter I T) : Nat → I → Res I
  | 0, i => .ok i
  | n + 1, i => do
    let j ← it.next i
    adv it n j

/-- What `Count`, `CountIf`, `Find`, `FindIf`, `AnyOf`, `AllOf`, `NoneOf`, `MaxElement` and `MinElement` return on the range
from `first` to `last`, given the iterators and values `es` in between (`f` is any sufficient loop budget). -/
structure AlgosOk (it : ConstIter I T) (first last : I) (es : List (I × T)) : Prop where
  count : ∀ (eqv : T → T → Int) (val : T) (f : Nat), es.length < f →
    Algo.count it eqv f first last val = .ok (es.countP fun e => decide (eqv e.2 val = 0))
  countIf : ∀ (p : I → Bool) (f : Nat), es.length < f → Algo.countIf it f first last p = .ok (es.countP fun e => p e.1)
  find : ∀ (eqv : T → T → Int) (val : T) (f : Nat), es.length < f →
    Algo.find it eqv last val f first = .ok (((es.find? fun e => decide (eqv e.2 val = 0)).map (·.1)).getD last)
  findIf : ∀ (p : I → Bool) (f : Nat), es.length < f →
    Algo.findIf it p last f first = .ok (((es.find? fun e => p e.1).map (·.1)).getD last)
  anyOf : ∀ (p : I → Bool) (f : Nat), es.length < f → Algo.anyOf it p last f first = .ok (es.any fun e => p e.1)
  allOf : ∀ (p : I → Bool) (f : Nat), es.length < f → Algo.allOf it p last f first = .ok (es.all fun e => p e.1)
  noneOf : ∀ (p : I → Bool) (f : Nat), es.length < f → Algo.noneOf it p last f first = .ok (!es.any fun e => p e.1)
  maxElement : ∀ (cmp : T → T → Int), LawfulCmp cmp → ∀ (f : Nat), es.length < f →
    ∃ r, Algo.maxElement it cmp f first last = .ok r ∧
      ((es = [] ∧ r = last) ∨ ∃ A e B, es = A ++ e :: B ∧ r = e.1 ∧ (∀ a ∈ A, cmp a.2 e.2 < 0) ∧ ∀ b ∈ B, ¬ cmp e.2 b.2 < 0)
  minElement : ∀ (cmp : T → T → Int), LawfulCmp cmp → ∀ (f : Nat), es.length < f →
    ∃ r, Algo.minElement it cmp f first last = .ok r ∧
      ((es = [] ∧ r = last) ∨ ∃ A e B, es = A ++ e :: B ∧ r = e.1 ∧ (∀ a ∈ A, cmp e.2 a.2 < 0) ∧ ∀ b ∈ B, ¬ cmp b.2 e.2 < 0)

/-- The container whose front iterator is `front` and whose values are `vals`, seen through its iterators: the iterators
after `p` and after `q` calls of `Next` on the front iterator delimit the values at positions `p` to `q - 1`; the `k`-th entry
of the range is the iterator after `p + k` calls; and the read-only algorithms answer accordingly. The iterator after
`vals.length` calls is the end iterator, and further calls of `Next` stay there. -/
def Walkable (it : ConstIter (Option Nat) T) (front : Option Nat) (vals : List T) : Prop :=
  adv it vals.length front = .ok none ∧ it.next none = .ok none ∧
  ∀ p q, p ≤ q → q ≤ vals.length → ∃ first last es, adv it p front = .ok first ∧ adv it q front = .ok last ∧
    es.map Prod.snd = (vals.drop p).take (q - p) ∧ (∀ k e, es[k]? = some e → adv it (p + k) front = .ok e.1) ∧
    AlgosOk it first last es

theorem firstWith_eq {es : List (I × T)} {last : I} {p : I × T → Bool} {P : I × T → Prop} (hP : ∀ e, P e ↔ p e = true) {r : I}
    (h : FirstWith es last P r) : r = ((es.find? p).map (·.1)).getD last := by
  rcases h with ⟨A, e, B, rfl, rfl, h2, h3⟩ | ⟨rfl, h2⟩
  · have : List.find? p (A ++ e :: B) = some e := by
      rw [List.find?_append, List.find?_eq_none.2 fun a ha => fun hc => h3 a ha ((hP a).2 hc)]
      simp [(hP e).1 h2]
    simp [this]
  · have : List.find? p es = none := List.find?_eq_none.2 fun a ha hc => h2 a ha ((hP a).2 hc)
    simp [this]

theorem algosOk_of_range {it : ConstIter I T} {first last : I} {es : List (I × T)} (h : Range it first last es) :
    AlgosOk it first last es where
  count eqv val f hf := by simpa [Algo.count] using countLoop_spec (cmp := eqv) h val f 0 hf
  countIf p f hf := by simpa [Algo.countIf] using countIfLoop_spec h p f 0 hf
  find eqv val f hf := by
    obtain ⟨r, e, h1⟩ := find_spec (cmp := eqv) h val f hf
    rw [e, firstWith_eq (p := fun e => decide (eqv e.2 val = 0)) (by simp) h1]
  findIf p f hf := by
    obtain ⟨r, e, h1⟩ := findIf_spec h p f hf
    rw [e, firstWith_eq (p := fun e => p e.1) (by simp) h1]
  anyOf p f hf := anyOf_spec h p f hf
  allOf p f hf := allOf_spec h p f hf
  noneOf p f hf := by simp [Algo.noneOf, anyOf_spec h p f hf]
  maxElement cmp hc f hf := maxElement_spec hc h f hf
  minElement cmp hc f hf := minElement_spec hc h f hf

/-- A chain of nodes `ns` with values `vs`: the shape all node-based containers have. -/
structure Chain (it : ConstIter (Option Nat) T) (ns : List Nat) (vs : List T) : Prop where
  len : ns.length = vs.length
  nodup : ns.Nodup
  eq : ∀ a b, it.eq a b = decide (a = b)
  stop : it.next none = .ok none
  value : ∀ (k n : Nat) (v : T), ns[k]? = some n → vs[k]? = some v → it.value (some n) = .ok v
  next : ∀ (k n : Nat), ns[k]? = some n → it.next (some n) = .ok ns[k + 1]?

theorem Chain.adv {it : ConstIter (Option Nat) T} {ns : List Nat} {vs : List T} (h : Chain it ns vs) (n : Nat) : ∀ k,
    Iters.adv it n ns[k]? = .ok ns[k + n]? := by
  induction n with
  | zero => intro k; rfl
  | succ n ih =>
    intro k
    rw [Iters.adv]
    cases e : ns[k]? with
    | none =>
      rw [h.stop, Res.ok_bind]
      have e' : ns[k + 1]? = none := by rw [List.getElem?_eq_none_iff] at e ⊢; omega
      have := ih (k + 1)
      rw [e'] at this
      rw [this]; congr 2; omega
    | some m =>
      rw [h.next k m e, Res.ok_bind, ih]
      congr 2; omega

theorem Chain.range {it : ConstIter (Option Nat) T} {ns : List Nat} {vs : List T} (h : Chain it ns vs) (d : Nat) : ∀ p,
    p + d ≤ ns.length → Range it ns[p]? ns[p + d]? ((ns.zip vs).drop p |>.take d |>.map fun e => (some e.1, e.2)) := by
  induction d with
  | zero => intro p hp; simpa using Range.nil (by simp [h.eq])
  | succ d ih =>
    intro p hp
    have hp1 : p < ns.length := by omega
    have hp2 : p < vs.length := by have := h.len; omega
    have e1 : ns[p]? = some ns[p] := by simp [hp1]
    have e2 : vs[p]? = some vs[p] := by simp [hp2]
    have e3 : (ns.zip vs).drop p = (ns[p], vs[p]) :: (ns.zip vs).drop (p + 1) := by
      rw [List.drop_eq_getElem_cons (by simp; omega)]; simp
    rw [e3, List.take_succ_cons, List.map_cons, e1]
    refine Range.cons ?_ (h.value p _ _ e1 e2) (h.next p _ e1) ?_
    · rw [h.eq, decide_eq_false_iff_not]
      intro hc
      rw [← e1] at hc
      have := (List.nodup_iff_getElem?_ne_getElem?.1 h.nodup) p (p + (d + 1)) (by omega)
      by_cases hl : p + (d + 1) < ns.length
      · exact this hl hc
      · have e5 : ns[p + (d + 1)]? = none := by rw [List.getElem?_eq_none_iff]; omega
        rw [e5, e1] at hc
        exact absurd hc (by simp)
    · have := ih (p + 1) (by omega)
      have e4 : p + 1 + d = p + (d + 1) := by omega
      rw [e4] at this
      exact this

theorem Chain.walkable {it : ConstIter (Option Nat) T} {ns : List Nat} {vs : List T} (h : Chain it ns vs) :
    Walkable it ns.head? vs := by
  have h0 : ns.head? = ns[0]? := by cases ns <;> rfl
  rw [h0]
  refine ⟨?_, h.stop, fun p q hpq hq => ?_⟩
  · rw [h.adv]; simp [h.len]
  refine ⟨ns[p]?, ns[q]?, _, by simpa using h.adv p 0, by simpa using h.adv q 0, ?_, ?_,
    algosOk_of_range (by
      have := h.range (q - p) p (by have := h.len; omega)
      rwa [Nat.add_sub_of_le hpq] at this)⟩
  · rw [List.map_map]
    have : (Prod.snd ∘ fun e : Nat × T => (some e.1, e.2)) = Prod.snd := rfl
    rw [this, List.map_take, List.map_drop, List.map_snd_zip (by have := h.len; omega)]
  · intro k e he
    rw [h.adv, Nat.zero_add]
    rw [List.getElem?_map, List.getElem?_take] at he
    split_ifs at he with hk
    · simp only [List.getElem?_drop, Option.map_eq_some_iff, Prod.exists, List.getElem?_zip_eq_some] at he
      obtain ⟨a, b, ⟨h1, h2⟩, rfl⟩ := he
      rw [h1]
    · simp at he

end GoSTL.Iters
