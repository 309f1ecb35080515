import Verif.Iters.Range
/-!
# `algorithm.Swap` and `algorithm.Reverse` on node-based iterators

`Reverse` takes any `BidIterator`; the lists of `bidlist` and the maps offer such iterators, whose `Prev` leaves the end
iterator (nil) where it is. Iterators are values here, as in `Algo/ConstOp.lean`. The loop carries a budget.
-/
namespace GoSTL.Iters

/-- The methods of a mutable bidirectional iterator (utils/iterator/iterator.go:32-41) over containers `W`; `Equal` compares
node pointers. -/
structure BidIter (W T : Type) where
  next : W → Option Nat → Res (Option Nat)
  prev : W → Option Nat → Res (Option Nat)
  value : W → Option Nat → Res T
  setValue : W → Option Nat → T → Res W

variable {W T : Type}

/-- algorithm/op.go:8-13 `Swap`. -/
def swap (it : BidIter W T) (w : W) (a b : Option Nat) : Res W := do
  let va ← it.value w a
  let vb ← it.value w b
  let w ← it.setValue w a vb
  it.setValue w b va

/-- algorithm/op.go:19-26, the loop of `Reverse`. -/
def reverseLoop (it : BidIter W T) : Nat → W → Option Nat → Option Nat → Res W
  | 0, _, _, _ => .outOfFuel
  | f + 1, w, left, right =>
    if left = right then .ok w else do
    let w ← swap it w left right
    let left ← it.next w left
    if left = right then .ok w else do
    let right ← it.prev w right
    reverseLoop it f w left right

/-- algorithm/op.go:16-27 `Reverse`. -/
def reverse (it : BidIter W T) (f : Nat) (w : W) (first last : Option Nat) : Res W := do
  let right ← it.prev w last
  reverseLoop it f w first right

/-- The containers of `R ns` hold the values `vs` in the nodes `ns`, and their iterators walk these nodes. -/
structure BidChain (it : BidIter W T) (ns : List Nat) (R : W → List T → Prop) : Prop where
  nodup : ns.Nodup
  len : ∀ {w vs}, R w vs → vs.length = ns.length
  next : ∀ {w vs} {k n : Nat}, R w vs → ns[k]? = some n → it.next w (some n) = .ok ns[k + 1]?
  prev : ∀ {w vs} {k n : Nat}, R w vs → ns[k]? = some n → it.prev w (some n) = .ok (if k = 0 then none else ns[k - 1]?)
  prevEnd : ∀ {w vs}, R w vs → it.prev w none = .ok none
  value : ∀ {w vs} {k n : Nat} {v : T}, R w vs → ns[k]? = some n → vs[k]? = some v → it.value w (some n) = .ok v
  valueEnd : ∀ {w vs}, R w vs → it.value w none = .panic
  setValue : ∀ {w vs} {k n : Nat} (v : T), R w vs → ns[k]? = some n → ∃ w', it.setValue w (some n) v = .ok w' ∧ R w' (vs.set k v)

variable {it : BidIter W T} {ns : List Nat} {R : W → List T → Prop}

/-- The values at the positions `a` and `b` exchanged. -/
def exch (vs : List T) (a b : Nat) : List T :=
  match vs[a]?, vs[b]? with
  | some x, some y => (vs.set a y).set b x
  | _, _ => vs

theorem exch_get (vs : List T) {a b : Nat} (ha : a < vs.length) (hb : b < vs.length) (j : Nat) :
    (exch vs a b)[j]? = if j = a then vs[b]? else if j = b then vs[a]? else vs[j]? := by
  have ea : vs[a]? = some vs[a] := by simp
  have eb : vs[b]? = some vs[b] := by simp
  simp only [exch, ea, eb, List.getElem?_set]
  by_cases h1 : b = j
  · subst h1
    by_cases h2 : b = a
    · subst h2; simp [hb]
    · simp [h2, hb]
  · by_cases h2 : a = j
    · subst h2; simp [h1, ha]
    · have h1' : ¬ j = b := fun e => h1 e.symm
      have h2' : ¬ j = a := fun e => h2 e.symm
      simp [h1, h2, h1', h2']

theorem BidChain.swap (h : BidChain it ns R) {w : W} {vs : List T} (hw : R w vs) {a b : Nat} (ha : a < ns.length) (hb : b < ns.length) :
    ∃ w', Iters.swap it w ns[a]? ns[b]? = .ok w' ∧ R w' (exch vs a b) := by
  have hl := h.len hw
  have ha' : a < vs.length := by omega
  have hb' : b < vs.length := by omega
  have ea : ns[a]? = some ns[a] := by simp [ha]
  have eb : ns[b]? = some ns[b] := by simp [hb]
  have va : vs[a]? = some vs[a] := by simp [ha']
  have vb : vs[b]? = some vs[b] := by simp [hb']
  obtain ⟨w1, e1, h1⟩ := h.setValue vs[b] hw ea
  obtain ⟨w2, e2, h2⟩ := h.setValue vs[a] h1 eb
  refine ⟨w2, ?_, ?_⟩
  · rw [ea, eb]
    simp only [Iters.swap, h.value hw ea va, h.value hw eb vb, Res.ok_bind, e1, e2]
  · simpa [exch, va, vb] using h2

theorem BidChain.inj (h : BidChain it ns R) {a b : Nat} (ha : a < ns.length) (hab : a ≠ b) : ns[a]? ≠ ns[b]? := by
  intro hc
  by_cases hb : b < ns.length
  · exact hab ((List.getElem?_inj ha h.nodup).1 hc)
  · have e5 : ns[b]? = none := by rw [List.getElem?_eq_none_iff]; omega
    rw [e5, List.getElem?_eq_none_iff] at hc
    omega

/-- Walking towards each other. -/
theorem BidChain.loop_inward (h : BidChain it ns R) (d : Nat) : ∀ (f : Nat) (w : W) (vs : List T) (a b : Nat), b - a ≤ d → d < f → a ≤ b →
    b < ns.length → R w vs →
    ∃ w' vs', reverseLoop it f w ns[a]? ns[b]? = .ok w' ∧ R w' vs' ∧
      ∀ j, vs'[j]? = if a ≤ j ∧ j ≤ b then vs[a + b - j]? else vs[j]? := by
  induction d with
  | zero =>
    intro f w vs a b hd hf hab hb hw
    obtain ⟨f, rfl⟩ : ∃ g, f = g + 1 := ⟨f - 1, by omega⟩
    obtain rfl : a = b := by omega
    refine ⟨w, vs, by simp [reverseLoop], hw, fun j => ?_⟩
    split_ifs with hj
    · congr 1; omega
    · rfl
  | succ d ih =>
    intro f w vs a b hd hf hab hb hw
    obtain ⟨f, rfl⟩ : ∃ g, f = g + 1 := ⟨f - 1, by omega⟩
    by_cases hab' : a = b
    · subst hab'
      refine ⟨w, vs, by simp [reverseLoop], hw, fun j => ?_⟩
      split_ifs with hj
      · congr 1; omega
      · rfl
    have ha : a < ns.length := by omega
    have ea : ns[a]? = some ns[a] := by simp [ha]
    have eb : ns[b]? = some ns[b] := by simp [hb]
    obtain ⟨w1, e1, h1⟩ := h.swap hw ha hb
    have hl := h.len hw
    have hg := exch_get vs (a := a) (b := b) (by omega) (by omega)
    have en := h.next h1 ea
    have ep := h.prev h1 eb
    rw [← ea] at en
    rw [← eb, if_neg (by omega)] at ep
    simp only [reverseLoop, if_neg (h.inj ha hab'), e1, Res.ok_bind, en]
    by_cases hc : a + 1 = b
    · rw [if_pos (by rw [hc])]
      refine ⟨w1, _, rfl, h1, fun j => ?_⟩
      rw [hg]
      by_cases j1 : j = a
      · rw [if_pos j1, if_pos (by omega)]; congr 1; omega
      · rw [if_neg j1]
        by_cases j2 : j = b
        · rw [if_pos j2, if_pos (by omega)]; congr 1; omega
        · rw [if_neg j2, if_neg (by omega)]
    · rw [if_neg (h.inj (by omega) hc), ep, Res.ok_bind]
      obtain ⟨w', vs', e2, h2, h3⟩ := ih f w1 _ (a + 1) (b - 1) (by omega) (by omega) (by omega) (by omega) h1
      refine ⟨w', vs', e2, h2, fun j => ?_⟩
      rw [h3]
      by_cases c1 : a + 1 ≤ j ∧ j ≤ b - 1
      · rw [if_pos c1, if_pos (by omega), hg, if_neg (by omega), if_neg (by omega)]
        congr 1; omega
      · rw [if_neg c1, hg]
        by_cases j1 : j = a
        · rw [if_pos j1, if_pos (by omega)]; congr 1; omega
        · rw [if_neg j1]
          by_cases j2 : j = b
          · rw [if_pos j2, if_pos (by omega)]; congr 1; omega
          · rw [if_neg j2, if_neg (by omega)]

/-- The right iterator of an empty range that starts at position `c`, after moving left: nil before the front. -/
def at1 (ns : List Nat) (c : Nat) : Option Nat := if c = 0 then none else ns[c - 1]?

/-- Walking away from each other: `left` stands at `a`, `right` at `c - 1`. -/
theorem BidChain.loop_outward (h : BidChain it ns R) (d : Nat) : ∀ (f : Nat) (w : W) (vs : List T) (a c : Nat), c ≤ d → d < f → c ≤ a →
    a ≤ ns.length → R w vs →
    (ns.length - a ≠ c → reverseLoop it f w ns[a]? (at1 ns c) = .panic) ∧
    (ns.length - a = c → ∃ w' vs', reverseLoop it f w ns[a]? (at1 ns c) = .ok w' ∧ R w' vs' ∧
      ∀ j, vs'[j]? = if a ≤ j ∨ j < c then (if j < ns.length then vs[ns.length - 1 - j]? else none) else vs[j]?) := by
  induction d with
  | zero =>
    intro f w vs a c hd hf hca ha hw
    obtain ⟨f, rfl⟩ : ∃ g, f = g + 1 := ⟨f - 1, by omega⟩
    obtain rfl : c = 0 := by omega
    have hl := h.len hw
    constructor
    · intro hn
      have ha' : a < ns.length := by omega
      have ea : ns[a]? = some ns[a] := by simp [ha']
      have ha2 : a < vs.length := by omega
      have va : vs[a]? = some vs[a] := by simp [ha2]
      simp only [reverseLoop, at1, if_true]
      rw [if_neg (by rw [ea]; simp), ea]
      simp only [Iters.swap, h.value hw ea va, Res.ok_bind, h.valueEnd hw, Res.panic_bind]
    · intro hn
      have ha' : a = ns.length := by omega
      refine ⟨w, vs, ?_, hw, fun j => ?_⟩
      · simp only [reverseLoop, at1, if_true]
        rw [if_pos (by simp [ha'])]
      · by_cases hj : a ≤ j
        · rw [if_pos (.inl hj), if_neg (by omega), List.getElem?_eq_none_iff]; omega
        · rw [if_neg (by omega)]
  | succ d ih =>
    intro f w vs a c hd hf hca ha hw
    by_cases hc : c ≤ d
    · exact ih f w vs a c hc (by omega) hca ha hw
    obtain ⟨f, rfl⟩ : ∃ g, f = g + 1 := ⟨f - 1, by omega⟩
    have hc' : c = d + 1 := by omega
    have hl := h.len hw
    have hb : c - 1 < ns.length := by omega
    have eb : ns[c - 1]? = some ns[c - 1] := by simp [hb]
    have ea1 : at1 ns c = ns[c - 1]? := by simp [at1, hc']
    rw [ea1]
    by_cases hae : a = ns.length
    · refine ⟨fun _ => ?_, fun hn => by omega⟩
      have en : ns[a]? = none := by simp [hae]
      rw [en, eb]
      simp only [reverseLoop]
      rw [if_neg (by simp)]
      simp only [Iters.swap, h.valueEnd hw, Res.panic_bind]
    have ha' : a < ns.length := by omega
    have ea : ns[a]? = some ns[a] := by simp [ha']
    obtain ⟨w1, e1, h1⟩ := h.swap hw ha' hb
    have hg := exch_get vs (a := a) (b := c - 1) (by omega) (by omega)
    have en := h.next h1 ea
    have ep := h.prev h1 eb
    rw [← ea] at en
    rw [← eb] at ep
    have ep' : it.prev w1 ns[c - 1]? = .ok (at1 ns (c - 1)) := ep
    have hne1 : ns[a]? ≠ ns[c - 1]? := h.inj ha' (by omega)
    have hne2 : ns[a + 1]? ≠ ns[c - 1]? := fun e => h.inj hb (b := a + 1) (by omega) e.symm
    simp only [reverseLoop, if_neg hne1, e1, Res.ok_bind, en, if_neg hne2, ep']
    obtain ⟨i1, i2⟩ := ih f w1 _ (a + 1) (c - 1) (by omega) (by omega) (by omega) (by omega) h1
    refine ⟨fun hn => i1 (by omega), fun hn => ?_⟩
    obtain ⟨w', vs', e2, h2, h3⟩ := i2 (by omega)
    refine ⟨w', vs', e2, h2, fun j => ?_⟩
    rw [h3]
    by_cases j1 : j = a
    · rw [if_neg (by omega), hg, if_pos j1, if_pos (.inl (by omega)), if_pos (by omega)]; congr 1; omega
    by_cases j2 : j = c - 1
    · rw [if_neg (by omega), hg, if_neg j1, if_pos j2, if_pos (.inr (by omega)), if_pos (by omega)]; congr 1; omega
    by_cases c1 : a + 1 ≤ j ∨ j < c - 1
    · have c3 : a ≤ j ∨ j < c := by omega
      rw [if_pos c1, if_pos c3]
      by_cases c2 : j < ns.length
      · rw [if_pos c2, if_pos c2, hg, if_neg (by omega), if_neg (by omega)]
      · rw [if_neg c2, if_neg c2]
    · rw [if_neg c1, if_neg (by omega), hg, if_neg j1, if_neg j2]

/-- What `Reverse` does on the ranges of a container whose front-to-back values are `vs`; `i k` is the iterator at position `k`
(the end iterator for `k = vs.length`) and `R w vs` that the container `w` holds `vs` and is otherwise as at the start. -/
structure ReverseSpec (it : BidIter W T) (i : Nat → Option Nat) (R : W → List T → Prop) (w : W) (vs : List T) : Prop where
  /-- a non-empty range whose end is an element -/
  inner : ∀ p q f, p < q → q < vs.length → q - p ≤ f →
    ∃ w', reverse it f w (i p) (i q) = .ok w' ∧ R w' (vs.take p ++ ((vs.drop p).take (q - p)).reverse ++ vs.drop q)
  /-- a non-empty range up to the end of the container: always a panic -/
  toEnd : ∀ p f, p < vs.length → 0 < f → reverse it f w (i p) (i vs.length) = .panic
  /-- the empty range at the end: nothing happens -/
  emptyEnd : ∀ f, 0 < f → reverse it f w (i vs.length) (i vs.length) = .ok w
  /-- an empty range at an element: panics, unless the element is the first of the second half; then the whole container is
  reversed -/
  emptyInner : ∀ p f, p < vs.length → p < f →
    (2 * p ≠ vs.length → reverse it f w (i p) (i p) = .panic) ∧
    (2 * p = vs.length → ∃ w', reverse it f w (i p) (i p) = .ok w' ∧ R w' vs.reverse)

theorem BidChain.reverse (h : BidChain it ns R) {w : W} {vs : List T} (hw : R w vs) : ReverseSpec it (ns[·]?) R w vs where
  inner p q f hpq hq hf := by
    have hl := h.len hw
    have hq' : q < ns.length := by omega
    have eq : ns[q]? = some ns[q] := by simp [hq']
    have ep := h.prev hw eq
    rw [← eq, if_neg (by omega)] at ep
    simp only [Iters.reverse, ep, Res.ok_bind]
    obtain ⟨w', vs', e, h1, h2⟩ := h.loop_inward (q - 1 - p) f w vs p (q - 1) (by omega) (by omega) (by omega) (by omega) hw
    refine ⟨w', e, ?_⟩
    have : vs' = vs.take p ++ ((vs.drop p).take (q - p)).reverse ++ vs.drop q := by
      apply List.ext_getElem?
      intro j
      rw [h2]
      have l1 : (vs.take p).length = p := by simp; omega
      have l2 : ((vs.drop p).take (q - p)).reverse.length = q - p := by simp; omega
      have l3 : ((vs.drop p).take (q - p)).length = q - p := by simp; omega
      by_cases c1 : j < p
      · rw [if_neg (by omega), List.append_assoc, List.getElem?_append_left (by omega), List.getElem?_take_of_lt c1]
      by_cases c2 : j < q
      · rw [if_pos (by omega), List.append_assoc, List.getElem?_append_right (by omega), l1, List.getElem?_append_left (by omega),
          List.getElem?_reverse (by omega), l3, List.getElem?_take_of_lt (by omega), List.getElem?_drop]
        congr 1; omega
      · rw [if_neg (by omega), List.getElem?_append_right (by simp; omega), List.length_append, l1, l2, List.getElem?_drop]
        congr 1; omega
    rw [← this]; exact h1
  toEnd p f hp hf := by
    obtain ⟨f, rfl⟩ : ∃ g, f = g + 1 := ⟨f - 1, by omega⟩
    have hl := h.len hw
    have hp' : p < ns.length := by omega
    have ea : ns[p]? = some ns[p] := by simp [hp']
    have va : vs[p]? = some vs[p] := by simp [hp]
    have en : ns[vs.length]? = none := by simp [hl]
    simp only [Iters.reverse, en, h.prevEnd hw, Res.ok_bind, reverseLoop]
    rw [if_neg (by rw [ea]; simp), ea]
    simp only [Iters.swap, h.value hw ea va, Res.ok_bind, h.valueEnd hw, Res.panic_bind]
  emptyEnd f hf := by
    obtain ⟨f, rfl⟩ : ∃ g, f = g + 1 := ⟨f - 1, by omega⟩
    have hl := h.len hw
    have en : ns[vs.length]? = none := by simp [hl]
    simp [Iters.reverse, en, h.prevEnd hw, reverseLoop]
  emptyInner p f hp hf := by
    have hl := h.len hw
    have hp' : p < ns.length := by omega
    have ea : ns[p]? = some ns[p] := by simp [hp']
    have ep := h.prev hw ea
    rw [← ea] at ep
    have ep' : it.prev w ns[p]? = .ok (at1 ns p) := ep
    simp only [Iters.reverse, ep', Res.ok_bind]
    obtain ⟨h1, h2⟩ := h.loop_outward p f w vs p p (Nat.le_refl _) hf (Nat.le_refl _) (by omega) hw
    refine ⟨fun hn => h1 (by omega), fun hn => ?_⟩
    obtain ⟨w', vs', e, h3, h4⟩ := h2 (by omega)
    refine ⟨w', e, ?_⟩
    have : vs' = vs.reverse := by
      apply List.ext_getElem?
      intro j
      rw [h4, if_pos (by omega)]
      by_cases hj : j < ns.length
      · rw [if_pos hj, List.getElem?_reverse (by omega), hl]
      · rw [if_neg hj]; symm; rw [List.getElem?_eq_none_iff]; simp; omega
    rw [← this]; exact h3

end GoSTL.Iters
