import Verif.Pair.Model
import Mathlib.Tactic.Common
/-!
# C94: `Pair.Equal` compares both components by value
-/
namespace GoSTL.Pair
open GoSTL.Comparator (Fmt f32 f64)

/-! ## Specification -/

/-- `v` is a value of type `t`. -/
inductive Of : Ty → Val → Prop
  | word (i bits) : Of (.word i) (.word bits)
  | flt (i F bits) : Of (.flt i F) (.flt bits)
  | ref (i a) : Of (.ref i) (.ref a)
  | inil (i) : Of (.any i) .inil
  | ibox (i) {t v} (h : Of t v) : Of (.any i) (.ibox t v)
  | unit (i) : Of (.unit i) .unit
  | pair (i) {a b v w} (h1 : Of a v) (h2 : Of b w) : Of (.pair i a b) (.pair v w)

/-- A type of which no field and no element is a slice, a map or a function. -/
inductive Plain : Ty → Prop
  | word (i) : Plain (.word i)
  | flt (i F) : Plain (.flt i F)
  | any (i) : Plain (.any i)
  | unit (i) : Plain (.unit i)
  | pair (i) {a b} (h1 : Plain a) (h2 : Plain b) : Plain (.pair i a b)

/-- No slice, map or function anywhere inside the value. -/
inductive NoRef : Val → Prop
  | word (bits) : NoRef (.word bits)
  | flt (bits) : NoRef (.flt bits)
  | inil : NoRef .inil
  | ibox (t) {v} (hc : Plain t) (h : NoRef v) : NoRef (.ibox t v)
  | unit : NoRef .unit
  | pair {v w} (h1 : NoRef v) (h2 : NoRef w) : NoRef (.pair v w)

/-- Two values of type `t` are the same: identical dynamic types, identical words, and floating-point numbers that are not NaN and stand at the same place of the
number line (so that +0 and -0 are the same). -/
inductive Same : Ty → Val → Val → Prop
  | word (i bits) : Same (.word i) (.word bits) (.word bits)
  | flt (i F) {x y} (hx : F.isNaN x = false) (hy : F.isNaN y = false) (h : F.key x = F.key y) : Same (.flt i F) (.flt x) (.flt y)
  | inil (i) : Same (.any i) .inil .inil
  | ibox (i) {t v w} (hc : Plain t) (h : Same t v w) : Same (.any i) (.ibox t v) (.ibox t w)
  | unit (i) : Same (.unit i) .unit .unit
  | pair (i) {a b v v' w w'} (h1 : Same a v v') (h2 : Same b w w') : Same (.pair i a b) (.pair v w) (.pair v' w')

/-- Both components are `any` values. -/
def Ok (p : Pair) : Prop := Of anyTy p.front ∧ Of anyTy p.back

/-! ## Proofs -/

theorem comparable_iff : ∀ t : Ty, t.comparable = true ↔ Plain t
  | .word _ => ⟨fun _ => .word _, fun _ => rfl⟩
  | .flt _ _ => ⟨fun _ => .flt _ _, fun _ => rfl⟩
  | .ref _ => ⟨fun h => Bool.noConfusion h, fun h => nomatch h⟩
  | .any _ => ⟨fun _ => .any _, fun _ => rfl⟩
  | .unit _ => ⟨fun _ => .unit _, fun _ => rfl⟩
  | .pair _ a b => by
    have ha := comparable_iff a
    have hb := comparable_iff b
    simp only [Ty.comparable, Bool.and_eq_true]
    exact ⟨fun h => .pair _ (ha.1 h.1) (hb.1 h.2), fun h => by cases h with | pair _ h1 h2 => exact ⟨ha.2 h1, hb.2 h2⟩⟩

theorem eqVal_same {t : Ty} {v : Val} (hv : Of t v) : ∀ {w : Val}, Of t w → (eqVal t v w = .ok true ↔ Same t v w) := by
  induction hv with
  | word i bits =>
    intro w hw; cases hw with | word _ b =>
    simp only [eqVal, Res.ok.injEq, decide_eq_true_eq]
    constructor
    · rintro rfl; exact .word _ _
    · intro h; cases h; rfl
  | flt i F bits =>
    intro w hw; cases hw with | flt _ _ b =>
    simp only [eqVal, Fmt.eq, Res.ok.injEq, Bool.and_eq_true, Bool.not_eq_true', decide_eq_true_eq]
    constructor
    · rintro ⟨⟨h1, h2⟩, h3⟩; exact .flt _ _ h1 h2 h3
    · intro h; cases h with | flt _ _ h1 h2 h3 => exact ⟨⟨h1, h2⟩, h3⟩
  | ref i a =>
    intro w hw; cases hw with | ref _ b =>
    simp only [eqVal]
    constructor
    · intro h; cases h
    · intro h; cases h
  | inil i =>
    intro w hw
    cases hw with
    | inil => simp only [eqVal, true_iff]; exact .inil _
    | ibox _ h => simp only [eqVal, Res.ok.injEq, Bool.false_eq_true, false_iff]; intro h; cases h
  | @ibox i t v h ih =>
    intro w hw
    cases hw with
    | inil => simp only [eqVal, Res.ok.injEq, Bool.false_eq_true, false_iff]; intro h; cases h
    | @ibox _ u w h' =>
      simp only [eqVal]
      by_cases htu : t = u
      · subst htu
        rw [if_pos rfl]
        by_cases hc : t.comparable = true
        · rw [if_pos hc, ih h']
          constructor
          · intro h; exact .ibox _ ((comparable_iff t).1 hc) h
          · intro h; cases h with | ibox _ _ h => exact h
        · rw [if_neg hc]
          constructor
          · intro h; cases h
          · intro h; cases h with | ibox _ h1 _ => exact absurd ((comparable_iff t).2 h1) hc
      · rw [if_neg htu]
        constructor
        · intro h; cases h
        · intro h; cases h; exact absurd rfl htu
  | unit i =>
    intro w hw; cases hw
    simp only [eqVal, true_iff]; exact .unit _
  | @pair i a b v1 v2 h1 h2 ih1 ih2 =>
    intro w hw; cases hw with | @pair _ _ _ w1 w2 g1 g2 =>
    simp only [eqVal, Res.bind_eq_ok]
    constructor
    · rintro ⟨r, e1, e2⟩
      cases r with
      | false => simp at e2
      | true => exact .pair _ ((ih1 g1).1 e1) ((ih2 g2).1 (by simpa using e2))
    · intro h; cases h with | pair _ s1 s2 =>
      exact ⟨true, (ih1 g1).2 s1, by simpa using (ih2 g2).2 s2⟩

/-- Comparing never panics for values without slices, maps and functions. -/
theorem eqVal_total {t : Ty} {v : Val} (hv : Of t v) : ∀ {w : Val}, Of t w → NoRef v → ∃ b, eqVal t v w = .ok b := by
  induction hv with
  | word i bits => intro w hw _; cases hw; exact ⟨_, rfl⟩
  | flt i F bits => intro w hw _; cases hw; exact ⟨_, rfl⟩
  | ref i a => intro w _ h; cases h
  | inil i => intro w hw _; cases hw <;> exact ⟨_, rfl⟩
  | @ibox i t v h ih =>
    intro w hw hn
    cases hn with | ibox _ hc hn =>
    cases hw with
    | inil => exact ⟨_, rfl⟩
    | @ibox _ u w h' =>
      simp only [eqVal]
      by_cases htu : t = u
      · subst htu
        rw [if_pos rfl, if_pos ((comparable_iff t).2 hc)]
        exact ih h' hn
      · exact ⟨_, if_neg htu⟩
  | unit i => intro w hw _; cases hw; exact ⟨_, rfl⟩
  | @pair i a b v1 v2 h1 h2 ih1 ih2 =>
    intro w hw hn
    cases hn with | pair n1 n2 =>
    cases hw with | @pair _ _ _ w1 w2 g1 g2 =>
    obtain ⟨r, e1⟩ := ih1 g1 n1
    simp only [eqVal, e1, Res.ok_bind]
    cases r with
    | false => exact ⟨false, rfl⟩
    | true => exact ih2 g2 n2

/-- The result (even whether it is a panic) does not depend on the order of the arguments. -/
theorem eqVal_symm {t : Ty} {v : Val} (hv : Of t v) : ∀ {w : Val}, Of t w → eqVal t v w = eqVal t w v := by
  induction hv with
  | word i bits => intro w hw; cases hw; simp only [eqVal, Res.ok.injEq, decide_eq_decide]; exact eq_comm
  | flt i F bits =>
    intro w hw; cases hw
    simp only [eqVal, Fmt.eq, Res.ok.injEq]
    rw [Bool.and_comm (!F.isNaN bits)]
    congr 1
    rw [decide_eq_decide]; exact eq_comm
  | ref i a => intro w hw; cases hw; rfl
  | inil i => intro w hw; cases hw <;> rfl
  | @ibox i t v h ih =>
    intro w hw
    cases hw with
    | inil => rfl
    | @ibox _ u w h' =>
      simp only [eqVal]
      by_cases htu : t = u
      · subst htu; rw [if_pos rfl, if_pos rfl, ih h']
      · rw [if_neg htu, if_neg (Ne.symm htu)]
  | unit i => intro w hw; cases hw; rfl
  | @pair i a b v1 v2 h1 h2 ih1 ih2 =>
    intro w hw; cases hw with | @pair _ _ _ w1 w2 g1 g2 =>
    simp only [eqVal, ih1 g1, ih2 g2]

theorem Same.trans {t : Ty} {u v : Val} (h : Same t u v) : ∀ {w : Val}, Same t v w → Same t u w := by
  induction h with
  | word i b => intro w h; exact h
  | flt i F hx hy h => intro w h'; cases h' with | flt _ _ h1 h2 h3 => exact .flt _ _ hx h2 (h.trans h3)
  | inil i => intro w h; exact h
  | ibox i hc h ih => intro w h'; cases h' with | ibox _ _ h2 => exact .ibox _ hc (ih h2)
  | unit i => intro w h; exact h
  | pair i h1 h2 ih1 ih2 => intro w h'; cases h' with | pair _ g1 g2 => exact .pair _ (ih1 g1) (ih2 g2)

theorem equal_ok_true {p q : Pair} : equal p q = .ok true ↔ eqVal anyTy p.front q.front = .ok true ∧ eqVal anyTy p.back q.back = .ok true := by
  unfold equal
  rw [Res.bind_eq_ok]
  constructor
  · rintro ⟨r, e1, e2⟩
    cases r with
    | false => simp at e2
    | true => exact ⟨e1, by simpa using e2⟩
  · rintro ⟨e1, e2⟩; exact ⟨true, e1, by simpa using e2⟩

/-- **C94.** `p.Equal(q)` is true exactly if the fronts are the same value of the same type and so are the backs; the answer does not depend on which of the two
is the receiver (nor does a panic); it is transitive; if `p` contains no slice, map or function it never panics, and it answers true for `p` itself exactly if
`p` contains no NaN either (that is, if its components are the same as themselves). -/
theorem C94_equal {p q r : Pair} (hp : Ok p) (hq : Ok q) (hr : Ok r) :
    (equal p q = .ok true ↔ Same anyTy p.front q.front ∧ Same anyTy p.back q.back) ∧
    equal p q = equal q p ∧
    (equal p q = .ok true → equal q r = .ok true → equal p r = .ok true) ∧
    (NoRef p.front → NoRef p.back → ∃ b, equal p q = .ok b) ∧
    (equal p p = .ok true ↔ Same anyTy p.front p.front ∧ Same anyTy p.back p.back) := by
  have key : ∀ {p q : Pair}, Ok p → Ok q → (equal p q = .ok true ↔ Same anyTy p.front q.front ∧ Same anyTy p.back q.back) := by
    intro p q hp hq
    rw [equal_ok_true, eqVal_same hp.1 hq.1, eqVal_same hp.2 hq.2]
  refine ⟨key hp hq, ?_, ?_, ?_, key hp hp⟩
  · unfold equal; rw [eqVal_symm hp.1 hq.1, eqVal_symm hp.2 hq.2]
  · rw [key hp hq, key hq hr, key hp hr]
    rintro ⟨h1, h2⟩ ⟨g1, g2⟩
    exact ⟨h1.trans g1, h2.trans g2⟩
  · intro n1 n2
    obtain ⟨b, e⟩ := eqVal_total hp.1 hq.1 n1
    unfold equal
    rw [e, Res.ok_bind]
    cases b with
    | false => exact ⟨false, rfl⟩
    | true => exact eqVal_total hp.2 hq.2 n2

/-- No floating-point numbers anywhere inside. -/
inductive NoFloat : Val → Prop
  | word (bits) : NoFloat (.word bits)
  | inil : NoFloat .inil
  | ibox (t) {v} (h : NoFloat v) : NoFloat (.ibox t v)
  | unit : NoFloat .unit
  | pair {v w} (h1 : NoFloat v) (h2 : NoFloat w) : NoFloat (.pair v w)
  | ref (a) : NoFloat (.ref a)

theorem same_eq {t : Ty} {v w : Val} (h : Same t v w) : NoFloat v → v = w := by
  induction h with
  | word => intro _; rfl
  | flt => intro h; cases h
  | inil => intro _; rfl
  | ibox i hc h ih => intro n; cases n with | ibox _ n => rw [ih n]
  | unit => intro _; rfl
  | pair i h1 h2 ih1 ih2 => intro n; cases n with | pair n1 n2 => rw [ih1 n1, ih2 n2]

theorem same_refl {t : Ty} {v : Val} (h : Of t v) : NoFloat v → NoRef v → Same t v v := by
  induction h with
  | word => intro _ _; exact .word _ _
  | flt => intro h; cases h
  | ref => intro _ h; cases h
  | inil => intro _ _; exact .inil _
  | ibox i h ih => intro n m; cases n with | ibox _ n => cases m with | ibox _ hc m => exact .ibox _ hc (ih n m)
  | unit => intro _ _; exact .unit _
  | pair i h1 h2 ih1 ih2 => intro n m; cases n with | pair n1 n2 => cases m with | pair m1 m2 => exact .pair _ (ih1 n1 m1) (ih2 n2 m2)

/-- **C94.** For pairs of booleans, integers, strings, pointers and structs of them `p.Equal(q)` decides whether `p` and `q` are the same pair. -/
theorem C94_equal_decides {p q : Pair} (hp : Ok p) (hq : Ok q) (f1 : NoFloat p.front) (f2 : NoFloat p.back) (n1 : NoRef p.front) (n2 : NoRef p.back) :
    equal p q = .ok (decide (p = q)) := by
  obtain ⟨hT, -, -, hN, -⟩ := C94_equal hp hq hp
  obtain ⟨b, e⟩ := hN n1 n2
  rw [e]
  by_cases hpq : p = q
  · subst hpq
    have := hT.2 ⟨same_refl hp.1 f1 n1, same_refl hp.2 f2 n2⟩
    rw [e] at this
    simp [Res.ok.inj this]
  · cases b with
    | false => simp [hpq]
    | true =>
      obtain ⟨s1, s2⟩ := hT.1 e
      refine absurd ?_ hpq
      cases p; cases q
      simp only [Pair.mk.injEq]
      exact ⟨same_eq s1 f1, same_eq s2 f2⟩

/-- **C94.** `MakePair` and `New` set both components; `Fronts` and `Backs` return them. -/
theorem C94_components (p : Pair) (f b : Val) :
    fronts (makePair f b) = f ∧ backs (makePair f b) = b ∧ fronts (new p f b) = f ∧ backs (new p f b) = b ∧ makePair (fronts p) (backs p) = p :=
  ⟨rfl, rfl, rfl, rfl, rfl⟩

/-! ## Examples -/

/-- `MakePair(1.1, 's')` of the unit test: a `float64` and an `int32`. -/
def ex1 : Pair := makePair (.ibox (.flt 1 f64) (.flt 0x3ff199999999999a)) (.ibox (.word 2) (.word [115]))
/-- `MakePair("ABC", 123)`. -/
def ex2 : Pair := makePair (.ibox (.word 3) (.word [65, 66, 67])) (.ibox (.word 4) (.word [123]))

example : Ok ex1 ∧ Ok ex2 ∧ NoRef ex1.front ∧ NoRef ex1.back ∧ equal ex1 ex2 = .ok false ∧ equal ex1 ex1 = .ok true :=
  ⟨⟨.ibox _ (.flt _ _ _), .ibox _ (.word _ _)⟩, ⟨.ibox _ (.word _ _), .ibox _ (.word _ _)⟩, .ibox _ (.flt _ _) (.flt _), .ibox _ (.word _) (.word _), by decide, by decide⟩

example : NoFloat ex2.front ∧ NoFloat ex2.back ∧ NoRef ex2.front ∧ NoRef ex2.back ∧
    equal ex2 (makePair (.ibox (.word 3) (.word [65, 66, 67])) (.ibox (.word 5) (.word [123]))) = .ok false :=
  ⟨.ibox _ (.word _), .ibox _ (.word _), .ibox _ (.word _) (.word _), .ibox _ (.word _) (.word _), by decide⟩

/-- A pair with a NaN is not equal to itself; two pairs with slices in front make `Equal` panic, even the same one; if the fronts differ, slices at the back do not matter. -/
theorem C94_exceptions :
    (∃ p, Ok p ∧ NoRef p.front ∧ NoRef p.back ∧ equal p p = .ok false) ∧ (∃ p, Ok p ∧ equal p p = .panic) ∧
    (∀ (i a b x y : Nat), x ≠ y → equal (makePair (.ibox (.word 1) (.word [x])) (.ibox (.ref i) (.ref a)))
      (makePair (.ibox (.word 1) (.word [y])) (.ibox (.ref i) (.ref b))) = .ok false) := by
  refine ⟨⟨makePair (.ibox (.flt 1 f64) (.flt 0x7ff8000000000001)) .inil, ⟨.ibox _ (.flt _ _ _), .inil _⟩, .ibox _ (.flt _ _) (.flt _), .inil, by decide⟩,
    ⟨makePair (.ibox (.ref 1) (.ref 7)) .inil, ⟨.ibox _ (.ref _ _), .inil _⟩, rfl⟩, ?_⟩
  intro i a b x y h
  simp [equal, makePair, anyTy, eqVal, Ty.comparable, h]

end GoSTL.Pair
