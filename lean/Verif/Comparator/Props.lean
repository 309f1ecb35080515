import Verif.Comparator.Model
import Mathlib.Tactic.Common
/-!
# C26: the comparators are total orders
-/
namespace GoSTL.Comparator

/-- What comparator.go:23-28 promises: -1 for smaller, 0 for equal, 1 for greater, with respect to one order `lt`. -/
def ThreeWay {α : Type} (lt : α → α → Prop) (cmp : α → α → Int) : Prop :=
  ∀ a b, (cmp a b = -1 ↔ lt a b) ∧ (cmp a b = 0 ↔ a = b) ∧ (cmp a b = 1 ↔ lt b a)

/-- A type whose order is that of integers. -/
theorem ordCmp_spec {α : Type} [DecidableEq α] [LT α] [DecidableLT α] (f : α → Int) (hi : ∀ a b, f a = f b → a = b) (hl : ∀ a b, a < b ↔ f a < f b) :
    ThreeWay (· < ·) (ordCmp (α := α)) ∧ LawfulCmp (ordCmp (α := α)) := by
  have hc : ∀ a b : α, ordCmp a b = if f a = f b then 0 else if f a < f b then -1 else 1 := by
    intro a b
    simp only [ordCmp, threeWay, decide_eq_true_eq, hl]
    have : a = b ↔ f a = f b := ⟨fun h => by rw [h], hi a b⟩
    simp only [this]
  refine ⟨fun a b => ?_, ⟨fun a b => ?_, fun a b c => ?_⟩⟩
  · have : a = b ↔ f a = f b := ⟨fun h => by rw [h], hi a b⟩
    beta_reduce
    rw [hc, hl, hl, this]
    split_ifs <;> simp <;> omega
  · rw [hc, hc]; split_ifs <;> simp <;> omega
  · rw [hc, hc, hc]; split_ifs <;> simp <;> omega

/-- C26 for the integer comparators: -1, 0, 1 for smaller, equal, greater; a consistent total order. -/
theorem C26_integers :
    (ThreeWay (· < ·) intComparator ∧ LawfulCmp intComparator) ∧ (ThreeWay (· < ·) uintComparator ∧ LawfulCmp uintComparator) ∧
    (ThreeWay (· < ·) int8Comparator ∧ LawfulCmp int8Comparator) ∧ (ThreeWay (· < ·) uint8Comparator ∧ LawfulCmp uint8Comparator) ∧
    (ThreeWay (· < ·) int16Comparator ∧ LawfulCmp int16Comparator) ∧ (ThreeWay (· < ·) uint16Comparator ∧ LawfulCmp uint16Comparator) ∧
    (ThreeWay (· < ·) int32Comparator ∧ LawfulCmp int32Comparator) ∧ (ThreeWay (· < ·) uint32Comparator ∧ LawfulCmp uint32Comparator) ∧
    (ThreeWay (· < ·) int64Comparator ∧ LawfulCmp int64Comparator) ∧ (ThreeWay (· < ·) uint64Comparator ∧ LawfulCmp uint64Comparator) ∧
    (ThreeWay (· < ·) uintptrComparator ∧ LawfulCmp uintptrComparator) :=
  have i64 := ordCmp_spec Int64.toInt (fun _ _ => Int64.toInt.inj) fun _ _ => Int64.lt_iff_toInt_lt
  have u64 := ordCmp_spec (fun x : UInt64 => (x.toNat : Int)) (fun _ _ h => UInt64.toNat.inj (Int.ofNat.inj h)) fun _ _ => by
    simp [UInt64.lt_iff_toNat_lt]
  ⟨i64, u64,
    ordCmp_spec Int8.toInt (fun _ _ => Int8.toInt.inj) fun _ _ => Int8.lt_iff_toInt_lt,
    ordCmp_spec (fun x : UInt8 => (x.toNat : Int)) (fun _ _ h => UInt8.toNat.inj (Int.ofNat.inj h)) fun _ _ => by simp [UInt8.lt_iff_toNat_lt],
    ordCmp_spec Int16.toInt (fun _ _ => Int16.toInt.inj) fun _ _ => Int16.lt_iff_toInt_lt,
    ordCmp_spec (fun x : UInt16 => (x.toNat : Int)) (fun _ _ h => UInt16.toNat.inj (Int.ofNat.inj h)) fun _ _ => by simp [UInt16.lt_iff_toNat_lt],
    ordCmp_spec Int32.toInt (fun _ _ => Int32.toInt.inj) fun _ _ => Int32.lt_iff_toInt_lt,
    ordCmp_spec (fun x : UInt32 => (x.toNat : Int)) (fun _ _ h => UInt32.toNat.inj (Int.ofNat.inj h)) fun _ _ => by simp [UInt32.lt_iff_toNat_lt],
    i64, u64, u64⟩

/-! ## Strings and booleans -/

theorem u8_lt {a b : UInt8} : a < b ↔ a.toNat < b.toNat := UInt8.lt_iff_toNat_lt
theorem u8_eq {a b : UInt8} : a = b ↔ a.toNat = b.toNat := ⟨fun h => by rw [h], fun h => UInt8.toNat.inj h⟩

theorem strLt_irrefl : ∀ a, strLt a a = false := by
  intro a
  induction a with
  | nil => rfl
  | cons x xs ih => simp [strLt, ih]

theorem strLt_trans : ∀ a b c, strLt a b = true → strLt b c = true → strLt a c = true := by
  intro a
  induction a with
  | nil =>
    intro b c h1 h2
    cases b with
    | nil => simp [strLt] at h1
    | cons y ys => cases c with
      | nil => simp [strLt] at h2
      | cons z zs => rfl
  | cons x xs ih =>
    intro b c h1 h2
    cases b with
    | nil => simp [strLt] at h1
    | cons y ys => cases c with
      | nil => simp [strLt] at h2
      | cons z zs =>
        simp only [strLt, Bool.or_eq_true, Bool.and_eq_true, decide_eq_true_eq, u8_lt, u8_eq] at *
        rcases h1 with h1 | ⟨h1, h1'⟩ <;> rcases h2 with h2 | ⟨h2, h2'⟩
        · exact .inl (by omega)
        · exact .inl (by omega)
        · exact .inl (by omega)
        · exact .inr ⟨by omega, ih ys zs h1' h2'⟩

theorem strLt_total : ∀ a b, a ≠ b → strLt a b = false → strLt b a = true := by
  intro a
  induction a with
  | nil =>
    intro b hne h
    cases b with
    | nil => exact absurd rfl hne
    | cons y ys => simp [strLt] at h
  | cons x xs ih =>
    intro b hne h
    cases b with
    | nil => rfl
    | cons y ys =>
      simp only [strLt, Bool.or_eq_false_iff, Bool.and_eq_false_iff, decide_eq_false_iff_not] at h
      simp only [strLt, Bool.or_eq_true, Bool.and_eq_true, decide_eq_true_eq]
      by_cases hxy : x = y
      · subst hxy
        refine .inr ⟨rfl, ih ys (fun h' => hne (by rw [h'])) ?_⟩
        rcases h.2 with h2 | h2
        · exact absurd rfl h2
        · exact h2
      · left
        rw [u8_lt] at h ⊢
        rw [u8_eq] at hxy
        omega

/-- `strLt` is the library's lexicographic order. -/
theorem strLt_lex (a : List UInt8) : ∀ b, strLt a b = true ↔ List.Lex (· < ·) a b := by
  induction a with
  | nil =>
    intro b
    cases b with
    | nil => simp [strLt]
    | cons y ys => exact ⟨fun _ => .nil, fun _ => rfl⟩
  | cons x xs ih =>
    intro b
    cases b with
    | nil => exact ⟨fun h => by simp [strLt] at h, nofun⟩
    | cons y ys =>
      simp only [strLt, Bool.or_eq_true, Bool.and_eq_true, decide_eq_true_eq, ih]
      constructor
      · rintro (h | ⟨rfl, h⟩)
        · exact .rel h
        · exact .cons h
      · intro h
        cases h with
        | rel h => exact .inl h
        | cons h => exact .inr ⟨rfl, h⟩

/-- A strict total order gives a lawful three-way comparison. -/
theorem threeWay_spec {α : Type} [DecidableEq α] (lt : α → α → Bool) (hi : ∀ a, lt a a = false) (ht : ∀ a b c, lt a b = true → lt b c = true → lt a c = true)
    (htot : ∀ a b, a ≠ b → lt a b = false → lt b a = true) :
    ThreeWay (fun a b => lt a b = true) (threeWay (fun a b => decide (a = b)) lt) ∧ LawfulCmp (threeWay (fun a b => decide (a = b)) lt) := by
  have hasym : ∀ a b, lt a b = true → lt b a = false := by
    intro a b h
    cases h' : lt b a with
    | false => rfl
    | true => have := ht a b a h h'; rw [hi] at this; cases this
  have tw : ThreeWay (fun a b => lt a b = true) (threeWay (fun a b => decide (a = b)) lt) := by
    intro a b
    simp only [threeWay, decide_eq_true_eq]
    by_cases h1 : a = b
    · subst h1; simp [hi]
    · cases h2 : lt a b with
      | true => simp [h1, hasym a b h2]
      | false => simp [h1, htot a b h1 h2]
  have vals : ∀ a b, threeWay (fun a b => decide (a = b)) lt a b = -1 ∨ threeWay (fun a b => decide (a = b)) lt a b = 0 ∨
      threeWay (fun a b => decide (a = b)) lt a b = 1 := by
    intro a b
    simp only [threeWay]
    split_ifs <;> simp
  refine ⟨tw, ⟨fun a b => ?_, fun a b c => ?_⟩⟩
  · obtain ⟨t1, t2, t3⟩ := tw a b
    obtain ⟨s1, s2, s3⟩ := tw b a
    have v1 := vals a b
    have v2 := vals b a
    constructor
    · intro h
      have : threeWay (fun a b => decide (a = b)) lt a b = -1 := by omega
      have := s3.2 (t1.1 this)
      omega
    · intro h
      have : threeWay (fun a b => decide (a = b)) lt b a = 1 := by omega
      have := t1.2 (s3.1 this)
      omega
  · intro h1 h2
    have v1 := vals a b
    have v2 := vals b c
    by_cases e1 : a = b
    · subst e1; exact h2
    · by_cases e2 : b = c
      · subst e2; exact h1
      · have n1 := mt (tw a b).2.1.1 e1
        have n2 := mt (tw b c).2.1.1 e2
        have l1 := (tw a b).1.1 (by omega)
        have l2 := (tw b c).1.1 (by omega)
        have := (tw a c).1.2 (ht a b c l1 l2)
        omega

/-- C26 for strings: the lexicographic order of the bytes. -/
theorem C26_string : ThreeWay (List.Lex (· < ·)) stringComparator ∧ LawfulCmp stringComparator := by
  have h := threeWay_spec strLt strLt_irrefl strLt_trans strLt_total
  refine ⟨fun a b => ?_, h.2⟩
  rw [← strLt_lex a b, ← strLt_lex b a]
  exact h.1 a b

/-- C26 for booleans: false before true. -/
theorem C26_bool : ThreeWay (fun a b => a = false ∧ b = true) boolComparator ∧ LawfulCmp boolComparator := by
  refine ⟨?_, ?_, ?_⟩
  · unfold ThreeWay; decide
  · decide
  · decide

/-! ## Floating-point numbers -/

section Float
variable (F : Fmt)

theorem key_cases (x : Nat) : F.isNaN x = true ∨ F.isNaN x = false := by cases F.isNaN x <;> simp

/-- C26 for `Float32Comparator` and `Float64Comparator` (any format): 0 for numbers that are `==` and for two NaNs, -1 for smaller numbers and for NaN
against a number, 1 otherwise; a consistent total order, NaN first. -/
theorem C26_float : LawfulCmp (floatComparator F) ∧ ∀ a b,
    (floatComparator F a b = 0 ↔ F.eq a b = true ∨ (F.isNaN a = true ∧ F.isNaN b = true)) ∧
    (floatComparator F a b = -1 ↔ F.lt a b = true ∨ (F.isNaN a = true ∧ F.isNaN b = false)) ∧
    (floatComparator F a b = 1 ↔ F.lt b a = true ∨ (F.isNaN a = false ∧ F.isNaN b = true)) := by
  have key : ∀ a b, floatComparator F a b = if F.isNaN a then (if F.isNaN b then 0 else -1) else if F.isNaN b then 1 else
      if F.key a = F.key b then 0 else if F.key a < F.key b then -1 else 1 := by
    intro a b
    simp only [floatComparator, Fmt.eq, Fmt.lt]
    rcases key_cases F a with ha | ha <;> rcases key_cases F b with hb | hb <;> simp [ha, hb]
  refine ⟨⟨fun a b => ?_, fun a b c => ?_⟩, fun a b => ?_⟩
  · rw [key, key]
    cases F.isNaN a <;> cases F.isNaN b <;> simp
    split_ifs <;> simp <;> omega
  · rw [key, key, key]
    cases F.isNaN a <;> cases F.isNaN b <;> cases F.isNaN c <;> simp
    split_ifs <;> simp <;> omega
  · rw [key]
    simp only [Fmt.eq, Fmt.lt]
    cases F.isNaN a <;> cases F.isNaN b <;> simp
    split_ifs <;> simp <;> omega

/-- The bit patterns of 1, 2 and NaN. -/
example : f32.key 0x3f800000 < f32.key 0x40000000 ∧ f32.isNaN 0x7fc00000 = true ∧ f32.isNaN 0x7f800000 = false := by decide
example : f64.eq 0 (2 ^ 63) = true ∧ f64.lt (2 ^ 63 + 1) 0 = true := by decide

/-- The two formats: `x` is NaN exactly if all bits of the exponent are set and the fraction is not 0 (so the infinities are numbers), two numbers are
equal exactly if they have the same bits or both are zeros. -/
theorem C26_float_formats :
    (∀ x < 2 ^ 32, f32.isNaN x = true ↔ x / 2 ^ 23 % 2 ^ 8 = 2 ^ 8 - 1 ∧ x % 2 ^ 23 ≠ 0) ∧
    (∀ x < 2 ^ 64, f64.isNaN x = true ↔ x / 2 ^ 52 % 2 ^ 11 = 2 ^ 11 - 1 ∧ x % 2 ^ 52 ≠ 0) ∧
    (∀ x < 2 ^ 32, ∀ y < 2 ^ 32, f32.isNaN x = false → f32.isNaN y = false →
      (f32.eq x y = true ↔ x = y ∨ (x % 2 ^ 31 = 0 ∧ y % 2 ^ 31 = 0))) ∧
    (∀ x < 2 ^ 64, ∀ y < 2 ^ 64, f64.isNaN x = false → f64.isNaN y = false →
      (f64.eq x y = true ↔ x = y ∨ (x % 2 ^ 63 = 0 ∧ y % 2 ^ 63 = 0))) := by
  have nan : ∀ F : Fmt, ∀ x, F.isNaN x = true ↔ F.inf < F.mag x := fun F x => by rw [Fmt.isNaN, decide_eq_true_eq]
  have heq : ∀ F : Fmt, ∀ x y, F.isNaN x = false → F.isNaN y = false → (F.eq x y = true ↔ F.key x = F.key y) := fun F x y h1 h2 => by simp [Fmt.eq, h1, h2]
  have hkey : ∀ F : Fmt, ∀ x, x < 2 ^ F.sign * 2 → F.key x = if x < 2 ^ F.sign then (x : Int) else -((x - 2 ^ F.sign : Nat) : Int) := fun F x hx => by
    have hp : 0 < 2 ^ F.sign := Nat.pow_pos (by omega)
    simp only [Fmt.key, Fmt.neg, Fmt.mag, Nat.testBit_eq_decide_div_mod_eq, decide_eq_true_eq]
    by_cases h : x < 2 ^ F.sign
    · rw [if_pos h, if_neg (by rw [Nat.div_eq_of_lt h]; omega), Nat.mod_eq_of_lt h]
    · have h1 : x / 2 ^ F.sign = 1 := Nat.div_eq_of_lt_le (by omega) (by omega)
      rw [if_neg h, if_pos (by rw [h1]), Nat.mod_eq_sub_mul_div, h1, Nat.mul_one]
  refine ⟨fun x hx => ?_, fun x hx => ?_, fun x hx y hy h1 h2 => ?_, fun x hx y hy h1 h2 => ?_⟩
  · rw [nan]
    simp only [Fmt.mag, f32, Nat.reducePow, Nat.reduceSub] at *
    have := Nat.div_div_eq_div_mul x 8388608 256; rcases (by omega : x / 2147483648 = 0 ∨ x / 2147483648 = 1) with h | h <;> omega
  · rw [nan]
    simp only [Fmt.mag, f64, Nat.reducePow, Nat.reduceSub] at *
    have := Nat.div_div_eq_div_mul x 4503599627370496 2048
    rcases (by omega : x / 9223372036854775808 = 0 ∨ x / 9223372036854775808 = 1) with h | h <;> omega
  · rw [heq _ _ _ h1 h2, hkey _ _ hx, hkey _ _ hy]
    simp only [f32, Nat.reducePow] at *
    split_ifs <;> omega
  · rw [heq _ _ _ h1 h2, hkey _ _ hx, hkey _ _ hy]
    simp only [f64, Nat.reducePow] at *
    split_ifs <;> omega

/-- `OrderedTypeCmp` on floating-point numbers that are not NaN is consistent, and has Go's order. -/
theorem C26_orderedFloat_partial : LawfulCmp (fun a b : { x : Nat // F.isNaN x = false } => orderedFloatCmp F a.1 b.1) ∧
    ∀ a b : { x : Nat // F.isNaN x = false }, (orderedFloatCmp F a.1 b.1 = -1 ↔ F.lt a.1 b.1 = true) ∧
      (orderedFloatCmp F a.1 b.1 = 0 ↔ F.eq a.1 b.1 = true) ∧ (orderedFloatCmp F a.1 b.1 = 1 ↔ F.lt b.1 a.1 = true) := by
  have key : ∀ a b : { x : Nat // F.isNaN x = false }, orderedFloatCmp F a.1 b.1 =
      if F.key a.1 = F.key b.1 then 0 else if F.key a.1 < F.key b.1 then -1 else 1 := by
    intro a b
    simp [orderedFloatCmp, threeWay, Fmt.eq, Fmt.lt, a.2, b.2]
  refine ⟨⟨fun a b => ?_, fun a b c => ?_⟩, fun a b => ?_⟩
  · rw [key, key]; split_ifs <;> simp <;> omega
  · rw [key, key, key]; split_ifs <;> simp <;> omega
  · rw [key]
    simp only [Fmt.eq, Fmt.lt, a.2, b.2]
    split_ifs <;> simp <;> omega

/-- C26 is false of `OrderedTypeCmp` with NaN: a NaN compares greater than every value, itself included, and every value compares greater than it. -/
theorem C26_orderedFloat_violated (x a : Nat) (hx : F.isNaN x = true) : orderedFloatCmp F x a = 1 ∧ orderedFloatCmp F a x = 1 := by
  simp [orderedFloatCmp, threeWay, Fmt.eq, Fmt.lt, hx]

end Float

/-! ## Complex numbers -/

/-- Neither part is NaN. -/
def Proper (F : Fmt) (a : Cx) : Prop := F.isNaN a.1 = false ∧ F.isNaN a.2 = false

/-- C26 for `Complex128Comparator`, without NaN: the lexicographic order of real and imaginary part. -/
theorem C26_complex128_partial : LawfulCmp (fun a b : { a : Cx // Proper f64 a } => complex128Comparator a.1 b.1) ∧
    ∀ a b : { a : Cx // Proper f64 a }, (complex128Comparator a.1 b.1 = 0 ↔ f64.eq a.1.1 b.1.1 = true ∧ f64.eq a.1.2 b.1.2 = true) ∧
      (complex128Comparator a.1 b.1 = -1 ↔ f64.lt a.1.1 b.1.1 = true ∨ (f64.eq a.1.1 b.1.1 = true ∧ f64.lt a.1.2 b.1.2 = true)) ∧
      (complex128Comparator a.1 b.1 = 1 ↔ f64.lt b.1.1 a.1.1 = true ∨ (f64.eq a.1.1 b.1.1 = true ∧ f64.lt b.1.2 a.1.2 = true)) := by
  have key : ∀ a b : { a : Cx // Proper f64 a }, complex128Comparator a.1 b.1 =
      if f64.key a.1.1 = f64.key b.1.1 ∧ f64.key a.1.2 = f64.key b.1.2 then 0
      else if f64.key a.1.1 < f64.key b.1.1 then -1
      else if f64.key a.1.1 = f64.key b.1.1 ∧ f64.key a.1.2 < f64.key b.1.2 then -1 else 1 := by
    rintro ⟨a, ha1, ha2⟩ ⟨b, hb1, hb2⟩
    simp [complex128Comparator, cxEq, Fmt.eq, Fmt.lt, ha1, ha2, hb1, hb2]
  refine ⟨⟨fun a b => ?_, fun a b c => ?_⟩, fun a b => ?_⟩
  · rw [key, key]; split_ifs <;> simp <;> omega
  · rw [key, key, key]; split_ifs <;> simp <;> omega
  · rw [key]
    obtain ⟨a, ha1, ha2⟩ := a
    obtain ⟨b, hb1, hb2⟩ := b
    simp only [Fmt.eq, Fmt.lt, ha1, ha2, hb1, hb2]
    split_ifs <;> simp <;> omega

/-- C26 is false of `Complex128Comparator` with a NaN part: both orders give 1. -/
theorem C26_complex128_violated (a b : Cx) (ha : f64.isNaN a.1 = true) : complex128Comparator a b = 1 ∧ complex128Comparator b a = 1 := by
  simp [complex128Comparator, cxEq, Fmt.eq, Fmt.lt, ha]

/-- C26 is false of `Complex64Comparator` for any two numbers with different real parts: both orders give 1. -/
theorem C26_complex64_violated (a b : Cx) (h : f32.eq a.1 b.1 = false) : complex64Comparator a b = 1 ∧ complex64Comparator b a = 1 := by
  have h' : f32.eq b.1 a.1 = false := by
    simp only [Fmt.eq] at h ⊢
    rw [Bool.and_comm (!f32.isNaN b.1)]
    rw [show decide (f32.key b.1 = f32.key a.1) = decide (f32.key a.1 = f32.key b.1) from by simp [eq_comm]]
    exact h
  have hl : ∀ x, f32.lt x x = false := by intro x; simp [Fmt.lt]
  simp [complex64Comparator, cxEq, h, h', hl]

/-- 1 and 2. -/
example : f32.eq ((0x3f800000, 0) : Cx).1 ((0x40000000, 0) : Cx).1 = false := by decide

/-- What remains of `Complex64Comparator`: numbers with the same real part (and no NaN) are ordered by the imaginary part. -/
theorem C26_complex64_partial (x : Nat) (hx : f32.isNaN x = false) :
    LawfulCmp (fun a b : { y : Nat // f32.isNaN y = false } => complex64Comparator (x, a.1) (x, b.1)) ∧
    ∀ a b : { y : Nat // f32.isNaN y = false }, (complex64Comparator (x, a.1) (x, b.1) = -1 ↔ f32.lt a.1 b.1 = true) ∧
      (complex64Comparator (x, a.1) (x, b.1) = 0 ↔ f32.eq a.1 b.1 = true) ∧ (complex64Comparator (x, a.1) (x, b.1) = 1 ↔ f32.lt b.1 a.1 = true) := by
  have key : ∀ a b : { y : Nat // f32.isNaN y = false }, complex64Comparator (x, a.1) (x, b.1) =
      if f32.key a.1 = f32.key b.1 then 0 else if f32.key a.1 < f32.key b.1 then -1 else 1 := by
    rintro ⟨a, ha⟩ ⟨b, hb⟩
    simp [complex64Comparator, cxEq, Fmt.eq, Fmt.lt, ha, hb, hx]
  refine ⟨⟨fun a b => ?_, fun a b c => ?_⟩, fun a b => ?_⟩
  · rw [key, key]; split_ifs <;> simp <;> omega
  · rw [key, key, key]; split_ifs <;> simp <;> omega
  · rw [key]
    simp only [Fmt.eq, Fmt.lt, a.2, b.2]
    split_ifs <;> simp <;> omega

/-! ## Reverse -/

/-- C26 for `Reverse`: of a consistent comparator that does not return the smallest `int`, it is consistent and has the opposite sign everywhere. -/
theorem C26_reverse {α : Type} {cmp : α → α → Int} (hc : LawfulCmp cmp) (hm : ∀ a b, cmp a b ≠ -(2 ^ 63)) :
    LawfulCmp (reverse cmp) ∧ ∀ a b, (reverse cmp a b < 0 ↔ 0 < cmp a b) ∧ (reverse cmp a b = 0 ↔ cmp a b = 0) ∧ (0 < reverse cmp a b ↔ cmp a b < 0) := by
  have : reverse cmp = fun a b => -cmp a b := by
    funext a b
    rw [reverse, goNeg, if_neg (hm a b)]
  rw [this]
  exact ⟨hc.reverse, fun a b => by beta_reduce; omega⟩

/-- The comparators of the package return only -1, 0 and 1. -/
example : ∀ a b : Bool, boolComparator a b ≠ -(2 ^ 63) := by decide

/-- A consistent comparator that returns the smallest `int` for smaller: its `Reverse` is negative in both directions. -/
def minCmp (a b : Bool) : Int := if a = b then 0 else if !a && b then -(2 ^ 63) else 1

/-- C26 is false of `Reverse` for such comparators. -/
theorem C26_reverse_violated : LawfulCmp minCmp ∧ reverse minCmp false true < 0 ∧ reverse minCmp true false < 0 :=
  ⟨⟨by decide, by decide⟩, by decide, by decide⟩

/-! ### The theorems on concrete values -/

example : ThreeWay (· < ·) int8Comparator ∧ int8Comparator (-128) 127 = -1 := ⟨C26_integers.2.2.1.1, by decide⟩
example : stringComparator [1, 2] [1, 2, 0] = -1 ∧ LawfulCmp stringComparator := ⟨rfl, C26_string.2⟩
example : boolComparator false true = -1 ∧ LawfulCmp boolComparator := ⟨rfl, C26_bool.2⟩
/-- A NaN is below everything else for `Float64Comparator`, and equal to every NaN. -/
example : floatComparator f64 0x7ff8000000000001 0 = -1 ∧ floatComparator f64 0x7ff8000000000001 0x7ff8000000000002 = 0 :=
  ⟨((C26_float f64).2 _ _).2.1.2 (.inr (by decide)), ((C26_float f64).2 _ _).1.2 (.inr (by decide))⟩
example : f64.isNaN 0x7ff8000000000001 = true := (C26_float_formats.2.1 _ (by decide)).2 (by decide)
example : orderedFloatCmp f64 0 0x3ff0000000000000 = -1 := ((C26_orderedFloat_partial f64).2 ⟨0, by decide⟩ ⟨0x3ff0000000000000, by decide⟩).1.2 (by decide)
example : orderedFloatCmp f32 0x7fc00000 5 = 1 ∧ orderedFloatCmp f32 5 0x7fc00000 = 1 := C26_orderedFloat_violated f32 _ 5 (by decide)
example : complex128Comparator (0, 1) (0, 2) = -1 := (C26_complex128_partial.2 ⟨(0, 1), by unfold Proper; decide⟩ ⟨(0, 2), by unfold Proper; decide⟩).2.1.2 (by decide)
example : complex128Comparator (0x7ff8000000000001, 0) (0, 0) = 1 ∧ complex128Comparator (0, 0) (0x7ff8000000000001, 0) = 1 := C26_complex128_violated _ _ (by decide)
example : complex64Comparator (0x3f800000, 0) (0x40000000, 0) = 1 ∧ complex64Comparator (0x40000000, 0) (0x3f800000, 0) = 1 := C26_complex64_violated _ _ (by decide)
example : complex64Comparator (5, 1) (5, 2) = -1 := ((C26_complex64_partial 5 (by decide)).2 ⟨1, by decide⟩ ⟨2, by decide⟩).1.2 (by decide)
example : LawfulCmp (reverse boolComparator) := (C26_reverse C26_bool.2 (by decide)).1

end GoSTL.Comparator
