import Verif.Bitmap.Model
import Mathlib.Tactic.Common
import Mathlib.Data.List.Basic
/-!
# C29, C30: bitmaps
-/
namespace GoSTL.Bitmap

/-! ## Specification: bitmaps as lists of booleans -/

/-- The bits of a byte, lowest first. -/
def bitsOf1 (d : Byte) : List Bool := [d.getLsbD 0, d.getLsbD 1, d.getLsbD 2, d.getLsbD 3, d.getLsbD 4, d.getLsbD 5, d.getLsbD 6, d.getLsbD 7]

/-- The bits of a byte string. -/
def bitsOf : List Byte → List Bool
  | [] => []
  | d :: ds => bitsOf1 d ++ bitsOf ds

/-- A store is a row of bits; several bitmaps may use the same store. -/
structure Spec where
  stores : List (List Bool)
  maps : List Nat

/-- The bits of bitmap `h`. -/
def Spec.bits (S : Spec) (h : Nat) : Res (List Bool) := do
  let i ← Res.ofOption S.maps[h]?
  Res.ofOption S.stores[i]?

/-- The bits cut or filled up with zeros to length `n`. -/
def fit (n : Nat) (bits : List Bool) : List Bool := bits.take n ++ List.replicate (n - bits.length) false

/-- What the specification returns: bits instead of bytes. -/
inductive SpecOut
  | unit
  | bool (b : Bool)
  | int (n : Nat)
  | bits (d : List Bool)

/-- One call, on storages of bits. -/
def specStep (op : Op) (S : Spec) : Res (SpecOut × Spec) :=
  match op with
  | .new size => .ok (.unit, ⟨S.stores ++ [List.replicate (roundUp size) false], S.maps ++ [S.stores.length]⟩)
  | .fromBytes data => .ok (.unit, ⟨S.stores ++ [bitsOf data], S.maps ++ [S.stores.length]⟩)
  | .fromData h => do
    let i ← Res.ofOption S.maps[h]?
    .ok (.unit, { S with maps := S.maps ++ [i] })
  | .set h pos => do
    let i ← Res.ofOption S.maps[h]?
    let bits ← S.bits h
    .ok (.bool (decide (pos < bits.length)), { S with stores := S.stores.set i (bits.set pos true) })
  | .unset h pos => do
    let i ← Res.ofOption S.maps[h]?
    let bits ← S.bits h
    .ok (.bool (decide (pos < bits.length)), { S with stores := S.stores.set i (bits.set pos false) })
  | .isSet h pos => do
    let bits ← S.bits h
    .ok (.bool (bits[pos]? == some true), S)
  | .resize h size => do
    let bits ← S.bits h
    .ok (.unit, if bits.length = roundUp size then S
      else ⟨S.stores ++ [fit (roundUp size) bits], S.maps.set h S.stores.length⟩)
  | .size h => do
    let bits ← S.bits h
    .ok (.int bits.length, S)
  | .clear h => do
    let bits ← S.bits h
    .ok (.unit, ⟨S.stores ++ [List.replicate bits.length false], S.maps.set h S.stores.length⟩)
  | .data h => do
    let bits ← S.bits h
    .ok (.bits bits, S)

/-- A program, on storages of bits. -/
def specRun : List Op → Spec → Res (List SpecOut × Spec)
  | [], S => .ok ([], S)
  | op :: ops, S => do
    let (o, S) ← specStep op S
    let (os, S) ← specRun ops S
    .ok (o :: os, S)

/-- A result of the code as a result of the specification: byte strings stand for their bits. -/
def Out.toSpec : Out → SpecOut
  | .unit => .unit
  | .bool b => .bool b
  | .int n => .int n
  | .bytes d => .bits (bitsOf d)

/-! ## Bits of byte strings -/

theorem bitsOf1_get (d : Byte) (k : Nat) (h : k < 8) : (bitsOf1 d)[k]? = some (d.getLsbD k) := by
  have : k = 0 ∨ k = 1 ∨ k = 2 ∨ k = 3 ∨ k = 4 ∨ k = 5 ∨ k = 6 ∨ k = 7 := by omega
  rcases this with rfl | rfl | rfl | rfl | rfl | rfl | rfl | rfl <;> rfl

theorem bitsOf_length (ds : List Byte) : (bitsOf ds).length = ds.length * 8 := by
  induction ds with
  | nil => rfl
  | cons d ds ih => simp only [bitsOf, List.length_append, ih, bitsOf1, List.length_cons, List.length_nil]; omega

theorem bitsOf_get (ds : List Byte) (p : Nat) : (bitsOf ds)[p]? = (ds[p / 8]?).map (fun d => d.getLsbD (p % 8)) := by
  induction ds generalizing p with
  | nil => simp [bitsOf]
  | cons d ds ih =>
    have hl : (bitsOf1 d).length = 8 := rfl
    by_cases c : p < 8
    · rw [bitsOf, List.getElem?_append_left (by omega), bitsOf1_get d p c]
      have e1 : p / 8 = 0 := by omega
      have e2 : p % 8 = p := by omega
      simp [e1, e2]
    · rw [bitsOf, List.getElem?_append_right (by omega), hl, ih]
      have e1 : p / 8 = (p - 8) / 8 + 1 := by omega
      have e2 : p % 8 = (p - 8) % 8 := by omega
      rw [e1, e2, List.getElem?_cons_succ]

theorem shift3 (p : Nat) : p >>> 3 = p / 8 := by rw [Nat.shiftRight_eq_div_pow]
theorem and7 (p : Nat) : p &&& 7 = p % 8 := Nat.and_two_pow_sub_one_eq_mod p 3

theorem mask_get (p k : Nat) (hk : k < 8) : (mask p).getLsbD k = decide (k = p % 8) := by
  have h8 : p % 8 < 8 := by omega
  simp only [mask, and7]
  have : ∀ a < 8, ∀ b < 8, ((1 : Byte) <<< a).getLsbD b = decide (b = a) := by decide
  exact this _ h8 _ hk

theorem bitsOf_set {ds : List Byte} {p : Nat} {d : Byte} (hd : ds[p / 8]? = some d) (v : Bool) (d' : Byte)
    (hd' : ∀ k < 8, d'.getLsbD k = if k = p % 8 then v else d.getLsbD k) : bitsOf (ds.set (p / 8) d') = (bitsOf ds).set p v := by
  have hp : p / 8 < ds.length := by
    by_contra c
    rw [List.getElem?_eq_none (by omega)] at hd; cases hd
  apply List.ext_getElem?
  intro q
  rw [bitsOf_get, List.getElem?_set, List.getElem?_set, bitsOf_get, bitsOf_length]
  by_cases c : p / 8 = q / 8
  · rw [if_pos c, if_pos hp, ← c, hd]
    simp only [Option.map_some, hd' (q % 8) (by omega)]
    by_cases c2 : p = q
    · subst c2; rw [if_pos rfl, if_pos rfl, if_pos (by omega)]
    · rw [if_neg c2, if_neg (by omega)]
  · rw [if_neg c, if_neg (by rintro rfl; exact c rfl)]

theorem bitsOf_set_true {ds : List Byte} {p : Nat} {d : Byte} (hd : ds[p / 8]? = some d) :
    bitsOf (ds.set (p / 8) (d ||| mask p)) = (bitsOf ds).set p true := by
  refine bitsOf_set hd true _ fun k hk => ?_
  rw [BitVec.getLsbD_or, mask_get p k hk]
  by_cases c : k = p % 8 <;> simp [c]

theorem bitsOf_set_false {ds : List Byte} {p : Nat} {d : Byte} (hd : ds[p / 8]? = some d) :
    bitsOf (ds.set (p / 8) (d &&& ~~~ (mask p))) = (bitsOf ds).set p false := by
  refine bitsOf_set hd false _ fun k hk => ?_
  rw [BitVec.getLsbD_and, BitVec.getLsbD_not, mask_get p k hk]
  by_cases c : k = p % 8 <;> simp [c, hk]

theorem test_bit (d : Byte) (p : Nat) : (d &&& mask p).toNat > 0 ↔ d.getLsbD (p % 8) = true := by
  have h8 : p % 8 < 8 := by omega
  have key : (d &&& mask p) = 0 ↔ d.getLsbD (p % 8) = false := by
    constructor
    · intro h
      have := congrArg (fun x : Byte => x.getLsbD (p % 8)) h
      simp only [BitVec.getLsbD_and, mask_get p (p % 8) h8] at this
      simpa using this
    · intro h
      apply BitVec.eq_of_getLsbD_eq
      intro i hi
      rw [BitVec.getLsbD_and, mask_get p i hi]
      by_cases c : i = p % 8
      · rw [c, h]; simp
      · simp [c]
  have e : (d &&& mask p).toNat > 0 ↔ ¬ (d &&& mask p) = 0 := by
    rw [← BitVec.toNat_inj]
    have : (0 : Byte).toNat = 0 := rfl
    rw [this]; omega
  rw [e, key]; simp

theorem bitsOf_zero (n : Nat) : bitsOf (List.replicate n 0) = List.replicate (n * 8) false := by
  apply List.ext_getElem?
  intro q
  rw [bitsOf_get, List.getElem?_replicate, List.getElem?_replicate]
  by_cases c : q < n * 8
  · rw [if_pos c, if_pos (by omega)]; simp
  · rw [if_neg c, if_neg (by omega)]; rfl

theorem bitsOf_append (a b : List Byte) : bitsOf (a ++ b) = bitsOf a ++ bitsOf b := by
  induction a with
  | nil => rfl
  | cons d a ih => simp [bitsOf, ih]

theorem bitsOf_take (a : List Byte) (n : Nat) : bitsOf (a.take n) = (bitsOf a).take (n * 8) := by
  apply List.ext_getElem?
  intro q
  rw [bitsOf_get, List.getElem?_take, List.getElem?_take, bitsOf_get]
  by_cases c : q < n * 8
  · rw [if_pos c, if_pos (by omega)]
  · rw [if_neg c, if_neg (by omega)]; rfl

theorem roundUp_mul (n : Nat) : roundUp n / 8 * 8 = roundUp n := by simp only [roundUp]; omega

/-! ## Refinement -/

/-- The slices hold the bits of the storages. -/
structure WInv (w : World) (S : Spec) : Prop where
  stores : S.stores = w.bufs.map bitsOf
  maps : S.maps = w.maps.map Prod.fst
  size : ∀ (h i n : Nat), w.maps[h]? = some (i, n) → ∃ d, w.bufs[i]? = some d ∧ n = d.length * 8

/-- The same result, and the states agree. -/
inductive Agree : Res (Out × World) → Res (SpecOut × Spec) → Prop
  | ok {o : Out} {w : World} {S : Spec} : WInv w S → Agree (.ok (o, w)) (.ok (o.toSpec, S))
  | panic : Agree .panic .panic

theorem WInv.load {w : World} {S : Spec} (hw : WInv w S) (h : Nat) :
    (load w h = .panic ∧ S.maps[h]? = none ∧ S.bits h = .panic) ∨
    ∃ i d, w.maps[h]? = some (i, d.length * 8) ∧ w.bufs[i]? = some d ∧ Bitmap.load w h = .ok (i, ⟨d, d.length * 8⟩) ∧ S.maps[h]? = some i ∧ S.bits h = .ok (bitsOf d) := by
  cases e : w.maps[h]? with
  | none =>
    left
    have hm : S.maps[h]? = none := by rw [hw.maps]; simp [e]
    exact ⟨by simp [Bitmap.load, e], hm, by simp [Spec.bits, hm]⟩
  | some x =>
    right
    obtain ⟨i, n⟩ := x
    obtain ⟨d, hd, rfl⟩ := hw.size h i n e
    have hm : S.maps[h]? = some i := by rw [hw.maps]; simp [e]
    have hs : S.stores[i]? = some (bitsOf d) := by rw [hw.stores]; simp [hd]
    exact ⟨i, d, rfl, hd, by simp [Bitmap.load, e, hd], hm, by simp [Spec.bits, hm, hs]⟩

theorem WInv.store {w : World} {S : Spec} (hw : WInv w S) {i : Nat} {d : List Byte} (hd : w.bufs[i]? = some d) (b : Bitmap) (hl : b.data.length = d.length) :
    WInv (store w i b) { S with stores := S.stores.set i (bitsOf b.data) } := by
  refine ⟨by simp [Bitmap.store, hw.stores, List.map_set], hw.maps, ?_⟩
  intro h j n e
  obtain ⟨d', hd', rfl⟩ := hw.size h j n e
  have hi : i < w.bufs.length := by
    by_contra c
    rw [List.getElem?_eq_none (by omega)] at hd; cases hd
  by_cases c : i = j
  · subst c
    refine ⟨b.data, by simp [Bitmap.store, hi], ?_⟩
    rw [hd] at hd'; cases hd'; rw [hl]
  · exact ⟨d', by simp [Bitmap.store, c, hd'], rfl⟩

theorem old_size {w : World} {S : Spec} (hw : WInv w S) (x : List Byte) {h i n : Nat} (e : w.maps[h]? = some (i, n)) :
    ∃ d, (w.bufs ++ [x])[i]? = some d ∧ n = d.length * 8 := by
  obtain ⟨d, hd, rfl⟩ := hw.size h i n e
  have hi : i < w.bufs.length := by
    by_contra c
    rw [List.getElem?_eq_none (by omega)] at hd; cases hd
  exact ⟨d, by rw [List.getElem?_append_left hi]; exact hd, rfl⟩

theorem WInv.addNew {w : World} {S : Spec} (hw : WInv w S) (b : Bitmap) (hb : b.size = b.data.length * 8) :
    WInv (addNew w b) ⟨S.stores ++ [bitsOf b.data], S.maps ++ [S.stores.length]⟩ := by
  refine ⟨by simp [Bitmap.addNew, hw.stores], by simp [Bitmap.addNew, hw.maps, hw.stores], ?_⟩
  intro h i n e
  simp only [Bitmap.addNew] at e ⊢
  rcases Nat.lt_or_ge h w.maps.length with c | c
  · rw [List.getElem?_append_left c] at e
    exact old_size hw _ e
  · rw [List.getElem?_append_right c] at e
    have : h - w.maps.length = 0 := by
      by_contra c2
      rw [List.getElem?_eq_none (by simp; omega)] at e; cases e
    rw [this] at e
    simp at e
    obtain ⟨rfl, rfl⟩ := e
    exact ⟨b.data, by simp, hb⟩

theorem WInv.storeNew {w : World} {S : Spec} (hw : WInv w S) (h : Nat) (b : Bitmap) (hb : b.size = b.data.length * 8) :
    WInv (storeNew w h b) ⟨S.stores ++ [bitsOf b.data], S.maps.set h S.stores.length⟩ := by
  refine ⟨by simp [Bitmap.storeNew, hw.stores], by simp [Bitmap.storeNew, hw.maps, hw.stores, List.map_set], ?_⟩
  intro h' i n e
  simp only [Bitmap.storeNew] at e ⊢
  rw [List.getElem?_set] at e
  by_cases c : h = h'
  · rw [if_pos c] at e
    split at e
    · simp at e
      obtain ⟨rfl, rfl⟩ := e
      exact ⟨b.data, by simp, hb⟩
    · cases e
  · rw [if_neg c] at e
    exact old_size hw _ e

theorem set_spec (d : List Byte) (p : Nat) :
    ∃ b, set ⟨d, d.length * 8⟩ p = .ok (decide (p < (bitsOf d).length), b) ∧ b = ⟨b.data, b.data.length * 8⟩ ∧ b.data.length = d.length ∧ bitsOf b.data = (bitsOf d).set p true := by
  by_cases c : p < d.length * 8
  · have hd : d[p / 8]? = some d[p / 8] := by simp
    refine ⟨⟨d.set (p / 8) (d[p / 8] ||| mask p), d.length * 8⟩, ?_, by simp, by simp, bitsOf_set_true hd⟩
    have : ¬ d.length * 8 ≤ p := by omega
    simp [set, this, shift3, hd, bitsOf_length, c]
  · refine ⟨⟨d, d.length * 8⟩, ?_, rfl, rfl, ?_⟩
    · have : d.length * 8 ≤ p := by omega
      simp [set, this, bitsOf_length]
    · rw [List.set_eq_of_length_le]; rw [bitsOf_length]; omega

theorem unset_spec (d : List Byte) (p : Nat) :
    ∃ b, unset ⟨d, d.length * 8⟩ p = .ok (decide (p < (bitsOf d).length), b) ∧ b = ⟨b.data, b.data.length * 8⟩ ∧ b.data.length = d.length ∧ bitsOf b.data = (bitsOf d).set p false := by
  by_cases c : p < d.length * 8
  · have hd : d[p / 8]? = some d[p / 8] := by simp
    refine ⟨⟨d.set (p / 8) (d[p / 8] &&& ~~~ (mask p)), d.length * 8⟩, ?_, by simp, by simp, bitsOf_set_false hd⟩
    have : ¬ d.length * 8 ≤ p := by omega
    simp [unset, this, shift3, hd, bitsOf_length, c]
  · refine ⟨⟨d, d.length * 8⟩, ?_, rfl, rfl, ?_⟩
    · have : d.length * 8 ≤ p := by omega
      simp [unset, this, bitsOf_length]
    · rw [List.set_eq_of_length_le]; rw [bitsOf_length]; omega

theorem isSet_spec (d : List Byte) (p : Nat) : isSet ⟨d, d.length * 8⟩ p = .ok ((bitsOf d)[p]? == some true) := by
  by_cases c : p < d.length * 8
  · have hd : d[p / 8]? = some d[p / 8] := by simp
    have hge : ¬ p ≥ d.length * 8 := by omega
    simp only [isSet, hge, if_false, shift3, hd, Res.ofOption_some, Res.ok_bind, bitsOf_get, Option.map_some]
    by_cases c2 : d[p / 8].getLsbD (p % 8) = true
    · rw [if_pos ((test_bit _ _).2 c2), c2]; rfl
    · rw [if_neg (fun h => c2 ((test_bit _ _).1 h))]
      simp only [Bool.not_eq_true] at c2
      rw [c2]; rfl
  · have hge : p ≥ d.length * 8 := by omega
    simp only [isSet, hge, if_true]
    rw [List.getElem?_eq_none (by rw [bitsOf_length]; omega)]; rfl

theorem resized_length (d : List Byte) (n : Nat) : (resized d n).length = n := by simp [resized]; omega

theorem bitsOf_resized (d : List Byte) (n : Nat) : bitsOf (resized d n) = fit (n * 8) (bitsOf d) := by
  rw [resized, bitsOf_append, bitsOf_take, bitsOf_zero, fit, bitsOf_length]
  congr 2
  omega

theorem step_refines {w : World} {S : Spec} (hw : WInv w S) (op : Op) : Agree (step op w) (specStep op S) := by
  cases op with
  | new n =>
    have := hw.addNew (new n) (by simp [new, roundUp_mul])
    simp only [new, bitsOf_zero, roundUp_mul] at this
    exact .ok this
  | fromBytes d => exact .ok (hw.addNew (newFromData d) rfl)
  | fromData h =>
    rcases hw.load h with ⟨e1, e2, e3⟩ | ⟨i, d, e1, e2, e3, e4, e5⟩
    · simp only [step, specStep, e1, e2, Res.panic_bind, Res.ofOption_none]; exact .panic
    · simp only [step, specStep, e3, e4, Res.ok_bind, Res.ofOption_some, newFromData]
      refine .ok ⟨hw.stores, by simp [hw.maps], ?_⟩
      intro h' j n e
      rcases Nat.lt_or_ge h' w.maps.length with c | c
      · simp only at e
        rw [List.getElem?_append_left c] at e
        exact hw.size h' j n e
      · simp only at e
        rw [List.getElem?_append_right c] at e
        have : h' - w.maps.length = 0 := by
          by_contra c2
          rw [List.getElem?_eq_none (by simp; omega)] at e; cases e
        rw [this] at e
        simp at e
        obtain ⟨rfl, rfl⟩ := e
        exact ⟨d, e2, rfl⟩
  | set h p =>
    rcases hw.load h with ⟨e1, e2, e3⟩ | ⟨i, d, e1, e2, e3, e4, e5⟩
    · simp only [step, specStep, e1, e2, Res.panic_bind, Res.ofOption_none]; exact .panic
    · obtain ⟨b, h1, -, h2, h3⟩ := set_spec d p
      simp only [step, specStep, e3, e4, e5, Res.ok_bind, Res.ofOption_some, h1]
      rw [← h3]; exact .ok (hw.store e2 b h2)
  | unset h p =>
    rcases hw.load h with ⟨e1, e2, e3⟩ | ⟨i, d, e1, e2, e3, e4, e5⟩
    · simp only [step, specStep, e1, e2, Res.panic_bind, Res.ofOption_none]; exact .panic
    · obtain ⟨b, h1, -, h2, h3⟩ := unset_spec d p
      simp only [step, specStep, e3, e4, e5, Res.ok_bind, Res.ofOption_some, h1]
      rw [← h3]; exact .ok (hw.store e2 b h2)
  | isSet h p =>
    rcases hw.load h with ⟨e1, e2, e3⟩ | ⟨i, d, e1, e2, e3, e4, e5⟩
    · simp only [step, specStep, e1, e3, Res.panic_bind]; exact .panic
    · simp only [step, specStep, e3, e5, Res.ok_bind, isSet_spec]; exact .ok hw
  | resize h n =>
    rcases hw.load h with ⟨e1, e2, e3⟩ | ⟨i, d, e1, e2, e3, e4, e5⟩
    · simp only [step, specStep, e1, e3, Res.panic_bind]; exact .panic
    · simp only [step, specStep, e3, e5, Res.ok_bind, resize, bitsOf_length]
      by_cases c : d.length * 8 = roundUp n
      · simp only [c, if_true, Bool.false_eq_true, if_false]; exact .ok hw
      · simp only [c, if_false, if_true]
        have := hw.storeNew h ⟨resized d (roundUp n / 8), roundUp n⟩ (by simp [resized_length, roundUp_mul])
        rw [bitsOf_resized, roundUp_mul] at this
        exact .ok this
  | size h =>
    rcases hw.load h with ⟨e1, e2, e3⟩ | ⟨i, d, e1, e2, e3, e4, e5⟩
    · simp only [step, specStep, e1, e3, Res.panic_bind]; exact .panic
    · simp only [step, specStep, e3, e5, Res.ok_bind, bitsOf_length]; exact .ok hw
  | clear h =>
    rcases hw.load h with ⟨e1, e2, e3⟩ | ⟨i, d, e1, e2, e3, e4, e5⟩
    · simp only [step, specStep, e1, e3, Res.panic_bind]; exact .panic
    · simp only [step, specStep, e3, e5, Res.ok_bind, bitsOf_length]
      have e : d.length * 8 / 8 = d.length := by omega
      have := hw.storeNew h (clear ⟨d, d.length * 8⟩) (by simp [clear])
      simp only [clear, e, bitsOf_zero] at this ⊢
      exact .ok this
  | data h =>
    rcases hw.load h with ⟨e1, e2, e3⟩ | ⟨i, d, e1, e2, e3, e4, e5⟩
    · simp only [step, specStep, e1, e3, Res.panic_bind]; exact .panic
    · simp only [step, specStep, e3, e5, Res.ok_bind]; exact .ok hw

/-- What a run returned (as bits), or how it ended. -/
def outs : Res (List Out × World) → Res (List SpecOut)
  | .ok (a, _) => .ok (a.map Out.toSpec)
  | .panic => .panic
  | .outOfFuel => .outOfFuel

/-- The results of a program on the specification. -/
def specOuts : Res (List SpecOut × Spec) → Res (List SpecOut)
  | .ok (a, _) => .ok a
  | .panic => .panic
  | .outOfFuel => .outOfFuel

theorem run_refines (ops : List Op) : ∀ {w : World} {S : Spec}, WInv w S → outs (run ops w) = specOuts (specRun ops S) := by
  induction ops with
  | nil => intro w S _; rfl
  | cons op ops ih =>
    intro w S hw
    have := step_refines hw op
    simp only [run, specRun]
    revert this
    generalize step op w = a
    generalize specStep op S = b
    intro this
    cases this with
    | panic => rfl
    | ok hi =>
      have := ih hi
      simp only [Res.ok_bind]
      revert this
      generalize run ops _ = a
      generalize specRun ops _ = b
      intro this
      cases a <;> cases b <;> simp_all [outs, specOuts]

theorem start_inv : WInv start ⟨[], []⟩ := ⟨rfl, rfl, by intro h i n e; simp [start] at e⟩

/-- C29, C30: every history of calls on any number of bitmaps, also sharing their slices through `NewFromData(b.Data())`, returns what
rows of booleans return: `Set`, `Unset` change exactly the addressed bit and say whether it exists, `IsSet` reads it, `Clear` makes all
bits zero, `Resize` cuts or fills up with zeros; no call panics on an existing bitmap. -/
theorem C29_history (ops : List Op) : outs (run ops start) = specOuts (specRun ops ⟨[], []⟩) := run_refines ops start_inv

/-! ## C29 for one bitmap -/

/-- Calls on one bitmap. -/
inductive Op1
  | set (pos : Nat)
  | unset (pos : Nat)
  | clear

/-- One of these calls. -/
def step1 : Op1 → Bitmap → Res Bitmap
  | .set p, b => do let (_, b) ← set b p; .ok b
  | .unset p, b => do let (_, b) ← unset b p; .ok b
  | .clear, b => .ok (clear b)

/-- Several of them. -/
def run1 : List Op1 → Bitmap → Res Bitmap
  | [], b => .ok b
  | op :: ops, b => do let b ← step1 op b; run1 ops b

/-- Whether the last operation on position `p` was `Set` (`b` if there was none). -/
def lastSet (p : Nat) : List Op1 → Bool → Bool
  | [], b => b
  | .set q :: ops, b => lastSet p ops (if q = p then true else b)
  | .unset q :: ops, b => lastSet p ops (if q = p then false else b)
  | .clear :: ops, _ => lastSet p ops false

/-- C29: after any history on a bitmap, `IsSet(p)` is true exactly if `p` is a position of the bitmap and the last operation on it was `Set`. -/
theorem C29_last (n : Nat) (ops : List Op1) : ∃ b, run1 ops (new n) = .ok b ∧ b.size = roundUp n ∧
    ∀ p, isSet b p = .ok (decide (p < roundUp n) && lastSet p ops false) := by
  have key : ∀ (ops : List Op1) (d : List Byte) (l : Nat → Bool), d.length * 8 = roundUp n →
      (∀ p, p < roundUp n → (bitsOf d)[p]? = some (l p)) →
      ∃ b, run1 ops ⟨d, d.length * 8⟩ = .ok b ∧ b.size = roundUp n ∧ ∀ p, isSet b p = .ok (decide (p < roundUp n) && lastSet p ops (l p)) := by
    intro ops
    induction ops with
    | nil =>
      intro d l hd hl
      refine ⟨_, rfl, hd, fun p => ?_⟩
      rw [isSet_spec]
      by_cases c : p < roundUp n
      · rw [hl p c]; simp [c, lastSet]
      · rw [List.getElem?_eq_none (by rw [bitsOf_length]; omega)]; simp [c]
    | cons op ops ih =>
      intro d l hd hl
      cases op with
      | set q =>
        obtain ⟨b, h1, hb, h2, h3⟩ := set_spec d q
        have := ih b.data (fun p => if q = p then true else l p) (by rw [h2]; exact hd) ?_
        · simp only [run1, step1, h1, Res.ok_bind, lastSet]
          rw [hb]; exact this
        · intro p hp
          rw [h3, List.getElem?_set, bitsOf_length]
          by_cases c : q = p
          · subst c; simp; omega
          · simp [c, hl p hp]
      | unset q =>
        obtain ⟨b, h1, hb, h2, h3⟩ := unset_spec d q
        have := ih b.data (fun p => if q = p then false else l p) (by rw [h2]; exact hd) ?_
        · simp only [run1, step1, h1, Res.ok_bind, lastSet]
          rw [hb]; exact this
        · intro p hp
          rw [h3, List.getElem?_set, bitsOf_length]
          by_cases c : q = p
          · subst c; simp; omega
          · simp [c, hl p hp]
      | clear =>
        have e : d.length * 8 / 8 = d.length := by omega
        have := ih (List.replicate d.length 0) (fun _ => false) (by simpa using hd) ?_
        · simp only [run1, step1, Res.ok_bind, lastSet, clear, e]
          simpa using this
        · intro p hp
          rw [bitsOf_zero, List.getElem?_replicate, if_pos (by omega)]
  have := key ops (List.replicate (roundUp n / 8) 0) (fun _ => false) (by simp [roundUp_mul]) ?_
  · simpa [new, roundUp_mul] using this
  · intro p hp
    rw [bitsOf_zero, roundUp_mul, List.getElem?_replicate, if_pos hp]

/-! ## C30 -/

/-- C30: for sizes up to 2^64 - 8 the size is the next multiple of 8. -/
theorem C30_size {n : Nat} (hn : n ≤ 2 ^ 64 - 8) : n ≤ roundUp n ∧ roundUp n < n + 8 ∧ roundUp n % 8 = 0 := by
  simp only [roundUp]; omega

/-- C30: `Resize` keeps every bit below both sizes and makes the others zero; the new size is the rounded argument. -/
theorem C30_resize (d : List Byte) (n : Nat) : (resize ⟨d, d.length * 8⟩ n).2.size = roundUp n ∧
    ∀ p, isSet (resize ⟨d, d.length * 8⟩ n).2 p = .ok (decide (p < roundUp n) && ((bitsOf d)[p]? == some true)) := by
  simp only [resize]
  by_cases c : d.length * 8 = roundUp n
  · simp only [c, if_true]
    refine ⟨trivial, fun p => ?_⟩
    rw [← c, isSet_spec]
    by_cases c2 : p < d.length * 8
    · simp [c2]
    · rw [List.getElem?_eq_none (by rw [bitsOf_length]; omega)]; simp
  · simp only [c, if_false]
    refine ⟨trivial, fun p => ?_⟩
    have := isSet_spec (resized d (roundUp n / 8)) p
    rw [resized_length, roundUp_mul, bitsOf_resized, roundUp_mul] at this
    rw [this]
    congr 1
    simp only [fit, List.getElem?_append, List.length_take, bitsOf_length, List.getElem?_take, List.getElem?_replicate]
    by_cases c1 : p < roundUp n
    · by_cases c2 : p < d.length * 8
      · have : p < min (roundUp n) (d.length * 8) := by omega
        simp [c1, this]
      · have : ¬ p < min (roundUp n) (d.length * 8) := by omega
        rw [if_neg this, if_pos (by omega), List.getElem?_eq_none (by rw [bitsOf_length]; omega)]; simp
    · have : ¬ p < min (roundUp n) (d.length * 8) := by omega
      rw [if_neg this, if_neg (by omega)]; simp [c1]

/-- C30: a bitmap made from the exported bytes has the same size and the same bits. -/
theorem C30_data (d : List Byte) : newFromData (⟨d, d.length * 8⟩ : Bitmap).data = ⟨d, d.length * 8⟩ := rfl

/-- C60 is false of the code: the rounded size wraps, so that the largest sizes give an empty bitmap. -/
theorem C60_violated : (new (2 ^ 64 - 1)).size = 0 ∧ isSet (new (2 ^ 64 - 1)) 0 = .ok false ∧
    set (new (2 ^ 64 - 1)) 0 = .ok (false, new (2 ^ 64 - 1)) := by
  refine ⟨by decide, rfl, rfl⟩

/-- C60, the part that holds: up to 2^64 - 8 a new bitmap has all requested positions, and all of them are zero. -/
theorem C60_new_partial {n : Nat} (hn : n ≤ 2 ^ 64 - 8) : n ≤ (new n).size ∧ ∀ p, isSet (new n) p = .ok false := by
  refine ⟨(C30_size hn).1, fun p => ?_⟩
  obtain ⟨b, e, _, h⟩ := C29_last n []
  cases e
  rw [h p]; simp [lastSet]

/-! ## Non-vacuity -/

example : outs (run [.new 10, .size 0, .set 0 3, .set 0 9, .set 0 16, .isSet 0 9, .unset 0 9, .isSet 0 9, .isSet 0 3, .fromData 0,
      .set 1 5, .isSet 0 5, .resize 0 4, .isSet 0 3, .set 0 0, .isSet 1 0, .clear 1, .isSet 1 3, .data 0] start) =
    .ok [.unit, .int 16, .bool true, .bool true, .bool false, .bool true, .bool true, .bool false, .bool true, .unit,
      .bool true, .bool true, .unit, .bool true, .bool true, .bool false, .unit, .bool false,
      .bits [true, false, false, true, false, true, false, false]] := rfl

/-! ### The theorems on concrete bitmaps -/

example : outs (run [.new 10, .set 0 9, .fromData 0, .unset 1 9, .isSet 0 9] start) = specOuts (specRun [.new 10, .set 0 9, .fromData 0, .unset 1 9, .isSet 0 9] ⟨[], []⟩) :=
  C29_history _
example : ∃ b, run1 [.set 3, .set 9, .unset 3, .set 20] (new 10) = .ok b ∧ b.size = 16 ∧ isSet b 3 = .ok false ∧ isSet b 9 = .ok true ∧ isSet b 20 = .ok false := by
  obtain ⟨b, e, h1, h2⟩ := C29_last 10 [.set 3, .set 9, .unset 3, .set 20]
  exact ⟨b, e, h1, h2 3, h2 9, h2 20⟩
example : 10 ≤ roundUp 10 ∧ roundUp 10 < 10 + 8 ∧ roundUp 10 % 8 = 0 := C30_size (by decide)
example : isSet (resize ⟨[0x88, 0x01], 16⟩ 5).2 3 = .ok true ∧ isSet (resize ⟨[0x88, 0x01], 16⟩ 5).2 8 = .ok false :=
  ⟨(C30_resize [0x88, 0x01] 5).2 3, (C30_resize [0x88, 0x01] 5).2 8⟩
example : 10 ≤ (new 10).size ∧ ∀ p, isSet (new 10) p = .ok false := C60_new_partial (by decide)

end GoSTL.Bitmap
