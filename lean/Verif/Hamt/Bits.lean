import Verif.Hamt.Model
import Mathlib.Tactic.Common
import Mathlib.Data.List.Perm.Basic
import Mathlib.Data.List.Nodup
/-!
# Bit positions, indices and the placement of children
-/
namespace GoSTL.Hamt
variable {T : Type}

/-- The set bits, in order. -/
def bits (b : Hash) : List Nat := (List.range 64).filter b.getLsbD

theorem mem_bits {b : Hash} {p : Nat} : p ∈ bits b ↔ p < 64 ∧ b.getLsbD p = true := by simp [bits]

theorem pairwise_range (n : Nat) : (List.range n).Pairwise (· < ·) := List.pairwise_lt_range

theorem bits_sorted (b : Hash) : (bits b).Pairwise (· < ·) := (pairwise_range 64).sublist List.filter_sublist

theorem bits_nodup (b : Hash) : (bits b).Nodup := (bits_sorted b).imp (fun h => Nat.ne_of_lt h)

theorem pos_lt (h : Hash) (d : Nat) : pos h d < 64 := by
  have : pos h d = (h >>> (d * 6)).toNat % 64 := by
    simp only [pos, BitVec.toNat_and]
    exact Nat.and_two_pow_sub_one_eq_mod _ 6
  omega

theorem bitPos_get {p i : Nat} (hi : i < 64) : (bitPos p).getLsbD i = decide (i = p) := by
  simp only [bitPos, BitVec.getLsbD_shiftLeft, BitVec.getLsbD_one, hi, decide_true, Bool.true_and]
  by_cases c : i = p
  · subst c; simp
  · by_cases c2 : i < p
    · simp [c, c2]
    · have : ¬ i - p = 0 := by omega
      simp [c, c2, this]

theorem bitPos_toNat {p : Nat} (hp : p < 64) : (bitPos p).toNat = 2 ^ p := by
  simp only [bitPos, BitVec.toNat_shiftLeft, Nat.shiftLeft_eq]
  have h1 : (1 : Hash).toNat = 1 := rfl
  have : 2 ^ p < 2 ^ 64 := Nat.pow_lt_pow_right (by omega) hp
  rw [h1, Nat.one_mul, Nat.mod_eq_of_lt this]

theorem below_get {p i : Nat} (hp : p < 64) (hi : i < 64) : (bitPos p - 1).getLsbD i = decide (i < p) := by
  have h1 : (1 : Hash).toNat = 1 := rfl
  have hpow : 2 ^ p < 2 ^ 64 := Nat.pow_lt_pow_right (by omega) hp
  have hpos : 0 < 2 ^ p := Nat.two_pow_pos p
  have : (bitPos p - 1).toNat = 2 ^ p - 1 := by
    rw [BitVec.toNat_sub, bitPos_toNat hp, h1]
    omega
  rw [BitVec.getLsbD, this, Nat.testBit_two_pow_sub_one]

theorem index_eq {b : Hash} {p : Nat} (hp : p < 64) : index b (bitPos p) = ((bits b).filter (fun i => decide (i < p))).length := by
  simp only [index, onesCount, bits, List.filter_filter]
  congr 1
  apply List.filter_congr
  intro i hi
  simp only [List.mem_range] at hi
  rw [BitVec.getLsbD_and, below_get hp hi]

theorem filter_lt_sorted {l : List Nat} (hs : l.Pairwise (· < ·)) : ∀ (j : Nat) (p : Nat), l[j]? = some p → (l.filter (fun i => decide (i < p))).length = j := by
  induction l with
  | nil => intro j p h; simp at h
  | cons a l ih =>
    intro j p h
    rw [List.pairwise_cons] at hs
    cases j with
    | zero =>
      simp at h; subst h
      rw [List.filter_cons_of_neg (by simp)]
      rw [List.filter_eq_nil_iff.2]; rfl
      intro i hi
      have := hs.1 i hi
      simp; omega
    | succ j =>
      simp only [List.getElem?_cons_succ] at h
      have := hs.1 p (List.mem_of_getElem? h)
      rw [List.filter_cons_of_pos (by simp [this]), List.length_cons, ih hs.2 j p h]

theorem index_get {b : Hash} {j p : Nat} (h : (bits b)[j]? = some p) : index b (bitPos p) = j := by
  have hp := (mem_bits.1 (List.mem_of_getElem? h)).1
  rw [index_eq hp]
  exact filter_lt_sorted (bits_sorted b) j p h

/-- A set bit stands at its index. -/
theorem get_index {b : Hash} {p : Nat} (h : p ∈ bits b) : (bits b)[index b (bitPos p)]? = some p := by
  obtain ⟨j, hj⟩ := List.mem_iff_getElem?.1 h
  rw [index_get hj]; exact hj

theorem test_zero {b : Hash} {p : Nat} (hp : p < 64) : bitPos p &&& b = 0 ↔ p ∉ bits b := by
  constructor
  · intro h hm
    have := congrArg (fun x : Hash => x.getLsbD p) h
    simp only [BitVec.getLsbD_and, bitPos_get hp, (mem_bits.1 hm).2] at this
    simp at this
  · intro h
    apply BitVec.eq_of_getLsbD_eq
    intro i hi
    rw [BitVec.getLsbD_and, bitPos_get hi]
    by_cases c : i = p
    · subst c
      have : b.getLsbD i = false := by
        by_contra hh
        exact h (mem_bits.2 ⟨hi, by simpa using hh⟩)
      simp [this]
    · simp [c]

theorem mem_bits_or {b : Hash} {p q : Nat} (hp : p < 64) : q ∈ bits (b ||| bitPos p) ↔ q = p ∨ q ∈ bits b := by
  simp only [mem_bits, BitVec.getLsbD_or, Bool.or_eq_true]
  constructor
  · rintro ⟨h1, h2 | h2⟩
    · exact .inr ⟨h1, h2⟩
    · rw [bitPos_get h1] at h2; exact .inl (by simpa using h2)
  · rintro (rfl | ⟨h1, h2⟩)
    · exact ⟨hp, .inr (by rw [bitPos_get hp]; simp)⟩
    · exact ⟨h1, .inl h2⟩

theorem mem_bits_andnot {b : Hash} {p q : Nat} : q ∈ bits (b &&& ~~~ (bitPos p)) ↔ q ≠ p ∧ q ∈ bits b := by
  simp only [mem_bits, BitVec.getLsbD_and, BitVec.getLsbD_not, Bool.and_eq_true]
  constructor
  · rintro ⟨h1, h2, h3⟩
    rw [bitPos_get h1] at h3
    exact ⟨by simpa [h1] using h3, h1, h2⟩
  · rintro ⟨h0, h1, h2⟩
    refine ⟨h1, h2, ?_⟩
    rw [bitPos_get h1]; simp [h0, h1]

theorem bits_zero : bits 0 = [] := by decide

/-! ## Placement -/

/-- The slot an entry belongs to. -/
def posAt (d : Nat) : Entry T → Nat
  | .kv h _ => pos h d
  | .node _ p _ => p

theorem bitPosNum_eq (d : Nat) (e : Entry T) : bitPosNum d e = bitPos (posAt d e) := by cases e <;> rfl

theorem perm_map_lift {α β : Type} {f : α → β} {ys zs : List β} (h : ys.Perm zs) : ∀ (xs : List α), xs.map f = ys → ∃ L : List α, L.Perm xs ∧ L.map f = zs := by
  induction h with
  | nil => intro xs e; exact ⟨xs, .refl _, e⟩
  | cons y _ ih =>
    intro xs e
    cases xs with
    | nil => simp at e
    | cons x xs =>
      simp at e
      obtain ⟨L, h1, h2⟩ := ih xs e.2
      exact ⟨x :: L, h1.cons x, by simp [h2, e.1]⟩
  | swap a b l =>
    intro xs e
    match xs, e with
    | x :: y :: xs, e =>
      simp at e
      exact ⟨y :: x :: xs, .swap _ _ _, by simp [e]⟩
  | trans _ _ ih1 ih2 =>
    intro xs e
    obtain ⟨L, h1, h2⟩ := ih1 xs e
    obtain ⟨L', h3, h4⟩ := ih2 L h2
    exact ⟨L', h3.trans h1, h4⟩

theorem placeLoop_spec (d : Nat) (b : Hash) : ∀ (es : List (Entry T)) (a : List (Option (Entry T))),
    (∀ e ∈ es, index b (bitPos (posAt d e)) < a.length) → (es.map (fun e => index b (bitPos (posAt d e)))).Nodup →
    ∃ a', placeLoop d b es a = .ok a' ∧ a'.length = a.length ∧
      (∀ e ∈ es, a'[index b (bitPos (posAt d e))]? = some (some e)) ∧
      ∀ j, (∀ e ∈ es, index b (bitPos (posAt d e)) ≠ j) → a'[j]? = a[j]? := by
  intro es
  induction es with
  | nil => intro a _ _; exact ⟨a, rfl, rfl, by simp, fun _ _ => rfl⟩
  | cons e es ih =>
    intro a hl hn
    rw [List.map_cons, List.nodup_cons] at hn
    obtain ⟨a', h1, h2, h3, h4⟩ := ih (a.set (index b (bitPos (posAt d e))) (some e)) (fun x hx => by simpa using hl x (by simp [hx])) hn.2
    have hi := hl e (by simp)
    refine ⟨a', ?_, by simpa using h2, ?_, ?_⟩
    · simp only [placeLoop, bitPosNum_eq]
      rw [if_pos hi]; exact h1
    · intro x hx
      rcases List.mem_cons.1 hx with rfl | hx
      · rw [h4]
        · simp [hi]
        · intro y hy c
          exact hn.1 (List.mem_map.2 ⟨y, hy, c⟩)
      · exact h3 x hx
    · intro j hj
      rw [h4 j (fun x hx => hj x (by simp [hx]))]
      have := hj e (by simp)
      simp [this]

theorem allSome_map (L : List (Entry T)) : allSome (L.map some) = .ok L := by
  induction L with
  | nil => rfl
  | cons e L ih => simp [allSome, ih]

theorem place_spec (d : Nat) (b : Hash) (es : List (Entry T)) (n : Nat) (hn : n = es.length) (hp : (es.map (posAt d)).Perm (bits b)) :
    ∃ L : List (Entry T), place d b n es = .ok L ∧ L.Perm es ∧ L.map (posAt d) = bits b := by
  obtain ⟨L, hL, hm⟩ := perm_map_lift hp es rfl
  have hlen : (bits b).length = es.length := by rw [← hp.length_eq]; simp
  have hLe : L.length = es.length := hL.length_eq
  have hmem : ∀ e ∈ es, posAt d e ∈ bits b := fun e he => hp.subset (List.mem_map.2 ⟨e, he, rfl⟩)
  have hidx : ∀ e ∈ es, (bits b)[index b (bitPos (posAt d e))]? = some (posAt d e) := fun e he => get_index (hmem e he)
  have hrange : ∀ e ∈ es, index b (bitPos (posAt d e)) < n := by
    intro e he
    by_contra c
    have := hidx e he
    rw [List.getElem?_eq_none (by omega)] at this; cases this
  have hnd : (es.map (posAt d)).Nodup := hp.nodup_iff.2 (bits_nodup b)
  have hnd2 : (es.map (fun e => index b (bitPos (posAt d e)))).Nodup := by
    have : es.map (fun e => index b (bitPos (posAt d e))) = (es.map (posAt d)).map (fun p => index b (bitPos p)) := by simp
    rw [this]
    refine List.Nodup.map_on ?_ hnd
    intro p hp1 q hq1 e
    have h1 := get_index (hp.subset hp1)
    have h2 := get_index (hp.subset hq1)
    rw [e, h2] at h1
    exact (Option.some.inj h1).symm
  obtain ⟨a', h1, h2, h3, h4⟩ := placeLoop_spec d b es (List.replicate n none) (by simpa using hrange) hnd2
  have ha : a' = L.map some := by
    apply List.ext_getElem?
    intro j
    by_cases c : j < n
    · have hj : j < L.length := by omega
      have e1 : L[j]? = some L[j] := by simp
      have hjm : L[j] ∈ es := hL.subset (List.getElem_mem hj)
      have : (bits b)[j]? = some (posAt d L[j]) := by rw [← hm, List.getElem?_map, e1]; rfl
      have := h3 _ hjm
      rw [index_get ‹(bits b)[j]? = some (posAt d L[j])›] at this
      rw [this, List.getElem?_map, e1]; rfl
    · rw [List.getElem?_eq_none (by rw [h2]; simp; omega), List.getElem?_eq_none (by simp; omega)]
  exact ⟨L, by simp only [place, h1, Res.ok_bind, ha, allSome_map], hL, hm⟩

end GoSTL.Hamt
