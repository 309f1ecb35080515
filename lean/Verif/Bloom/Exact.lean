import Verif.Bloom.Props
/-!
# C72: what a Bloom filter answers, exactly
-/
namespace GoSTL.Bloom
open Bitmap (Byte Bitmap bitsOf bitsOf_length bitsOf_get)

variable {H : List Byte → List Byte}

/-! ## Specification -/

/-- The positions of a value in a filter with `m` bits and `k` functions: the first `k` words of the hash of the salted value, each
modulo `m`; there are no more than the hash has words (8 for SHA-512). -/
def places (H : List Byte → List Byte) (m k : Nat) (v : List Byte) : List Nat := ((words (H (salt ++ v))).take k).map (· % m)

/-! ## Proofs -/

theorem gen_any (hH : GoodHash H) {k : Nat} {v : List Byte} {xs : List Nat} (e : genHashInts H (salt ++ v) k = .ok xs) (x : Nat) :
    x ∈ xs ↔ x ∈ (words (H (salt ++ v))).take k := by
  obtain ⟨xs', e', hl, hg⟩ := gen_spec hH (salt ++ v) k
  rw [e] at e'; cases e'
  have hpos : 0 < (words (H (salt ++ v))).length := List.length_pos_iff.2 (words_ne hH _)
  constructor
  · intro hx
    obtain ⟨i, hi, rfl⟩ := List.mem_iff_getElem.1 hx
    have h1 := hg i (by omega)
    have h2 : i % (words (H (salt ++ v))).length < (words (H (salt ++ v))).length := Nat.mod_lt _ hpos
    have h3 : i % (words (H (salt ++ v))).length ≤ i := Nat.mod_le _ _
    rw [List.getElem?_eq_getElem hi, List.getElem?_eq_getElem h2] at h1
    have h1 := Option.some.inj h1
    rw [h1, List.mem_iff_getElem]
    exact ⟨i % (words (H (salt ++ v))).length, by simp; omega, by simp⟩
  · intro hx
    obtain ⟨i, hi, rfl⟩ := List.mem_iff_getElem.1 hx
    have hi' : i < k ∧ i < (words (H (salt ++ v))).length := by
      rw [List.length_take] at hi; omega
    have h1 := hg i hi'.1
    rw [Nat.mod_eq_of_lt hi'.2, List.getElem?_eq_getElem hi'.2] at h1
    rw [List.getElem_take]
    exact List.mem_of_getElem? h1

theorem mem_places {m k : Nat} {v : List Byte} {p : Nat} : p ∈ places H m k v ↔ ∃ x ∈ (words (H (salt ++ v))).take k, x % m = p := by
  rw [places, List.mem_map]

theorem addAll_bits (hH : GoodHash H) : ∀ (vs : List (List Byte)) {bf : BloomFilter}, Good bf →
    ∃ bf', addAll H vs bf = .ok bf' ∧ Good bf' ∧ bf'.m = bf.m ∧ bf'.k = bf.k ∧ bf'.b.size = bf.b.size ∧
      ∀ q, bit bf'.b q = true ↔ bit bf.b q = true ∨ ∃ v ∈ vs, q ∈ places H bf.m bf.k v := by
  intro vs
  induction vs with
  | nil => intro bf hg; exact ⟨bf, rfl, hg, rfl, rfl, rfl, by simp⟩
  | cons w vs ih =>
    intro bf hg
    obtain ⟨xs, ex, -, -⟩ := gen_spec hH (salt ++ w) bf.k
    obtain ⟨b', e2, s2, d2, h2⟩ := addLoop_spec hg.m0 xs bf.b hg.size hg.m
    have e1 : add H bf w = .ok { bf with b := b' } := by
      simp only [add, toInt_small hg.k, ex, Res.ok_bind, e2]
    have hg1 : Good { bf with b := b' } := ⟨d2, hg.m0, by rw [s2]; exact hg.m, hg.k⟩
    obtain ⟨bf2, e3, hg2, hm, hk, hs, hb⟩ := ih hg1
    refine ⟨bf2, by simp only [addAll, e1, Res.ok_bind, e3], hg2, hm, hk, by rw [hs]; exact s2, ?_⟩
    intro q
    have hq : (xs.any fun x => x % bf.m == q) = true ↔ q ∈ places H bf.m bf.k w := by
      rw [List.any_eq_true, mem_places]
      constructor
      · rintro ⟨x, hx, hq⟩; exact ⟨x, (gen_any hH ex x).1 hx, by simpa using hq⟩
      · rintro ⟨x, hx, hq⟩; exact ⟨x, (gen_any hH ex x).2 hx, by simpa using hq⟩
    rw [hb]
    show bit b' q = true ∨ _ ↔ _
    rw [h2, Bool.or_eq_true, hq]
    simp only [List.mem_cons, exists_eq_or_imp]
    tauto

theorem new_bit (m k q : Nat) : bit (new m k).b q = false := by
  simp only [bit, new, Bitmap.new, Bitmap.bitsOf_zero, List.getElem?_replicate]
  split <;> rfl

/-- Bitmaps with the same bits are the same. -/
theorem bitmap_ext {a b : Bitmap} (ha : a.size = a.data.length * 8) (hb : b.size = b.data.length * 8) (hs : a.size = b.size)
    (h : ∀ q, bit a q = bit b q) : a = b := by
  have hd : a.data = b.data := by
    apply List.ext_getElem (by omega)
    intro i h1 h2
    apply BitVec.eq_of_getLsbD_eq
    intro j hj
    have := h (i * 8 + j)
    have e1 : (i * 8 + j) / 8 = i := by omega
    have e2 : (i * 8 + j) % 8 = j := by omega
    simp only [bit, bitsOf_get, e1, e2, List.getElem?_eq_getElem h1, List.getElem?_eq_getElem h2, Option.map_some] at this
    revert this
    generalize a.data[i].getLsbD j = x
    generalize b.data[i].getLsbD j = y
    cases x <;> cases y <;> simp
  cases a; cases b
  simp only at hs hd
  subst hs hd
  rfl

/-- **C72** After any sequence of `Add`s to a new filter, `Contains(v)` is true exactly if every position of `v` is a position of some
added value: there are no false negatives, and no false positives other than by collision of positions. -/
theorem C72_exact (hH : GoodHash H) {m k : Nat} (hm : 0 < m) (hm' : m ≤ 2 ^ 64 - 8) (hk : k < 2 ^ 63) (vs : List (List Byte)) :
    ∃ bf, addAll H vs (new m k) = .ok bf ∧
      ∀ v, contains H bf v = .ok (decide (∀ p ∈ places H m k v, ∃ w ∈ vs, p ∈ places H m k w)) := by
  obtain ⟨bf, e, hg, h1, h2, -, hb⟩ := addAll_bits hH vs (new_good hm hm' hk)
  refine ⟨bf, e, fun v => ?_⟩
  obtain ⟨xs, ex, hc⟩ := contains_spec hH hg v
  have h1 : bf.m = m := h1
  have h2 : bf.k = k := h2
  rw [h2] at ex
  rw [hc, h1]
  congr 1
  rw [Bool.eq_iff_iff, List.all_eq_true, decide_eq_true_iff]
  have hb' : ∀ q, bit bf.b q = true ↔ ∃ w ∈ vs, q ∈ places H m k w := by
    intro q
    rw [hb, new_bit]
    show false = true ∨ (∃ v ∈ vs, q ∈ places H m k v) ↔ _
    simp
  constructor
  · intro h p hp
    obtain ⟨x, hx, rfl⟩ := mem_places.1 hp
    exact (hb' _).1 (h x ((gen_any hH ex x).2 hx))
  · intro h x hx
    exact (hb' _).2 (h _ (mem_places.2 ⟨x, (gen_any hH ex x).1 hx, rfl⟩))

/-- **C72** The order of the `Add`s and repetitions do not matter: filters with the same parameters to which the same values were added are
the same, bit by bit. -/
theorem C72_order (hH : GoodHash H) {m k : Nat} (hm : 0 < m) (hm' : m ≤ 2 ^ 64 - 8) (hk : k < 2 ^ 63) (vs ws : List (List Byte))
    (h : ∀ v, v ∈ vs ↔ v ∈ ws) : ∃ bf, addAll H vs (new m k) = .ok bf ∧ addAll H ws (new m k) = .ok bf := by
  obtain ⟨bf, e, hg, h1, h2, h3, hb⟩ := addAll_bits hH vs (new_good hm hm' hk)
  obtain ⟨bf', e', hg', h1', h2', h3', hb'⟩ := addAll_bits hH ws (new_good hm hm' hk)
  refine ⟨bf, e, ?_⟩
  rw [e']
  have : bf'.b = bf.b := by
    apply bitmap_ext hg'.size hg.size (by rw [h3, h3'])
    intro q
    rw [Bool.eq_iff_iff, hb, hb']
    simp only [h]
  cases bf; cases bf'
  simp only at this h1 h2 h1' h2'
  subst this
  rw [h1, h2, h1', h2']

/-- **C72** What a user of more than 8 functions does not get: if the hash has at most 8 words (SHA-512 has exactly 8), a filter with
`k ≥ 8` functions has the same bits and gives the same answers as one with 8 functions. -/
theorem C72_more_functions_do_nothing (hH : GoodHash H) (h8 : ∀ d, (words (H d)).length ≤ 8) {m k : Nat} (hm : 0 < m) (hm' : m ≤ 2 ^ 64 - 8) (hk : k < 2 ^ 63)
    (hk8 : 8 ≤ k) (vs : List (List Byte)) :
    ∃ bf bf8, addAll H vs (new m k) = .ok bf ∧ addAll H vs (new m 8) = .ok bf8 ∧ bf.b = bf8.b ∧ ∀ v, contains H bf v = contains H bf8 v := by
  have hp : ∀ v, places H m k v = places H m 8 v := by
    intro v
    have := h8 (salt ++ v)
    simp only [places]
    rw [List.take_of_length_le (by omega), List.take_of_length_le (by omega)]
  obtain ⟨bf, e, hg, h1, h2, h3, hb⟩ := addAll_bits hH vs (new_good hm hm' hk)
  obtain ⟨bf', e', hg', h1', h2', h3', hb'⟩ := addAll_bits hH vs (new_good (k := 8) hm hm' (by omega))
  obtain ⟨_, f, hc⟩ := C72_exact hH hm hm' hk vs
  obtain ⟨_, f', hc'⟩ := C72_exact hH (k := 8) hm hm' (by omega) vs
  rw [e] at f; cases f
  rw [e'] at f'; cases f'
  refine ⟨bf, bf', e, e', ?_, ?_⟩
  · apply bitmap_ext hg.size hg'.size (by rw [h3, h3']; rfl)
    intro q
    rw [Bool.eq_iff_iff, hb, hb', new_bit, new_bit]
    show false = true ∨ (∃ v ∈ vs, q ∈ places H m k v) ↔ false = true ∨ (∃ v ∈ vs, q ∈ places H m 8 v)
    simp only [hp]
  · intro v
    rw [hc, hc']
    simp only [hp]

/-! ## Non-vacuity -/

theorem exHash_words (d : List Byte) : (words (exHash d)).length = 8 := by
  rw [words, wordsN_length]; simp [exHash]

set_option maxRecDepth 20000 in
/-- A true positive, a false positive (all of whose positions are taken) and a true negative. -/
example : (do
    let bf ← addAll exHash [[1], [2, 3]] (new 10 9)
    let a ← contains exHash bf [1]
    let b ← contains exHash bf [11]
    let c ← contains exHash bf [3]
    .ok (a, b, c)) = Res.ok (true, true, false) ∧ places exHash 10 9 [1] = places exHash 10 9 [11] := ⟨rfl, rfl⟩

/-- `C72_exact`, `C72_order` and `C72_more_functions_do_nothing` for a filter of 10 bits with 9 functions and two values. -/
example := C72_exact exHash_good (m := 10) (k := 9) (by decide) (by decide) (by decide) [[1], [2, 3]]
/-- `C72_order`: adding twice and in another order gives the same filter. -/
example := C72_order exHash_good (m := 10) (k := 9) (by decide) (by decide) (by decide) [[1], [2, 3]] [[2, 3], [1], [2, 3]] (by intro v; simp; tauto)
/-- `C72_more_functions_do_nothing`. -/
example := C72_more_functions_do_nothing exHash_good (fun d => Nat.le_of_eq (exHash_words d)) (m := 10) (k := 9) (by decide) (by decide) (by decide) (by decide) [[1], [2, 3]]

end GoSTL.Bloom
