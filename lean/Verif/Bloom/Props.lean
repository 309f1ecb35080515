import Verif.Bloom.Model
import Verif.Bitmap.Props
/-!
# C31, C32, C33: Bloom filters and hash values
-/
namespace GoSTL.Bloom
open Bitmap (Byte Bitmap bitsOf bitsOf_length)

variable {H : List Byte → List Byte}

/-- The hash function returns at least one 64-bit word (SHA-512 returns 8). -/
def GoodHash (H : List Byte → List Byte) : Prop := ∀ d, 8 ≤ (H d).length

/-! ## C33: hash values -/

theorem wordsN_length (n : Nat) (d : List Byte) : (wordsN n d).length = n := by
  induction n generalizing d with
  | zero => rfl
  | succ n ih => simp [wordsN, ih]

theorem genLoop_spec (seed : List Byte) (n : Int) (hw : words (H seed) ≠ []) : ∀ (f : Nat) (r : Nat),
    (n.toNat : Int) < f + r * (words (H seed)).length → 0 < f →
    ∃ r', genLoop H seed n f (List.replicate r (words (H seed))).flatten = .ok (List.replicate r' (words (H seed))).flatten ∧
      n ≤ r' * (words (H seed)).length := by
  have hpos : 0 < (words (H seed)).length := List.length_pos_iff.2 hw
  intro f
  induction f with
  | zero => intro r _ h; omega
  | succ f ih =>
    intro r hf _
    rw [genLoop]
    have hl : ((List.replicate r (words (H seed))).flatten).length = r * (words (H seed)).length := by simp
    rw [hl]
    by_cases c : ((r * (words (H seed)).length : Nat) : Int) < n
    · rw [if_pos c]
      have e : (List.replicate r (words (H seed))).flatten ++ words (H seed) = (List.replicate (r + 1) (words (H seed))).flatten := by
        rw [List.replicate_succ', List.flatten_append]; simp
      simp only [e]
      have hm : (r + 1) * (words (H seed)).length = r * (words (H seed)).length + (words (H seed)).length := Nat.succ_mul ..
      refine ih (r + 1) ?_ ?_
      · push_cast at hf c ⊢
        have : ((r : Int) + 1) * (words (H seed)).length = r * (words (H seed)).length + (words (H seed)).length := by
          rw [Int.add_mul, Int.one_mul]
        omega
      · push_cast at c hf; omega
    · rw [if_neg c]
      refine ⟨r, rfl, ?_⟩
      push_cast at c; omega

theorem flatten_get (ws : List Nat) (r i : Nat) (hi : i < r * ws.length) : (List.replicate r ws).flatten[i]? = ws[i % ws.length]? := by
  induction r generalizing i with
  | zero => simp at hi
  | succ r ih =>
    rw [List.replicate_succ, List.flatten_cons]
    have hm : (r + 1) * ws.length = r * ws.length + ws.length := Nat.succ_mul ..
    by_cases c : i < ws.length
    · rw [List.getElem?_append_left c, Nat.mod_eq_of_lt c]
    · rw [List.getElem?_append_right (by omega), ih _ (by omega), Nat.mod_eq_sub_mod (by omega : i ≥ ws.length)]

theorem words_ne (hH : GoodHash H) (d : List Byte) : words (H d) ≠ [] := by
  have := hH d
  intro h
  have hl := wordsN_length ((H d).length / 8) (H d)
  have : words (H d) = wordsN ((H d).length / 8) (H d) := rfl
  rw [← this, h] at hl
  simp at hl; omega

theorem gen_spec (hH : GoodHash H) (seed : List Byte) (n : Nat) :
    ∃ xs, genHashInts H seed n = .ok xs ∧ xs.length = n ∧ ∀ i, i < n → xs[i]? = (words (H seed))[i % (words (H seed)).length]? := by
  have hw := words_ne hH seed
  obtain ⟨r, e, hr⟩ := genLoop_spec (H := H) seed n hw (n + 1) 0 (by simp; omega) (by omega)
  have hr' : n ≤ r * (words (H seed)).length := by exact_mod_cast hr
  refine ⟨(List.replicate r (words (H seed))).flatten.take n, ?_, ?_, ?_⟩
  · simp only [genHashInts, Int.toNat_natCast]
    have e' : genLoop H seed n (n + 1) [] = .ok (List.replicate r (words (H seed))).flatten := by simpa using e
    simp [e']
  · simp; omega
  · intro i hi
    rw [List.getElem?_take, if_pos hi, flatten_get _ _ _ (by omega)]

/-- What C33 asks for: `rounds` blocks, block number `b` from the `b+1`-th repeated hashing of the seed. -/
def chained (H : List Byte → List Byte) : Nat → List Byte → List Nat
  | 0, _ => []
  | r + 1, d => words (H d) ++ chained H r (H d)

/-- C33, the part that holds: `GenHashInts(seed, n)` returns `n` values, more values extend the list, and the first block comes from the
hash of the seed. Missing (and false): the further blocks come from further rounds. -/
theorem C33_genHashInts_partial (hH : GoodHash H) (seed : List Byte) (n n' : Nat) (hn : n ≤ n') :
    ∃ xs xs', genHashInts H seed n = .ok xs ∧ genHashInts H seed n' = .ok xs' ∧ xs.length = n ∧ xs = xs'.take n ∧
      xs.take (words (H seed)).length = (chained H 1 seed).take n := by
  obtain ⟨xs, e, hl, hg⟩ := gen_spec hH seed n
  obtain ⟨xs', e', hl', hg'⟩ := gen_spec hH seed n'
  have hpos : 0 < (words (H seed)).length := List.length_pos_iff.2 (words_ne hH seed)
  refine ⟨xs, xs', e, e', hl, ?_, ?_⟩
  · apply List.ext_getElem?
    intro i
    by_cases c : i < n
    · rw [List.getElem?_take, if_pos c, hg i c, hg' i (by omega)]
    · rw [List.getElem?_eq_none (by omega), List.getElem?_eq_none (by simp; omega)]
  · apply List.ext_getElem?
    intro i
    simp only [chained, List.append_nil, List.getElem?_take]
    by_cases c : i < n
    · rw [if_pos c]
      by_cases c2 : i < (words (H seed)).length
      · rw [if_pos c2, hg i c, Nat.mod_eq_of_lt c2]
      · rw [if_neg c2, List.getElem?_eq_none (by omega)]
    · rw [if_neg c]
      split
      · exact List.getElem?_eq_none (by omega)
      · rfl

/-- C33 is false of the code for every seed: the values repeat with the period of one block (8 for SHA-512). -/
theorem C33_repeats (hH : GoodHash H) (seed : List Byte) (n i : Nat) (hi : i + (words (H seed)).length < n) :
    ∃ xs, genHashInts H seed n = .ok xs ∧ xs[i + (words (H seed)).length]? = xs[i]? := by
  obtain ⟨xs, e, hl, hg⟩ := gen_spec hH seed n
  refine ⟨xs, e, ?_⟩
  rw [hg _ hi, hg i (by omega), Nat.add_mod_right]

/-- A hash function for examples: 64 bytes, the eighth one is the number of bytes plus the sum of the bytes. -/
def exHash (d : List Byte) : List Byte := List.replicate 7 0 ++ [BitVec.ofNat 8 (d.length) + d.foldl (· + ·) 0] ++ List.replicate 56 0

theorem exHash_good : GoodHash exHash := by intro d; simp [exHash]

set_option maxRecDepth 20000 in
/-- C33 is false of the code: a hash function and a seed whose ninth value is not the first word of the second round. -/
theorem C33_violated : ∃ (H : List Byte → List Byte) (seed : List Byte) (xs : List Nat), GoodHash H ∧
    genHashInts H seed 9 = .ok xs ∧ xs ≠ (chained H 2 seed).take 9 := by
  refine ⟨exHash, [1], [2, 0, 0, 0, 0, 0, 0, 0, 2], exHash_good, rfl, ?_⟩
  have : (chained exHash 2 [1]).take 9 = [2, 0, 0, 0, 0, 0, 0, 0, 66] := rfl
  rw [this]; decide

/-! ## Bloom filters -/

/-- The bitmap of a filter has all its positions. -/
structure Good (bf : BloomFilter) : Prop where
  size : bf.b.size = bf.b.data.length * 8
  m0 : 0 < bf.m
  m : bf.m ≤ bf.b.size
  k : bf.k < 2 ^ 63

theorem new_good {m k : Nat} (hm : 0 < m) (hm' : m ≤ 2 ^ 64 - 8) (hk : k < 2 ^ 63) : Good (new m k) := by
  have := Bitmap.C30_size hm'
  refine ⟨?_, hm, this.1, hk⟩
  simp [new, Bitmap.new, Bitmap.roundUp_mul]

/-- The bit at a position. -/
def bit (b : Bitmap) (p : Nat) : Bool := (bitsOf b.data)[p]? == some true

theorem isSet_bit {b : Bitmap} (hb : b.size = b.data.length * 8) (p : Nat) : Bitmap.isSet b p = .ok (bit b p) := by
  have := Bitmap.isSet_spec b.data p
  rw [← hb] at this; exact this

theorem set_bit {b : Bitmap} (hb : b.size = b.data.length * 8) {p : Nat} (hp : p < b.size) :
    ∃ r b', Bitmap.set b p = .ok (r, b') ∧ b'.size = b.size ∧ b'.size = b'.data.length * 8 ∧ ∀ q, bit b' q = (decide (q = p) || bit b q) := by
  obtain ⟨b', h1, h2, h3, h4⟩ := Bitmap.set_spec b.data p
  rw [← hb] at h1
  have hs : b'.size = b'.data.length * 8 := by rw [h2]
  refine ⟨_, b', h1, by rw [hs, h3, hb], hs, fun q => ?_⟩
  simp only [bit, h4, List.getElem?_set, bitsOf_length]
  by_cases c : q = p
  · subst c
    rw [if_pos rfl, if_pos (by omega)]; simp
  · rw [if_neg (fun h => c h.symm)]; simp [c]

theorem addLoop_spec {m : Nat} (hm : 0 < m) : ∀ (xs : List Nat) (b : Bitmap), b.size = b.data.length * 8 → m ≤ b.size →
    ∃ b', addLoop m xs b = .ok b' ∧ b'.size = b.size ∧ b'.size = b'.data.length * 8 ∧
      ∀ q, bit b' q = (xs.any (fun x => x % m == q) || bit b q) := by
  intro xs
  induction xs with
  | nil => intro b hb _; exact ⟨b, rfl, rfl, hb, by simp⟩
  | cons x xs ih =>
    intro b hb hmb
    have hp : x % m < b.size := Nat.lt_of_lt_of_le (Nat.mod_lt _ hm) hmb
    obtain ⟨r, b1, e1, s1, d1, h1⟩ := set_bit hb hp
    obtain ⟨b2, e2, s2, d2, h2⟩ := ih b1 d1 (by rw [s1]; exact hmb)
    refine ⟨b2, ?_, by rw [s2, s1], d2, ?_⟩
    · have : ¬ m = 0 := by omega
      simp only [addLoop, modM, this, if_false, Res.ok_bind, e1, e2]
    · intro q
      rw [h2, h1, List.any_cons]
      have : decide (q = x % m) = (x % m == q) := by
        by_cases c : q = x % m
        · simp [c]
        · have c' : ¬ x % m = q := fun h => c h.symm
          simp [c, c']
      rw [this]
      cases (x % m == q) <;> cases (xs.any fun x => x % m == q) <;> cases bit b q <;> rfl

theorem containsLoop_spec {m : Nat} (hm : 0 < m) {b : Bitmap} (hb : b.size = b.data.length * 8) : ∀ (xs : List Nat),
    containsLoop m b xs = .ok (xs.all (fun x => bit b (x % m))) := by
  intro xs
  induction xs with
  | nil => rfl
  | cons x xs ih =>
    have : ¬ m = 0 := by omega
    simp only [containsLoop, modM, this, if_false, Res.ok_bind, isSet_bit hb, ih, List.all_cons]
    cases bit b (x % m) <;> simp

theorem toInt_small {k : Nat} (hk : k < 2 ^ 63) : toInt k = k := by simp [toInt, hk]

theorem add_spec (hH : GoodHash H) {bf : BloomFilter} (hg : Good bf) (v : List Byte) :
    ∃ bf' xs, add H bf v = .ok bf' ∧ genHashInts H (salt ++ v) bf.k = .ok xs ∧ Good bf' ∧ bf'.m = bf.m ∧ bf'.k = bf.k ∧
      ∀ q, bit bf'.b q = (xs.any (fun x => x % bf.m == q) || bit bf.b q) := by
  obtain ⟨xs, e, -, -⟩ := gen_spec hH (salt ++ v) bf.k
  obtain ⟨b', e2, s2, d2, h2⟩ := addLoop_spec hg.m0 xs bf.b hg.size hg.m
  refine ⟨{ bf with b := b' }, xs, ?_, e, ⟨d2, hg.m0, by rw [s2]; exact hg.m, hg.k⟩, rfl, rfl, h2⟩
  simp only [add, toInt_small hg.k, e, Res.ok_bind, e2]

theorem contains_spec (hH : GoodHash H) {bf : BloomFilter} (hg : Good bf) (v : List Byte) :
    ∃ xs, genHashInts H (salt ++ v) bf.k = .ok xs ∧ contains H bf v = .ok (xs.all (fun x => bit bf.b (x % bf.m))) := by
  obtain ⟨xs, e, -, -⟩ := gen_spec hH (salt ++ v) bf.k
  refine ⟨xs, e, ?_⟩
  simp only [contains, toInt_small hg.k, e, Res.ok_bind, containsLoop_spec hg.m0 hg.size]

/-- A sequence of `Add`s. -/
def addAll (H : List Byte → List Byte) : List (List Byte) → BloomFilter → Res BloomFilter
  | [], bf => .ok bf
  | v :: vs, bf => do
    let bf ← add H bf v
    addAll H vs bf

theorem C31_monotone (hH : GoodHash H) {bf : BloomFilter} (hg : Good bf) (v w : List Byte) (hc : contains H bf v = .ok true) :
    ∃ bf', add H bf w = .ok bf' ∧ contains H bf' v = .ok true := by
  obtain ⟨bf', xs, e, -, hg', hm, hk, hb⟩ := add_spec hH hg w
  obtain ⟨ys, e1, c1⟩ := contains_spec hH hg v
  obtain ⟨zs, e2, c2⟩ := contains_spec hH hg' v
  rw [hk, e1] at e2
  cases e2
  refine ⟨bf', e, ?_⟩
  rw [c2]
  rw [c1] at hc
  have hc' : (ys.all fun x => bit bf.b (x % bf.m)) = true := by injection hc
  congr 1
  rw [List.all_eq_true] at hc' ⊢
  intro x hx
  rw [hm, hb, hc' x hx]; simp

theorem addAll_good (hH : GoodHash H) : ∀ (vs : List (List Byte)) {bf : BloomFilter}, Good bf →
    ∃ bf', addAll H vs bf = .ok bf' ∧ Good bf' ∧ (∀ v, contains H bf v = .ok true → contains H bf' v = .ok true) ∧
      ∀ v ∈ vs, contains H bf' v = .ok true := by
  intro vs
  induction vs with
  | nil => intro bf hg; exact ⟨bf, rfl, hg, fun _ h => h, by simp⟩
  | cons w vs ih =>
    intro bf hg
    obtain ⟨bf1, xs, e, e0, hg1, hm, hk, hb⟩ := add_spec hH hg w
    obtain ⟨bf2, e2, hg2, hold, hnew⟩ := ih hg1
    refine ⟨bf2, by simp only [addAll, e, Res.ok_bind, e2], hg2, ?_, ?_⟩
    · intro v hv
      obtain ⟨bf1', e', h'⟩ := C31_monotone hH hg v w hv
      rw [e] at e'; cases e'
      exact hold v h'
    · intro v hv
      rcases List.mem_cons.1 hv with rfl | hv
      · refine hold v ?_
        obtain ⟨ys, e1, c1⟩ := contains_spec hH hg1 v
        rw [hk, e0] at e1; cases e1
        rw [c1]; congr 1
        rw [List.all_eq_true]
        intro x hx
        rw [hm, hb]
        have : (xs.any fun y => y % bf.m == x % bf.m) = true := List.any_eq_true.2 ⟨x, hx, by simp⟩
        rw [this]; simp
      · exact hnew v hv

/-- C31: no false negatives. After any sequence of `Add`s to a new filter, `Contains` is true for every added value (and every value for
which it was true at some point); nothing panics. -/
theorem C31_no_false_negatives (hH : GoodHash H) {m k : Nat} (hm : 0 < m) (hm' : m ≤ 2 ^ 64 - 8) (hk : k < 2 ^ 63) (vs ws : List (List Byte)) :
    ∃ bf bf', addAll H vs (new m k) = .ok bf ∧ addAll H ws bf = .ok bf' ∧ (∀ v ∈ vs, contains H bf v = .ok true) ∧
      ∀ v, contains H bf v = .ok true → contains H bf' v = .ok true := by
  obtain ⟨bf, e, hg, -, h⟩ := addAll_good hH vs (new_good hm hm' hk)
  obtain ⟨bf', e', -, h', -⟩ := addAll_good hH ws hg
  exact ⟨bf, bf', e, e', h, h'⟩

/-- Outside these parameters: with `m = 0` every `Add` and `Contains` panics (if `k > 0`), ... -/
theorem C31_zero_m (hH : GoodHash H) {k : Nat} (hk0 : 0 < k) (hk : k < 2 ^ 63) (v : List Byte) :
    add H (new 0 k) v = .panic ∧ contains H (new 0 k) v = .panic := by
  obtain ⟨xs, e, hl, -⟩ := gen_spec hH (salt ++ v) k
  cases xs with
  | nil => simp at hl; omega
  | cons x xs =>
    constructor
    · have : (new 0 k).k = k := rfl
      simp only [add, this, toInt_small hk, e, Res.ok_bind]; rfl
    · have : (new 0 k).k = k := rfl
      simp only [contains, this, toInt_small hk, e, Res.ok_bind]; rfl

/-- … and with `k` from 2^63 on, which `int(bf.k)` makes negative, they panic too. -/
theorem C31_huge_k (H : List Byte → List Byte) {m k : Nat} (hk : 2 ^ 63 ≤ k) (hk' : k < 2 ^ 64) (v : List Byte) :
    add H (new m k) v = .panic ∧ contains H (new m k) v = .panic := by
  have e1 : toInt k < 0 := by
    unfold toInt
    rw [if_neg (by omega)]
    omega
  have e2 : genHashInts H (salt ++ v) (toInt k) = .panic := by
    have h0 : (toInt k).toNat = 0 := by omega
    simp only [genHashInts, h0, genLoop, List.length_nil]
    rw [if_neg (by omega), Res.ok_bind, if_neg (by omega)]
  have e3 : (new m k).k = k := rfl
  constructor
  · simp only [add, e3, e2]; rfl
  · simp only [contains, e3, e2]; rfl

/-- ... and with `m` above 2^64 - 8 the bitmap is empty and an added value is not contained. -/
theorem C60_bloom_violated : (do
    let bf ← add exHash (new (2 ^ 64 - 1) 1) [1]
    contains exHash bf [1]) = .ok false := rfl

/-! ## C32: export and import -/

theorem unle8_le8 {n : Nat} (hn : n < 2 ^ 64) : unle8 (le8 n) = n := by
  simp only [le8, unle8, BitVec.toNat_ofNat]
  omega

/-- C32: the filter made from the exported bytes is the same filter: same parameters, same bits. So every later call answers the same. -/
theorem C32_roundtrip {bf : BloomFilter} (hs : bf.b.size = bf.b.data.length * 8) (hm : bf.m < 2 ^ 64) (hk : bf.k < 2 ^ 64) :
    newFromData (data bf) = .ok bf := by
  have h1 : (le8 bf.m).length = 8 := rfl
  have h2 : (le8 bf.k).length = 8 := rfl
  have t1 : (data bf).take 8 = le8 bf.m := by
    rw [data, List.append_assoc, List.take_left' h1]
  have d1 : (data bf).drop 8 = le8 bf.k ++ bf.b.data := by
    rw [data, List.append_assoc, List.drop_left' h1]
  have t2 : ((data bf).drop 8).take 8 = le8 bf.k := by rw [d1, List.take_left' h2]
  have d2 : (data bf).drop 16 = bf.b.data := by
    rw [data, List.drop_left' (by simp [h1, h2])]
  have hl : ¬ (data bf).length < 16 := by simp [data, h1, h2]; omega
  simp only [newFromData, hl, if_false, t1, t2, d2, unle8_le8 hm, unle8_le8 hk, Bitmap.newFromData, ← hs]

/-- C32 for every filter reached by `Add`s: the imported one answers every `Contains` alike and stays alike under further `Add`s. -/
theorem C32_reachable (hH : GoodHash H) {m k : Nat} (hm : 0 < m) (hm' : m ≤ 2 ^ 64 - 8) (hk : k < 2 ^ 63) (vs : List (List Byte)) :
    ∃ bf bf', addAll H vs (new m k) = .ok bf ∧ newFromData (data bf) = .ok bf' ∧ (∀ v, contains H bf' v = contains H bf v) ∧
      ∀ ws, addAll H ws bf' = addAll H ws bf := by
  obtain ⟨bf, e, hg, -, -⟩ := addAll_good hH vs (new_good hm hm' hk)
  have key : ∀ (vs : List (List Byte)) (bf0 bf : BloomFilter), Good bf0 → addAll H vs bf0 = .ok bf → bf.m = bf0.m ∧ bf.k = bf0.k := by
    intro vs
    induction vs with
    | nil => intro bf0 bf _ e; cases e; exact ⟨rfl, rfl⟩
    | cons w vs ih =>
      intro bf0 bf hg e
      obtain ⟨bf1, xs, e1, -, hg1, hm1, hk1, -⟩ := add_spec hH hg w
      simp only [addAll, e1, Res.ok_bind] at e
      have := ih bf1 bf hg1 e
      rw [this.1, this.2]; exact ⟨hm1, hk1⟩
  have hmk := key vs _ bf (new_good hm hm' hk) e
  have e2 := C32_roundtrip (bf := bf) hg.size (by rw [hmk.1]; simp only [new]; omega) (by rw [hmk.2]; simp only [new]; omega)
  exact ⟨bf, bf, e, e2, fun _ => rfl, fun _ => rfl⟩

/-! ## Non-vacuity -/

example : (do
    let bf ← addAll exHash [[1], [2, 3]] (new 100 3)
    let a ← contains exHash bf [1]
    let b ← contains exHash bf [2, 3]
    let c ← contains exHash bf [77]
    .ok (a, b, c)) = Res.ok (true, true, false) := by rfl

/-! ### The theorems with the hash function `exHash` -/

example : ∃ xs xs', genHashInts exHash [1, 2] 3 = .ok xs ∧ genHashInts exHash [1, 2] 11 = .ok xs' ∧ xs.length = 3 ∧ xs = xs'.take 3 ∧
    xs.take 8 = (chained exHash 1 [1, 2]).take 3 := C33_genHashInts_partial exHash_good [1, 2] 3 11 (by decide)
example : ∃ xs, genHashInts exHash [1, 2] 11 = .ok xs ∧ xs[2 + 8]? = xs[2]? := C33_repeats exHash_good [1, 2] 11 2 (by decide)
example : ∃ bf bf', addAll exHash [[1], [2, 3]] (new 100 3) = .ok bf ∧ addAll exHash [[4]] bf = .ok bf' ∧ contains exHash bf' [2, 3] = .ok true := by
  obtain ⟨bf, bf', e1, e2, h1, h2⟩ := C31_no_false_negatives exHash_good (m := 100) (k := 3) (by decide) (by decide) (by decide) [[1], [2, 3]] [[4]]
  exact ⟨bf, bf', e1, e2, h2 _ (h1 _ (by simp))⟩
set_option maxRecDepth 40000 in
example : ∃ bf', add exHash ⟨5, 2, ⟨[0xff], 8⟩⟩ [7] = .ok bf' ∧ contains exHash bf' [9] = .ok true :=
  C31_monotone exHash_good ⟨rfl, by decide, by decide, by decide⟩ [9] [7] rfl
example : add exHash (new 0 3) [1] = .panic ∧ contains exHash (new 0 3) [1] = .panic := C31_zero_m exHash_good (by decide) (by decide) [1]
example : add exHash (new 100 (2 ^ 63)) [1] = .panic ∧ contains exHash (new 100 (2 ^ 63)) [1] = .panic := C31_huge_k exHash (by decide) (by decide) [1]
example : newFromData (data ⟨5, 2, ⟨[0xff], 8⟩⟩) = .ok ⟨5, 2, ⟨[0xff], 8⟩⟩ := C32_roundtrip rfl (by decide) (by decide)
example : ∃ bf bf', addAll exHash [[1], [2, 3]] (new 100 3) = .ok bf ∧ newFromData (data bf) = .ok bf' ∧ contains exHash bf' [77] = contains exHash bf [77] := by
  obtain ⟨bf, bf', e1, e2, h1, -⟩ := C32_reachable exHash_good (m := 100) (k := 3) (by decide) (by decide) (by decide) [[1], [2, 3]]
  exact ⟨bf, bf', e1, e2, h1 _⟩

end GoSTL.Bloom
