import Verif.Ketama.Spec
import Verif.TreeMap.MapProps
import Verif.Bloom.Props
/-!
# Ketama: C54, C55, C56 and the sequential part of C57
-/
namespace GoSTL.Ketama
open GoSTL.RB GoSTL.TreeMap
open Bloom (GoodHash)

theorem u64Cmp_lawful : LawfulCmp u64Cmp where
  swap := fun a b => by unfold u64Cmp; repeat' split
                        all_goals omega
  trans := fun a b c => by unfold u64Cmp; repeat' split
                           all_goals omega

theorem u64Cmp_eq {a b : Nat} : u64Cmp a b = 0 ↔ a = b := by unfold u64Cmp; repeat' split
                                                             all_goals omega
theorem u64Cmp_le {a b : Nat} : u64Cmp a b ≤ 0 ↔ a ≤ b := by unfold u64Cmp; repeat' split
                                                             all_goals omega
theorem u64Cmp_lt {a b : Nat} : u64Cmp a b < 0 ↔ a < b := by unfold u64Cmp; repeat' split
                                                             all_goals omega

variable {H : Str → Str}

theorem gen_mem (hH : GoodHash H) (node : Str) (r : Nat) :
    ∃ xs, Bloom.genHashInts H (salt ++ node) r = .ok xs ∧ ∀ p, p ∈ xs ↔ p ∈ points H r node := by
  obtain ⟨xs, e, hl, hg⟩ := Bloom.gen_spec hH (salt ++ node) r
  have hpos : 0 < (Bloom.words (H (salt ++ node))).length := List.length_pos_iff.2 (Bloom.words_ne hH _)
  refine ⟨xs, e, fun p => ?_⟩
  simp only [points, List.mem_iff_getElem?, List.getElem?_take]
  constructor
  · rintro ⟨i, hi⟩
    have hlt : i < r := by
      rcases Nat.lt_or_ge i r with h | h
      · exact h
      · rw [List.getElem?_eq_none (by omega)] at hi; simp at hi
    rw [hg i hlt] at hi
    exact ⟨i % _, by rw [if_pos (Nat.lt_of_le_of_lt (Nat.mod_le _ _) hlt), hi]⟩
  · rintro ⟨i, hi⟩
    split at hi
    · next h =>
      have hlt : i < (Bloom.words (H (salt ++ node))).length := by
        rcases Nat.lt_or_ge i (Bloom.words (H (salt ++ node))).length with h | h
        · exact h
        · rw [List.getElem?_eq_none (by omega)] at hi; simp at hi
      exact ⟨i, by rw [hg i h, Nat.mod_eq_of_lt hlt, hi]⟩
    · simp at hi

/-- The tree stores the ring `f`. -/
abbrev Inv (m : Tree Nat Str) (f : Ring) : Prop := MapInv u64Cmp m f

theorem inv_congr {m : Tree Nat Str} {f g : Ring} (h : Inv m f) (hfg : ∀ p, g p = f p) : Inv m g := by
  obtain ⟨kvs, h1, h2, h3⟩ := h
  exact ⟨kvs, h1, h2, fun k => by rw [hfg, h3]⟩

theorem inv_contains {m : Tree Nat Str} {f : Ring} (h : Inv m f) (k : Nat) : contains u64Cmp m k = .ok (f k).isSome := by
  obtain ⟨kvs, h1, h2, h3⟩ := h
  rw [h1.contains u64Cmp_lawful, h3]
  congr 1
  rw [Bool.eq_iff_iff]; simp [lk]

theorem addPoints_spec (node : Str) : ∀ (xs : List Nat) (m : Tree Nat Str) (f : Ring), Inv m f →
    ∃ m', addPoints node xs m = .ok m' ∧ Inv m' fun p => if p ∈ xs ∧ f p = none then some node else f p := by
  intro xs
  induction xs with
  | nil => intro m f h; exact ⟨m, rfl, inv_congr h fun p => by simp⟩
  | cons x xs ih =>
    intro m f h
    simp only [addPoints, inv_contains h, Res.ok_bind]
    cases hx : f x with
    | some n =>
      obtain ⟨m', e, h'⟩ := ih m f h
      refine ⟨m', by simpa [addPoint] using e, inv_congr h' fun p => ?_⟩
      by_cases hp : p = x
      · subst hp; simp [hx]
      · simp [hp]
    | none =>
      obtain ⟨m1, e1, h1⟩ := MapInv.insert u64Cmp_lawful h x node
      obtain ⟨m', e, h'⟩ := ih m1 _ h1
      refine ⟨m', by simp [addPoint, e1, e], inv_congr h' fun p => ?_⟩
      simp only [upd, u64Cmp_eq]
      by_cases hp : p = x
      · subst hp; simp [hx]
      · simp [hp]

theorem inv_find {m : Tree Nat Str} {f : Ring} (h : Inv m f) (x : Nat) :
    (find u64Cmp m x = .ok none ∧ f x = none) ∨
    ∃ i n m', find u64Cmp m x = .ok (some i) ∧ f x = some n ∧ iterValue m (some i) = .ok n ∧
      eraseIter m (.map (some i)) = .ok m' ∧ Inv m' (upd u64Cmp f x none) := by
  obtain ⟨kvs, ⟨xs, h1, rfl⟩, h2, h3⟩ := h
  rcases h1.findNode u64Cmp_lawful x with ⟨h4, h5⟩ | ⟨A, i, k', v', B, rfl, h4, h5, -⟩
  · refine .inl ⟨h4, ?_⟩
    rw [h3]
    cases hl : lk u64Cmp (List.map (·.2) xs) x with
    | none => rfl
    | some v =>
      rw [lk_mem u64Cmp_lawful h2] at hl
      obtain ⟨k', hm, hk⟩ := hl
      rw [List.mem_map] at hm
      obtain ⟨e, he, heq⟩ := hm
      exact absurd (by rw [heq]; exact hk) (h5 e he)
  · obtain ⟨m', e, h6⟩ := mapInv_del u64Cmp_lawful h1 h2 h3 x h5
    refine .inr ⟨i, v', m', h4, ?_, (iterKey_at h1).2, e, h6⟩
    rw [h3, lk_mem u64Cmp_lawful h2]
    exact ⟨k', by simp, h5⟩

theorem removePoints_spec (node : Str) : ∀ (xs : List Nat) (m : Tree Nat Str) (f : Ring), Inv m f →
    ∃ m', removePoints node xs m = .ok m' ∧ Inv m' fun p => if p ∈ xs ∧ f p = some node then none else f p := by
  intro xs
  induction xs with
  | nil => intro m f h; exact ⟨m, rfl, inv_congr h fun p => by simp⟩
  | cons x xs ih =>
    intro m f h
    simp only [removePoints]
    rcases inv_find h x with ⟨e1, hx⟩ | ⟨i, n, m1, e1, hx, e2, e3, h1⟩
    · obtain ⟨m', e, h'⟩ := ih m f h
      refine ⟨m', by simp [e1, removePoint, e], inv_congr h' fun p => ?_⟩
      by_cases hp : p = x
      · subst hp; simp [hx]
      · simp [hp]
    · by_cases hn : n = node
      · obtain ⟨m', e, h'⟩ := ih m1 _ h1
        refine ⟨m', by simp [e1, removePoint, e2, hn, e3, e], inv_congr h' fun p => ?_⟩
        simp only [upd, u64Cmp_eq]
        by_cases hp : p = x
        · subst hp; simp [hx, hn]
        · simp [hp]
      · obtain ⟨m', e, h'⟩ := ih m f h
        refine ⟨m', by simp [e1, removePoint, e2, hn, e], inv_congr h' fun p => ?_⟩
        by_cases hp : p = x
        · subst hp; simp [hx, hn]
        · simp [hp]

theorem addNodes_spec (hH : GoodHash H) (r : Nat) : ∀ (nodes : List Str) (m : Tree Nat Str) (f : Ring), Inv m f →
    ∃ m', addNodes H r nodes m = .ok m' ∧ Inv m' (nodes.foldl (claim H r) f) := by
  intro nodes
  induction nodes with
  | nil => intro m f h; exact ⟨m, rfl, h⟩
  | cons n nodes ih =>
    intro m f h
    obtain ⟨xs, e, hx⟩ := gen_mem hH n r
    obtain ⟨m1, e1, h1⟩ := addPoints_spec n xs m f h
    obtain ⟨m', e2, h2⟩ := ih m1 (claim H r f n) (inv_congr h1 fun p => by simp [claim, hx])
    exact ⟨m', by simp [addNodes, e, e1, e2], h2⟩

theorem removeNodes_spec (hH : GoodHash H) (r : Nat) : ∀ (nodes : List Str) (m : Tree Nat Str) (f : Ring), Inv m f →
    ∃ m', removeNodes H r nodes m = .ok m' ∧ Inv m' (nodes.foldl (release H r) f) := by
  intro nodes
  induction nodes with
  | nil => intro m f h; exact ⟨m, rfl, h⟩
  | cons n nodes ih =>
    intro m f h
    obtain ⟨xs, e, hx⟩ := gen_mem hH n r
    obtain ⟨m1, e1, h1⟩ := removePoints_spec n xs m f h
    obtain ⟨m', e2, h2⟩ := ih m1 (release H r f n) (inv_congr h1 fun p => by simp [release, hx])
    exact ⟨m', by simp [removeNodes, e, e1, e2], h2⟩

/-- The state stores the ring `f`. -/
def KInv (r : Nat) (k : Ketama) (f : Ring) : Prop := k.replicas = r ∧ Inv k.m f

theorem KInv.add (hH : GoodHash H) {r : Nat} {k : Ketama} {f : Ring} (h : KInv r k f) (nodes : List Str) :
    ∃ k', add H k nodes = .ok k' ∧ KInv r k' (nodes.foldl (claim H r) f) := by
  obtain ⟨m', e, h'⟩ := addNodes_spec hH r nodes k.m f h.2
  exact ⟨{ k with m := m' }, by simp [Ketama.add, h.1, e], h.1, h'⟩

theorem KInv.remove (hH : GoodHash H) {r : Nat} {k : Ketama} {f : Ring} (h : KInv r k f) (nodes : List Str) :
    ∃ k', remove H k nodes = .ok k' ∧ KInv r k' (nodes.foldl (release H r) f) := by
  obtain ⟨m', e, h'⟩ := removeNodes_spec hH r nodes k.m f h.2
  exact ⟨{ k with m := m' }, by simp [Ketama.remove, h.1, e], h.1, h'⟩

theorem hist_inv (hH : GoodHash H) {r : Nat} {k : Ketama} {f : Ring} (h : Hist H r k f) : KInv r k f := by
  induction h with
  | new => exact ⟨rfl, MapInv.new⟩
  | @add k k' f nodes _ e ih =>
    obtain ⟨k'', e', h'⟩ := ih.add hH nodes
    rw [e] at e'; cases e'; exact h'
  | @remove k k' f nodes _ e ih =>
    obtain ⟨k'', e', h'⟩ := ih.remove hH nodes
    rw [e] at e'; cases e'; exact h'

theorem hashOf_gen (hH : GoodHash H) (key : Str) : ∃ xs, Bloom.genHashInts H (salt ++ key) 1 = .ok xs ∧ xs[0]? = some (hashOf H key) := by
  obtain ⟨xs, e, hl, hg⟩ := Bloom.gen_spec hH (salt ++ key) 1
  refine ⟨xs, e, ?_⟩
  rw [hg 0 (by omega)]
  have h8 := hH (salt ++ key)
  have : ∃ n, (H (salt ++ key)).length / 8 = n + 1 := ⟨(H (salt ++ key)).length / 8 - 1, by omega⟩
  obtain ⟨n, hn⟩ := this
  simp [Bloom.words, hn, Bloom.wordsN, hashOf]

theorem empty_iff {r : Nat} {k : Ketama} {f : Ring} (h : KInv r k f) : empty k = true ↔ ∀ p, f p = none := by
  obtain ⟨-, kvs, h1, h2, h3⟩ := h
  simp only [empty, h1.size, decide_eq_true_eq]
  constructor
  · intro hz p
    have : kvs = [] := List.length_eq_zero_iff.1 (by omega)
    rw [h3, this]; rfl
  · intro hp
    cases kvs with
    | nil => rfl
    | cons e kvs =>
      have := hp e.1
      rw [h3] at this
      simp [lk, keq, u64Cmp_eq] at this

theorem getBody_spec (hH : GoodHash H) {r : Nat} {k : Ketama} {f : Ring} (h : KInv r k f) (hne : empty k = false) (key : Str) :
    ∃ n, getBody H k key = .ok n ∧ Owner f (hashOf H key) (some n) := by
  have hemp := empty_iff h
  obtain ⟨-, kvs, ⟨xs, h1, rfl⟩, h2, h3⟩ := h
  obtain ⟨ys, e1, e2⟩ := hashOf_gen hH key
  simp only [getBody, e1, Res.ok_bind, e2, Res.ofOption_some, lowerBound, h1.1.lower u64Cmp_lawful h1.2]
  have hmem : ∀ p, f p ≠ none ↔ ∃ i v, (i, p, v) ∈ xs := by
    intro p
    constructor
    · intro hp
      cases hv : f p with
      | none => exact absurd hv hp
      | some v =>
        rw [h3, lk_mem u64Cmp_lawful h2] at hv
        obtain ⟨k', hm, hk⟩ := hv
        rw [u64Cmp_eq] at hk; subst hk
        rw [List.mem_map] at hm
        obtain ⟨⟨i, p', v'⟩, hm, heq⟩ := hm
        cases heq
        exact ⟨i, v, hm⟩
    · rintro ⟨i, v, hm⟩ hn
      have : f p = some v := by
        rw [h3, lk_mem u64Cmp_lawful h2]
        exact ⟨p, List.mem_map.2 ⟨_, hm, rfl⟩, u64Cmp_eq.2 rfl⟩
      rw [hn] at this; cases this
  have hval : ∀ i p v, (i, p, v) ∈ xs → f p = some v := by
    intro i p v hm
    rw [h3, lk_mem u64Cmp_lawful h2]
    exact ⟨p, List.mem_map.2 ⟨_, hm, rfl⟩, u64Cmp_eq.2 rfl⟩
  have hsort := h1.2
  cases hf : xs.find? fun e => decide (u64Cmp (hashOf H key) e.2.1 ≤ 0) with
  | some e =>
    rw [List.find?_eq_some_iff_append] at hf
    obtain ⟨g1, A, B, rfl, g2⟩ := hf
    obtain ⟨i, p, v⟩ := e
    refine ⟨v, by simp [ownerOf, iterIsValid, (iterKey_at h1).2], p, hval i p v (by simp), .inl ⟨by simpa [u64Cmp_le] using g1, ?_⟩⟩
    intro q hq hle
    obtain ⟨j, w, hm⟩ := (hmem q).1 hq
    rw [List.mem_append, List.mem_cons] at hm
    simp only [SortedE, List.pairwise_append, List.pairwise_cons] at hsort
    rcases hm with hm | hm | hm
    · have := g2 _ hm
      simp only [u64Cmp_le, Bool.not_eq_true', decide_eq_false_iff_not] at this
      exact absurd hle this
    · cases hm; exact Nat.le_refl _
    · exact u64Cmp_le.1 (hsort.2.1.1 _ hm)
  | none =>
    rw [List.find?_eq_none] at hf
    cases xs with
    | nil =>
      have : empty k = true := hemp.2 fun p => by
        by_contra hc
        obtain ⟨i, v, hm⟩ := (hmem p).1 hc
        simp at hm
      rw [hne] at this; cases this
    | cons e es =>
      obtain ⟨i, p, v⟩ := e
      have g := iterKey_at (A := []) h1
      refine ⟨v, by simp [ownerOf, iterIsValid, first, h1.1.first, g.2], p, hval i p v (by simp), .inr ⟨?_, ?_⟩⟩
      · intro q hq
        obtain ⟨j, w, hm⟩ := (hmem q).1 hq
        have := hf _ hm
        simp only [u64Cmp_le, decide_eq_true_eq] at this
        omega
      · intro q hq
        obtain ⟨j, w, hm⟩ := (hmem q).1 hq
        simp only [SortedE, List.pairwise_cons] at hsort
        rcases List.mem_cons.1 hm with hm | hm
        · cases hm; exact Nat.le_refl _
        · exact u64Cmp_le.1 (hsort.1 _ hm)

theorem get_spec (hH : GoodHash H) {r : Nat} {k : Ketama} {f : Ring} (h : KInv r k f) (key : Str) :
    ∃ o, get H k key = .ok o ∧ Owner f (hashOf H key) o := by
  cases he : empty k with
  | true => exact ⟨none, by simp [get, he], (empty_iff h).1 he⟩
  | false =>
    obtain ⟨n, e, ho⟩ := getBody_spec hH h he key
    exact ⟨some n, by simp [get, he, e], ho⟩

theorem owner_unique {f : Ring} {h : Nat} {o o' : Option Str} (h1 : Owner f h o) (h2 : Owner f h o') : o = o' := by
  cases o with
  | none =>
    cases o' with
    | none => rfl
    | some n => obtain ⟨p, hp, -⟩ := h2; rw [h1 p] at hp; cases hp
  | some n =>
    cases o' with
    | none => obtain ⟨p, hp, -⟩ := h1; rw [h2 p] at hp; cases hp
    | some n' =>
      obtain ⟨p, hp, h1⟩ := h1
      obtain ⟨p', hp', h2⟩ := h2
      have a : f p ≠ none := by rw [hp]; simp
      have a' : f p' ≠ none := by rw [hp']; simp
      have : p = p' := by
        rcases h1 with ⟨b1, b2⟩ | ⟨b1, b2⟩ <;> rcases h2 with ⟨c1, c2⟩ | ⟨c1, c2⟩
        · exact Nat.le_antisymm (b2 _ a' c1) (c2 _ a b1)
        · have := c1 _ a; omega
        · have := b1 _ a'; omega
        · exact Nat.le_antisymm (b2 _ a') (c2 _ a)
      subst this
      rw [hp] at hp'; exact hp'

/-- C54: after any history of `Add` and `Remove` calls, with any hash function, `Get(key)` returns the node owning the first point of the
ring at or after the point of the key, or the first point of all if there is none; it returns `false` exactly when the ring is empty. -/
theorem C54_get_is_clockwise_owner (hH : GoodHash H) {r : Nat} {k : Ketama} {f : Ring} (h : Hist H r k f) (key : Str) (o : Option Str) :
    (get H k key = .ok o ↔ Owner f (hashOf H key) o) ∧ (get H k key = .ok none ↔ empty k = true) ∧ (empty k = true ↔ ∀ p, f p = none) := by
  have hi := hist_inv hH h
  obtain ⟨o', e, ho⟩ := get_spec hH hi key
  have key1 : ∀ o, get H k key = .ok o ↔ Owner f (hashOf H key) o := by
    intro o
    constructor
    · intro h2; rw [e] at h2; cases h2; exact ho
    · intro h2; rw [e, owner_unique ho h2]
  exact ⟨key1 o, by rw [key1 none, empty_iff hi]; rfl, empty_iff hi⟩

/-- C54: no call panics or loops, whatever happened before. -/
theorem C54_no_panic (hH : GoodHash H) {r : Nat} {k : Ketama} {f : Ring} (h : Hist H r k f) :
    (∀ nodes, ∃ k', add H k nodes = .ok k') ∧ (∀ nodes, ∃ k', remove H k nodes = .ok k') ∧ ∀ key, ∃ o, get H k key = .ok o := by
  have hi := hist_inv hH h
  refine ⟨fun nodes => ?_, fun nodes => ?_, fun key => ?_⟩
  · obtain ⟨k', e, -⟩ := hi.add hH nodes; exact ⟨k', e⟩
  · obtain ⟨k', e, -⟩ := hi.remove hH nodes; exact ⟨k', e⟩
  · obtain ⟨o, e, -⟩ := get_spec hH hi key; exact ⟨o, e⟩

/-! ## C55 -/

/-- If `g` has more points than `f`, all of them owned by `S`, owners change only to `S`. -/
theorem owner_mono {f g : Ring} {S : Str → Prop} (h1 : ∀ p n, f p = some n → g p = some n)
    (h2 : ∀ p n, g p = some n → f p = some n ∨ S n) {h : Nat} {o o' : Option Str} (ho : Owner f h o) (ho' : Owner g h o') :
    o' = o ∨ ∃ n, o' = some n ∧ S n := by
  have h1' : ∀ p, f p ≠ none → g p ≠ none := by
    intro p hp
    cases hf : f p with
    | none => exact absurd hf hp
    | some n => rw [h1 p n hf]; simp
  cases o' with
  | none =>
    left
    exact (owner_unique ho (show Owner f h none from fun p => by
      by_contra hc; exact h1' p hc (ho' p))).symm
  | some n =>
    obtain ⟨p, hp, hq⟩ := ho'
    rcases h2 p n hp with hf | hs
    · left
      refine (owner_unique ho (show Owner f h (some n) from ⟨p, hf, ?_⟩)).symm
      rcases hq with ⟨b1, b2⟩ | ⟨b1, b2⟩
      · exact .inl ⟨b1, fun q hq => b2 q (h1' q hq)⟩
      · exact .inr ⟨fun q hq => b1 q (h1' q hq), fun q hq => b2 q (h1' q hq)⟩
    · exact .inr ⟨n, rfl, hs⟩

theorem claim_mono (r : Nat) : ∀ (nodes : List Str) (f : Ring),
    (∀ p n, f p = some n → nodes.foldl (claim H r) f p = some n) ∧
    (∀ p n, nodes.foldl (claim H r) f p = some n → f p = some n ∨ n ∈ nodes) := by
  intro nodes
  induction nodes with
  | nil => intro f; exact ⟨fun p n h => h, fun p n h => .inl h⟩
  | cons a nodes ih =>
    intro f
    obtain ⟨i1, i2⟩ := ih (claim H r f a)
    refine ⟨fun p n h => i1 p n (by simp [claim, h]), fun p n h => ?_⟩
    rcases i2 p n h with h | h
    · simp only [claim] at h
      split at h
      · cases h; exact .inr (List.mem_cons_self ..)
      · exact .inl h
    · exact .inr (List.mem_cons_of_mem _ h)

theorem release_mono (r : Nat) : ∀ (nodes : List Str) (f : Ring),
    (∀ p n, nodes.foldl (release H r) f p = some n → f p = some n) ∧
    (∀ p n, f p = some n → nodes.foldl (release H r) f p = some n ∨ n ∈ nodes) := by
  intro nodes
  induction nodes with
  | nil => intro f; exact ⟨fun p n h => h, fun p n h => .inl h⟩
  | cons a nodes ih =>
    intro f
    obtain ⟨i1, i2⟩ := ih (release H r f a)
    refine ⟨fun p n h => ?_, fun p n h => ?_⟩
    · have := i1 p n h
      simp only [release] at this
      split at this
      · cases this
      · exact this
    · by_cases hc : p ∈ points H r a ∧ f p = some a
      · rw [h] at hc
        have := hc.2
        simp only [Option.some.injEq] at this
        exact .inr (by rw [this]; exact List.mem_cons_self ..)
      · rcases i2 p n (by simp only [release]; rw [if_neg hc]; exact h) with h | h
        · exact .inl h
        · exact .inr (List.mem_cons_of_mem _ h)

/-- C55: adding nodes moves a key, if at all, to one of the added nodes. -/
theorem C55_add_minimal (hH : GoodHash H) {r : Nat} {k k' : Ketama} {f : Ring} (h : Hist H r k f) {nodes : List Str}
    (ha : add H k nodes = .ok k') {key : Str} {o o' : Option Str} (hg : get H k key = .ok o) (hg' : get H k' key = .ok o') :
    o' = o ∨ ∃ n ∈ nodes, o' = some n := by
  have h1 := ((C54_get_is_clockwise_owner hH h key o).1).1 hg
  have h2 := ((C54_get_is_clockwise_owner hH (h.add ha) key o').1).1 hg'
  obtain ⟨m1, m2⟩ := claim_mono (H := H) r nodes f
  rcases owner_mono m1 m2 h1 h2 with h | ⟨n, h, hs⟩
  · exact .inl h
  · exact .inr ⟨n, hs, h⟩

/-- C55: removing nodes moves only keys that were on one of the removed nodes. -/
theorem C55_remove_minimal (hH : GoodHash H) {r : Nat} {k k' : Ketama} {f : Ring} (h : Hist H r k f) {nodes : List Str}
    (ha : remove H k nodes = .ok k') {key : Str} {o o' : Option Str} (hg : get H k key = .ok o) (hg' : get H k' key = .ok o') :
    o' = o ∨ ∃ n ∈ nodes, o = some n := by
  have h1 := ((C54_get_is_clockwise_owner hH h key o).1).1 hg
  have h2 := ((C54_get_is_clockwise_owner hH (h.remove ha) key o').1).1 hg'
  obtain ⟨m1, m2⟩ := release_mono (H := H) r nodes f
  rcases owner_mono m1 m2 h2 h1 with h | ⟨n, h, hs⟩
  · exact .inl h.symm
  · exact .inr ⟨n, hs, h⟩

/-- A removed node owns nothing any more. -/
theorem release_gone (r : Nat) {k : Ketama} {f : Ring} (h : Hist H r k f) (nodes : List Str) (n : Str) (hn : n ∈ nodes) :
    ∀ p, nodes.foldl (release H r) f p ≠ some n := by
  have own : ∀ {k f}, Hist H r k f → ∀ p n, f p = some n → p ∈ points H r n := by
    intro k f h
    induction h with
    | new => intro p n h; cases h
    | @add k k' f nodes _ _ ih =>
      have : ∀ (nodes : List Str) (f : Ring), (∀ p n, f p = some n → p ∈ points H r n) → ∀ p n, nodes.foldl (claim H r) f p = some n → p ∈ points H r n := by
        intro nodes
        induction nodes with
        | nil => intro f hf; exact hf
        | cons a nodes ih =>
          intro f hf
          refine ih _ fun p n h => ?_
          simp only [claim] at h
          split at h
          · next hc => cases h; exact hc.1
          · exact hf p n h
      exact this nodes f ih
    | @remove k k' f nodes _ _ ih => exact fun p n h => ih p n ((release_mono r nodes f).1 p n h)
  intro p hp
  have h0 := (release_mono r nodes f).1 p n hp
  have hpt := own h p n h0
  have : ∀ (nodes : List Str) (f : Ring), n ∈ nodes → nodes.foldl (release H r) f p ≠ some n := by
    intro nodes
    induction nodes with
    | nil => intro f hn; cases hn
    | cons a nodes ih =>
      intro f hn hp
      rcases List.mem_cons.1 hn with rfl | hn
      · have := (release_mono r nodes _).1 p n hp
        simp only [release] at this
        split at this
        · cases this
        · next hc => exact hc ⟨hpt, this⟩
      · exact ih _ hn hp
  exact this nodes f hn hp

/-- C55: after `Remove(nodes)` no key is on a removed node. -/
theorem C55_removed_gets_nothing (hH : GoodHash H) {r : Nat} {k k' : Ketama} {f : Ring} (h : Hist H r k f) {nodes : List Str}
    (ha : remove H k nodes = .ok k') {key : Str} {n : Str} (hn : n ∈ nodes) : get H k' key ≠ .ok (some n) := by
  intro hg
  obtain ⟨p, hp, -⟩ := ((C54_get_is_clockwise_owner hH (h.remove ha) key _).1).1 hg
  exact release_gone r h nodes n hn p hp

/-! ### The theorems on a ring with two nodes and two replicas -/

theorem demo_ring : ∃ k, Hist Bloom.exHash 2 k ([[1], [2]].foldl (claim Bloom.exHash 2) fun _ => none) ∧ empty k = false ∧
    get Bloom.exHash k [1] = .ok (some [1]) ∧ get Bloom.exHash k [2] = .ok (some [2]) := by
  have h0 : ∃ k, add Bloom.exHash (new 2) [[1], [2]] = .ok k ∧ empty k = false ∧ get Bloom.exHash k [1] = .ok (some [1]) ∧ get Bloom.exHash k [2] = .ok (some [2]) :=
    ⟨_, rfl, rfl, rfl, rfl⟩
  obtain ⟨k, e, h1, h2, h3⟩ := h0
  exact ⟨k, Hist.new.add e, h1, h2, h3⟩

/-- `C54_get_is_clockwise_owner`, `C54_no_panic`. -/
example : ∃ (k : Ketama) (f : Ring), Hist Bloom.exHash 2 k f ∧ Owner f (hashOf Bloom.exHash [2]) (some [2]) ∧ ∃ o, get Bloom.exHash k [7, 7] = .ok o ∧ o ≠ none := by
  obtain ⟨k, h, h0, -, h2⟩ := demo_ring
  obtain ⟨o, ho⟩ := (C54_no_panic Bloom.exHash_good h).2.2 [7, 7]
  refine ⟨k, _, h, (C54_get_is_clockwise_owner Bloom.exHash_good h [2] _).1.1 h2, o, ho, ?_⟩
  rintro rfl
  rw [(C54_get_is_clockwise_owner Bloom.exHash_good h [7, 7] none).2.1.1 ho] at h0
  cases h0

/-- `C55_add_minimal`: adding node `[3]` moves a key to `[3]` or not at all; `C55_remove_minimal`, `C55_removed_gets_nothing`: removing `[1]` moves only keys of `[1]`. -/
example : ∃ k k1 k2 : Ketama, get Bloom.exHash k [2] = .ok (some [2]) ∧ add Bloom.exHash k [[3]] = .ok k1 ∧ remove Bloom.exHash k [[1]] = .ok k2 ∧
    (∀ o, get Bloom.exHash k1 [2] = .ok o → o = some [2] ∨ o = some [3]) ∧ get Bloom.exHash k2 [2] = .ok (some [2]) ∧ get Bloom.exHash k2 [1] ≠ .ok (some [1]) := by
  obtain ⟨k, h, -, -, h2⟩ := demo_ring
  obtain ⟨k1, e1⟩ := (C54_no_panic Bloom.exHash_good h).1 [[3]]
  obtain ⟨k2, e2⟩ := (C54_no_panic Bloom.exHash_good h).2.1 [[1]]
  obtain ⟨o, eo⟩ := (C54_no_panic Bloom.exHash_good (h.remove e2)).2.2 [2]
  refine ⟨k, k1, k2, h2, e1, e2, fun o' eo' => ?_, ?_, C55_removed_gets_nothing Bloom.exHash_good h e2 (by simp)⟩
  · simpa using C55_add_minimal Bloom.exHash_good h e1 h2 eo'
  · rcases C55_remove_minimal Bloom.exHash_good h e2 h2 eo with rfl | ⟨n, hn, e⟩
    · exact eo
    · simp at hn e; subst hn; simp at e

end GoSTL.Ketama
