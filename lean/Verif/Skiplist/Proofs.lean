import Verif.Skiplist.Model
import Verif.Basic.Cmp
import Mathlib.Tactic.Common
import Mathlib.Data.List.Perm.Basic
import Mathlib.Data.List.Perm.Subperm
/-!
# The skip list invariant
-/
namespace GoSTL.Skiplist
variable {K V : Type} {cmp : K → K → Int}

/-! ## Random levels -/

theorem two_pow_lt {m : Nat} (h : m < 64) : 2 ^ m < 2 ^ 64 := Nat.pow_lt_pow_right (by omega) h

theorem levelLoop_spec (k : BitVec 64) : ∀ (m f : Nat) (levelN total : BitVec 64) (level : Nat), m < 64 → m < f → levelN.toNat = 2 ^ m → total.toNat = 2 ^ m - 1 →
    ∃ r, levelLoop f k levelN total level = .ok r ∧ level ≤ r ∧ r ≤ level + m := by
  intro m
  induction m with
  | zero =>
    intro f levelN total level _ hf _ ht
    obtain ⟨f, rfl⟩ : ∃ f', f = f' + 1 := ⟨f - 1, by omega⟩
    refine ⟨level, ?_, by omega, by omega⟩
    rw [levelLoop, if_neg]
    intro c
    have c : k.toNat < total.toNat := c
    rw [ht] at c; simp at c
  | succ m ih =>
    intro f levelN total level hm hf hn ht
    obtain ⟨f, rfl⟩ : ∃ f', f = f' + 1 := ⟨f - 1, by omega⟩
    rw [levelLoop]
    split
    · have h1 : (levelN >>> 1).toNat = 2 ^ m := by
        rw [BitVec.toNat_ushiftRight, hn, Nat.shiftRight_eq_div_pow, Nat.pow_succ]; omega
      have h2 : (total - levelN >>> 1).toNat = 2 ^ m - 1 := by
        rw [BitVec.toNat_sub, h1, ht]
        have := two_pow_lt (m := m) (by omega)
        have := two_pow_lt hm
        have := Nat.two_pow_pos m
        rw [Nat.pow_succ] at *; omega
      obtain ⟨r, e, a, b⟩ := ih f _ _ (level + 1) (by omega) (by omega) h1 h2
      exact ⟨r, e, by omega, by omega⟩
    · exact ⟨level, rfl, by omega, by omega⟩

theorem shl_toNat {m : Nat} (h : m < 64) : ((1 : BitVec 64) <<< m).toNat = 2 ^ m := by
  have h1 : (1 : BitVec 64).toNat = 1 := rfl
  rw [BitVec.toNat_shiftLeft, Nat.shiftLeft_eq, h1, Nat.one_mul, Nat.mod_eq_of_lt (two_pow_lt h)]

theorem randomLevel_spec {n : Nat} (h1 : 1 ≤ n) (h2 : n ≤ 64) (draw : BitVec 64) : ∃ r, randomLevel 65 n draw = .ok r ∧ 1 ≤ r ∧ r ≤ n := by
  have hN := shl_toNat (m := n - 1) (by omega)
  have hp := two_pow_lt (m := n - 1) (by omega)
  have hpos := Nat.two_pow_pos (n - 1)
  have h1n : (1 : BitVec 64).toNat = 1 := rfl
  have hd : 2 ^ n = 2 * 2 ^ (n - 1) := by rw [← Nat.pow_succ']; congr 1; omega
  have ht : ((1 : BitVec 64) <<< n - 1).toNat = 2 ^ n - 1 := by
    by_cases c : n = 64
    · subst c; rfl
    · have := two_pow_lt (m := n) (by omega)
      rw [BitVec.toNat_sub, shl_toNat (by omega), h1n]; omega
  have hne : ¬ (1 : BitVec 64) <<< n - 1 = 0 := by
    intro c
    rw [c] at ht
    simp at ht; omega
  obtain ⟨r, e, a, b⟩ := levelLoop_spec (draw % ((1 : BitVec 64) <<< n - 1)) (n - 1) 65 ((1 : BitVec 64) <<< (n - 1)) ((1 : BitVec 64) <<< n - 1 - (1 : BitVec 64) <<< (n - 1)) 1 (by omega) (by omega) hN (by
    rw [BitVec.toNat_sub, ht, hN]
    have := Nat.two_pow_pos 64
    omega)
  refine ⟨r, ?_, a, by omega⟩
  simp only [randomLevel]
  rw [if_neg hne, if_neg (by omega)]
  exact e

theorem levelLoop_forever (k total : BitVec 64) (h : total > k) : ∀ f level, levelLoop f k 0 total level = .outOfFuel := by
  intro f
  induction f with
  | zero => intro level; rfl
  | succ f ih =>
    intro level
    rw [levelLoop, if_pos h]
    have : (0 : BitVec 64) >>> 1 = 0 := rfl
    have h2 : total - 0 = total := BitVec.sub_zero total
    rw [this, h2]
    exact ih _

/-! ## Reads and writes -/

/-- Keys, values and heights of the stored elements. -/
def shape (w : SL K V) : List (K × V × Nat) := w.elems.map (fun e => (e.key, e.value, e.next.length))

theorem nextAt_setNext {w : SL K V} {r : Ref} {i : Nat} {o : Option Nat} (h : nextAt w r i = .ok o) (v : Option Nat) :
    ∃ w', setNext w r i v = .ok w' ∧ shape w' = shape w ∧ w'.head.length = w.head.length ∧ w'.maxLevel = w.maxLevel ∧ w'.len = w.len ∧
      nextAt w' r i = .ok v ∧ ∀ r' i', ¬ (r' = r ∧ i' = i) → nextAt w' r' i' = nextAt w r' i' := by
  cases r with
  | head =>
    have hi : i < w.head.length := by
      by_contra c
      simp only [nextAt] at h
      rw [List.getElem?_eq_none (by omega)] at h; cases h
    refine ⟨{ w with head := w.head.set i v }, by simp only [setNext]; rw [if_pos hi], rfl, by simp, rfl, rfl, by simp [nextAt, hi], ?_⟩
    intro r' i' hne
    cases r' with
    | head =>
      have : i ≠ i' := fun e => hne ⟨rfl, e.symm⟩
      simp only [nextAt, List.getElem?_set_ne this]
    | elem a => rfl
  | elem a =>
    simp only [nextAt] at h
    cases he : w.elems[a]? with
    | none => rw [he] at h; cases h
    | some e =>
      rw [he] at h
      simp only [Res.ofOption_some, Res.ok_bind] at h
      have hi : i < e.next.length := by
        by_contra c
        rw [List.getElem?_eq_none (by omega)] at h; cases h
      have ha := (List.getElem?_eq_some_iff.1 he).1
      refine ⟨{ w with elems := w.elems.set a { e with next := e.next.set i v } }, by simp only [setNext, he, Res.ofOption_some, Res.ok_bind]; rw [if_pos hi], ?_, rfl, rfl, rfl, by simp [nextAt, ha, hi], ?_⟩
      · simp only [shape]
        apply List.ext_getElem?
        intro j
        simp only [List.getElem?_map, List.getElem?_set]
        split
        · subst a; rw [he]; simp [ha]
        · rfl
      · intro r' i' hne
        cases r' with
        | head => rfl
        | elem b =>
          by_cases c : a = b
          · subst c
            have : i ≠ i' := fun e => hne ⟨rfl, e.symm⟩
            simp only [nextAt, List.getElem?_set_self ha, he, Res.ofOption_some, Res.ok_bind, List.getElem?_set_ne this]
          · simp only [nextAt, List.getElem?_set_ne c]

/-! ## Segments -/

/-- A list of elements in the abstract skip list. -/
structure Cell (K V : Type) where
  id : Nat
  key : K
  val : V
  h : Nat

/-- The last element of the list, or `r`. -/
def lastRef (r : Ref) : List (Cell K V) → Ref
  | [] => r
  | c :: L => lastRef (.elem c.id) L

/-- The first element of the list, or `q`. -/
def firstOr (q : Option Nat) : List (Cell K V) → Option Nat
  | [] => q
  | c :: _ => some c.id

theorem lastRef_append (r : Ref) (A B : List (Cell K V)) : lastRef r (A ++ B) = lastRef (lastRef r A) B := by
  induction A generalizing r with
  | nil => rfl
  | cons c A ih => exact ih _

theorem lastRef_mem (r : Ref) (A : List (Cell K V)) : (A = [] ∧ lastRef r A = r) ∨ ∃ c ∈ A, lastRef r A = .elem c.id := by
  induction A generalizing r with
  | nil => exact .inl ⟨rfl, rfl⟩
  | cons c A ih =>
    rcases ih (.elem c.id) with ⟨_, h2⟩ | ⟨d, hd, h⟩
    · exact .inr ⟨c, by simp, h2⟩
    · exact .inr ⟨d, by simp [hd], h⟩

/-- Following level `i` from `r` one meets the elements of `L` and then `q`. -/
def Sg (w : SL K V) (i : Nat) : Ref → List (Cell K V) → Option Nat → Prop
  | r, [], q => nextAt w r i = .ok q
  | r, c :: L, q => nextAt w r i = .ok (some c.id) ∧ Sg w i (.elem c.id) L q

theorem Sg.first {w : SL K V} {i : Nat} {r : Ref} {L : List (Cell K V)} {q : Option Nat} (h : Sg w i r L q) : nextAt w r i = .ok (firstOr q L) := by
  cases L with
  | nil => exact h
  | cons c L => exact h.1

theorem Sg.append {w : SL K V} {i : Nat} {A B : List (Cell K V)} {q : Option Nat} : ∀ {r : Ref}, Sg w i r (A ++ B) q ↔ Sg w i r A (firstOr q B) ∧ Sg w i (lastRef r A) B q := by
  induction A with
  | nil =>
    intro r
    constructor
    · intro h; exact ⟨h.first, h⟩
    · exact And.right
  | cons c A ih =>
    intro r
    show (nextAt w r i = .ok (some c.id) ∧ Sg w i (.elem c.id) (A ++ B) q) ↔
      (nextAt w r i = .ok (some c.id) ∧ Sg w i (.elem c.id) A (firstOr q B)) ∧ Sg w i (lastRef (.elem c.id) A) B q
    rw [ih, and_assoc]

theorem Sg.frame {w w' : SL K V} {i : Nat} {L : List (Cell K V)} {q : Option Nat} : ∀ {r : Ref}, Sg w i r L q →
    (nextAt w' r i = nextAt w r i) → (∀ c ∈ L, nextAt w' (.elem c.id) i = nextAt w (.elem c.id) i) → Sg w' i r L q := by
  induction L with
  | nil => intro r h h1 _; rw [Sg, h1]; exact h
  | cons c L ih =>
    intro r h h1 h2
    exact ⟨by rw [h1]; exact h.1, ih h.2 (h2 c (by simp)) (fun d hd => h2 d (by simp [hd]))⟩

/-- Changing the pointer after the last element. -/
theorem Sg.retarget {w w' : SL K V} {i : Nat} {L : List (Cell K V)} {q q' : Option Nat} : ∀ {r : Ref}, Sg w i r L q →
    (L.map Cell.id).Nodup → (∀ c ∈ L, r ≠ .elem c.id) → nextAt w' (lastRef r L) i = .ok q' →
    (∀ r', r' ≠ lastRef r L → nextAt w' r' i = nextAt w r' i) → Sg w' i r L q' := by
  induction L with
  | nil => intro r _ _ _ h _; exact h
  | cons c L ih =>
    intro r h hn hr h1 h2
    rw [List.map_cons, List.nodup_cons] at hn
    have hne : ∀ d ∈ L, (Ref.elem c.id) ≠ .elem d.id := by
      intro d hd e
      exact hn.1 (List.mem_map.2 ⟨d, hd, (Ref.elem.inj e).symm⟩)
    refine ⟨?_, ih h.2 hn.2 hne h1 h2⟩
    rw [h2]; exact h.1
    intro e
    rcases lastRef_mem (.elem c.id) L with ⟨_, h⟩ | ⟨d, hd, h⟩
    · exact hr c (by simp) (e.trans h)
    · exact hr d (by simp [hd]) (e.trans h)

/-! ## The invariant -/

/-- The cells that reach level `i`. -/
abbrev lvl (i : Nat) (G : List (Cell K V)) : List (Cell K V) := G.filter (fun c => decide (i < c.h))

/-- The store holds the cell. -/
def Stored (w : SL K V) (c : Cell K V) : Prop := (shape w)[c.id]? = some (c.key, c.val, c.h)

/-- The levels of the list are chains of the cells `G`, which are in order. -/
structure Inv (cmp : K → K → Int) (w : SL K V) (G : List (Cell K V)) : Prop where
  max1 : 1 ≤ w.maxLevel
  max2 : w.maxLevel ≤ 64
  headLen : w.head.length = w.maxLevel
  stored : ∀ c ∈ G, Stored w c
  height : ∀ c ∈ G, 1 ≤ c.h ∧ c.h ≤ w.maxLevel
  sorted : G.Pairwise (fun c d => cmp c.key d.key < 0)
  ids : (G.map Cell.id).Nodup
  seg : ∀ i, i < w.maxLevel → Sg w i .head (lvl i G) none
  count : w.len = G.length

theorem Stored.elem {w : SL K V} {c : Cell K V} (h : Stored w c) : ∃ e, w.elems[c.id]? = some e ∧ e.key = c.key ∧ e.value = c.val ∧ e.next.length = c.h := by
  simp only [Stored, shape, List.getElem?_map] at h
  cases he : w.elems[c.id]? with
  | none => rw [he] at h; cases h
  | some e =>
    rw [he] at h
    simp at h
    exact ⟨e, rfl, h.1, h.2.1, h.2.2⟩

theorem Stored.next {w : SL K V} {c : Cell K V} (h : Stored w c) {i : Nat} (hi : i < c.h) : ∃ o, nextAt w (.elem c.id) i = .ok o := by
  obtain ⟨e, h1, _, _, h2⟩ := h.elem
  refine ⟨e.next[i]'(by omega), ?_⟩
  simp only [nextAt, h1, Res.ofOption_some, Res.ok_bind]
  rw [List.getElem?_eq_getElem (by omega)]; rfl

theorem Stored.lt {w : SL K V} {c : Cell K V} (h : Stored w c) : c.id < w.elems.length := by
  obtain ⟨e, h1, _⟩ := h.elem
  exact (List.getElem?_eq_some_iff.1 h1).1

/-- The cells fit in the store. -/
theorem ids_le {w : SL K V} {G : List (Cell K V)} (h1 : ∀ c ∈ G, Stored w c) (h2 : (G.map Cell.id).Nodup) : G.length ≤ w.elems.length := by
  have : (G.map Cell.id).Subperm (List.range w.elems.length) := by
    apply List.subperm_of_subset h2
    intro a ha
    obtain ⟨c, hc, rfl⟩ := List.mem_map.1 ha
    exact List.mem_range.2 (h1 c hc).lt
  simpa using this.length_le

/-! ## Searching -/

theorem walk_spec {w : SL K V} {k : K} {i : Nat} {B : List (Cell K V)} (hB : ∀ c ∈ B, Stored w c) (hge : ∀ c ∈ B, 0 ≤ cmp c.key k) :
    ∀ (A : List (Cell K V)) (f : Nat) (r : Ref), A.length < f → (∀ c ∈ A, Stored w c) → (∀ c ∈ A, cmp c.key k < 0) → Sg w i r (A ++ B) none →
      walk cmp w k i f r (firstOr none (A ++ B)) = .ok (lastRef r A) := by
  intro A
  induction A with
  | nil =>
    intro f r hf _ _ hs
    obtain ⟨f, rfl⟩ : ∃ f', f = f' + 1 := ⟨f - 1, by simp at hf; omega⟩
    cases B with
    | nil => rfl
    | cons b B =>
      obtain ⟨e, h1, h2, _⟩ := (hB b (by simp)).elem
      simp only [List.nil_append, firstOr, walk, h1, Res.ofOption_some, Res.ok_bind, lastRef]
      rw [if_pos (by rw [h2]; exact hge b (by simp))]
  | cons a A ih =>
    intro f r hf hA hlt hs
    obtain ⟨f, rfl⟩ : ∃ f', f = f' + 1 := ⟨f - 1, by simp at hf; omega⟩
    obtain ⟨e, h1, h2, _⟩ := (hA a (by simp)).elem
    have hl := hlt a (by simp)
    have hs2 : Sg w i (.elem a.id) (A ++ B) none := hs.2
    simp only [List.cons_append, firstOr, walk, h1, Res.ofOption_some, Res.ok_bind, lastRef]
    rw [if_neg (by rw [h2]; omega), hs2.first]
    simp only [Res.ok_bind]
    exact ih f _ (by simp at hf; omega) (fun c hc => hA c (by simp [hc])) (fun c hc => hlt c (by simp [hc])) hs2

theorem last_filter {A : List (Cell K V)} (p : Cell K V → Bool) (r : Ref) : ∃ A' A'', A = A' ++ A'' ∧ lastRef r (A.filter p) = lastRef r A' := by
  rcases lastRef_mem r (A.filter p) with ⟨h1, h2⟩ | ⟨c, hc, h⟩
  · exact ⟨[], A, rfl, h2⟩
  · obtain ⟨X, Y, e⟩ := List.append_of_mem (List.mem_filter.1 hc).1
    refine ⟨X ++ [c], Y, by simp [e], ?_⟩
    rw [h, lastRef_append]; rfl

theorem lvl_succ (i : Nat) (A : List (Cell K V)) : lvl (i + 1) A = lvl (i + 1) (lvl i A) := by
  simp only [lvl, List.filter_filter]
  apply List.filter_congr
  intro c _
  by_cases h : i + 1 < c.h
  · have : i < c.h := by omega
    simp [h, this]
  · simp [h]

section
variable {w : SL K V} {G : List (Cell K V)}

theorem Inv.fuel (hi : Inv cmp w G) {L : List (Cell K V)} (h : L.Sublist G) : L.length < budget w := by
  have := ids_le hi.stored hi.ids
  have := h.length_le
  simp only [budget]; omega

theorem prevLevel_spec (hi : Inv cmp w G) {k : K} {A B : List (Cell K V)} (hG : G = A ++ B) (hA : ∀ c ∈ A, cmp c.key k < 0) (hB : ∀ c ∈ B, 0 ≤ cmp c.key k)
    {i : Nat} (hl : i < w.maxLevel) {X Y : List (Cell K V)} (hX : lvl i A = X ++ Y) :
    prevLevel cmp w k i (lastRef .head X) = .ok (lastRef .head (lvl i A)) := by
  have hs := hi.seg i hl
  have hsp : lvl i G = lvl i A ++ lvl i B := by rw [hG]; simp [lvl]
  rw [hsp] at hs
  simp only [prevLevel, hs.first, Res.ok_bind]
  have hmemA : ∀ c ∈ lvl i A, c ∈ A := fun c hc => (List.mem_filter.1 hc).1
  have hmemB : ∀ c ∈ lvl i B, c ∈ B := fun c hc => (List.mem_filter.1 hc).1
  rw [hX, List.append_assoc] at hs
  have hs2 := (Sg.append.1 hs).2
  cases hf : firstOr none (lvl i A ++ lvl i B) with
  | none =>
    have : lvl i A = [] := by
      cases h : lvl i A with
      | nil => rfl
      | cons c L => rw [h] at hf; cases hf
    rw [this] at hX
    have : X = [] := by
      cases X with
      | nil => rfl
      | cons c L => cases hX
    simp [‹lvl i A = []›, this]
  | some a =>
    simp only [hs2.first, Res.ok_bind]
    rw [walk_spec (A := Y)]
    · rw [hX, lastRef_append]
    · intro c hc; exact hi.stored c (by rw [hG]; simp [hmemB c hc])
    · intro c hc; exact hB c (hmemB c hc)
    · apply hi.fuel
      have h1 : Y.Sublist (lvl i A) := by rw [hX]; exact List.sublist_append_right _ _
      exact h1.trans (List.filter_sublist.trans (by rw [hG]; exact List.sublist_append_left _ _))
    · intro c hc; exact hi.stored c (by rw [hG]; simp [hmemA c (by rw [hX]; simp [hc])])
    · intro c hc; exact hA c (hmemA c (by rw [hX]; simp [hc]))
    · exact hs2

theorem findPrevs_spec (hi : Inv cmp w G) {k : K} {A B : List (Cell K V)} (hG : G = A ++ B) (hA : ∀ c ∈ A, cmp c.key k < 0) (hB : ∀ c ∈ B, 0 ≤ cmp c.key k) :
    ∀ (n : Nat) (acc : List Ref) (X Y : List (Cell K V)), n ≤ w.maxLevel → (∀ j, n = j + 1 → lvl j A = X ++ Y) →
      findPrevs cmp w k n (lastRef .head X) acc = .ok ((List.range n).map (fun i => lastRef .head (lvl i A)) ++ acc) := by
  intro n
  induction n with
  | zero => intro acc X Y _ _; rfl
  | succ n ih =>
    intro acc X Y hn hX
    simp only [findPrevs, prevLevel_spec hi hG hA hB (by omega) (hX n rfl), Res.ok_bind]
    cases n with
    | zero => rfl
    | succ m =>
      obtain ⟨X', Y', h1, h2⟩ := last_filter (A := lvl m A) (fun c => decide (m + 1 < c.h)) .head
      have h3 : lastRef .head (lvl (m + 1) A) = lastRef .head X' := by rw [lvl_succ]; exact h2
      rw [h3, ih _ X' Y' (by omega) (by rintro j e; cases e; exact h1)]
      rw [← h3, List.range_succ (n := m + 1)]
      simp

/-- The point where a key belongs. -/
theorem Inv.split (hc : LawfulCmp cmp) (hi : Inv cmp w G) (k : K) : ∃ A B, G = A ++ B ∧ (∀ c ∈ A, cmp c.key k < 0) ∧ (∀ c ∈ B, 0 ≤ cmp c.key k) ∧
    ∀ b B', B = b :: B' → ∀ c ∈ B', 0 < cmp c.key k := by
  have hs := hi.sorted
  clear hi
  induction G with
  | nil => exact ⟨[], [], rfl, by simp, by simp, by simp⟩
  | cons x G ih =>
    rw [List.pairwise_cons] at hs
    by_cases cx : cmp x.key k < 0
    · obtain ⟨A, B, h1, h2, h3, h4⟩ := ih hs.2
      refine ⟨x :: A, B, by simp [h1], ?_, h3, h4⟩
      intro c hc
      rcases List.mem_cons.1 hc with rfl | hc
      · exact cx
      · exact h2 c hc
    · have gt : ∀ c ∈ G, 0 < cmp c.key k := by
        intro c hcG
        have h1 : cmp k x.key ≤ 0 := by have := hc.swap x.key k; have := hc.swap k x.key; omega
        have h2 := hs.1 c hcG
        have := hc.swap k c.key
        rw [← this]
        by_contra hcon
        have h3 : cmp c.key k ≤ 0 := by have := hc.swap k c.key; omega
        have := hc.trans c.key k x.key h3 h1
        have := hc.swap x.key c.key
        omega
      refine ⟨[], x :: G, rfl, by simp, ?_, ?_⟩
      · intro c hc
        rcases List.mem_cons.1 hc with rfl | hc
        · omega
        · have := gt c hc; omega
      · rintro b B' e c hc
        cases e
        exact gt c hc

end

/-- The same elements after another node. -/
theorem Sg.moved {w w' : SL K V} {i : Nat} {L : List (Cell K V)} {q : Option Nat} {r r' : Ref} (h : Sg w i r L q)
    (h1 : nextAt w' r' i = nextAt w r i) (h2 : ∀ c ∈ L, nextAt w' (.elem c.id) i = nextAt w (.elem c.id) i) : Sg w' i r' L q := by
  cases L with
  | nil => rw [Sg, h1]; exact h
  | cons c L => exact ⟨by rw [h1]; exact h.1, Sg.frame h.2 (h2 c (by simp)) (fun d hd => h2 d (by simp [hd]))⟩

theorem lastRef_ne {A : List (Cell K V)} {e : Nat} (h : ∀ c ∈ A, c.id ≠ e) : lastRef .head A ≠ .elem e := by
  rcases lastRef_mem .head A with ⟨_, h1⟩ | ⟨c, hc, h1⟩
  · rw [h1]; exact Ref.noConfusion
  · rw [h1]; intro c'; exact h c hc (Ref.elem.inj c')

/-- The predecessors of a key on all levels. -/
abbrev prevsOf (n : Nat) (A : List (Cell K V)) : List Ref := (List.range n).map (fun i => lastRef .head (lvl i A))

theorem prevsOf_get {n i : Nat} (h : i < n) (A : List (Cell K V)) : (prevsOf n A)[i]? = some (lastRef .head (lvl i A)) := by
  simp [prevsOf, h]

theorem mem_lvl {i : Nat} {A : List (Cell K V)} {c : Cell K V} (h : c ∈ lvl i A) : c ∈ A ∧ i < c.h := by
  have := List.mem_filter.1 h
  exact ⟨this.1, by simpa using this.2⟩

theorem lvl_app (i : Nat) (A B : List (Cell K V)) : lvl i (A ++ B) = lvl i A ++ lvl i B := by simp [lvl]

theorem lvl_cons_pos {i : Nat} {c : Cell K V} (h : i < c.h) (B : List (Cell K V)) : lvl i (c :: B) = c :: lvl i B := by
  simp [lvl, h]

theorem lvl_cons_neg {i : Nat} {c : Cell K V} (h : ¬ i < c.h) (B : List (Cell K V)) : lvl i (c :: B) = lvl i B := by
  simp [lvl, h]

theorem lvl_ids {i : Nat} {A : List (Cell K V)} (h : (A.map Cell.id).Nodup) : ((lvl i A).map Cell.id).Nodup :=
  h.sublist (List.Sublist.map _ List.filter_sublist)

/-- What the loops do not change. -/
structure Same (w w' : SL K V) : Prop where
  shape : shape w' = shape w
  headLen : w'.head.length = w.head.length
  maxLevel : w'.maxLevel = w.maxLevel
  len : w'.len = w.len

theorem Same.trans {w w' w'' : SL K V} (h : Same w w') (h' : Same w' w'') : Same w w'' :=
  ⟨h'.shape.trans h.shape, h'.headLen.trans h.headLen, h'.maxLevel.trans h.maxLevel, h'.len.trans h.len⟩

theorem Same.refl (w : SL K V) : Same w w := ⟨rfl, rfl, rfl, rfl⟩

theorem Same.stored {w w' : SL K V} (h : Same w w') {c : Cell K V} (hc : Stored w c) : Stored w' c := by
  rw [Stored, h.shape]; exact hc

theorem write {w : SL K V} {r : Ref} {i : Nat} {o : Option Nat} (h : nextAt w r i = .ok o) (v : Option Nat) :
    ∃ w', setNext w r i v = .ok w' ∧ Same w w' ∧ nextAt w' r i = .ok v ∧ ∀ r' i', ¬ (r' = r ∧ i' = i) → nextAt w' r' i' = nextAt w r' i' := by
  obtain ⟨w', a, b, c, d, e, f, g⟩ := nextAt_setNext h v
  exact ⟨w', a, ⟨b, c, d, e⟩, f, g⟩

theorem link_spec {A B : List (Cell K V)} {ce : Cell K V} {M : Nat} (hM : ce.h ≤ M) (hids : ((A ++ ce :: B).map Cell.id).Nodup) :
    ∀ (n i : Nat) (w : SL K V), i + n = ce.h → Stored w ce → (∀ j, j < i → Sg w j .head (lvl j (A ++ ce :: B)) none) →
      (∀ j, i ≤ j → j < M → Sg w j .head (lvl j (A ++ B)) none) →
      ∃ w', link ce.id (prevsOf M A) n i w = .ok w' ∧ Same w w' ∧ ∀ j, j < M → Sg w' j .head (lvl j (A ++ ce :: B)) none := by
  have hA : ∀ c ∈ A, c.id ≠ ce.id := by
    intro c hc e
    rw [List.map_append, List.nodup_append] at hids
    exact hids.2.2 c.id (List.mem_map.2 ⟨c, hc, rfl⟩) ce.id (by simp) e
  have hB : ∀ c ∈ B, c.id ≠ ce.id := by
    intro c hc e
    rw [List.map_append, List.nodup_append, List.map_cons, List.nodup_cons] at hids
    exact hids.2.1.1 (List.mem_map.2 ⟨c, hc, e⟩)
  have hAB : ∀ a ∈ A, ∀ b ∈ B, a.id ≠ b.id := by
    intro a ha b hb e
    rw [List.map_append, List.nodup_append] at hids
    exact hids.2.2 a.id (List.mem_map.2 ⟨a, ha, rfl⟩) b.id (by simp; exact .inr ⟨b, hb, rfl⟩) e
  have hAn : (A.map Cell.id).Nodup := by
    rw [List.map_append, List.nodup_append] at hids; exact hids.1
  intro n
  induction n with
  | zero =>
    intro i w hin _ h1 h2
    refine ⟨w, rfl, .refl w, ?_⟩
    intro j hj
    by_cases c : j < i
    · exact h1 j c
    · have := h2 j (by omega) hj
      rw [lvl_app] at this ⊢
      rw [lvl_cons_neg (by omega)]; exact this
  | succ n ih =>
    intro i w hin hst h1 h2
    have hi : i < ce.h := by omega
    have hs := h2 i (by omega) (by omega)
    rw [lvl_app] at hs
    obtain ⟨sA, sB⟩ := Sg.append.1 hs
    have hp := sB.first
    obtain ⟨o, ho⟩ := hst.next hi
    have mA : ∀ c ∈ lvl i A, c.id ≠ ce.id := fun c hc => hA c (mem_lvl hc).1
    have mB : ∀ c ∈ lvl i B, c.id ≠ ce.id := fun c hc => hB c (mem_lvl hc).1
    have hpe := lastRef_ne mA
    obtain ⟨w1, e1, s1, n1, f1⟩ := write ho (firstOr none (lvl i B))
    have hp1 : nextAt w1 (lastRef .head (lvl i A)) i = .ok (firstOr none (lvl i B)) := by
      rw [f1 _ _ (fun c => hpe c.1)]; exact hp
    obtain ⟨w2, e2, s2, n2, f2⟩ := write hp1 (some ce.id)
    have hfar : ∀ r' j, j ≠ i → nextAt w2 r' j = nextAt w r' j := by
      intro r' j hj
      rw [f2 _ _ (fun c => hj c.2), f1 _ _ (fun c => hj c.2)]
    have sA1 : Sg w1 i .head (lvl i A) (firstOr none (lvl i B)) := by
      apply sA.frame
      · exact f1 _ _ (fun c => Ref.noConfusion c.1)
      · intro c hc; exact f1 _ _ (fun h => mA c hc (Ref.elem.inj h.1))
    have sA2 : Sg w2 i .head (lvl i A) (some ce.id) := by
      apply sA1.retarget (lvl_ids hAn) (fun c _ h => Ref.noConfusion h) n2
      intro r' hr
      exact f2 _ _ (fun c => hr c.1)
    have sB2 : Sg w2 i (.elem ce.id) (lvl i B) none := by
      apply sB.moved
      · rw [f2 _ _ (fun c => hpe c.1.symm), n1, hp]
      · intro c hc
        rw [f2, f1]
        · intro h; exact mB c hc (Ref.elem.inj h.1)
        · rintro ⟨h, _⟩
          rcases lastRef_mem .head (lvl i A) with ⟨_, h1⟩ | ⟨d, hd, h1⟩
          · rw [h1] at h; exact Ref.noConfusion h
          · rw [h1] at h
            exact hAB d (mem_lvl hd).1 c (mem_lvl hc).1 (Ref.elem.inj h).symm
    have snew : Sg w2 i .head (lvl i (A ++ ce :: B)) none := by
      rw [lvl_app, lvl_cons_pos hi]
      refine Sg.append.2 ⟨sA2, ?_, sB2⟩
      exact n2
    obtain ⟨w3, e3, s3, h3⟩ := ih (i + 1) w2 (by omega) ((s1.trans s2).stored hst) (by
      intro j hj
      by_cases c : j = i
      · subst c; exact snew
      · exact (h1 j (by omega)).frame (hfar _ _ c) (fun d _ => hfar _ _ c)) (by
      intro j hj hjM
      exact (h2 j (by omega) hjM).frame (hfar _ _ (by omega)) (fun d _ => hfar _ _ (by omega)))
    refine ⟨w3, ?_, (s1.trans s2).trans s3, h3⟩
    simp only [link, prevsOf_get (show i < M by omega), Res.ofOption_some, Res.ok_bind, hp, e1, e2]
    exact e3

theorem unlink_spec {A B : List (Cell K V)} {ce : Cell K V} {M : Nat} (hM : ce.h ≤ M) (hids : ((A ++ ce :: B).map Cell.id).Nodup) :
    ∀ (n i : Nat) (w : SL K V), i + n = ce.h → Stored w ce → (∀ j, j < i → Sg w j .head (lvl j (A ++ B)) none) →
      (∀ j, i ≤ j → j < M → Sg w j .head (lvl j (A ++ ce :: B)) none) →
      ∃ w', unlink ce.id (prevsOf M A) n i w = .ok w' ∧ Same w w' ∧ ∀ j, j < M → Sg w' j .head (lvl j (A ++ B)) none := by
  have hA : ∀ c ∈ A, c.id ≠ ce.id := by
    intro c hc e
    rw [List.map_append, List.nodup_append] at hids
    exact hids.2.2 c.id (List.mem_map.2 ⟨c, hc, rfl⟩) ce.id (by simp) e
  have hAB : ∀ a ∈ A, ∀ b ∈ B, a.id ≠ b.id := by
    intro a ha b hb e
    rw [List.map_append, List.nodup_append] at hids
    exact hids.2.2 a.id (List.mem_map.2 ⟨a, ha, rfl⟩) b.id (by simp; exact .inr ⟨b, hb, rfl⟩) e
  have hAn : (A.map Cell.id).Nodup := by
    rw [List.map_append, List.nodup_append] at hids; exact hids.1
  intro n
  induction n with
  | zero =>
    intro i w hin _ h1 h2
    refine ⟨w, rfl, .refl w, ?_⟩
    intro j hj
    by_cases c : j < i
    · exact h1 j c
    · have := h2 j (by omega) hj
      rw [lvl_app] at this ⊢
      rw [lvl_cons_neg (by omega)] at this; exact this
  | succ n ih =>
    intro i w hin hst h1 h2
    have hi : i < ce.h := by omega
    have hs := h2 i (by omega) (by omega)
    rw [lvl_app, lvl_cons_pos hi] at hs
    obtain ⟨sA, sE⟩ := Sg.append.1 hs
    have hp := sE.1
    have sB : Sg w i (.elem ce.id) (lvl i B) none := sE.2
    have mA : ∀ c ∈ lvl i A, c.id ≠ ce.id := fun c hc => hA c (mem_lvl hc).1
    have hpe := lastRef_ne mA
    obtain ⟨w2, e2, s2, n2, f2⟩ := write hp (firstOr none (lvl i B))
    have hfar : ∀ r' j, j ≠ i → nextAt w2 r' j = nextAt w r' j := by
      intro r' j hj
      rw [f2 _ _ (fun c => hj c.2)]
    have sA2 : Sg w2 i .head (lvl i A) (firstOr none (lvl i B)) := by
      apply sA.retarget (lvl_ids hAn) (fun c _ h => Ref.noConfusion h) n2
      intro r' hr
      exact f2 _ _ (fun c => hr c.1)
    have sB2 : Sg w2 i (lastRef .head (lvl i A)) (lvl i B) none := by
      apply sB.moved
      · rw [n2, sB.first]
      · intro c hc
        rw [f2]
        rintro ⟨h, _⟩
        rcases lastRef_mem .head (lvl i A) with ⟨_, h1⟩ | ⟨d, hd, h1⟩
        · rw [h1] at h; exact Ref.noConfusion h
        · rw [h1] at h
          exact hAB d (mem_lvl hd).1 c (mem_lvl hc).1 (Ref.elem.inj h).symm
    have snew : Sg w2 i .head (lvl i (A ++ B)) none := by
      rw [lvl_app]
      exact Sg.append.2 ⟨sA2, sB2⟩
    obtain ⟨w3, e3, s3, h3⟩ := ih (i + 1) w2 (by omega) (s2.stored hst) (by
      intro j hj
      by_cases c : j = i
      · subst c; exact snew
      · exact (h1 j (by omega)).frame (hfar _ _ c) (fun d _ => hfar _ _ c)) (by
      intro j hj hjM
      exact (h2 j (by omega) hjM).frame (hfar _ _ (by omega)) (fun d _ => hfar _ _ (by omega)))
    refine ⟨w3, ?_, s2.trans s3, h3⟩
    simp only [unlink, prevsOf_get (show i < M by omega), Res.ofOption_some, Res.ok_bind, sB.first, e2]
    exact e3

/-! ## Get -/

/-- The value at the front of the cells that are not below the key, or the node to go down from. -/
def found (cmp : K → K → Int) (k : K) (r : Ref) : List (Cell K V) → Sum V Ref
  | [] => .inr r
  | b :: _ => if cmp b.key k = 0 then .inl b.val else .inr r

theorem getWalk_spec {w : SL K V} {k : K} {i : Nat} {B : List (Cell K V)} (hB : ∀ c ∈ B, Stored w c) (hge : ∀ c ∈ B, 0 ≤ cmp c.key k) :
    ∀ (A : List (Cell K V)) (f : Nat) (r : Ref), A.length < f → (∀ c ∈ A, Stored w c) → (∀ c ∈ A, cmp c.key k < 0) → Sg w i r (A ++ B) none →
      getWalk cmp w k i f r (firstOr none (A ++ B)) =
        .ok (found cmp k (lastRef r A) B) := by
  intro A
  induction A with
  | nil =>
    intro f r hf _ _ hs
    obtain ⟨f, rfl⟩ : ∃ f', f = f' + 1 := ⟨f - 1, by simp at hf; omega⟩
    cases B with
    | nil => rfl
    | cons b B =>
      obtain ⟨e, h1, h2, h3, _⟩ := (hB b (by simp)).elem
      have := hge b (by simp)
      simp only [List.nil_append, firstOr, getWalk, h1, Res.ofOption_some, Res.ok_bind, lastRef, h2, h3, found]
      split
      · rfl
      · rw [if_pos (by omega)]
  | cons a A ih =>
    intro f r hf hA hlt hs
    obtain ⟨f, rfl⟩ : ∃ f', f = f' + 1 := ⟨f - 1, by simp at hf; omega⟩
    obtain ⟨e, h1, h2, _⟩ := (hA a (by simp)).elem
    have hl := hlt a (by simp)
    have hs2 : Sg w i (.elem a.id) (A ++ B) none := hs.2
    simp only [List.cons_append, firstOr, getWalk, h1, Res.ofOption_some, Res.ok_bind, lastRef, h2]
    rw [if_neg (by omega), if_neg (by omega), hs2.first]
    simp only [Res.ok_bind]
    exact ih f _ (by simp at hf; omega) (fun c hc => hA c (by simp [hc])) (fun c hc => hlt c (by simp [hc])) hs2

/-- The value at the front of the cells that are not below the key. -/
def hit (cmp : K → K → Int) (k : K) : List (Cell K V) → Option V
  | [] => none
  | b :: _ => if cmp b.key k = 0 then some b.val else none

theorem getLoop_spec {w : SL K V} {G : List (Cell K V)} (hi : Inv cmp w G) {k : K} {A B : List (Cell K V)} (hG : G = A ++ B) (hA : ∀ c ∈ A, cmp c.key k < 0) (hB : ∀ c ∈ B, 0 ≤ cmp c.key k)
    (hB2 : ∀ b B', B = b :: B' → ∀ c ∈ B', 0 < cmp c.key k) :
    ∀ (n : Nat) (X Y : List (Cell K V)), n ≤ w.maxLevel → (∀ j, n = j + 1 → lvl j A = X ++ Y) →
      getLoop cmp w k n (lastRef .head X) = .ok (if n = 0 then none else hit cmp k B) := by
  intro n
  induction n with
  | zero => intro X Y _ _; rfl
  | succ n ih =>
    intro X Y hn hX
    have hX := hX n rfl
    have hs := hi.seg n (by omega)
    rw [hG, lvl_app, hX, List.append_assoc] at hs
    have hs2 := (Sg.append.1 hs).2
    rw [if_neg (by omega)]
    simp only [getLoop, hs2.first, Res.ok_bind]
    have hYA : ∀ c ∈ Y, c ∈ A := fun c hc => (mem_lvl (i := n) (A := A) (c := c) (by rw [hX]; simp [hc])).1
    have hfu : Y.length < budget w := by
      apply hi.fuel
      have h1 : Y.Sublist (lvl n A) := by rw [hX]; exact List.sublist_append_right _ _
      exact h1.trans (List.filter_sublist.trans (by rw [hG]; exact List.sublist_append_left _ _))
    rw [getWalk_spec (A := Y) (B := lvl n B) (fun c hc => hi.stored c (by rw [hG]; simp [(mem_lvl hc).1])) (fun c hc => hB c (mem_lvl hc).1) _ _ hfu
      (fun c hc => hi.stored c (by rw [hG]; exact List.mem_append_left _ (hYA c hc)))
      (fun c hc => hA c (hYA c hc)) hs2]
    simp only [Res.ok_bind]
    have down : getLoop cmp w k n (lastRef (lastRef .head X) Y) = .ok (if n = 0 then none else hit cmp k B) := by
      rw [← lastRef_append, ← hX]
      cases n with
      | zero => rfl
      | succ m =>
        obtain ⟨X', Y', h1, h2⟩ := last_filter (A := lvl m A) (fun c => decide (m + 1 < c.h)) .head
        have h3 : lastRef .head (lvl (m + 1) A) = lastRef .head X' := by rw [lvl_succ]; exact h2
        rw [h3]
        exact ih X' Y' (by omega) (by rintro j e; cases e; exact h1)
    cases B with
    | nil =>
      simp only [lvl, List.filter_nil, found]
      rw [down]
      simp [hit]
    | cons b B' =>
      have hb1 := (hi.height b (by rw [hG]; simp)).1
      by_cases c : n < b.h
      · rw [lvl_cons_pos c]
        simp only [hit, found]
        by_cases c0 : cmp b.key k = 0
        · simp only [if_pos c0]
        · simp only [if_neg c0]
          rw [down]
          simp [hit, c0]
      · have hn0 : n ≠ 0 := by omega
        rw [lvl_cons_neg c]
        have : found cmp k (lastRef (lastRef .head X) Y) (lvl n B') = .inr (lastRef (lastRef .head X) Y) := by
          cases h : lvl n B' with
          | nil => rfl
          | cons d L =>
            have hd : d ∈ lvl n B' := by rw [h]; simp
            have := hB2 b B' rfl d (mem_lvl hd).1
            simp only [found]
            rw [if_neg (by omega)]
        rw [this]
        simp only
        rw [down, if_neg hn0]

end GoSTL.Skiplist
