import Verif.Heap.Proofs
import Mathlib.Tactic.IntervalCases
/-!
# C27, C28: priority queues and heap operations
-/
namespace GoSTL.Heap
open GoSTL.Seq GoSTL.Algo
variable {T : Type} {cmp : T → T → Int}

/-! ## Specification -/

/-- A slice in heap order: no element comes before its parent. -/
def IsHeap (cmp : T → T → Int) (h : List T) : Prop :=
  ∀ (k : Nat) (x y : T), 0 < k → h[(k - 1) / 2]? = some x → h[k]? = some y → cmp x y ≤ 0

/-- One call on a priority queue whose content, in any order, is `q`: what it may return and what the content is then. -/
inductive SpecStep (cmp : T → T → Int) : Op T → List T → Res (Out T × List T) → Prop
  | push {x q} : SpecStep cmp (.push x) q (.ok (.unit, x :: q))
  | pop {x q q'} : q.Perm (x :: q') → (∀ y ∈ q, cmp x y ≤ 0) → SpecStep cmp .pop q (.ok (.val x, q'))
  | popEmpty : SpecStep cmp .pop [] .panic
  | top {x q} : x ∈ q → (∀ y ∈ q, cmp x y ≤ 0) → SpecStep cmp .top q (.ok (.val x, q))
  | topEmpty : SpecStep cmp .top [] .panic
  | empty {q} : SpecStep cmp .empty q (.ok (.bool q.isEmpty, q))
  | size {q} : SpecStep cmp .size q (.ok (.int q.length, q))
  | clear {q} : SpecStep cmp .clear q (.ok (.unit, []))

/-- A history on a priority queue with content `q`: the results, or a panic at the first call on a missing element. -/
inductive SpecRun (cmp : T → T → Int) : List (Op T) → List T → Res (List (Out T)) → Prop
  | nil {q} : SpecRun cmp [] q (.ok [])
  | stop {op ops q} : SpecStep cmp op q .panic → SpecRun cmp (op :: ops) q .panic
  | ok {op ops q o q' os} : SpecStep cmp op q (.ok (o, q')) → SpecRun cmp ops q' (.ok os) → SpecRun cmp (op :: ops) q (.ok (o :: os))
  | later {op ops q o q'} : SpecStep cmp op q (.ok (o, q')) → SpecRun cmp ops q' .panic → SpecRun cmp (op :: ops) q .panic

/-- What a run returned, or how it ended. -/
def outs {α β : Type} : Res (α × β) → Res α
  | .ok (a, _) => .ok a
  | .panic => .panic
  | .outOfFuel => .outOfFuel

/-! ## The two forms of heap order -/

theorem heapFrom_iff {h : List T} : HeapFrom cmp h 0 h.length ↔ IsHeap cmp h := by
  constructor
  · intro hh k x y hk hx hy
    have e : par (k : Int) = (((k - 1) / 2 : Nat) : Int) := by simp only [par]; omega
    have hk' : k < h.length := by
      by_contra c
      rw [List.getElem?_eq_none (by omega)] at hy; cases hy
    refine hh k (by omega) (by omega) (by simp only [par]; omega) x y ?_ (by rw [at?_nat]; exact hy)
    rw [e, at?_nat]; exact hx
  · intro hh k hk0 hkn _ x y hx hy
    obtain ⟨k, rfl⟩ : ∃ m : Nat, k = m := ⟨k.toNat, by omega⟩
    have e : par (k : Int) = (((k - 1) / 2 : Nat) : Int) := by simp only [par]; omega
    rw [e, at?_nat] at hx
    rw [at?_nat] at hy
    exact hh k x y (by omega) hx hy

theorem root_min (hc : LawfulCmp cmp) {h : List T} (hh : IsHeap cmp h) {x : T} (hx : h[0]? = some x) : ∀ y ∈ h, cmp x y ≤ 0 := by
  have key : ∀ (k : Nat) y, h[k]? = some y → cmp x y ≤ 0 := by
    intro k
    induction k using Nat.strong_induction_on with
    | _ k ih =>
      intro y hy
      by_cases c : k = 0
      · subst c; rw [hx] at hy; cases hy; have := hc.refl x; omega
      · have hlt : (k - 1) / 2 < k := by omega
        have hk' : k < h.length := by
          by_contra c
          rw [List.getElem?_eq_none (by omega)] at hy; cases hy
        obtain ⟨z, hz⟩ : ∃ z, h[(k - 1) / 2]? = some z := ⟨h[(k - 1) / 2], by simp⟩
        exact hc.trans x z y (ih _ hlt z hz) (hh k z y (by omega) hz hy)
  intro y hy
  obtain ⟨k, hk⟩ := List.mem_iff_getElem?.1 hy
  exact key k y hk

/-! ## `Push` -/

/-- C28: `Push` on a heap adds the element and leaves a heap. -/
theorem C28_push (hc : LawfulCmp cmp) {h : List T} (hh : IsHeap cmp h) (x : T) :
    ∃ h', push cmp h x = .ok h' ∧ h'.Perm (x :: h) ∧ IsHeap cmp h' := by
  have hf := heapFrom_iff.2 hh
  have h1 : ∀ k, 0 < k → k < ((h ++ [x]).length : Int) → k ≠ (h ++ [x]).length - 1 → Le cmp (h ++ [x]) (par k) k := by
    intro k hk0 hkn hkj
    simp only [List.length_append, List.length_singleton] at hkn hkj
    have hp : par k < k ∧ 0 ≤ par k := by simp only [par]; omega
    have key : ∀ a : Int, a < h.length → at? (h ++ [x]) a = at? h a := by
      intro a ha
      unfold at?
      split
      · rw [List.getElem?_append_left (by omega)]
      · rfl
    intro u v hu hv
    rw [key _ (by omega)] at hu hv
    exact hf k hk0 (by omega) (by omega) u v hu hv
  obtain ⟨h', e, hm, hheap⟩ := up_spec hc (h := h ++ [x]) (n := (h ++ [x]).length) (j := (h ++ [x]).length - 1) h1
    (by intro _ k _ hkn hk; simp only [par] at hk; omega) (by simp) (by omega) (by omega)
  refine ⟨h', e, hm.perm.trans (List.perm_append_comm.trans (by simp)), heapFrom_iff.1 ?_⟩
  rw [hm.length]; exact hheap

/-! ## Taking off the last element -/

theorem at?_dropLast {h : List T} {k : Int} (hk : k < h.length - 1) : at? h.dropLast k = at? h k := by
  unfold at?
  split
  · rw [List.getElem?_dropLast, if_pos (by omega)]
  · rfl

theorem dropLast_heap {h : List T} {n : Int} (hn : n = h.length - 1) (hh : HeapFrom cmp h 0 n) (hne : h ≠ []) : IsHeap cmp h.dropLast := by
  refine heapFrom_iff.1 ?_
  have hl : 0 < h.length := List.length_pos_iff.2 hne
  intro k hk0 hkn hl' x y hx hy
  simp only [List.length_dropLast] at hkn
  have hp : par k < k := by simp only [par]; omega
  rw [at?_dropLast (by omega)] at hx hy
  exact hh k hk0 (by omega) hl' x y hx hy

theorem holderPop_spec {h : List T} {x : T} (hx : at? h (h.length - 1) = some x) : holderPop h = .ok (x, h.dropLast) ∧ h = h.dropLast ++ [x] := by
  have hb := at?_lt hx
  have hl : h.getLast? = some x := by
    rw [List.getLast?_eq_getElem?]
    simp only [at?, hb.1, if_true] at hx
    rw [← hx]
    congr 1; omega
  refine ⟨by simp [holderPop, hl], ?_⟩
  have hne : h ≠ [] := by rintro rfl; simp at hl
  rw [List.getLast?_eq_some_getLast hne] at hl
  cases hl
  exact (List.dropLast_append_getLast hne).symm

/-- After the element at `i` was exchanged with the last one, it is the only one out of order. -/
theorem hole_swap (hc : LawfulCmp cmp) {h : List T} (hh : HeapFrom cmp h 0 h.length) {i n : Int} (hn : n = h.length - 1) (hi : 0 ≤ i) (hin : i < n) :
    Hole cmp (lswap h i n) 0 n i := by
  have hiv : 0 ≤ i ∧ i < h.length := by omega
  have hnv : 0 ≤ n ∧ n < h.length := by omega
  constructor
  · intro k hk0 hkn hl hki hpi
    have hp : par k < k := by simp only [par]; omega
    refine (le_lswap (a' := par k) (b' := k) hiv hnv ?_ ?_).2 (hh k hk0 (by omega) hl)
    · rw [if_neg (by omega), if_neg hpi]
    · rw [if_neg (by omega), if_neg hki]
  · intro hi0 hl k hk0 hkn hk
    have hp : par i < i := by simp only [par]; omega
    have hki : k ≠ i := by simp only [par] at hk; omega
    refine (le_lswap (a' := par i) (b' := k) hiv hnv ?_ ?_).2 ?_
    · rw [if_neg (by omega), if_neg (by omega)]
    · rw [if_neg (by omega), if_neg hki]
    · have h1 := hh i hi0 (by omega) hl
      have h2 := hh k hk0 (by omega) (by omega)
      rw [hk] at h2
      exact h1.trans hc h2 (by omega)

theorem finish {h h' : List T} {n : Int} {x : T} (hn : n = h.length - 1) (hm : Moves n h h') (hx : at? h n = some x) (hheap : HeapFrom cmp h' 0 n) :
    holderPop h' = .ok (x, h'.dropLast) ∧ (x :: h'.dropLast).Perm h ∧ IsHeap cmp h'.dropLast := by
  have hx' : at? h' (h'.length - 1) = some x := by
    rw [hm.length, ← hn, hm.rest n (by omega), hx]
  obtain ⟨e1, e2⟩ := holderPop_spec hx'
  have hne : h' ≠ [] := by rintro rfl; simp at e2
  refine ⟨e1, ?_, dropLast_heap (by rw [hn, hm.length]) hheap hne⟩
  refine List.Perm.trans ?_ hm.perm
  conv => rhs; rw [e2]
  exact List.perm_append_comm (l₁ := [x])

/-! ## `Remove` and `Pop` -/

/-- C28: `Remove(i)` on a heap removes exactly the element at `i`, returns it, and leaves a heap. -/
theorem C28_remove (hc : LawfulCmp cmp) {h : List T} (hh : IsHeap cmp h) {i : Nat} {x : T} (hx : h[i]? = some x) :
    ∃ h', remove cmp h i = .ok (x, h') ∧ h'.Perm (h.eraseIdx i) ∧ IsHeap cmp h' := by
  have hf := heapFrom_iff.2 hh
  have hil : i < h.length := by
    by_contra c
    rw [List.getElem?_eq_none (by omega)] at hx; cases hx
  have hxe : h[i] = x := by
    rw [List.getElem?_eq_getElem hil] at hx; exact Option.some.inj hx
  have perase : (x :: h.eraseIdx i).Perm h := by
    rw [← hxe]; exact (List.getElem_cons_eraseIdx_perm hil)
  suffices ∃ h', remove cmp h i = .ok (x, h') ∧ (x :: h').Perm h ∧ IsHeap cmp h' by
    obtain ⟨h', e1, e2, e3⟩ := this
    exact ⟨h', e1, (List.perm_cons x).1 (e2.trans perase.symm), e3⟩
  by_cases c : ((h.length : Int) - 1) = i
  · have hx' : at? h (h.length - 1) = some x := by rw [c, at?_nat]; exact hx
    obtain ⟨e1, e2, e3⟩ := finish (cmp := cmp) rfl (Moves.refl _ h) hx' (fun k a b d => hf k a (by omega) d)
    refine ⟨h.dropLast, ?_, e2, e3⟩
    simp only [remove, c, ne_eq, not_true_eq_false, if_false]; exact e1
  · have hin : (i : Int) < h.length - 1 := by omega
    have hole := hole_swap hc hf rfl (by omega) hin
    have hxn : at? (lswap h i (h.length - 1)) (h.length - 1) = some x := by
      rw [at?_lswap (by omega) (by omega), if_pos rfl, at?_nat]; exact hx
    have hlen : (lswap h i (h.length - 1)).length = h.length := lswap_length _ _ _
    simp only [remove]
    rw [if_pos c, swapAt_ok (by omega) (by omega)]
    simp only [Res.ok_bind]
    rcases down_spec hc (by omega) hole (by omega) (by omega) (by rw [hlen]; omega) with ⟨h', e, hm, hheap⟩ | ⟨e, hrest⟩
    · simp only [e, Res.ok_bind, Bool.not_true, Bool.false_eq_true, if_false]
      obtain ⟨e1, e2, e3⟩ := finish (by rw [hlen]) hm hxn hheap
      exact ⟨h'.dropLast, e1, e2.trans (lswap_perm _ _ _), e3⟩
    · simp only [e, Res.ok_bind, Bool.not_false, if_true]
      obtain ⟨h', e', hm, hheap⟩ := up_spec hc (n := h.length - 1) (fun k a b d => hrest k a b (by simp only [par]; omega) d)
        (fun a k b d => hole.grand a (by simp only [par]; omega) k b d) (by omega) hin (by rw [hlen]; omega)
      obtain ⟨e1, e2, e3⟩ := finish (by rw [hlen]) hm hxn hheap
      refine ⟨h'.dropLast, ?_, e2.trans (lswap_perm _ _ _), e3⟩
      simp only [e', Res.ok_bind, e1]

/-- C28: `Remove` outside the heap panics. -/
theorem C28_remove_panics {h : List T} {i : Int} (hi : ¬ (0 ≤ i ∧ i < h.length)) : remove cmp h i = .panic := by
  by_cases c : ((h.length : Int) - 1) = i
  · have : h = [] := by
      have : h.length = 0 := by omega
      exact List.length_eq_zero_iff.1 this
    subst this
    simp only [remove, c, ne_eq, not_true_eq_false, if_false]; rfl
  · simp only [remove]
    rw [if_pos c, swapAt_panic (by omega)]; rfl

/-- `Pop` on a heap returns the first element (a minimum) and leaves a heap of the others. -/
theorem pop_heap (hc : LawfulCmp cmp) {x : T} {t : List T} (hh : IsHeap cmp (x :: t)) :
    ∃ h', pop cmp (x :: t) = .ok (x, h') ∧ h'.Perm t ∧ IsHeap cmp h' := by
  have hf := heapFrom_iff.2 hh
  suffices ∃ h', pop cmp (x :: t) = .ok (x, h') ∧ (x :: h').Perm (x :: t) ∧ IsHeap cmp h' by
    obtain ⟨h', e1, e2, e3⟩ := this
    exact ⟨h', e1, (List.perm_cons x).1 e2, e3⟩
  have hlen : (lswap (x :: t) 0 ((x :: t).length - 1)).length = (x :: t).length := lswap_length _ _ _
  have hpos : 0 < (x :: t).length := by simp
  have hxn : at? (lswap (x :: t) 0 ((x :: t).length - 1)) ((x :: t).length - 1) = some x := by
    rw [at?_lswap (by omega) (by omega), if_pos rfl]; rfl
  simp only [pop]
  rw [swapAt_ok (by omega) (by omega)]
  simp only [Res.ok_bind]
  have hole : Hole cmp (lswap (x :: t) 0 ((x :: t).length - 1)) 0 ((x :: t).length - 1) 0 := by
    by_cases c : 0 < ((x :: t).length : Int) - 1
    · exact hole_swap hc hf rfl (by omega) c
    · exact ⟨fun k a b => by omega, fun a => by omega⟩
  rcases down_spec hc (by omega) hole (by omega) (by omega) (by rw [hlen]; omega) with ⟨h', e, hm, hheap⟩ | ⟨e, hrest⟩
  · obtain ⟨e1, e2, e3⟩ := finish (by rw [hlen]) hm hxn hheap
    refine ⟨h'.dropLast, ?_, e2.trans (lswap_perm _ _ _), e3⟩
    simp only [e, Res.ok_bind, e1]
  · obtain ⟨e1, e2, e3⟩ := finish (cmp := cmp) (by rw [hlen]) (.refl _ _) hxn (fun k a b d => hrest k a b d (by omega))
    refine ⟨_, ?_, e2.trans (lswap_perm _ _ _), e3⟩
    simp only [e, Res.ok_bind, e1]

theorem pop_empty : pop cmp ([] : List T) = .panic := rfl

/-! ## `Fix` -/

/-- C28: after the element at `i` of a heap was replaced by any other, `Fix(i)` leaves a heap of the same elements. -/
theorem C28_fix (hc : LawfulCmp cmp) {h : List T} (hh : IsHeap cmp h) {i : Nat} (hi : i < h.length) (v : T) :
    ∃ h', fix cmp (h.set i v) i = .ok h' ∧ h'.Perm (h.set i v) ∧ IsHeap cmp h' := by
  have hf := heapFrom_iff.2 hh
  have hlen : (h.set i v).length = h.length := List.length_set ..
  have key : ∀ k : Int, k ≠ i → at? (h.set i v) k = at? h k := by
    intro k hk
    have := at?_setAt (l := h) (i := (i : Int)) (j := k) (v := v)
    rw [if_neg (fun c => hk c.1)] at this
    simpa [setAt] using this
  have le_iff : ∀ a b : Int, a ≠ i → b ≠ i → (Le cmp (h.set i v) a b ↔ Le cmp h a b) := by
    intro a b ha hb
    simp only [Le, key a ha, key b hb]
  have hole : Hole cmp (h.set i v) 0 h.length i := by
    constructor
    · intro k hk0 hkn hl hki hpi
      exact (le_iff _ _ hpi hki).2 (hf k hk0 hkn hl)
    · intro hi0 hl k hk0 hkn hk
      have h1 := hf i hi0 (by omega) hl
      have h2 := hf k hk0 hkn (by omega)
      rw [hk] at h2
      exact (le_iff _ _ (by simp only [par]; omega) (by simp only [par] at hk; omega)).2 (h1.trans hc h2 (by omega))
  simp only [fix, hlen]
  rcases down_spec hc (by omega) hole (by omega) (by omega) (by rw [hlen]) with ⟨h', e, hm, hheap⟩ | ⟨e, hrest⟩
  · simp only [e, Res.ok_bind, Bool.not_true, Bool.false_eq_true, if_false]
    refine ⟨h', rfl, hm.perm, heapFrom_iff.1 ?_⟩
    rw [hm.length, hlen]; exact hheap
  · simp only [e, Res.ok_bind, Bool.not_false, if_true]
    obtain ⟨h', e', hm, hheap⟩ := up_spec hc (n := h.length) (fun k a b d => hrest k a b (by simp only [par]; omega) d)
      (fun a k b d => hole.grand a (by simp only [par]; omega) k b d) (by omega) (by omega) (by rw [hlen])
    refine ⟨h', e', hm.perm, heapFrom_iff.1 ?_⟩
    rw [hm.length, hlen]; exact hheap

/-- C28: `Fix` outside the heap changes nothing or panics. -/
theorem C28_fix_outside {h : List T} {i : Int} (hi : ¬ (0 ≤ i ∧ i < h.length)) : fix cmp h i = .ok h ∨ fix cmp h i = .panic := by
  have e : down cmp h i h.length = .ok (false, h) := by
    simp only [down]
    rw [downLoop, if_pos (by omega)]
    simp
  simp only [fix, e, Res.ok_bind, Bool.not_false, if_true, up]
  rw [upLoop]
  by_cases c : (i - 1).tdiv 2 = i
  · left; simp [c]
  · right
    rw [if_neg c, lessAt_panic hi]; rfl

/-! ## `Init` -/

theorem initLoop_spec (hc : LawfulCmp cmp) {n : Int} : ∀ (i : Nat) (h : List T), HeapFrom cmp h i n → n = h.length →
    ∃ h', initLoop cmp n i h = .ok h' ∧ Moves n h h' ∧ HeapFrom cmp h' 0 n := by
  intro i
  induction i with
  | zero => intro h hh _; exact ⟨h, rfl, .refl _ _, hh⟩
  | succ i ih =>
    intro h hh hn
    have hole : Hole cmp h i n i := by
      constructor
      · intro k hk0 hkn hl _ hpi
        exact hh k hk0 hkn (by omega)
      · intro hi0 hl
        exfalso
        simp only [par] at hl; omega
    simp only [initLoop]
    rcases down_spec hc (by omega) hole (by omega) (by omega) (by omega) with ⟨h', e, hm, hheap⟩ | ⟨e, hrest⟩
    · obtain ⟨h2, e2, hm2, hh2⟩ := ih h' hheap (by rw [hm.length]; exact hn)
      refine ⟨h2, ?_, hm.trans hm2, hh2⟩
      simp only [e, Res.ok_bind, e2]
    · have : HeapFrom cmp h i n := fun k a b d => hrest k a b d (by simp only [par] at d; omega)
      obtain ⟨h2, e2, hm2, hh2⟩ := ih h this hn
      refine ⟨h2, ?_, hm2, hh2⟩
      simp only [e, Res.ok_bind, e2]

/-- C28: `Init` turns any slice into a heap of the same elements. -/
theorem C28_init (hc : LawfulCmp cmp) (h : List T) : ∃ h', init cmp h = .ok h' ∧ h'.Perm h ∧ IsHeap cmp h' := by
  obtain ⟨h', e, hm, hheap⟩ := initLoop_spec hc (n := h.length) (h.length / 2) h (fun k a b d => by simp only [par] at d; omega) rfl
  refine ⟨h', e, hm.perm, heapFrom_iff.1 ?_⟩
  rw [hm.length]; exact hheap

/-! ## C27: priority queues -/

/-- C27: one call on a queue in heap order does what the specification allows on its content, and leaves heap order. -/
theorem step_refines (hc : LawfulCmp cmp) (op : Op T) {h : List T} (hh : IsHeap cmp h) {q : List T} (hq : h.Perm q) :
    (step cmp op h = .panic ∧ SpecStep cmp op q .panic) ∨
    ∃ o h' q', step cmp op h = .ok (o, h') ∧ IsHeap cmp h' ∧ h'.Perm q' ∧ SpecStep cmp op q (.ok (o, q')) := by
  cases op with
  | push x =>
    right
    obtain ⟨h', e, hp, hi⟩ := C28_push hc hh x
    exact ⟨_, _, _, by simp only [step, e, Res.ok_bind], hi, hp.trans (hq.cons x), .push⟩
  | pop =>
    cases h with
    | nil =>
      left
      rw [List.nil_perm.1 hq]
      exact ⟨rfl, .popEmpty⟩
    | cons x t =>
      right
      obtain ⟨h', e, hp, hi⟩ := pop_heap hc hh
      exact ⟨_, _, t, by simp only [step, e, Res.ok_bind], hi, hp, .pop hq.symm (fun y hy => root_min hc hh rfl y (hq.symm.subset hy))⟩
  | top =>
    cases h with
    | nil =>
      left
      rw [List.nil_perm.1 hq]
      exact ⟨rfl, .topEmpty⟩
    | cons x t =>
      right
      exact ⟨_, _, q, rfl, hh, hq, .top (hq.subset (by simp)) (fun y hy => root_min hc hh rfl y (hq.symm.subset hy))⟩
  | empty =>
    right
    refine ⟨_, h, q, rfl, hh, hq, ?_⟩
    have : decide (h.length = 0) = q.isEmpty := by
      rw [hq.length_eq]; cases q <;> simp
    rw [this]; exact .empty
  | size =>
    right
    refine ⟨_, h, q, rfl, hh, hq, ?_⟩
    rw [hq.length_eq]; exact .size
  | clear => exact .inr ⟨_, _, [], rfl, fun k x y _ hx => by simp at hx, .refl _, .clear⟩

theorem run_refines (hc : LawfulCmp cmp) (ops : List (Op T)) : ∀ {h q : List T}, IsHeap cmp h → h.Perm q → SpecRun cmp ops q (outs (run cmp ops h)) := by
  induction ops with
  | nil => intro h q _ _; exact .nil
  | cons op ops ih =>
    intro h q hh hq
    rcases step_refines hc op hh hq with ⟨e, hs⟩ | ⟨o, h', q', e, hi, hp, hs⟩
    · simp only [run, e, Res.panic_bind]; exact .stop hs
    · have := ih hi hp
      simp only [run, e, Res.ok_bind]
      revert this
      cases hr : run cmp ops h' with
      | ok r => intro this; exact .ok hs this
      | panic => intro this; exact .later hs this
      | outOfFuel => intro this; cases this

/-- C27: every history of calls on a new priority queue: `Pop` and `Top` return a queued element no other queued element precedes, panic
exactly on the empty queue, and the content is what was pushed and not yet popped. -/
theorem C27_history (hc : LawfulCmp cmp) (ops : List (Op T)) : SpecRun cmp ops [] (outs (run cmp ops [])) :=
  run_refines hc ops (fun k x y _ hx => by simp at hx) (.refl _)

/-- Pop until empty (`n` times). -/
def popAll (cmp : T → T → Int) : Nat → List T → Res (List T)
  | 0, _ => .ok []
  | n + 1, h => do
    let (x, h) ← pop cmp h
    let xs ← popAll cmp n h
    .ok (x :: xs)

/-- C27: popping a queue empty yields its content in order. -/
theorem C27_popAll (hc : LawfulCmp cmp) : ∀ (n : Nat) (h : List T), IsHeap cmp h → h.length = n →
    ∃ xs, popAll cmp n h = .ok xs ∧ xs.Perm h ∧ xs.Pairwise (fun a b => cmp a b ≤ 0) := by
  intro n
  induction n with
  | zero => intro h _ hl; rw [List.length_eq_zero_iff.1 hl]; exact ⟨[], rfl, .refl _, .nil⟩
  | succ n ih =>
    intro h hh hl
    cases h with
    | nil => simp at hl
    | cons x t =>
      obtain ⟨h', e, hp, hi⟩ := pop_heap hc hh
      obtain ⟨xs, e2, hp2, hs⟩ := ih h' hi (by rw [hp.length_eq]; simpa using hl)
      refine ⟨x :: xs, by simp only [popAll, e, e2, Res.ok_bind], (hp2.trans hp).cons x, List.pairwise_cons.2 ⟨?_, hs⟩⟩
      intro y hy
      exact root_min hc hh rfl y (by simp [(hp2.trans hp).subset hy])

/-! ## Non-vacuity -/

example : outs (run intCmp [.push 5, .push 3, .push 8, .push 3, .top, .pop, .pop, .size, .pop, .pop, .empty, .pop] []) = .panic := rfl
example : outs (run intCmp [.push 5, .push 3, .push 8, .push 1, .top, .pop, .pop, .size, .pop, .pop, .empty] []) =
    .ok [.unit, .unit, .unit, .unit, .val 1, .val 1, .val 3, .int 2, .val 5, .val 8, .bool true] := rfl
example : init intCmp [5, 4, 3, 2, 1] = .ok [1, 2, 3, 5, 4] := rfl
example : remove intCmp [1, 10, 2, 11, 12, 3, 4] 3 = .ok (11, [1, 4, 2, 10, 12, 3]) := rfl
example : fix intCmp [1, 2, 3, 0] 3 = .ok [0, 1, 3, 2] := rfl

/-- A heap that is not sorted. -/
theorem demo_isHeap : IsHeap intCmp [1, 10, 2, 11, 12, 3, 4] := by
  intro k x y hk hx hy
  have : k < 7 := by
    by_contra c
    rw [List.getElem?_eq_none (by simpa using c)] at hy; cases hy
  interval_cases k <;> simp at hx hy <;> subst hx hy <;> decide

/-! ### The theorems on concrete heaps -/

example : SpecRun intCmp [.push 5, .push 3, .push 8, .top, .pop, .pop, .size] [] (outs (run intCmp [.push 5, .push 3, .push 8, .top, .pop, .pop, .size] [])) :=
  C27_history intCmp_lawful _
example : ∃ xs, popAll intCmp 7 [1, 10, 2, 11, 12, 3, 4] = .ok xs ∧ xs.Perm [1, 10, 2, 11, 12, 3, 4] ∧ xs.Pairwise (fun a b => intCmp a b ≤ 0) :=
  C27_popAll intCmp_lawful 7 _ demo_isHeap rfl
example : ∃ h', init intCmp [5, 4, 3, 2, 1] = .ok h' ∧ h'.Perm [5, 4, 3, 2, 1] ∧ IsHeap intCmp h' := C28_init intCmp_lawful _
example : ∃ h', push intCmp [1, 10, 2, 11, 12, 3, 4] 0 = .ok h' ∧ h'.Perm [0, 1, 10, 2, 11, 12, 3, 4] ∧ IsHeap intCmp h' := C28_push intCmp_lawful demo_isHeap 0
example : ∃ h', remove intCmp [1, 10, 2, 11, 12, 3, 4] 3 = .ok (11, h') ∧ h'.Perm [1, 10, 2, 12, 3, 4] ∧ IsHeap intCmp h' :=
  C28_remove intCmp_lawful demo_isHeap (i := 3) rfl
example : remove intCmp [1, 10, 2, 11, 12, 3, 4] 7 = .panic := C28_remove_panics (by simp)
example : ∃ h', fix intCmp [1, 10, 2, 0, 12, 3, 4] 3 = .ok h' ∧ h'.Perm [1, 10, 2, 0, 12, 3, 4] ∧ IsHeap intCmp h' :=
  C28_fix intCmp_lawful demo_isHeap (i := 3) (by simp) 0
example : fix intCmp [1, 10, 2] 3 = .ok [1, 10, 2] ∨ fix intCmp [1, 10, 2] 3 = .panic := C28_fix_outside (by simp)

end GoSTL.Heap
