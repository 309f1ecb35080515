import Verif.TreeMap.KV
/-!
# Iteration through the iterator API
-/
namespace GoSTL.TreeMap
open GoSTL.RB

variable {K V : Type} {cmp : K → K → Int}

theorem iterWalk_eq (s : Tree K V) (f : Nat) (i : Option Id) : iterWalk s f i = (walk s f i).bind fun xs => .ok (xs.map (·.2)) := by
  induction f generalizing i with
  | zero => rfl
  | succ f ih =>
    cases i with
    | none => rfl
    | some i =>
      simp only [iterWalk, iterIsValid, Option.isSome_some, if_true, iterKey, iterValue, iterNext, Res.ofOption_some, Res.ok_bind, walk, ih]
      cases s.node i with
      | panic => rfl
      | outOfFuel => rfl
      | ok n =>
        simp only [Res.ok_bind, Res.pure_eq]
        cases s.successor i with
        | panic => rfl
        | outOfFuel => rfl
        | ok j =>
          simp only [Res.ok_bind]
          cases walk s f j <;> rfl

theorem iterWalkBack_eq (s : Tree K V) (f : Nat) (i : Option Id) : iterWalkBack s f i = (walkBack s f i).bind fun xs => .ok (xs.map (·.2)) := by
  induction f generalizing i with
  | zero => rfl
  | succ f ih =>
    cases i with
    | none => rfl
    | some i =>
      simp only [iterWalkBack, iterIsValid, Option.isSome_some, if_true, iterKey, iterValue, iterPrev, Res.ofOption_some, Res.ok_bind, walkBack, ih]
      cases s.node i with
      | panic => rfl
      | outOfFuel => rfl
      | ok n =>
        simp only [Res.ok_bind, Res.pure_eq]
        cases s.presuccessor i with
        | panic => rfl
        | outOfFuel => rfl
        | ok j =>
          simp only [Res.ok_bind]
          cases walkBack s f j <;> rfl

theorem HoldsS.walk_from {s : Tree K V} {A B} (h : HoldsS cmp s (A ++ B)) : iterWalk s s.fuel (hd B) = .ok (B.map (·.2)) := by
  rw [iterWalk_eq, Holds.walk B A s.fuel h.1 (by have := h.1.length_le; simp only [List.length_append] at this; simp only [Tree.fuel]; omega)]
  rfl

theorem HoldsKV.iterList {s : Tree K V} {kvs} (h : HoldsKV cmp s kvs) : iterList s = .ok kvs := by
  obtain ⟨xs, h1, rfl⟩ := h
  simp only [TreeMap.iterList, first, h1.1.first, Res.ok_bind]
  exact HoldsS.walk_from (A := []) (by simpa using h1)

theorem HoldsKV.iterListBack {s : Tree K V} {kvs} (h : HoldsKV cmp s kvs) : iterListBack s = .ok kvs.reverse := by
  obtain ⟨xs, h1, rfl⟩ := h
  simp only [TreeMap.iterListBack, last, h1.1.last, Res.ok_bind, iterWalkBack_eq]
  rw [Holds.walkBack xs.length xs [] s.fuel rfl (by simpa using h1.1) (by have := h1.1.length_le; simp only [Tree.fuel]; omega)]
  simp [Res.bind]

/-- Splitting a sorted list at the first element that satisfies an upward closed predicate. -/
theorem split_up {α : Type} (p : α → Bool) (xs : List α) (hup : xs.Pairwise fun a b => p a = true → p b = true) :
    ∃ A B, xs = A ++ B ∧ xs.find? p = B.head? ∧ xs.filter p = B := by
  induction xs with
  | nil => exact ⟨[], [], rfl, rfl, rfl⟩
  | cons x xs ih =>
    rw [List.pairwise_cons] at hup
    by_cases hx : p x = true
    · refine ⟨[], x :: xs, rfl, by simp [hx], ?_⟩
      rw [List.filter_eq_self]
      intro a ha
      simp at ha
      rcases ha with rfl | ha
      · exact hx
      · exact hup.1 a ha hx
    · obtain ⟨A, B, rfl, h2, h3⟩ := ih hup.2
      exact ⟨x :: A, B, rfl, by simp [hx, h2], by simp [hx, h3]⟩

theorem hd_eq (B : List (Id × K × V)) : hd B = B.head?.map (·.1) := by cases B <;> rfl

theorem HoldsKV.iterFrom_lower (hc : LawfulCmp cmp) {s : Tree K V} {kvs} (h : HoldsKV cmp s kvs) (k : K) :
    iterFrom s (lowerBound cmp s k) = .ok (kvs.filter fun e => decide (cmp k e.1 ≤ 0)) := by
  obtain ⟨xs, h1, rfl⟩ := h
  obtain ⟨A, B, rfl, h2, h3⟩ := split_up (fun e : Id × K × V => decide (cmp k e.2.1 ≤ 0)) xs
    (h1.2.imp fun {a b} hab ha => by simp at ha ⊢; exact hc.trans _ _ _ ha hab)
  simp only [iterFrom, lowerBound, h1.1.lower hc h1.2, Res.ok_bind, h2, ← hd_eq, h1.walk_from]
  rw [← h3, List.filter_map]
  rw [h3]; congr 2; exact h3.symm

theorem HoldsKV.iterFrom_upper (hc : LawfulCmp cmp) {s : Tree K V} {kvs} (h : HoldsKV cmp s kvs) (k : K) :
    iterFrom s (upperBound cmp s k) = .ok (kvs.filter fun e => decide (cmp k e.1 < 0)) := by
  obtain ⟨xs, h1, rfl⟩ := h
  obtain ⟨A, B, rfl, h2, h3⟩ := split_up (fun e : Id × K × V => decide (cmp k e.2.1 < 0)) xs
    (h1.2.imp fun {a b} hab ha => by simp at ha ⊢; exact hc.lt_of_lt_of_le ha hab)
  simp only [iterFrom, upperBound, h1.1.upper hc h1.2, Res.ok_bind, h2, ← hd_eq, h1.walk_from]
  rw [← h3, List.filter_map]
  rw [h3]; congr 2; exact h3.symm

theorem HoldsKV.iterFrom_find (hc : LawfulCmp cmp) {s : Tree K V} {kvs} (h : HoldsKV cmp s kvs) (k : K) :
    iterFrom s (TreeMap.find cmp s k) = .ok (if kvs.any (keq cmp k) then kvs.filter fun e => decide (cmp k e.1 ≤ 0) else []) := by
  have hh := h
  obtain ⟨xs, h1, rfl⟩ := h
  rcases h1.findNode hc k with ⟨h2, h3⟩ | ⟨A, i, k', v, B, rfl, h2, h3, h4⟩
  · rw [if_neg]
    · simp only [iterFrom, TreeMap.find, h2, Res.ok_bind, Tree.fuel]; rfl
    · simp [keq]; intro a b c hm; exact h3 _ hm
  · rw [if_pos (by simp [keq, h3])]
    have := h1.walk_from
    simp only [hd_cons] at this
    simp only [iterFrom, TreeMap.find, h2, Res.ok_bind, this]
    congr 1
    rw [List.map_append, List.filter_append]
    have h5 := h1.2
    simp only [SortedE, List.pairwise_append, List.pairwise_cons] at h5
    have e1 : (List.map (·.2) A).filter (fun e => decide (cmp k e.1 ≤ 0)) = [] := by
      simp only [List.filter_eq_nil_iff, List.mem_map]
      rintro a ⟨x, hx, rfl⟩
      have h6 := h5.2.2 x hx (i, k', v) (by simp)
      have h7 := h4 x hx
      simp only [decide_eq_true_eq]
      intro h8
      have h9 := (hc.congr_right (a := x.2.1) (hc.eq_symm.1 h3))
      have h10 := hc.swap k x.2.1
      have h11 := hc.swap x.2.1 k
      simp only at h6
      omega
    rw [e1, List.nil_append]
    symm
    rw [List.filter_eq_self]
    intro a ha
    rw [List.mem_map] at ha
    obtain ⟨x, hx, rfl⟩ := ha
    simp at hx ⊢
    rcases hx with rfl | hx
    · simp; omega
    · exact hc.trans _ k' _ (by omega) (h5.2.1.1 x hx)

end GoSTL.TreeMap
