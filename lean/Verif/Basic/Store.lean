import Mathlib.Data.List.Perm.Subperm
import Mathlib.Data.List.Nodup
/-!
# Stores of objects, and parts of them

A store is a list of objects, a pointer is an index. `Owns m S` says that the store holds the objects of `S`, all at different addresses;
`Step m S m' S'` says that a computation that may use `S` turns the store `m` into `m'`, where it leaves `S'`, and has not touched anything else.
-/
namespace GoSTL.Store
variable {C : Type}

/-- The store holds these objects, at different addresses. -/
def Owns (m : List C) (S : List (Nat × C)) : Prop := (∀ x ∈ S, m[x.1]? = some x.2) ∧ (S.map Prod.fst).Nodup

theorem Owns.get {m : List C} {S : List (Nat × C)} (h : Owns m S) {a : Nat} {c : C} (hm : (a, c) ∈ S) : m[a]? = some c := h.1 _ hm

theorem Owns.lt {m : List C} {S : List (Nat × C)} (h : Owns m S) {x : Nat × C} (hm : x ∈ S) : x.1 < m.length := by
  have := h.1 x hm
  by_contra c
  rw [List.getElem?_eq_none (by omega)] at this
  cases this

theorem Owns.nil (m : List C) : Owns m [] := ⟨by simp, by simp⟩

theorem Owns.perm {m : List C} {S T : List (Nat × C)} (h : Owns m S) (p : S.Perm T) : Owns m T :=
  ⟨fun x hx => h.1 x (p.mem_iff.2 hx), (p.map _).nodup_iff.1 h.2⟩

theorem Owns.append {m : List C} {S T : List (Nat × C)} :
    Owns m (S ++ T) ↔ Owns m S ∧ Owns m T ∧ ∀ x ∈ S, ∀ y ∈ T, x.1 ≠ y.1 := by
  constructor
  · rintro ⟨h1, h2⟩
    rw [List.map_append, List.nodup_append] at h2
    refine ⟨⟨fun x hx => h1 x (by simp [hx]), h2.1⟩, ⟨fun x hx => h1 x (by simp [hx]), h2.2.1⟩, fun x hx y hy => ?_⟩
    exact h2.2.2 x.1 (List.mem_map_of_mem hx) y.1 (List.mem_map_of_mem hy)
  · rintro ⟨h1, h2, h3⟩
    refine ⟨fun x hx => ?_, ?_⟩
    · rcases List.mem_append.1 hx with hx | hx
      · exact h1.1 x hx
      · exact h2.1 x hx
    · rw [List.map_append, List.nodup_append]
      refine ⟨h1.2, h2.2, fun a ha b hb => ?_⟩
      obtain ⟨x, hx, rfl⟩ := List.mem_map.1 ha
      obtain ⟨y, hy, rfl⟩ := List.mem_map.1 hb
      exact h3 x hx y hy

theorem Owns.left {m : List C} {S T : List (Nat × C)} (h : Owns m (S ++ T)) : Owns m S := (Owns.append.1 h).1
theorem Owns.right {m : List C} {S T : List (Nat × C)} (h : Owns m (S ++ T)) : Owns m T := (Owns.append.1 h).2.1

theorem Owns.length_le {m : List C} {S : List (Nat × C)} (h : Owns m S) : S.length ≤ m.length := by
  have : (S.map Prod.fst).Subperm (List.range m.length) := h.2.subperm fun a ha => by
    obtain ⟨x, hx, rfl⟩ := List.mem_map.1 ha
    exact List.mem_range.2 (h.lt hx)
  simpa using this.length_le

/-- A computation on a part of the store. -/
structure Step (m : List C) (S : List (Nat × C)) (m' : List C) (S' : List (Nat × C)) : Prop where
  owns : Owns m' S'
  addrs : ∀ x ∈ S', x.1 ∈ S.map Prod.fst ∨ m.length ≤ x.1
  grows : m.length ≤ m'.length
  frame : ∀ a, a < m.length → a ∉ S.map Prod.fst → m'[a]? = m[a]?

theorem Step.refl {m : List C} {S : List (Nat × C)} (h : Owns m S) : Step m S m S :=
  ⟨h, fun _ hx => .inl (List.mem_map_of_mem hx), Nat.le_refl _, fun _ _ _ => rfl⟩

theorem Step.trans {m m1 m2 : List C} {S S1 S2 : List (Nat × C)} (h1 : Step m S m1 S1) (h2 : Step m1 S1 m2 S2) : Step m S m2 S2 := by
  refine ⟨h2.owns, fun x hx => ?_, Nat.le_trans h1.grows h2.grows, fun a ha hn => ?_⟩
  · rcases h2.addrs x hx with h | h
    · obtain ⟨y, hy, e⟩ := List.mem_map.1 h
      rw [← e]; exact h1.addrs y hy
    · exact .inr (Nat.le_trans h1.grows h)
  · rw [h2.frame a (Nat.lt_of_lt_of_le ha h1.grows), h1.frame a ha hn]
    intro hc
    obtain ⟨y, hy, rfl⟩ := List.mem_map.1 hc
    rcases h1.addrs y hy with h | h
    · exact hn h
    · omega

/-- What the computation does not use stays as it is. -/
theorem Step.with {m m' : List C} {S S' R : List (Nat × C)} (h : Step m S m' S') (ho : Owns m (S ++ R)) : Step m (S ++ R) m' (S' ++ R) := by
  obtain ⟨o1, o2, o3⟩ := Owns.append.1 ho
  refine ⟨Owns.append.2 ⟨h.owns, ⟨fun x hx => ?_, o2.2⟩, fun x hx y hy => ?_⟩, fun x hx => ?_, h.grows, fun a ha hn => ?_⟩
  · rw [h.frame x.1 (o2.lt hx)]
    · exact o2.1 x hx
    · intro hc
      obtain ⟨y, hy, e⟩ := List.mem_map.1 hc
      exact o3 y hy x hx e
  · rcases h.addrs x hx with hc | hc
    · obtain ⟨z, hz, e⟩ := List.mem_map.1 hc
      rw [← e]; exact o3 z hz y hy
    · have := o2.lt hy; omega
  · rcases List.mem_append.1 hx with hx | hx
    · rcases h.addrs x hx with hc | hc
      · left; simp only [List.map_append, List.mem_append]; exact .inl hc
      · exact .inr hc
    · left; simp only [List.map_append, List.mem_append]; exact .inr (List.mem_map_of_mem hx)
  · refine h.frame a ha fun hc => hn ?_
    simp only [List.map_append, List.mem_append]; exact .inl hc

theorem Step.perm {m m' : List C} {S S' T T' : List (Nat × C)} (h : Step m S m' S') (p : T.Perm S) (p' : S'.Perm T') : Step m T m' T' := by
  have hp : ∀ a, a ∈ T.map Prod.fst ↔ a ∈ S.map Prod.fst := fun a => (p.map Prod.fst).mem_iff
  refine ⟨h.owns.perm p', fun x hx => ?_, h.grows, fun a ha hn => h.frame a ha fun hc => hn ((hp a).2 hc)⟩
  rcases h.addrs x (p'.mem_iff.2 hx) with hc | hc
  · exact .inl ((hp x.1).2 hc)
  · exact .inr hc

/-- Objects that are not needed any more. -/
theorem Step.drop {m m' : List C} {S S' R : List (Nat × C)} (h : Step m S m' (S' ++ R)) : Step m S m' S' :=
  ⟨h.owns.left, fun x hx => h.addrs x (by simp [hx]), h.grows, h.frame⟩

theorem Step.alloc (m : List C) (c : C) : Step m [] (m ++ [c]) [(m.length, c)] := by
  refine ⟨⟨fun x hx => ?_, by simp⟩, fun x hx => ?_, by simp, fun a ha _ => ?_⟩
  · simp only [List.mem_singleton] at hx; subst hx; simp
  · simp only [List.mem_singleton] at hx; subst hx; exact .inr (Nat.le_refl _)
  · rw [List.getElem?_append_left ha]

theorem Step.write {m : List C} {a : Nat} {c : C} (h : Owns m [(a, c)]) (c' : C) : Step m [(a, c)] (m.set a c') [(a, c')] := by
  have hl := h.lt (x := (a, c)) (by simp)
  refine ⟨⟨fun x hx => ?_, by simp⟩, fun x hx => ?_, by simp, fun b hb hn => ?_⟩
  · simp only [List.mem_singleton] at hx; subst hx
    simp [List.getElem?_set, hl]
  · simp only [List.mem_singleton] at hx; subst hx; left; simp
  · have : a ≠ b := by intro e; subst e; simp at hn
    simp [List.getElem?_set_ne this]

end GoSTL.Store
