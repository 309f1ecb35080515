import Verif.Algo.Swap
/-!
# Segments of a list
-/
namespace GoSTL.Algo
open GoSTL.Seq

variable {T : Type}

/-- `A` stands at position `a` of `l`. -/
def SegAt (l : List T) (a : Int) (A : List T) : Prop := ∃ P S, l = P ++ A ++ S ∧ a = P.length

namespace SegAt
variable {l A B : List T} {a : Int} {x : T}

theorem bounds (h : SegAt l a A) : 0 ≤ a ∧ a + A.length ≤ l.length := by
  obtain ⟨P, S, rfl, rfl⟩ := h
  simp only [List.length_append]; omega

theorem head (h : SegAt l a (x :: A)) : at? l a = some x := by
  obtain ⟨P, S, rfl, rfl⟩ := h
  have := at?_segment (P := P) (M := x :: A) (S := S) (k := 0) (by simp)
  simpa using this

theorem tail (h : SegAt l a (x :: A)) : SegAt l (a + 1) A := by
  obtain ⟨P, S, rfl, rfl⟩ := h
  exact ⟨P ++ [x], S, by simp, by simp⟩

theorem left (h : SegAt l a (A ++ B)) : SegAt l a A := by
  obtain ⟨P, S, rfl, rfl⟩ := h
  exact ⟨P, B ++ S, by simp, rfl⟩

theorem right (h : SegAt l a (A ++ B)) : SegAt l (a + A.length) B := by
  obtain ⟨P, S, rfl, rfl⟩ := h
  exact ⟨P ++ A, S, by simp, by simp⟩

theorem get (h : SegAt l a A) {k : Nat} (hk : k < A.length) : at? l (a + k) = some A[k] := by
  obtain ⟨P, S, rfl, rfl⟩ := h
  exact at?_segment hk

theorem mem (h : SegAt l a A) {k : Int} (h1 : a ≤ k) (h2 : k < a + A.length) : ∃ x ∈ A, at? l k = some x := by
  have := h.get (k := (k - a).toNat) (by omega)
  have e : a + ((k - a).toNat : Int) = k := by omega
  rw [e] at this
  exact ⟨_, List.getElem_mem _, this⟩

end SegAt

theorem setAt_mid (P S : List T) (x v : T) : setAt (P ++ x :: S) P.length v = P ++ v :: S := by
  simp [setAt]

theorem setAt_mid' (P S : List T) (x v : T) (a : Int) (h : a = P.length) : setAt (P ++ x :: S) a v = P ++ v :: S := by
  subst h; exact setAt_mid P S x v

theorem at?_mid (P S : List T) (x : T) (a : Int) (h : a = P.length) : at? (P ++ x :: S) a = some x := by
  subst h; simp [at?]

theorem lswap_ends (P M S : List T) (x y : T) (i j : Int) (hi : i = P.length) (hj : j = P.length + M.length + 1) :
    lswap (P ++ x :: (M ++ y :: S)) i j = P ++ y :: (M ++ x :: S) := by
  have e : P ++ x :: (M ++ y :: S) = (P ++ x :: M) ++ y :: S := by simp
  have h1 : at? (P ++ x :: (M ++ y :: S)) i = some x := at?_mid _ _ _ _ hi
  have h2 : at? (P ++ x :: (M ++ y :: S)) j = some y := by
    rw [e]; exact at?_mid _ _ _ _ (by simp; omega)
  simp only [lswap, h1, h2]
  rw [setAt_mid' _ _ _ _ _ hi]
  have e' : P ++ y :: (M ++ y :: S) = (P ++ y :: M) ++ y :: S := by simp
  rw [e', setAt_mid' _ _ _ _ _ (by simp; omega)]
  simp

end GoSTL.Algo
