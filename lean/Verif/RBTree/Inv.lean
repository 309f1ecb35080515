import Verif.RBTree.Ops
/-!
# Red-black conditions on trees and contexts
-/
namespace GoSTL.RB
open T
variable {K V : Type}

/-- Every path from the root of the tree to a leaf has `n` black nodes. -/
def BH : T K V → Nat → Prop
  | .leaf, n => n = 0
  | .node l _ b _ _ r, n => ∃ m, BH l m ∧ BH r m ∧ n = if b then m + 1 else m

/-- No red node has a red child. -/
def NoRR : T K V → Prop
  | .leaf => True
  | .node l _ b _ _ r => (b = false → l.isBlack = true ∧ r.isBlack = true) ∧ NoRR l ∧ NoRR r

/-- The red-black conditions. -/
def RBT (t : T K V) : Prop := t.isBlack = true ∧ NoRR t ∧ ∃ n, BH t n

/-- The node above the hole exists and is black. -/
def headBlack : Ctx K V → Bool
  | [] => false
  | f :: _ => f.isBlack

@[simp] theorem headBlack_nil : headBlack ([] : Ctx K V) = false := rfl
@[simp] theorem headBlack_cons (f : Frame K V) (c) : headBlack (f :: c) = f.isBlack := rfl

/-- The context satisfies the red-black conditions around a hole of black height `n`. -/
def CtxOK : Ctx K V → Nat → Prop
  | [], _ => True
  | .L _ b _ _ r :: c, n => BH r n ∧ NoRR r ∧ (b = false → r.isBlack = true ∧ headBlack c = true) ∧
      CtxOK c (if b then n + 1 else n)
  | .R l _ b _ _ :: c, n => BH l n ∧ NoRR l ∧ (b = false → l.isBlack = true ∧ headBlack c = true) ∧
      CtxOK c (if b then n + 1 else n)

theorem plug_ok {c : Ctx K V} {t : T K V} {n : Nat} (hc : CtxOK c n) (hb : BH t n) (hn : NoRR t)
    (hh : t.isBlack = true ∨ headBlack c = true ∨ c = []) :
    NoRR (plug c t) ∧ (∃ m, BH (plug c t) m) ∧ (c ≠ [] → (plug c t).isBlack = true) := by
  induction c generalizing t n with
  | nil => exact ⟨hn, ⟨n, hb⟩, by simp⟩
  | cons f c ih =>
    cases f with
    | L i b k v r =>
      obtain ⟨h1, h2, h3, h4⟩ := hc
      have := ih (t := .node t i b k v r) h4 ⟨n, hb, h1, rfl⟩
        ⟨fun h => ⟨by subst h; simpa using hh, (h3 h).1⟩, hn, h2⟩ (by cases b <;> simp_all)
      refine ⟨this.1, this.2.1, fun _ => ?_⟩
      by_cases hc : c = []
      · subst hc; cases b <;> simp_all
      · exact this.2.2 hc
    | R l i b k v =>
      obtain ⟨h1, h2, h3, h4⟩ := hc
      have := ih (t := .node l i b k v t) h4 ⟨n, h1, hb, rfl⟩
        ⟨fun h => ⟨(h3 h).1, by subst h; simpa using hh⟩, h2, hn⟩ (by cases b <;> simp_all)
      refine ⟨this.1, this.2.1, fun _ => ?_⟩
      by_cases hc : c = []
      · subst hc; cases b <;> simp_all
      · exact this.2.2 hc

theorem BH.unique {t : T K V} {n m : Nat} (h : BH t n) (h' : BH t m) : n = m := by
  induction t generalizing n m with
  | leaf => simp [BH] at h h'; omega
  | node l i b k v r ihl ihr =>
    obtain ⟨a, h1, _, rfl⟩ := h
    obtain ⟨b', h2, _, rfl⟩ := h'
    rw [ihl h1 h2]

theorem plug_ok_inv {c : Ctx K V} {t : T K V} (hr : NoRR (plug c t)) (hb : ∃ m, BH (plug c t) m)
    (hblack : (plug c t).isBlack = true) :
    ∃ n, CtxOK c n ∧ BH t n ∧ NoRR t ∧ (t.isBlack = true ∨ headBlack c = true) := by
  induction c generalizing t with
  | nil => obtain ⟨m, hm⟩ := hb; exact ⟨m, trivial, hm, hr, .inl hblack⟩
  | cons f c ih =>
    cases f with
    | L i b k v r =>
      obtain ⟨n, h1, ⟨m, h2, h2', h3⟩, ⟨h4, h5, h6⟩, h7⟩ := ih (t := .node t i b k v r) hr hb hblack
      refine ⟨m, ⟨h2', h6, fun h => ⟨(h4 h).2, by subst h; simpa using h7⟩, by rw [← h3]; exact h1⟩, h2, h5, ?_⟩
      cases b <;> simp_all
    | R l i b k v =>
      obtain ⟨n, h1, ⟨m, h2, h2', h3⟩, ⟨h4, h5, h6⟩, h7⟩ := ih (t := .node l i b k v t) hr hb hblack
      refine ⟨m, ⟨h2, h5, fun h => ⟨(h4 h).1, by subst h; simpa using h7⟩, by rw [← h3]; exact h1⟩, h2', h6, ?_⟩
      cases b <;> simp_all

theorem RBT.zip {c : Ctx K V} {t : T K V} (h : RBT (plug c t)) :
    ∃ n, CtxOK c n ∧ BH t n ∧ NoRR t ∧ (t.isBlack = true ∨ headBlack c = true) :=
  plug_ok_inv h.2.1 h.2.2 h.1

/-- A tree of black height `n` has at least `2^n - 1` nodes and height at most `2n` (`2n+1` for a red root). -/
theorem BH.size_ge {t : T K V} {n : Nat} (h : BH t n) : 2 ^ n ≤ t.entries.length + 1 := by
  induction t generalizing n with
  | leaf => simp [BH] at h; simp [h]
  | node l i b k v r ihl ihr =>
    obtain ⟨m, h1, h2, rfl⟩ := h
    have := ihl h1
    have := ihr h2
    split <;> simp <;> omega

theorem BH.height_le {t : T K V} {n : Nat} (h : BH t n) (hr : NoRR t) :
    t.height ≤ 2 * n + (if t.isBlack then 0 else 1) := by
  induction t generalizing n with
  | leaf => simp
  | node l i b k v r ihl ihr =>
    obtain ⟨m, h1, h2, rfl⟩ := h
    obtain ⟨h3, h4, h5⟩ := hr
    have hl := ihl h1 h4
    have hr := ihr h2 h5
    cases b with
    | true =>
      have hl' : l.height ≤ 2 * m + 1 := by split at hl <;> omega
      have hr' : r.height ≤ 2 * m + 1 := by split at hr <;> omega
      simp; omega
    | false =>
      have h3 := h3 rfl
      rw [h3.1] at hl; rw [h3.2] at hr
      simp at *; omega

end GoSTL.RB
