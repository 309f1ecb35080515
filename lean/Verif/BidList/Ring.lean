import Verif.BidList.Model
import Mathlib.Data.List.Nodup
import Mathlib.Data.List.Chain
import Mathlib.Tactic.Common
/-!
# Rings of nodes and the two pointer surgeries
-/
namespace GoSTL.BidList
variable {T : Type}

/-! ## Fields of nodes -/

/-- Field `next`. -/
def nx (w : World T) (n : Nat) : Option Nat := w.nodes[n]?.bind Node.next
/-- Field `prev`. -/
def pv (w : World T) (n : Nat) : Option Nat := w.nodes[n]?.bind Node.prev
/-- Field `Value`. -/
def vl (w : World T) (n : Nat) : Option T := w.nodes[n]?.map Node.value
/-- Field `list`. -/
def ow (w : World T) (n : Nat) : Option (Option Nat) := w.nodes[n]?.map Node.list

/-- Same lists, values and owners. -/
structure Keep (w w' : World T) : Prop where
  lists : w'.lists = w.lists
  len : w'.nodes.length = w.nodes.length
  vl : ∀ m, vl w' m = vl w m
  ow : ∀ m, ow w' m = ow w m

theorem Keep.refl (w : World T) : Keep w w := ⟨rfl, rfl, fun _ => rfl, fun _ => rfl⟩
theorem Keep.trans {a b c : World T} (h : Keep a b) (h' : Keep b c) : Keep a c :=
  ⟨h'.lists.trans h.lists, h'.len.trans h.len, fun m => (h'.vl m).trans (h.vl m), fun m => (h'.ow m).trans (h.ow m)⟩

theorem node_ok {w : World T} {n : Nat} (h : n < w.nodes.length) :
    ∃ nd, node w n = .ok nd ∧ nx w n = nd.next ∧ pv w n = nd.prev ∧ vl w n = some nd.value ∧ ow w n = some nd.list := by
  have e : w.nodes[n]? = some w.nodes[n] := by simp
  refine ⟨w.nodes[n], by simp [node, e], ?_, ?_, ?_, ?_⟩ <;> simp [nx, pv, vl, ow, e]

theorem node_panic {w : World T} {n : Nat} (h : w.nodes.length ≤ n) : node w n = .panic := by
  simp [node, List.getElem?_eq_none h]

theorem nx_lt {w : World T} {n x : Nat} (h : nx w n = some x) : n < w.nodes.length := by
  by_contra c
  rw [nx, List.getElem?_eq_none (by omega)] at h; cases h
theorem pv_lt {w : World T} {n x : Nat} (h : pv w n = some x) : n < w.nodes.length := by
  by_contra c
  rw [pv, List.getElem?_eq_none (by omega)] at h; cases h
theorem ow_lt {w : World T} {n : Nat} {o : Option Nat} (h : ow w n = some o) : n < w.nodes.length := by
  by_contra c
  rw [ow, List.getElem?_eq_none (by omega)] at h; cases h

theorem setNext_spec {w : World T} {n : Nat} (h : n < w.nodes.length) (p : Option Nat) :
    ∃ w', setNext w n p = .ok w' ∧ Keep w w' ∧ (∀ m, nx w' m = if m = n then p else nx w m) ∧ (∀ m, pv w' m = pv w m) := by
  have e : w.nodes[n]? = some w.nodes[n] := by simp
  refine ⟨{ w with nodes := w.nodes.set n { w.nodes[n] with next := p } }, by simp [setNext, modNode, node, e], ⟨rfl, by simp, ?_, ?_⟩, ?_, ?_⟩ <;> intro m <;>
    simp only [vl, ow, nx, pv, List.getElem?_set] <;> by_cases c : n = m
  all_goals first
    | (subst c; simp [h])
    | simp [c, Ne.symm c]

theorem setPrev_spec {w : World T} {n : Nat} (h : n < w.nodes.length) (p : Option Nat) :
    ∃ w', setPrev w n p = .ok w' ∧ Keep w w' ∧ (∀ m, nx w' m = nx w m) ∧ (∀ m, pv w' m = if m = n then p else pv w m) := by
  have e : w.nodes[n]? = some w.nodes[n] := by simp
  refine ⟨{ w with nodes := w.nodes.set n { w.nodes[n] with prev := p } }, by simp [setPrev, modNode, node, e], ⟨rfl, by simp, ?_, ?_⟩, ?_, ?_⟩ <;> intro m <;>
    simp only [vl, ow, nx, pv, List.getElem?_set] <;> by_cases c : n = m
  all_goals first
    | (subst c; simp [h])
    | simp [c, Ne.symm c]

theorem link_spec {w : World T} {n a x : Nat} (hn : n < w.nodes.length) (hna : n ≠ a) (hx : nx w a = some x) (hxl : x < w.nodes.length)
    (hxn : x ≠ n) : ∃ w', link w n a = .ok w' ∧ Keep w w' ∧
      (∀ m, nx w' m = if m = a then some n else if m = n then some x else nx w m) ∧
      (∀ m, pv w' m = if m = x then some n else if m = n then some a else pv w m) := by
  have ha := nx_lt hx
  obtain ⟨na, e1, f1, -, -, -⟩ := node_ok ha
  rw [hx] at f1
  obtain ⟨w1, e2, k2, n2, p2⟩ := setNext_spec hn na.next
  obtain ⟨w2, e3, k3, n3, p3⟩ := setPrev_spec (w := w1) (n := n) (by rw [k2.len]; exact hn) (some a)
  have hl2 : w2.nodes.length = w.nodes.length := by rw [k3.len, k2.len]
  obtain ⟨nb, e4, f4, -, -, -⟩ := node_ok (w := w2) (n := a) (by omega)
  have hx2 : nb.next = some x := by rw [← f4, n3, n2, if_neg (Ne.symm hna), hx]
  obtain ⟨w3, e5, k5, n5, p5⟩ := setPrev_spec (w := w2) (n := x) (by omega) (some n)
  obtain ⟨w4, e6, k6, n6, p6⟩ := setNext_spec (w := w3) (n := a) (by rw [k5.len]; omega) (some n)
  refine ⟨w4, ?_, ((k2.trans k3).trans k5).trans k6, ?_, ?_⟩
  · simp only [link, e1, Res.ok_bind, e2, e3, e4, hx2, Res.ofOption_some, e5, e6]
  · intro m
    rw [n6, n5, n3, n2, ← f1]
  · intro m
    rw [p6, p5, p3, p2]

theorem unlink_spec {w : World T} {n p x : Nat} (hp : pv w n = some p) (hx : nx w n = some x) (hpl : p < w.nodes.length)
    (hxl : x < w.nodes.length) : ∃ w', unlink w n = .ok w' ∧ Keep w w' ∧
      (∀ m, nx w' m = if m = p then some x else nx w m) ∧ (∀ m, pv w' m = if m = x then some p else pv w m) := by
  have hn := nx_lt hx
  obtain ⟨nd, e1, f1, g1, -, -⟩ := node_ok hn
  rw [hx] at f1
  rw [hp] at g1
  obtain ⟨w1, e2, k2, n2, p2⟩ := setNext_spec hpl nd.next
  obtain ⟨nb, e4, f4, g4, -, -⟩ := node_ok (w := w1) (n := n) (by rw [k2.len]; exact hn)
  have hx2 : nb.next = some x := by
    rw [← f4, n2]; split
    · exact f1.symm
    · exact hx
  have hp2 : nb.prev = some p := by rw [← g4, p2, hp]
  obtain ⟨w3, e5, k5, n5, p5⟩ := setPrev_spec (w := w1) (n := x) (by rw [k2.len]; exact hxl) (some p)
  refine ⟨w3, ?_, k2.trans k5, ?_, ?_⟩
  · simp only [unlink, e1, Res.ok_bind, ← g1, Res.ofOption_some, e2, e4, hx2, hp2, e5]
  · intro m; rw [n5, n2, ← f1]
  · intro m; rw [p5, p2]

/-! ## Rings -/

/-- Each node points forward to the next one and the next one points back. -/
def Links (w : World T) (l : List Nat) : Prop := l.IsChain (fun a b => nx w a = some b ∧ pv w b = some a)

/-- The nodes `s` form a ring in this order. -/
def Ring (w : World T) (s : List Nat) : Prop := Links w (s ++ s.head?.toList)

theorem Links.frame {w w' : World T} {l : List Nat} (h : Links w l) (hn : ∀ a ∈ l.dropLast, nx w' a = nx w a)
    (hp : ∀ b ∈ l.tail, pv w' b = pv w b) : Links w' l := by
  induction l with
  | nil => exact .nil
  | cons a l ih =>
    cases l with
    | nil => exact .singleton _
    | cons b l =>
      unfold Links at h ih ⊢
      rw [List.isChain_cons_cons] at h ⊢
      obtain ⟨⟨h1, h2⟩, h3⟩ := h
      refine ⟨⟨?_, ?_⟩, ih h3 ?_ ?_⟩
      · rw [hn a (by simp)]; exact h1
      · rw [hp b (by simp)]; exact h2
      · intro c hc; apply hn; simp [List.dropLast]; right; exact hc
      · intro c hc; apply hp; simp; right; exact hc

theorem links_append {w : World T} {l r : List Nat} : Links w (l ++ r) ↔
    Links w l ∧ Links w r ∧ ∀ x ∈ l.getLast?, ∀ y ∈ r.head?, nx w x = some y ∧ pv w y = some x := by
  unfold Links; exact List.isChain_append

theorem Ring.rotate {w : World T} {A B : List Nat} (h : Ring w (A ++ B)) : Ring w (B ++ A) := by
  cases A with
  | nil => simpa using h
  | cons a A =>
    cases B with
    | nil => simpa using h
    | cons b B =>
      unfold Ring at h ⊢
      simp only [List.cons_append, List.head?_cons, Option.toList_some] at h ⊢
      have h' : Links w ((a :: A) ++ ((b :: B) ++ [a])) := by simpa using h
      rw [links_append] at h'
      obtain ⟨h1, h2, h3⟩ := h'
      rw [links_append] at h2
      obtain ⟨h4, h5, h6⟩ := h2
      have : Links w ((b :: B) ++ ((a :: A) ++ [b])) := by
        rw [links_append, links_append]
        exact ⟨h4, ⟨h1, .singleton _, fun x hx y hy => h3 x hx y (by simpa using hy)⟩, fun x hx y hy => h6 x hx y (by simpa using hy)⟩
      simpa using this

theorem Ring.frame {w w' : World T} {s : List Nat} (h : Ring w s) (hn : ∀ a ∈ s, nx w' a = nx w a) (hp : ∀ a ∈ s, pv w' a = pv w a) :
    Ring w' s := by
  have hm : ∀ a ∈ s ++ s.head?.toList, a ∈ s := by
    intro a ha
    rcases List.mem_append.1 ha with h | h
    · exact h
    · cases s with
      | nil => simp at h
      | cons b s => simp at h; subst h; simp
  exact Links.frame h (fun a ha => hn a (hm a (List.dropLast_subset _ ha))) (fun a ha => hp a (hm a (List.mem_of_mem_tail ha)))

/-- Neighbours in a ring. -/
theorem Ring.next {w : World T} {P Q : List Nat} {a : Nat} (h : Ring w (P ++ a :: Q)) : nx w a = (Q ++ P ++ [a]).head? := by
  have h := h.rotate
  unfold Ring at h
  cases hQ : Q ++ P with
  | nil =>
    obtain ⟨rfl, rfl⟩ : Q = [] ∧ P = [] := by simpa using hQ
    simp only [List.cons_append, List.nil_append, List.head?_cons, Option.toList_some, Links] at h
    rw [List.isChain_cons_cons] at h
    exact h.1.1
  | cons b M =>
    simp only [List.cons_append, hQ, List.head?_cons, Option.toList_some, Links] at h ⊢
    rw [List.isChain_cons_cons] at h
    exact h.1.1

theorem Ring.prev {w : World T} {P Q : List Nat} {a : Nat} (h : Ring w (P ++ a :: Q)) : pv w a = (a :: (Q ++ P)).getLast? := by
  have h := h.rotate
  unfold Ring at h
  have h' : Links w ((a :: (Q ++ P)) ++ [a]) := by simpa using h
  rw [links_append] at h'
  have := h'.2.2 ((a :: (Q ++ P)).getLast (by simp)) (by simp [List.getLast?_eq_getLast_of_ne_nil]) a (by simp)
  rw [List.getLast?_eq_getLast_of_ne_nil (by simp)]
  exact this.2

/-- Linking a node after the last one. -/
theorem Ring.insert {w w' : World T} {M : List Nat} {a n x : Nat} (h : Ring w (M ++ [a])) (hd : (M ++ [a]).Nodup) (hn : n ∉ M ++ [a])
    (hx : nx w a = some x)
    (en : ∀ m, nx w' m = if m = a then some n else if m = n then some x else nx w m)
    (ep : ∀ m, pv w' m = if m = x then some n else if m = n then some a else pv w m) : Ring w' (M ++ [a, n]) := by
  have hxh : (M ++ [a]).head? = some x := by
    have := h.next
    simp only [List.nil_append] at this
    rw [← this, hx]
  have hna : n ≠ a := by rintro rfl; simp at hn
  have hxm : x ∈ M ++ [a] := List.mem_of_mem_head? hxh
  have hnx : n ≠ x := by rintro rfl; exact hn hxm
  have haM : a ∉ M := by
    rw [List.nodup_append] at hd
    intro ha; exact hd.2.2 a ha a (by simp) rfl
  unfold Ring at h ⊢
  rw [hxh] at h
  have e1 : (M ++ [a, n]).head? = some x := by
    cases M with
    | nil => simpa using hxh
    | cons b M => simpa using hxh
  rw [e1]
  rw [links_append] at h
  have e2 : M ++ [a, n] ++ (some x).toList = (M ++ [a]) ++ ([n] ++ [x]) := by simp
  rw [e2, links_append, links_append (l := [n])]
  refine ⟨h.1.frame ?_ ?_, ⟨.singleton _, .singleton _, ?_⟩, ?_⟩
  · intro b hb
    rw [List.dropLast_concat] at hb
    rw [en, if_neg (by rintro rfl; exact haM hb), if_neg (by rintro rfl; exact hn (by simp [hb]))]
  · intro b hb
    rw [ep, if_neg, if_neg]
    · rintro rfl; exact hn (List.mem_of_mem_tail hb)
    · rintro rfl
      cases hM : M ++ [a] with
      | nil => simp at hM
      | cons c M' =>
        rw [hM] at hb hxh hd
        simp at hxh hb; subst hxh
        exact (List.nodup_cons.1 hd).1 hb
  · intro y hy z hz
    simp at hy hz; subst hy hz
    rw [en, ep, if_neg hna, if_pos rfl, if_pos rfl]; exact ⟨rfl, rfl⟩
  · intro y hy z hz
    simp at hy hz; subst hy hz
    rw [en, ep, if_pos rfl, if_neg hnx, if_pos rfl]; exact ⟨rfl, rfl⟩

/-- Taking the first node out. -/
theorem Ring.remove {w w' : World T} {M : List Nat} {n p x : Nat} (h : Ring w (n :: M)) (hd : (n :: M).Nodup) (hM : M ≠ [])
    (hp : pv w n = some p) (hx : nx w n = some x)
    (en : ∀ m, nx w' m = if m = p then some x else nx w m)
    (ep : ∀ m, pv w' m = if m = x then some p else pv w m) : Ring w' M := by
  have hxh : M.head? = some x := by
    have := Ring.next (P := []) h
    rw [hx, List.append_nil, List.head?_append_of_ne_nil _ hM] at this
    exact this.symm
  have hpl : M.getLast? = some p := by
    have := Ring.prev (P := []) h
    rw [hp, List.append_nil] at this
    cases M with
    | nil => exact absurd rfl hM
    | cons b M => rw [this]; simp [List.getLast?_cons_cons]
  have hdM := (List.nodup_cons.1 hd).2
  unfold Ring at h ⊢
  rw [hxh]
  simp only [List.head?_cons, Option.toList_some, Option.toList] at h ⊢
  have h' : Links w ([n] ++ (M ++ [n])) := by simpa using h
  rw [links_append, links_append] at h'
  rw [links_append]
  refine ⟨h'.2.1.1.frame ?_ ?_, .singleton _, ?_⟩
  · intro b hb
    rw [en, if_neg]
    rintro rfl
    obtain ⟨ys, e⟩ := List.getLast?_eq_some_iff.1 hpl
    rw [e, List.dropLast_concat] at hb
    rw [e, List.nodup_append] at hdM
    exact hdM.2.2 b hb b (by simp) rfl
  · intro b hb
    rw [ep, if_neg]
    rintro rfl
    cases M with
    | nil => simp at hb
    | cons c M' => simp at hxh hb; subst hxh; exact (List.nodup_cons.1 hdM).1 hb
  · intro y hy z hz
    rw [hpl] at hy
    simp at hy hz; subst hy hz
    rw [en, ep, if_pos rfl, if_pos rfl]; exact ⟨rfl, rfl⟩

end GoSTL.BidList
