import Verif.BidList.Ring
import Verif.BidList.Spec
/-!
# The invariant and the single-list updates
-/
namespace GoSTL.BidList
variable {T : Type}
open Spec

/-- The world holds exactly the lists of the specification. -/
structure WInv (w : World T) (S : Spec T) : Prop where
  nlist : w.lists.length = S.seqs.length
  nnode : w.nodes.length = S.vals.length
  lst : ∀ (i : Nat) (s : List Nat), S.seqs[i]? = some s → w.lists[i]? = some (Lst.mk s.head? s.length)
  ring : ∀ (i : Nat) (s : List Nat), S.seqs[i]? = some s → Ring w s
  nodup : ∀ (i : Nat) (s : List Nat), S.seqs[i]? = some s → s.Nodup
  own : ∀ (i : Nat) (s : List Nat) (n : Nat), S.seqs[i]? = some s → n ∈ s → ow w n = some (some i)
  free : ∀ i n, ow w n = some (some i) → n ∉ S.stale → n ∈ S.seq i
  vals : ∀ n, vl w n = S.vals[n]?

theorem seq_of {S : Spec T} {i : Nat} {s : List Nat} (h : S.seqs[i]? = some s) : S.seq i = s := by simp [seq, h]
theorem seqs_some {S : Spec T} {i : Nat} (h : S.isList i) : S.seqs[i]? = some (S.seq i) := by
  have h : i < S.seqs.length := h
  simp [seq, h]
theorem seqs_some_mem {S : Spec T} {i n : Nat} (h : n ∈ S.seq i) : S.seqs[i]? = some (S.seq i) := by
  unfold seq at *
  cases e : S.seqs[i]? with
  | none => simp [e] at h
  | some s => simp
theorem isList_of {S : Spec T} {i : Nat} {s : List Nat} (h : S.seqs[i]? = some s) : S.isList i := (List.getElem?_eq_some_iff.1 h).1

section lists
variable (w : World T) (L : List Lst)
@[simp] theorem nx_lists (m : Nat) : nx { w with lists := L } m = nx w m := rfl
@[simp] theorem pv_lists (m : Nat) : pv { w with lists := L } m = pv w m := rfl
@[simp] theorem vl_lists (m : Nat) : vl { w with lists := L } m = vl w m := rfl
@[simp] theorem ow_lists (m : Nat) : ow { w with lists := L } m = ow w m := rfl
theorem ring_lists (s : List Nat) : Ring { w with lists := L } s ↔ Ring w s := Iff.rfl
end lists

theorem lst_ok {w : World T} {l : Nat} {x : Lst} (h : w.lists[l]? = some x) : lst w l = .ok x := by simp [BidList.lst, h]
theorem lst_panic {w : World T} {l : Nat} (h : w.lists.length ≤ l) : lst w l = .panic := by
  simp [BidList.lst, List.getElem?_eq_none h]
theorem setHead_ok {w : World T} {l : Nat} {x : Lst} (h : w.lists[l]? = some x) (p : Option Nat) :
    setHead w l p = .ok { w with lists := w.lists.set l { x with head := p } } := by simp [setHead, modLst, lst_ok h]
theorem setLen_ok {w : World T} {l : Nat} {x : Lst} (h : w.lists[l]? = some x) (f : Int → Int) :
    setLen w l f = .ok { w with lists := w.lists.set l { x with len := f x.len } } := by simp [setLen, modLst, lst_ok h]

theorem set_get {α : Type} {L : List α} {l : Nat} {x y : α} (h : L[l]? = some x) : (L.set l y)[l]? = some y := by
  have := (List.getElem?_eq_some_iff.1 h).1
  simp [this]

theorem WInv.lt {w : World T} {S : Spec T} (h : WInv w S) {i n : Nat} {s : List Nat} (hs : S.seqs[i]? = some s) (hn : n ∈ s) :
    n < w.nodes.length := ow_lt (h.own i s n hs hn)

/-- One list changes, the rest of the world does not. -/
theorem WInv.update {w w' : World T} {S S' : Spec T} {i : Nat} {s s' : List Nat} (h : WInv w S) (hi : S.seqs[i]? = some s)
    (hS : S'.seqs = S.seqs.set i s') (hl : w'.lists = w.lists.set i ⟨s'.head?, s'.length⟩)
    (nnode : w'.nodes.length = S'.vals.length)
    (ring : Ring w' s') (nodup : s'.Nodup) (own : ∀ n ∈ s', ow w' n = some (some i))
    (frame : ∀ m, m < w.nodes.length → ow w m ≠ some (some i) → nx w' m = nx w m ∧ pv w' m = pv w m ∧ ow w' m = ow w m)
    (free : ∀ m j, ow w' m = some (some j) → m ∉ S'.stale → (j = i ∧ m ∈ s') ∨ (j ≠ i ∧ ow w m = some (some j)))
    (stale : ∀ m ∈ S.stale, m ∈ S'.stale)
    (vals : ∀ n, vl w' n = S'.vals[n]?) : WInv w' S' := by
  have hil := (List.getElem?_eq_some_iff.1 hi).1
  have key : ∀ j t, S'.seqs[j]? = some t → (j = i ∧ t = s') ∨ (j ≠ i ∧ S.seqs[j]? = some t) := by
    intro j t hj
    rw [hS, List.getElem?_set] at hj
    by_cases c : i = j
    · subst c; simp [hil] at hj; exact .inl ⟨rfl, hj.symm⟩
    · simp [c] at hj; exact .inr ⟨Ne.symm c, hj⟩
  have fr : ∀ j t, j ≠ i → S.seqs[j]? = some t → ∀ a ∈ t, nx w' a = nx w a ∧ pv w' a = pv w a ∧ ow w' a = ow w a := by
    intro j t hj ht a ha
    have := h.own j t a ht ha
    exact frame a (ow_lt this) (by rw [this]; simpa using hj)
  refine ⟨by rw [hl, hS]; simp [h.nlist], nnode, ?_, ?_, ?_, ?_, ?_, vals⟩
  · intro j t hj
    rcases key j t hj with ⟨rfl, rfl⟩ | ⟨hne, ht⟩
    · rw [hl]; exact set_get (h.lst _ _ hi)
    · rw [hl, List.getElem?_set_ne (Ne.symm hne)]; exact h.lst j t ht
  · intro j t hj
    rcases key j t hj with ⟨rfl, rfl⟩ | ⟨hne, ht⟩
    · exact ring
    · exact (h.ring j t ht).frame (fun a ha => (fr j t hne ht a ha).1) (fun a ha => (fr j t hne ht a ha).2.1)
  · intro j t hj
    rcases key j t hj with ⟨rfl, rfl⟩ | ⟨hne, ht⟩
    · exact nodup
    · exact h.nodup j t ht
  · intro j t n hj hn
    rcases key j t hj with ⟨rfl, rfl⟩ | ⟨hne, ht⟩
    · exact own n hn
    · rw [(fr j t hne ht n hn).2.2]; exact h.own j t n ht hn
  · intro j n hj hst
    rcases free n j hj hst with ⟨rfl, hm⟩ | ⟨hne, ho⟩
    · simp [seq, hS, hil, hm]
    · have := h.free j n ho (fun c => hst (stale n c))
      simp only [seq, hS] at this ⊢
      rw [List.getElem?_set_ne (Ne.symm hne)]; exact this

/-- A new node whose owner is list `l`. -/
theorem alloc_spec (w : World T) (v : T) (l : Nat) : (alloc w v l).1 = w.nodes.length ∧ (alloc w v l).2.lists = w.lists ∧
    (alloc w v l).2.nodes.length = w.nodes.length + 1 ∧
    (∀ m, m ≠ w.nodes.length → nx (alloc w v l).2 m = nx w m ∧ pv (alloc w v l).2 m = pv w m ∧ vl (alloc w v l).2 m = vl w m ∧
      ow (alloc w v l).2 m = ow w m) ∧
    vl (alloc w v l).2 w.nodes.length = some v ∧ ow (alloc w v l).2 w.nodes.length = some (some l) := by
  refine ⟨rfl, rfl, by simp [alloc], ?_, by simp [alloc, vl], by simp [alloc, ow]⟩
  intro m hm
  have : (w.nodes ++ [({ prev := none, next := none, value := v, list := some l } : Node T)])[m]? = w.nodes[m]? := by
    rcases Nat.lt_or_gt_of_ne hm with h | h
    · exact List.getElem?_append_left h
    · rw [List.getElem?_eq_none (by simp; omega), List.getElem?_eq_none (by omega)]
  simp [alloc, nx, pv, vl, ow, this]

/-- The world after a new node was linked in: any rotation of the ring may be declared to be the list. -/
structure Inserted (w w' : World T) (S : Spec T) (l : Nat) (v : T) (r : List Nat) (k : Int) : Prop where
  lists : ∃ hd, w'.lists = w.lists.set l ⟨hd, k⟩ ∧ hd = (S.seq l).head?
  inv : ∀ A B, r = A ++ B →
    WInv { w' with lists := w.lists.set l ⟨(B ++ A).head?, (B ++ A).length⟩ } ((S.addVal v).setSeq l (B ++ A))

theorem vals_add {w w' : World T} {S : Spec T} {v : T} (h : WInv w S) (hlen : w'.nodes.length = w.nodes.length + 1)
    (hold : ∀ m, m ≠ w.nodes.length → vl w' m = vl w m) (hnew : vl w' w.nodes.length = some v) :
    ∀ n, vl w' n = (S.addVal v).vals[n]? := by
  intro n
  simp only [addVal]
  by_cases c : n = w.nodes.length
  · subst c; rw [hnew, h.nnode]; simp
  · rw [hold n c, h.vals]
    rcases Nat.lt_or_gt_of_ne c with d | d
    · rw [List.getElem?_append_left (by rw [← h.nnode]; exact d)]
    · rw [List.getElem?_eq_none (by rw [← h.nnode]; omega), List.getElem?_eq_none (by simp; rw [← h.nnode]; omega)]

theorem insertAfter_spec {w : World T} {S : Spec T} (h : WInv w S) {l a : Nat} {P Q : List Nat} (v : T)
    (hs : S.seqs[l]? = some (P ++ a :: Q)) :
    ∃ w', insertAfter_ (alloc w v l).2 l w.nodes.length a = .ok w' ∧
      Inserted w w' S l v (P ++ a :: w.nodes.length :: Q) ((P ++ a :: Q).length + 1) := by
  set n := w.nodes.length with hn
  obtain ⟨-, al, alen, aold, avl, aow⟩ := alloc_spec w v l
  set w0 := (alloc w v l).2
  have hlt : ∀ b ∈ P ++ a :: Q, b < n := fun b hb => h.lt hs hb
  have hnm : n ∉ P ++ a :: Q := fun c => absurd (hlt n c) (by omega)
  have hr0 : Ring w0 (P ++ a :: Q) := (h.ring l _ hs).frame (fun b hb => (aold b (by have := hlt b hb; omega)).1)
    (fun b hb => (aold b (by have := hlt b hb; omega)).2.1)
  have hr : Ring w0 ((Q ++ P) ++ [a]) := by
    have : Ring w0 ((P ++ [a]) ++ Q) := by simpa using hr0
    simpa using this.rotate
  have hmem : ∀ b, b ∈ Q ++ P ++ [a] ↔ b ∈ P ++ a :: Q := by intro b; simp; tauto
  obtain ⟨x, hx⟩ : ∃ x, (Q ++ P ++ [a]).head? = some x := by
    cases e : Q ++ P ++ [a] with
    | nil => simp at e
    | cons x _ => exact ⟨x, rfl⟩
  have hxm : x ∈ P ++ a :: Q := (hmem x).1 (List.mem_of_mem_head? hx)
  have hxn : nx w0 a = some x := by rw [hr0.next, hx]
  have hal : a < n := hlt a (by simp)
  obtain ⟨w1, e1, k1, n1, p1⟩ := link_spec (w := w0) (n := n) (a := a) (x := x) (by omega) (by omega) hxn
    (by have := hlt x hxm; omega) (by have := hlt x hxm; omega)
  have hnd : (P ++ a :: Q).Nodup := h.nodup l _ hs
  have hnd' : (Q ++ P ++ [a]).Nodup := by
    refine (List.Perm.nodup_iff ?_).1 hnd
    have : (P ++ a :: Q) = (P ++ [a]) ++ Q := by simp
    rw [this, List.append_assoc Q P [a]]
    exact List.perm_append_comm
  have hr1 : Ring w1 (Q ++ P ++ [a, n]) := Ring.insert hr hnd' (by rw [hmem]; exact hnm) hxn n1 p1
  have hr2 : Ring w1 (P ++ a :: n :: Q) := by
    have : Ring w1 (Q ++ (P ++ [a, n])) := by simpa using hr1
    simpa using this.rotate
  have hl1 : w1.lists[l]? = some ⟨(P ++ a :: Q).head?, (P ++ a :: Q).length⟩ := by rw [k1.lists, al]; exact h.lst l _ hs
  refine ⟨{ w1 with lists := w1.lists.set l ⟨(P ++ a :: Q).head?, (P ++ a :: Q).length + 1⟩ },
    by simp only [insertAfter_, e1, Res.ok_bind, setLen_ok hl1], ⟨(P ++ a :: Q).head?, by simp [k1.lists, al], by rw [seq_of hs]⟩, ?_⟩
  intro A B hAB
  have hpm : ∀ b, b ∈ B ++ A ↔ (b ∈ P ++ a :: Q ∨ b = n) := by
    intro b
    have : b ∈ B ++ A ↔ b ∈ P ++ a :: n :: Q := by rw [hAB]; simp; tauto
    rw [this]; simp; tauto
  refine h.update hs (s' := B ++ A) rfl rfl ?_ ?_ ?_ ?_ ?_ ?_ (fun _ x => x) ?_
  · simp [addVal, setSeq, k1.len, alen, hn, h.nnode]
  · refine (ring_lists _ _ _).2 ?_
    rw [hAB] at hr2; exact hr2.rotate
  · have h1 : (P ++ a :: n :: Q).Nodup := by
      have : ((P ++ [a]) ++ n :: Q).Nodup := by
        rw [List.nodup_middle]
        exact List.nodup_cons.2 ⟨by simpa using hnm, by simpa using hnd⟩
      simpa using this
    rw [hAB] at h1
    exact (List.perm_append_comm.nodup_iff).1 h1
  · intro m hm
    simp only [ow_lists]
    rw [k1.ow]
    rcases (hpm m).1 hm with hm | rfl
    · rw [(aold m (by have := hlt m hm; omega)).2.2.2]; exact h.own l _ m hs hm
    · exact aow
  · intro m hm hmo
    have hma : m ∉ P ++ a :: Q := fun c => hmo (h.own l _ m hs c)
    simp only [nx_lists, pv_lists, ow_lists]
    rw [n1, p1, k1.ow, if_neg (by rintro rfl; exact hma (by simp)), if_neg (by omega),
      if_neg (by rintro rfl; exact hma hxm), if_neg (by omega)]
    have := aold m (by omega)
    exact ⟨this.1, this.2.1, this.2.2.2⟩
  · intro m j hm hst
    simp only [ow_lists] at hm
    rw [k1.ow] at hm
    by_cases c : m = n
    · subst c
      rw [aow] at hm; simp at hm
      exact .inl ⟨hm.symm, (hpm _).2 (.inr rfl)⟩
    · rw [(aold m (by omega)).2.2.2] at hm
      by_cases d : j = l
      · subst d
        have := h.free j m hm hst
        rw [seq_of hs] at this
        exact .inl ⟨rfl, (hpm _).2 (.inl this)⟩
      · exact .inr ⟨d, hm⟩
  · apply vals_add h
    · simp [k1.len, alen]
    · intro m hm; simp only [vl_lists]; rw [k1.vl]; exact (aold m hm).2.2.1
    · simp only [vl_lists]; rw [k1.vl]; exact avl

end GoSTL.BidList
