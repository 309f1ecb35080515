import Verif.BidList.Ops2
/-!
# Every call does what the specification says
-/
namespace GoSTL.BidList
variable {T : Type}
open Spec

/-- Both sides panic, or both return the same and the states still correspond. -/
inductive Agree {α : Type} : Res (α × World T) → Res (α × Spec T) → Prop
  | ok {a : α} {w : World T} {S : Spec T} : WInv w S → Agree (.ok (a, w)) (.ok (a, S))
  | panic : Agree .panic .panic

/-! ## Reading -/

theorem WInv.node_val {w : World T} {S : Spec T} (h : WInv w S) {n : Nat} (hn : n < S.vals.length) :
    ∃ nd, node w n = .ok nd ∧ S.vals[n]? = some nd.value ∧ ow w n = some nd.list ∧ nx w n = nd.next ∧ pv w n = nd.prev := by
  obtain ⟨nd, e, f1, f2, f3, f4⟩ := node_ok (w := w) (n := n) (by rw [h.nnode]; exact hn)
  exact ⟨nd, e, by rw [← h.vals, f3], f4, f1, f2⟩

theorem WInv.node_bad {w : World T} {S : Spec T} (h : WInv w S) {n : Nat} (hn : ¬ n < S.vals.length) : node w n = .panic :=
  node_panic (by rw [h.nnode]; exact Nat.not_lt.1 hn)

theorem WInv.lst_good {w : World T} {S : Spec T} (h : WInv w S) {l : Nat} (hl : S.isList l) :
    BidList.lst w l = .ok ⟨(S.seq l).head?, (S.seq l).length⟩ := lst_ok (h.lst l _ (seqs_some hl))

theorem WInv.lst_bad {w : World T} {S : Spec T} (h : WInv w S) {l : Nat} (hl : ¬ S.isList l) : BidList.lst w l = .panic :=
  lst_panic (by rw [h.nlist]; exact Nat.not_lt.1 hl)

theorem seq_bad {S : Spec T} {l : Nat} (hl : ¬ S.isList l) : S.seq l = [] := by
  simp [seq, List.getElem?_eq_none (Nat.not_lt.1 hl)]

theorem WInv.mem_lt {w : World T} {S : Spec T} (h : WInv w S) {l n : Nat} (hn : n ∈ S.seq l) : n < S.vals.length := by
  rw [← h.nnode]; exact h.lt (seqs_some_mem hn) hn

theorem next_spec {w : World T} {S : Spec T} (h : WInv w S) {l n : Nat} {P Q : List Nat} (hs : S.seqs[l]? = some (P ++ n :: Q)) :
    next w n = .ok Q.head? := by
  obtain ⟨nd, e, -, fo, fx, -⟩ := h.node_val (n := n) (by rw [← h.nnode]; exact h.lt hs (by simp))
  rw [h.own l _ n hs (by simp)] at fo
  have fo : nd.list = some l := by simpa using fo.symm
  have hl := h.lst l _ hs
  have hd := h.nodup l _ hs
  rw [(h.ring l _ hs).next] at fx
  simp only [next, e, Res.ok_bind, fo, lst_ok hl, ← fx]
  cases Q with
  | nil =>
    rw [if_pos]
    · rfl
    · cases P <;> simp
  | cons q Q =>
    rw [if_neg]
    · simp
    · cases P with
      | nil =>
        simp at hd ⊢
        rintro rfl; exact hd.1.1 rfl
      | cons p P =>
        simp at hd ⊢
        rintro rfl; exact hd.1.2.2.1 rfl

theorem prev_spec {w : World T} {S : Spec T} (h : WInv w S) {l n : Nat} {P Q : List Nat} (hs : S.seqs[l]? = some (P ++ n :: Q)) :
    prev w n = .ok P.getLast? := by
  obtain ⟨nd, e, -, fo, -, fp⟩ := h.node_val (n := n) (by rw [← h.nnode]; exact h.lt hs (by simp))
  rw [h.own l _ n hs (by simp)] at fo
  have fo : nd.list = some l := by simpa using fo.symm
  have hl := h.lst l _ hs
  have hd := h.nodup l _ hs
  rw [(h.ring l _ hs).prev] at fp
  simp only [prev, e, Res.ok_bind, fo, lst_ok hl, ← fp]
  cases P using List.reverseRecOn with
  | nil => simp
  | append_singleton P p =>
    rw [if_neg]
    · have : n :: (Q ++ (P ++ [p])) = (n :: (Q ++ P)) ++ [p] := by simp
      rw [this, List.getLast?_concat, List.getLast?_concat]
    · intro c
      have hm : n ∈ P ++ [p] := by
        have : (P ++ [p] ++ n :: Q).head? = (P ++ [p]).head? := by cases P <;> simp
        rw [this] at c
        exact List.mem_of_mem_head? c.symm
      rw [List.nodup_append] at hd
      exact hd.2.2 n hm n (by simp) rfl

theorem after_mid {n : Nat} {P Q : List Nat} (h : n ∉ P) : after n (P ++ n :: Q) = Q.head? := by
  have : (P ++ n :: Q).idxOf n = P.length := by rw [List.idxOf_append]; simp [h]
  simp only [after, this]
  rw [List.drop_append]; simp

theorem before_mid {n : Nat} {P Q : List Nat} (h : n ∉ P) : before n (P ++ n :: Q) = P.getLast? := by
  have : (P ++ n :: Q).idxOf n = P.length := by rw [List.idxOf_append]; simp [h]
  simp [before, this]

/-- Where a live handle is. -/
theorem WInv.find {w : World T} {S : Spec T} (h : WInv w S) {n : Nat} :
    (∃ (i : Nat) (s : List Nat), S.seqs[i]? = some s ∧ n ∈ s ∧ S.seqs.find? (n ∈ ·) = some s) ∨
    ((∀ i, n ∉ S.seq i) ∧ S.seqs.find? (n ∈ ·) = none) := by
  cases e : S.seqs.find? (n ∈ ·) with
  | none =>
    right
    refine ⟨?_, rfl⟩
    intro i hi
    have := List.find?_eq_none.1 e (S.seq i) (List.mem_of_getElem? (seqs_some_mem hi))
    simp at this; exact this hi
  | some s =>
    left
    obtain ⟨i, hi⟩ := List.mem_iff_getElem?.1 (List.mem_of_find?_eq_some e)
    exact ⟨i, s, hi, by simpa using List.find?_some e, rfl⟩

theorem WInv.backNode {w : World T} {S : Spec T} (h : WInv w S) {l : Nat} (hl : S.isList l) :
    backNode w l = .ok (S.seq l).getLast? := by
  simp only [BidList.backNode, h.lst_good hl, Res.ok_bind]
  cases e : S.seq l with
  | nil => simp
  | cons a s =>
    have hs := seqs_some hl
    rw [e] at hs
    obtain ⟨nd, e2, -, -, -, fp⟩ := h.node_val (n := a) (h.mem_lt (l := l) (by rw [e]; simp))
    rw [Ring.prev (P := []) (h.ring l _ hs)] at fp
    simp [e2, ← fp]

theorem valsOf_cons {S : Spec T} {n : Nat} {x : T} {s : List Nat} (h : S.vals[n]? = some x) : S.valsOf (n :: s) = x :: S.valsOf s := by
  simp [valsOf, h]
theorem valsOf_append (S : Spec T) (s t : List Nat) : S.valsOf (s ++ t) = S.valsOf s ++ S.valsOf t := by simp [valsOf]
theorem valsOf_nil (S : Spec T) : S.valsOf [] = [] := rfl
theorem valsOf_concat {S : Spec T} {n : Nat} {x : T} {s : List Nat} (h : S.vals[n]? = some x) : S.valsOf (s ++ [n]) = S.valsOf s ++ [x] := by
  rw [valsOf_append, valsOf_cons h, valsOf_nil]
theorem valsOf_grow {S : Spec T} {v : T} {s : List Nat} (h : ∀ n ∈ s, n < S.vals.length) : (S.addVal v).valsOf s = S.valsOf s := by
  unfold valsOf addVal
  apply List.filterMap_congr
  intro n hn
  rw [List.getElem?_append_left (h n hn)]

/-! ## Copying lists -/

theorem insAfter_last {z n : Nat} {s : List Nat} (h : (s ++ [z]).Nodup) : insAfter z n (s ++ [z]) = s ++ [z] ++ [n] := by
  have : z ∉ s := by
    rw [List.nodup_append] at h
    exact fun c => h.2.2 z c z (by simp) rfl
  rw [insAfter_mid this]; simp

theorem spec_ext {S S' : Spec T} (h1 : S.seqs = S'.seqs) (h2 : S.vals = S'.vals) (h3 : S.stale = S'.stale) : S = S' := by
  cases S; cases S'; simp_all

theorem pushBackListLoop_spec {l o : Nat} (R : List Nat) : ∀ (w : World T) (S : Spec T) (P E : List Nat) (n : Option Nat),
    WInv w S → S.seqs[o]? = some (P ++ R ++ E) → S.seq l ≠ [] → (R ≠ [] → n = R.head?) →
    ∃ w', pushBackListLoop l R.length n w = .ok w' ∧
      WInv w' ({ S with vals := S.vals ++ S.valsOf R }.setSeq l (S.seq l ++ List.range' S.vals.length R.length)) := by
  induction R with
  | nil =>
    intro w S P E n h ho hl _
    refine ⟨w, rfl, ?_⟩
    have : { S with vals := S.vals ++ S.valsOf [] }.setSeq l (S.seq l ++ List.range' S.vals.length 0) = S := by
      apply spec_ext <;> simp [setSeq, valsOf_nil, seq]
      apply List.ext_getElem?
      intro i
      by_cases d : l = i
      · subst d
        rcases Nat.lt_or_ge l S.seqs.length with d | d
        · simp [d]
        · simp [List.getElem?_eq_none d]; omega
      · simp [d]
    simp only [List.length_nil]
    rw [this]; exact h
  | cons r R ih =>
    intro w S P E n h ho hl hn
    have hnr : n = some r := hn (by simp)
    subst hnr
    obtain ⟨s, z, hsz⟩ : ∃ s z, S.seq l = s ++ [z] := ⟨_, _, (List.dropLast_append_getLast hl).symm⟩
    have hs : S.seqs[l]? = some (s ++ [z]) := by rw [seqs_some_mem (n := z) (by rw [hsz]; simp), hsz]
    have hil := isList_of hs
    have hrm : r ∈ P ++ r :: R ++ E := by simp
    obtain ⟨nd, e1, fv, -, -, -⟩ := h.node_val (n := r) (by rw [← h.nnode]; exact h.lt ho hrm)
    obtain ⟨w1, e2, h1⟩ := insertAfterCall_spec h nd.value hs (a := z) (by simp)
    rw [insAfter_last (h.nodup l _ hs)] at h1
    have hb := h.backNode hil
    rw [hsz, List.getLast?_concat] at hb
    simp only [BidList.backNode, h.lst_good hil, Res.ok_bind, hsz] at hb
    obtain ⟨b, hbh⟩ : ∃ b, (s ++ [z]).head? = some b := by
      cases e : s ++ [z] with
      | nil => simp at e
      | cons x _ => exact ⟨x, rfl⟩
    rw [hbh] at hb
    simp only at hb
    obtain ⟨hd, e3, e4⟩ := Res.bind_eq_ok.1 hb
    have e4 : hd.prev = some z := by simpa using e4
    -- the new state
    set S1 := (S.addVal nd.value).setSeq l (s ++ [z] ++ [w.nodes.length]) with hS1
    have hnl := h.nnode
    have ho1 : ∃ E', S1.seqs[o]? = some (P ++ r :: (R ++ E')) := by
      by_cases d : l = o
      · subst d
        rw [hs] at ho
        injection ho with ho
        refine ⟨E ++ [w.nodes.length], ?_⟩
        have : S1.seqs[l]? = some (s ++ [z] ++ [w.nodes.length]) := by
          simp only [hS1, setSeq, addVal]; exact set_get hs
        rw [this, ho]; simp
      · refine ⟨E, ?_⟩
        have : S1.seqs[o]? = S.seqs[o]? := by simp [hS1, setSeq, addVal, d]
        rw [this, ho]; simp
    obtain ⟨E', ho1⟩ := ho1
    have hnx := next_spec h1 ho1
    have hseq1 : S1.seq l = s ++ [z] ++ [w.nodes.length] := seq_of (by simp only [hS1, setSeq, addVal]; exact set_get hs)
    obtain ⟨w2, e5, h2⟩ := ih w1 S1 (P ++ [r]) E' (R ++ E').head? h1 (by rw [ho1]; simp) (by rw [hseq1]; simp)
      (by intro hR; rw [List.head?_append_of_ne_nil _ hR])
    refine ⟨w2, ?_, ?_⟩
    · have e6 : BidList.lst w l = .ok ⟨some b, (S.seq l).length⟩ := by rw [h.lst_good hil, hsz, hbh]
      simp only [List.length_cons, pushBackListLoop, Res.ofOption_some, Res.ok_bind, e1, e6, e3, e4, e2, hnx, e5]
    · have hRlt : ∀ m ∈ R, m < S.vals.length := by
        intro m hm; rw [← hnl]; exact h.lt ho (by simp [hm])
      convert h2 using 1
      apply spec_ext
      · simp only [setSeq, hseq1, hsz]
        simp only [hS1, setSeq, addVal, List.set_set, List.length_append, List.length_singleton]
        congr 1
        rw [hnl, List.length_cons, List.range'_succ]; simp
      · show S.vals ++ S.valsOf (r :: R) = S1.vals ++ S1.valsOf R
        have : S1.valsOf R = (S.addVal nd.value).valsOf R := rfl
        rw [this, valsOf_grow hRlt, valsOf_cons fv]
        simp [hS1, setSeq, addVal]
      · rfl

theorem pushFrontListLoop_spec {l o : Nat} (R : List Nat) : ∀ (w : World T) (S : Spec T) (P E : List Nat) (n : Option Nat),
    WInv w S → S.seqs[o]? = some (E ++ R ++ P) → S.seq l ≠ [] → (R ≠ [] → n = R.getLast?) →
    ∃ w', pushFrontListLoop l R.length n w = .ok w' ∧
      WInv w' ({ S with vals := S.vals ++ (S.valsOf R).reverse }.setSeq l ((List.range' S.vals.length R.length).reverse ++ S.seq l)) := by
  induction R using List.reverseRecOn with
  | nil =>
    intro w S P E n h ho hl _
    refine ⟨w, rfl, ?_⟩
    have : { S with vals := S.vals ++ (S.valsOf []).reverse }.setSeq l ((List.range' S.vals.length 0).reverse ++ S.seq l) = S := by
      apply spec_ext <;> simp [setSeq, valsOf_nil, seq]
      apply List.ext_getElem?
      intro i
      by_cases d : l = i
      · subst d
        rcases Nat.lt_or_ge l S.seqs.length with d | d
        · simp [d]
        · simp [List.getElem?_eq_none d]; omega
      · simp [d]
    simp only [List.length_nil]
    rw [this]; exact h
  | append_singleton R r ih =>
    intro w S P E n h ho hl hn
    have hnr : n = some r := by rw [hn (by simp)]; simp
    subst hnr
    obtain ⟨b, s, hbs⟩ : ∃ b s, S.seq l = b :: s := by
      cases e : S.seq l with
      | nil => exact absurd e hl
      | cons b s => exact ⟨b, s, rfl⟩
    have hs : S.seqs[l]? = some (b :: s) := by rw [seqs_some_mem (n := b) (by rw [hbs]; simp), hbs]
    have hil := isList_of hs
    have hrm : r ∈ E ++ (R ++ [r]) ++ P := by simp
    obtain ⟨nd, e1, fv, -, -, -⟩ := h.node_val (n := r) (by rw [← h.nnode]; exact h.lt ho hrm)
    obtain ⟨w1, e2, h1⟩ := insertBeforeCall_spec h nd.value hs (a := b) (by simp)
    have hib : insBefore b w.nodes.length (b :: s) = w.nodes.length :: b :: s := insBefore_mid (P := []) (by simp)
    rw [hib] at h1
    set S1 := (S.addVal nd.value).setSeq l (w.nodes.length :: b :: s) with hS1
    have hnl := h.nnode
    have ho1 : ∃ E', S1.seqs[o]? = some ((E' ++ R) ++ r :: P) := by
      by_cases d : l = o
      · subst d
        rw [hs] at ho
        injection ho with ho
        refine ⟨w.nodes.length :: E, ?_⟩
        have : S1.seqs[l]? = some (w.nodes.length :: b :: s) := by
          simp only [hS1, setSeq, addVal]; exact set_get hs
        rw [this, ho]; simp
      · refine ⟨E, ?_⟩
        have : S1.seqs[o]? = S.seqs[o]? := by simp [hS1, setSeq, addVal, d]
        rw [this, ho]; simp
    obtain ⟨E', ho1⟩ := ho1
    have hpv := prev_spec h1 ho1
    have hseq1 : S1.seq l = w.nodes.length :: b :: s := seq_of (by simp only [hS1, setSeq, addVal]; exact set_get hs)
    obtain ⟨w2, e5, h2⟩ := ih w1 S1 (r :: P) E' (E' ++ R).getLast? h1 (by rw [ho1]) (by rw [hseq1]; simp)
      (by intro hR; rw [List.getLast?_append_of_ne_nil _ hR])
    refine ⟨w2, ?_, ?_⟩
    · have e6 : BidList.lst w l = .ok ⟨some b, (S.seq l).length⟩ := by rw [h.lst_good hil, hbs]; rfl
      simp only [List.length_append, List.length_singleton, pushFrontListLoop, Res.ofOption_some, Res.ok_bind, e1, e6, e2, hpv, e5]
    · have hRlt : ∀ m ∈ R, m < S.vals.length := by
        intro m hm; rw [← hnl]; exact h.lt ho (by simp [hm])
      convert h2 using 1
      apply spec_ext
      · simp only [setSeq, hseq1, hbs]
        simp only [hS1, setSeq, addVal, List.set_set, List.length_append, List.length_singleton]
        congr 1
        rw [hnl, List.range'_succ]; simp
      · show S.vals ++ (S.valsOf (R ++ [r])).reverse = S1.vals ++ (S1.valsOf R).reverse
        have : S1.valsOf R = (S.addVal nd.value).valsOf R := rfl
        rw [this, valsOf_grow hRlt, valsOf_concat fv]
        simp [hS1, setSeq, addVal]
      · rfl

/-! ## Every call -/

theorem setSeq_same {S : Spec T} {l : Nat} : S.setSeq l (S.seq l) = S := by
  apply spec_ext <;> simp [setSeq, seq]
  apply List.ext_getElem?
  intro i
  by_cases d : l = i
  · subst d
    rcases Nat.lt_or_ge l S.seqs.length with d | d
    · simp [d]
    · simp [List.getElem?_eq_none d]; omega
  · simp [d]

/-- A handle that is not in list `l` and not stale does not belong to `l`. -/
theorem WInv.foreign {w : World T} {S : Spec T} (h : WInv w S) {l n : Nat} {o : Option Nat} (ho : ow w n = some o) (hn : n ∉ S.seq l)
    (hst : n ∉ S.stale) : o ≠ some l := by
  rintro rfl
  exact hn (h.free l n ho hst)

theorem step_newList {w : World T} {S : Spec T} (h : WInv w S) : WInv (newList w) { S with seqs := S.seqs ++ [[]] } := by
  have key : ∀ i t, (S.seqs ++ [[]])[i]? = some t → S.seqs[i]? = some t ∨ (i = S.seqs.length ∧ t = []) := by
    intro i t hi
    rcases Nat.lt_trichotomy i S.seqs.length with c | c | c
    · left; rwa [List.getElem?_append_left c] at hi
    · right; subst c; simp at hi; exact ⟨rfl, hi⟩
    · rw [List.getElem?_eq_none (by simp; omega)] at hi; cases hi
  refine ⟨by simp [newList, h.nlist], h.nnode, ?_, ?_, ?_, ?_, ?_, h.vals⟩
  · intro i t hi
    rcases key i t hi with hi | ⟨rfl, rfl⟩
    · have := h.lst i t hi
      simp only [newList]
      rw [List.getElem?_append_left (List.getElem?_eq_some_iff.1 this).1]; exact this
    · simp [newList, ← h.nlist]
  · intro i t hi
    rcases key i t hi with hi | ⟨rfl, rfl⟩
    · exact h.ring i t hi
    · exact .nil
  · intro i t hi
    rcases key i t hi with hi | ⟨rfl, rfl⟩
    · exact h.nodup i t hi
    · simp
  · intro i t n hi hn
    rcases key i t hi with hi | ⟨rfl, rfl⟩
    · exact h.own i t n hi hn
    · simp at hn
  · intro i n hi hst
    have := h.free i n hi hst
    have h2 := seqs_some_mem this
    simp only [seq]
    rw [List.getElem?_append_left (List.getElem?_eq_some_iff.1 h2).1]; exact this

theorem step_clear {w : World T} {S : Spec T} (h : WInv w S) {l : Nat} (hl : S.isList l) :
    ∃ w', clear w l = .ok w' ∧ WInv w' { S.setSeq l [] with stale := S.stale ++ S.seq l } := by
  have hs := seqs_some hl
  refine ⟨{ w with lists := w.lists.set l ⟨none, 0⟩ }, by simp [clear, modLst, h.lst_good hl], ?_⟩
  refine h.update hs (s' := []) rfl rfl h.nnode .nil (by simp) (by simp) (fun m _ _ => ⟨rfl, rfl, rfl⟩) ?_ (by intro m hm; simp [hm]) h.vals
  intro m j hj hst
  simp only [List.mem_append, not_or] at hst
  by_cases d : j = l
  · subst d; exact absurd (h.free j m hj hst.1) hst.2
  · exact .inr ⟨d, hj⟩

theorem step_setValue {w : World T} {S : Spec T} (h : WInv w S) {n : Nat} (v : T) (hn : n < S.vals.length) :
    ∃ w', setValue w n v = .ok w' ∧ WInv w' { S with vals := S.vals.set n v } := by
  have hn' : n < w.nodes.length := by rw [h.nnode]; exact hn
  have e : w.nodes[n]? = some w.nodes[n] := by simp
  refine ⟨{ w with nodes := w.nodes.set n { w.nodes[n] with value := v } }, by simp [setValue, modNode, node, e], ?_⟩
  have f : ∀ m, nx { w with nodes := w.nodes.set n { w.nodes[n] with value := v } } m = nx w m ∧
      pv { w with nodes := w.nodes.set n { w.nodes[n] with value := v } } m = pv w m ∧
      ow { w with nodes := w.nodes.set n { w.nodes[n] with value := v } } m = ow w m := by
    intro m
    by_cases c : n = m
    · subst c; simp [nx, pv, ow, hn']
    · simp [nx, pv, ow, c]
  refine ⟨h.nlist, by simp [h.nnode], h.lst, fun i s hi => (h.ring i s hi).frame (fun a _ => (f a).1) (fun a _ => (f a).2.1), h.nodup,
    fun i s m hi hm => by rw [(f m).2.2]; exact h.own i s m hi hm, fun i m hm hst => h.free i m (by rw [← (f m).2.2]; exact hm) hst, ?_⟩
  intro m
  by_cases c : n = m
  · subst c; simp [vl, hn, hn']
  · have := h.vals m
    simp only [vl] at this ⊢
    simp [c, this]

theorem step_moveToFront {w : World T} {S : Spec T} (h : WInv w S) {l n : Nat} (hn : n ∈ S.seq l) :
    ∃ w', moveToFront w l n = .ok w' ∧ WInv w' (S.setSeq l (n :: (S.seq l).erase n)) := by
  have hs := seqs_some_mem hn
  have hil := isList_of hs
  obtain ⟨nd, e1, -, fo, -, -⟩ := h.node_val (h.mem_lt hn)
  rw [h.own l _ n hs hn] at fo
  have fo : nd.list = some l := by simpa using fo.symm
  obtain ⟨b, s, hbs⟩ : ∃ b s, S.seq l = b :: s := by
    cases e : S.seq l with
    | nil => rw [e] at hn; simp at hn
    | cons b s => exact ⟨b, s, rfl⟩
  obtain ⟨P, z, hz⟩ : ∃ P z, S.seq l = P ++ [z] := ⟨_, _, (List.dropLast_append_getLast (by rw [hbs]; simp)).symm⟩
  have e2 : BidList.lst w l = .ok ⟨some b, (S.seq l).length⟩ := by rw [h.lst_good hil, hbs]; rfl
  by_cases c : b = n
  · subst c
    refine ⟨w, ?_, ?_⟩
    · simp only [moveToFront, e1, Res.ok_bind, fo, ne_eq, not_true_eq_false, if_false, e2]
    · have : b :: (S.seq l).erase b = S.seq l := by rw [hbs]; simp
      rw [this, setSeq_same]; exact h
  · have hb := h.backNode hil
    rw [hz, List.getLast?_concat] at hb
    simp only [BidList.backNode, e2, Res.ok_bind] at hb
    obtain ⟨hd, e3, e4⟩ := Res.bind_eq_ok.1 hb
    have e4 : hd.prev = some z := by simpa using e4
    have hzm : z ∈ S.seq l := by rw [hz]; simp
    have hdup := h.nodup l _ hs
    have hnz : nx w z = some b := by
      have := h.ring l _ hs
      rw [hz] at this
      rw [this.next, List.nil_append, ← hz, hbs]; rfl
    have hxl : ∀ (w1 : World T) r, Moved w w1 S l (r ++ [n]) →
        ∃ w', setHead w1 l (some n) = .ok w' ∧ WInv w' (S.setSeq l (n :: r)) := by
      intro w1 r hm
      have hl1 : w1.lists[l]? = some ⟨(r ++ [n]).head?, (r ++ [n]).length⟩ := by rw [hm.lists]; exact set_get (h.lst l _ hs)
      refine ⟨_, setHead_ok hl1 _, ?_⟩
      have := hm.inv r [n] rfl
      rw [hm.lists]
      simpa using this
    by_cases d : n = z
    · subst d
      obtain ⟨w', e5, h5⟩ := hxl w P (by rw [← hz]; exact h.moved_refl hs)
      refine ⟨w', ?_, ?_⟩
      · have e6 : moveToAfter w l n n = .ok w := by simp [moveToAfter, e1]
        simp only [moveToFront, e1, Res.ok_bind, fo, ne_eq, not_true_eq_false, if_false, e2]
        rw [if_pos (by simpa using c)]
        simp only [Res.ofOption_some, Res.ok_bind, e3, e4, e6, e5]
      · have : (S.seq l).erase n = P := by
          rw [hz, erase_mid]
          · simp
          · rw [hz, List.nodup_append] at hdup
            exact fun c => hdup.2.2 n c n (by simp) rfl
        rw [this]; exact h5
    · obtain ⟨w1, e6, hm⟩ := moveToAfter_spec h hs hn hzm d (by rw [hnz]; simpa using c)
      have hins : insAfter z n ((S.seq l).erase n) = (S.seq l).erase n ++ [n] := by
        have hnP : n ∈ P := by rw [hz] at hn; simp at hn; exact hn.resolve_right d
        have hd' : ((S.seq l).erase n).Nodup := hdup.erase n
        rw [hz, List.erase_append_left _ hnP] at hd' ⊢
        rw [insAfter_last hd']
      rw [hins] at hm
      obtain ⟨w', e5, h5⟩ := hxl w1 _ hm
      refine ⟨w', ?_, h5⟩
      simp only [moveToFront, e1, Res.ok_bind, fo, ne_eq, not_true_eq_false, if_false, e2]
      rw [if_pos (by simpa using c)]
      simp only [Res.ofOption_some, Res.ok_bind, e3, e4, e6, e5]

theorem step_moveToBack {w : World T} {S : Spec T} (h : WInv w S) {l n : Nat} (hn : n ∈ S.seq l) :
    ∃ w', moveToBack w l n = .ok w' ∧ WInv w' (S.setSeq l ((S.seq l).erase n ++ [n])) := by
  have hs := seqs_some_mem hn
  have hil := isList_of hs
  obtain ⟨nd, e1, -, fo, fx, -⟩ := h.node_val (h.mem_lt hn)
  rw [h.own l _ n hs hn] at fo
  have fo : nd.list = some l := by simpa using fo.symm
  obtain ⟨b, s, hbs⟩ : ∃ b s, S.seq l = b :: s := by
    cases e : S.seq l with
    | nil => rw [e] at hn; simp at hn
    | cons b s => exact ⟨b, s, rfl⟩
  obtain ⟨P, z, hz⟩ : ∃ P z, S.seq l = P ++ [z] := ⟨_, _, (List.dropLast_append_getLast (by rw [hbs]; simp)).symm⟩
  have e2 : BidList.lst w l = .ok ⟨some b, (S.seq l).length⟩ := by rw [h.lst_good hil, hbs]; rfl
  have hb := h.backNode hil
  rw [hz, List.getLast?_concat] at hb
  simp only [BidList.backNode, e2, Res.ok_bind] at hb
  obtain ⟨hd, e3, e4⟩ := Res.bind_eq_ok.1 hb
  have e4 : hd.prev = some z := by simpa using e4
  have hzm : z ∈ S.seq l := by rw [hz]; simp
  have hdup := h.nodup l _ hs
  have hnz : nx w z = some b := by
    have := h.ring l _ hs
    rw [hz] at this
    rw [this.next, List.nil_append, ← hz, hbs]; rfl
  by_cases c : z = n
  · subst c
    refine ⟨w, ?_, ?_⟩
    · simp only [moveToBack, e1, Res.ok_bind, fo, ne_eq, not_true_eq_false, if_false, e2, Res.ofOption_some, e3, e4]
    · have : (S.seq l).erase z ++ [z] = S.seq l := by
        rw [hz, erase_mid]
        · simp
        · rw [hz, List.nodup_append] at hdup
          exact fun c => hdup.2.2 z c z (by simp) rfl
      rw [this, setSeq_same]; exact h
  · by_cases d : b = n
    · -- the front becomes the back: the ring only turns
      subst d
      have : hd = nd := by rw [e1] at e3; injection e3 with e3; exact e3.symm
      subst this
      have hsne : s ≠ [] := by
        rintro rfl
        rw [hbs] at hz
        have : z = b := by
          have := congrArg List.getLast? hz
          simp at this; exact this.symm
        exact c this
      obtain ⟨y, t, rfl⟩ : ∃ y t, s = y :: t := by
        cases s with
        | nil => exact absurd rfl hsne
        | cons y t => exact ⟨y, t, rfl⟩
      have hl := h.lst l _ hs
      have hnx : hd.next = some y := by
        have := h.ring l _ hs
        rw [hbs] at this
        rw [← fx, Ring.next (P := []) this]; rfl
      obtain ⟨ny, e5, -, -, -, fp⟩ := h.node_val (n := y) (h.mem_lt (l := l) (by rw [hbs]; simp))
      have hpy : ny.prev = some b := by
        have := h.ring l _ hs
        rw [hbs] at this
        rw [← fp, Ring.prev (P := [b]) this]
        rw [show y :: (t ++ [b]) = (y :: t) ++ [b] by rfl, List.getLast?_concat]
      have hl1 : (w.lists.set l ⟨some y, (S.seq l).length⟩)[l]? = some ⟨some y, (S.seq l).length⟩ := set_get hl
      refine ⟨{ w with lists := w.lists.set l ⟨some y, (S.seq l).length⟩ }, ?_, ?_⟩
      · have e6 : BidList.lst { w with lists := w.lists.set l ⟨some y, (S.seq l).length⟩ } l = .ok ⟨some y, (S.seq l).length⟩ := lst_ok hl1
        have e7 : ∀ m, node { w with lists := w.lists.set l ⟨some y, (S.seq l).length⟩ } m = node w m := fun _ => rfl
        have e8 : moveToAfter { w with lists := w.lists.set l ⟨some y, (S.seq l).length⟩ } l b b =
            .ok { w with lists := w.lists.set l ⟨some y, (S.seq l).length⟩ } := by simp [moveToAfter, e7, e1]
        simp only [moveToBack, e1, Res.ok_bind, fo, ne_eq, not_true_eq_false, if_false, e2, Res.ofOption_some, e3, e4]
        rw [if_pos (by simpa using c)]
        simp only [if_true, setHead_ok hl, hnx, Res.ok_bind, e6, Res.ofOption_some, e7, e5, hpy, e8]
      · have hm := (h.moved_refl hs).inv [b] (y :: t) (by rw [hbs]; rfl)
        have : (S.seq l).erase b ++ [b] = (y :: t) ++ [b] := by rw [hbs]; simp
        rw [this]
        have hlen : (S.seq l).length = ((y :: t) ++ [b]).length := by rw [hbs]; simp
        rw [hlen]
        simpa using hm
    · obtain ⟨w1, e6, hm⟩ := moveToAfter_spec h hs hn hzm (Ne.symm c) (by rw [hnz]; simpa using d)
      have hins : insAfter z n ((S.seq l).erase n) = (S.seq l).erase n ++ [n] := by
        have hnP : n ∈ P := by rw [hz] at hn; simp at hn; exact hn.resolve_right (Ne.symm c)
        have hd' : ((S.seq l).erase n).Nodup := hdup.erase n
        rw [hz, List.erase_append_left _ hnP] at hd' ⊢
        rw [insAfter_last hd']
      rw [hins] at hm
      refine ⟨w1, ?_, hm.direct⟩
      simp only [moveToBack, e1, Res.ok_bind, fo, ne_eq, not_true_eq_false, if_false, e2, Res.ofOption_some, e3, e4]
      rw [if_pos (by simpa using c), if_neg d]
      simp only [Res.ok_bind, e2, Res.ofOption_some, e3, e4, e6]

theorem step_moveAfter {w : World T} {S : Spec T} (h : WInv w S) {l n m : Nat} (hn : n ∈ S.seq l) (hm : m ∈ S.seq l) (hne : n ≠ m) :
    ∃ w', moveAfter w l n m = .ok w' ∧ WInv w' (if (S.seq l).head? = some n ∧ (S.seq l).getLast? = some m then S else
      S.setSeq l (insAfter m n ((S.seq l).erase n))) := by
  have hs := seqs_some_mem hn
  obtain ⟨nd, e1, -, fo, -, -⟩ := h.node_val (h.mem_lt hn)
  obtain ⟨md, e2, -, fo2, fx2, -⟩ := h.node_val (h.mem_lt hm)
  rw [h.own l _ n hs hn] at fo
  rw [h.own l _ m hs hm] at fo2
  have fo : nd.list = some l := by simpa using fo.symm
  have fo2 : md.list = some l := by simpa using fo2.symm
  have hdup := h.nodup l _ hs
  obtain ⟨P, Q, hPQ, hmP, hmQ⟩ := split_nodup hm hdup
  have hnx : nx w m = (Q ++ P ++ [m]).head? := by
    have := h.ring l _ hs
    rw [hPQ] at this; exact this.next
  by_cases c : nx w m = some n
  · refine ⟨w, ?_, ?_⟩
    · have : moveToAfter w l n m = .ok w := by
        simp only [moveToAfter, e2, Res.ok_bind]
        rw [if_pos (.inl (by rw [← fx2, c]))]
      simp only [moveAfter, e1, Res.ok_bind, fo, ne_eq, not_true_eq_false, if_false, e2, fo2, this]
      rw [if_neg hne]
    · rw [hnx] at c
      cases Q with
      | nil =>
        -- wrap around: `n` is the front and `m` the back
        have : (S.seq l).head? = some n := by
          rw [hPQ]
          cases P with
          | nil => simp at c; exact absurd c.symm hne
          | cons p P => simpa using c
        rw [if_pos ⟨this, by rw [hPQ]; simp⟩]; exact h
      | cons q Q =>
        simp at c; subst c
        rw [if_neg]
        · have hqP : q ∉ P ++ [m] := by
            rw [hPQ] at hdup
            have : (P ++ [m] ++ q :: Q).Nodup := by simpa using hdup
            rw [List.nodup_append] at this
            exact fun c => this.2.2 q c q (by simp) rfl
          have : (S.seq l).erase q = P ++ m :: Q := by
            have e : P ++ m :: q :: Q = (P ++ [m]) ++ q :: Q := by simp
            rw [hPQ, e, erase_mid hqP]; simp
          rw [this, insAfter_mid hmP, ← hPQ, setSeq_same]; exact h
        · rintro ⟨c1, -⟩
          rw [hPQ] at c1 hdup
          cases P with
          | nil => simp at c1; exact hne c1.symm
          | cons p P =>
            simp at c1; subst c1
            simp at hdup
  · obtain ⟨w1, e3, hmv⟩ := moveToAfter_spec h hs hn hm hne c
    refine ⟨w1, ?_, ?_⟩
    · simp only [moveAfter, e1, Res.ok_bind, fo, ne_eq, not_true_eq_false, if_false, e2, fo2, e3]
      rw [if_neg hne]
    · rw [if_neg]
      · exact hmv.direct
      · rintro ⟨c1, c2⟩
        apply c
        rw [hnx]
        have hQ : Q = [] := by
          rw [hPQ] at c2
          cases Q using List.reverseRecOn with
          | nil => rfl
          | append_singleton Q q =>
            have e : P ++ m :: (Q ++ [q]) = (P ++ m :: Q) ++ [q] := by simp
            rw [e, List.getLast?_concat] at c2
            injection c2 with c2
            exact absurd (by simp [c2]) hmQ
        subst hQ
        rw [hPQ] at c1
        simpa using c1

/-- One call, any call. -/
theorem step_refines {w : World T} {S : Spec T} (h : WInv w S) (op : Op T) (hf : fresh op S) : Agree (step op w) (specStep op S) := by
  cases op with
  | newList => exact .ok (step_newList h)
  | pushBack l v =>
    simp only [step, specStep]
    by_cases hl : S.isList l
    · obtain ⟨w', e, hi, -⟩ := pushBack_spec h v (seqs_some hl)
      rw [if_pos hl, ← h.nnode]
      simp only [pushBack, e, Res.ok_bind]; exact .ok hi
    · rw [if_neg hl]
      have e : BidList.lst (alloc w v l).2 l = .panic := lst_panic (by rw [(alloc_spec w v l).2.1, h.nlist]; exact Nat.not_lt.1 hl)
      simp only [pushBack, pushBack_, e, Res.panic_bind]; exact .panic
  | pushFront l v =>
    simp only [step, specStep]
    by_cases hl : S.isList l
    · obtain ⟨w', e, -, ⟨x, hx⟩, hi⟩ := pushBack_spec h v (seqs_some hl)
      rw [if_pos hl, ← h.nnode]
      have e2 := setHead_ok hx (some w.nodes.length)
      simp only [pushFront, e, Res.ok_bind, e2]; exact .ok (hi _ e2)
    · rw [if_neg hl]
      have e : BidList.lst (alloc w v l).2 l = .panic := lst_panic (by rw [(alloc_spec w v l).2.1, h.nlist]; exact Nat.not_lt.1 hl)
      simp only [pushFront, pushBack_, e, Res.panic_bind]; exact .panic
  | insertAfter l v m =>
    simp only [step, specStep]
    by_cases hm : S.isNode m
    · rw [if_neg (by simpa using hm)]
      by_cases hl : m ∈ S.seq l
      · obtain ⟨w', e, hi⟩ := insertAfterCall_spec h v (seqs_some_mem hl) hl
        rw [if_pos hl, ← h.nnode]
        simp only [e, Res.ok_bind]; exact .ok hi
      · rw [if_neg hl]
        obtain ⟨nd, e, -, fo, -⟩ := h.node_val hm
        have := h.foreign fo hl (hf m (by simp [handles]))
        simp only [insertAfter, e, Res.ok_bind]
        rw [if_pos this]; exact .ok h
    · rw [if_pos (by simpa using hm)]
      simp only [insertAfter, h.node_bad hm, Res.panic_bind]; exact .panic
  | insertBefore l v m =>
    simp only [step, specStep]
    by_cases hm : S.isNode m
    · rw [if_neg (by simpa using hm)]
      by_cases hl : m ∈ S.seq l
      · obtain ⟨w', e, hi⟩ := insertBeforeCall_spec h v (seqs_some_mem hl) hl
        rw [if_pos hl, ← h.nnode]
        simp only [e, Res.ok_bind]; exact .ok hi
      · rw [if_neg hl]
        obtain ⟨nd, e, -, fo, -⟩ := h.node_val hm
        have := h.foreign fo hl (hf m (by simp [handles]))
        simp only [insertBefore, e, Res.ok_bind]
        rw [if_pos this]; exact .ok h
    · rw [if_pos (by simpa using hm)]
      simp only [insertBefore, h.node_bad hm, Res.panic_bind]; exact .panic
  | remove l n =>
    simp only [step, specStep]
    by_cases hn : n < S.vals.length
    · obtain ⟨nd, e, fv, fo, -⟩ := h.node_val hn
      rw [fv]
      by_cases hl : n ∈ S.seq l
      · obtain ⟨w', x, e2, e3, hi⟩ := removeCall_spec h (seqs_some_mem hl) hl
        rw [fv] at e3; injection e3 with e3; subst e3
        simp only [e2, Res.ok_bind, if_pos hl]; exact .ok hi
      · have := h.foreign fo hl (hf n (by simp [handles]))
        simp only [remove, e, Res.ok_bind, if_neg this, if_neg hl]; exact .ok h
    · rw [List.getElem?_eq_none (by omega)]
      simp only [remove, h.node_bad hn, Res.panic_bind]; exact .panic
  | popBack l =>
    simp only [step, specStep]
    by_cases hl : S.isList l
    · have e := h.backNode hl
      cases hz : (S.seq l).getLast? with
      | none => rw [hz] at e; simp only [popBack, e, Res.ok_bind, Res.panic_bind]; exact .panic
      | some n =>
        rw [hz] at e
        have hn : n ∈ S.seq l := List.mem_of_mem_getLast? hz
        obtain ⟨w', x, e2, e3, hi⟩ := removeCall_spec h (seqs_some_mem hn) hn
        simp only [popBack, e, Res.ok_bind, e2, e3]
        obtain ⟨P, hP⟩ := List.getLast?_eq_some_iff.1 hz
        have hd := h.nodup l _ (seqs_some_mem hn)
        have : (S.seq l).erase n = (S.seq l).dropLast := by
          rw [hP, erase_mid]
          · simp
          · rw [hP, List.nodup_append] at hd
            exact fun c => hd.2.2 n c n (by simp) rfl
        rw [← this]; exact .ok hi
    · rw [seq_bad hl]
      simp only [popBack, BidList.backNode, h.lst_bad hl, Res.panic_bind]; exact .panic
  | popFront l =>
    simp only [step, specStep]
    by_cases hl : S.isList l
    · cases hz : (S.seq l).head? with
      | none => simp only [popFront, BidList.frontNode, h.lst_good hl, hz, Res.ok_bind, Res.panic_bind]; exact .panic
      | some n =>
        have hn : n ∈ S.seq l := List.mem_of_mem_head? hz
        obtain ⟨w', x, e2, e3, hi⟩ := removeCall_spec h (seqs_some_mem hn) hn
        simp only [popFront, BidList.frontNode, h.lst_good hl, hz, Res.ok_bind, e2, e3]
        have : (S.seq l).erase n = (S.seq l).tail := by
          cases e : S.seq l with
          | nil => simp
          | cons a s => rw [e] at hz; simp at hz; subst hz; simp
        rw [← this]; exact .ok hi
    · rw [seq_bad hl]
      simp only [popFront, BidList.frontNode, h.lst_bad hl, Res.panic_bind]; exact .panic
  | moveToFront l n =>
    simp only [step, specStep]
    by_cases hm : S.isNode n
    · rw [if_neg (by simpa using hm)]
      by_cases hl : n ∈ S.seq l
      · obtain ⟨w', e, hi⟩ := step_moveToFront h hl
        rw [if_pos hl]
        simp only [e, Res.ok_bind]; exact .ok hi
      · rw [if_neg hl]
        obtain ⟨nd, e, -, fo, -⟩ := h.node_val hm
        have := h.foreign fo hl (hf n (by simp [handles]))
        simp only [moveToFront, e, Res.ok_bind]
        rw [if_pos this]; exact .ok h
    · rw [if_pos (by simpa using hm)]
      simp only [moveToFront, h.node_bad hm, Res.panic_bind]; exact .panic
  | moveToBack l n =>
    simp only [step, specStep]
    by_cases hm : S.isNode n
    · rw [if_neg (by simpa using hm)]
      by_cases hl : n ∈ S.seq l
      · obtain ⟨w', e, hi⟩ := step_moveToBack h hl
        rw [if_pos hl]
        simp only [e, Res.ok_bind]; exact .ok hi
      · rw [if_neg hl]
        obtain ⟨nd, e, -, fo, -⟩ := h.node_val hm
        have := h.foreign fo hl (hf n (by simp [handles]))
        simp only [moveToBack, e, Res.ok_bind]
        rw [if_pos this]; exact .ok h
    · rw [if_pos (by simpa using hm)]
      simp only [moveToBack, h.node_bad hm, Res.panic_bind]; exact .panic
  | moveAfter l n m =>
    simp only [step, specStep]
    by_cases hn : S.isNode n
    · rw [if_neg (by simpa using hn)]
      obtain ⟨nd, e, -, fo, -⟩ := h.node_val hn
      by_cases hl : n ∈ S.seq l
      · have hs := seqs_some_mem hl
        rw [h.own l _ n hs hl] at fo
        have fo : nd.list = some l := by simpa using fo.symm
        by_cases hne : n = m
        · rw [if_pos (.inr hne)]
          simp only [moveAfter, e, Res.ok_bind, fo, ne_eq, not_true_eq_false, if_false]
          rw [if_pos hne]; exact .ok h
        · rw [if_neg (by simp [hl, hne])]
          by_cases hm : S.isNode m
          · rw [if_neg (by simpa using hm)]
            by_cases hml : m ∈ S.seq l
            · rw [if_neg (by simpa using hml)]
              obtain ⟨w', e2, hi⟩ := step_moveAfter h hl hml hne
              simp only [e2, Res.ok_bind]
              split at hi
              · rw [if_pos ‹_›]; exact .ok hi
              · rw [if_neg ‹_›]; exact .ok hi
            · rw [if_pos hml]
              obtain ⟨md, e2, -, fo2, -⟩ := h.node_val hm
              have := h.foreign fo2 hml (hf m (by simp [handles]))
              simp only [moveAfter, e, Res.ok_bind, fo, ne_eq, not_true_eq_false, if_false, e2]
              rw [if_neg hne, if_pos this]; exact .ok h
          · rw [if_pos (by simpa using hm)]
            simp only [moveAfter, e, Res.ok_bind, fo, ne_eq, not_true_eq_false, if_false, h.node_bad hm]
            rw [if_neg hne]; exact .panic
      · rw [if_pos (.inl hl)]
        have := h.foreign fo hl (hf n (by simp [handles]))
        simp only [moveAfter, e, Res.ok_bind]
        rw [if_pos this]; exact .ok h
    · rw [if_pos (by simpa using hn)]
      simp only [moveAfter, h.node_bad hn, Res.panic_bind]; exact .panic
  | pushBackList l o =>
    simp only [step, specStep]
    by_cases ho : S.isList o
    · rw [if_neg (by simpa using ho)]
      have e1 : BidList.len w o = .ok (S.seq o).length := by simp [BidList.len, h.lst_good ho]
      have e2 : BidList.frontNode w o = .ok (S.seq o).head? := by simp [BidList.frontNode, h.lst_good ho]
      by_cases hoe : S.seq o = []
      · rw [if_pos hoe]
        simp only [pushBackList, e1, e2, Res.ok_bind, hoe]; exact .ok h
      · rw [if_neg hoe]
        by_cases hle : S.seq l = []
        · rw [if_pos hle]
          obtain ⟨r, R, hR⟩ : ∃ r R, S.seq o = r :: R := by
            cases e : S.seq o with
            | nil => exact absurd e hoe
            | cons b s => exact ⟨b, s, rfl⟩
          obtain ⟨nd, e3, -⟩ := h.node_val (h.mem_lt (l := o) (n := r) (by rw [hR]; simp))
          have e4 : (do let x ← BidList.lst w l; Res.ofOption x.head) = .panic := by
            by_cases hl : S.isList l
            · simp [h.lst_good hl, hle]
            · simp [h.lst_bad hl]
          have e5 : pushBackListLoop l (R.length + 1) (some r) w = .panic := by
            by_cases hl : S.isList l
            · simp only [pushBackListLoop, Res.ofOption_some, Res.ok_bind, e3, h.lst_good hl, hle]
              rfl
            · simp only [pushBackListLoop, Res.ofOption_some, Res.ok_bind, e3, h.lst_bad hl]; rfl
          simp only [pushBackList, e1, e2, Res.ok_bind, hR, Int.toNat_natCast, List.length_cons, List.head?_cons, e5, Res.panic_bind]
          exact .panic
        · rw [if_neg hle]
          obtain ⟨w', e3, hi⟩ := pushBackListLoop_spec (l := l) (o := o) (S.seq o) w S [] [] (S.seq o).head? h (by simpa using seqs_some ho)
            hle (fun _ => rfl)
          simp only [pushBackList, e1, e2, Res.ok_bind, Int.toNat_natCast, e3]
          exact .ok hi
    · rw [if_pos (by simpa using ho)]
      simp only [pushBackList, BidList.len, h.lst_bad ho, Res.panic_bind]; exact .panic
  | pushFrontList l o =>
    simp only [step, specStep]
    by_cases ho : S.isList o
    · rw [if_neg (by simpa using ho)]
      have e1 : BidList.len w o = .ok (S.seq o).length := by simp [BidList.len, h.lst_good ho]
      have e2 := h.backNode ho
      by_cases hoe : S.seq o = []
      · rw [if_pos hoe]
        simp only [pushFrontList, e1, e2, Res.ok_bind, hoe]; exact .ok h
      · rw [if_neg hoe]
        by_cases hle : S.seq l = []
        · rw [if_pos hle]
          obtain ⟨R, r, hR⟩ : ∃ R r, S.seq o = R ++ [r] := ⟨_, _, (List.dropLast_append_getLast hoe).symm⟩
          obtain ⟨nd, e3, -⟩ := h.node_val (h.mem_lt (l := o) (n := r) (by rw [hR]; simp))
          have e5 : pushFrontListLoop l (R.length + 1) (some r) w = .panic := by
            by_cases hl : S.isList l
            · simp only [pushFrontListLoop, Res.ofOption_some, Res.ok_bind, e3, h.lst_good hl, hle]
              rfl
            · simp only [pushFrontListLoop, Res.ofOption_some, Res.ok_bind, e3, h.lst_bad hl]; rfl
          simp only [pushFrontList, e1, e2, Res.ok_bind, hR, Int.toNat_natCast, List.length_append, List.length_singleton,
            List.getLast?_concat, e5, Res.panic_bind]
          exact .panic
        · rw [if_neg hle]
          obtain ⟨w', e3, hi⟩ := pushFrontListLoop_spec (l := l) (o := o) (S.seq o) w S [] [] (S.seq o).getLast? h
            (by simpa using seqs_some ho) hle (fun _ => rfl)
          simp only [pushFrontList, e1, e2, Res.ok_bind, Int.toNat_natCast, e3]
          exact .ok hi
    · rw [if_pos (by simpa using ho)]
      simp only [pushFrontList, BidList.len, h.lst_bad ho, Res.panic_bind]; exact .panic
  | clear l =>
    simp only [step, specStep]
    by_cases hl : S.isList l
    · obtain ⟨w', e, hi⟩ := step_clear h hl
      rw [if_pos hl]
      simp only [e, Res.ok_bind]; exact .ok hi
    · rw [if_neg hl]
      simp only [clear, modLst, h.lst_bad hl, Res.panic_bind]; exact .panic
  | setValue n v =>
    simp only [step, specStep]
    by_cases hn : S.isNode n
    · obtain ⟨w', e, hi⟩ := step_setValue h v hn
      rw [if_pos hn]
      simp only [e, Res.ok_bind]; exact .ok hi
    · rw [if_neg hn]
      simp only [setValue, modNode, h.node_bad hn, Res.panic_bind]; exact .panic
  | value n =>
    simp only [step, specStep]
    by_cases hn : n < S.vals.length
    · obtain ⟨nd, e, fv, -⟩ := h.node_val hn
      rw [fv]
      simp only [BidList.value, e, Res.ok_bind]; exact .ok h
    · rw [List.getElem?_eq_none (by omega)]
      simp only [BidList.value, h.node_bad hn, Res.panic_bind]; exact .panic
  | next n =>
    simp only [step, specStep]
    by_cases hn : S.isNode n
    · rw [if_neg (by simpa using hn)]
      rcases h.find (n := n) with ⟨i, s, hs, hm, hf'⟩ | ⟨hno, hf'⟩
      · rw [hf']
        obtain ⟨P, Q, rfl, hP, -⟩ := split_nodup hm (h.nodup i s hs)
        simp only [next_spec h hs, Res.ok_bind, Option.bind_some, after_mid hP]; exact .ok h
      · rw [hf']
        obtain ⟨nd, e, -, fo, -⟩ := h.node_val hn
        have : nd.list = none := by
          cases e2 : nd.list with
          | none => rfl
          | some i => rw [e2] at fo; exact absurd (h.free i n fo (hf n (by simp [handles]))) (hno i)
        simp only [BidList.next, e, Res.ok_bind, this, Option.bind_none]; exact .ok h
    · rw [if_pos (by simpa using hn)]
      simp only [BidList.next, h.node_bad hn, Res.panic_bind]; exact .panic
  | prev n =>
    simp only [step, specStep]
    by_cases hn : S.isNode n
    · rw [if_neg (by simpa using hn)]
      rcases h.find (n := n) with ⟨i, s, hs, hm, hf'⟩ | ⟨hno, hf'⟩
      · rw [hf']
        obtain ⟨P, Q, rfl, hP, -⟩ := split_nodup hm (h.nodup i s hs)
        simp only [prev_spec h hs, Res.ok_bind, Option.bind_some, before_mid hP]; exact .ok h
      · rw [hf']
        obtain ⟨nd, e, -, fo, -⟩ := h.node_val hn
        have : nd.list = none := by
          cases e2 : nd.list with
          | none => rfl
          | some i => rw [e2] at fo; exact absurd (h.free i n fo (hf n (by simp [handles]))) (hno i)
        simp only [BidList.prev, e, Res.ok_bind, this, Option.bind_none]; exact .ok h
    · rw [if_pos (by simpa using hn)]
      simp only [BidList.prev, h.node_bad hn, Res.panic_bind]; exact .panic
  | frontNode l =>
    simp only [step, specStep]
    by_cases hl : S.isList l
    · simp only [if_pos hl, BidList.frontNode, h.lst_good hl, Res.ok_bind]; exact .ok h
    · simp only [if_neg hl, BidList.frontNode, h.lst_bad hl, Res.panic_bind]; exact .panic
  | backNode l =>
    simp only [step, specStep]
    by_cases hl : S.isList l
    · simp only [if_pos hl, h.backNode hl, Res.ok_bind]; exact .ok h
    · simp only [if_neg hl, BidList.backNode, h.lst_bad hl, Res.panic_bind]; exact .panic
  | front l =>
    simp only [step, specStep]
    by_cases hl : S.isList l
    · cases e : S.seq l with
      | nil =>
        simp only [valsOf_nil, List.head?_nil, BidList.front, h.lst_good hl, e, Res.ok_bind]
        exact .panic
      | cons a s =>
        obtain ⟨nd, e2, fv, -⟩ := h.node_val (h.mem_lt (l := l) (n := a) (by rw [e]; simp))
        simp only [valsOf_cons fv, List.head?_cons, BidList.front, h.lst_good hl, e, Res.ok_bind]
        rw [if_neg (by simp; omega)]
        simp only [Res.ofOption_some, Res.ok_bind, e2]; exact .ok h
    · simp only [seq_bad hl, valsOf_nil, List.head?_nil, BidList.front, h.lst_bad hl, Res.panic_bind]; exact .panic
  | back l =>
    simp only [step, specStep]
    by_cases hl : S.isList l
    · have hb := h.backNode hl
      simp only [BidList.backNode, h.lst_good hl, Res.ok_bind] at hb
      by_cases e : S.seq l = []
      · simp only [e, valsOf_nil, List.getLast?_nil, BidList.back, h.lst_good hl, Res.ok_bind]
        exact .panic
      · obtain ⟨P, z, hz⟩ : ∃ P z, S.seq l = P ++ [z] := ⟨_, _, (List.dropLast_append_getLast e).symm⟩
        obtain ⟨b, hb'⟩ : ∃ b, (S.seq l).head? = some b := by
          cases e' : S.seq l with
          | nil => exact absurd e' e
          | cons x _ => exact ⟨x, rfl⟩
        obtain ⟨nd, e2, fv, -⟩ := h.node_val (h.mem_lt (l := l) (n := z) (by rw [hz]; simp))
        rw [hb', hz, List.getLast?_concat] at hb
        simp only at hb
        obtain ⟨hd, e3, e4⟩ := Res.bind_eq_ok.1 hb
        have e4 : hd.prev = some z := by simpa using e4
        have hv : (S.valsOf (S.seq l)).getLast? = some nd.value := by rw [hz, valsOf_concat fv, List.getLast?_concat]
        simp only [hv, BidList.back, h.lst_good hl, Res.ok_bind]
        rw [if_neg (by simp [e])]
        simp only [hb', Res.ofOption_some, Res.ok_bind, e3, e4, e2]; exact .ok h
    · simp only [seq_bad hl, valsOf_nil, List.getLast?_nil, BidList.back, h.lst_bad hl, Res.panic_bind]; exact .panic
  | len l =>
    simp only [step, specStep]
    by_cases hl : S.isList l
    · simp only [if_pos hl, BidList.len, h.lst_good hl, Res.ok_bind]; exact .ok h
    · simp only [if_neg hl, BidList.len, h.lst_bad hl, Res.panic_bind]; exact .panic
  | empty l =>
    simp only [step, specStep]
    by_cases hl : S.isList l
    · have : decide (((S.seq l).length : Int) = 0) = (S.seq l).isEmpty := by cases S.seq l <;> simp; omega
      simp only [if_pos hl, BidList.empty, h.lst_good hl, Res.ok_bind, this]; exact .ok h
    · simp only [if_neg hl, BidList.empty, h.lst_bad hl, Res.panic_bind]; exact .panic

/-- Whole histories. -/
theorem run_refines (ops : List (Op T)) : ∀ {w : World T} {S : Spec T}, WInv w S → noStale ops S → Agree (run ops w) (specRun ops S) := by
  induction ops with
  | nil => intro w S h _; exact .ok h
  | cons op ops ih =>
    intro w S h hst
    obtain ⟨hf, hst⟩ := hst
    have := step_refines h op hf
    simp only [run, specRun]
    revert this
    generalize e1 : step op w = a
    generalize e2 : specStep op S = b
    intro this
    cases this with
    | panic => exact .panic
    | @ok o w' S' hi =>
      have := ih hi (hst o S' e2)
      simp only [Res.ok_bind]
      revert this
      generalize run ops w' = a
      generalize specRun ops S' = b
      intro this
      cases this with
      | panic => exact .panic
      | ok hi => exact .ok hi

theorem start_inv : WInv (start : World T) specStart := by
  constructor <;> simp [start, specStart, ow, vl, seq]

end GoSTL.BidList
