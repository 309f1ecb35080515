import Verif.BidList.Proofs
/-!
# The inserting calls
-/
namespace GoSTL.BidList
variable {T : Type}
open Spec

theorem insAfter_mid {a n : Nat} {P Q : List Nat} (h : a ∉ P) : insAfter a n (P ++ a :: Q) = P ++ a :: n :: Q := by
  induction P with
  | nil => simp [insAfter]
  | cons b P ih =>
    have : b ≠ a := by rintro rfl; simp at h
    simp [insAfter, this]
    exact ih (fun c => h (by simp [c]))

theorem insBefore_mid {a n : Nat} {P Q : List Nat} (h : a ∉ P) : insBefore a n (P ++ a :: Q) = P ++ n :: a :: Q := by
  induction P with
  | nil => simp [insBefore]
  | cons b P ih =>
    have : b ≠ a := by rintro rfl; simp at h
    simp [insBefore, this]
    exact ih (fun c => h (by simp [c]))

theorem erase_mid {n : Nat} {P Q : List Nat} (h : n ∉ P) : (P ++ n :: Q).erase n = P ++ Q := by
  rw [List.erase_append_right _ h]; simp

theorem split_nodup {s : List Nat} {n : Nat} (h : n ∈ s) (hd : s.Nodup) : ∃ P Q, s = P ++ n :: Q ∧ n ∉ P ∧ n ∉ Q := by
  obtain ⟨P, Q, rfl⟩ := List.append_of_mem h
  refine ⟨P, Q, rfl, ?_⟩
  rw [List.nodup_middle, List.nodup_cons] at hd
  simpa using hd.1

theorem setSeq_twice (S : Spec T) (v : T) (l : Nat) (s t : List Nat) :
    ((S.addVal v).setSeq l s).setSeq l t = (S.addVal v).setSeq l t := by simp [setSeq, addVal]

theorem Inserted.direct {w w' : World T} {S : Spec T} {l : Nat} {v : T} {r : List Nat} (h : Inserted w w' S l v r r.length)
    (hr : r.head? = (S.seq l).head?) : WInv w' ((S.addVal v).setSeq l r) := by
  obtain ⟨⟨hd, e, hh⟩, inv⟩ := h
  have := inv [] r (by simp)
  have e2 : w' = { w' with lists := w.lists.set l ⟨(r ++ []).head?, (r ++ []).length⟩ } := by
    rw [List.append_nil, hr, ← hh, ← e]
  rw [← e2] at this
  simpa using this

/-- `PushBack`; on a non-empty list the new node ends the ring, so it can also be declared the front. -/
theorem pushBack_spec {w : World T} {S : Spec T} (h : WInv w S) {l : Nat} {s : List Nat} (v : T) (hs : S.seqs[l]? = some s) :
    ∃ w', pushBack_ w l v = .ok (w.nodes.length, w') ∧ WInv w' ((S.addVal v).setSeq l (s ++ [w.nodes.length])) ∧
      (∃ x, w'.lists[l]? = some x) ∧
      ∀ w'', setHead w' l (some w.nodes.length) = .ok w'' → WInv w'' ((S.addVal v).setSeq l (w.nodes.length :: s)) := by
  have hl := h.lst l s hs
  obtain ⟨a1, al, alen, aold, avl, aow⟩ := alloc_spec w v l
  cases s using List.reverseRecOn with
  | nil =>
    set n := w.nodes.length with hn
    obtain ⟨w1, e1, k1, n1, p1⟩ := setPrev_spec (w := (alloc w v l).2) (n := n) (by omega) (some n)
    obtain ⟨w2, e2, k2, n2, p2⟩ := setNext_spec (w := w1) (n := n) (by rw [k1.len]; omega) (some n)
    have hl2 : w2.lists[l]? = some ⟨none, 0⟩ := by rw [k2.lists, k1.lists, al]; exact hl
    have hl3 : (w2.lists.set l ⟨some n, 0⟩)[l]? = some ⟨some n, 0⟩ := set_get hl2
    have hl4 : (w2.lists.set l ⟨some n, 1⟩)[l]? = some ⟨some n, 1⟩ := set_get hl2
    have inv : WInv { w2 with lists := w2.lists.set l ⟨some n, 1⟩ } ((S.addVal v).setSeq l [n]) := by
      refine h.update hs (s' := [n]) rfl (by simp [k2.lists, k1.lists, al]) ?_ ?_ (by simp) ?_ ?_ ?_ (fun _ x => x) ?_
      · simp [addVal, setSeq, k2.len, k1.len, alen, hn, h.nnode]
      · refine (ring_lists _ _ _).2 ?_
        simp only [Ring, Links, List.head?_cons, Option.toList_some, List.cons_append, List.nil_append]
        rw [List.isChain_cons_cons]
        exact ⟨⟨by rw [n2, if_pos rfl], by rw [p2, p1, if_pos rfl]⟩, .singleton _⟩
      · intro m hm
        simp at hm; subst hm
        simp only [ow_lists]; rw [k2.ow, k1.ow]; exact aow
      · intro m hm _
        have := aold m (by omega)
        simp only [nx_lists, pv_lists, ow_lists]
        rw [n2, if_neg (by omega), n1, p2, p1, if_neg (by omega), k2.ow, k1.ow]
        exact ⟨this.1, this.2.1, this.2.2.2⟩
      · intro m j hm hst
        simp only [ow_lists] at hm
        rw [k2.ow, k1.ow] at hm
        by_cases c : m = n
        · subst c; rw [aow] at hm; simp at hm; exact .inl ⟨hm.symm, by simp⟩
        · rw [(aold m (by omega)).2.2.2] at hm
          by_cases d : j = l
          · subst d
            have := h.free j m hm hst
            rw [seq_of hs] at this; simp at this
          · exact .inr ⟨d, hm⟩
      · apply vals_add h
        · simp [k2.len, k1.len, alen, hn]
        · intro m hm; simp only [vl_lists]; rw [k2.vl, k1.vl]; exact (aold m hm).2.2.1
        · simp only [vl_lists]; rw [k2.vl, k1.vl]; exact avl
    refine ⟨{ w2 with lists := w2.lists.set l ⟨some n, 1⟩ }, ?_, by simpa using inv, ⟨_, hl4⟩, ?_⟩
    · have e0 : lst (alloc w v l).2 l = .ok ⟨none, 0⟩ := lst_ok (by rw [al]; exact hl)
      have e3 := setHead_ok hl2 (some n)
      have e4 := setLen_ok (w := { w2 with lists := w2.lists.set l ⟨some n, 0⟩ }) hl3 (· + 1)
      simp only [pushBack_, a1, e0, Res.ok_bind, if_true, e1, e2, e3, e4, ← hn]
      simp
    · intro w'' e
      rw [setHead_ok hl4] at e
      injection e with e; subst e
      simpa using inv
  | append_singleton P a =>
    obtain ⟨w1, e1, ins⟩ := insertAfter_spec h (P := P) (a := a) (Q := []) v hs
    set n := w.nodes.length with hn
    have hne : (P ++ [a]).length ≠ 0 := by simp
    obtain ⟨b, hb⟩ : ∃ b, (P ++ [a]).head? = some b := by
      cases e : P ++ [a] with
      | nil => simp at e
      | cons x _ => exact ⟨x, rfl⟩
    have hbm : b ∈ P ++ [a] := List.mem_of_mem_head? hb
    have hblt : b < n := h.lt hs hbm
    obtain ⟨nd, e2, -, f2, -, -⟩ := node_ok (w := (alloc w v l).2) (n := b) (by omega)
    have hpv : nd.prev = some a := by
      rw [← f2, (aold b (by omega)).2.1]
      obtain ⟨Q', eQ⟩ : ∃ Q', P ++ [a] = b :: Q' := by
        cases e : P ++ [a] with
        | nil => simp at e
        | cons x t => rw [e] at hb; simp at hb; subst hb; exact ⟨t, rfl⟩
      have := h.ring l _ hs
      rw [eQ] at this
      rw [Ring.prev (P := []) this, List.append_nil, ← eQ]; simp
    have e0 : lst (alloc w v l).2 l = .ok ⟨(P ++ [a]).head?, (P ++ [a]).length⟩ := lst_ok (by rw [al]; exact hl)
    refine ⟨w1, ?_, ?_, ?_, ?_⟩
    · simp only [pushBack_, a1, e0, Res.ok_bind]
      rw [if_neg (by simp; omega)]
      simp only [hb, Res.ofOption_some, Res.ok_bind, e2, hpv, e1, ← hn]
    · have hlen : ((P ++ [a]).length : Int) + 1 = (P ++ a :: n :: []).length := by simp; omega
      rw [hlen] at ins
      have := ins.direct (by rw [seq_of hs]; cases P <;> simp)
      simpa using this
    · obtain ⟨⟨hd, e, -⟩, -⟩ := ins
      exact ⟨_, by rw [e]; exact set_get hl⟩
    · obtain ⟨⟨hd, e, -⟩, inv⟩ := ins
      intro w'' e'
      have hx : w1.lists[l]? = some ⟨hd, (P ++ [a]).length + 1⟩ := by rw [e]; exact set_get hl
      rw [setHead_ok hx] at e'
      injection e' with e'; subst e'
      have := inv (P ++ [a]) [n] (by simp)
      simpa [e] using this

theorem insertAfterCall_spec {w : World T} {S : Spec T} (h : WInv w S) {l a : Nat} {s : List Nat} (v : T) (hs : S.seqs[l]? = some s)
    (ha : a ∈ s) : ∃ w', insertAfter w l v a = .ok (some w.nodes.length, w') ∧
      WInv w' ((S.addVal v).setSeq l (insAfter a w.nodes.length s)) := by
  obtain ⟨nd, e1, -, -, -, f1⟩ := node_ok (h.lt hs ha)
  rw [h.own l s a hs ha] at f1
  obtain ⟨P, Q, rfl, hP, -⟩ := split_nodup ha (h.nodup l s hs)
  obtain ⟨w1, e2, ins⟩ := insertAfter_spec h v hs
  refine ⟨w1, ?_, ?_⟩
  · have : nd.list = some l := by simpa using f1.symm
    simp only [insertAfter, e1, Res.ok_bind, this, ne_eq, not_true_eq_false, if_false, (alloc_spec w v l).1, e2]
  · have hlen : ((P ++ a :: Q).length : Int) + 1 = (P ++ a :: w.nodes.length :: Q).length := by simp; omega
    rw [hlen] at ins
    rw [insAfter_mid hP]
    exact ins.direct (by rw [seq_of hs]; cases P <;> simp)

theorem insertBeforeCall_spec {w : World T} {S : Spec T} (h : WInv w S) {l a : Nat} {s : List Nat} (v : T) (hs : S.seqs[l]? = some s)
    (ha : a ∈ s) : ∃ w', insertBefore w l v a = .ok (some w.nodes.length, w') ∧
      WInv w' ((S.addVal v).setSeq l (insBefore a w.nodes.length s)) := by
  obtain ⟨a1, al, alen, aold, avl, aow⟩ := alloc_spec w v l
  have halt := h.lt hs ha
  obtain ⟨nd, e1, -, -, -, f1⟩ := node_ok halt
  rw [h.own l s a hs ha] at f1
  have f1 : nd.list = some l := by simpa using f1.symm
  obtain ⟨ne, e2, -, f2, -, -⟩ := node_ok (w := (alloc w v l).2) (n := a) (by omega)
  rw [(aold a (by omega)).2.1] at f2
  have hd := h.nodup l s hs
  obtain ⟨P, Q, rfl, hP, hQ⟩ := split_nodup ha hd
  rw [insBefore_mid hP]
  have hpv := (h.ring l _ hs).prev
  have hl := h.lst l _ hs
  cases P using List.reverseRecOn with
  | nil =>
    -- `a` is the front: the new node goes behind the last one and becomes the head
    obtain ⟨R, z, hz⟩ : ∃ R z, a :: Q = R ++ [z] := by
      have : a :: Q ≠ [] := by simp
      exact ⟨_, _, (List.dropLast_append_getLast this).symm⟩
    have hpz : ne.prev = some z := by rw [← f2, hpv, List.append_nil, hz]; simp
    have hs' : S.seqs[l]? = some (R ++ z :: []) := by rw [hs, List.nil_append, hz]
    obtain ⟨w1, e3, ⟨⟨hd, e4, hh⟩, inv⟩⟩ := insertAfter_spec h v hs'
    have hha : hd = some a := by rw [hh, seq_of hs]; rfl
    have hx : w1.lists[l]? = some ⟨some a, (R ++ [z]).length + 1⟩ := by rw [e4, hha]; exact set_get hl
    refine ⟨{ w1 with lists := w1.lists.set l ⟨some w.nodes.length, (R ++ [z]).length + 1⟩ }, ?_, ?_⟩
    · simp only [insertBefore, e1, Res.ok_bind, f1, ne_eq, not_true_eq_false, if_false, a1, e2, hpz, Res.ofOption_some, e3,
        lst_ok hx, if_true, setHead_ok hx]
    · have := inv (R ++ [z]) [w.nodes.length] (by simp)
      simp only [List.nil_append]
      rw [hz, e4]
      simpa using this
  | append_singleton P p =>
    have hpz : ne.prev = some p := by
      rw [← f2, hpv]
      rw [show a :: (Q ++ (P ++ [p])) = (a :: (Q ++ P)) ++ [p] by simp]
      exact List.getLast?_concat
    have hs' : S.seqs[l]? = some (P ++ p :: (a :: Q)) := by rw [hs]; simp
    obtain ⟨w1, e3, ins⟩ := insertAfter_spec h v hs'
    have hnd2 : (P ++ p :: (a :: Q)).head? ≠ some a := by
      intro c
      apply hP
      cases P with
      | nil => simp at c ⊢; exact c.symm
      | cons b P => simp at c; simp [c]
    obtain ⟨hd, e4, hh⟩ := ins.lists
    have hx : w1.lists[l]? = some ⟨hd, (P ++ p :: (a :: Q)).length + 1⟩ := by rw [e4]; exact set_get hl
    refine ⟨w1, ?_, ?_⟩
    · simp only [insertBefore, e1, Res.ok_bind, f1, ne_eq, not_true_eq_false, if_false, a1, e2, hpz, Res.ofOption_some, e3,
        lst_ok hx]
      rw [if_neg (by rw [hh, seq_of hs']; exact hnd2)]
    · have hlen : ((P ++ p :: (a :: Q)).length : Int) + 1 = (P ++ p :: w.nodes.length :: a :: Q).length := by simp; omega
      rw [hlen] at ins
      have := ins.direct (by rw [seq_of hs']; cases P <;> simp)
      simpa using this

end GoSTL.BidList
