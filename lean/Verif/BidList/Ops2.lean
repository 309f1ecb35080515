import Verif.BidList.Ops1
/-!
# The removing and moving calls
-/
namespace GoSTL.BidList
variable {T : Type}
open Spec

theorem mem_swap {A B : List Nat} {m : Nat} : m ∈ B ++ A ↔ m ∈ A ++ B := by simp; tauto
theorem mem_mid {P Q : List Nat} {m n : Nat} : m ∈ P ++ n :: Q ↔ m = n ∨ m ∈ P ++ Q := by simp; tauto
theorem mem_ins {X Y : List Nat} {m n a : Nat} : m ∈ X ++ a :: n :: Y ↔ m = n ∨ m ∈ X ++ a :: Y := by simp; tauto

theorem modNode_spec {w : World T} {n : Nat} (h : n < w.nodes.length) :
    ∃ w', (modNode w n fun nd => { nd with next := none, prev := none, list := none }) = .ok w' ∧ w'.lists = w.lists ∧
      w'.nodes.length = w.nodes.length ∧ (∀ m, vl w' m = vl w m) ∧ ow w' n = some none ∧
      ∀ m, m ≠ n → nx w' m = nx w m ∧ pv w' m = pv w m ∧ ow w' m = ow w m := by
  have e : w.nodes[n]? = some w.nodes[n] := by simp
  refine ⟨{ w with nodes := w.nodes.set n { w.nodes[n] with next := none, prev := none, list := none } },
    by simp [modNode, node, e], rfl, by simp, ?_, by simp [ow, h], ?_⟩
  · intro m
    by_cases c : n = m
    · subst c; simp [vl, h]
    · simp [vl, c]
  · intro m hm
    have : n ≠ m := Ne.symm hm
    simp [nx, pv, ow, this]

/-- Neighbours of a node that is not alone. -/
theorem Ring.nbrs {w : World T} {P Q : List Nat} {n : Nat} (h : Ring w (P ++ n :: Q)) (hne : Q ++ P ≠ []) :
    ∃ p x, pv w n = some p ∧ nx w n = some x ∧ p ∈ P ++ Q ∧ x ∈ P ++ Q ∧ (Q ++ P).head? = some x ∧ (Q ++ P).getLast? = some p := by
  have h1 := h.next
  have h2 := h.prev
  rw [List.head?_append_of_ne_nil _ hne] at h1
  obtain ⟨x, hx⟩ : ∃ x, (Q ++ P).head? = some x := by
    cases e : Q ++ P with
    | nil => exact absurd e hne
    | cons x _ => exact ⟨x, rfl⟩
  obtain ⟨p, hp⟩ : ∃ p, (Q ++ P).getLast? = some p := by
    rw [List.getLast?_eq_getLast_of_ne_nil hne]; exact ⟨_, rfl⟩
  have h3 : (n :: (Q ++ P)).getLast? = (Q ++ P).getLast? := by
    cases e : Q ++ P with
    | nil => exact absurd e hne
    | cons x _ => simp [List.getLast?_cons_cons]
  have hm : ∀ y, y ∈ Q ++ P → y ∈ P ++ Q := fun y => mem_swap.1
  exact ⟨p, x, by rw [h2, h3, hp], by rw [h1, hx], hm _ (List.mem_of_mem_getLast? hp), hm _ (List.mem_of_mem_head? hx), hx, hp⟩

theorem mid_perm (P Q : List Nat) (n : Nat) : List.Perm (P ++ n :: Q) (n :: (Q ++ P)) := by
  refine List.perm_middle.trans (List.Perm.cons n List.perm_append_comm)

/-- Take a node out of its ring. -/
theorem unlink_ring {w : World T} {P Q : List Nat} {n : Nat} (h : Ring w (P ++ n :: Q)) (hd : (P ++ n :: Q).Nodup)
    (hlt : ∀ m ∈ P ++ Q, m < w.nodes.length) (hne : Q ++ P ≠ []) :
    ∃ w', unlink w n = .ok w' ∧ Keep w w' ∧ Ring w' (P ++ Q) ∧
      ∀ m, m ∉ P ++ n :: Q → nx w' m = nx w m ∧ pv w' m = pv w m := by
  obtain ⟨p, x, hp, hx, hpm, hxm, -, -⟩ := h.nbrs hne
  obtain ⟨w1, e1, k1, n1, p1⟩ := unlink_spec hp hx (hlt p hpm) (hlt x hxm)
  have hr : Ring w (n :: (Q ++ P)) := h.rotate
  have hd' : (n :: (Q ++ P)).Nodup := (mid_perm P Q n).nodup_iff.1 hd
  have := Ring.remove hr hd' hne hp hx n1 p1
  have hsub : ∀ y, y ∈ P ++ Q → y ∈ P ++ n :: Q := fun y hy => mem_mid.2 (.inr hy)
  refine ⟨w1, e1, k1, this.rotate, ?_⟩
  intro m hm
  rw [n1, p1, if_neg (by rintro rfl; exact hm (hsub _ hpm)), if_neg (by rintro rfl; exact hm (hsub _ hxm))]
  exact ⟨rfl, rfl⟩

theorem remove_spec {w : World T} {S : Spec T} (h : WInv w S) {l n : Nat} {s : List Nat} (hs : S.seqs[l]? = some s) (hn : n ∈ s) :
    ∃ w', remove_ w l n = .ok w' ∧ WInv w' (S.setSeq l (s.erase n)) ∧ (∀ m, vl w' m = vl w m) ∧ w'.nodes.length = w.nodes.length := by
  have hlt := fun m hm => h.lt hs (n := m) hm
  have hl := h.lst l s hs
  have hd := h.nodup l s hs
  have hring := h.ring l s hs
  have hown := fun m => h.own l s m hs
  have hnlt := hlt n hn
  obtain ⟨nd, en, fn, -, -, -⟩ := node_ok hnlt
  obtain ⟨P, Q, rfl, hP, hQ⟩ := split_nodup hn hd
  rw [erase_mid hP]
  have hsub : ∀ y, y ∈ P ++ Q → y ∈ P ++ n :: Q := fun y hy => mem_mid.2 (.inr hy)
  have hnPQ : n ∉ P ++ Q := by simp; exact ⟨hP, hQ⟩
  -- the head is moved on first
  have key : ∀ hd' : Option Nat, ∀ w0 : World T, w0 = { w with lists := w.lists.set l ⟨hd', (P ++ n :: Q).length⟩ } →
      (P ++ Q ≠ [] → hd' = (P ++ Q).head?) →
      ∃ w', (do
        let w ← unlink w0 n
        let w ← modNode w n fun nd => { nd with next := none, prev := none, list := none }
        let w ← setLen w l (· - 1)
        let x ← lst w l
        if x.len = 0 then setHead w l none else .ok w) = .ok w' ∧ WInv w' (S.setSeq l (P ++ Q)) ∧ (∀ m, vl w' m = vl w m) ∧
        w'.nodes.length = w.nodes.length := by
    intro hd' w0 hw0 hhd
    -- the world after the pointer writes
    obtain ⟨w1, e1, k1, r1, f1⟩ : ∃ w1, unlink w0 n = .ok w1 ∧ Keep w0 w1 ∧ (P ++ Q ≠ [] → Ring w1 (P ++ Q)) ∧
        ∀ m, m ∉ P ++ n :: Q → nx w1 m = nx w0 m ∧ pv w1 m = pv w0 m := by
      by_cases c : Q ++ P = []
      · obtain ⟨rfl, rfl⟩ : Q = [] ∧ P = [] := by simpa using c
        have h1 : nx w0 n = some n := by rw [hw0, nx_lists]; simpa using Ring.next (P := []) hring
        have h2 : pv w0 n = some n := by rw [hw0, pv_lists]; simpa using Ring.prev (P := []) hring
        have h3 : n < w0.nodes.length := by rw [hw0]; exact hnlt
        obtain ⟨w1, e1, k1, n1, p1⟩ := unlink_spec h2 h1 h3 h3
        refine ⟨w1, e1, k1, fun x => absurd rfl x, ?_⟩
        intro m hm
        simp at hm
        rw [n1, p1, if_neg hm, if_neg hm]; exact ⟨rfl, rfl⟩
      · have h0 : Ring w0 (P ++ n :: Q) := by rw [hw0]; exact hring
        obtain ⟨w1, e1, k1, r1, f1⟩ := unlink_ring h0 hd (by intro m hm; rw [hw0]; exact hlt m (hsub m hm)) c
        exact ⟨w1, e1, k1, fun _ => r1, f1⟩
    obtain ⟨w2, e2, l2, len2, v2, o2, f2⟩ := modNode_spec (w := w1) (n := n) (by rw [k1.len, hw0]; exact hnlt)
    have hl2 : w2.lists[l]? = some ⟨hd', (P ++ n :: Q).length⟩ := by rw [l2, k1.lists, hw0]; exact set_get hl
    have e3 := setLen_ok hl2 (· - 1)
    set k : Int := ((P ++ n :: Q).length : Int) - 1 with hk
    have hk' : k = (P ++ Q).length := by simp [hk]; omega
    have hl3 : (w2.lists.set l ⟨hd', k⟩)[l]? = some ⟨hd', k⟩ := set_get hl2
    have e4 : lst { w2 with lists := w2.lists.set l ⟨hd', k⟩ } l = .ok ⟨hd', k⟩ := lst_ok hl3
    have e5 := setHead_ok (w := { w2 with lists := w2.lists.set l ⟨hd', k⟩ }) hl3 none
    have inv : WInv { w2 with lists := w.lists.set l ⟨(P ++ Q).head?, (P ++ Q).length⟩ } (S.setSeq l (P ++ Q)) := by
      refine h.update hs (s' := P ++ Q) rfl rfl ?_ ?_ ?_ ?_ ?_ ?_ (fun _ x => x) ?_
      · simp [setSeq, len2, k1.len, hw0, h.nnode]
      · refine (ring_lists _ _ _).2 ?_
        by_cases c : P ++ Q = []
        · rw [c]; exact .nil
        · exact (r1 c).frame (fun a ha => (f2 a (by rintro rfl; exact hnPQ ha)).1)
            (fun a ha => (f2 a (by rintro rfl; exact hnPQ ha)).2.1)
      · exact hd.sublist (by simp)
      · intro m hm
        simp only [ow_lists]
        rw [(f2 m (by rintro rfl; exact hnPQ hm)).2.2, k1.ow, hw0, ow_lists]
        exact hown m (hsub m hm)
      · intro m hm hmo
        have hmm : m ∉ P ++ n :: Q := fun c => hmo (hown m c)
        have hmn : m ≠ n := by rintro rfl; exact hmm (by simp)
        simp only [nx_lists, pv_lists, ow_lists]
        have := f2 m hmn
        rw [this.1, this.2.1, this.2.2, (f1 m hmm).1, (f1 m hmm).2, k1.ow, hw0]
        exact ⟨rfl, rfl, rfl⟩
      · intro m j hm hst
        simp only [ow_lists] at hm
        by_cases c : m = n
        · subst c; rw [o2] at hm; simp at hm
        · rw [(f2 m c).2.2, k1.ow, hw0, ow_lists] at hm
          by_cases d : j = l
          · subst d
            have := h.free j m hm hst
            rw [seq_of hs] at this
            refine .inl ⟨rfl, ?_⟩
            simp at this ⊢; tauto
          · exact .inr ⟨d, hm⟩
      · intro m
        simp only [vl_lists, setSeq]
        rw [v2, k1.vl, hw0, vl_lists]; exact h.vals m
    have hvl : ∀ m, vl w2 m = vl w m := by intro m; rw [v2, k1.vl, hw0, vl_lists]
    have hlen : w2.nodes.length = w.nodes.length := by rw [len2, k1.len, hw0]
    have hli : w2.lists = w.lists.set l ⟨hd', (P ++ n :: Q).length⟩ := by rw [l2, k1.lists, hw0]
    by_cases c : P ++ Q = []
    · refine ⟨{ w2 with lists := w2.lists.set l ⟨none, k⟩ }, ?_, ?_, hvl, hlen⟩
      · simp only [e1, Res.ok_bind, e2, e3, e4]
        rw [if_pos (by rw [hk', c]; rfl)]
        simp only [e5, List.set_set]
      · rw [hk', hli]
        rw [c] at inv ⊢
        simpa using inv
    · refine ⟨{ w2 with lists := w2.lists.set l ⟨hd', k⟩ }, ?_, ?_, hvl, hlen⟩
      · simp only [e1, Res.ok_bind, e2, e3, e4]
        rw [if_neg]
        rw [hk']
        simp only [Int.natCast_eq_zero, List.length_eq_zero_iff]; exact c
      · rw [hk', hli, hhd c]
        simpa using inv
  have e0 : lst w l = .ok ⟨(P ++ n :: Q).head?, (P ++ n :: Q).length⟩ := lst_ok hl
  by_cases c : some n = (P ++ n :: Q).head?
  · have hPn : P = [] := by
      cases P with
      | nil => rfl
      | cons b P => simp at c; subst c; simp at hP
    subst hPn
    obtain ⟨w', e, r⟩ := key nd.next _ rfl (by
      intro hne
      rw [← fn, Ring.next (P := []) hring, List.append_nil]
      rw [List.head?_append_of_ne_nil _ (by simpa using hne)]; simp)
    refine ⟨w', ?_, r⟩
    simp only [remove_, e0, Res.ok_bind, if_pos c, en, setHead_ok hl]
    exact e
  · obtain ⟨w', e, r⟩ := key (P ++ n :: Q).head? w (by
      have : w.lists.set l ⟨(P ++ n :: Q).head?, ((P ++ n :: Q).length : Nat)⟩ = w.lists := by
        apply List.ext_getElem?
        intro i
        by_cases d : l = i
        · subst d; rw [set_get hl, hl]
        · simp [d]
      rw [this]) (by
      intro _
      cases P with
      | nil => simp at c
      | cons b P => simp)
    refine ⟨w', ?_, r⟩
    simp only [remove_, e0, Res.ok_bind, if_neg c]
    exact e

theorem removeCall_spec {w : World T} {S : Spec T} (h : WInv w S) {l n : Nat} {s : List Nat} (hs : S.seqs[l]? = some s) (hn : n ∈ s) :
    ∃ w' x, remove w l n = .ok (x, w') ∧ S.vals[n]? = some x ∧ WInv w' (S.setSeq l (s.erase n)) := by
  obtain ⟨w', e, hi, hv, hlen⟩ := remove_spec h hs hn
  obtain ⟨nd, en, -, -, -, fo⟩ := node_ok (h.lt hs hn)
  obtain ⟨nd', en', -, -, fv', -⟩ := node_ok (w := w') (n := n) (by rw [hlen]; exact h.lt hs hn)
  rw [h.own l s n hs hn] at fo
  have fo : nd.list = some l := by simpa using fo.symm
  refine ⟨w', nd'.value, ?_, ?_, hi⟩
  · simp only [remove, en, Res.ok_bind, fo, if_true, e, en']
  · rw [← fv', hv, h.vals]

/-! ## Moves -/

/-- What `moveToAfter` does to the ring; the world is otherwise untouched. -/
structure Moved (w w' : World T) (S : Spec T) (l : Nat) (r : List Nat) : Prop where
  lists : w'.lists = w.lists.set l ⟨r.head?, r.length⟩
  inv : ∀ A B, r = A ++ B →
    WInv { w' with lists := w.lists.set l ⟨(B ++ A).head?, (B ++ A).length⟩ } (S.setSeq l (B ++ A))

theorem Moved.direct {w w' : World T} {S : Spec T} {l : Nat} {r : List Nat} (h : Moved w w' S l r) : WInv w' (S.setSeq l r) := by
  have := h.inv [] r rfl
  have e : { w' with lists := w.lists.set l ⟨(r ++ []).head?, (r ++ []).length⟩ } = w' := by rw [List.append_nil, ← h.lists]
  rw [e] at this; simpa using this

/-- The same ring read from another start. -/
theorem WInv.moved_refl {w : World T} {S : Spec T} (h : WInv w S) {l : Nat} {s : List Nat} (hs : S.seqs[l]? = some s) : Moved w w S l s := by
  have hl := h.lst l s hs
  constructor
  · apply List.ext_getElem?
    intro i
    by_cases d : l = i
    · subst d; rw [set_get hl, hl]
    · simp [d]
  · intro A B hAB
    have hm : ∀ m, m ∈ B ++ A ↔ m ∈ s := by intro m; rw [hAB]; exact mem_swap
    refine h.update hs (s' := B ++ A) rfl rfl h.nnode ?_ ?_ ?_ (fun m _ _ => ⟨rfl, rfl, rfl⟩) ?_ (fun _ x => x) h.vals
    · refine (ring_lists _ _ _).2 ?_
      have := h.ring l s hs
      rw [hAB] at this; exact this.rotate
    · have := h.nodup l s hs
      rw [hAB] at this
      exact (List.perm_append_comm.nodup_iff).1 this
    · intro n hn; exact h.own l s n hs ((hm n).1 hn)
    · intro m j hj hst
      by_cases d : j = l
      · subst d
        have := h.free j m hj hst
        rw [seq_of hs] at this
        exact .inl ⟨rfl, (hm m).2 this⟩
      · exact .inr ⟨d, hj⟩

theorem moveToAfter_spec {w : World T} {S : Spec T} (h : WInv w S) {l n a : Nat} {s : List Nat} (hs : S.seqs[l]? = some s)
    (hn : n ∈ s) (ha : a ∈ s) (hne : n ≠ a) (hna : nx w a ≠ some n) :
    ∃ w', moveToAfter w l n a = .ok w' ∧ Moved w w' S l (insAfter a n (s.erase n)) := by
  have hlt := fun m hm => h.lt hs (n := m) hm
  have hl := h.lst l s hs
  have hd := h.nodup l s hs
  have hring := h.ring l s hs
  have hown := fun m => h.own l s m hs
  obtain ⟨nda, ea, fa, -, -, -⟩ := node_ok (hlt a ha)
  obtain ⟨nd, en, fn, -, -, -⟩ := node_ok (hlt n hn)
  obtain ⟨P, Q, rfl, hP, hQ⟩ := split_nodup hn hd
  rw [erase_mid hP]
  have hsub : ∀ y, y ∈ P ++ Q → y ∈ P ++ n :: Q := fun y hy => mem_mid.2 (.inr hy)
  have hnPQ : n ∉ P ++ Q := by simp; exact ⟨hP, hQ⟩
  have haPQ : a ∈ P ++ Q := by simp at ha ⊢; rcases ha with h | h | h; exact .inl h; exact absurd h.symm hne; exact .inr h
  have hdPQ : (P ++ Q).Nodup := hd.sublist (by simp)
  have hc : Q ++ P ≠ [] := by
    intro c
    obtain ⟨rfl, rfl⟩ : Q = [] ∧ P = [] := by simpa using c
    simp at haPQ
  obtain ⟨X, Y, hXY, hX, hY⟩ := split_nodup haPQ hdPQ
  rw [hXY, insAfter_mid hX]
  set hd' := (X ++ a :: n :: Y).head? with hhd'
  have hhd : hd' = (P ++ Q).head? := by rw [hXY, hhd']; cases X <;> simp
  -- the pointer writes on a world with any lists
  have key : ∀ L, ∃ w', (do let w ← unlink { w with lists := L } n; link w n a) = .ok w' ∧ w'.lists = L ∧
      ∀ A B, X ++ a :: n :: Y = A ++ B →
        WInv { w' with lists := w.lists.set l ⟨(B ++ A).head?, (B ++ A).length⟩ } (S.setSeq l (B ++ A)) := by
    intro L
    have h0 : Ring { w with lists := L } (P ++ n :: Q) := hring
    obtain ⟨w1, e1, k1, r1, f1⟩ := unlink_ring h0 hd (fun m hm => hlt m (hsub m hm)) hc
    rw [hXY] at r1
    have r1' : Ring w1 (Y ++ X ++ [a]) := by
      have : Ring w1 ((X ++ [a]) ++ Y) := by simpa using r1
      simpa using this.rotate
    obtain ⟨x, hx⟩ : ∃ x, (Y ++ X ++ [a]).head? = some x := by
      cases e : Y ++ X ++ [a] with
      | nil => simp at e
      | cons x _ => exact ⟨x, rfl⟩
    have hmem : ∀ b, b ∈ Y ++ X ++ [a] ↔ b ∈ P ++ Q := by
      intro b
      rw [hXY, List.append_assoc, mem_swap]; simp
    have hxm : x ∈ P ++ Q := (hmem x).1 (List.mem_of_mem_head? hx)
    have hxn : nx w1 a = some x := by rw [r1.next, hx]
    have hlen1 : w1.nodes.length = w.nodes.length := k1.len
    have hxne : x ≠ n := by rintro rfl; exact hnPQ hxm
    obtain ⟨w2, e2, k2, n2, p2⟩ := link_spec (w := w1) (n := n) (a := a) (x := x) (by rw [hlen1]; exact hlt n hn) hne hxn
      (by rw [hlen1]; exact hlt x (hsub x hxm)) hxne
    have hnd' : (Y ++ X ++ [a]).Nodup := by
      have e : P ++ Q = (X ++ [a]) ++ Y := by rw [hXY]; simp
      rw [e] at hdPQ
      rw [List.append_assoc]
      exact List.perm_append_comm.nodup_iff.1 hdPQ
    have hr2 : Ring w2 (Y ++ X ++ [a, n]) := Ring.insert r1' hnd' (by rw [hmem]; exact hnPQ) hxn n2 p2
    have hr3 : Ring w2 (X ++ a :: n :: Y) := by
      have : Ring w2 (Y ++ (X ++ [a, n])) := by simpa using hr2
      simpa using this.rotate
    refine ⟨w2, by simp only [e1, Res.ok_bind, e2], by rw [k2.lists, k1.lists], ?_⟩
    intro A B hAB
    have hm : ∀ m, m ∈ B ++ A ↔ m ∈ P ++ n :: Q := by
      intro m
      rw [mem_swap, ← hAB, mem_mid (P := P), hXY, mem_ins]
    have how : ∀ m, ow w2 m = ow w m := by intro m; rw [k2.ow, k1.ow, ow_lists]
    refine h.update hs (s' := B ++ A) rfl rfl ?_ ?_ ?_ ?_ ?_ ?_ (fun _ x => x) ?_
    · simp [setSeq, k2.len, hlen1, h.nnode]
    · refine (ring_lists _ _ _).2 ?_
      rw [hAB] at hr3; exact hr3.rotate
    · have h1 : (X ++ a :: n :: Y).Nodup := by
        have : ((X ++ [a]) ++ n :: Y).Nodup := by
          rw [List.nodup_middle]
          rw [hXY] at hnPQ hdPQ
          exact List.nodup_cons.2 ⟨by simpa using hnPQ, by simpa using hdPQ⟩
        simpa using this
      rw [hAB] at h1
      exact (List.perm_append_comm.nodup_iff).1 h1
    · intro m hm'
      simp only [ow_lists]
      rw [how]; exact hown m ((hm m).1 hm')
    · intro m hmlt hmo
      have hma : m ∉ P ++ n :: Q := fun c => hmo (hown m c)
      simp only [nx_lists, pv_lists, ow_lists]
      rw [n2, p2, how, if_neg (by rintro rfl; exact hma (hsub _ haPQ)), if_neg (by rintro rfl; exact hma (by simp)),
        if_neg (by rintro rfl; exact hma (hsub _ hxm)), if_neg (by rintro rfl; exact hma (by simp))]
      exact ⟨(f1 m hma).1, (f1 m hma).2, rfl⟩
    · intro m j hj hst
      simp only [ow_lists] at hj
      rw [how] at hj
      by_cases d : j = l
      · subst d
        have := h.free j m hj hst
        rw [seq_of hs] at this
        exact .inl ⟨rfl, (hm m).2 this⟩
      · exact .inr ⟨d, hj⟩
    · intro m
      simp only [vl_lists, setSeq]
      rw [k2.vl, k1.vl, vl_lists]; exact h.vals m
  have hlen : ((P ++ n :: Q).length : Int) = (X ++ a :: n :: Y).length := by
    have : (P ++ Q).length = (X ++ a :: Y).length := by rw [hXY]
    simp at this ⊢; omega
  have e0 : lst w l = .ok ⟨(P ++ n :: Q).head?, (P ++ n :: Q).length⟩ := lst_ok hl
  have hcond : ¬ (some n = nda.next ∨ n = a) := by
    rintro (c | c)
    · exact hna (by rw [fa, c])
    · exact hne c
  by_cases c : some n = (P ++ n :: Q).head?
  · have hPn : P = [] := by
      cases P with
      | nil => rfl
      | cons b P => simp at c; subst c; simp at hP
    subst hPn
    obtain ⟨w', e, el, r⟩ := key (w.lists.set l ⟨nd.next, ([] ++ n :: Q).length⟩)
    have hnn : nd.next = hd' := by
      rw [hhd, ← fn, Ring.next (P := []) hring, List.append_nil]
      rw [List.head?_append_of_ne_nil _ (by simpa using hc)]; simp
    refine ⟨w', ?_, ?_, r⟩
    · simp only [moveToAfter, ea, Res.ok_bind]
      rw [if_neg hcond]
      simp only [e0, Res.ok_bind, if_pos c, en, setHead_ok hl]
      exact e
    · rw [el, hnn, hlen]
  · obtain ⟨w', e, el, r⟩ := key w.lists
    refine ⟨w', ?_, ?_, r⟩
    · simp only [moveToAfter, ea, Res.ok_bind]
      rw [if_neg hcond]
      simp only [e0, Res.ok_bind, if_neg c]
      exact e
    · rw [el, ← hlen, ← hhd', hhd]
      have hh : (P ++ Q).head? = (P ++ n :: Q).head? := by
        cases P with
        | nil => simp at c
        | cons b P => simp
      rw [hh]
      exact (h.moved_refl hs).lists

end GoSTL.BidList
