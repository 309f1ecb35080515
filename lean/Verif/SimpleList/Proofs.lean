import Verif.SimpleList.Model
import Verif.BidList.Refine
/-!
# Single lists: specification and refinement
-/
namespace GoSTL.SimpleList
open BidList (insAfter after before insAfter_mid erase_mid split_nodup after_mid before_mid)
variable {T : Type}

/-! ## Specification -/

/-- The handles of the list in order, and the value behind every handle. -/
structure Spec (T : Type) where
  seq : List Nat
  vals : List T

/-- Are the arguments right: marks and nodes in the list, `pre` the node before? (The value of any node may be read and written.) -/
def okArgs (op : Op T) (S : Spec T) : Prop :=
  match op with
  | .insertAfter _ m => m ∈ S.seq
  | .remove p (some n) | .moveToFront p (some n) | .moveToBack p (some n) => n ∈ S.seq ∧ p = before n S.seq
  | .remove _ none | .moveToBack _ none => True
  | .moveToFront p none => ∀ q ∈ p, q ∈ S.seq
  | .next n => n ∈ S.seq
  | _ => True

/-- One call, on the specification. -/
def specStep (zero : T) (op : Op T) (S : Spec T) : Res (Out T × Spec T) :=
  match op with
  | .pushFront v => .ok (.unit, ⟨S.vals.length :: S.seq, S.vals ++ [v]⟩)
  | .pushBack v => .ok (.unit, ⟨S.seq ++ [S.vals.length], S.vals ++ [v]⟩)
  | .insertAfter v m => .ok (.node (some S.vals.length), ⟨insAfter m S.vals.length S.seq, S.vals ++ [v]⟩)
  | .remove _ none => .ok (.val zero, S)
  | .remove _ (some n) => match S.vals[n]? with
    | none => .panic
    | some x => .ok (.val x, { S with seq := S.seq.erase n })
  | .moveToFront _ none | .moveToBack _ none => .ok (.unit, S)
  | .moveToFront _ (some n) => .ok (.unit, { S with seq := n :: S.seq.erase n })
  | .moveToBack _ (some n) => .ok (.unit, { S with seq := S.seq.erase n ++ [n] })
  | .setValue n v => if n < S.vals.length then .ok (.unit, { S with vals := S.vals.set n v }) else .panic
  | .value n => match S.vals[n]? with
    | none => .panic
    | some x => .ok (.val x, S)
  | .next n => .ok (.node (after n S.seq), S)
  | .frontNode => .ok (.node S.seq.head?, S)
  | .backNode => .ok (.node S.seq.getLast?, S)
  | .len => .ok (.int S.seq.length, S)

/-- A program, on the specification. -/
def specRun (zero : T) : List (Op T) → Spec T → Res (List (Out T) × Spec T)
  | [], S => .ok ([], S)
  | op :: ops, S => do
    let (o, S) ← specStep zero op S
    let (os, S) ← specRun zero ops S
    .ok (o :: os, S)

/-- Every call of the history has right arguments. -/
def okHistory (zero : T) : List (Op T) → Spec T → Prop
  | [], _ => True
  | op :: ops, S => okArgs op S ∧ ∀ o S', specStep zero op S = .ok (o, S') → okHistory zero ops S'

/-! ## Chains -/

/-- Field `next`. -/
def nx (w : World T) (n : Nat) : Option Nat := w.nodes[n]?.bind Node.next
/-- Field `Value`. -/
def vl (w : World T) (n : Nat) : Option T := w.nodes[n]?.map Node.value

/-- The nodes `s` are chained in this order, the last one points to `e`. -/
def Sg (w : World T) : List Nat → Option Nat → Prop
  | [], _ => True
  | a :: s, e => nx w a = s.head?.or e ∧ Sg w s e

theorem sg_append {w : World T} {P Q : List Nat} {e : Option Nat} : Sg w (P ++ Q) e ↔ Sg w P (Q.head?.or e) ∧ Sg w Q e := by
  induction P with
  | nil => simp [Sg]
  | cons a P ih =>
    simp only [List.cons_append, Sg, ih, List.head?_append, Option.or_assoc, and_assoc]

theorem Sg.frame {w w' : World T} {s : List Nat} {e : Option Nat} (h : Sg w s e) (hf : ∀ a ∈ s, nx w' a = nx w a) : Sg w' s e := by
  induction s with
  | nil => trivial
  | cons a s ih => exact ⟨by rw [hf a (by simp)]; exact h.1, ih h.2 (fun b hb => hf b (by simp [hb]))⟩

/-- The memory holds the specification's list. -/
structure WInv (w : World T) (S : Spec T) : Prop where
  nnode : w.nodes.length = S.vals.length
  vals : ∀ n, vl w n = S.vals[n]?
  head : w.head = S.seq.head?
  tail : w.tail = S.seq.getLast?
  len : w.len = S.seq.length
  nodup : S.seq.Nodup
  lt : ∀ n ∈ S.seq, n < w.nodes.length
  chain : Sg w S.seq none

theorem node_ok {w : World T} {n : Nat} (h : n < w.nodes.length) :
    ∃ nd, node w n = .ok nd ∧ nx w n = nd.next ∧ vl w n = some nd.value := by
  have e : w.nodes[n]? = some w.nodes[n] := by simp
  exact ⟨w.nodes[n], by simp [node, e], by simp [nx, e], by simp [vl, e]⟩

theorem node_panic {w : World T} {n : Nat} (h : w.nodes.length ≤ n) : node w n = .panic := by
  simp [node, List.getElem?_eq_none h]

/-- Only `next` pointers may differ. -/
structure Keep (w w' : World T) : Prop where
  head : w'.head = w.head
  tail : w'.tail = w.tail
  len : w'.len = w.len
  nlen : w'.nodes.length = w.nodes.length
  vl : ∀ m, vl w' m = vl w m

theorem setNext_spec {w : World T} {n : Nat} (h : n < w.nodes.length) (p : Option Nat) :
    ∃ w', setNext w n p = .ok w' ∧ Keep w w' ∧ ∀ m, nx w' m = if m = n then p else nx w m := by
  have e : w.nodes[n]? = some w.nodes[n] := by simp
  refine ⟨{ w with nodes := w.nodes.set n { w.nodes[n] with next := p } }, by simp [setNext, node, e], ⟨rfl, rfl, rfl, by simp, ?_⟩, ?_⟩ <;>
    intro m <;> by_cases c : n = m
  all_goals first
    | (subst c; simp [vl, nx, h])
    | simp [vl, nx, c, Ne.symm c]

theorem alloc_spec (w : World T) (v : T) : (alloc w v).1 = w.nodes.length ∧ (alloc w v).2.head = w.head ∧ (alloc w v).2.tail = w.tail ∧
    (alloc w v).2.len = w.len ∧ (alloc w v).2.nodes.length = w.nodes.length + 1 ∧
    (∀ m, m ≠ w.nodes.length → nx (alloc w v).2 m = nx w m ∧ vl (alloc w v).2 m = vl w m) ∧
    vl (alloc w v).2 w.nodes.length = some v ∧ nx (alloc w v).2 w.nodes.length = none := by
  refine ⟨rfl, rfl, rfl, rfl, by simp [alloc], ?_, by simp [alloc, vl], by simp [alloc, nx]⟩
  intro m hm
  have : (w.nodes ++ [({ next := none, value := v } : Node T)])[m]? = w.nodes[m]? := by
    rcases Nat.lt_or_gt_of_ne hm with h | h
    · exact List.getElem?_append_left h
    · rw [List.getElem?_eq_none (by simp; omega), List.getElem?_eq_none (by omega)]
  simp [alloc, nx, vl, this]

theorem vals_add {w w' : World T} {S : Spec T} {v : T} (h : WInv w S)
    (hold : ∀ m, m ≠ w.nodes.length → vl w' m = vl w m) (hnew : vl w' w.nodes.length = some v) :
    ∀ n, vl w' n = (S.vals ++ [v])[n]? := by
  intro n
  by_cases c : n = w.nodes.length
  · subst c; rw [hnew, h.nnode]; simp
  · rw [hold n c, h.vals]
    rcases Nat.lt_or_gt_of_ne c with d | d
    · rw [List.getElem?_append_left (by rw [← h.nnode]; exact d)]
    · rw [List.getElem?_eq_none (by rw [← h.nnode]; omega), List.getElem?_eq_none (by simp; rw [← h.nnode]; omega)]

/-- The same result, and the states agree. -/
inductive Agree {α : Type} : Res (α × World T) → Res (α × Spec T) → Prop
  | ok {a : α} {w : World T} {S : Spec T} : WInv w S → Agree (.ok (a, w)) (.ok (a, S))
  | panic : Agree .panic .panic

theorem pushFront_spec {w : World T} {S : Spec T} (h : WInv w S) (v : T) :
    ∃ w', pushFront w v = .ok w' ∧ WInv w' ⟨S.vals.length :: S.seq, S.vals ++ [v]⟩ := by
  obtain ⟨a1, ah, at', al, an, aold, av, ax⟩ := alloc_spec w v
  have hlt : ∀ n ∈ S.seq, n ≠ w.nodes.length := fun n hn => Nat.ne_of_lt (h.lt n hn)
  by_cases c : S.seq = []
  · have hl : w.len = 0 := by rw [h.len, c]; rfl
    refine ⟨{ (alloc w v).2 with head := some w.nodes.length, tail := some w.nodes.length, len := w.len + 1 }, ?_, ?_⟩
    · simp only [pushFront, a1, al]
      rw [if_pos hl]; simp [al]
    · refine ⟨by simp [an, h.nnode], vals_add h (fun m hm => (aold m hm).2) av, by simp [h.nnode], by simp [c, h.nnode], by simp [h.len], ?_, ?_, ?_⟩
      · simp [c]
      · simp only [c, List.mem_singleton]; rintro n rfl; simp [an, h.nnode]
      · simp only [c]
        refine ⟨?_, trivial⟩
        rw [← h.nnode]; exact ax
  · have hl : ¬ w.len = 0 := by rw [h.len]; simp [c]
    obtain ⟨w1, e1, k1, n1⟩ := setNext_spec (w := (alloc w v).2) (n := w.nodes.length) (by omega) (alloc w v).2.head
    refine ⟨{ w1 with head := some w.nodes.length, len := w1.len + 1 }, ?_, ?_⟩
    · simp only [pushFront, a1, al]
      rw [if_neg hl]; simp [e1]
    · refine ⟨by simp [k1.nlen, an, h.nnode], vals_add h (fun m hm => (k1.vl m).trans (aold m hm).2) ((k1.vl _).trans av), by simp [h.nnode], ?_, ?_, ?_, ?_, ?_⟩
      · simp only [k1.tail, at', h.tail]
        cases e : S.seq with
        | nil => exact absurd e c
        | cons a s => simp [List.getLast?_cons_cons]
      · simp [k1.len, al, h.len]
      · exact List.nodup_cons.2 ⟨fun hm => hlt _ hm h.nnode.symm, h.nodup⟩
      · intro n hn
        simp only [k1.nlen, an]
        rcases List.mem_cons.1 hn with rfl | hn
        · rw [h.nnode]; omega
        · have := h.lt n hn; omega
      · refine ⟨?_, ?_⟩
        · rw [← h.nnode]
          show nx w1 _ = _
          rw [n1, if_pos rfl, ah, h.head]; simp
        · refine h.chain.frame fun a ha => ?_
          show nx w1 a = _
          rw [n1, if_neg (hlt a ha)]; exact (aold a (hlt a ha)).1

theorem pushBack_spec {w : World T} {S : Spec T} (h : WInv w S) (v : T) :
    ∃ w', pushBack w v = .ok w' ∧ WInv w' ⟨S.seq ++ [S.vals.length], S.vals ++ [v]⟩ := by
  obtain ⟨a1, ah, at', al, an, aold, av, ax⟩ := alloc_spec w v
  have hlt : ∀ n ∈ S.seq, n ≠ w.nodes.length := fun n hn => Nat.ne_of_lt (h.lt n hn)
  cases hs : S.seq using List.reverseRecOn with
  | nil =>
    have hl : w.len = 0 := by rw [h.len, hs]; rfl
    refine ⟨{ (alloc w v).2 with head := some w.nodes.length, tail := some w.nodes.length, len := w.len + 1 }, ?_, ?_⟩
    · simp only [pushBack, a1, al]
      rw [if_pos hl]; simp [al]
    · refine ⟨by simp [an, h.nnode], vals_add h (fun m hm => (aold m hm).2) av, by simp [h.nnode], by simp [h.nnode], by simp [h.len, hs], ?_, ?_, ?_⟩
      · simp
      · simp only [List.nil_append, List.mem_singleton]; rintro n rfl; simp [an, h.nnode]
      · refine ⟨?_, trivial⟩
        rw [← h.nnode]; exact ax
  | append_singleton P z =>
    have hl : ¬ w.len = 0 := by rw [h.len, hs]; simp; omega
    have hz : z ∈ S.seq := by rw [hs]; simp
    have hzl := h.lt z hz
    have ht : (alloc w v).2.tail = some z := by rw [at', h.tail, hs]; simp
    obtain ⟨w1, e1, k1, n1⟩ := setNext_spec (w := (alloc w v).2) (n := z) (by omega) (some w.nodes.length)
    refine ⟨{ w1 with tail := some w.nodes.length, len := w1.len + 1 }, ?_, ?_⟩
    · simp only [pushBack, a1, al]
      rw [if_neg hl]; simp [ht, e1]
    · have hd := h.nodup
      have hc := h.chain
      rw [hs] at hd hc
      rw [sg_append] at hc
      have hzP : z ∉ P := by
        rw [List.nodup_append] at hd
        exact fun c => hd.2.2 z c z (by simp) rfl
      refine ⟨by simp [k1.nlen, an, h.nnode], vals_add h (fun m hm => (k1.vl m).trans (aold m hm).2) ((k1.vl _).trans av), ?_, by simp [h.nnode], ?_, ?_, ?_, ?_⟩
      · simp only [k1.head, ah, h.head, hs]
        cases P <;> simp
      · simp [k1.len, al, h.len, hs]; omega
      · rw [List.nodup_append]
        refine ⟨hd, by simp, ?_⟩
        intro a ha b hb
        simp at hb; subst hb
        rw [← h.nnode]
        exact hlt a (by rw [hs]; exact ha)
      · intro n hn
        simp only [k1.nlen, an]
        rcases List.mem_append.1 hn with hn | hn
        · have := h.lt n (by rw [hs]; exact hn); omega
        · rw [List.mem_singleton.1 hn, h.nnode]; omega
      · have e : P ++ [z] ++ [S.vals.length] = P ++ [z, S.vals.length] := by simp
        rw [← h.nnode] at e ⊢
        rw [e, sg_append]
        refine ⟨hc.1.frame fun a ha => ?_, ?_, ?_, trivial⟩
        · show nx w1 a = _
          rw [n1, if_neg (by rintro rfl; exact hzP ha)]
          exact (aold a (hlt a (by rw [hs]; simp [ha]))).1
        · show nx w1 z = _
          rw [n1, if_pos rfl]; rfl
        · show nx w1 w.nodes.length = _
          rw [n1, if_neg (by omega)]; exact ax

theorem insertAfter_spec {w : World T} {S : Spec T} (h : WInv w S) (v : T) {m : Nat} (hm : m ∈ S.seq) :
    ∃ w', insertAfter w v m = .ok (w.nodes.length, w') ∧ WInv w' ⟨insAfter m S.vals.length S.seq, S.vals ++ [v]⟩ := by
  obtain ⟨a1, ah, at', al, an, aold, av, ax⟩ := alloc_spec w v
  have hlt : ∀ n ∈ S.seq, n ≠ w.nodes.length := fun n hn => Nat.ne_of_lt (h.lt n hn)
  have hml := h.lt m hm
  obtain ⟨a, e1, f1, -⟩ := node_ok hml
  obtain ⟨w1, e2, k2, n2⟩ := setNext_spec (w := (alloc w v).2) (n := w.nodes.length) (by omega) a.next
  obtain ⟨w2, e3, k3, n3⟩ := setNext_spec (w := w1) (n := m) (by rw [k2.nlen]; omega) (some w.nodes.length)
  have hl2 : w2.nodes.length = w.nodes.length + 1 := by rw [k3.nlen, k2.nlen, an]
  obtain ⟨nd, e4, f4, -⟩ := node_ok (w := w2) (n := w.nodes.length) (by omega)
  have hd := h.nodup
  have hc := h.chain
  obtain ⟨P, Q, hPQ, hP, hQ⟩ := split_nodup hm hd
  rw [hPQ] at hd hc
  rw [sg_append] at hc
  have hna : a.next = Q.head? := by rw [← f1, hc.2.1]; simp
  have hnd : nd.next = Q.head? := by
    rw [← f4, n3, if_neg (by omega), n2, if_pos rfl, hna]
  have hvals : ∀ n, vl w2 n = (S.vals ++ [v])[n]? :=
    vals_add h (fun m hm => ((k3.vl m).trans (k2.vl m)).trans (aold m hm).2) (((k3.vl _).trans (k2.vl _)).trans av)
  have hchain : Sg w2 (P ++ m :: w.nodes.length :: Q) none := by
    rw [sg_append]
    refine ⟨hc.1.frame fun b hb => ?_, ?_, ?_, ?_⟩
    · have := hlt b (by rw [hPQ]; simp [hb])
      rw [n3, if_neg (by rintro rfl; exact hP hb), n2, if_neg this]; exact (aold b this).1
    · rw [n3, if_pos rfl]; rfl
    · rw [f4, hnd]; simp
    · refine hc.2.2.frame fun b hb => ?_
      have := hlt b (by rw [hPQ]; simp [hb])
      rw [n3, if_neg (by rintro rfl; exact hQ hb), n2, if_neg this]; exact (aold b this).1
  refine ⟨{ w2 with tail := if nd.next = none then some w.nodes.length else w2.tail, len := w2.len + 1 }, ?_, ?_⟩
  · simp only [insertAfter, e1, Res.ok_bind, a1, e2, e3, e4]
    split <;> rfl
  · rw [hPQ, insAfter_mid hP, ← h.nnode]
    have hnq : w.nodes.length ∉ P ++ m :: Q := fun c => hlt _ (by rw [hPQ]; exact c) rfl
    refine ⟨by simp [hl2, h.nnode], hvals, ?_, ?_, ?_, ?_, ?_, hchain.frame fun _ _ => rfl⟩
    · simp only [k3.head, k2.head, ah, h.head, hPQ]
      cases P <;> simp
    · simp only [hnd, k3.tail, k2.tail, at', h.tail, hPQ]
      cases Q using List.reverseRecOn with
      | nil => simp
      | append_singleton Q q =>
        rw [if_neg (by cases Q <;> simp)]
        have e1 : P ++ m :: (Q ++ [q]) = (P ++ m :: Q) ++ [q] := by simp
        have e2 : P ++ m :: w.nodes.length :: (Q ++ [q]) = (P ++ m :: w.nodes.length :: Q) ++ [q] := by simp
        rw [e1, e2, List.getLast?_concat, List.getLast?_concat]
    · simp [k3.len, k2.len, al, h.len, hPQ]; omega
    · have e : P ++ m :: w.nodes.length :: Q = (P ++ [m]) ++ w.nodes.length :: Q := by simp
      show (P ++ m :: w.nodes.length :: Q).Nodup
      rw [e, List.nodup_middle]
      exact List.nodup_cons.2 ⟨by simpa using hnq, by simpa using hd⟩
    · intro n hn
      show n < w2.nodes.length
      rw [hl2]
      rcases BidList.mem_ins.1 hn with rfl | hn
      · omega
      · have := h.lt n (by rw [hPQ]; exact hn); omega

/-- `pre` for a node of the list. -/
theorem before_cases {P Q : List Nat} {n : Nat} (hP : n ∉ P) : before n (P ++ n :: Q) = P.getLast? := before_mid hP

theorem remove_spec {w : World T} {S : Spec T} (h : WInv w S) (zero : T) {n : Nat} (hn : n ∈ S.seq) :
    ∃ w' x, remove zero w (before n S.seq) (some n) = .ok (x, w') ∧ S.vals[n]? = some x ∧ WInv w' { S with seq := S.seq.erase n } := by
  have hd := h.nodup
  have hc := h.chain
  have hnl := h.lt n hn
  obtain ⟨nd, e1, f1, g1⟩ := node_ok hnl
  obtain ⟨P, Q, hPQ, hP, hQ⟩ := split_nodup hn hd
  rw [hPQ] at hd hc
  rw [sg_append] at hc
  have hna : nd.next = Q.head? := by rw [← f1, hc.2.1]; simp
  have hdPQ : (P ++ Q).Nodup := hd.sublist (by simp)
  have hlt : ∀ m ∈ P ++ Q, m < w.nodes.length := fun m hm => h.lt m (by rw [hPQ]; exact BidList.mem_mid.2 (.inr hm))
  have hx : S.vals[n]? = some nd.value := by rw [← h.vals, g1]
  rw [hPQ, before_cases hP, erase_mid hP]
  cases P using List.reverseRecOn with
  | nil =>
    refine ⟨{ w with head := nd.next, tail := if nd.next = none then none else w.tail, len := w.len - 1 }, nd.value, ?_, hx, ?_⟩
    · have : node { w with head := nd.next, tail := if nd.next = none then none else w.tail, len := w.len - 1 } n = .ok nd := e1
      simp only [remove, e1, Res.ok_bind, List.getLast?_nil, this]
    · refine ⟨h.nnode, h.vals, by simp [hna], ?_, ?_, hdPQ, hlt, hc.2.2.frame fun _ _ => rfl⟩
      · simp only [hna, h.tail, hPQ, List.nil_append]
        cases Q with
        | nil => simp
        | cons q Q => simp [List.getLast?_cons_cons]
      · simp only [h.len, hPQ]; simp
  | append_singleton P p =>
    have hpl : p < w.nodes.length := hlt p (by simp)
    have hpn : p ≠ n := by rintro rfl; simp at hP
    obtain ⟨w1, e2, k2, n2⟩ := setNext_spec hpl nd.next
    obtain ⟨pd, e3, f3, -⟩ := node_ok (w := w1) (n := p) (by rw [k2.nlen]; exact hpl)
    have hpd : pd.next = Q.head? := by rw [← f3, n2, if_pos rfl, hna]
    obtain ⟨nd', e4, -, g4⟩ := node_ok (w := w1) (n := n) (by rw [k2.nlen]; exact hnl)
    have hv : nd'.value = nd.value := by
      rw [k2.vl, g1] at g4; exact (by simpa using g4.symm)
    refine ⟨{ w1 with tail := if pd.next = none then some p else w1.tail, len := w1.len - 1 }, nd.value, ?_, hx, ?_⟩
    · have : node { w1 with tail := if pd.next = none then some p else w1.tail, len := w1.len - 1 } n = .ok nd' := e4
      simp only [remove, e1, Res.ok_bind, List.getLast?_concat, e2, e3, this, hv]
    · refine ⟨by simp [k2.nlen, h.nnode], fun m => (k2.vl m).trans (h.vals m), ?_, ?_, ?_, hdPQ, ?_, ?_⟩
      · simp only [k2.head, h.head, hPQ]
        cases P <;> simp
      · simp only [hpd, k2.tail, h.tail, hPQ]
        cases Q using List.reverseRecOn with
        | nil => simp
        | append_singleton Q q =>
          rw [if_neg (by cases Q <;> simp)]
          have e1 : P ++ [p] ++ n :: (Q ++ [q]) = (P ++ [p] ++ n :: Q) ++ [q] := by simp
          have e2 : P ++ [p] ++ (Q ++ [q]) = (P ++ [p] ++ Q) ++ [q] := by simp
          rw [e1, e2, List.getLast?_concat, List.getLast?_concat]
      · simp [k2.len, h.len, hPQ]; omega
      · intro m hm
        show m < w1.nodes.length
        rw [k2.nlen]; exact hlt m hm
      · refine Sg.frame (w := w1) (s := P ++ [p] ++ Q) ?_ (fun _ _ => rfl)
        rw [sg_append, sg_append]
        rw [sg_append] at hc
        have hpP : p ∉ P := by
          rw [List.append_assoc, List.nodup_append] at hdPQ
          exact fun c => hdPQ.2.2 p c p (by simp) rfl
        have hpQ : p ∉ Q := by
          rw [List.nodup_append] at hdPQ
          exact fun c => hdPQ.2.2 p (by simp) p c rfl
        refine ⟨⟨hc.1.1.frame fun a ha => ?_, ?_, trivial⟩, hc.2.2.frame fun a ha => ?_⟩
        · rw [n2, if_neg (by rintro rfl; exact hpP ha)]
        · rw [n2, if_pos rfl, hna]; simp
        · rw [n2, if_neg (by rintro rfl; exact hpQ ha)]

theorem moveToFront_spec {w : World T} {S : Spec T} (h : WInv w S) {n : Nat} (hn : n ∈ S.seq) :
    ∃ w', moveToFront w (before n S.seq) (some n) = .ok w' ∧ WInv w' { S with seq := n :: S.seq.erase n } := by
  have hd := h.nodup
  have hc := h.chain
  have hnl := h.lt n hn
  obtain ⟨nd, e1, f1, g1⟩ := node_ok hnl
  obtain ⟨P, Q, hPQ, hP, hQ⟩ := split_nodup hn hd
  have hle := h.len
  rw [hPQ] at hd hc hle
  rw [sg_append] at hc
  have hna : nd.next = Q.head? := by rw [← f1, hc.2.1]; simp
  have hdPQ : (P ++ Q).Nodup := hd.sublist (by simp)
  have hlt : ∀ m ∈ P ++ Q, m < w.nodes.length := fun m hm => h.lt m (by rw [hPQ]; exact BidList.mem_mid.2 (.inr hm))
  rw [hPQ, before_cases hP, erase_mid hP]
  cases P using List.reverseRecOn with
  | nil =>
    refine ⟨w, rfl, ?_⟩
    have : ({ S with seq := n :: ([] ++ Q) } : Spec T) = S := by cases S; simp at hPQ ⊢; exact hPQ.symm
    rw [this]; exact h
  | append_singleton P p =>
    have hpl : p < w.nodes.length := hlt p (by simp)
    have hpn : p ≠ n := by rintro rfl; simp at hP
    have hpP : p ∉ P := by
      rw [List.append_assoc, List.nodup_append] at hdPQ
      exact fun c => hdPQ.2.2 p c p (by simp) rfl
    have hpQ : p ∉ Q := by
      rw [List.nodup_append] at hdPQ
      exact fun c => hdPQ.2.2 p (by simp) p c rfl
    rw [sg_append] at hc
    obtain ⟨pd0, e0, f0, -⟩ := node_ok hpl
    have hpd0 : pd0.next = some n := by rw [← f0, hc.1.2.1]; simp
    obtain ⟨w1, e2, k2, n2⟩ := setNext_spec hpl nd.next
    obtain ⟨pd, e3, f3, -⟩ := node_ok (w := w1) (n := p) (by rw [k2.nlen]; exact hpl)
    have hpd : pd.next = Q.head? := by rw [← f3, n2, if_pos rfl, hna]
    obtain ⟨w2, e4, k4, n4⟩ := setNext_spec (w := { w1 with tail := if pd.next = none then some p else w1.tail }) (n := n)
      (by show n < w1.nodes.length; rw [k2.nlen]; exact hnl) w1.head
    have n4' : ∀ m, nx w2 m = if m = n then w1.head else nx w1 m := n4
    have hlen : ¬ w.len ≤ 1 := by rw [hle]; simp; omega
    refine ⟨{ w2 with head := some n }, ?_, ?_⟩
    · simp only [List.getLast?_concat, moveToFront, e0, Res.ok_bind, hpd0, ne_eq, not_true_eq_false, if_false, hlen, e1, e2, e3, e4]
    · have hln : w2.nodes.length = w.nodes.length := by rw [k4.nlen]; exact k2.nlen
      refine ⟨by simp [hln, h.nnode], fun m => ((k4.vl m).trans (k2.vl m)).trans (h.vals m), by simp, ?_, ?_, ?_, ?_, ?_⟩
      · simp only [k4.tail, hpd, k2.tail, h.tail, hPQ]
        cases Q using List.reverseRecOn with
        | nil =>
          rw [List.head?_nil, if_pos rfl, List.append_nil, ← List.cons_append]
          exact (List.getLast?_concat (l := n :: P)).symm
        | append_singleton Q q =>
          rw [if_neg (by cases Q <;> simp)]
          have e1 : P ++ [p] ++ n :: (Q ++ [q]) = (P ++ [p] ++ n :: Q) ++ [q] := by simp
          have e2 : n :: (P ++ [p] ++ (Q ++ [q])) = (n :: (P ++ [p] ++ Q)) ++ [q] := by simp
          rw [e1, e2, List.getLast?_concat, List.getLast?_concat]
      · simp [k4.len, k2.len, hle]; omega
      · exact List.nodup_cons.2 ⟨by simp at hP ⊢; tauto, hdPQ⟩
      · intro m hm
        show m < w2.nodes.length
        rw [hln]
        rcases List.mem_cons.1 hm with rfl | hm
        · exact hnl
        · exact hlt m hm
      · refine Sg.frame (w := w2) (s := n :: (P ++ [p] ++ Q)) ?_ (fun _ _ => rfl)
        refine ⟨?_, ?_⟩
        · rw [n4', if_pos rfl, k2.head, h.head, hPQ]
          cases P <;> simp
        · have hne : ∀ a, a ∈ P ++ [p] ++ Q → a ≠ n := by
            rintro a ha rfl
            simp at ha hP; tauto
          rw [sg_append, sg_append]
          refine ⟨⟨hc.1.1.frame fun a ha => ?_, ?_, trivial⟩, hc.2.2.frame fun a ha => ?_⟩
          · rw [n4', if_neg (hne a (by simp [ha])), n2, if_neg (by rintro rfl; exact hpP ha)]
          · rw [n4', if_neg hpn, n2, if_pos rfl, hna]; simp
          · rw [n4', if_neg (hne a (by simp [ha])), n2, if_neg (by rintro rfl; exact hpQ ha)]

theorem moveToBack_spec {w : World T} {S : Spec T} (h : WInv w S) {n : Nat} (hn : n ∈ S.seq) :
    ∃ w', moveToBack w (before n S.seq) (some n) = .ok w' ∧ WInv w' { S with seq := S.seq.erase n ++ [n] } := by
  have hd := h.nodup
  have hc := h.chain
  have hnl := h.lt n hn
  obtain ⟨nd, e1, f1, g1⟩ := node_ok hnl
  obtain ⟨P, Q, hPQ, hP, hQ⟩ := split_nodup hn hd
  have hle := h.len
  rw [hPQ] at hd hc hle
  rw [sg_append] at hc
  have hna : nd.next = Q.head? := by rw [← f1, hc.2.1]; simp
  have hdPQ : (P ++ Q).Nodup := hd.sublist (by simp)
  have hnPQ : n ∉ P ++ Q := by simp; exact ⟨hP, hQ⟩
  have hlt : ∀ m ∈ P ++ Q, m < w.nodes.length := fun m hm => h.lt m (by rw [hPQ]; exact BidList.mem_mid.2 (.inr hm))
  rw [hPQ, before_cases hP, erase_mid hP]
  cases Q using List.reverseRecOn with
  | nil =>
    refine ⟨w, ?_, ?_⟩
    · simp only [moveToBack, e1, Res.ok_bind, hna, List.head?_nil, if_true]
    · have : ({ S with seq := P ++ [] ++ [n] } : Spec T) = S := by cases S; simp at hPQ ⊢; exact hPQ.symm
      rw [this]; exact h
  | append_singleton Q z =>
    have hzl : z < w.nodes.length := hlt z (by simp)
    have hzn : z ≠ n := by rintro rfl; simp at hQ
    have hnn : nd.next ≠ none := by rw [hna]; cases Q <;> simp
    have hlen : ¬ w.len ≤ 1 := by rw [hle]; simp; omega
    have htl : w.tail = some z := by
      rw [h.tail, hPQ]
      have e1 : P ++ n :: (Q ++ [z]) = (P ++ n :: Q) ++ [z] := by simp
      rw [e1, List.getLast?_concat]
    have hzPQ : z ∉ P ++ Q := by
      rw [← List.append_assoc, List.nodup_append] at hdPQ
      exact fun c => hdPQ.2.2 z c z (by simp) rfl
    -- after the predecessor was redirected
    obtain ⟨w1, e2, l1, v1, t1, hlen1, h1, n1⟩ : ∃ w1, (match P.getLast? with
          | none => .ok { w with head := nd.next }
          | some p => setNext w p nd.next) = Res.ok w1 ∧ w1.nodes.length = w.nodes.length ∧ (∀ m, vl w1 m = vl w m) ∧
          w1.tail = w.tail ∧ w1.len = w.len ∧
          w1.head = (P ++ (Q ++ [z])).head? ∧ ∀ m, nx w1 m = if some m = P.getLast? then nd.next else nx w m := by
      cases P using List.reverseRecOn with
      | nil =>
        refine ⟨{ w with head := nd.next }, rfl, rfl, fun _ => rfl, rfl, rfl, by simp [hna], fun m => ?_⟩
        rw [if_neg (by simp)]; rfl
      | append_singleton P p =>
        obtain ⟨w1, e2, k2, n2⟩ := setNext_spec (w := w) (n := p) (hlt p (by simp)) nd.next
        refine ⟨w1, by simp [e2], k2.nlen, k2.vl, k2.tail, k2.len, ?_, fun m => ?_⟩
        · rw [k2.head, h.head, hPQ]; cases P <;> simp
        · rw [n2]; simp
    obtain ⟨w2, e3, k3, n3⟩ := setNext_spec (w := w1) (n := z) (by rw [l1]; exact hzl) (some n)
    obtain ⟨w3, e4, k4, n4⟩ := setNext_spec (w := { w2 with tail := some n }) (n := n)
      (by show n < w2.nodes.length; rw [k3.nlen, l1]; exact hnl) none
    have n4' : ∀ m, nx w3 m = if m = n then none else nx w2 m := n4
    refine ⟨w3, ?_, ?_⟩
    · simp only [moveToBack, e1, Res.ok_bind]
      rw [if_neg hnn, if_neg hlen]
      have e5 : w1.tail = some z := by rw [t1, htl]
      clear n1 h1
      revert e2
      cases P.getLast? with
      | none =>
        intro e2
        obtain rfl := Res.ok.inj e2
        simp only [htl, Res.ofOption_some, Res.ok_bind] at e3 ⊢
        simp only [e3, Res.ok_bind, e4]
      | some p =>
        intro e2
        simp only [e2, Res.ok_bind, e5, Res.ofOption_some, e3, e4]
    · have hln : w3.nodes.length = w.nodes.length := by rw [k4.nlen]; exact k3.nlen.trans l1
      have hhd : w3.head = (P ++ (Q ++ [z])).head? := by rw [k4.head]; exact k3.head.trans h1
      refine ⟨by simp [hln, h.nnode], fun m => ((k4.vl m).trans ((k3.vl m).trans (v1 m))).trans (h.vals m), ?_, ?_, ?_, ?_, ?_, ?_⟩
      · rw [hhd]
        show _ = (P ++ (Q ++ [z]) ++ [n]).head?
        cases P <;> cases Q <;> simp
      · rw [k4.tail]
        show _ = (P ++ (Q ++ [z]) ++ [n]).getLast?
        rw [List.getLast?_concat]
      · rw [k4.len]
        show w2.len = _
        rw [k3.len, hlen1, hle]; simp; omega
      · show (P ++ (Q ++ [z]) ++ [n]).Nodup
        rw [List.nodup_append]
        exact ⟨hdPQ, by simp, by intro a ha b hb; simp at hb; subst hb; rintro rfl; exact hnPQ ha⟩
      · intro m hm
        rw [hln]
        rcases List.mem_append.1 hm with hm | hm
        · exact hlt m hm
        · rw [List.mem_singleton.1 hm]; exact hnl
      · show Sg w3 (P ++ (Q ++ [z]) ++ [n]) none
        have hne : ∀ a, a ∈ P ++ (Q ++ [z]) → a ≠ n := by rintro a ha rfl; exact hnPQ ha
        have hcQ := hc.2.2
        rw [sg_append] at hcQ
        have e : P ++ (Q ++ [z]) ++ [n] = P ++ (Q ++ [z, n]) := by simp
        rw [e, sg_append, sg_append]
        have hlast : ∀ a, a ∈ Q ++ [z] → ¬ some a = P.getLast? := by
          intro a ha c
          have : a ∈ P := List.mem_of_mem_getLast? c.symm
          rw [List.nodup_append] at hdPQ
          exact hdPQ.2.2 a this a ha rfl
        refine ⟨?_, hcQ.1.frame fun a ha => ?_, ?_, ?_, trivial⟩
        · cases P using List.reverseRecOn with
          | nil => trivial
          | append_singleton P p =>
            have hcP := hc.1
            rw [sg_append] at hcP ⊢
            refine ⟨hcP.1.frame fun a ha => ?_, ?_, trivial⟩
            · have hap : a ≠ p := by
                rintro rfl
                rw [List.append_assoc, List.nodup_append] at hdPQ
                exact hdPQ.2.2 a ha a (by simp) rfl
              rw [n4', if_neg (hne a (by simp [ha])), n3, if_neg (by rintro rfl; exact hzPQ (by simp [ha])), n1, if_neg (by simpa using hap)]
            · rw [n4', if_neg (hne p (by simp)), n3, if_neg (by rintro rfl; exact hzPQ (by simp)), n1, if_pos (by simp), hna]
              cases Q <;> simp
        · rw [n4', if_neg (hne a (by simp [ha])), n3, if_neg (by rintro rfl; exact hzPQ (by simp [ha])), n1, if_neg (hlast a (by simp [ha]))]
        · rw [n4', if_neg (hne z (by simp)), n3, if_pos rfl]; rfl
        · rw [n4', if_pos rfl]; rfl

theorem setValue_spec {w : World T} {S : Spec T} (h : WInv w S) {n : Nat} (v : T) (hn : n < S.vals.length) :
    ∃ w', setValue w n v = .ok w' ∧ WInv w' { S with vals := S.vals.set n v } := by
  have hn' : n < w.nodes.length := by rw [h.nnode]; exact hn
  have e : w.nodes[n]? = some w.nodes[n] := by simp
  refine ⟨{ w with nodes := w.nodes.set n { w.nodes[n] with value := v } }, by simp [setValue, node, e], ?_⟩
  refine ⟨by simp [h.nnode], ?_, h.head, h.tail, h.len, h.nodup, fun m hm => by simpa using h.lt m hm, h.chain.frame fun a _ => ?_⟩
  · intro m
    have := h.vals m
    by_cases c : n = m
    · subst c; simp [vl, hn, hn']
    · simp only [vl] at this ⊢
      simp [c, this]
  · by_cases c : n = a
    · subst c; simp [nx, hn']
    · simp [nx, c]

theorem step_refines {w : World T} {S : Spec T} (h : WInv w S) (zero : T) (op : Op T) (ha : okArgs op S) :
    Agree (step zero op w) (specStep zero op S) := by
  cases op with
  | pushFront v =>
    obtain ⟨w', e, hi⟩ := pushFront_spec h v
    simp only [step, specStep, e, Res.ok_bind]; exact .ok hi
  | pushBack v =>
    obtain ⟨w', e, hi⟩ := pushBack_spec h v
    simp only [step, specStep, e, Res.ok_bind]; exact .ok hi
  | insertAfter v m =>
    obtain ⟨w', e, hi⟩ := insertAfter_spec h v ha
    simp only [step, specStep, e, Res.ok_bind, h.nnode]; exact .ok hi
  | remove p n =>
    cases n with
    | none => exact .ok h
    | some n =>
      obtain ⟨hn, rfl⟩ := ha
      obtain ⟨w', x, e, hx, hi⟩ := remove_spec h zero hn
      simp only [step, specStep, e, Res.ok_bind, hx]; exact .ok hi
  | moveToFront p n =>
    cases n with
    | none =>
      cases p with
      | none => exact .ok h
      | some p =>
        obtain ⟨pd, e, -⟩ := node_ok (h.lt p (ha p rfl))
        simp only [step, specStep, moveToFront, e, Res.ok_bind]
        split <;> exact .ok h
    | some n =>
      obtain ⟨hn, rfl⟩ := ha
      obtain ⟨w', e, hi⟩ := moveToFront_spec h hn
      simp only [step, specStep, e, Res.ok_bind]; exact .ok hi
  | moveToBack p n =>
    cases n with
    | none => exact .ok h
    | some n =>
      obtain ⟨hn, rfl⟩ := ha
      obtain ⟨w', e, hi⟩ := moveToBack_spec h hn
      simp only [step, specStep, e, Res.ok_bind]; exact .ok hi
  | setValue n v =>
    by_cases c : n < S.vals.length
    · obtain ⟨w', e, hi⟩ := setValue_spec h v c
      simp only [step, specStep, e, Res.ok_bind, if_pos c]; exact .ok hi
    · have := node_panic (w := w) (n := n) (by rw [h.nnode]; omega)
      simp only [step, specStep, setValue, this, if_neg c, Res.panic_bind]; exact .panic
  | value n =>
    by_cases c : n < S.vals.length
    · obtain ⟨nd, e, -, hv⟩ := node_ok (w := w) (n := n) (by rw [h.nnode]; exact c)
      rw [h.vals] at hv
      simp only [step, specStep, value, e, Res.ok_bind, hv]; exact .ok h
    · have := node_panic (w := w) (n := n) (by rw [h.nnode]; omega)
      have hv : S.vals[n]? = none := List.getElem?_eq_none (by omega)
      simp only [step, specStep, value, this, hv, Res.panic_bind]; exact .panic
  | next n =>
    obtain ⟨nd, e, hx, -⟩ := node_ok (h.lt n ha)
    obtain ⟨P, Q, hPQ, hP, hQ⟩ := split_nodup ha h.nodup
    have hc := h.chain
    rw [hPQ, sg_append] at hc
    have : nd.next = after n S.seq := by rw [← hx, hc.2.1, hPQ, after_mid hP]; simp
    simp only [step, specStep, next, e, Res.ok_bind, this]; exact .ok h
  | frontNode => simp only [step, specStep, h.head]; exact .ok h
  | backNode => simp only [step, specStep, h.tail]; exact .ok h
  | len => simp only [step, specStep, h.len]; exact .ok h

theorem run_refines (zero : T) (ops : List (Op T)) : ∀ {w : World T} {S : Spec T}, WInv w S → okHistory zero ops S →
    Agree (run zero ops w) (specRun zero ops S) := by
  induction ops with
  | nil => intro w S h _; exact .ok h
  | cons op ops ih =>
    intro w S h hst
    obtain ⟨hf, hst⟩ := hst
    have := step_refines h zero op hf
    simp only [run, specRun]
    revert this
    generalize e1 : step zero op w = a
    generalize e2 : specStep zero op S = b
    intro this
    cases this with
    | panic => exact .panic
    | @ok o w' S' hi =>
      have := ih hi (hst o S' e2)
      simp only [Res.ok_bind]
      revert this
      generalize run zero ops w' = a
      generalize specRun zero ops S' = b
      intro this
      cases this with
      | panic => exact .panic
      | ok hi => exact .ok hi

theorem new_inv : WInv (new : World T) ⟨[], []⟩ := by
  constructor <;> simp [new, vl, Sg]

end GoSTL.SimpleList
