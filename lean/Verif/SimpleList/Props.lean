import Verif.SimpleList.Proofs
import Verif.BidList.Props
/-!
# C10, C11: single lists
-/
namespace GoSTL.SimpleList
open BidList (outs shown)
variable {T : Type}

theorem Agree.outs_eq {α : Type} {a : Res (α × World T)} {b : Res (α × Spec T)} (h : Agree a b) : outs a = outs b := by
  cases h <;> rfl

/-! ## C10 -/

/-- C10: a history of calls whose node arguments are nodes of the list and whose `pre` arguments are the nodes before them returns the
same results as on a plain sequence of nodes. -/
theorem C10_history (zero : T) (ops : List (Op T)) (h : okHistory zero ops ⟨[], []⟩) :
    outs (run zero ops new) = outs (specRun zero ops ⟨[], []⟩) := (run_refines zero ops new_inv h).outs_eq

/-- The state after such a history, beside the sequence it stands for. -/
def Reachable (zero : T) (w : World T) (S : Spec T) : Prop :=
  ∃ ops os, okHistory zero ops ⟨[], []⟩ ∧ run zero ops new = .ok (os, w) ∧ specRun zero ops ⟨[], []⟩ = .ok (os, S)

theorem Reachable.inv {zero : T} {w : World T} {S : Spec T} (h : Reachable zero w S) : WInv w S := by
  obtain ⟨ops, os, h1, h2, h3⟩ := h
  have := run_refines zero ops new_inv h1
  rw [h2, h3] at this
  cases this; assumption

/-- The values behind the handles. -/
def Spec.valsOf (S : Spec T) (s : List Nat) : List T := s.filterMap fun n => S.vals[n]?

theorem traversal_chain {w : World T} (visitor : T → Bool) (vals : List T) : ∀ (s : List Nat) (f : Nat), Sg w s none →
    (∀ n ∈ s, n < w.nodes.length ∧ vl w n = vals[n]?) → s.length < f →
    traversal visitor w f s.head? = .ok (shown visitor (s.filterMap fun n => vals[n]?)) := by
  intro s
  induction s with
  | nil => intro f _ _ hf; cases f with
    | zero => simp at hf
    | succ f => rfl
  | cons a s ih =>
    intro f hc hv hf
    cases f with
    | zero => simp at hf
    | succ f =>
      obtain ⟨hal, hav⟩ := hv a (by simp)
      obtain ⟨nd, e1, e2, e3⟩ := node_ok hal
      have hnext : nd.next = s.head? := by rw [← e2, hc.1]; simp
      have hval : vals[a]? = some nd.value := by rw [← hav, e3]
      simp only [List.head?_cons, traversal, next, e1, Res.ok_bind, hnext, List.filterMap_cons, hval, shown]
      rw [ih f hc.2 (fun n hn => hv n (by simp [hn])) (by simpa using hf)]
      by_cases c : visitor nd.value
      · rw [if_pos c, if_pos c]; rfl
      · rw [if_neg c, if_neg c]

/-- C10: `Traversal` (and so `Next` from `FrontNode`) shows the values in order, each once, until the visitor says stop, and ends. -/
theorem C10_traversal {zero : T} {w : World T} {S : Spec T} (h : Reachable zero w S) (visitor : T → Bool) {f : Nat}
    (hf : S.seq.length < f) : traversal visitor w f w.head = .ok (shown visitor (S.valsOf S.seq)) := by
  have hi := h.inv
  rw [hi.head]
  exact traversal_chain visitor S.vals S.seq f hi.chain (fun n hn => ⟨hi.lt n hn, hi.vals n⟩) hf

/-! ## C11 -/

/-- C11 is false of the code for every list and every foreign mark: `InsertAfter` counts the new node although it is not in the list. -/
theorem C11_violated {zero : T} {w : World T} {S : Spec T} (h : Reachable zero w S) (v : T) {m : Nat} (hm : m < S.vals.length) :
    ∃ w', insertAfter w v m = .ok (w.nodes.length, w') ∧ w'.len = w.len + 1 := by
  have hi := h.inv
  have hml : m < w.nodes.length := by rw [hi.nnode]; exact hm
  obtain ⟨a1, ah, at', al, an, aold, av, ax⟩ := alloc_spec w v
  obtain ⟨md, e1, f1, -⟩ := node_ok hml
  obtain ⟨w1, e2, k2, n2⟩ := setNext_spec (w := (alloc w v).2) (n := w.nodes.length) (by omega) md.next
  obtain ⟨w2, e3, k3, n3⟩ := setNext_spec (w := w1) (n := m) (by rw [k2.nlen]; omega) (some w.nodes.length)
  obtain ⟨nd, e4, f4, -⟩ := node_ok (w := w2) (n := w.nodes.length) (by rw [k3.nlen, k2.nlen]; omega)
  refine ⟨{ w2 with tail := if nd.next = none then some w.nodes.length else w2.tail, len := w2.len + 1 }, ?_, ?_⟩
  · simp only [insertAfter, e1, Res.ok_bind, a1, e2, e3, e4]
    split <;> rfl
  · simp [k3.len, k2.len, al]

/-- C11, the part that holds: with a foreign mark `FrontNode` and what `Traversal` shows stay the same. Missing (and false): `Len`
and `BackNode` stay the same. -/
theorem C11_order_partial {zero : T} {w : World T} {S : Spec T} (h : Reachable zero w S) (v : T) {m : Nat} (hm : m < S.vals.length)
    (hf : m ∉ S.seq) : ∃ w', insertAfter w v m = .ok (w.nodes.length, w') ∧ w'.head = w.head ∧
      ∀ (visitor : T → Bool) (f : Nat), S.seq.length < f → traversal visitor w' f w'.head = traversal visitor w f w.head := by
  have hi := h.inv
  have hml : m < w.nodes.length := by rw [hi.nnode]; exact hm
  obtain ⟨a1, ah, at', al, an, aold, av, ax⟩ := alloc_spec w v
  obtain ⟨md, e1, f1, -⟩ := node_ok hml
  obtain ⟨w1, e2, k2, n2⟩ := setNext_spec (w := (alloc w v).2) (n := w.nodes.length) (by omega) md.next
  obtain ⟨w2, e3, k3, n3⟩ := setNext_spec (w := w1) (n := m) (by rw [k2.nlen]; omega) (some w.nodes.length)
  obtain ⟨nd, e4, f4, -⟩ := node_ok (w := w2) (n := w.nodes.length) (by rw [k3.nlen, k2.nlen]; omega)
  have hh : w2.head = w.head := by rw [k3.head, k2.head, ah]
  refine ⟨{ w2 with tail := if nd.next = none then some w.nodes.length else w2.tail, len := w2.len + 1 }, ?_, hh, ?_⟩
  · simp only [insertAfter, e1, Res.ok_bind, a1, e2, e3, e4]
    split <;> rfl
  · intro visitor f hfu
    rw [C10_traversal h visitor hfu]
    show traversal visitor _ f w2.head = _
    rw [hh, hi.head]
    refine traversal_chain visitor S.vals S.seq f (hi.chain.frame fun a ha => ?_) (fun n hn => ⟨?_, ?_⟩) hfu
    · show nx w2 a = _
      have hlt := hi.lt a ha
      rw [n3, if_neg (by rintro rfl; exact hf ha), n2, if_neg (by omega)]
      exact (aold a (by omega)).1
    · show n < w2.nodes.length
      rw [k3.nlen, k2.nlen, an]; have := hi.lt n hn; omega
    · show vl w2 n = _
      have := hi.lt n hn
      rw [k3.vl, k2.vl, (aold n (by omega)).2, hi.vals]

/-! ## Non-vacuity -/

/-- Push 10, 20, 30; move the middle node to the front; insert 25 after node 1; remove it again; move the front to the back. -/
def exOps : List (Op Nat) :=
  [.pushBack 10, .pushBack 20, .pushBack 30, .moveToFront (some 0) (some 1), .insertAfter 25 1, .frontNode, .next 1, .next 3,
   .remove (some 1) (some 3), .moveToBack none (some 1), .len, .frontNode, .backNode, .setValue 2 33, .value 2, .pushFront 5]

example : outs (run 0 exOps new) = .ok [.unit, .unit, .unit, .unit, .node (some 3), .node (some 1), .node (some 3), .node (some 0),
    .val 25, .unit, .int 3, .node (some 0), .node (some 1), .unit, .val 33, .unit] := rfl

theorem exOps_ok : okHistory 0 exOps ⟨[], []⟩ := by
  simp [exOps, okHistory, okArgs, specStep, BidList.insAfter, BidList.before, BidList.after, Res.ofOption]

/-- A foreign mark: the removed back node. The new node is then `BackNode`, but it is not reached from `FrontNode`. -/
def exForeign : List (Op Nat) := [.pushBack 10, .pushBack 20, .remove (some 0) (some 1), .insertAfter 99 1, .len, .frontNode, .next 0, .backNode]

example : outs (run 0 exForeign new) = .ok [.unit, .unit, .val 20, .node (some 2), .int 2, .node (some 0), .node none, .node (some 2)] := rfl

example : ∃ w S, Reachable (0 : Nat) w S ∧ 1 < S.vals.length ∧ 1 ∉ S.seq := by
  refine ⟨_, _, ⟨exForeign.take 3, _, ?_, rfl, rfl⟩, ?_, ?_⟩
  · simp [exForeign, okHistory, okArgs, specStep, BidList.before]
  · decide
  · decide

theorem demo_list : ∃ w : World Nat, Reachable 0 w ⟨[1], [10, 20, 25]⟩ ∧ w.len = 1 := by
  refine ⟨_, ⟨[.pushBack 10, .pushBack 20, .insertAfter 25 1, .remove none (some 0), .remove (some 1) (some 2)], _, ?_, rfl, rfl⟩, ?_⟩
  · simp only [okHistory, okArgs, specStep, Res.ok.injEq, Prod.mk.injEq]
    refine ⟨trivial, ?_⟩
    rintro _ _ ⟨rfl, rfl⟩
    refine ⟨trivial, ?_⟩
    rintro _ _ ⟨rfl, rfl⟩
    refine ⟨by decide, ?_⟩
    rintro _ _ ⟨rfl, rfl⟩
    refine ⟨by decide, fun o S' e => ?_⟩
    cases e
    exact ⟨by decide, fun _ _ _ => trivial⟩
  · decide

/-- `C10_history`: the answers of `exOps` are those of the sequence. -/
example : outs (run 0 (exOps.take 2) new) = outs (specRun 0 (exOps.take 2) ⟨[], []⟩) := C10_history 0 _ (by simp [exOps, okHistory, okArgs])

/-- `C10_traversal`. -/
example : ∃ w : World Nat, w.len = 1 ∧ traversal (fun _ => true) w 2 w.head = .ok [20] := by
  obtain ⟨w, h, e⟩ := demo_list
  exact ⟨w, e, C10_traversal h _ (by decide)⟩

/-- `C11_violated`, `C11_order_partial`: node 0 was removed; inserting behind it changes `Len` and nothing that a traversal shows. -/
example : ∃ w w' : World Nat, w.len = 1 ∧ insertAfter w 99 0 = .ok (w.nodes.length, w') ∧ w'.len = 2 ∧ traversal (fun _ => true) w' 2 w'.head = .ok [20] := by
  obtain ⟨w, h, e⟩ := demo_list
  obtain ⟨w', e1, e2⟩ := C11_violated h 99 (m := 0) (by decide)
  obtain ⟨w2, e3, -, e4⟩ := C11_order_partial h 99 (m := 0) (by decide) (by decide)
  rw [e1] at e3; cases e3
  exact ⟨w, w', e, e1, by rw [e2, e]; rfl, (e4 _ 2 (by decide)).trans (C10_traversal h _ (by decide))⟩

end GoSTL.SimpleList
