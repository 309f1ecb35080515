import Verif.BidList.Props
import Verif.BidList.EraseLoop
import Verif.Basic.Reach
/-!
# C93 for bidirectional lists: a list keeps alive exactly the nodes it holds
-/
namespace GoSTL.BidList
variable {T : Type}
open Spec

/-- The objects on the heap. -/
inductive Obj
  | list (l : Nat)
  | node (n : Nat)

/-- The pointers between them: list.go:19-24 (`prev`, `next`, `list`) and 53-56 (`head`). -/
def Points (w : World T) : Obj → Obj → Prop
  | .list l, .node n => ∃ x, w.lists[l]? = some x ∧ x.head = some n
  | .node n, .node m => ∃ nd, w.nodes[n]? = some nd ∧ (nd.next = some m ∨ nd.prev = some m)
  | .node n, .list l => ∃ nd, w.nodes[n]? = some nd ∧ nd.list = some l
  | .list _, .list _ => False

theorem links_next {w : World T} {s : List Nat} {a b : Nat} : ∀ {pre post : List Nat}, s = pre ++ a :: b :: post → Links w s → nx w a = some b ∧ pv w b = some a := by
  intro pre post e h
  subst e
  rw [links_append] at h
  have := h.2.1
  unfold Links at this
  rw [List.isChain_cons_cons] at this
  exact this.1

/-- The successors and predecessors in a ring belong to it. -/
theorem ring_next {w : World T} {s : List Nat} (h : Ring w s) {a : Nat} (ha : a ∈ s) : ∃ b ∈ s, nx w a = some b := by
  obtain ⟨pre, post, rfl⟩ := List.append_of_mem ha
  have h := h.rotate
  unfold Ring at h
  cases post with
  | nil =>
    cases pre with
    | nil => exact ⟨a, by simp, (links_next (pre := []) (post := []) (by simp) h).1⟩
    | cons b pre => exact ⟨b, by simp, (links_next (pre := []) (post := pre ++ [a]) (by simp) h).1⟩
  | cons b post => exact ⟨b, by simp, (links_next (pre := []) (post := post ++ pre ++ [a]) (by simp) h).1⟩

theorem ring_prev {w : World T} {s : List Nat} (h : Ring w s) {a : Nat} (ha : a ∈ s) : ∃ b ∈ s, pv w a = some b := by
  obtain ⟨pre, post, rfl⟩ := List.append_of_mem ha
  have h : Ring w ((pre ++ [a]) ++ post) := by simpa using h
  have h := h.rotate
  rcases List.eq_nil_or_concat (post ++ pre) with e | ⟨L, b, e⟩
  · have e1 : post = [] := by cases post <;> simp_all
    have e2 : pre = [] := by cases pre <;> simp_all
    subst e1; subst e2
    exact ⟨a, by simp, (links_next (pre := []) (post := []) (by simp) h).2⟩
  · have hb : b ∈ post ++ pre := by rw [e]; simp
    refine ⟨b, by simp at hb ⊢; tauto, ?_⟩
    have e' : post ++ (pre ++ [a]) = L ++ [b, a] := by rw [← List.append_assoc, e]; simp
    unfold Ring at h
    exact (links_next (pre := L) (post := (post ++ (pre ++ [a])).head?.toList) (by rw [e']; simp) h).2

/-- **C93**, bidirectional lists: after any history, what a list keeps alive are the nodes of its sequence and nothing else: removed nodes, and nodes of other lists,
are not among them. -/
theorem C93_bidlist {w : World T} {S : Spec T} (h : Reachable w S) {l : Nat} (hl : S.isList l) (n : Nat) : Alive (Points w) (.list l) (.node n) ↔ n ∈ S.seq l := by
  have hi := h.inv
  have hs := seqs_some hl
  constructor
  · intro ha
    have : (fun o : Obj => match o with | .list l' => l' = l | .node n => n ∈ S.seq l) (.node n) := by
      refine Alive.closed (P := fun o : Obj => match o with | .list l' => l' = l | .node n => n ∈ S.seq l) rfl ?_ ha
      intro x y hx hp
      cases x with
      | list l' =>
        cases y with
        | list l'' => exact hp.elim
        | node m =>
          have hx : l' = l := hx
          subst hx
          obtain ⟨x, e1, e2⟩ := hp
          rw [hi.lst _ _ hs] at e1
          cases e1
          exact List.mem_of_mem_head? e2
      | node a =>
        have hx : a ∈ S.seq l := hx
        cases y with
        | list l' =>
          obtain ⟨nd, e1, e2⟩ := hp
          have := hi.own _ _ _ hs hx
          simp only [ow, e1, Option.map_some, Option.some.injEq, e2] at this
          exact this
        | node m =>
          obtain ⟨nd, e1, e2⟩ := hp
          obtain ⟨b, hb, eb⟩ := ring_next (hi.ring _ _ hs) hx
          obtain ⟨c, hc, ec⟩ := ring_prev (hi.ring _ _ hs) hx
          simp only [nx, pv, e1, Option.bind_some] at eb ec
          rcases e2 with e2 | e2
          · rw [e2] at eb; cases eb; exact hb
          · rw [e2] at ec; cases ec; exact hc
    exact this
  · intro hn
    have hr := hi.ring _ _ hs
    have key : ∀ (pre post : List Nat), S.seq l = pre ++ post → ∀ a ∈ pre, Alive (Points w) (.list l) (.node a) := by
      intro pre
      induction pre using List.reverseRecOn with
      | nil => intro _ _ a ha; cases ha
      | append_singleton pre b ih =>
        intro post e a ha
        rcases List.mem_append.1 ha with ha | ha
        · exact ih (b :: post) (by rw [e]; simp) a ha
        · rw [List.mem_singleton] at ha
          subst ha
          rcases List.eq_nil_or_concat pre with e' | ⟨L, c, e'⟩
          · subst e'
            refine .step .root ⟨_, hi.lst _ _ hs, by rw [e]; rfl⟩
          · have hc := ih (a :: post) (by rw [e]; simp) c (by rw [e']; simp)
            refine .step hc ?_
            have : nx w c = some a := by
              unfold Ring at hr
              exact (links_next (pre := L) (post := post ++ (S.seq l).head?.toList) (by rw [e, e']; simp) hr).1
            unfold nx at this
            cases e2 : w.nodes[c]? with
            | none => rw [e2] at this; cases this
            | some nd => rw [e2] at this; exact ⟨nd, e2, .inl this⟩
    exact key _ [] (by simp) n hn

/-- **C93** A node the caller still holds after `Remove` keeps nothing else alive: neither the list nor its neighbours. -/
theorem C93_removed_node {w w' : World T} {S : Spec T} (h : Reachable w S) {l n : Nat} (hn : n ∈ S.seq l) {x : T} (e : remove w l n = .ok (x, w')) (o : Obj) :
    Alive (Points w') (.node n) o ↔ o = .node n := by
  have hi := h.inv
  obtain ⟨nd, en, -, -, -, fo⟩ := node_ok (hi.lt (seqs_some_mem hn) hn)
  rw [hi.own _ _ _ (seqs_some_mem hn) hn] at fo
  have fo : nd.list = some l := by simpa using fo.symm
  have key : ∃ nd', w'.nodes[n]? = some nd' ∧ nd'.next = none ∧ nd'.prev = none ∧ nd'.list = none := by
    simp only [remove, en, Res.ok_bind, fo, if_true] at e
    rw [Res.bind_eq_ok] at e; obtain ⟨w1, e1, e⟩ := e
    rw [Res.bind_eq_ok] at e; obtain ⟨nd1, -, e⟩ := e
    cases e
    unfold remove_ at e1
    rw [Res.bind_eq_ok] at e1; obtain ⟨x1, -, e1⟩ := e1
    have hset : ∀ {w w' : World T} {l f}, modLst w l f = .ok w' → w'.nodes = w.nodes := by
      intro w w' l f e
      unfold modLst at e
      rw [Res.bind_eq_ok] at e; obtain ⟨x, -, e⟩ := e
      cases e; rfl
    have tail : ∀ w2 : World T, (do
        let w ← unlink w2 n
        let w ← modNode w n fun nd => { nd with next := none, prev := none, list := none }
        let w ← setLen w l (· - 1)
        let x ← lst w l
        if x.len = 0 then setHead w l none else .ok w) = .ok w' →
        ∃ nd', w'.nodes[n]? = some nd' ∧ nd'.next = none ∧ nd'.prev = none ∧ nd'.list = none := by
      intro w2 e1
      rw [Res.bind_eq_ok] at e1; obtain ⟨w3, -, e1⟩ := e1
      rw [Res.bind_eq_ok] at e1; obtain ⟨w4, e4, e1⟩ := e1
      rw [Res.bind_eq_ok] at e1; obtain ⟨w5, e5, e1⟩ := e1
      rw [Res.bind_eq_ok] at e1; obtain ⟨x5, -, e1⟩ := e1
      have h4 : ∃ nd', w4.nodes[n]? = some nd' ∧ nd'.next = none ∧ nd'.prev = none ∧ nd'.list = none := by
        unfold modNode at e4
        rw [Res.bind_eq_ok] at e4; obtain ⟨nd3, e3, e4⟩ := e4
        cases e4
        have hlt : n < w3.nodes.length := by
          by_contra c
          simp [node, List.getElem?_eq_none (Nat.not_lt.1 c)] at e3
        exact ⟨⟨none, none, nd3.value, none⟩, by simp [hlt], rfl, rfl, rfl⟩
      have h5 : w5.nodes = w4.nodes := hset e5
      split at e1
      · rw [hset e1, h5]; exact h4
      · cases e1; rw [h5]; exact h4
    split at e1
    · rw [Res.bind_eq_ok] at e1; obtain ⟨nd2, -, e1⟩ := e1
      rw [Res.bind_eq_ok] at e1; obtain ⟨w2, -, e1⟩ := e1
      exact tail w2 e1
    · exact tail w e1
  obtain ⟨nd', e1, e2, e3, e4⟩ := key
  constructor
  · intro ha
    refine Alive.closed (P := fun o => o = .node n) rfl ?_ ha
    intro x y hx hp
    subst hx
    cases y with
    | list l' => obtain ⟨nd2, f1, f2⟩ := hp; rw [e1] at f1; cases f1; rw [e4] at f2; cases f2
    | node m => obtain ⟨nd2, f1, f2⟩ := hp; rw [e1] at f1; cases f1; rw [e2, e3] at f2; rcases f2 with f2 | f2 <;> cases f2
  · rintro rfl; exact .root

/-! ## The theorems on a concrete state -/

/-- Lists 0, 1 and 2 keep alive nodes 0, 2, 3, node 1 and nothing; nodes 4 (removed) and 5 (cleared) can be collected. -/
example : ∃ w : World Nat, Alive (Points w) (.list 0) (.node 3) ∧ ∀ l, l < 3 → ¬ Alive (Points w) (.list l) (.node 4) ∧ ¬ Alive (Points w) (.list l) (.node 5) := by
  obtain ⟨w, h⟩ := demo_reachable
  refine ⟨w, (C93_bidlist h (by decide) 3).2 (by decide), fun l hl => ⟨fun ha => ?_, fun ha => ?_⟩⟩ <;>
  · have := (C93_bidlist h (l := l) hl _).1 ha
    have h3 : l = 0 ∨ l = 1 ∨ l = 2 := by omega
    rcases h3 with rfl | rfl | rfl <;> revert this <;> decide

/-- `C93_removed_node`: node 2 of list 0 has two neighbours before the call. -/
example : ∃ (w w' : World Nat), ∀ o, Alive (Points w') (.node 2) o ↔ o = .node 2 := by
  obtain ⟨w, h⟩ := demo_reachable
  obtain ⟨x, w', -, e, -⟩ := h.remove (l := 0) (n := 2) (by decide)
  exact ⟨w, w', C93_removed_node h (by decide) e⟩

end GoSTL.BidList
