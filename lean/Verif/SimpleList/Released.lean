import Verif.SimpleList.Props
import Verif.Basic.Reach
/-!
# C93 for single lists: a list keeps alive exactly the nodes it holds
-/
namespace GoSTL.SimpleList
variable {T : Type}

/-- The objects on the heap: the list and the nodes. -/
inductive Obj
  | list
  | node (n : Nat)

/-- The pointers between them: simplelist.go:9-12 (`next`) and 23-27 (`head`, `tail`). -/
def Points (w : World T) : Obj → Obj → Prop
  | .list, .node n => w.head = some n ∨ w.tail = some n
  | .node n, .node m => ∃ nd, w.nodes[n]? = some nd ∧ nd.next = some m
  | _, .list => False

theorem sg_next {w : World T} {s : List Nat} (h : Sg w s none) {a b : Nat} (ha : a ∈ s) (e : nx w a = some b) : b ∈ s := by
  obtain ⟨P, Q, rfl⟩ := List.append_of_mem ha
  rw [sg_append] at h
  have h1 := h.2.1
  rw [e] at h1
  cases Q with
  | nil => cases h1
  | cons c Q => cases h1; simp

/-- **C93**, single lists: after any history, what a list keeps alive are the nodes of its sequence and nothing else. -/
theorem C93_simplelist {zero : T} {w : World T} {S : Spec T} (h : Reachable zero w S) (n : Nat) : Alive (Points w) .list (.node n) ↔ n ∈ S.seq := by
  have hi := h.inv
  constructor
  · intro ha
    have : (fun o : Obj => match o with | .list => True | .node n => n ∈ S.seq) (.node n) := by
      refine Alive.closed (P := fun o : Obj => match o with | .list => True | .node n => n ∈ S.seq) trivial ?_ ha
      intro x y hx hp
      cases x with
      | list =>
        cases y with
        | list => exact hp.elim
        | node m =>
          rcases hp with hp | hp
          · rw [hi.head] at hp; exact List.mem_of_mem_head? hp
          · rw [hi.tail] at hp; exact List.mem_of_mem_getLast? hp
      | node a =>
        cases y with
        | list => exact hp.elim
        | node m =>
          obtain ⟨nd, e1, e2⟩ := hp
          exact sg_next hi.chain hx (by simp only [nx, e1, Option.bind_some, e2])
    exact this
  · intro hn
    have key : ∀ (pre post : List Nat), S.seq = pre ++ post → ∀ a ∈ pre, Alive (Points w) .list (.node a) := by
      intro pre
      induction pre using List.reverseRecOn with
      | nil => intro _ _ a ha; cases ha
      | append_singleton pre b ih =>
        intro post e a ha
        rcases List.mem_append.1 ha with ha | ha
        · exact ih (b :: post) (by rw [e]; simp) a ha
        · rw [List.mem_singleton] at ha
          subst ha
          rcases List.eq_nil_or_concat pre with e' | ⟨L, c, e'⟩
          · subst e'
            exact .step .root (.inl (by rw [hi.head, e]; rfl))
          · have hc := ih (a :: post) (by rw [e]; simp) c (by rw [e']; simp)
            refine .step hc ?_
            have h1 := hi.chain
            rw [e, e', List.append_assoc, List.concat_eq_append, List.append_assoc, sg_append] at h1
            have : nx w c = some a := h1.2.1
            unfold nx at this
            cases e2 : w.nodes[c]? with
            | none => rw [e2] at this; cases this
            | some nd => rw [e2] at this; exact ⟨nd, e2, this⟩
    exact key _ [] (by simp) n hn

/-- A list of one element that held three: the two removed nodes can be collected. -/
example : ∃ w : World Nat, Alive (Points w) .list (.node 1) ∧ ¬ Alive (Points w) .list (.node 0) ∧ ¬ Alive (Points w) .list (.node 2) := by
  obtain ⟨w, h, -⟩ := demo_list
  exact ⟨w, (C93_simplelist h 1).2 (by decide), fun ha => absurd ((C93_simplelist h 0).1 ha) (by decide),
    fun ha => absurd ((C93_simplelist h 2).1 ha) (by decide)⟩

end GoSTL.SimpleList
