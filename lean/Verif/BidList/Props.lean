import Verif.BidList.Refine
/-!
# C05 – C09: bidirectional lists
-/
namespace GoSTL.BidList
variable {T : Type}
open Spec

/-- What a run returned, or how it ended. -/
def outs {α β : Type} : Res (α × β) → Res α
  | .ok (a, _) => .ok a
  | .panic => .panic
  | .outOfFuel => .outOfFuel

theorem Agree.outs_eq {α : Type} {a : Res (α × World T)} {b : Res (α × Spec T)} (h : Agree a b) : outs a = outs b := by
  cases h <;> rfl

/-! ## C05: histories -/

/-- C05: every history of calls on any number of lists, through any handles (in the lists, removed, of other lists, non-existing),
returns the same results and panics at the same points as on plain sequences of handles. Handles of nodes whose list was cleared
around them are left out (see C06). -/
theorem C05_history (ops : List (Op T)) (h : noStale ops specStart) : outs (run ops start) = outs (specRun ops specStart) :=
  (run_refines ops start_inv h).outs_eq

/-- Without `Clear` there are no stale handles. -/
theorem noStale_of_noClear (ops : List (Op T)) : ∀ (S : Spec T), S.stale = [] → (∀ l, Op.clear l ∉ ops) → noStale ops S := by
  induction ops with
  | nil => intro _ _ _; trivial
  | cons op ops ih =>
    intro S hS hc
    refine ⟨fun n _ => by rw [hS]; simp, ?_⟩
    intro o S' e
    refine ih S' ?_ (fun l hl => hc l (by simp [hl]))
    cases op with
    | clear l => exact absurd (by simp) (hc l)
    | _ =>
      simp only [specStep] at e
      repeat' split at e
      all_goals first
        | (cases e; exact hS)
        | (cases e; done)

/-- C05 for all histories without `Clear`: no condition on the handles at all. -/
theorem C05_history_noClear (ops : List (Op T)) (h : ∀ l, Op.clear l ∉ ops) : outs (run ops start) = outs (specRun ops specStart) :=
  C05_history ops (noStale_of_noClear ops specStart rfl h)

/-- The state after a history, beside the sequences it stands for. -/
def Reachable (w : World T) (S : Spec T) : Prop :=
  ∃ ops os, noStale ops specStart ∧ run ops start = .ok (os, w) ∧ specRun ops specStart = .ok (os, S)

theorem Reachable.inv {w : World T} {S : Spec T} (h : Reachable w S) : WInv w S := by
  obtain ⟨ops, os, h1, h2, h3⟩ := h
  have := run_refines ops start_inv h1
  rw [h2, h3] at this
  cases this; assumption

theorem run_append {ops ops' : List (Op T)} {w w' : World T} {os : List (Out T)} (h : run ops w = .ok (os, w')) :
    run (ops ++ ops') w = (do let (os', w'') ← run ops' w'; .ok (os ++ os', w'')) := by
  induction ops generalizing w os with
  | nil =>
    simp only [run] at h
    injection h with h; injection h with h1 h2; subst h1 h2
    simp only [List.nil_append]
    cases run ops' w <;> rfl
  | cons op ops ih =>
    simp only [run] at h
    obtain ⟨⟨o, w1⟩, e1, h⟩ := Res.bind_eq_ok.1 h
    obtain ⟨⟨os1, w2⟩, e2, h⟩ := Res.bind_eq_ok.1 h
    simp only at h e2
    injection h with h; injection h with h1 h2; subst h1 h2
    simp only [List.cons_append, run, e1, Res.ok_bind, ih e2]
    cases run ops' w2 <;> rfl

theorem specRun_append {ops ops' : List (Op T)} {w w' : Spec T} {os : List (Out T)} (h : specRun ops w = .ok (os, w')) :
    specRun (ops ++ ops') w = (do let (os', w'') ← specRun ops' w'; .ok (os ++ os', w'')) := by
  induction ops generalizing w os with
  | nil =>
    simp only [specRun] at h
    injection h with h; injection h with h1 h2; subst h1 h2
    simp only [List.nil_append]
    cases specRun ops' w <;> rfl
  | cons op ops ih =>
    simp only [specRun] at h
    obtain ⟨⟨o, w1⟩, e1, h⟩ := Res.bind_eq_ok.1 h
    obtain ⟨⟨os1, w2⟩, e2, h⟩ := Res.bind_eq_ok.1 h
    simp only at h e2
    injection h with h; injection h with h1 h2; subst h1 h2
    simp only [List.cons_append, specRun, e1, Res.ok_bind, ih e2]
    cases specRun ops' w2 <;> rfl

theorem noStale_append {ops ops' : List (Op T)} {S S' : Spec T} {os : List (Out T)} (h : noStale ops S)
    (e : specRun ops S = .ok (os, S')) (h' : noStale ops' S') : noStale (ops ++ ops') S := by
  induction ops generalizing S os with
  | nil =>
    simp only [specRun] at e
    injection e with e; injection e with _ e; subst e; exact h'
  | cons op ops ih =>
    refine ⟨h.1, ?_⟩
    intro o S1 e1
    simp only [specRun, e1, Res.ok_bind] at e
    obtain ⟨⟨os1, w2⟩, e2, e⟩ := Res.bind_eq_ok.1 e
    simp only at e e2
    injection e with e; injection e with _ e; subst e
    exact ih (h.2 o S1 e1) e2

/-- One more call. -/
theorem Reachable.step {w : World T} {S S' : Spec T} {op : Op T} {o : Out T} (h : Reachable w S) (hf : fresh op S)
    (e : specStep op S = .ok (o, S')) : ∃ w', BidList.step op w = .ok (o, w') ∧ Reachable w' S' := by
  have := step_refines h.inv op hf
  rw [e] at this
  generalize e1 : BidList.step op w = a at this
  cases this with
  | ok hi =>
    rename_i w'
    refine ⟨w', rfl, ?_⟩
    obtain ⟨ops, os, h1, h2, h3⟩ := h
    refine ⟨ops ++ [op], os ++ [o], noStale_append h1 h3 ⟨hf, fun _ _ _ => trivial⟩, ?_, ?_⟩
    · rw [run_append h2]; simp [run, e1]
    · rw [specRun_append h3]; simp [specRun, e]

/-- Sequences of reachable lists: handles exist, no handle twice, not even in two lists. -/
theorem C05_sequences {w : World T} {S : Spec T} (h : Reachable w S) (l : Nat) :
    (S.seq l).Nodup ∧ (∀ n ∈ S.seq l, S.isNode n) ∧ ∀ l', l' ≠ l → ∀ n ∈ S.seq l, n ∉ S.seq l' := by
  have hi := h.inv
  refine ⟨?_, fun n hn => hi.mem_lt hn, ?_⟩
  · by_cases c : S.isList l
    · exact hi.nodup l _ (seqs_some c)
    · rw [seq_bad c]; simp
  · intro l' hl n hn hn'
    have h1 := hi.own l _ n (seqs_some_mem hn) hn
    have h2 := hi.own l' _ n (seqs_some_mem hn') hn'
    rw [h1] at h2; simp at h2; exact hl h2.symm

/-- Live handles are not stale, and stale handles are old. -/
def SInv (S : Spec T) : Prop := (∀ i, ∀ n ∈ S.seq i, n ∉ S.stale) ∧ ∀ n ∈ S.stale, n < S.vals.length

theorem SInv.mono {S S' : Spec T} (h : SInv S) (hs : S'.stale = S.stale) (hv : S.vals.length ≤ S'.vals.length)
    (hm : ∀ i, ∀ n ∈ S'.seq i, (∃ j, n ∈ S.seq j) ∨ S.vals.length ≤ n) : SInv S' := by
  refine ⟨?_, fun n hn => Nat.lt_of_lt_of_le (h.2 n (hs ▸ hn)) hv⟩
  intro i n hn c
  rw [hs] at c
  rcases hm i n hn with ⟨j, hj⟩ | hj
  · exact h.1 j n hj c
  · have := h.2 n c; omega

theorem mem_setSeq {S : Spec T} {l i n : Nat} {s : List Nat} (h : n ∈ (S.setSeq l s).seq i) : n ∈ s ∨ n ∈ S.seq i := by
  simp only [seq, setSeq, List.getElem?_set] at h
  split at h
  · split at h
    · left; simpa using h
    · simp at h
  · right; exact h

theorem mem_insAfter {m a n : Nat} {s : List Nat} (h : m ∈ insAfter a n s) : m = n ∨ m ∈ s := by
  induction s with
  | nil => simp [insAfter] at h
  | cons b s ih =>
    simp only [insAfter] at h
    split at h
    · simp at h ⊢; tauto
    · simp at h ⊢; tauto

theorem mem_insBefore {m a n : Nat} {s : List Nat} (h : m ∈ insBefore a n s) : m = n ∨ m ∈ s := by
  induction s with
  | nil => simp [insBefore] at h
  | cons b s ih =>
    simp only [insBefore] at h
    split at h
    · simp at h ⊢; tauto
    · simp at h ⊢; tauto

theorem SInv.setSeq {S : Spec T} (h : SInv S) (l : Nat) (s : List Nat) (hs : ∀ n ∈ s, n ∈ S.seq l) : SInv (S.setSeq l s) :=
  h.mono rfl (Nat.le_refl _) fun i n hn => .inl (by
    rcases mem_setSeq hn with h1 | h1
    · exact ⟨l, hs n h1⟩
    · exact ⟨i, h1⟩)

theorem SInv.setSeqVals {S : Spec T} (h : SInv S) (l : Nat) (s : List Nat) (V : List T)
    (hs : ∀ n ∈ s, n ∈ S.seq l ∨ S.vals.length ≤ n) : SInv ({ S with vals := S.vals ++ V }.setSeq l s) :=
  h.mono rfl (by simp [Spec.setSeq]) fun i n hn => by
    rcases mem_setSeq hn with h1 | h1
    · rcases hs n h1 with h2 | h2
      · exact .inl ⟨l, h2⟩
      · exact .inr h2
    · exact .inl ⟨i, h1⟩

theorem specStep_SInv {w : World T} {S S' : Spec T} (op : Op T) {o : Out T} (hw : WInv w S) (h : SInv S) (e : specStep op S = .ok (o, S')) : SInv S' := by
  cases op with
  | newList =>
    cases e
    refine h.mono rfl (Nat.le_refl _) fun i n hn => .inl ⟨i, ?_⟩
    simp only [seq] at hn ⊢
    rcases Nat.lt_trichotomy i S.seqs.length with c | c | c
    · rwa [List.getElem?_append_left c] at hn
    · subst c; simp at hn
    · rw [List.getElem?_eq_none (by simp; omega)] at hn; simp at hn
  | pushBack l v =>
    simp only [specStep] at e
    split at e
    · cases e; exact h.setSeqVals l _ [v] (by intro n hn; simp at hn; rcases hn with hn | rfl; exact .inl hn; exact .inr (Nat.le_refl _))
    · cases e
  | pushFront l v =>
    simp only [specStep] at e
    split at e
    · cases e; exact h.setSeqVals l _ [v] (by intro n hn; simp at hn; rcases hn with rfl | hn; exact .inr (Nat.le_refl _); exact .inl hn)
    · cases e
  | insertAfter l v m =>
    simp only [specStep] at e
    split at e
    · cases e
    · split at e
      · cases e; exact h.setSeqVals l _ [v] (by intro n hn; rcases mem_insAfter hn with rfl | hn; exact .inr (Nat.le_refl _); exact .inl hn)
      · cases e; exact h
  | insertBefore l v m =>
    simp only [specStep] at e
    split at e
    · cases e
    · split at e
      · cases e; exact h.setSeqVals l _ [v] (by intro n hn; rcases mem_insBefore hn with rfl | hn; exact .inr (Nat.le_refl _); exact .inl hn)
      · cases e; exact h
  | remove l n =>
    simp only [specStep] at e
    split at e
    · cases e
    · cases e
      split
      · exact h.setSeq l _ fun n hn => List.mem_of_mem_erase hn
      · exact h
  | popBack l =>
    simp only [specStep] at e
    split at e
    · cases e
    · split at e
      · cases e
      · cases e; exact h.setSeq l _ fun n hn => List.dropLast_subset _ hn
  | popFront l =>
    simp only [specStep] at e
    split at e
    · cases e
    · split at e
      · cases e
      · cases e; exact h.setSeq l _ fun n hn => List.mem_of_mem_tail hn
  | moveToFront l n =>
    simp only [specStep] at e
    split at e
    · cases e
    · split at e
      · cases e
        refine h.setSeq l _ fun m hm => ?_
        rcases List.mem_cons.1 hm with rfl | hm
        · assumption
        · exact List.mem_of_mem_erase hm
      · cases e; exact h
  | moveToBack l n =>
    simp only [specStep] at e
    split at e
    · cases e
    · split at e
      · cases e
        refine h.setSeq l _ fun m hm => ?_
        rcases List.mem_append.1 hm with hm | hm
        · exact List.mem_of_mem_erase hm
        · rw [List.mem_singleton.1 hm]; assumption
      · cases e; exact h
  | moveAfter l n m =>
    simp only [specStep] at e
    split at e
    · cases e
    split at e
    · cases e; exact h
    split at e
    · cases e
    split at e
    · cases e; exact h
    split at e
    · cases e; exact h
    · rename_i c _ _ _
      cases e
      refine h.setSeq l _ fun k hk => ?_
      rcases mem_insAfter hk with rfl | hk
      · by_contra d; exact c (.inl d)
      · exact List.mem_of_mem_erase hk
  | pushBackList l o =>
    simp only [specStep] at e
    split at e
    · cases e
    split at e
    · cases e; exact h
    split at e
    · cases e
    · cases e
      refine h.setSeqVals l _ _ fun n hn => ?_
      rcases List.mem_append.1 hn with hn | hn
      · exact .inl hn
      · right; simp at hn; omega
  | pushFrontList l o =>
    simp only [specStep] at e
    split at e
    · cases e
    split at e
    · cases e; exact h
    split at e
    · cases e
    · cases e
      refine h.setSeqVals l _ _ fun n hn => ?_
      rcases List.mem_append.1 hn with hn | hn
      · right; simp at hn; omega
      · exact .inl hn
  | clear l =>
    simp only [specStep] at e
    split at e
    · cases e
      refine ⟨?_, ?_⟩
      · intro i n hn c
        rcases List.mem_append.1 c with c | c
        · rcases mem_setSeq hn with h1 | h1
          · cases h1
          · exact h.1 i n h1 c
        · by_cases d : i = l
          · subst d
            have : ({ S.setSeq i [] with stale := S.stale ++ S.seq i } : Spec T).seq i = [] := by
              have hi : i < S.seqs.length := ‹_›
              simp [Spec.setSeq, seq, hi]
            rw [this] at hn; cases hn
          · rcases mem_setSeq hn with h1 | h1
            · cases h1
            · have h2 := hw.own i _ n (seqs_some_mem h1) h1
              rw [hw.own l _ n (seqs_some_mem c) c] at h2
              simp at h2; exact d h2.symm
      · intro n hn
        rcases List.mem_append.1 hn with c | c
        · exact h.2 n c
        · exact hw.mem_lt c
    · cases e
  | setValue n v =>
    simp only [specStep] at e
    split at e
    · cases e; exact h.mono rfl (by simp) fun i n hn => .inl ⟨i, hn⟩
    · cases e
  | _ =>
    simp only [specStep] at e
    repeat' split at e
    all_goals first
      | (cases e; exact h)
      | (cases e; done)

theorem run_SInv (ops : List (Op T)) : ∀ {w w' : World T} {S S' : Spec T} {os : List (Out T)}, WInv w S → SInv S → noStale ops S →
    specRun ops S = .ok (os, S') → SInv S' := by
  induction ops with
  | nil => intro w w' S S' os _ h _ e; cases e; exact h
  | cons op ops ih =>
    intro w w' S S' os hw h hst e
    simp only [specRun] at e
    obtain ⟨⟨o, S1⟩, e1, e⟩ := Res.bind_eq_ok.1 e
    obtain ⟨⟨os1, S2⟩, e2, e⟩ := Res.bind_eq_ok.1 e
    have := step_refines hw op hst.1
    rw [e1] at this
    generalize BidList.step op w = a at this
    cases this with
    | ok hi =>
      cases e
      exact ih (w' := w') hi (specStep_SInv op hw h e1) (hst.2 o S1 e1) e2

/-- Nodes in a list are not stale. -/
theorem Reachable.live {w : World T} {S : Spec T} (h : Reachable w S) {l n : Nat} (hn : n ∈ S.seq l) : n ∉ S.stale := by
  obtain ⟨ops, os, h1, h2, h3⟩ := h
  refine (run_SInv ops (w' := w) start_inv ⟨?_, ?_⟩ h1 h3).1 l n hn <;> simp [specStart, seq]

/-- `noStale`, computed. -/
def noStaleB : List (Op T) → Spec T → Bool
  | [], _ => true
  | op :: ops, S => (handles op).all (fun n => decide (n ∉ S.stale)) && match specStep op S with
    | .ok (_, S') => noStaleB ops S'
    | _ => true

theorem noStale_of_noStaleB (ops : List (Op T)) : ∀ (S : Spec T), noStaleB ops S = true → noStale ops S := by
  induction ops with
  | nil => intro _ _; trivial
  | cons op ops ih =>
    intro S h
    simp only [noStaleB, Bool.and_eq_true, List.all_eq_true, decide_eq_true_eq] at h
    refine ⟨h.1, ?_⟩
    intro o S' e
    rw [e] at h
    exact ih S' h.2

/-- A history of C05 that pushes, inserts, moves, removes, copies and clears on two lists. -/
def demo : List (Op Nat) :=
  [.newList, .newList, .pushBack 0 5, .pushFront 0 6, .insertAfter 0 7 1, .moveToFront 0 0, .moveAfter 0 0 1, .remove 0 2, .remove 0 2,
   .pushBack 1 9, .pushBackList 1 0, .clear 1, .pushFront 1 3, .back 0, .len 1, .insertBefore 1 4 0, .popBack 0]

example : noStale demo specStart := noStale_of_noStaleB _ _ rfl

example : outs (run demo start) =
    .ok [.unit, .unit, .unit, .unit, .node (some 2), .unit, .unit, .val 7, .val 7, .unit, .unit, .unit, .unit, .val 5, .int 1,
      .node none, .val 5] := rfl

/-- A reachable state: list 0 holds the nodes 0, 2, 3 (values 5, 7, 8), list 1 node 1, node 4 was removed, node 5 is stale. -/
def demoOps : List (Op Nat) :=
  [.newList, .newList, .newList, .pushBack 0 5, .pushBack 1 6, .pushBack 0 7, .pushBack 0 8, .pushBack 1 9, .remove 1 4, .pushBack 2 1,
   .clear 2]

theorem demo_reachable : ∃ w : World Nat, Reachable w ⟨[[0, 2, 3], [1], []], [5, 6, 7, 8, 9, 1], [5]⟩ :=
  ⟨_, demoOps, _, noStale_of_noStaleB _ _ rfl, rfl, rfl⟩

/-! ## C06: nodes that are not in the list -/

/-- C06, the part that holds: a handle that is not in the list (never was, or was removed, or is in another list) leaves the whole
state as it was. Missing: handles of nodes whose list was cleared around them, for which the claim is false (`C06_violated`). -/
theorem C06_foreign_partial {w : World T} {S : Spec T} (h : Reachable w S) {l n : Nat} (hn : S.isNode n) (hl : n ∉ S.seq l)
    (hst : n ∉ S.stale) (v : T) (m : Nat) :
    insertAfter w l v n = .ok (none, w) ∧ insertBefore w l v n = .ok (none, w) ∧
    (∃ x, S.vals[n]? = some x ∧ remove w l n = .ok (x, w)) ∧
    moveToFront w l n = .ok w ∧ moveToBack w l n = .ok w ∧ moveAfter w l n m = .ok w ∧
    (S.isNode m → m ∉ S.stale → moveAfter w l m n = .ok w) := by
  have hi := h.inv
  obtain ⟨nd, e, fv, fo, -⟩ := hi.node_val hn
  have hne := hi.foreign fo hl hst
  refine ⟨?_, ?_, ⟨nd.value, fv, ?_⟩, ?_, ?_, ?_, ?_⟩
  · simp only [insertAfter, e, Res.ok_bind]; rw [if_pos hne]
  · simp only [insertBefore, e, Res.ok_bind]; rw [if_pos hne]
  · simp only [remove, e, Res.ok_bind]; rw [if_neg hne]
  · simp only [moveToFront, e, Res.ok_bind]; rw [if_pos hne]
  · simp only [moveToBack, e, Res.ok_bind]; rw [if_pos hne]
  · simp only [moveAfter, e, Res.ok_bind]; rw [if_pos hne]
  · intro hm hmst
    obtain ⟨md, e2, -, fo2, -⟩ := hi.node_val hm
    simp only [moveAfter, e2, Res.ok_bind, e]
    by_cases c : md.list ≠ some l
    · rw [if_pos c]
    · rw [if_neg c]
      by_cases d : m = n
      · rw [if_pos d]
      · rw [if_neg d, if_pos hne]

/-- A case: in `demo_reachable` node 1 is foreign to list 0 and node 4 was removed. -/
example : ∃ (w : World Nat) (S : Spec Nat), Reachable w S ∧ (S.isNode 1 ∧ 1 ∉ S.seq 0 ∧ 1 ∉ S.stale) ∧
    (S.isNode 4 ∧ 4 ∉ S.seq 0 ∧ 4 ∉ S.stale) := by
  obtain ⟨w, h⟩ := demo_reachable
  exact ⟨w, _, h, by decide, by decide⟩

/-- C06 is false of the code for stale handles: push a node, clear the list (its length is 0 and it has no front), remove the node:
the list now has length −1, and the next `PushBack` panics. -/
theorem C06_violated :
    outs (run [.newList, .pushBack 0 7, .frontNode 0, .clear 0, .len 0, .remove 0 0, .len 0] (start : World Nat)) =
      .ok [.unit, .unit, .node (some 0), .unit, .int 0, .val 7, .int (-1)] ∧
    outs (run [.newList, .pushBack 0 7, .clear 0, .remove 0 0, .pushBack 0 8] (start : World Nat)) = .panic := ⟨rfl, rfl⟩

/-! ## C07: `MoveAfter` -/

/-- C07, the part that holds: with two different nodes of the list, unless the first is the front and the mark is the back, the node
ends up right behind the mark and the others keep their order. Missing: the wrap-around pair, for which the claim is false
(`C07_violated`). -/
theorem C07_moveAfter_partial {w : World T} {S : Spec T} (h : Reachable w S) {l n m : Nat} (hn : n ∈ S.seq l) (hm : m ∈ S.seq l)
    (hne : n ≠ m) (hw : ¬ ((S.seq l).head? = some n ∧ (S.seq l).getLast? = some m)) :
    ∃ w' s', moveAfter w l n m = .ok w' ∧ Reachable w' (S.setSeq l s') ∧ s'.erase n = (S.seq l).erase n ∧
      ∃ P Q, s' = P ++ m :: n :: Q := by
  have hi := h.inv
  have hd := hi.nodup l _ (seqs_some_mem hn)
  obtain ⟨P, Q, hPQ, hP, hQ⟩ := split_nodup (s := (S.seq l).erase n) (n := m) (by rw [List.mem_erase_of_ne (Ne.symm hne)]; exact hm) (hd.erase n)
  have hnn : n ∉ (S.seq l).erase n := hd.not_mem_erase
  have e2 : insAfter m n ((S.seq l).erase n) = P ++ m :: n :: Q := by rw [hPQ, insAfter_mid hP]
  have es : specStep (.moveAfter l n m) S = .ok (.unit, S.setSeq l (P ++ m :: n :: Q)) := by
    have h1 : S.isNode n := hi.mem_lt hn
    have h2 : S.isNode m := hi.mem_lt hm
    simp only [specStep]
    rw [if_neg (by simpa using h1), if_neg (by simp [hn, hne]), if_neg (by simpa using h2), if_neg (by simpa using hm), if_neg hw, e2]
  obtain ⟨w', e, hr⟩ := h.step (op := .moveAfter l n m) (by
    intro k hk
    simp [handles] at hk
    rcases hk with rfl | rfl
    · exact h.live hn
    · exact h.live hm) es
  refine ⟨w', P ++ m :: n :: Q, ?_, hr, ?_, P, Q, rfl⟩
  · simp only [BidList.step] at e
    obtain ⟨w1, e1, e⟩ := Res.bind_eq_ok.1 e
    cases e; exact e1
  · have : n ∉ P ++ [m] := by
      rw [hPQ] at hnn
      intro c; apply hnn; simp at c ⊢; tauto
    have e3 : P ++ m :: n :: Q = (P ++ [m]) ++ n :: Q := by simp
    rw [e3, erase_mid this, hPQ]; simp

example : ∃ (w : World Nat) (S : Spec Nat), Reachable w S ∧ 0 ∈ S.seq 0 ∧ 2 ∈ S.seq 0 ∧
    ¬ ((S.seq 0).head? = some 0 ∧ (S.seq 0).getLast? = some 2) := by
  obtain ⟨w, h⟩ := demo_reachable
  exact ⟨w, _, h, by decide⟩

/-- C07 is false of the code for the front node and the back as mark: in every reachable list with at least two nodes the call does
nothing, so the node is not behind the mark. -/
theorem C07_violated {w : World T} {S : Spec T} (h : Reachable w S) {l n m : Nat} (hn : (S.seq l).head? = some n)
    (hm : (S.seq l).getLast? = some m) (hne : n ≠ m) : moveAfter w l n m = .ok w ∧ ¬ ∃ P Q, S.seq l = P ++ m :: n :: Q := by
  have hi := h.inv
  have hn' : n ∈ S.seq l := List.mem_of_mem_head? hn
  have hm' : m ∈ S.seq l := List.mem_of_mem_getLast? hm
  have hs := seqs_some_mem hn'
  obtain ⟨nd, e1, -, fo, -, -⟩ := hi.node_val (hi.mem_lt hn')
  obtain ⟨md, e2, -, fo2, fx2, -⟩ := hi.node_val (hi.mem_lt hm')
  rw [hi.own l _ n hs hn'] at fo
  rw [hi.own l _ m hs hm'] at fo2
  have fo : nd.list = some l := by simpa using fo.symm
  have fo2 : md.list = some l := by simpa using fo2.symm
  obtain ⟨P, hP⟩ := List.getLast?_eq_some_iff.1 hm
  constructor
  · have hx : md.next = some n := by
      have := hi.ring l _ hs
      rw [hP] at this
      rw [← fx2, this.next, ← hn, hP]; rfl
    have : moveToAfter w l n m = .ok w := by
      simp only [moveToAfter, e2, Res.ok_bind]
      rw [if_pos (.inl hx.symm)]
    simp only [moveAfter, e1, Res.ok_bind, fo, ne_eq, not_true_eq_false, if_false, e2, fo2, this]
    rw [if_neg hne]
  · rintro ⟨P', Q', e⟩
    have hd := hi.nodup l _ hs
    rw [e] at hd hn
    cases P' with
    | nil => simp at hn; exact hne hn.symm
    | cons p P' => simp at hn; subst hn; simp at hd

example : ∃ (w : World Nat) (S : Spec Nat), Reachable w S ∧ (S.seq 0).head? = some 0 ∧ (S.seq 0).getLast? = some 3 := by
  obtain ⟨w, h⟩ := demo_reachable
  exact ⟨w, _, h, by decide⟩

/-! ## C08: copying lists -/

theorem filterMap_range (V : List T) : ∀ (U : List T), (List.range' U.length V.length).filterMap ((U ++ V)[·]?) = V := by
  induction V with
  | nil => intro U; simp
  | cons v V ih =>
    intro U
    rw [List.length_cons, List.range'_succ, List.filterMap_cons_some (b := v) (by simp)]
    have := ih (U ++ [v])
    simp only [List.length_append, List.length_singleton, List.append_assoc, List.singleton_append] at this
    rw [this]

theorem valsOf_new (S : Spec T) (V : List T) :
    ({ S with vals := S.vals ++ V } : Spec T).valsOf (List.range' S.vals.length V.length) = V := filterMap_range V S.vals

theorem valsOf_old {S : Spec T} (V : List T) {s : List Nat} (h : ∀ n ∈ s, n < S.vals.length) :
    ({ S with vals := S.vals ++ V } : Spec T).valsOf s = S.valsOf s := by
  unfold valsOf
  apply List.filterMap_congr
  intro n hn
  rw [List.getElem?_append_left (h n hn)]

theorem valsOf_length {S : Spec T} {s : List Nat} (h : ∀ n ∈ s, n < S.vals.length) : (S.valsOf s).length = s.length := by
  induction s with
  | nil => rfl
  | cons a s ih =>
    have ha := h a (by simp)
    rw [valsOf_cons (x := S.vals[a]) (by simp)]
    simp [ih (fun n hn => h n (by simp [hn]))]

theorem setSeq_seq_self {S : Spec T} {l : Nat} (h : S.isList l) (s : List Nat) : (S.setSeq l s).seq l = s := by
  have h : l < S.seqs.length := h
  simp [seq, setSeq, h]
theorem setSeq_seq_ne {S : Spec T} {l i : Nat} (h : i ≠ l) (s : List Nat) : (S.setSeq l s).seq i = S.seq i := by
  simp [seq, setSeq, Ne.symm h]

/-- C08, the part that holds, `PushBackList`: the values of `other` are appended to the receiver in new nodes; every other list, in
particular `other` when it is another list, keeps nodes and values; the receiver and `other` may be the same list. Missing: an empty
receiver and a non-empty `other`, for which the claim is false (`C08_violated`). -/
theorem C08_pushBackList_partial {w : World T} {S : Spec T} (h : Reachable w S) {l o : Nat} (hl : S.isList l) (ho : S.isList o)
    (hne : S.seq l ≠ [] ∨ S.seq o = []) :
    ∃ w' S', pushBackList w l o = .ok w' ∧ Reachable w' S' ∧
      S'.valsOf (S'.seq l) = S.valsOf (S.seq l) ++ S.valsOf (S.seq o) ∧ S.seq l <+: S'.seq l ∧
      ∀ i, i ≠ l → S'.seq i = S.seq i ∧ S'.valsOf (S'.seq i) = S.valsOf (S.seq i) := by
  have hi := h.inv
  have hlt : ∀ i, ∀ n ∈ S.seq i, n < S.vals.length := fun i n hn => hi.mem_lt hn
  by_cases hoe : S.seq o = []
  · have es : specStep (.pushBackList l o) S = .ok (.unit, S) := by
      simp only [specStep]; rw [if_neg (by simpa using ho), if_pos hoe]
    obtain ⟨w', e, hr⟩ := h.step (op := .pushBackList l o) (by simp [fresh, handles]) es
    simp only [BidList.step] at e
    obtain ⟨w1, e1, e⟩ := Res.bind_eq_ok.1 e
    cases e
    exact ⟨w', S, e1, hr, by rw [hoe]; simp [valsOf_nil], List.prefix_rfl, fun _ _ => ⟨rfl, rfl⟩⟩
  · have hle := hne.resolve_right hoe
    have es : specStep (.pushBackList l o) S = .ok (.unit, { S with vals := S.vals ++ S.valsOf (S.seq o) }.setSeq l
        (S.seq l ++ List.range' S.vals.length (S.seq o).length)) := by
      simp only [specStep]; rw [if_neg (by simpa using ho), if_neg hoe, if_neg hle]
    obtain ⟨w', e, hr⟩ := h.step (op := .pushBackList l o) (by simp [fresh, handles]) es
    simp only [BidList.step] at e
    obtain ⟨w1, e1, e⟩ := Res.bind_eq_ok.1 e
    cases e
    refine ⟨w', _, e1, hr, ?_, ?_, ?_⟩
    · rw [setSeq_seq_self (by exact hl)]
      have : ∀ s t, (({ S with vals := S.vals ++ S.valsOf (S.seq o) } : Spec T).setSeq l s).valsOf t =
          ({ S with vals := S.vals ++ S.valsOf (S.seq o) } : Spec T).valsOf t := fun _ _ => rfl
      rw [this, valsOf_append, valsOf_old _ (hlt l)]
      congr 1
      rw [← valsOf_length (hlt o), valsOf_new]
    · rw [setSeq_seq_self (by exact hl)]; exact List.prefix_append _ _
    · intro i hil
      rw [setSeq_seq_ne hil]
      exact ⟨rfl, valsOf_old (S := S) _ (hlt i)⟩

/-- C08, `PushFrontList`, likewise. -/
theorem C08_pushFrontList_partial {w : World T} {S : Spec T} (h : Reachable w S) {l o : Nat} (hl : S.isList l) (ho : S.isList o)
    (hne : S.seq l ≠ [] ∨ S.seq o = []) :
    ∃ w' S', pushFrontList w l o = .ok w' ∧ Reachable w' S' ∧
      S'.valsOf (S'.seq l) = S.valsOf (S.seq o) ++ S.valsOf (S.seq l) ∧ S.seq l <:+ S'.seq l ∧
      ∀ i, i ≠ l → S'.seq i = S.seq i ∧ S'.valsOf (S'.seq i) = S.valsOf (S.seq i) := by
  have hi := h.inv
  have hlt : ∀ i, ∀ n ∈ S.seq i, n < S.vals.length := fun i n hn => hi.mem_lt hn
  by_cases hoe : S.seq o = []
  · have es : specStep (.pushFrontList l o) S = .ok (.unit, S) := by
      simp only [specStep]; rw [if_neg (by simpa using ho), if_pos hoe]
    obtain ⟨w', e, hr⟩ := h.step (op := .pushFrontList l o) (by simp [fresh, handles]) es
    simp only [BidList.step] at e
    obtain ⟨w1, e1, e⟩ := Res.bind_eq_ok.1 e
    cases e
    exact ⟨w', S, e1, hr, by rw [hoe]; simp [valsOf_nil], List.suffix_rfl, fun _ _ => ⟨rfl, rfl⟩⟩
  · have hle := hne.resolve_right hoe
    have es : specStep (.pushFrontList l o) S = .ok (.unit, { S with vals := S.vals ++ (S.valsOf (S.seq o)).reverse }.setSeq l
        ((List.range' S.vals.length (S.seq o).length).reverse ++ S.seq l)) := by
      simp only [specStep]; rw [if_neg (by simpa using ho), if_neg hoe, if_neg hle]
    obtain ⟨w', e, hr⟩ := h.step (op := .pushFrontList l o) (by simp [fresh, handles]) es
    simp only [BidList.step] at e
    obtain ⟨w1, e1, e⟩ := Res.bind_eq_ok.1 e
    cases e
    refine ⟨w', _, e1, hr, ?_, ?_, ?_⟩
    · rw [setSeq_seq_self (by exact hl)]
      have : ∀ s t, (({ S with vals := S.vals ++ (S.valsOf (S.seq o)).reverse } : Spec T).setSeq l s).valsOf t =
          ({ S with vals := S.vals ++ (S.valsOf (S.seq o)).reverse } : Spec T).valsOf t := fun _ _ => rfl
      rw [this, valsOf_append, valsOf_old _ (hlt l)]
      congr 1
      have e3 := valsOf_new S (S.valsOf (S.seq o)).reverse
      rw [List.length_reverse, valsOf_length (hlt o)] at e3
      have : ∀ (S' : Spec T) s, S'.valsOf s.reverse = (S'.valsOf s).reverse := fun S' s => by simp [valsOf, List.filterMap_reverse]
      rw [this, e3, List.reverse_reverse]
    · rw [setSeq_seq_self (by exact hl)]; exact List.suffix_append _ _
    · intro i hil
      rw [setSeq_seq_ne hil]
      exact ⟨rfl, valsOf_old (S := S) _ (hlt i)⟩

/-- Cases: two lists, and a list with itself. -/
example : ∃ (w : World Nat) (S : Spec Nat), Reachable w S ∧ S.isList 0 ∧ S.isList 1 ∧ S.seq 0 ≠ [] ∧ S.seq 1 ≠ [] := by
  obtain ⟨w, h⟩ := demo_reachable
  exact ⟨w, _, h, by decide⟩

/-- C08 is false of the code for an empty receiver: copying any non-empty list into it panics. -/
theorem C08_violated {w : World T} {S : Spec T} (h : Reachable w S) {l o : Nat} (hl : S.seq l = []) (ho : S.seq o ≠ []) :
    pushBackList w l o = .panic ∧ pushFrontList w l o = .panic := by
  have hol : S.isList o := by
    by_contra c; exact ho (seq_bad c)
  constructor
  · have := step_refines h.inv (.pushBackList l o) (by simp [fresh, handles])
    simp only [specStep, hol, not_true_eq_false, if_false, ho, hl, if_true, BidList.step] at this
    cases e : pushBackList w l o with
    | panic => rfl
    | ok x => rw [e] at this; cases this
    | outOfFuel => rw [e] at this; cases this
  · have := step_refines h.inv (.pushFrontList l o) (by simp [fresh, handles])
    simp only [specStep, hol, not_true_eq_false, if_false, ho, hl, if_true, BidList.step] at this
    cases e : pushFrontList w l o with
    | panic => rfl
    | ok x => rw [e] at this; cases this
    | outOfFuel => rw [e] at this; cases this

example : ∃ (w : World Nat) (S : Spec Nat), Reachable w S ∧ S.seq 2 = [] ∧ S.seq 0 ≠ [] := by
  obtain ⟨w, h⟩ := demo_reachable
  exact ⟨w, _, h, by decide⟩

/-! ## C09: walks -/

/-- ds/list/bidlist/iterator.go:21-39 `IsValid`, `Next`, `Prev` driven by a client loop from a node (or nil): the handles met. -/
def walk (stp : World T → Nat → Res (Option Nat)) (w : World T) : Nat → Option Nat → Res (List Nat)
  | 0, _ => .outOfFuel
  | _ + 1, none => .ok []
  | f + 1, some n => do
    let m ← stp w n
    let ns ← walk stp w f m
    .ok (n :: ns)

theorem walk_next {w : World T} {S : Spec T} (h : WInv w S) {l : Nat} (Q : List Nat) : ∀ (P : List Nat) (f : Nat),
    S.seqs[l]? = some (P ++ Q) → Q.length < f → walk next w f Q.head? = .ok Q := by
  induction Q with
  | nil =>
    intro P f _ hf
    cases f with
    | zero => simp at hf
    | succ f => rfl
  | cons a Q ih =>
    intro P f hs hf
    cases f with
    | zero => simp at hf
    | succ f =>
      simp only [List.head?_cons, walk, next_spec h hs, Res.ok_bind]
      rw [ih (P ++ [a]) f (by rw [hs]; simp) (by simpa using hf)]; rfl

theorem walk_prev {w : World T} {S : Spec T} (h : WInv w S) {l : Nat} (P : List Nat) : ∀ (Q : List Nat) (f : Nat),
    S.seqs[l]? = some (P ++ Q) → P.length < f → walk prev w f P.getLast? = .ok P.reverse := by
  induction P using List.reverseRecOn with
  | nil =>
    intro P f _ hf
    cases f with
    | zero => simp at hf
    | succ f => rfl
  | append_singleton P a ih =>
    intro Q f hs hf
    cases f with
    | zero => simp at hf
    | succ f =>
      have hs' : S.seqs[l]? = some (P ++ a :: Q) := by rw [hs]; simp
      simp only [List.getLast?_concat, walk, prev_spec h hs', Res.ok_bind]
      rw [ih (a :: Q) f hs' (by simpa using hf)]; simp

/-- C09: following `Next` from the front node meets the nodes of the list once each, in order, and ends; following `Prev` from the
back node meets exactly the reverse. -/
theorem C09_walks {w : World T} {S : Spec T} (h : Reachable w S) {l : Nat} (hl : S.isList l) {f : Nat} (hf : (S.seq l).length < f) :
    (do let n ← frontNode w l; walk next w f n) = .ok (S.seq l) ∧
    (do let n ← backNode w l; walk prev w f n) = .ok (S.seq l).reverse := by
  have hi := h.inv
  have hs := seqs_some hl
  constructor
  · simp only [BidList.frontNode, hi.lst_good hl, Res.ok_bind]
    exact walk_next hi _ [] f (by simpa using hs) hf
  · simp only [hi.backNode hl, Res.ok_bind]
    exact walk_prev hi _ [] f (by simpa using hs) hf

/-- The values a visitor is shown: up to and including the first one it answers false to. -/
def shown (visitor : T → Bool) : List T → List T
  | [] => []
  | x :: xs => if visitor x then x :: shown visitor xs else [x]

/-- C09: `Traversal` shows the visitor the values in order until it says stop. -/
theorem C09_traversal {w : World T} {S : Spec T} (h : Reachable w S) {l : Nat} (hl : S.isList l) (visitor : T → Bool) {f : Nat}
    (hf : (S.seq l).length < f) :
    (do let n ← frontNode w l; traversal visitor w f n) = .ok (shown visitor (S.valsOf (S.seq l))) := by
  have hi := h.inv
  have hs := seqs_some hl
  have key : ∀ (Q P : List Nat) (f : Nat), S.seqs[l]? = some (P ++ Q) → Q.length < f →
      traversal visitor w f Q.head? = .ok (shown visitor (S.valsOf Q)) := by
    intro Q
    induction Q with
    | nil =>
      intro P f _ hf
      cases f with
      | zero => simp at hf
      | succ f => rfl
    | cons a Q ih =>
      intro P f hs hf
      cases f with
      | zero => simp at hf
      | succ f =>
        obtain ⟨nd, e, fv, -⟩ := hi.node_val (n := a) (by rw [← hi.nnode]; exact hi.lt hs (by simp))
        simp only [List.head?_cons, traversal, e, Res.ok_bind, next_spec hi hs, valsOf_cons fv, shown]
        rw [ih (P ++ [a]) f (by rw [hs]; simp) (by simpa using hf)]
        split <;> rfl
  simp only [BidList.frontNode, hi.lst_good hl, Res.ok_bind]
  exact key _ [] f (by simpa using hs) hf

example : ∃ (w : World Nat) (S : Spec Nat), Reachable w S ∧ S.isList 0 ∧ (S.seq 0).length = 3 := by
  obtain ⟨w, h⟩ := demo_reachable
  exact ⟨w, _, h, by decide⟩

/-! ### The theorems on the concrete history `demo` and the lists of `demo_reachable` -/

example : outs (run demo start) = outs (specRun demo specStart) := C05_history demo (noStale_of_noStaleB _ _ rfl)
example : outs (run [.newList, .pushBack 0 5, .pushFront 0 6, .moveToFront 0 0, .remove 0 1, .len 0] (start : World Nat)) =
    outs (specRun [.newList, .pushBack 0 5, .pushFront 0 6, .moveToFront 0 0, .remove 0 1, .len 0] specStart) := C05_history_noClear _ (by simp)
example : ∃ (w : World Nat) (S : Spec Nat), S.seq 0 = [0, 2, 3] ∧ (S.seq 0).Nodup ∧ ∀ n ∈ S.seq 0, n ∉ S.seq 1 := by
  obtain ⟨w, h⟩ := demo_reachable
  obtain ⟨h1, -, h3⟩ := C05_sequences h 0
  exact ⟨w, _, by decide, h1, h3 1 (by decide)⟩
/-- `C06_foreign_partial`: node 1 belongs to list 1, node 4 was removed; list 0 ignores both. -/
example : ∃ w : World Nat, insertAfter w 0 77 1 = .ok (none, w) ∧ moveToFront w 0 4 = .ok w := by
  obtain ⟨w, h⟩ := demo_reachable
  exact ⟨w, (C06_foreign_partial h (l := 0) (n := 1) (by decide) (by decide) (by decide) 77 0).1,
    (C06_foreign_partial h (l := 0) (n := 4) (by decide) (by decide) (by decide) 77 0).2.2.2.1⟩
/-- `C07_moveAfter_partial`: moving the front behind the second node. -/
example : ∃ (w w' : World Nat) (S : Spec Nat) (s' : List Nat), S.seq 0 = [0, 2, 3] ∧ moveAfter w 0 0 2 = .ok w' ∧ Reachable w' (S.setSeq 0 s') ∧ ∃ P Q, s' = P ++ 2 :: 0 :: Q := by
  obtain ⟨w, h⟩ := demo_reachable
  obtain ⟨w', s', e, h', -, h2⟩ := C07_moveAfter_partial h (l := 0) (n := 0) (m := 2) (by decide) (by decide) (by decide) (by decide)
  exact ⟨w, w', _, s', by decide, e, h', h2⟩
/-- `C07_violated`: moving the front behind the back does nothing. -/
example : ∃ (w : World Nat) (S : Spec Nat), Reachable w S ∧ S.seq 0 = [0, 2, 3] ∧ moveAfter w 0 0 3 = .ok w := by
  obtain ⟨w, h⟩ := demo_reachable
  exact ⟨w, _, h, by decide, (C07_violated h (l := 0) (n := 0) (m := 3) (by decide) (by decide) (by decide)).1⟩
/-- `C08_pushBackList_partial`, `C08_pushFrontList_partial`: list 1 into list 0, and list 0 into itself. -/
example : ∃ (w w' : World Nat) (S S' : Spec Nat), Reachable w S ∧ S.valsOf (S.seq 0) = [5, 7, 8] ∧ pushBackList w 0 1 = .ok w' ∧ Reachable w' S' ∧ S'.valsOf (S'.seq 0) = [5, 7, 8, 6] := by
  obtain ⟨w, h⟩ := demo_reachable
  obtain ⟨w', S', e, h', hv, -⟩ := C08_pushBackList_partial h (l := 0) (o := 1) (by decide) (by decide) (by decide)
  exact ⟨w, w', _, S', h, by decide, e, h', hv.trans (by decide)⟩
example : ∃ (w w' : World Nat) (S S' : Spec Nat), Reachable w S ∧ S.valsOf (S.seq 0) = [5, 7, 8] ∧ pushFrontList w 0 0 = .ok w' ∧ Reachable w' S' ∧
    S'.valsOf (S'.seq 0) = [5, 7, 8, 5, 7, 8] := by
  obtain ⟨w, h⟩ := demo_reachable
  obtain ⟨w', S', e, h', hv, -⟩ := C08_pushFrontList_partial h (l := 0) (o := 0) (by decide) (by decide) (by decide)
  exact ⟨w, w', _, S', h, by decide, e, h', hv.trans (by decide)⟩
/-- `C08_violated`: list 2 is empty. -/
example : ∃ (w : World Nat) (S : Spec Nat), Reachable w S ∧ S.seq 2 = [] ∧ pushBackList w 2 0 = .panic := by
  obtain ⟨w, h⟩ := demo_reachable
  exact ⟨w, _, h, by decide, (C08_violated h (l := 2) (o := 0) (by decide) (by decide)).1⟩
/-- `C09_walks`, `C09_traversal`. -/
example : ∃ (w : World Nat) (S : Spec Nat), Reachable w S ∧ (do let n ← backNode w 0; walk prev w 4 n) = .ok [3, 2, 0] ∧
    (do let n ← frontNode w 0; traversal (fun x => decide (x < 7)) w 4 n) = .ok [5, 7] := by
  obtain ⟨w, h⟩ := demo_reachable
  refine ⟨w, _, h, (C09_walks h (l := 0) (by decide) (by decide)).2.trans (by decide), (C09_traversal h (l := 0) (by decide) _ (by decide)).trans (by decide)⟩

end GoSTL.BidList
