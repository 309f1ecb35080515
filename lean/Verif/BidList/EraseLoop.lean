import Verif.BidList.Props
/-!
# C90: removing nodes of a list while walking over it
-/
namespace GoSTL.BidList
open Spec
variable {T : Type}

/-- The client loop `for n := l.FrontNode(); n != nil; { nx := n.Next(); if drop(n.Value) { l.Remove(n) }; n = nx }`, from a
node on (list.go:27-35, 80-82, 168-173): the values it looked at, and the state left. -/
def eraseLoop (drop : T → Bool) (l : Nat) : Nat → Option Nat → World T → Res (List T × World T)
  | 0, _, _ => .outOfFuel
  | _ + 1, none, w => .ok ([], w)
  | f + 1, some n, w => do
    let nx ← next w n
    let x ← value w n
    let w' ← if drop x then (do let (_, w') ← remove w l n; .ok w') else .ok w
    let (seen, w'') ← eraseLoop drop l f nx w'
    .ok (x :: seen, w'')

/-- The client loop `for n := l.FrontNode(); n != nil; n = n.Next() { if drop(n.Value) { l.Remove(n) } }`. -/
def eraseLoopLate (drop : T → Bool) (l : Nat) : Nat → Option Nat → World T → Res (List T × World T)
  | 0, _, _ => .outOfFuel
  | _ + 1, none, w => .ok ([], w)
  | f + 1, some n, w => do
    let x ← value w n
    let w' ← if drop x then (do let (_, w') ← remove w l n; .ok w') else .ok w
    let nx ← next w' n
    let (seen, w'') ← eraseLoopLate drop l f nx w'
    .ok (x :: seen, w'')

/-- Is the value behind a handle to be kept? -/
def Spec.kept (S : Spec T) (drop : T → Bool) (n : Nat) : Bool := !(S.vals[n]?.any drop)

/-- One removal, in terms of the sequences. -/
theorem Reachable.remove {w : World T} {S : Spec T} (h : Reachable w S) {l n : Nat} (hn : n ∈ S.seq l) :
    ∃ x w', S.vals[n]? = some x ∧ BidList.remove w l n = .ok (x, w') ∧ Reachable w' (S.setSeq l ((S.seq l).erase n)) := by
  obtain ⟨nd, e, fv, -⟩ := h.inv.node_val (h.inv.mem_lt hn)
  have hs : specStep (.remove l n) S = .ok (.val nd.value, S.setSeq l ((S.seq l).erase n)) := by
    simp only [specStep, fv, if_pos hn]
  obtain ⟨w', e1, h1⟩ := h.step (op := .remove l n) (fun m hm => by
    simp only [handles, List.mem_singleton] at hm; subst hm; exact h.live hn) hs
  simp only [BidList.step] at e1
  obtain ⟨⟨x, w1⟩, e2, e3⟩ := Res.bind_eq_ok.1 e1
  simp only at e3
  cases e3
  exact ⟨_, w', fv, e2, h1⟩

theorem eraseLoop_spec (drop : T → Bool) {l : Nat} : ∀ (Q P : List Nat) (f : Nat) (w : World T) (S : Spec T), Reachable w S → S.isList l →
    S.seq l = P ++ Q → Q.length < f →
    ∃ w', eraseLoop drop l f Q.head? w = .ok (S.valsOf Q, w') ∧ Reachable w' (S.setSeq l (P ++ Q.filter (S.kept drop))) := by
  intro Q
  induction Q with
  | nil =>
    intro P f w S h hl hs hf
    obtain ⟨f, rfl⟩ : ∃ g, f = g + 1 := ⟨f - 1, by simp at hf; omega⟩
    refine ⟨w, rfl, ?_⟩
    have : S.setSeq l (P ++ List.filter (S.kept drop) []) = S := by rw [List.filter_nil, ← hs]; exact setSeq_same
    rw [this]; exact h
  | cons n Q ih =>
    intro P f w S h hl hs hf
    obtain ⟨f, rfl⟩ : ∃ g, f = g + 1 := ⟨f - 1, by simp at hf; omega⟩
    have hss := seqs_some hl
    rw [hs] at hss
    have hn : n ∈ S.seq l := by rw [hs]; simp
    have e1 := next_spec h.inv hss
    obtain ⟨nd, e2, fv, -⟩ := h.inv.node_val (h.inv.mem_lt hn)
    have e3 : value w n = .ok nd.value := by simp [value, e2]
    simp only [List.head?_cons, eraseLoop, e1, e3, Res.ok_bind]
    by_cases hd : drop nd.value = true
    · obtain ⟨x, w1, hx, e4, h1⟩ := h.remove hn
      rw [fv] at hx; cases hx
      have hs1 : (S.seq l).erase n = P ++ Q := by rw [hs]; exact erase_mid (fun hp => by
        have := (C05_sequences h l).1
        rw [hs, List.nodup_append] at this
        exact this.2.2 n hp n (by simp) rfl)
      rw [hs1] at h1
      have hl1 : (S.setSeq l (P ++ Q)).isList l := by simpa [isList, setSeq] using hl
      obtain ⟨w', e5, h2⟩ := ih P f w1 _ h1 hl1 (setSeq_seq_self hl _) (by simp at hf; omega)
      have e6 : (S.setSeq l (P ++ Q)).valsOf Q = S.valsOf Q := rfl
      have e7 : ((S.setSeq l (P ++ Q)).setSeq l (P ++ Q.filter ((S.setSeq l (P ++ Q)).kept drop))) = S.setSeq l (P ++ Q.filter (S.kept drop)) := by
        simp [setSeq, Spec.kept]
        rfl
      rw [e6] at e5
      rw [e7] at h2
      simp only [hd, if_true, e4, Res.ok_bind, e5]
      refine ⟨w', by rw [valsOf_cons fv], ?_⟩
      have : S.kept drop n = false := by simp [Spec.kept, fv, hd]
      rw [List.filter_cons_of_neg (by simp [this])]
      exact h2
    · obtain ⟨w', e5, h2⟩ := ih (P ++ [n]) f w S h hl (by simpa using hs) (by simp at hf; omega)
      simp only [hd, Bool.false_eq_true, if_false, Res.ok_bind, e5]
      refine ⟨w', by rw [valsOf_cons fv], ?_⟩
      have : S.kept drop n = true := by simp [Spec.kept, fv, hd]
      rw [List.filter_cons_of_pos this]
      simpa using h2

theorem valsOf_kept {S : Spec T} (drop : T → Bool) (s : List Nat) : S.valsOf (s.filter (S.kept drop)) = (S.valsOf s).filter fun x => !drop x := by
  induction s with
  | nil => rfl
  | cons n s ih =>
    simp only [valsOf] at ih ⊢
    cases e : S.vals[n]? with
    | none => simp [List.filter_cons, Spec.kept, e, ih]
    | some x =>
      by_cases hd : drop x = true
      · simp [List.filter_cons, Spec.kept, e, ih, hd]
      · simp [List.filter_cons, Spec.kept, e, ih, hd]

/-- **C90** Removing nodes of a list while walking over it, with the next node taken before the removal: every element is
looked at exactly once, in order; the list is left with exactly the nodes whose values were to be kept, in order, holding
exactly the kept values; no other list and no value changes, and the state is an ordinary one again. -/
theorem C90_list {w : World T} {S : Spec T} (h : Reachable w S) {l : Nat} (hl : S.isList l) (drop : T → Bool) {f : Nat} (hf : (S.seq l).length < f) :
    ∃ w' S', (frontNode w l >>= fun n => eraseLoop drop l f n w) = .ok (S.valsOf (S.seq l), w') ∧ Reachable w' S' ∧
      (S'.seq l).Sublist (S.seq l) ∧ S'.valsOf (S'.seq l) = (S.valsOf (S.seq l)).filter (fun x => !drop x) ∧
      (∀ l', l' ≠ l → S'.seq l' = S.seq l') ∧ S'.vals = S.vals := by
  obtain ⟨w', e, h'⟩ := eraseLoop_spec drop (S.seq l) [] f w S h hl rfl hf
  obtain ⟨w1, e1, -⟩ := h.step (op := .frontNode l) (fun m hm => by simp [handles] at hm) (o := .node (S.seq l).head?) (S' := S) (by simp only [specStep, if_pos hl])
  simp only [BidList.step] at e1
  obtain ⟨n, e2, e3⟩ := Res.bind_eq_ok.1 e1
  cases e3
  refine ⟨w', _, by rw [e2]; exact e, h', ?_, ?_, fun l' hne => setSeq_seq_ne hne _, rfl⟩
  · rw [setSeq_seq_self hl]; simp
  · rw [setSeq_seq_self hl]; exact valsOf_kept drop _

/-- **C90** Asking a node for its successor only after removing it gives nil, whatever follows it in the list: a loop that
does this stops at the first removal. -/
theorem C90_list_next_after_remove {w : World T} {S : Spec T} (h : Reachable w S) {l n : Nat} (hn : n ∈ S.seq l) :
    ∃ x w', remove w l n = .ok (x, w') ∧ next w' n = .ok none := by
  obtain ⟨x, w', hx, e, h'⟩ := h.remove hn
  refine ⟨x, w', e, ?_⟩
  have hl : S.isList l := by
    by_contra c
    rw [seq_bad c] at hn; simp at hn
  obtain ⟨h1, h2, h3⟩ := C05_sequences h l
  have hi : (S.setSeq l ((S.seq l).erase n)).isNode n := h2 n hn
  have hno : ∀ s ∈ (S.setSeq l ((S.seq l).erase n)).seqs, n ∉ s := by
    intro s hs hm
    obtain ⟨i, hi⟩ := List.mem_iff_getElem?.1 hs
    have hsi : (S.setSeq l ((S.seq l).erase n)).seq i = s := by rw [Spec.seq, hi]; rfl
    by_cases c : i = l
    · subst c
      rw [setSeq_seq_self hl] at hsi
      rw [← hsi] at hm
      exact h1.not_mem_erase hm
    · rw [setSeq_seq_ne c] at hsi
      exact h3 i c n hn (by rw [hsi]; exact hm)
  have hf : (S.setSeq l ((S.seq l).erase n)).seqs.find? (n ∈ ·) = none := by
    rw [List.find?_eq_none]; intro s hs; simpa using hno s hs
  obtain ⟨w1, e1, -⟩ := h'.step (op := .next n) (fun m hm => by
    simp only [handles, List.mem_singleton] at hm; subst hm; exact h.live hn) (o := .node none)
    (S' := S.setSeq l ((S.seq l).erase n)) (by simp only [specStep, hi, hf]; rfl)
  simp only [BidList.step] at e1
  obtain ⟨y, e2, e3⟩ := Res.bind_eq_ok.1 e1
  cases e3
  exact e2

/-- `C90_list` on the first list of `demo_reachable` (values 5, 7, 8), dropping the odd values. -/
example : ∃ (w w' : World Nat) (S' : Spec Nat), (frontNode w 0 >>= fun n => eraseLoop (fun x => x % 2 = 1) 0 9 n w) = .ok ([5, 7, 8], w') ∧
    Reachable w' S' ∧ S'.valsOf (S'.seq 0) = [8] ∧ S'.seq 1 = [1] := by
  obtain ⟨w, h⟩ := demo_reachable
  obtain ⟨w', S', e, h1, -, h3, h4, -⟩ := C90_list h (l := 0) (by decide) (fun x => decide (x % 2 = 1)) (f := 9) (by decide)
  exact ⟨w, w', S', e, h1, h3, h4 1 (by decide)⟩

/-- `C90_list_next_after_remove` on the same list, removing its first node, which has two successors; the loop
`eraseLoopLate` that takes the next node too late looks at the first element only. -/
example : ∃ (w w' w'' : World Nat), remove w 0 0 = .ok (5, w') ∧ next w' 0 = .ok none ∧
    (frontNode w 0 >>= fun n => eraseLoopLate (fun x => x % 2 = 1) 0 9 n w) = .ok ([5], w'') := by
  obtain ⟨w, h⟩ := demo_reachable
  obtain ⟨x, w', e1, e2⟩ := C90_list_next_after_remove h (l := 0) (n := 0) (by decide)
  obtain ⟨y, w1, hy, e3, -⟩ := h.remove (l := 0) (n := 0) (by decide)
  rw [e1] at e3; cases e3
  cases hy
  refine ⟨w, w', w', e1, e2, ?_⟩
  obtain ⟨w1, e4, -⟩ := h.step (op := .frontNode 0) (fun m hm => by simp [handles] at hm) (o := .node (some 0)) rfl
  simp only [BidList.step] at e4
  obtain ⟨n, e5, e6⟩ := Res.bind_eq_ok.1 e4
  cases e6
  obtain ⟨nd, e7, fv, -⟩ := h.inv.node_val (n := 0) (by decide)
  simp only [e5, Res.ok_bind, eraseLoopLate, value, e7]
  have fv : nd.value = 5 := (Option.some.inj fv).symm
  simp [fv, e1, e2]
  rfl

end GoSTL.BidList
