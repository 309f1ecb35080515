import Verif.SimpleList.Props
/-!
# C90: removing nodes of a singly linked list while walking over it
-/
namespace GoSTL.SimpleList
open BidList (Agree before before_mid after after_mid)
variable {T : Type} {zero : T}

/-- The client loop
`var pre *Node; for n := l.FrontNode(); n != nil; { nx := n.Next(); if drop(n.Value) { l.Remove(pre, n) } else { pre = n }; n = nx }`,
from a pair of nodes on (simplelist.go:15-17, 41-43, 95-112): the values it looked at, and the state left. -/
def eraseLoop (zero : T) (drop : T → Bool) : Nat → Option Nat → Option Nat → World T → Res (List T × World T)
  | 0, _, _, _ => .outOfFuel
  | _ + 1, _, none, w => .ok ([], w)
  | f + 1, pre, some n, w => do
    let nx ← next w n
    let x ← value w n
    if drop x then do
      let (_, w') ← remove zero w pre (some n)
      let (seen, w'') ← eraseLoop zero drop f pre nx w'
      .ok (x :: seen, w'')
    else do
      let (seen, w'') ← eraseLoop zero drop f (some n) nx w
      .ok (x :: seen, w'')

theorem run_append {ops ops' : List (Op T)} {w w' : World T} {os : List (Out T)} (h : run zero ops w = .ok (os, w')) :
    run zero (ops ++ ops') w = (do let (os', w'') ← run zero ops' w'; .ok (os ++ os', w'')) := by
  induction ops generalizing w os with
  | nil =>
    simp only [run] at h
    injection h with h; injection h with h1 h2; subst h1 h2
    simp only [List.nil_append]
    cases run zero ops' w <;> rfl
  | cons op ops ih =>
    simp only [run] at h
    obtain ⟨⟨o, w1⟩, e1, h⟩ := Res.bind_eq_ok.1 h
    obtain ⟨⟨os1, w2⟩, e2, h⟩ := Res.bind_eq_ok.1 h
    simp only at h e2
    injection h with h; injection h with h1 h2; subst h1 h2
    simp only [List.cons_append, run, e1, Res.ok_bind, ih e2]
    cases run zero ops' w2 <;> rfl

theorem specRun_append {ops ops' : List (Op T)} {w w' : Spec T} {os : List (Out T)} (h : specRun zero ops w = .ok (os, w')) :
    specRun zero (ops ++ ops') w = (do let (os', w'') ← specRun zero ops' w'; .ok (os ++ os', w'')) := by
  induction ops generalizing w os with
  | nil =>
    simp only [specRun] at h
    injection h with h; injection h with h1 h2; subst h1 h2
    simp only [List.nil_append]
    cases specRun zero ops' w <;> rfl
  | cons op ops ih =>
    simp only [specRun] at h
    obtain ⟨⟨o, w1⟩, e1, h⟩ := Res.bind_eq_ok.1 h
    obtain ⟨⟨os1, w2⟩, e2, h⟩ := Res.bind_eq_ok.1 h
    simp only at h e2
    injection h with h; injection h with h1 h2; subst h1 h2
    simp only [List.cons_append, specRun, e1, Res.ok_bind, ih e2]
    cases specRun zero ops' w2 <;> rfl

theorem okHistory_append {ops ops' : List (Op T)} {S S' : Spec T} {os : List (Out T)} (h : okHistory zero ops S)
    (e : specRun zero ops S = .ok (os, S')) (h' : okHistory zero ops' S') : okHistory zero (ops ++ ops') S := by
  induction ops generalizing S os with
  | nil =>
    simp only [specRun] at e
    injection e with e; injection e with _ e; subst e; exact h'
  | cons op ops ih =>
    refine ⟨h.1, ?_⟩
    intro o S1 e1
    simp only [specRun, e1, Res.ok_bind] at e
    obtain ⟨⟨os1, w2⟩, e2, e⟩ := Res.bind_eq_ok.1 e
    simp only at e e2
    injection e with e; injection e with _ e; subst e
    exact ih (h.2 o S1 e1) e2

/-- One more call. -/
theorem Reachable.step {w : World T} {S S' : Spec T} {op : Op T} {o : Out T} (h : Reachable zero w S) (ha : okArgs op S)
    (e : specStep zero op S = .ok (o, S')) : ∃ w', SimpleList.step zero op w = .ok (o, w') ∧ Reachable zero w' S' := by
  have := step_refines h.inv zero op ha
  rw [e] at this
  generalize e1 : SimpleList.step zero op w = a at this
  cases this with
  | ok hi =>
    rename_i w'
    refine ⟨w', rfl, ?_⟩
    obtain ⟨ops, os, h1, h2, h3⟩ := h
    refine ⟨ops ++ [op], os ++ [o], okHistory_append h1 h3 ⟨ha, fun _ _ _ => trivial⟩, ?_, ?_⟩
    · rw [run_append h2]; simp [run, e1]
    · rw [specRun_append h3]; simp [specRun, e]

theorem Reachable.remove {w : World T} {S : Spec T} (h : Reachable zero w S) {n : Nat} (hn : n ∈ S.seq) :
    ∃ x w', S.vals[n]? = some x ∧ SimpleList.remove zero w (before n S.seq) (some n) = .ok (x, w') ∧
      Reachable zero w' { S with seq := S.seq.erase n } := by
  obtain ⟨w0, x, e0, hx, -⟩ := remove_spec h.inv zero hn
  have hs : specStep zero (.remove (before n S.seq) (some n)) S = .ok (.val x, { S with seq := S.seq.erase n }) := by
    simp only [specStep, hx]
  obtain ⟨w', e1, h1⟩ := h.step (op := .remove (before n S.seq) (some n)) ⟨hn, rfl⟩ hs
  simp only [SimpleList.step] at e1
  obtain ⟨⟨x', w1⟩, e2, e3⟩ := Res.bind_eq_ok.1 e1
  simp only at e3
  cases e3
  exact ⟨_, w', hx, e2, h1⟩

/-- Is the value behind a handle to be kept? -/
def Spec.kept (S : Spec T) (drop : T → Bool) (n : Nat) : Bool := !(S.vals[n]?.any drop)

theorem eraseLoop_spec (drop : T → Bool) : ∀ (Q P : List Nat) (f : Nat) (w : World T) (S : Spec T), Reachable zero w S →
    S.seq = P ++ Q → Q.length < f →
    ∃ w', eraseLoop zero drop f P.getLast? Q.head? w = .ok (S.valsOf Q, w') ∧ Reachable zero w' { S with seq := P ++ Q.filter (S.kept drop) } := by
  intro Q
  induction Q with
  | nil =>
    intro P f w S h hs hf
    obtain ⟨f, rfl⟩ : ∃ g, f = g + 1 := ⟨f - 1, by simp at hf; omega⟩
    refine ⟨w, rfl, ?_⟩
    rw [List.filter_nil, ← hs]; exact h
  | cons n Q ih =>
    intro P f w S h hs hf
    obtain ⟨f, rfl⟩ : ∃ g, f = g + 1 := ⟨f - 1, by simp at hf; omega⟩
    have hn : n ∈ S.seq := by rw [hs]; simp
    have hnd := h.inv.nodup
    have hP : n ∉ P := by
      rw [hs, List.nodup_append] at hnd
      exact fun hp => hnd.2.2 n hp n (by simp) rfl
    obtain ⟨w1, e1, -⟩ := h.step (op := .next n) hn (o := .node (after n S.seq)) (S' := S) rfl
    simp only [SimpleList.step] at e1
    obtain ⟨nx, e2, e3⟩ := Res.bind_eq_ok.1 e1
    have hnx : after n S.seq = Q.head? := by rw [hs, after_mid hP]
    rw [hnx] at e3
    cases e3
    obtain ⟨x, w1, hx, e4, h1⟩ := h.remove hn
    have hv : value w n = .ok x := by
      obtain ⟨w2, e5, -⟩ := h.step (op := .value n) trivial (o := .val x) (S' := S) (by simp only [specStep, hx])
      simp only [SimpleList.step] at e5
      obtain ⟨y, e6, e7⟩ := Res.bind_eq_ok.1 e5
      cases e7; exact e6
    have hvo : S.valsOf (n :: Q) = x :: S.valsOf Q := by simp [Spec.valsOf, hx]
    rw [hs, before_mid hP] at e4
    rw [hs, BidList.erase_mid hP] at h1
    simp only [List.head?_cons, eraseLoop, e2, hv, Res.ok_bind, e4]
    by_cases hd : drop x = true
    · obtain ⟨w', e5, h2⟩ := ih P f w1 _ h1 rfl (by simp at hf; omega)
      have e6 : Spec.valsOf { S with seq := P ++ Q } Q = S.valsOf Q := rfl
      rw [e6] at e5
      simp only [hd, if_true, e5, Res.ok_bind]
      refine ⟨w', by rw [hvo], ?_⟩
      have : S.kept drop n = false := by simp [Spec.kept, hx, hd]
      rw [List.filter_cons_of_neg (by simp [this])]
      exact h2
    · obtain ⟨w', e5, h2⟩ := ih (P ++ [n]) f w S h (by simpa using hs) (by simp at hf; omega)
      rw [List.getLast?_concat] at e5
      simp only [hd, Bool.false_eq_true, if_false, Res.ok_bind, e5]
      refine ⟨w', by rw [hvo], ?_⟩
      have : S.kept drop n = true := by simp [Spec.kept, hx, hd]
      rw [List.filter_cons_of_pos this]
      simpa using h2

theorem valsOf_kept {S : Spec T} (drop : T → Bool) (s : List Nat) : S.valsOf (s.filter (S.kept drop)) = (S.valsOf s).filter fun x => !drop x := by
  induction s with
  | nil => rfl
  | cons n s ih =>
    simp only [Spec.valsOf] at ih ⊢
    cases e : S.vals[n]? with
    | none => simp [List.filter_cons, Spec.kept, e, ih]
    | some x =>
      by_cases hd : drop x = true
      · simp [List.filter_cons, Spec.kept, e, ih, hd]
      · simp [List.filter_cons, Spec.kept, e, ih, hd]

/-- **C90** Removing nodes of a singly linked list while walking over it, carrying the last kept node along as `pre`: every
element is looked at exactly once, in order, and exactly the kept values are left, in order. -/
theorem C90_simplelist {w : World T} {S : Spec T} (h : Reachable zero w S) (drop : T → Bool) {f : Nat} (hf : S.seq.length < f) :
    ∃ w' S', eraseLoop zero drop f none w.head w = .ok (S.valsOf S.seq, w') ∧ Reachable zero w' S' ∧
      S'.seq.Sublist S.seq ∧ S'.valsOf S'.seq = (S.valsOf S.seq).filter (fun x => !drop x) ∧ S'.vals = S.vals := by
  obtain ⟨w', e, h'⟩ := eraseLoop_spec drop S.seq [] f w S h rfl hf
  refine ⟨w', _, by rw [h.inv.head]; exact e, h', ?_, ?_, rfl⟩
  · simp
  · exact valsOf_kept drop _

/-- The list 5, 6, 7, 8 without its odd values. -/
example : ∃ (w w' : World Nat) (S' : Spec Nat), eraseLoop 0 (fun x => x % 2 = 1) 9 none w.head w = .ok ([5, 6, 7, 8], w') ∧
    Reachable 0 w' S' ∧ S'.valsOf S'.seq = [6, 8] := by
  have h0 : ∃ w : World Nat, Reachable 0 w ⟨[0, 1, 2, 3], [5, 6, 7, 8]⟩ :=
    ⟨_, [.pushBack 5, .pushBack 6, .pushBack 7, .pushBack 8], _, by simp [okHistory, okArgs], rfl, rfl⟩
  obtain ⟨w, h⟩ := h0
  obtain ⟨w', S', e, h1, -, h3, -⟩ := C90_simplelist h (fun x => decide (x % 2 = 1)) (f := 9) (by decide)
  exact ⟨w, w', S', e, h1, h3⟩

end GoSTL.SimpleList
