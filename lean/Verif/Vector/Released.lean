import Verif.Vector.EraseLoop
/-!
# C93 for vectors: what the backing array keeps

A slice keeps its whole backing array alive, also the elements beyond its length.
-/
namespace GoSTL.Vector
open GoSTL.GoSlice

variable {T : Type} {zero : T}

/-- The vector's header keeps `x` alive: `x` is stored somewhere in the backing array. -/
def Retains (w : World T) (i : Nat) (x : T) : Prop := ∃ s, w.vecs[i]? = some s ∧ x ∈ backing w.mem s

theorem mem_backing {m : Mem T} {s : Slice} {x : T} (h : x ∈ contents m s) : x ∈ backing m s :=
  List.mem_of_mem_drop (List.mem_of_mem_take h)

theorem reslice_arr {s s' : Slice} {a b : Int} (e : reslice s a b = .ok s') : s'.arr = s.arr := by
  unfold reslice at e; split at e
  · cases e; rfl
  · cases e

/-- **C93 violated** `PopBack`, `Clear` and `Resize` only move the end of the slice: in every reachable state, every
element the vector held, the removed ones included, is still stored in its backing array after the call. -/
theorem C93_vector_violated {w : World T} (h : Reachable zero w) {i : Nat} {l : List T} (hl : (shows w)[i]? = some l) :
    (l ≠ [] → ∃ x w', wstep zero (.on i .popBack) w = .ok (.val x, w') ∧ (shows w')[i]? = some l.dropLast ∧ ∀ y ∈ l, Retains w' i y) ∧
    (∃ w', wstep zero (.on i .clear) w = .ok (.unit, w') ∧ (shows w')[i]? = some [] ∧ ∀ y ∈ l, Retains w' i y) ∧
    (∀ n : Nat, ∃ w', wstep zero (.on i (.resize n)) w = .ok (.unit, w') ∧ (shows w')[i]? = some (l.take n) ∧ ∀ y ∈ l, Retains w' i y) := by
  rw [shows_get] at hl
  cases hs : w.vecs[i]? with
  | none => rw [hs] at hl; cases hl
  | some s =>
  rw [hs] at hl
  have hl' : contents w.mem s = l := by simpa using hl
  have hi : i < w.vecs.length := (List.getElem?_eq_some_iff.1 hs).1
  have key : ∀ (op : Op T) (o : Out T) (l' : List T), specStep op l = .ok (o, l') →
      (∀ m' s', step zero op w.mem s = .ok (o, m', s') → m' = w.mem ∧ s'.arr = s.arr) →
      ∃ w', wstep zero (.on i op) w = .ok (o, w') ∧ (shows w')[i]? = some l' ∧ ∀ y ∈ l, Retains w' i y := by
    intro op o l' hsp hk
    have hr := step_refines (zero := zero) (h.inv.wf i s hs) op
    rw [hl', hsp] at hr
    obtain ⟨m', s', e, hd⟩ := hr
    obtain ⟨rfl, ha⟩ := hk m' s' e
    have hg : (w.vecs.set i s')[i]? = some s' := by simp [hi]
    refine ⟨{ mem := w.mem, vecs := w.vecs.set i s' }, ?_, ?_, fun y hy => ⟨s', hg, ?_⟩⟩
    · simp only [wstep, hs, e, Res.ok_bind]
    · rw [shows_get]; simp only [hg, Option.map_some, hd.contents]
    · have : backing w.mem s' = backing w.mem s := by simp only [backing, ha]
      rw [this]; rw [← hl'] at hy; exact mem_backing hy
  refine ⟨fun hne => ?_, ?_, fun n => ?_⟩
  · cases hx : l.getLast? with
    | none => rw [List.getLast?_eq_none_iff] at hx; exact (hne hx).elim
    | some x =>
      refine ⟨x, key .popBack _ _ (by simp only [specStep, hx]) fun m' s' e => ?_⟩
      simp only [step] at e; rw [Res.bind_eq_ok] at e; obtain ⟨⟨y, s1⟩, e1, e⟩ := e
      unfold popBack at e1; split at e1
      · cases e1
      · rw [Res.bind_eq_ok] at e1; obtain ⟨v, -, e1⟩ := e1
        rw [Res.bind_eq_ok] at e1; obtain ⟨s2, e2, e1⟩ := e1
        cases e1; cases e; exact ⟨rfl, reslice_arr e2⟩
  · refine key .clear _ _ rfl fun m' s' e => ?_
    simp only [step] at e; rw [Res.bind_eq_ok] at e; obtain ⟨s1, e1, e⟩ := e
    cases e; exact ⟨rfl, reslice_arr e1⟩
  · refine key (.resize n) _ _ (by simp only [specStep]; rw [if_neg (by omega)]; simp) fun m' s' e => ?_
    simp only [step] at e; rw [Res.bind_eq_ok] at e; obtain ⟨s1, e1, e⟩ := e
    cases e
    unfold resize at e1; split at e1
    · cases e1; exact ⟨rfl, rfl⟩
    · exact ⟨rfl, reslice_arr e1⟩

theorem copyLoop_lengths {src dst : Slice} : ∀ (n : Nat) (i : Int) (m m' : Mem T), copyLoop src dst n i m = .ok m' →
    ∀ s : Slice, (backing m' s).length = (backing m s).length := by
  intro n
  induction n with
  | zero => intro i m m' e s; cases e; rfl
  | succ n ih =>
    intro i m m' e s
    simp only [copyLoop] at e
    rw [Res.bind_eq_ok] at e; obtain ⟨x, -, e⟩ := e
    rw [Res.bind_eq_ok] at e; obtain ⟨m1, e1, e⟩ := e
    rw [ih _ _ _ e s]
    unfold write at e1; split at e1
    · cases e1
      by_cases hk : dst.arr = s.arr
      · by_cases hl : dst.arr < m.length
        · simp only [backing, ← hk]; rw [List.getElem?_set_self hl]; simp
        · rw [List.set_eq_of_length_le (by omega)]
      · rw [backing_set_other hk]
    · cases e1

/-- **C93** `ShrinkToFit` does release: called on a vector with room to spare, it leaves the vector's backing array with
exactly the elements the vector shows. Missing from the full claim: that `PopBack`, `Clear` and the others release as well (false,
`C93_vector_violated`). -/
theorem C93_vector_shrink_partial {w : World T} (h : Reachable zero w) {i : Nat} {s : Slice} (hs : w.vecs[i]? = some s) (hr : s.len < s.cap) :
    ∃ w', wstep zero (.on i .shrinkToFit) w = .ok (.unit, w') ∧ shows w' = shows w ∧ ∀ y, Retains w' i y → ∃ l, (shows w)[i]? = some l ∧ y ∈ l := by
  have hw := h.inv.wf i s hs
  have hi : i < w.vecs.length := (List.getElem?_eq_some_iff.1 hs).1
  have hsh : (shows w)[i]? = some (contents w.mem s) := by rw [shows_get, hs]; rfl
  obtain ⟨w', e, hsame⟩ := (C13_copy_same h hsh).2.2
  refine ⟨w', e, hsame, fun y hy => ⟨_, hsh, ?_⟩⟩
  simp only [wstep, hs] at e
  rw [Res.bind_eq_ok] at e; obtain ⟨⟨o, m', s'⟩, e1, e⟩ := e
  cases e
  obtain ⟨t, ht, hm⟩ := hy
  simp only [List.getElem?_set_self hi, Option.some.injEq] at ht
  subst ht
  simp only [step] at e1
  rw [Res.bind_eq_ok] at e1; obtain ⟨⟨m2, s2⟩, e2, e1⟩ := e1
  cases e1
  unfold shrinkToFit at e2
  rw [if_neg (by omega)] at e2
  obtain ⟨m1, s1, e3, w1, c1, a1, l1, k1, o1, f1, ln⟩ := make_spec zero w.mem (len := s.len) (cap := s.len) (by omega) (by omega)
  have hb1 : (backing m1 s1).length = s.len := by
    simp only [make] at e3; rw [if_pos (by omega)] at e3
    cases e3; simp [backing]
  rw [show (size s : Int) = s.len from rfl, e3] at e2
  simp only [Res.ok_bind] at e2
  rw [Res.bind_eq_ok] at e2; obtain ⟨m3, e4, e2⟩ := e2
  cases e2
  simp only at hm hsame
  have hb3 : (backing m2 s2).length = s.len := by rw [copyLoop_lengths _ _ _ _ e4, hb1]
  have : contents m2 s2 = backing m2 s2 := by
    simp only [contents, o1, List.drop_zero]
    rw [List.take_of_length_le (by omega)]
  have hc := congrArg (fun x => x[i]?) hsame
  simp only [shows_get, List.getElem?_set_self hi, hs, Option.map_some, Option.some.injEq] at hc
  rw [← hc, this]; exact hm

/-- Non-vacuity: push 5, 6, pop 6: it is still there; after `ShrinkToFit` it is not. -/
example : ∃ w : World Nat, Reachable 0 w ∧ shows w = [[5]] ∧ Retains w 0 6 ∧ ∃ w', Reachable 0 w' ∧ shows w' = [[5]] ∧ ¬ Retains w' 0 6 := by
  have h0 : ∃ w : World Nat, Reachable 0 w ∧ shows w = [[5, 6]] :=
    ⟨_, ⟨[.new 0, .on 0 (.pushBack 5 1), .on 0 (.pushBack 6 0)], _, rfl⟩, rfl⟩
  have h1 : ∃ w : World Nat, ∃ s, Reachable 0 w ∧ shows w = [[5]] ∧ w.vecs[0]? = some s ∧ s.len < s.cap ∧ Retains w 0 6 :=
    ⟨_, _, ⟨[.new 0, .on 0 (.pushBack 5 1), .on 0 (.pushBack 6 0), .on 0 .popBack], _, rfl⟩, rfl, rfl, by decide, ⟨_, rfl, by decide⟩⟩
  obtain ⟨w0, r0, s0⟩ := h0
  have := (C93_vector_violated r0 (i := 0) (l := [5, 6]) (by rw [s0]; rfl)).1 (by simp)
  obtain ⟨w, s, r, sh, hv, hlt, hret⟩ := h1
  obtain ⟨w', e, sh', hx⟩ := C93_vector_shrink_partial r hv hlt
  refine ⟨w, r, sh, hret, w', r.step e, by rw [sh', sh], fun h6 => ?_⟩
  · obtain ⟨l, hl, h6⟩ := hx 6 h6
    rw [sh] at hl; simp at hl; subst hl; simp at h6

end GoSTL.Vector
