import Verif.Vector.Props
/-!
# C90: erasing elements of a vector while walking over it
-/
namespace GoSTL.Vector
open GoSTL.GoSlice
variable {T : Type} {zero : T}

/-- The client loop `for it := v.Begin(); it.IsValid(); { if drop(it.Value()) { it = v.Erase(it) } else { it.Next() } }` on
vector `i`, from a position on (ds/vector/iterator.go:19-43, ds/vector/vector.go:207-211): the values it looked at, and the
state left. -/
def eraseLoop (zero : T) (drop : T → Bool) (extra i : Nat) : Nat → Int → World T → Res (List T × World T)
  | 0, _, _ => .outOfFuel
  | f + 1, pos, w =>
    match w.vecs[i]? with
    | none => .panic
    | some s =>
      if pos ≥ 0 ∧ pos < size s then do
        let x ← at_ w.mem s pos
        if drop x then do
          let (o, w') ← wstep zero (.on i (.erase pos extra)) w
          match o with
          | .int pos' => do
            let (seen, w'') ← eraseLoop zero drop extra i f pos' w'
            .ok (x :: seen, w'')
          | _ => .panic
        else do
          let (seen, w'') ← eraseLoop zero drop extra i f (if pos < size s then pos + 1 else pos) w
          .ok (x :: seen, w'')
      else .ok ([], w)

theorem wrun_concat (cs : List (Call T)) : ∀ (w w' w'' : World T) (os : List (Out T)) (c : Call T) (o : Out T),
    wrun zero cs w = .ok (os, w') → wstep zero c w' = .ok (o, w'') → wrun zero (cs ++ [c]) w = .ok (os ++ [o], w'') := by
  induction cs with
  | nil =>
    intro w w' w'' os c o h1 h2
    simp only [wrun, Res.ok.injEq, Prod.mk.injEq] at h1
    obtain ⟨rfl, rfl⟩ := h1
    simp [wrun, h2]
  | cons d cs ih =>
    intro w w' w'' os c o h1 h2
    simp only [wrun] at h1
    obtain ⟨⟨o1, w1⟩, e1, h1⟩ := Res.bind_eq_ok.1 h1
    obtain ⟨⟨os1, w2⟩, e2, h1⟩ := Res.bind_eq_ok.1 h1
    simp only [Res.ok.injEq, Prod.mk.injEq] at h1 e2
    obtain ⟨rfl, rfl⟩ := h1
    simp only [List.cons_append, wrun, e1, Res.ok_bind, ih _ _ _ _ _ _ e2 h2]

theorem Reachable.step {w w' : World T} {c : Call T} {o : Out T} (h : Reachable zero w) (e : wstep zero c w = .ok (o, w')) : Reachable zero w' := by
  obtain ⟨cs, os, h⟩ := h
  exact ⟨cs ++ [c], os ++ [o], wrun_concat _ _ _ _ _ _ _ h e⟩

theorem eraseLoop_spec (drop : T → Bool) (extra i : Nat) : ∀ (Q P : List T) (f : Nat) (w : World T), Reachable zero w → (shows w)[i]? = some (P ++ Q) →
    Q.length < f →
    ∃ w', eraseLoop zero drop extra i f P.length w = .ok (Q, w') ∧ Reachable zero w' ∧ shows w' = (shows w).set i (P ++ Q.filter fun x => !drop x) := by
  intro Q
  induction Q with
  | nil =>
    intro P f w h hl hf
    obtain ⟨f, rfl⟩ : ∃ g, f = g + 1 := ⟨f - 1, by simp at hf; omega⟩
    rw [shows_get] at hl
    cases hv : w.vecs[i]? with
    | none => rw [hv] at hl; simp at hl
    | some s =>
    have hl' := hl
    rw [hv] at hl'
    simp only [Option.map_some, Option.some.injEq, List.append_nil] at hl'
    have hw := h.inv.wf i s hv
    have hlen : s.len = P.length := by rw [← hl', hw.contents_length]
    refine ⟨w, ?_, h, ?_⟩
    · simp only [eraseLoop, hv]
      rw [if_neg (by simp only [size]; omega)]
    · rw [← shows_get] at hl
      simp only [List.filter_nil]
      apply List.ext_getElem?
      intro j
      rw [List.getElem?_set]
      split
      · rename_i e; subst e
        rw [hl]; simp
        rw [List.getElem?_eq_some_iff] at hl; exact hl.1
      · rfl
  | cons x Q ih =>
    intro P f w h hl hf
    obtain ⟨f, rfl⟩ : ∃ g, f = g + 1 := ⟨f - 1, by simp at hf; omega⟩
    have hl0 := hl
    rw [shows_get] at hl
    cases hv : w.vecs[i]? with
    | none => rw [hv] at hl; simp at hl
    | some s =>
    have hl' := hl
    rw [hv] at hl'
    simp only [Option.map_some, Option.some.injEq] at hl'
    have hw := h.inv.wf i s hv
    have hlen : s.len = P.length + (Q.length + 1) := by rw [← hw.contents_length, hl']; simp
    have hat : at_ w.mem s (P.length : Int) = .ok x := by
      rw [at_spec hw, hl', Seq.at?, if_pos (by simp)]
      simp
    have hp : (P.length : Int) ≥ 0 ∧ (P.length : Int) < size s := by simp only [size]; omega
    simp only [eraseLoop, hv, if_pos hp, hat, Res.ok_bind]
    by_cases hd : drop x = true
    · have hr := wstep_refines (zero := zero) h.inv (.on i (.erase (P.length : Int) extra))
      have hs : specCall (.on i (.erase (P.length : Int) extra)) (shows w) = .ok (.int P.length, (shows w).set i (P ++ Q)) := by
        simp only [specCall, hl0, specStep, Res.ok_bind, del]
        rw [if_pos (by simp; omega)]
        have e1 : ((P.length : Int) + 1).toNat = P.length + 1 := by omega
        rw [e1, Int.toNat_natCast, List.take_left', List.drop_append]
        · simp [List.drop_eq_nil_of_le]
        · rfl
      rw [hs] at hr
      obtain ⟨w1, e1, -, h1⟩ := hr
      have hlt : i < (shows w).length := by
        rw [List.getElem?_eq_some_iff] at hl0; exact hl0.1
      obtain ⟨w', e2, h2, h3⟩ := ih P f w1 (h.step e1) (by rw [h1, List.getElem?_set_self hlt]) (by simp at hf; omega)
      simp only [hd, if_true, e1, Res.ok_bind, e2]
      refine ⟨w', rfl, h2, ?_⟩
      rw [h3, h1]; simp [hd]
    · obtain ⟨w', e2, h2, h3⟩ := ih (P ++ [x]) f w h (by simpa using hl0) (by simp at hf; omega)
      simp only [List.length_append, List.length_singleton] at e2
      push_cast at e2
      simp only [hd, Bool.false_eq_true, if_false, if_pos hp.2, e2, Res.ok_bind]
      refine ⟨w', rfl, h2, ?_⟩
      rw [h3]; simp [hd]

/-- **C90** Erasing elements of a vector while walking over it with the iterator that `Erase` returns: every element is
looked at exactly once, in order; the vector is left with exactly the elements to be kept, in order, and no other vector
changes. -/
theorem C90_vector {w : World T} (h : Reachable zero w) {i : Nat} {l : List T} (hl : (shows w)[i]? = some l) (drop : T → Bool) (extra : Nat) {f : Nat}
    (hf : l.length < f) :
    ∃ w', eraseLoop zero drop extra i f 0 w = .ok (l, w') ∧ Reachable zero w' ∧ shows w' = (shows w).set i (l.filter fun x => !drop x) := by
  have := eraseLoop_spec (zero := zero) drop extra i l [] f w h (by simpa using hl) hf
  simpa using this

/-- The vector 5, 6, 7, 8 without its odd elements. -/
example : ∃ w w' : World Nat, shows w = [[5, 6, 7, 8]] ∧ eraseLoop 0 (fun x => x % 2 = 1) 0 0 9 0 w = .ok ([5, 6, 7, 8], w') ∧ shows w' = [[6, 8]] := by
  have h0 : ∃ w : World Nat, Reachable 0 w ∧ shows w = [[5, 6, 7, 8]] :=
    ⟨_, ⟨[.new 2, .on 0 (.pushBack 5 0), .on 0 (.pushBack 6 0), .on 0 (.pushBack 7 1), .on 0 (.pushBack 8 0)], _, rfl⟩, rfl⟩
  obtain ⟨w, h, e⟩ := h0
  obtain ⟨w', e1, -, e2⟩ := C90_vector h (i := 0) (l := [5, 6, 7, 8]) (by rw [e]; rfl) (fun x => decide (x % 2 = 1)) 0 (f := 9) (by decide)
  exact ⟨w, w', e, e1, by rw [e2, e]; rfl⟩

end GoSTL.Vector
