import Verif.Algo.Props
/-!
# C108: slice wrappers are windows onto the caller's arrays

`NewSliceWrapper` and `Attach` keep the slice they are given, and a Go slice is a window onto an array that other slices, and other wrappers, may share. Here the arrays are
in memory, a slice is (array, offset, length), a wrapper is an object holding a slice.
-/
namespace GoSTL.SliceWindow
open GoSTL.Seq GoSTL.Algo
variable {T α : Type}

/-! ## Model -/

/-- A Go slice: an array, the offset of its first element, its length. (Capacities matter only to `append` and reslicing, which the package does not do.) -/
structure Sl where
  arr : Nat
  off : Nat
  len : Nat

/-- The arrays, and the slices the wrapper objects hold (slice_wrapper.go:4-6). -/
structure Mem (T : Type) where
  arrs : List (List T)
  wraps : List Sl

/-- The slice held by wrapper `w`; there is one, since `w` is a pointer to an object. -/
def Mem.sl (m : Mem T) (w : Nat) : Sl := m.wraps[w]?.getD ⟨0, 0, 0⟩

/-- Reading a slice element: `s[i]` for an index that has been checked. -/
def Mem.read (m : Mem T) (s : Sl) (i : Nat) : Option T := m.arrs[s.arr]?.bind fun a => a[s.off + i]?

/-- Writing a slice element. -/
def Mem.write (m : Mem T) (s : Sl) (i : Nat) (v : T) : Mem T := ⟨m.arrs.modify s.arr fun a => a.set (s.off + i) v, m.wraps⟩

/-- slice_wrapper.go:9-13 `NewSliceWrapper`. -/
def newWrapper (m : Mem T) (s : Sl) : Mem T := ⟨m.arrs, m.wraps ++ [s]⟩

/-- slice_wrapper.go:16-18 `Attach`. -/
def attachTo (m : Mem T) (w : Nat) (s : Sl) : Mem T := ⟨m.arrs, m.wraps.set w s⟩

/-- slice_wrapper.go:21-23 `Len`, 26-31 `At`, 34-39 `Set` of wrapper `w`. -/
def wrapOps (w : Nat) : Ops (Mem T) T where
  size m := (m.sl w).len
  get m i := if i < 0 ∨ i ≥ (m.sl w).len then .panic else Res.ofOption (m.read (m.sl w) i.toNat)
  set m i v := if i < 0 ∨ i ≥ (m.sl w).len then .ok m else .ok (m.write (m.sl w) i.toNat v)

/-! ## Specification -/

/-- The part of an array a slice shows. -/
def window (a : List T) (off len : Nat) : List T := (a.drop off).take len

/-- What a wrapper shows. -/
def Mem.shown (m : Mem T) (w : Nat) : List T := window ((m.arrs[(m.sl w).arr]?).getD []) (m.sl w).off (m.sl w).len

/-- The array with other elements in place of the window. -/
def patch (a : List T) (off : Nat) (l : List T) : List T := a.take off ++ l ++ a.drop (off + l.length)

/-- The memory with other elements in the window of wrapper `w`, and otherwise unchanged. -/
def Mem.patched (m : Mem T) (w : Nat) (l : List T) : Mem T := ⟨m.arrs.modify (m.sl w).arr fun a => patch a (m.sl w).off l, m.wraps⟩

/-- The wrapper exists, and its slice lies in an array, as Go guarantees. -/
structure Mem.Ok (m : Mem T) (w : Nat) : Prop where
  wrap : w < m.wraps.length
  arr : (m.sl w).arr < m.arrs.length
  fit : ∀ a, m.arrs[(m.sl w).arr]? = some a → (m.sl w).off + (m.sl w).len ≤ a.length

/-! ## Proof -/

theorem shown_length {m : Mem T} {w : Nat} (h : m.Ok w) : (m.shown w).length = (m.sl w).len := by
  have e := List.getElem?_eq_getElem h.arr
  have := h.fit _ e
  simp only [Mem.shown, window, e, Option.getD_some, List.length_take, List.length_drop]
  omega

theorem shown_get {m : Mem T} {w : Nat} (h : m.Ok w) {i : Nat} (hi : i < (m.sl w).len) : (m.shown w)[i]? = m.read (m.sl w) i := by
  have e := List.getElem?_eq_getElem h.arr
  simp only [Mem.shown, window, Mem.read, e, Option.getD_some, Option.bind_some, List.getElem?_take, List.getElem?_drop]
  rw [if_pos hi]

theorem patch_window {a : List T} {off len : Nat} (h : off + len ≤ a.length) : patch a off (window a off len) = a := by
  have e : (window a off len).length = len := by simp only [window, List.length_take, List.length_drop]; omega
  simp only [patch, e]
  simp only [window]
  rw [← List.drop_drop, List.append_assoc, List.take_append_drop, List.take_append_drop]

theorem window_patch {a : List T} {off : Nat} {l : List T} (h : off + l.length ≤ a.length) : window (patch a off l) off l.length = l := by
  simp only [window, patch, List.append_assoc]
  have : (a.take off).length = off := by simp; omega
  rw [List.drop_append_of_le_length (by omega), List.drop_of_length_le (by omega), List.nil_append, List.take_append_of_le_length (Nat.le_refl _), List.take_length]

theorem patch_length {a : List T} {off : Nat} {l : List T} (h : off + l.length ≤ a.length) : (patch a off l).length = a.length := by
  simp only [patch, List.length_append, List.length_take, List.length_drop]; omega

/-- Elements of a patched array. -/
theorem patch_get {a : List T} {off : Nat} {l : List T} (h : off + l.length ≤ a.length) (k : Nat) :
    (patch a off l)[k]? = if off ≤ k ∧ k < off + l.length then l[k - off]? else a[k]? := by
  have e1 : (a.take off).length = off := by simp; omega
  simp only [patch, List.append_assoc]
  by_cases c1 : k < off
  · rw [List.getElem?_append_left (by omega), if_neg (by omega), List.getElem?_take, if_pos c1]
  · rw [List.getElem?_append_right (by omega), e1]
    by_cases c2 : k < off + l.length
    · rw [List.getElem?_append_left (by omega), if_pos (by omega)]
    · rw [List.getElem?_append_right (by omega), List.getElem?_drop, if_neg (by omega)]
      congr 1; omega

theorem set_eq_patch {a : List T} {off len i : Nat} (h : off + len ≤ a.length) (hi : i < len) (v : T) :
    a.set (off + i) v = patch a off ((window a off len).set i v) := by
  have e : (window a off len).length = len := by simp only [window, List.length_take, List.length_drop]; omega
  apply List.ext_getElem?
  intro k
  rw [patch_get (by rw [List.length_set, e]; exact h), List.length_set, e]
  by_cases c : off ≤ k ∧ k < off + len
  · rw [if_pos c, List.getElem?_set, List.getElem?_set, e]
    by_cases d : off + i = k
    · rw [if_pos d, if_pos (by omega), if_pos (by omega), if_pos hi]
    · rw [if_neg d, if_neg (by omega)]
      simp only [window, List.getElem?_take, List.getElem?_drop]
      rw [if_pos (by omega)]
      congr 1; omega
  · rw [if_neg c, List.getElem?_set, if_neg (by omega)]

theorem patched_self {m : Mem T} {w : Nat} (h : m.Ok w) : m.patched w (m.shown w) = m := by
  have e := List.getElem?_eq_getElem h.arr
  have hf := h.fit _ e
  simp only [Mem.patched, Mem.shown, e, Option.getD_some]
  have : m.arrs.modify (m.sl w).arr (fun a => patch a (m.sl w).off (window (m.arrs[(m.sl w).arr]'h.arr) (m.sl w).off (m.sl w).len)) = m.arrs := by
    apply List.ext_getElem?
    intro k
    rw [List.getElem?_modify]
    by_cases c : (m.sl w).arr = k
    · subst c
      rw [e]
      simp only [Option.map_eq_map, Option.map_some, if_true, patch_window hf]
    · cases m.arrs[k]? <;> simp [c]
  rw [this]

theorem patched_ok {m : Mem T} {w : Nat} (h : m.Ok w) {l : List T} (hl : l.length = (m.sl w).len) : (m.patched w l).Ok w := by
  refine ⟨h.wrap, by simpa [Mem.patched, Mem.sl] using h.arr, fun a ea => ?_⟩
  have e := List.getElem?_eq_getElem h.arr
  have hf := h.fit _ e
  have ea : (m.arrs.modify (m.sl w).arr fun a => patch a (m.sl w).off l)[(m.sl w).arr]? = some a := ea
  rw [List.getElem?_modify, e] at ea
  simp only [Option.map_eq_map, Option.map_some, if_true] at ea
  have ea := Option.some.inj ea
  subst ea
  show (m.sl w).off + (m.sl w).len ≤ _
  rw [patch_length (by omega)]; exact hf

theorem patched_shown {m : Mem T} {w : Nat} (h : m.Ok w) {l : List T} (hl : l.length = (m.sl w).len) : (m.patched w l).shown w = l := by
  have e := List.getElem?_eq_getElem h.arr
  have hf := h.fit _ e
  show window (((m.arrs.modify (m.sl w).arr fun a => patch a (m.sl w).off l)[(m.sl w).arr]?).getD []) (m.sl w).off (m.sl w).len = l
  rw [List.getElem?_modify, e]
  simp only [Option.map_eq_map, Option.map_some, if_true, Option.getD_some]
  rw [← hl]
  exact window_patch (by omega)

theorem patch_patch {a : List T} {off : Nat} {l l' : List T} (h : off + l.length ≤ a.length) (hl : l'.length = l.length) : patch (patch a off l) off l' = patch a off l' := by
  apply List.ext_getElem?
  intro k
  rw [patch_get (by rw [patch_length h]; omega), patch_get h, patch_get (by omega), hl]
  split <;> rfl

theorem patched_patched {m : Mem T} {w : Nat} (h : m.Ok w) {l l' : List T} (hl : l.length = (m.sl w).len) (hl' : l'.length = (m.sl w).len) :
    (m.patched w l).patched w l' = m.patched w l' := by
  have e := List.getElem?_eq_getElem h.arr
  have hf := h.fit _ e
  show (⟨(m.arrs.modify (m.sl w).arr fun a => patch a (m.sl w).off l).modify (m.sl w).arr fun a => patch a (m.sl w).off l', m.wraps⟩ : Mem T) = ⟨_, _⟩
  congr 1
  apply List.ext_getElem?
  intro k
  rw [List.getElem?_modify, List.getElem?_modify, List.getElem?_modify]
  by_cases c : (m.sl w).arr = k
  · subst c
    rw [e]
    simp only [Option.map_eq_map, Option.map_some, if_true]
    rw [patch_patch (by omega) (by omega)]
  · cases m.arrs[k]? <;> simp [c]

theorem wrapOps_set {m : Mem T} {w : Nat} (h : m.Ok w) (i : Int) (v : T) : (wrapOps w).set m i v = .ok (m.patched w (setAt (m.shown w) i v)) := by
  have e := List.getElem?_eq_getElem h.arr
  have hf := h.fit _ e
  have hsl := shown_length h
  simp only [wrapOps]
  split
  · next c =>
    have : setAt (m.shown w) i v = m.shown w := by
      simp only [setAt]
      split
      · rw [List.set_eq_of_length_le (by omega)]
      · rfl
    rw [this, patched_self h]
  · next c =>
    congr 1
    simp only [Mem.write, Mem.patched, setAt]
    rw [if_pos (by omega)]
    congr 1
    apply List.ext_getElem?
    intro k
    rw [List.getElem?_modify, List.getElem?_modify]
    by_cases ck : (m.sl w).arr = k
    · subst ck
      rw [e]
      simp only [Option.map_eq_map, Option.map_some, if_true, Mem.shown, e, Option.getD_some]
      rw [set_eq_patch hf (by omega)]
    · cases m.arrs[k]? <;> simp [ck]

theorem wrapOps_get {m : Mem T} {w : Nat} (h : m.Ok w) (i : Int) : (wrapOps w).get m i = Res.ofOption (at? (m.shown w) i) := by
  have hsl := shown_length h
  simp only [wrapOps, at?]
  split
  · next c =>
    split
    · rw [List.getElem?_eq_none (by omega)]; rfl
    · rfl
  · next c => rw [if_pos (by omega), shown_get h (by omega)]

theorem setAt_len (l : List T) (i : Int) (v : T) : (setAt l i v).length = l.length := by
  unfold setAt; split <;> simp

/-! ## C108 -/

/-- **C108** Whatever is done through the iterators of a wrapper (any program over them, so each of the algorithms) is done to the part of the caller's array that the
wrapper shows, as to a list, and to nothing else: the rest of the array, the other arrays and all wrappers stay as they are. -/
theorem C108_window (p : Prog T α) : ∀ {m : Mem T} {w : Nat}, m.Ok w →
    run (wrapOps w) p m = (run listOps p (m.shown w) >>= fun r => .ok (r.1, m.patched w r.2)) := by
  induction p with
  | ret a => intro m w h; simp only [run, Res.ok_bind, patched_self h]
  | get i k ih =>
    intro m w h
    simp only [run, wrapOps_get h, listOps]
    cases at? (m.shown w) i with
    | none => rfl
    | some x => exact ih x h
  | set i v k ih =>
    intro m w h
    have hl : (setAt (m.shown w) i v).length = (m.sl w).len := by rw [setAt_len, shown_length h]
    simp only [run, wrapOps_set h, Res.ok_bind]
    show _ = (run listOps k (setAt (m.shown w) i v) >>= fun r => .ok (r.1, m.patched w r.2))
    rw [ih (patched_ok h hl), patched_shown h hl]
    have keep : ∀ (q : Prog T α) (l l' : List T) (a : α), run listOps q l = .ok (a, l') → l'.length = l.length := by
      intro q
      induction q with
      | ret a => intro l l' b e; cases e; rfl
      | get i k ih =>
        intro l l' b e
        simp only [run, listOps] at e
        cases hx : at? l i with
        | none => rw [hx] at e; cases e
        | some x => rw [hx] at e; exact ih x l l' b e
      | set i v k ih =>
        intro l l' b e
        have := ih (setAt l i v) l' b e
        rw [this, setAt_len]
      | size k ih => intro l l' b e; exact ih _ l l' b e
      | panic => intro l l' b e; cases e
      | outOfFuel => intro l l' b e; cases e
    cases er : run listOps k (setAt (m.shown w) i v) with
    | panic => rfl
    | outOfFuel => rfl
    | ok r =>
      simp only [Res.ok_bind]
      rw [patched_patched h hl (by rw [keep k _ _ _ er, hl])]
  | size k ih =>
    intro m w h
    simp only [run, wrapOps, listOps, ← shown_length h]
    exact ih _ h
  | panic => intros; rfl
  | outOfFuel => intros; rfl

/-- **C108** Every other slice sees what was done, element by element: an element that lies in the window is the new one, any other is the old one. -/
theorem C108_seen {m : Mem T} {w : Nat} (h : m.Ok w) {l : List T} (hl : l.length = (m.sl w).len) (s : Sl) (i : Nat) :
    (m.patched w l).read s i = if s.arr = (m.sl w).arr ∧ (m.sl w).off ≤ s.off + i ∧ s.off + i < (m.sl w).off + (m.sl w).len then l[s.off + i - (m.sl w).off]? else m.read s i := by
  have e := List.getElem?_eq_getElem h.arr
  have hf := h.fit _ e
  simp only [Mem.read, Mem.patched]
  rw [List.getElem?_modify]
  by_cases c : (m.sl w).arr = s.arr
  · rw [← c, e]
    simp only [Option.map_eq_map, Option.map_some, if_true, Option.bind_some, true_and]
    rw [patch_get (by omega), hl]
  · rw [if_neg (fun d => c d.1.symm)]
    cases m.arrs[s.arr]? <;> simp [c]

/-- **C108** Sorting a range of a wrapper sorts that range of the caller's array in place. -/
theorem C108_sort {cmp : T → T → Int} (hcmp : LawfulCmp cmp) {m : Mem T} {w : Nat} (h : m.Ok w) (P M S : List T) (hM : m.shown w = P ++ M ++ S) :
    ∃ M', run (wrapOps w) (sort cmp P.length (P.length + M.length)) m = .ok ((), m.patched w (P ++ M' ++ S)) ∧ M'.Perm M ∧ Sorted cmp M' := by
  obtain ⟨l', M', e, _, e2, hp, hs⟩ := C18_sort_sorts (ops := listOps) hcmp listOps_lawful (c := m.shown w) trivial P M S hM
  refine ⟨M', ?_, hp, hs⟩
  rw [C108_window _ h, e]
  have e2 : l' = P ++ M' ++ S := e2
  subst e2; rfl

/-- **C108** `Attach` redirects the wrapper, and with it every iterator made from it, to the new slice, and changes nothing else; iterators keep their positions. -/
theorem C108_attach {m : Mem T} {w : Nat} (hw : w < m.wraps.length) (s : Sl) :
    (attachTo m w s).arrs = m.arrs ∧ (attachTo m w s).sl w = s ∧ (∀ v, v ≠ w → (attachTo m w s).sl v = m.sl v) ∧
    ((s.arr < m.arrs.length ∧ ∀ a, m.arrs[s.arr]? = some a → s.off + s.len ≤ a.length) → (attachTo m w s).Ok w) := by
  have e : (attachTo m w s).sl w = s := by simp [attachTo, Mem.sl, hw]
  refine ⟨rfl, e, fun v hv => ?_, fun ⟨h1, h2⟩ => ⟨by simpa [attachTo] using hw, by rw [e]; exact h1, by rw [e]; exact h2⟩⟩
  simp only [attachTo, Mem.sl]
  rw [List.getElem?_set, if_neg (Ne.symm hv)]

/-- **C108** `NewSliceWrapper` makes a wrapper that shows the elements its slice shows, copies none of them, and leaves the other wrappers as they are. -/
theorem C108_new (m : Mem T) (s : Sl) :
    (newWrapper m s).arrs = m.arrs ∧ (newWrapper m s).wraps.length = m.wraps.length + 1 ∧ (newWrapper m s).sl m.wraps.length = s ∧
    (∀ v, v < m.wraps.length → (newWrapper m s).sl v = m.sl v) ∧
    ((s.arr < m.arrs.length ∧ ∀ a, m.arrs[s.arr]? = some a → s.off + s.len ≤ a.length) → (newWrapper m s).Ok m.wraps.length) := by
  have e : (newWrapper m s).sl m.wraps.length = s := by simp [newWrapper, Mem.sl]
  refine ⟨rfl, by simp [newWrapper], e, fun v hv => ?_, fun ⟨h1, h2⟩ => ⟨by simp [newWrapper], by rw [e]; exact h1, by rw [e]; exact h2⟩⟩
  simp only [newWrapper, Mem.sl]
  rw [List.getElem?_append_left hv]

/-! ## Non-vacuity -/

/-- Two wrappers over overlapping parts of one array. -/
def twoWindows : Mem Int := ⟨[[7, 7], [5, 3, 4, 1, 2, 0]], [⟨1, 1, 4⟩, ⟨1, 0, 3⟩]⟩

theorem twoWindows_ok : twoWindows.Ok 0 := ⟨by decide, by decide, fun a e => by cases e; decide⟩

example : twoWindows.shown 0 = [3, 4, 1, 2] ∧ twoWindows.shown 1 = [5, 3, 4] := ⟨rfl, rfl⟩
example : run (wrapOps 0) (sort intCmp 0 4) twoWindows = .ok ((), ⟨[[7, 7], [5, 1, 2, 3, 4, 0]], [⟨1, 1, 4⟩, ⟨1, 0, 3⟩]⟩) := by rfl
/-- The other wrapper sees part of it. -/
example : (twoWindows.patched 0 [1, 2, 3, 4]).shown 1 = [5, 1, 2] := by rfl
example := C108_sort intCmp_lawful twoWindows_ok [] [3, 4, 1, 2] [] rfl
example : (newWrapper twoWindows ⟨1, 4, 2⟩).shown 2 = [2, 0] := rfl
example : (attachTo twoWindows 0 ⟨0, 0, 2⟩).shown 0 = [7, 7] := rfl

end GoSTL.SliceWindow
