import Verif.Array.Props
import Verif.Vector.Data
/-!
# `Array.Data`: the array's own storage

array.go:78-80 `Data` returns the internal slice. An array never reallocates, so the slice is the array's storage for good; only `SwapArray`, which exchanges the
storage of two arrays, parts them.
-/
namespace GoSTL.Arr
open GoSTL.GoSlice
open Vector (Within Fresh within_set write_within)

variable {T : Type} (zero : T)

/-! ## Model -/

/-- A program state with arrays and slices obtained from `Data`. -/
structure DWorld (T : Type) where
  mem : Mem T
  arrs : List Slice
  datas : List Slice

/-- Calls on arrays, `Data`, and the caller's own accesses `d[k]` and `d[k] = x` to the slices it was given. -/
inductive DCall (T : Type)
  | arr (c : Call T)
  | data (i : Nat)
  | get (d : Nat) (k : Int)
  | put (d : Nat) (k : Int) (x : T)

/-- One call or access. array.go:78-80 `Data`: the header itself is returned; nothing is copied. -/
def dstep (c : DCall T) (w : DWorld T) : Res (Out T × DWorld T) :=
  match c with
  | .arr c => do let (o, v) ← step zero c ⟨w.mem, w.arrs⟩; .ok (o, { w with mem := v.mem, arrs := v.arrs })
  | .data i => do let s ← Res.ofOption w.arrs[i]?; .ok (.unit, { w with datas := w.datas ++ [s] })
  | .get d k => do let s ← Res.ofOption w.datas[d]?; let x ← read w.mem s k; .ok (.val x, w)
  | .put d k x => do let s ← Res.ofOption w.datas[d]?; let m ← write w.mem s k x; .ok (.unit, { w with mem := m })

/-- A history. -/
def drun : List (DCall T) → DWorld T → Res (List (Out T) × DWorld T)
  | [], w => .ok ([], w)
  | c :: cs, w => do
    let (o, w) ← dstep zero c w
    let (os, w) ← drun cs w
    .ok (o :: os, w)

/-! ## Specification: arrays and slices are references to storages -/

/-- The contents of all storages, and the storage each array and each slice refers to. -/
structure RState (T : Type) where
  stores : List (List T)
  arrs : List Nat
  datas : List Nat

/-- The storage number `i` in `refs` refers to, and its contents. -/
def RState.look (st : RState T) (refs : List Nat) (i : Nat) : Res (Nat × List T) := do
  let a ← Res.ofOption refs[i]?
  let l ← Res.ofOption st.stores[a]?
  .ok (a, l)

/-- One call. -/
def dspec (c : DCall T) (st : RState T) : Res (Out T × RState T) :=
  match c with
  | .arr (.new n) =>
    if n < 0 then .panic else .ok (.unit, { st with stores := st.stores ++ [List.replicate n.toNat zero], arrs := st.arrs ++ [st.stores.length] })
  | .arr (.newFromArray i) => do
    let (_, l) ← st.look st.arrs i
    .ok (.unit, { st with stores := st.stores ++ [l], arrs := st.arrs ++ [st.stores.length] })
  | .arr (.fill i v) => do let (a, l) ← st.look st.arrs i; .ok (.unit, { st with stores := st.stores.set a (List.replicate l.length v) })
  | .arr (.set i p v) => do
    let (a, l) ← st.look st.arrs i
    .ok (.unit, if 0 ≤ p ∧ p < l.length then { st with stores := st.stores.set a (l.set p.toNat v) } else st)
  | .arr (.at i p) => do let (_, l) ← st.look st.arrs i; let x ← Res.ofOption (Seq.at? l p); .ok (.val x, st)
  | .arr (.front i) => do let (_, l) ← st.look st.arrs i; let x ← Res.ofOption l.head?; .ok (.val x, st)
  | .arr (.back i) => do let (_, l) ← st.look st.arrs i; let x ← Res.ofOption l.getLast?; .ok (.val x, st)
  | .arr (.size i) => do let (_, l) ← st.look st.arrs i; .ok (.int l.length, st)
  | .arr (.empty i) => do let (_, l) ← st.look st.arrs i; .ok (.bool l.isEmpty, st)
  | .arr (.swapArray i j) => do
    let (a, l) ← st.look st.arrs i
    let (b, k) ← st.look st.arrs j
    .ok (.unit, if l.length = k.length then { st with arrs := (st.arrs.set i b).set j a } else st)
  | .data i => do let (a, _) ← st.look st.arrs i; .ok (.unit, { st with datas := st.datas ++ [a] })
  | .get d k => do let (_, l) ← st.look st.datas d; let x ← Res.ofOption (Seq.at? l k); .ok (.val x, st)
  | .put d k x => do
    let (a, l) ← st.look st.datas d
    let _ ← Res.ofOption (Seq.at? l k)
    .ok (.unit, { st with stores := st.stores.set a (l.set k.toNat x) })

/-- A history. -/
def dspecRun : List (DCall T) → RState T → Res (List (Out T) × RState T)
  | [], st => .ok ([], st)
  | c :: cs, st => do
    let (o, st) ← dspec zero c st
    let (os, st) ← dspecRun cs st
    .ok (o :: os, st)

/-! ## Refinement -/
variable {zero}

/-- The header shows a whole backing array. -/
structure Full (m : Mem T) (s : Slice) : Prop where
  arr : s.arr < m.length
  off : s.off = 0
  len : s.len = (backing m s).length
  cap : s.cap = s.len

theorem Full.wf {m : Mem T} {s : Slice} (h : Full m s) : WF m s :=
  ⟨h.arr, by rw [h.off, h.cap, h.len]; omega, Nat.le_of_eq h.cap.symm⟩

theorem Full.contents {m : Mem T} {s : Slice} (h : Full m s) : contents m s = backing m s := by
  simp [GoSlice.contents, h.off, h.len]

theorem Full.get {m : Mem T} {s : Slice} (h : Full m s) : m[s.arr]? = some (GoSlice.contents m s) := by
  rw [h.contents]
  simp only [backing, List.getElem?_eq_getElem h.arr, Option.getD_some]

theorem Full.keep {m m' : Mem T} {s t : Slice} (h : Full m s) {l : List T} (hl : l.length = t.len) (ht : Full m t) (e : m' = m.set t.arr l) : Full m' s := by
  subst e
  refine ⟨by simpa using h.arr, h.off, ?_, h.cap⟩
  by_cases c : t.arr = s.arr
  · rw [c, backing_set_self h.arr, hl, h.len, ht.len]
    simp only [backing, c]
  · rw [backing_set_other c]; exact h.len

theorem mem_eq {m m' : Mem T} {s : Slice} (h : Full m s) (hw : WF m' s) (hi : Within m m' s.arr s.len) : m' = m.set s.arr (contents m' s) := by
  apply List.ext_getElem?
  intro j
  rw [List.getElem?_set]
  by_cases c : s.arr = j
  · subst c
    rw [if_pos rfl, if_pos h.arr]
    have hb : (backing m' s).length ≤ s.len := by
      rcases Nat.lt_or_ge s.len (backing m' s).length with hh | hh
      · have h1 := hi.cells s.len (Nat.le_refl _)
        have h2 : (backing m s)[s.len]? = none := List.getElem?_eq_none (by have := h.len; omega)
        have h3 : (backing m' s)[s.len]? = none := h1.trans h2
        rw [List.getElem?_eq_none_iff] at h3; omega
      · exact hh
    have : contents m' s = backing m' s := by
      simp only [contents, h.off, List.drop_zero]; rw [List.take_of_length_le hb]
    rw [this]
    have ha : s.arr < m'.length := by rw [hi.length]; exact h.arr
    simp only [backing, List.getElem?_eq_getElem ha, Option.getD_some]
  · rw [if_neg c]; exact hi.others j (fun e => c e.symm)

theorem fillLoop_within {s : Slice} (h0 : s.off = 0) {v : T} : ∀ (n : Nat) {m m' : Mem T} {i : Int}, fillLoop s v n i m = .ok m' → Within m m' s.arr s.len := by
  intro n
  induction n with
  | zero => intro m m' i e; cases e; exact .refl _ _ _
  | succ n ih =>
    intro m m' i e
    simp only [fillLoop] at e
    rw [Res.bind_eq_ok] at e; obtain ⟨m1, e1, e⟩ := e
    exact (write_within h0 e1).trans (ih e)

theorem copyLoop_within {src dst : Slice} (h0 : dst.off = 0) : ∀ (n : Nat) {m m' : Mem T} {i : Int}, Vector.copyLoop src dst n i m = .ok m' →
    Within m m' dst.arr dst.len := by
  intro n
  induction n with
  | zero => intro m m' i e; cases e; exact .refl _ _ _
  | succ n ih =>
    intro m m' i e
    simp only [Vector.copyLoop] at e
    rw [Res.bind_eq_ok] at e; obtain ⟨x, -, e⟩ := e
    rw [Res.bind_eq_ok] at e; obtain ⟨m1, e1, e⟩ := e
    exact (write_within h0 e1).trans (ih e)

/-- All headers show whole arrays. -/
structure DInv (w : DWorld T) : Prop where
  arrs : ∀ s ∈ w.arrs, Full w.mem s
  datas : ∀ s ∈ w.datas, Full w.mem s

/-- What the program can see of a state. -/
def view (w : DWorld T) : RState T := ⟨w.mem, w.arrs.map (·.arr), w.datas.map (·.arr)⟩

theorem look_arr {w : DWorld T} (h : DInv w) (i : Nat) :
    (view w).look (view w).arrs i = match w.arrs[i]? with | none => .panic | some s => .ok (s.arr, contents w.mem s) := by
  simp only [RState.look, view, List.getElem?_map]
  cases hi : w.arrs[i]? with
  | none => rfl
  | some s =>
    have := (h.arrs s (List.mem_of_getElem? hi)).get
    simp [this]

theorem look_data {w : DWorld T} (h : DInv w) (i : Nat) :
    (view w).look (view w).datas i = match w.datas[i]? with | none => .panic | some s => .ok (s.arr, contents w.mem s) := by
  simp only [RState.look, view, List.getElem?_map]
  cases hi : w.datas[i]? with
  | none => rfl
  | some s =>
    have := (h.datas s (List.mem_of_getElem? hi)).get
    simp [this]

/-- The model step agrees with the specification step. -/
def DRef (r : Res (Out T × DWorld T)) (q : Res (Out T × RState T)) : Prop :=
  match q with
  | .ok (o, st) => ∃ w', r = .ok (o, w') ∧ DInv w' ∧ view w' = st
  | .panic => r = .panic
  | .outOfFuel => False

theorem DInv.write {w : DWorld T} (h : DInv w) {m' : Mem T} {t : Slice} (ht : Full w.mem t) {l : List T} (hl : l.length = t.len) (e : m' = w.mem.set t.arr l) :
    DInv { w with mem := m' } ∧ view { w with mem := m' } = { view w with stores := w.mem.set t.arr l } :=
  ⟨⟨fun s hs => (h.arrs s hs).keep hl ht e, fun s hs => (h.datas s hs).keep hl ht e⟩, by rw [e]; rfl⟩

theorem DInv.alloc {w : DWorld T} (h : DInv w) {l : List T} {s' : Slice} (hs : s' = ⟨w.mem.length, 0, l.length, l.length⟩) :
    DInv { w with mem := w.mem ++ [l], arrs := w.arrs ++ [s'] } ∧
    view { w with mem := w.mem ++ [l], arrs := w.arrs ++ [s'] } =
      { view w with stores := (view w).stores ++ [l], arrs := (view w).arrs ++ [(view w).stores.length] } := by
  have old : ∀ s, Full w.mem s → Full (w.mem ++ [l]) s := fun s hs =>
    ⟨by have := hs.arr; simp; omega, hs.off, by rw [backing_push hs.arr]; exact hs.len, hs.cap⟩
  refine ⟨⟨?_, fun s hs => old s (h.datas s hs)⟩, by simp [view, hs]⟩
  intro s hm
  rcases List.mem_append.1 hm with hm | hm
  · exact old s (h.arrs s hm)
  · obtain rfl := List.mem_singleton.1 hm
    subst hs
    exact ⟨by simp, rfl, by simp [backing], rfl⟩

/-- `Set` and the caller's own assignment. -/
theorem write_full {m : Mem T} {s : Slice} (h : Full m s) {k : Int} (h0 : 0 ≤ k) (h1 : k < s.len) (x : T) :
    write m s k x = .ok (m.set s.arr ((contents m s).set k.toNat x)) := by
  unfold write
  rw [if_pos ⟨h0, h1⟩, h.contents, h.off, Nat.zero_add]

theorem dstep_refines {w : DWorld T} (h : DInv w) (c : DCall T) : DRef (dstep zero c w) (dspec zero c (view w)) := by
  cases c with
  | arr c =>
    cases c with
    | new n =>
      simp only [dstep, step, dspec, new, make]
      by_cases c : n < 0
      · rw [if_pos c, if_neg (by omega)]; rfl
      · rw [if_neg c, if_pos (by omega)]
        obtain ⟨h1, h2⟩ := h.alloc (l := List.replicate n.toNat zero) (s' := ⟨w.mem.length, 0, n.toNat, n.toNat⟩) (by simp)
        exact ⟨_, rfl, h1, h2⟩
    | newFromArray i =>
      simp only [dstep, step, dspec, hdr, look_arr h]
      cases hi : w.arrs[i]? with
      | none => rfl
      | some s =>
        have hF := h.arrs s (List.mem_of_getElem? hi)
        have hl := hF.wf.contents_length
        obtain ⟨m1, s1, e1, w1, c1, a1, l1, k1, o1, f1, ln⟩ := make_spec zero w.mem (len := s.len) (cap := s.len) (by omega) (by omega)
        obtain ⟨m2, s2, e2, w2, c2, f2, a2, k2, l2⟩ := Vector.fresh_copy (zero := zero) hF.wf (cap := s.len) (by omega)
        have e3 := e2
        rw [e1, Res.ok_bind] at e3
        simp only at e3
        rw [Res.bind_eq_ok] at e3; obtain ⟨m3, e3, e4⟩ := e3
        cases e4
        have e1' : m1 = w.mem ++ [List.replicate s.len zero] := by
          have := e1
          simp only [make] at this
          rw [if_pos (by omega)] at this
          cases this; simp
        have hF1 : Full m1 s1 := ⟨w1.arr, o1, by simp [backing, e1', a1, l1], by rw [k1, l1]⟩
        have hW := mem_eq hF1 w2 (copyLoop_within o1 _ e3)
        have hs1 : s1 = ⟨w.mem.length, 0, s.len, s.len⟩ := by
          cases s1; simp only at a1 l1 k1 o1; subst a1 l1 k1 o1; simp
        have hm : m2 = w.mem ++ [contents w.mem s] := by
          rw [hW, c2, e1', a1]
          simp
        subst hm
        obtain ⟨h1, h2⟩ := h.alloc (l := contents w.mem s) (s' := s1) (by rw [hs1, hl])
        refine ⟨_, ?_, h1, h2⟩
        simp only [Res.ofOption_some, Res.ok_bind, newFromArray]
        rw [e2]; rfl
    | fill i v =>
      simp only [dstep, step, dspec, hdr, look_arr h]
      cases hi : w.arrs[i]? with
      | none => rfl
      | some s =>
        have hF := h.arrs s (List.mem_of_getElem? hi)
        have hl := hF.wf.contents_length
        obtain ⟨m', e, w1, c1, f1⟩ := fillLoop_spec v s.len 0 w.mem hF.wf (by omega)
        have e' : fillLoop s v s.len 0 w.mem = .ok m' := by exact_mod_cast e
        have hm := mem_eq hF w1 (fillLoop_within hF.off _ e')
        rw [c1] at hm
        simp only [List.take_zero, List.nil_append] at hm
        obtain ⟨h1, h2⟩ := h.write hF (l := List.replicate s.len v) (by simp) hm
        refine ⟨_, by simp only [Res.ofOption_some, Res.ok_bind, fill]; rw [e']; rfl, h1, ?_⟩
        rw [h2, hl]; rfl
    | set i p v =>
      simp only [dstep, step, dspec, hdr, look_arr h]
      cases hi : w.arrs[i]? with
      | none => rfl
      | some s =>
        have hF := h.arrs s (List.mem_of_getElem? hi)
        have hl := hF.wf.contents_length
        simp only [Res.ofOption_some, Res.ok_bind, set, hl]
        by_cases c : 0 ≤ p ∧ p < s.len
        · rw [if_neg (by omega), if_pos c, write_full hF c.1 c.2]
          obtain ⟨h1, h2⟩ := h.write hF (l := (contents w.mem s).set p.toNat v) (by simpa using hl) rfl
          exact ⟨_, rfl, h1, h2⟩
        · rw [if_pos (by omega), if_neg c]
          exact ⟨_, rfl, h, rfl⟩
    | «at» i p =>
      simp only [dstep, step, dspec, hdr, look_arr h]
      cases hi : w.arrs[i]? with
      | none => rfl
      | some s =>
        have hF := h.arrs s (List.mem_of_getElem? hi)
        simp only [Res.ofOption_some, Res.ok_bind, at_spec hF.wf]
        cases Seq.at? (contents w.mem s) p with
        | none => rfl
        | some x => exact ⟨_, rfl, h, rfl⟩
    | front i =>
      simp only [dstep, step, dspec, hdr, look_arr h]
      cases hi : w.arrs[i]? with
      | none => rfl
      | some s =>
        have hF := h.arrs s (List.mem_of_getElem? hi)
        have : Seq.at? (contents w.mem s) 0 = (contents w.mem s).head? := by simp [Seq.at?, List.head?_eq_getElem?]
        simp only [Res.ofOption_some, Res.ok_bind, front, at_spec hF.wf, this]
        cases (contents w.mem s).head? with
        | none => rfl
        | some x => exact ⟨_, rfl, h, rfl⟩
    | back i =>
      simp only [dstep, step, dspec, hdr, look_arr h]
      cases hi : w.arrs[i]? with
      | none => rfl
      | some s =>
        have hF := h.arrs s (List.mem_of_getElem? hi)
        have hl := hF.wf.contents_length
        have : back w.mem s = Res.ofOption (contents w.mem s).getLast? := Vector.back_spec hF.wf
        simp only [Res.ofOption_some, Res.ok_bind, this]
        cases (contents w.mem s).getLast? with
        | none => rfl
        | some x => exact ⟨_, rfl, h, rfl⟩
    | size i =>
      simp only [dstep, step, dspec, hdr, look_arr h]
      cases hi : w.arrs[i]? with
      | none => rfl
      | some s =>
        have hl := (h.arrs s (List.mem_of_getElem? hi)).wf.contents_length
        exact ⟨w, by simp [hl], h, rfl⟩
    | empty i =>
      simp only [dstep, step, dspec, hdr, look_arr h]
      cases hi : w.arrs[i]? with
      | none => rfl
      | some s =>
        have hl := (h.arrs s (List.mem_of_getElem? hi)).wf.contents_length
        refine ⟨w, ?_, h, rfl⟩
        simp only [Res.ofOption_some, Res.ok_bind, empty, ← hl]
        cases contents w.mem s <;> simp
    | swapArray i j =>
      simp only [dstep, step, dspec, hdr, look_arr h]
      cases hi : w.arrs[i]? with
      | none => rfl
      | some s =>
        cases hj : w.arrs[j]? with
        | none => rfl
        | some t =>
          have h1 := h.arrs s (List.mem_of_getElem? hi)
          have h2 := h.arrs t (List.mem_of_getElem? hj)
          have l1 := h1.wf.contents_length
          have l2 := h2.wf.contents_length
          simp only [Res.ofOption_some, Res.ok_bind, l1, l2]
          by_cases c : s.len = t.len
          · rw [if_neg (by simp [size, c]), if_pos c]
            refine ⟨_, rfl, ⟨?_, h.datas⟩, by simp [view, List.map_set]⟩
            intro u hu
            rcases List.mem_or_eq_of_mem_set hu with hu | rfl
            · rcases List.mem_or_eq_of_mem_set hu with hu | rfl
              · exact h.arrs u hu
              · exact h2
            · exact h1
          · rw [if_pos (by unfold size; omega), if_neg c]
            exact ⟨_, rfl, h, rfl⟩
  | data i =>
    simp only [dstep, dspec, look_arr h]
    cases hi : w.arrs[i]? with
    | none => rfl
    | some s =>
      refine ⟨_, rfl, ⟨h.arrs, ?_⟩, by simp [view]⟩
      intro t ht
      rcases List.mem_append.1 ht with ht | ht
      · exact h.datas t ht
      · obtain rfl := List.mem_singleton.1 ht
        exact h.arrs _ (List.mem_of_getElem? hi)
  | get d k =>
    simp only [dstep, dspec, look_data h]
    cases hd : w.datas[d]? with
    | none => rfl
    | some s =>
      have hF := h.datas s (List.mem_of_getElem? hd)
      simp only [Res.ofOption_some, Res.ok_bind, read_eq hF.wf]
      cases Seq.at? (contents w.mem s) k with
      | none => rfl
      | some x => exact ⟨w, rfl, h, rfl⟩
  | put d k x =>
    simp only [dstep, dspec, look_data h]
    cases hd : w.datas[d]? with
    | none => rfl
    | some s =>
      have hF := h.datas s (List.mem_of_getElem? hd)
      have hl := hF.wf.contents_length
      simp only [Res.ofOption_some, Res.ok_bind]
      cases hx : Seq.at? (contents w.mem s) k with
      | none =>
        have : ¬ (0 ≤ k ∧ k < s.len) := by
          intro hc
          obtain ⟨y, hy⟩ := Vector.at?_isSome.2 (hl.symm ▸ hc : 0 ≤ k ∧ k < (contents w.mem s).length)
          rw [hx] at hy; cases hy
        have e : write w.mem s k x = .panic := if_neg this
        rw [e]; rfl
      | some y =>
        have hk := Vector.at?_isSome.1 ⟨y, hx⟩
        rw [hl] at hk
        rw [write_full hF hk.1 hk.2]
        obtain ⟨h1, h2⟩ := h.write hF (l := (contents w.mem s).set k.toNat x) (by simpa using hl) rfl
        exact ⟨_, rfl, h1, h2⟩

theorem drun_refines (cs : List (DCall T)) : ∀ {w : DWorld T}, DInv w →
    match dspecRun zero cs (view w) with
    | .ok (os, st) => ∃ w', drun zero cs w = .ok (os, w') ∧ DInv w' ∧ view w' = st
    | .panic => drun zero cs w = .panic
    | .outOfFuel => False := by
  induction cs with
  | nil => intro w h; exact ⟨w, rfl, h, rfl⟩
  | cons c cs ih =>
    intro w h
    have hr := dstep_refines (zero := zero) h c
    simp only [dspecRun, drun]
    cases hs : dspec zero c (view w) with
    | panic => rw [hs] at hr; simp only [DRef] at hr; rw [hr]; rfl
    | outOfFuel => rw [hs] at hr; exact hr.elim
    | ok r =>
      obtain ⟨o, st⟩ := r
      rw [hs] at hr
      obtain ⟨w1, e1, h1, rfl⟩ := hr
      rw [e1]
      simp only [Res.ok_bind]
      have := ih h1
      cases hs2 : dspecRun zero cs (view w1) with
      | panic => rw [hs2] at this; simp only at this; rw [this]; rfl
      | outOfFuel => rw [hs2] at this; exact this.elim
      | ok r2 =>
        obtain ⟨os, st2⟩ := r2
        rw [hs2] at this
        obtain ⟨w2, e2, h2, h3⟩ := this
        exact ⟨w2, by rw [e2]; rfl, h2, h3⟩

/-- **C68** for arrays. For every history of calls on any number of arrays, with `Data` taken at any time and read and written by the caller: every result, the
contents of all storages, and the storage each array and each slice refers to are those of the specification. -/
theorem C68_array_data (zero : T) (cs : List (DCall T)) :
    match dspecRun zero cs ⟨[], [], []⟩ with
    | .ok (os, st) => ∃ w, drun zero cs ⟨[], [], []⟩ = .ok (os, w) ∧ view w = st
    | .panic => drun zero cs ⟨[], [], []⟩ = .panic
    | .outOfFuel => False := by
  have h := drun_refines (zero := zero) cs (w := ⟨[], [], []⟩) ⟨by simp, by simp⟩
  have e : view (⟨[], [], []⟩ : DWorld T) = ⟨[], [], []⟩ := rfl
  rw [e] at h
  cases hs : dspecRun zero cs (⟨[], [], []⟩ : RState T) with
  | ok r => rw [hs] at h; obtain ⟨w, h1, -, h3⟩ := h; exact ⟨w, h1, h3⟩
  | panic => rw [hs] at h; exact h
  | outOfFuel => rw [hs] at h; exact h

/-- Two arrays, a slice of the first, a swap, and writes through the array and the slice: the slice follows the storage, not the array. -/
def ddemo : List (DCall Nat) :=
  [.arr (.new 2), .arr (.new 2), .data 0, .put 0 1 5, .arr (.at 0 1), .arr (.swapArray 0 1), .arr (.set 0 0 9), .get 0 0, .arr (.fill 1 4), .get 0 0, .arr (.newFromArray 1)]

example : ∃ os st, dspecRun 0 ddemo ⟨[], [], []⟩ = .ok (os, st) ∧ st = ⟨[[4, 4], [9, 0], [4, 4]], [1, 0, 2], [0]⟩ ∧
    os = [.unit, .unit, .unit, .unit, .val 5, .unit, .unit, .val 0, .unit, .val 4, .unit] := ⟨_, _, rfl, rfl, rfl⟩

/-- `C68_array_data` on that program: the arrays and the `Data()` slices end as the reference predicts. -/
example : ∃ os w, drun 0 ddemo ⟨[], [], []⟩ = .ok (os, w) ∧ view w = ⟨[[4, 4], [9, 0], [4, 4]], [1, 0, 2], [0]⟩ := by
  have h := C68_array_data 0 ddemo
  have e : ∃ os st, dspecRun 0 ddemo ⟨[], [], []⟩ = .ok (os, st) ∧ st = ⟨[[4, 4], [9, 0], [4, 4]], [1, 0, 2], [0]⟩ := ⟨_, _, rfl, rfl⟩
  obtain ⟨os, st, e, e1⟩ := e
  rw [e] at h
  obtain ⟨w, h1, h2⟩ := h
  exact ⟨os, w, h1, by rw [h2, e1]⟩

end GoSTL.Arr
