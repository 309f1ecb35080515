import Verif.Array.Model
import Verif.Seq.Iter
/-!
# C15: arrays have a fixed size and independent copies
-/
namespace GoSTL.Arr
open GoSTL.GoSlice
open Vector (Done WInv)

variable {T : Type} {zero : T}

/-- The sequences the arrays show. -/
def shows (w : World T) : List (List T) := w.arrs.map (contents w.mem)

/-- Well-formed headers into pairwise different backing arrays. -/
def Inv (w : World T) : Prop := Vector.WInv ({ mem := w.mem, vecs := w.arrs } : Vector.World T)

theorem shows_get (w : World T) (i : Nat) : (shows w)[i]? = (w.arrs[i]?).map (contents w.mem) := by simp [shows]

theorem fillLoop_spec {s : Slice} (v : T) : ∀ (n i : Nat) (m : Mem T), WF m s → i + n = s.len →
    ∃ m', fillLoop s v n i m = .ok m' ∧ WF m' s ∧ contents m' s = (contents m s).take i ++ List.replicate n v ∧
      Frame m m' s.arr := by
  intro n
  induction n with
  | zero =>
    intro i m h hi
    refine ⟨m, rfl, h, ?_, .refl _ _⟩
    have := h.contents_length
    rw [List.take_of_length_le (by omega)]; simp
  | succ n ih =>
    intro i m h hi
    unfold fillLoop
    obtain ⟨m1, e1, w1, c1, f1, -⟩ := write_spec h (i := i) (by omega) (by omega) v
    rw [e1]
    simp only [Res.ok_bind]
    obtain ⟨m2, e2, w2, c2, f2⟩ := ih (i + 1) m1 w1 (by omega)
    refine ⟨m2, by exact_mod_cast e2, w2, ?_, f1.trans f2⟩
    have hl := h.contents_length
    rw [c2, c1, Int.toNat_natCast, List.take_add_one, List.take_set_of_le (Nat.le_refl _),
      List.getElem?_set_self (by omega)]
    simp [List.replicate_succ]

theorem at_spec {m : Mem T} {s : Slice} (h : WF m s) (p : Int) : at_ m s p = Res.ofOption (Seq.at? (contents m s) p) :=
  Vector.at_spec h p

theorem set_spec {m : Mem T} {s : Slice} (h : WF m s) (p : Int) (v : T) :
    ∃ m', set m s p v = .ok m' ∧
      Done m s m' s (if 0 ≤ p ∧ p < (contents m s).length then (contents m s).set p.toNat v else contents m s) := by
  have hl := h.contents_length
  by_cases hc : 0 ≤ p ∧ p < s.len
  · have e0 : set m s p v = write m s p v := if_neg (by omega)
    obtain ⟨m', e1, w1, c1, f1, -⟩ := write_spec h hc.1 hc.2 v
    exact ⟨m', by rw [e0, e1], w1, by rw [if_pos (by omega)]; exact c1, f1, .inl rfl⟩
  · have e0 : set m s p v = .ok m := if_pos (by omega)
    refine ⟨m, e0, ?_⟩
    rw [if_neg (by omega)]
    exact .same h

theorem set_self {w : World T} {i : Nat} {s : Slice} (h : w.arrs[i]? = some s) : w.arrs.set i s = w.arrs := by
  apply List.ext_getElem?
  intro j
  rw [List.getElem?_set]
  split
  · next c =>
    subst c; rw [h]; split
    · rfl
    · next c => rw [List.getElem?_eq_none (by omega)] at h; cases h
  · rfl

/-- What it means that a call does what the specification says. -/
def Refines (r : Res (Out T × World T)) (sp : Res (Out T × List (List T))) : Prop :=
  match sp with
  | .ok (o, ls) => ∃ w', r = .ok (o, w') ∧ Inv w' ∧ shows w' = ls
  | .panic => r = .panic
  | .outOfFuel => False

theorem mem_update {w : World T} (h : Inv w) {i : Nat} {s : Slice} (hi : w.arrs[i]? = some s) {m' : Mem T} {l' : List T}
    (d : Done w.mem s m' s l') : Inv { w with mem := m' } ∧ shows { w with mem := m' } = (shows w).set i l' := by
  obtain ⟨a, b⟩ := Vector.WInv.update (w := ⟨w.mem, w.arrs⟩) h hi d
  simp only [set_self hi] at a b
  exact ⟨a, b⟩

theorem step_refines {w : World T} (h : Inv w) (c : Call T) : Refines (step zero c w) (specStep zero c (shows w)) := by
  cases c with
  | new n =>
    simp only [specStep]
    by_cases c : n < 0
    · rw [if_pos c]
      simp only [step, new, make, Refines]
      rw [if_neg (by omega)]; rfl
    · rw [if_neg c]
      obtain ⟨m', s', e, w1, c1, a1, -, -, -, f1, -⟩ := make_spec zero w.mem (len := n) (cap := n) (by omega) (by omega)
      obtain ⟨h1, h2⟩ := Vector.WInv.push (w := ⟨w.mem, w.arrs⟩) h f1 w1 c1 (by simp only; omega)
      exact ⟨⟨m', w.arrs ++ [s']⟩, by simp only [step, new, e]; rfl, h1, h2⟩
  | newFromArray i =>
    simp only [specStep, step, hdr, shows_get]
    cases hi : w.arrs[i]? with
    | none => rfl
    | some o =>
      have ho := h.wf i o hi
      obtain ⟨m', s', e1, w1, k1, f1, a1, -⟩ := Vector.fresh_copy (zero := zero) ho (cap := o.len) (by omega)
      obtain ⟨h1, h2⟩ := Vector.WInv.push (w := ⟨w.mem, w.arrs⟩) h f1 w1 k1 (by simp only; simp only at a1; omega)
      refine ⟨⟨m', w.arrs ++ [s']⟩, ?_, h1, h2⟩
      simp only [Res.ofOption_some, Res.ok_bind, newFromArray]
      simp only at e1
      rw [e1]; rfl
  | fill i v =>
    simp only [specStep, step, hdr, shows_get]
    cases hi : w.arrs[i]? with
    | none => rfl
    | some s =>
      have hs := h.wf i s hi
      obtain ⟨m', e, w1, c1, f1⟩ := fillLoop_spec v s.len 0 w.mem hs (by omega)
      obtain ⟨h1, h2⟩ := mem_update h hi ⟨w1, c1, f1, .inl rfl⟩
      refine ⟨_, ?_, h1, ?_⟩
      · simp only [Res.ofOption_some, Res.ok_bind, fill]
        have e' : fillLoop s v s.len 0 w.mem = .ok m' := by exact_mod_cast e
        rw [e']; rfl
      · rw [h2]; have := hs.contents_length; simp only at this; simp [this]
  | set i p v =>
    simp only [specStep, step, hdr, shows_get]
    cases hi : w.arrs[i]? with
    | none => rfl
    | some s =>
      have hs := h.wf i s hi
      obtain ⟨m', e, d⟩ := set_spec hs p v
      obtain ⟨h1, h2⟩ := mem_update h hi d
      refine ⟨_, by simp only [Res.ofOption_some, Res.ok_bind]; simp only at e; rw [e]; rfl, h1, ?_⟩
      rw [h2]
      simp only
      split
      · rfl
      · have hi' : (shows w)[i]? = some (contents w.mem s) := by rw [shows_get, hi]; rfl
        apply List.ext_getElem?
        intro j
        rw [List.getElem?_set]
        split
        · next c =>
          subst c; rw [hi']; split
          · rfl
          · next c => rw [List.getElem?_eq_none (by omega)] at hi'; cases hi'
        · rfl
  | «at» i p =>
    simp only [specStep, step, hdr, shows_get]
    cases hi : w.arrs[i]? with
    | none => rfl
    | some s =>
      have hs := h.wf i s hi
      simp only at hs
      simp only [Res.ofOption_some, Res.ok_bind, Option.map_some, at_spec hs, Seq.at?]
      by_cases c : 0 ≤ p
      · simp only [c, if_true]
        cases hx : (contents w.mem s)[p.toNat]? with
        | none => rfl
        | some x => exact ⟨w, rfl, h, rfl⟩
      · simp only [c, if_false]; rfl
  | front i =>
    simp only [specStep, step, hdr, shows_get]
    cases hi : w.arrs[i]? with
    | none => rfl
    | some s =>
      have hs := h.wf i s hi
      simp only at hs
      simp only [Res.ofOption_some, Res.ok_bind, Option.map_some, front, at_spec hs, Seq.at?, List.head?_eq_getElem?]
      cases hx : (contents w.mem s)[0]? with
      | none => simp [Refines, hx]
      | some x => exact ⟨w, by simp [hx], h, rfl⟩
  | back i =>
    simp only [specStep, step, hdr, shows_get]
    cases hi : w.arrs[i]? with
    | none => rfl
    | some s =>
      have hs := h.wf i s hi
      simp only at hs
      have hl := hs.contents_length
      simp only [Res.ofOption_some, Res.ok_bind, Option.map_some, back, at_spec hs, Seq.at?, List.getLast?_eq_getElem?, hl]
      by_cases c : s.len = 0
      · have : contents w.mem s = [] := List.length_eq_zero_iff.1 (by omega)
        simp [Refines, this, c]
      · rw [if_pos (by omega)]
        have e : ((s.len : Int) - 1).toNat = s.len - 1 := by omega
        rw [e]
        cases hx : (contents w.mem s)[s.len - 1]? with
        | none => rfl
        | some x => exact ⟨w, rfl, h, rfl⟩
  | size i =>
    simp only [specStep, step, hdr, shows_get]
    cases hi : w.arrs[i]? with
    | none => rfl
    | some s =>
      have hs := (h.wf i s hi).contents_length
      simp only at hs
      exact ⟨w, by simp [hs], h, rfl⟩
  | empty i =>
    simp only [specStep, step, hdr, shows_get]
    cases hi : w.arrs[i]? with
    | none => rfl
    | some s =>
      have hs := (h.wf i s hi).contents_length
      simp only at hs
      refine ⟨w, ?_, h, rfl⟩
      simp only [Option.map_some, Res.ofOption_some, Res.ok_bind, empty, ← hs]
      cases contents w.mem s <;> simp
  | swapArray i j =>
    simp only [specStep, step, hdr, shows_get]
    cases hi : w.arrs[i]? with
    | none => rfl
    | some s =>
      cases hj : w.arrs[j]? with
      | none => rfl
      | some t =>
        have l1 := (h.wf i s hi).contents_length
        have l2 := (h.wf j t hj).contents_length
        simp only at l1 l2
        simp only [Res.ofOption_some, Res.ok_bind, Option.map_some, l1, l2]
        have hil : i < w.arrs.length := by
          rcases Nat.lt_or_ge i w.arrs.length with h | h
          · exact h
          · rw [List.getElem?_eq_none h] at hi; cases hi
        have hjl : j < w.arrs.length := by
          rcases Nat.lt_or_ge j w.arrs.length with h | h
          · exact h
          · rw [List.getElem?_eq_none h] at hj; cases hj
        by_cases c : s.len = t.len
        · rw [if_neg (by simp [size, c]), if_pos c]
          refine ⟨_, rfl, ?_, ?_⟩
          · -- the new headers are the old ones, permuted
            have key : ∀ k, ((w.arrs.set i t).set j s)[k]? = if k = j then some s else if k = i then some t else w.arrs[k]? := by
              intro k
              rw [List.getElem?_set, List.getElem?_set]
              by_cases c1 : j = k
              · subst c1; simp [hjl]
              · by_cases c2 : i = k
                · subst c2; simp [c1, Ne.symm c1, hil]
                · simp [c1, c2, Ne.symm c1, Ne.symm c2]
            -- position k holds the old header number σ k
            have σ : ∀ k u, ((w.arrs.set i t).set j s)[k]? = some u →
                w.arrs[if k = j then i else if k = i then j else k]? = some u := by
              intro k u hu
              rw [key] at hu
              by_cases c1 : k = j
              · simp only [c1, if_true] at hu ⊢; rw [hi, hu]
              · by_cases c2 : k = i
                · simp only [c2, if_true] at hu ⊢
                  by_cases c3 : i = j
                  · exact absurd (c2.trans c3) c1
                  · simp only [c3, if_false] at hu ⊢; rw [hj, hu]
                · simp only [c1, c2, if_false] at hu ⊢; exact hu
            refine ⟨fun k u hu => h.wf _ u (σ k u hu), fun k k' u u' hk hu hu' => h.disj _ _ u u' ?_ (σ k u hu) (σ k' u' hu')⟩
            split <;> split <;> (try split) <;> (try split) <;> omega
          · simp [shows, List.map_set]
        · rw [if_pos (by unfold size; omega), if_neg c]
          exact ⟨w, rfl, h, rfl⟩

theorem run_refines (cs : List (Call T)) : ∀ {w : World T}, Inv w →
    match specRun zero cs (shows w) with
    | .ok (os, ls) => ∃ w', run zero cs w = .ok (os, w') ∧ Inv w' ∧ shows w' = ls
    | .panic => run zero cs w = .panic
    | .outOfFuel => False := by
  induction cs with
  | nil => intro w h; exact ⟨w, rfl, h, rfl⟩
  | cons c cs ih =>
    intro w h
    have h1 := step_refines (zero := zero) h c
    simp only [specRun, run]
    cases hs : specStep zero c (shows w) with
    | ok r =>
      obtain ⟨o, ls⟩ := r
      rw [hs] at h1
      obtain ⟨w', e, i1, i2⟩ := h1
      have h2 := ih i1
      rw [i2] at h2
      simp only [e, Res.ok_bind]
      cases hs2 : specRun zero cs ls with
      | ok r2 =>
        obtain ⟨os, ls2⟩ := r2
        rw [hs2] at h2
        obtain ⟨w2, e2, j1, j2⟩ := h2
        exact ⟨w2, by rw [e2]; rfl, j1, j2⟩
      | panic => rw [hs2] at h2; rw [h2]; rfl
      | outOfFuel => rw [hs2] at h2; exact h2.elim
    | panic => rw [hs] at h1; simp only [Refines] at h1; rw [h1]; rfl
    | outOfFuel => rw [hs] at h1; exact h1.elim

/-- The program state before any call. -/
def start : World T := { mem := [], arrs := [] }

theorem start_inv : Inv (start : World T) := ⟨fun i s h => by simp [start] at h, fun i j s t _ h => by simp [start] at h⟩

/-- **C15** For every history of calls on any number of arrays the results and contents are those of independent plain
sequences: copies share nothing, `SwapArray` exchanges contents exactly when the sizes agree, and a call panics exactly when the specification says so. -/
theorem C15_array_is_sequence (zero : T) (cs : List (Call T)) :
    match specRun zero cs [] with
    | .ok (os, ls) => ∃ w, run zero cs start = .ok (os, w) ∧ shows w = ls
    | .panic => run zero cs start = .panic
    | .outOfFuel => False := by
  have h := run_refines (zero := zero) cs start_inv
  have e : shows (start : World T) = [] := rfl
  rw [e] at h
  cases hs : specRun zero cs [] with
  | ok r => rw [hs] at h; obtain ⟨w, h1, -, h2⟩ := h; exact ⟨w, h1, h2⟩
  | panic => rw [hs] at h; exact h
  | outOfFuel => rw [hs] at h; exact h

/-- States reached by some history. -/
def Reachable (zero : T) (w : World T) : Prop := ∃ cs os, run zero cs start = .ok (os, w)

theorem Reachable.inv {w : World T} (h : Reachable zero w) : Inv w := by
  obtain ⟨cs, os, e⟩ := h
  have h := run_refines (zero := zero) cs start_inv
  cases hs : specRun zero cs (shows (start : World T)) with
  | ok r =>
    rw [hs] at h; obtain ⟨w', h1, h2, -⟩ := h
    rw [e] at h1; cases h1; exact h2
  | panic => rw [hs] at h; simp only at h; rw [e] at h; cases h
  | outOfFuel => rw [hs] at h; exact h.elim

theorem specStep_size {c : Call T} {ls ls' : List (List T)} {o : Out T} (e : specStep zero c ls = .ok (o, ls')) (i : Nat)
    (l : List T) (hl : ls[i]? = some l) : ∃ l', ls'[i]? = some l' ∧ l'.length = l.length := by
  have hil : i < ls.length := by
    rcases Nat.lt_or_ge i ls.length with h | h
    · exact h
    · rw [List.getElem?_eq_none h] at hl; cases hl
  have hset : ∀ (k : Nat) (a b : List T), ls[k]? = some a → b.length = a.length →
      ∃ l', (ls.set k b)[i]? = some l' ∧ l'.length = l.length := by
    intro k a b ha hb
    rw [List.getElem?_set]
    by_cases c : k = i
    · subst c; simp only [if_true, hil]; rw [hl] at ha; cases ha; exact ⟨b, rfl, hb⟩
    · simp only [c, if_false]; exact ⟨l, hl, rfl⟩
  cases c <;> simp only [specStep] at e
  case new n => split at e
                · cases e
                · cases e; exact ⟨l, by rw [List.getElem?_append_left hil]; exact hl, rfl⟩
  case newFromArray k =>
    rw [Res.bind_eq_ok] at e; obtain ⟨a, ha, e⟩ := e; cases e
    exact ⟨l, by rw [List.getElem?_append_left hil]; exact hl, rfl⟩
  case fill k v =>
    cases hk : ls[k]? with
    | none => rw [hk] at e; cases e
    | some a => rw [hk] at e; cases e; exact hset k a _ hk (by simp)
  case set k p v =>
    cases hk : ls[k]? with
    | none => rw [hk] at e; cases e
    | some a =>
      rw [hk] at e; cases e
      split
      · exact hset k a _ hk (by simp)
      · exact ⟨l, hl, rfl⟩
  case swapArray k j =>
    cases hk : ls[k]? with
    | none => rw [hk] at e; cases e
    | some a =>
      cases hj : ls[j]? with
      | none => rw [hk, hj] at e; cases e
      | some b =>
        rw [hk, hj] at e; cases e
        split
        · next c =>
          rw [List.getElem?_set]
          by_cases c1 : j = i
          · subst c1; rw [if_pos rfl, if_pos (by simpa using hil)]; rw [hl] at hj; cases hj; exact ⟨a, rfl, c⟩
          · rw [if_neg c1]; exact hset k a b hk c.symm
        · exact ⟨l, hl, rfl⟩
  case «at» k p =>
    cases hk : ls[k]? with
    | none => rw [hk] at e; cases e
    | some a =>
      rw [hk] at e; simp only [Res.ofOption_some, Res.ok_bind] at e
      split at e
      · rw [Res.bind_eq_ok] at e; obtain ⟨a, ha, e⟩ := e; cases e; exact ⟨l, hl, rfl⟩
      · cases e
  all_goals
    repeat (rw [Res.bind_eq_ok] at e; obtain ⟨_, _, e⟩ := e)
    cases e; exact ⟨l, hl, rfl⟩

/-- **C15** No call changes the size of an array. -/
theorem C15_size_fixed {w w' : World T} (h : Reachable zero w) {c : Call T} {o : Out T} (e : step zero c w = .ok (o, w'))
    {i : Nat} {l : List T} (hl : (shows w)[i]? = some l) : ∃ l', (shows w')[i]? = some l' ∧ l'.length = l.length := by
  have hr := step_refines (zero := zero) h.inv c
  cases hs : specStep zero c (shows w) with
  | ok r =>
    rw [hs] at hr; obtain ⟨w1, e1, -, h2⟩ := hr
    rw [e] at e1; cases e1
    rw [h2]; exact specStep_size hs i l hl
  | panic => rw [hs] at hr; simp only [Refines] at hr; rw [e] at hr; cases hr
  | outOfFuel => rw [hs] at hr; exact hr.elim

/-! ## Arrays as random-access containers -/

/-- The calls the array's iterator makes (array/iterator.go), for one array. -/
def ops : Seq.Ops (Mem T × Slice) T where
  size c := size c.2
  get c i := at_ c.1 c.2 i
  set c i v := do let m ← set c.1 c.2 i v; .ok (m, c.2)

/-- An array is a lawful random-access container: all algorithm theorems (C18–C25) and C16 apply to it. -/
theorem ops_lawful : Seq.Lawful (ops : Seq.Ops (Mem T × Slice) T) (fun c => WF c.1 c.2) (fun c => contents c.1 c.2) where
  size c h := by simp [ops, h.contents_length]
  get c i h := at_spec h i
  set c i v h := by
    obtain ⟨m', e, d⟩ := set_spec h i v
    refine ⟨(m', c.2), by simp [ops, e], d.wf, ?_⟩
    rw [d.contents]
    unfold Seq.setAt
    by_cases c0 : 0 ≤ i
    · by_cases c1 : i < (contents c.1 c.2).length
      · rw [if_pos ⟨c0, c1⟩, if_pos c0]
      · rw [if_neg (by omega), if_pos c0, List.set_eq_of_length_le (by omega)]
    · rw [if_neg (by omega), if_neg c0]

/-- **C16** for arrays: the loop from `Begin` collects the elements and ends at `End`, the loop from `Last` (array.go:98-100,
position `Size-1`) collects the reverse. -/
theorem C16_array {w : World T} (h : Reachable zero w) {i : Nat} {s : Slice} (hs : w.arrs[i]? = some s) (fuel : Nat)
    (hf : s.len + 1 ≤ fuel) :
    (∃ c', Seq.run ops (Seq.collect Seq.next fuel 0) (w.mem, s) = .ok ((contents w.mem s, size s), c')) ∧
    (∃ c', Seq.run ops (Seq.collect Seq.prev fuel (size s - 1)) (w.mem, s) = .ok (((contents w.mem s).reverse, -1), c')) := by
  have hw := h.inv.wf i s hs
  simp only at hw
  have hl := hw.contents_length
  obtain ⟨c1, e1, -, -⟩ := Seq.C16_forward ops_lawful (c := (w.mem, s)) hw fuel (by simp only; omega)
  obtain ⟨c2, e2, -, -⟩ := Seq.C16_backward ops_lawful (c := (w.mem, s)) hw fuel (by simp only; omega)
  refine ⟨⟨c1, ?_⟩, ⟨c2, ?_⟩⟩
  · simp only [hl] at e1; exact e1
  · simp only [hl] at e2; exact e2

/-! ## Non-vacuity -/

/-- Arrays made, copied, filled and swapped. -/
def demo : List (Call Nat) :=
  [.new 3, .set 0 1 5, .newFromArray 0, .fill 1 7, .set 1 9 4, .swapArray 0 1, .new 2, .swapArray 0 2, .set 0 0 8, .back 1]

example : ∃ os, specRun 0 demo [] = .ok (os, [[8, 7, 7], [0, 5, 0], [0, 0]]) := ⟨_, rfl⟩
theorem demo_arrays : ∃ w, Reachable 0 w ∧ shows w = [[8, 7, 7], [0, 5, 0], [0, 0]] := by
  have h := C15_array_is_sequence 0 demo
  have e : ∃ os, specRun 0 demo [] = .ok (os, [[8, 7, 7], [0, 5, 0], [0, 0]]) := ⟨_, rfl⟩
  obtain ⟨os, e⟩ := e
  rw [e] at h
  obtain ⟨w, h1, h2⟩ := h
  exact ⟨w, ⟨demo, os, h1⟩, h2⟩

/-- `C15_size_fixed`: after any further call array 0 has three elements. -/
example : ∃ w : World Nat, shows w = [[8, 7, 7], [0, 5, 0], [0, 0]] ∧ ∀ c o w', step 0 c w = .ok (o, w') → ∃ l', (shows w')[0]? = some l' ∧ l'.length = 3 := by
  obtain ⟨w, h, e⟩ := demo_arrays
  exact ⟨w, e, fun c o w' e' => C15_size_fixed h e' (i := 0) (l := [8, 7, 7]) (by rw [e]; rfl)⟩

/-- `C16_array`: the iterators list array 0 forwards and backwards. -/
example : ∃ (w : World Nat) (s : Slice), shows w = [[8, 7, 7], [0, 5, 0], [0, 0]] ∧ w.arrs[0]? = some s ∧
    ∃ c c', Seq.run ops (Seq.collect Seq.next 9 0) (w.mem, s) = .ok (([8, 7, 7], 3), c) ∧
      Seq.run ops (Seq.collect Seq.prev 9 2) (w.mem, s) = .ok (([7, 7, 8], -1), c') := by
  obtain ⟨w, h, e⟩ := demo_arrays
  have hl : w.arrs.length = 3 := by have := congrArg List.length e; simpa [shows] using this
  have hs : w.arrs[0]? = some w.arrs[0] := List.getElem?_eq_getElem (by omega)
  have hc : contents w.mem w.arrs[0] = [8, 7, 7] := by
    have := congrArg (·[0]?) e
    simpa [shows, hs] using this
  have hlen : w.arrs[0].len = 3 := by rw [← (h.inv.wf 0 _ hs).contents_length, hc]; rfl
  obtain ⟨⟨c, e1⟩, c', e2⟩ := C16_array h hs 9 (by omega)
  simp only [hc, size, hlen] at e1 e2
  exact ⟨w, _, e, hs, c, c', e1, e2⟩

end GoSTL.Arr
