import Verif.Basic.Res
import Verif.Seq.Prog
/-!
# Go slices

A slice is a window (`off`, `len`, `cap`) into a backing array; several slices may share one. The memory is the list of
all backing arrays ever allocated (nothing is freed: garbage collection is unobservable). What is modelled of the Go
specification: `make`, indexing and index assignment with bounds checks, slice expressions `s[lo:hi]`, and `append`, which
writes into the backing array when the capacity suffices and otherwise copies to a new array whose spare room (`extra`)
is arbitrary, so that every growth policy is covered.
-/
namespace GoSTL.GoSlice

/-- All backing arrays. -/
abbrev Mem (T : Type) := List (List T)

/-- A slice header. -/
structure Slice where
  arr : Nat
  off : Nat
  len : Nat
  cap : Nat
  deriving DecidableEq, Repr

variable {T : Type}

/-- The backing array of a slice. -/
def backing (m : Mem T) (s : Slice) : List T := (m[s.arr]?).getD []

/-- The values a slice shows. -/
def contents (m : Mem T) (s : Slice) : List T := ((backing m s).drop s.off).take s.len

/-- Go `s[i]`. -/
def read (m : Mem T) (s : Slice) (i : Int) : Res T :=
  if 0 ≤ i ∧ i < s.len then Res.ofOption (backing m s)[s.off + i.toNat]? else .panic

/-- Go `s[i] = v`. -/
def write (m : Mem T) (s : Slice) (i : Int) (v : T) : Res (Mem T) :=
  if 0 ≤ i ∧ i < s.len then .ok (m.set s.arr ((backing m s).set (s.off + i.toNat) v)) else .panic

/-- Go `make([]T, len, cap)`; `zero` is the zero value of `T`. -/
def make (zero : T) (m : Mem T) (len cap : Int) : Res (Mem T × Slice) :=
  if 0 ≤ len ∧ len ≤ cap then
    .ok (m ++ [List.replicate cap.toNat zero], { arr := m.length, off := 0, len := len.toNat, cap := cap.toNat })
  else .panic

/-- Go `s[lo:hi]`. -/
def reslice (s : Slice) (lo hi : Int) : Res Slice :=
  if 0 ≤ lo ∧ lo ≤ hi ∧ hi ≤ s.cap then
    .ok { s with off := s.off + lo.toNat, len := (hi - lo).toNat, cap := s.cap - lo.toNat }
  else .panic

/-- Overwrite `a` from position `i` on with `vals`. -/
def overwrite (a : List T) (i : Nat) (vals : List T) : List T := a.take i ++ vals ++ a.drop (i + vals.length)

/-- Go `append(s, vals...)`; a new array gets `extra` spare elements. -/
def append (zero : T) (m : Mem T) (s : Slice) (vals : List T) (extra : Nat) : Mem T × Slice :=
  if s.len + vals.length ≤ s.cap then
    (m.set s.arr (overwrite (backing m s) (s.off + s.len) vals), { s with len := s.len + vals.length })
  else
    (m ++ [contents m s ++ vals ++ List.replicate extra zero],
      { arr := m.length, off := 0, len := s.len + vals.length, cap := s.len + vals.length + extra })

/-- The slice denotes a window inside an existing array. -/
structure WF (m : Mem T) (s : Slice) : Prop where
  arr : s.arr < m.length
  fits : s.off + s.cap ≤ (backing m s).length
  le : s.len ≤ s.cap

theorem WF.contents_length {m : Mem T} {s : Slice} (h : WF m s) : (contents m s).length = s.len := by
  have := h.fits; have := h.le
  simp [contents]; omega

theorem contents_get {m : Mem T} {s : Slice} {i : Nat} (hi : i < s.len) :
    (contents m s)[i]? = (backing m s)[s.off + i]? := by
  simp [contents, List.getElem?_take, hi, List.getElem?_drop]

theorem read_eq {m : Mem T} {s : Slice} (h : WF m s) (i : Int) : read m s i = Res.ofOption (Seq.at? (contents m s) i) := by
  unfold read Seq.at?
  by_cases h0 : 0 ≤ i
  · simp only [h0, true_and, if_true]
    split
    · next hi => rw [contents_get (by omega)]
    · next hi =>
      have : (contents m s)[i.toNat]? = none := by rw [List.getElem?_eq_none_iff, h.contents_length]; omega
      rw [this]; rfl
  · simp [h0]

theorem backing_set_self {m : Mem T} {s : Slice} (h : s.arr < m.length) (a : List T) : backing (m.set s.arr a) s = a := by
  simp [backing, h]

theorem backing_set_other {m : Mem T} {s : Slice} {k : Nat} (h : k ≠ s.arr) (a : List T) :
    backing (m.set k a) s = backing m s := by
  simp [backing, List.getElem?_set, h]

theorem backing_push {m : Mem T} {s : Slice} (h : s.arr < m.length) (a : List T) : backing (m ++ [a]) s = backing m s := by
  simp [backing, List.getElem?_append_left h]

/-- Nothing about other arrays changes. -/
def Frame (m m' : Mem T) (k : Nat) : Prop :=
  m.length ≤ m'.length ∧ ∀ j, j ≠ k → j < m.length → m'[j]? = m[j]?

theorem Frame.refl (m : Mem T) (k : Nat) : Frame m m k := ⟨Nat.le_refl _, fun _ _ _ => rfl⟩

theorem Frame.trans {m m' m'' : Mem T} {k : Nat} (h : Frame m m' k) (h' : Frame m' m'' k) : Frame m m'' k :=
  ⟨Nat.le_trans h.1 h'.1, fun j hj hl => (h'.2 j hj (by have := h.1; omega)).trans (h.2 j hj hl)⟩

theorem Frame.wf {m m' : Mem T} {k : Nat} {s : Slice} (h : Frame m m' k) (hs : WF m s) (hk : s.arr ≠ k) :
    WF m' s ∧ contents m' s = contents m s := by
  have e : backing m' s = backing m s := by simp only [backing]; rw [h.2 _ hk hs.arr]
  refine ⟨⟨by have := h.1; have := hs.arr; omega, by rw [e]; exact hs.fits, hs.le⟩, by simp only [contents, e]⟩

theorem write_spec {m : Mem T} {s : Slice} (h : WF m s) {i : Int} (h0 : 0 ≤ i) (h1 : i < s.len) (v : T) :
    ∃ m', write m s i v = .ok m' ∧ WF m' s ∧ contents m' s = (contents m s).set i.toNat v ∧ Frame m m' s.arr ∧
      m'.length = m.length := by
  refine ⟨_, by simp only [write]; rw [if_pos ⟨h0, h1⟩], ⟨by simpa using h.arr, ?_, h.le⟩, ?_, ⟨by simp, ?_⟩, by simp⟩
  · rw [backing_set_self h.arr]; simpa using h.fits
  · simp only [contents, backing_set_self h.arr]
    have e : s.off + i.toNat = s.off + i.toNat := rfl
    rw [List.drop_set, if_neg (by omega), List.take_set]
    congr 1; omega
  · intro j hj _
    rw [List.getElem?_set, if_neg (by omega)]

theorem make_spec (zero : T) (m : Mem T) {len cap : Int} (h0 : 0 ≤ len) (h1 : len ≤ cap) :
    ∃ m' s, make zero m len cap = .ok (m', s) ∧ WF m' s ∧ contents m' s = List.replicate len.toNat zero ∧
      s.arr = m.length ∧ s.len = len.toNat ∧ s.cap = cap.toNat ∧ s.off = 0 ∧ (∀ k, Frame m m' k) ∧ m'.length = m.length + 1 := by
  have hb : backing (m ++ [List.replicate cap.toNat zero]) ⟨m.length, 0, len.toNat, cap.toNat⟩ =
      List.replicate cap.toNat zero := by simp [backing]
  refine ⟨_, _, by simp only [make]; rw [if_pos ⟨h0, h1⟩], ⟨by simp, ?_, by simp; omega⟩, ?_, rfl, rfl, rfl, rfl, fun k => ⟨by simp, ?_⟩, by simp⟩
  · rw [hb]; simp
  · simp only [contents, hb]; simp; omega
  · intro j _ hl
    rw [List.getElem?_append_left hl]

theorem append_spec (zero : T) {m : Mem T} {s : Slice} (h : WF m s) (vals : List T) (extra : Nat) :
    ∃ m' s', append zero m s vals extra = (m', s') ∧ WF m' s' ∧ contents m' s' = contents m s ++ vals ∧
      Frame m m' s.arr ∧ (s'.arr = s.arr ∨ s'.arr = m.length) ∧ s'.len = s.len + vals.length ∧
      (s.len + vals.length ≤ s.cap → s'.cap = s.cap ∧ s'.arr = s.arr ∧ s'.off = s.off) ∧ s.len ≤ s'.cap ∧ (s.off = 0 → s'.off = 0) := by
  have hf := h.fits
  have hle := h.le
  unfold append
  split
  · next hc =>
    refine ⟨_, _, rfl, ⟨by simpa using h.arr, ?_, hc⟩, ?_, ⟨by simp, ?_⟩, .inl rfl, rfl, fun _ => ⟨rfl, rfl, rfl⟩, hle, fun h => h⟩
    · have := backing_set_self h.arr (overwrite (backing m s) (s.off + s.len) vals)
      simp only [backing] at this ⊢
      rw [this]
      simp [overwrite]
      simp only [backing] at hf
      omega
    · have := backing_set_self h.arr (overwrite (backing m s) (s.off + s.len) vals)
      have e : backing (m.set s.arr (overwrite (backing m s) (s.off + s.len) vals))
          { s with len := s.len + vals.length } = overwrite (backing m s) (s.off + s.len) vals := this
      simp only [contents, e]
      unfold overwrite
      rw [List.append_assoc, List.drop_append_of_le_length (by simp; omega), List.drop_take,
        List.take_append, List.take_take]
      simp only [List.length_take, List.length_drop]
      have e1 : min (s.len + vals.length) (s.off + s.len - s.off) = s.len := by omega
      have e2 : s.len + vals.length - min (s.off + s.len - s.off) ((backing m s).length - s.off) = vals.length := by omega
      rw [e1, e2]
      rw [List.take_left']
      rfl
    · intro j hj _
      rw [List.getElem?_set, if_neg (by omega)]
  · next hc =>
    have hb : backing (m ++ [contents m s ++ vals ++ List.replicate extra zero])
        ⟨m.length, 0, s.len + vals.length, s.len + vals.length + extra⟩ = contents m s ++ vals ++ List.replicate extra zero := by
      simp [backing]
    refine ⟨_, _, rfl, ⟨by simp, ?_, by simp⟩, ?_, ⟨by simp, ?_⟩, .inr rfl, rfl, fun h => absurd h hc, by simp; omega, fun _ => rfl⟩
    · rw [hb]; simp [h.contents_length]; omega
    · simp only [contents] at hb ⊢
      rw [hb, List.drop_zero]
      rw [List.take_left']
      have := h.contents_length
      simp only [contents] at this
      simp [this]
    · intro j _ hl
      rw [List.getElem?_append_left hl]

theorem reslice_prefix {m : Mem T} {s : Slice} (h : WF m s) {k : Int} (h0 : 0 ≤ k) (h1 : k ≤ s.len) :
    ∃ s', reslice s 0 k = .ok s' ∧ WF m s' ∧ contents m s' = (contents m s).take k.toNat ∧ s'.arr = s.arr ∧
      s'.len = k.toNat ∧ s'.cap = s.cap ∧ s'.off = s.off := by
  have hf := h.fits
  have hle := h.le
  refine ⟨{ s with off := s.off, len := k.toNat, cap := s.cap }, ?_, ⟨h.arr, hf, by show k.toNat ≤ s.cap; omega⟩, ?_, rfl, rfl, rfl, rfl⟩
  · simp only [reslice]; rw [if_pos (by omega)]; simp
  · have e : backing m { s with off := s.off, len := k.toNat, cap := s.cap } = backing m s := rfl
    simp only [contents, e]
    rw [List.take_take]
    congr 1
    omega

theorem reslice_suffix {m : Mem T} {s : Slice} (h : WF m s) {k : Int} (h0 : 0 ≤ k) (h1 : k ≤ s.len) :
    ∃ s', reslice s k s.len = .ok s' ∧ WF m s' ∧ contents m s' = (contents m s).drop k.toNat ∧ s'.arr = s.arr ∧
      s'.len = s.len - k.toNat := by
  have hf := h.fits
  have hle := h.le
  refine ⟨{ s with off := s.off + k.toNat, len := s.len - k.toNat, cap := s.cap - k.toNat }, ?_, ⟨h.arr, ?_, ?_⟩, ?_, rfl, rfl⟩
  · simp only [reslice]; rw [if_pos (by omega)]
    congr 2
    omega
  · show s.off + k.toNat + (s.cap - k.toNat) ≤ (backing m s).length; omega
  · show s.len - k.toNat ≤ s.cap - k.toNat; omega
  · have e : backing m { s with off := s.off + k.toNat, len := s.len - k.toNat, cap := s.cap - k.toNat } = backing m s := rfl
    simp only [contents, e]
    rw [List.drop_take, List.drop_drop]

end GoSTL.GoSlice
