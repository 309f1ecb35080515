import Verif.Vector.Props
/-!
# `Vector.Data`: a window into the vector's storage

vector.go:170-172 `Data` returns the internal slice. The caller can read and write through it, and the vector keeps using the same backing array until a call
reallocates. The state below holds vectors and slices handed out by `Data`; the specification says which of them share storage and what each of them shows.
-/
namespace GoSTL.Vector
open GoSTL.GoSlice

variable {T : Type} (zero : T)

/-! ## Model -/

/-- A program state with vectors and slices obtained from `Data`. -/
structure DWorld (T : Type) where
  mem : Mem T
  vecs : List Slice
  datas : List Slice

/-- Calls on vectors, `Data` and `Capacity`, and the caller's own accesses `d[k]` and `d[k] = x` to the slices it was given. -/
inductive DCall (T : Type)
  | vec (c : Call T)
  | capacity (i : Nat)
  | data (i : Nat)
  | get (d : Nat) (k : Int)
  | put (d : Nat) (k : Int) (x : T)

/-- One call or access. vector.go:54-56 `Capacity`, 170-172 `Data`: the header itself is returned; nothing is copied. -/
def dstep (c : DCall T) (w : DWorld T) : Res (Out T × DWorld T) :=
  match c with
  | .vec c => do let (o, v) ← wstep zero c ⟨w.mem, w.vecs⟩; .ok (o, { w with mem := v.mem, vecs := v.vecs })
  | .capacity i => do let s ← Res.ofOption w.vecs[i]?; .ok (.int (capacity s), w)
  | .data i => do let s ← Res.ofOption w.vecs[i]?; .ok (.unit, { w with datas := w.datas ++ [s] })
  | .get d k => do let s ← Res.ofOption w.datas[d]?; let x ← read w.mem s k; .ok (.val x, w)
  | .put d k x => do let s ← Res.ofOption w.datas[d]?; let m ← write w.mem s k x; .ok (.unit, { w with mem := m })

/-- A history. -/
def drun : List (DCall T) → DWorld T → Res (List (Out T) × DWorld T)
  | [], w => .ok ([], w)
  | c :: cs, w => do
    let (o, w) ← dstep zero c w
    let (os, w) ← drun cs w
    .ok (o :: os, w)

/-! ## Specification -/

/-- A vector: its elements, its capacity and the storage it uses. -/
structure SVec (T : Type) where
  elems : List T
  cap : Nat
  store : Nat

/-- A slice handed out by `Data`: its elements and the storage it is a window of. -/
structure SData (T : Type) where
  elems : List T
  store : Nat

/-- Vectors and slices; `fresh` is the next unused name of a storage. -/
structure SState (T : Type) where
  vecs : List (SVec T)
  datas : List (SData T)
  fresh : Nat

/-- When a call moves a vector of `len` elements and capacity `cap` to new storage, and the capacity it then has: an insertion into a full vector,
`Reserve` above the capacity, `ShrinkToFit` with spare room. -/
def moves (len cap : Nat) : Op T → Option Nat
  | .pushBack _ e => if len < cap then none else some (len + 1 + e)
  | .insertAt p _ e | .insert p _ e => if 0 ≤ p ∧ p ≤ len ∧ ¬ len < cap then some (len + 1 + e) else none
  | .reserve c => if c ≤ cap then none else some c.toNat
  | .shrinkToFit => if len = cap then none else some len
  | _ => none

/-- A window of the elements `old` on storage whose first cells now hold `l`: the cells beyond `l` are as they were. -/
def overlay (l old : List T) : List T := l.take old.length ++ old.drop l.length

/-- Show the vector's new elements `l` in all slices on storage `a`. -/
def SState.refresh (st : SState T) (a : Nat) (l : List T) : List (SData T) :=
  st.datas.map fun d => if d.store = a then { d with elems := overlay l d.elems } else d

/-- Replace position `k` in a sequence, if it has one. -/
def put (k : Nat) (x : T) (l : List T) : List T := l.set k x

/-- One call. -/
def dspec (c : DCall T) (st : SState T) : Res (Out T × SState T) :=
  match c with
  | .vec (.new k) =>
    if k < 0 then .panic else .ok (.unit, { st with vecs := st.vecs ++ [⟨[], k.toNat, st.fresh⟩], fresh := st.fresh + 1 })
  | .vec (.newFromVector i) => do
    let v ← Res.ofOption st.vecs[i]?
    .ok (.unit, { st with vecs := st.vecs ++ [⟨v.elems, v.cap, st.fresh⟩], fresh := st.fresh + 1 })
  | .vec (.on i op) => do
    let v ← Res.ofOption st.vecs[i]?
    let (o, l) ← specStep op v.elems
    match moves v.elems.length v.cap op with
    | none => .ok (o, { st with vecs := st.vecs.set i ⟨l, v.cap, v.store⟩, datas := st.refresh v.store l })
    | some c => .ok (o, { st with vecs := st.vecs.set i ⟨l, c, st.fresh⟩, fresh := st.fresh + 1 })
  | .capacity i => do let v ← Res.ofOption st.vecs[i]?; .ok (.int v.cap, st)
  | .data i => do let v ← Res.ofOption st.vecs[i]?; .ok (.unit, { st with datas := st.datas ++ [⟨v.elems, v.store⟩] })
  | .get d k => do
    let s ← Res.ofOption st.datas[d]?
    let x ← Res.ofOption (Seq.at? s.elems k)
    .ok (.val x, st)
  | .put d k x => do
    let s ← Res.ofOption st.datas[d]?
    let _ ← Res.ofOption (Seq.at? s.elems k)
    .ok (.unit, { st with
      vecs := st.vecs.map fun v => if v.store = s.store then { v with elems := put k.toNat x v.elems } else v,
      datas := st.datas.map fun e => if e.store = s.store then { e with elems := put k.toNat x e.elems } else e })

/-- A history. -/
def dspecRun : List (DCall T) → SState T → Res (List (Out T) × SState T)
  | [], st => .ok ([], st)
  | c :: cs, st => do
    let (o, st) ← dspec c st
    let (os, st) ← dspecRun cs st
    .ok (o :: os, st)

/-! ## Effect of a call on the memory -/
variable {zero}

/-- Outside the first `n` cells of array `a` nothing changed, and nothing was allocated. -/
structure Within (m m' : Mem T) (a n : Nat) : Prop where
  length : m'.length = m.length
  others : ∀ j, j ≠ a → m'[j]? = m[j]?
  cells : ∀ k, n ≤ k → ((m'[a]?).getD [])[k]? = ((m[a]?).getD [])[k]?

/-- One array was allocated and no old one changed. -/
structure Fresh (m m' : Mem T) : Prop where
  length : m'.length = m.length + 1
  others : ∀ j, j < m.length → m'[j]? = m[j]?

theorem Within.refl (m : Mem T) (a n : Nat) : Within m m a n := ⟨rfl, fun _ _ => rfl, fun _ _ => rfl⟩

theorem Within.trans {m m' m'' : Mem T} {a n : Nat} (h : Within m m' a n) (h' : Within m' m'' a n) : Within m m'' a n :=
  ⟨h'.length.trans h.length, fun j hj => (h'.others j hj).trans (h.others j hj), fun k hk => (h'.cells k hk).trans (h.cells k hk)⟩

theorem Within.mono {m m' : Mem T} {a n n' : Nat} (h : Within m m' a n) (hn : n ≤ n') : Within m m' a n' :=
  ⟨h.length, h.others, fun k hk => h.cells k (by omega)⟩

theorem within_set {m : Mem T} {a n : Nat} {l : List T} (h : ∀ k, n ≤ k → l[k]? = ((m[a]?).getD [])[k]?) : Within m (m.set a l) a n := by
  refine ⟨by simp, fun j hj => by rw [List.getElem?_set, if_neg (by omega)], fun k hk => ?_⟩
  rw [List.getElem?_set, if_pos rfl]
  split
  · simpa using h k hk
  · next hc => rw [List.getElem?_eq_none (l := m) (by omega)]

theorem write_within {m m' : Mem T} {s : Slice} {i : Int} {v : T} (h0 : s.off = 0) (e : write m s i v = .ok m') : Within m m' s.arr s.len := by
  unfold write at e
  split at e
  · cases e
    refine within_set fun k hk => ?_
    rw [List.getElem?_set, if_neg (by omega)]; rfl
  · cases e

theorem shiftLoop_within {s : Slice} (h0 : s.off = 0) : ∀ (n : Nat) {m m' : Mem T} {i : Int}, shiftLoop s n i m = .ok m' → Within m m' s.arr s.len := by
  intro n
  induction n with
  | zero => intro m m' i e; cases e; exact .refl _ _ _
  | succ n ih =>
    intro m m' i e
    simp only [shiftLoop] at e
    rw [Res.bind_eq_ok] at e; obtain ⟨x, -, e⟩ := e
    rw [Res.bind_eq_ok] at e; obtain ⟨m1, e1, e⟩ := e
    exact (write_within h0 e1).trans (ih e)

theorem append_effect (zero : T) {m : Mem T} {s : Slice} (h : WF m s) (h0 : s.off = 0) (vals : List T) (extra : Nat) {m' : Mem T} {s' : Slice}
    (e : append zero m s vals extra = (m', s')) :
    s'.off = 0 ∧ s'.len = s.len + vals.length ∧
    if s.len + vals.length ≤ s.cap then s'.arr = s.arr ∧ s'.cap = s.cap ∧ Within m m' s.arr s'.len
    else s'.arr = m.length ∧ s'.cap = s.len + vals.length + extra ∧ Fresh m m' := by
  have hf := h.fits
  unfold append at e
  split at e
  · next hc =>
    cases e
    refine ⟨h0, rfl, ?_⟩
    rw [if_pos hc]
    refine ⟨rfl, rfl, within_set fun k hk => ?_⟩
    simp only at hk
    unfold overwrite
    rw [List.getElem?_append_right (by simp; omega), List.getElem?_drop]
    simp only [List.length_append, List.length_take]
    show (backing m s)[_]? = (backing m s)[k]?
    congr 1; omega
  · next hc =>
    cases e
    refine ⟨rfl, rfl, ?_⟩
    rw [if_neg hc]
    exact ⟨rfl, rfl, by simp, fun j hj => List.getElem?_append_left hj⟩

theorem copyLoop_length {src dst : Slice} : ∀ (n : Nat) {m m' : Mem T} {i : Int}, copyLoop src dst n i m = .ok m' → m'.length = m.length := by
  intro n
  induction n with
  | zero => intro m m' i e; cases e; rfl
  | succ n ih =>
    intro m m' i e
    simp only [copyLoop] at e
    rw [Res.bind_eq_ok] at e; obtain ⟨x, -, e⟩ := e
    rw [Res.bind_eq_ok] at e; obtain ⟨m1, e1, e⟩ := e
    rw [ih e]
    unfold write at e1
    split at e1
    · cases e1; simp
    · cases e1

theorem fresh_effect {m : Mem T} {src : Slice} (h : WF m src) {cap : Int} (hc : (src.len : Int) ≤ cap) {m' : Mem T} {s' : Slice}
    (e : (do
      let (m, data) ← make zero m (src.len : Int) cap
      let m ← copyLoop src data src.len 0 m
      Res.ok (m, data)) = .ok (m', s')) :
    s'.off = 0 ∧ s'.arr = m.length ∧ s'.cap = cap.toNat ∧ s'.len = src.len ∧ Fresh m m' ∧ WF m' s' ∧ contents m' s' = contents m src := by
  obtain ⟨m2, s2, e2, w2, c2, f2, a2, k2, l2⟩ := fresh_copy (zero := zero) h hc
  rw [e] at e2; cases e2
  obtain ⟨m1, s1, e1, -, -, a1, l1, k1, o1, f1, ln⟩ := make_spec zero m (len := src.len) (cap := cap) (by omega) hc
  rw [e1, Res.ok_bind] at e
  simp only at e
  rw [Res.bind_eq_ok] at e; obtain ⟨m3, e3, e⟩ := e
  cases e
  exact ⟨o1, a2, k2, l2, ⟨by rw [copyLoop_length _ e3, ln], fun j hj => (f2 m.length).2 j (by omega) hj⟩, w2, c2⟩

/-- What a call does to header and memory, apart from the elements shown. -/
def Effect (op : Op T) (m : Mem T) (s : Slice) (m' : Mem T) (s' : Slice) : Prop :=
  s'.off = 0 ∧
  match moves s.len s.cap op with
  | none => s'.arr = s.arr ∧ s'.cap = s.cap ∧ Within m m' s.arr s'.len
  | some c => s'.arr = m.length ∧ s'.cap = c ∧ Fresh m m'

theorem Effect.same {op : Op T} {m : Mem T} {s : Slice} (h0 : s.off = 0) (h : moves s.len s.cap op = none) : Effect op m s m s := by
  refine ⟨h0, ?_⟩; rw [h]; exact ⟨rfl, rfl, .refl _ _ _⟩

theorem Effect.reslice {op : Op T} {m : Mem T} {s s' : Slice} {k : Int} (h0 : s.off = 0) (h : moves s.len s.cap op = none) (e : reslice s 0 k = .ok s') :
    Effect op m s m s' := by
  unfold GoSlice.reslice at e
  split at e
  · cases e
    refine ⟨by simpa using h0, ?_⟩; rw [h]; exact ⟨rfl, by simp, .refl _ _ _⟩
  · cases e

theorem insertAt_effect {m : Mem T} {s : Slice} (h : WF m s) (h0 : s.off = 0) {p : Int} {v : T} {extra : Nat} {m' : Mem T} {s' : Slice}
    (e : insertAt zero m s p v extra = .ok (m', s')) : Effect (.insertAt p v extra) m s m' s' := by
  unfold insertAt at e
  split at e
  · next c => cases e; exact .same h0 (if_neg (by unfold size at c; omega))
  · next c =>
    unfold size at c
    generalize ea : append zero m s [v] extra = r at e
    obtain ⟨m1, s1⟩ := r
    obtain ⟨o1, l1, h1⟩ := append_effect zero h h0 _ _ ea
    simp only at e
    rw [Res.bind_eq_ok] at e; obtain ⟨m2, e2, e⟩ := e
    rw [Res.bind_eq_ok] at e; obtain ⟨m3, e3, e⟩ := e
    cases e
    have hW := (shiftLoop_within o1 _ e2).trans (write_within o1 e3)
    refine ⟨o1, ?_⟩
    simp only [List.length_cons, List.length_nil, Nat.zero_add] at h1
    simp only [moves]
    by_cases hc : s.len + 1 ≤ s.cap
    · rw [if_pos hc] at h1
      rw [if_neg (by omega)]
      obtain ⟨a1, k1, w1⟩ := h1
      exact ⟨a1, k1, w1.trans (a1 ▸ hW)⟩
    · rw [if_neg hc] at h1
      rw [if_pos (by omega)]
      obtain ⟨a1, k1, w1⟩ := h1
      refine ⟨a1, k1, by rw [hW.length, w1.length], fun j hj => ?_⟩
      rw [hW.others j (by omega), w1.others j hj]

theorem erase_effect {op : Op T} {m : Mem T} {s : Slice} (h : WF m s) (h0 : s.off = 0) (hm : moves s.len s.cap op = none) {a b : Int} {extra : Nat} {m' : Mem T}
    {s' : Slice} (e : eraseIndexRange zero m s a b extra = .ok (m', s')) : Effect op m s m' s' := by
  have hle := h.le
  unfold eraseIndexRange at e
  split at e
  · cases e; exact .same h0 hm
  split at e
  · cases e; exact .same h0 hm
  next c1 c2 =>
  unfold size at c2
  obtain ⟨l, e1, w1, c1, a1, l1, k1, o1⟩ := reslice_prefix h (k := a) (by omega) (by omega)
  obtain ⟨r, e2, w2, c2, a2, l2⟩ := reslice_suffix h (k := b) (by omega) (by omega)
  rw [e1, Res.ok_bind, e2, Res.ok_bind] at e
  simp only [Res.ok.injEq] at e
  obtain ⟨o3, l3, h3⟩ := append_effect zero w1 (o1.trans h0) _ _ e
  rw [w2.contents_length] at h3 l3
  rw [if_pos (by omega)] at h3
  refine ⟨o3, ?_⟩
  rw [hm]
  exact ⟨h3.1.trans a1, h3.2.1.trans k1, a1 ▸ h3.2.2⟩

theorem step_effect {m : Mem T} {s : Slice} (h : WF m s) (h0 : s.off = 0) {op : Op T} {o : Out T} {m' : Mem T} {s' : Slice}
    (e : step zero op m s = .ok (o, m', s')) : Effect op m s m' s' := by
  cases op
  case pushBack v x =>
    simp only [step, pushBack] at e
    generalize ea : append zero m s [v] x = r at e
    obtain ⟨m1, s1⟩ := r
    obtain ⟨o1, l1, h1⟩ := append_effect zero h h0 _ _ ea
    cases e
    refine ⟨o1, ?_⟩
    simp only [moves]
    simp only [List.length_cons, List.length_nil, Nat.zero_add] at h1
    by_cases hc : s.len < s.cap
    · rw [if_pos (by omega)] at h1; rw [if_pos hc]; exact h1
    · rw [if_neg (by omega)] at h1; rw [if_neg hc]; exact h1
  case setAt p v =>
    simp only [step] at e; rw [Res.bind_eq_ok] at e; obtain ⟨m1, e1, e⟩ := e; cases e
    unfold setAt at e1
    split at e1
    · cases e1; exact .same h0 rfl
    · exact ⟨h0, rfl, rfl, write_within h0 e1⟩
  case insertAt p v x =>
    simp only [step] at e; rw [Res.bind_eq_ok] at e; obtain ⟨⟨m1, s1⟩, e1, e⟩ := e; cases e
    exact insertAt_effect h h0 e1
  case insert p v x =>
    simp only [step] at e; rw [Res.bind_eq_ok] at e; obtain ⟨⟨m1, s1⟩, e1, e⟩ := e; cases e
    exact insertAt_effect h h0 e1
  case eraseAt p x =>
    simp only [step] at e; rw [Res.bind_eq_ok] at e; obtain ⟨⟨m1, s1⟩, e1, e⟩ := e; cases e
    exact erase_effect h h0 rfl e1
  case erase p x =>
    simp only [step] at e; rw [Res.bind_eq_ok] at e; obtain ⟨⟨m1, s1⟩, e1, e⟩ := e; cases e
    exact erase_effect h h0 rfl e1
  case eraseIndexRange a b x =>
    simp only [step] at e; rw [Res.bind_eq_ok] at e; obtain ⟨⟨m1, s1⟩, e1, e⟩ := e; cases e
    exact erase_effect h h0 rfl e1
  case eraseRange a b x =>
    simp only [step] at e; rw [Res.bind_eq_ok] at e; obtain ⟨⟨m1, s1⟩, e1, e⟩ := e; cases e
    exact erase_effect h h0 rfl e1
  case «at» p => simp only [step] at e; rw [Res.bind_eq_ok] at e; obtain ⟨_, _, e⟩ := e; cases e; exact .same h0 rfl
  case front => simp only [step] at e; rw [Res.bind_eq_ok] at e; obtain ⟨_, _, e⟩ := e; cases e; exact .same h0 rfl
  case back => simp only [step] at e; rw [Res.bind_eq_ok] at e; obtain ⟨_, _, e⟩ := e; cases e; exact .same h0 rfl
  case popBack =>
    simp only [step] at e; rw [Res.bind_eq_ok] at e; obtain ⟨⟨x, s1⟩, e1, e⟩ := e; cases e
    unfold popBack at e1
    split at e1
    · cases e1
    · rw [Res.bind_eq_ok] at e1; obtain ⟨y, -, e1⟩ := e1
      rw [Res.bind_eq_ok] at e1; obtain ⟨s2, e2, e1⟩ := e1
      cases e1; exact .reslice h0 rfl e2
  case clear => simp only [step] at e; rw [Res.bind_eq_ok] at e; obtain ⟨s1, e1, e⟩ := e; cases e; exact .reslice h0 rfl e1
  case resize n =>
    simp only [step] at e; rw [Res.bind_eq_ok] at e; obtain ⟨s1, e1, e⟩ := e; cases e
    unfold resize at e1; split at e1
    · cases e1; exact .same h0 rfl
    · exact .reslice h0 rfl e1
  case size => simp only [step] at e; cases e; exact .same h0 rfl
  case empty => simp only [step] at e; cases e; exact .same h0 rfl
  case reserve c =>
    simp only [step] at e; rw [Res.bind_eq_ok] at e; obtain ⟨⟨m1, s1⟩, e1, e⟩ := e; cases e
    unfold reserve at e1
    split at e1
    · next hc => cases e1; exact .same h0 (if_pos (by omega))
    · next hc =>
      have hle := h.le
      simp only [size] at e1
      obtain ⟨o2, a2, k2, l2, f2, -⟩ := fresh_effect (zero := zero) h (by omega) e1
      refine ⟨o2, ?_⟩
      simp only [moves]
      rw [if_neg (by omega)]
      exact ⟨a2, k2, f2⟩
  case shrinkToFit =>
    simp only [step] at e; rw [Res.bind_eq_ok] at e; obtain ⟨⟨m1, s1⟩, e1, e⟩ := e; cases e
    unfold shrinkToFit at e1
    split at e1
    · next hc => cases e1; exact .same h0 (if_pos hc)
    · next hc =>
      simp only [size] at e1
      obtain ⟨o2, a2, k2, l2, f2, -⟩ := fresh_effect (zero := zero) h (by omega) e1
      refine ⟨o2, ?_⟩
      simp only [moves]
      rw [if_neg hc]
      exact ⟨a2, by rw [k2]; simp, f2⟩

/-! ## Refinement -/

/-- All headers are sound, start their array, and vectors share no array. -/
structure DInv (w : DWorld T) : Prop where
  inv : WInv ⟨w.mem, w.vecs⟩
  off : ∀ (i : Nat) (s : Slice), w.vecs[i]? = some s → s.off = 0
  dwf : ∀ (i : Nat) (s : Slice), w.datas[i]? = some s → WF w.mem s ∧ s.off = 0

/-- The vector a header denotes. -/
def svec (m : Mem T) (s : Slice) : SVec T := ⟨contents m s, s.cap, s.arr⟩
/-- The slice a header denotes. -/
def sdata (m : Mem T) (s : Slice) : SData T := ⟨contents m s, s.arr⟩

/-- What the program can see of a state. -/
def view (w : DWorld T) : SState T := ⟨w.vecs.map (svec w.mem), w.datas.map (sdata w.mem), w.mem.length⟩

theorem view_vec (w : DWorld T) (i : Nat) : (view w).vecs[i]? = (w.vecs[i]?).map (svec w.mem) := by simp [view]
theorem view_data (w : DWorld T) (i : Nat) : (view w).datas[i]? = (w.datas[i]?).map (sdata w.mem) := by simp [view]

theorem backing_congr {m m' : Mem T} {s : Slice} (h : m'[s.arr]? = m[s.arr]?) : backing m' s = backing m s := by simp only [backing, h]

theorem WF.congr {m m' : Mem T} {s : Slice} (hs : WF m s) (hl : m.length ≤ m'.length) (h : m'[s.arr]? = m[s.arr]?) : WF m' s :=
  ⟨by have := hs.arr; omega, by rw [backing_congr h]; exact hs.fits, hs.le⟩

theorem contents_congr {m m' : Mem T} {s : Slice} (h : m'[s.arr]? = m[s.arr]?) : contents m' s = contents m s := by
  simp only [contents, backing_congr h]

/-- A window on the array of a vector that was changed in place. -/
theorem window {m m' : Mem T} {s' d : Slice} (hs : WF m' s') (h0 : s'.off = 0) (hd : WF m d) (hd0 : d.off = 0) (ha : d.arr = s'.arr)
    (hw : Within m m' s'.arr s'.len) : WF m' d ∧ contents m' d = overlay (contents m' s') (contents m d) := by
  have hB : ∀ k, s'.len ≤ k → (backing m' d)[k]? = (backing m d)[k]? := by
    intro k hk
    simp only [backing, ha]; exact hw.cells k hk
  have hb : backing m' d = backing m' s' := by simp only [backing, ha]
  have hle : s'.len ≤ (backing m' d).length := by rw [hb]; have := hs.fits; have := hs.le; omega
  have hdf := hd.fits
  have hdl := hd.le
  have hlen : d.len ≤ (backing m' d).length ∧ d.off + d.cap ≤ (backing m' d).length := by
    suffices d.off + d.cap ≤ (backing m' d).length by omega
    rcases Nat.lt_or_ge (backing m' d).length (d.off + d.cap) with hh | hh
    · have h1 : (backing m' d)[(backing m' d).length]? = none := List.getElem?_eq_none (Nat.le_refl _)
      rw [hB _ hle, List.getElem?_eq_none_iff] at h1
      omega
    · exact hh
  refine ⟨⟨by have := hw.length; have := hd.arr; omega, hlen.2, hd.le⟩, ?_⟩
  have hcs : contents m' s' = (backing m' d).take s'.len := by simp [contents, h0, hb]
  have hl1 : (contents m' s').length = s'.len := hs.contents_length
  have hl2 : (contents m d).length = d.len := hd.contents_length
  have hcd : contents m' d = (backing m' d).take d.len := by simp [contents, hd0]
  have hcd0 : contents m d = (backing m d).take d.len := by simp [contents, hd0]
  unfold overlay
  apply List.ext_getElem?
  intro k
  rw [hcd, List.getElem?_append]
  simp only [List.length_take, hl1, hl2]
  rw [hcs, hcd0]
  simp only [List.getElem?_take, List.getElem?_drop]
  by_cases c1 : k < d.len
  · by_cases c2 : k < s'.len
    · rw [if_pos c1, if_pos (by omega), if_pos c1, if_pos c2]
    · rw [if_pos c1, if_neg (by omega), hB k (by omega)]
      have e : s'.len + (k - min d.len s'.len) = k := by omega
      rw [e, if_pos c1]
  · rw [if_neg c1, if_neg (by omega), if_neg (by omega)]

/-- Writing one cell through a window. -/
theorem put_window {m : Mem T} {d s : Slice} (hs : WF m s) (hs0 : s.off = 0) (hd : WF m d) (hd0 : d.off = 0) {k : Int} (hk0 : 0 ≤ k) (hk1 : k < d.len) {x : T} {m' : Mem T}
    (e : write m d k x = .ok m') : WF m' s ∧ contents m' s = if s.arr = d.arr then put k.toNat x (contents m s) else contents m s := by
  unfold write at e
  rw [if_pos ⟨hk0, hk1⟩] at e
  cases e
  by_cases ha : s.arr = d.arr
  · rw [if_pos ha]
    have hb : backing (m.set d.arr ((backing m d).set (d.off + k.toNat) x)) s = (backing m s).set (d.off + k.toNat) x := by
      have : backing m d = backing m s := by simp only [backing, ha]
      rw [this, ← ha]; exact backing_set_self hs.arr _
    refine ⟨⟨by simpa using hs.arr, by rw [hb]; simpa using hs.fits, hs.le⟩, ?_⟩
    simp only [contents]
    rw [hb]
    simp only [put, hd0, hs0, List.drop_zero, Nat.zero_add]
    exact List.take_set
  · rw [if_neg ha]
    have hg : (m.set d.arr ((backing m d).set (d.off + k.toNat) x))[s.arr]? = m[s.arr]? := by
      rw [List.getElem?_set, if_neg (fun h => ha h.symm)]
    exact ⟨WF.congr hs (by simp) hg, contents_congr hg⟩

/-- The model step agrees with the specification step. -/
def DRef (r : Res (Out T × DWorld T)) (q : Res (Out T × SState T)) : Prop :=
  match q with
  | .ok (o, st) => ∃ w', r = .ok (o, w') ∧ DInv w' ∧ view w' = st
  | .panic => r = .panic
  | .outOfFuel => False

theorem DInv.alloc {w : DWorld T} (h : DInv w) {m' : Mem T} {s' : Slice} (hf : Fresh w.mem m') (hw : WF m' s') (h0 : s'.off = 0) (ha : s'.arr = w.mem.length) :
    DInv { w with mem := m', vecs := w.vecs ++ [s'] } ∧
    view { w with mem := m', vecs := w.vecs ++ [s'] } =
      { view w with vecs := (view w).vecs ++ [svec m' s'], fresh := (view w).fresh + 1 } := by
  have hF : ∀ k, Frame w.mem m' k := fun k => ⟨by rw [hf.length]; omega, fun j _ hj => hf.others j hj⟩
  have hW := (h.inv.push (w := ⟨w.mem, w.vecs⟩) hF hw rfl (Nat.le_of_eq ha.symm)).1
  have hold : ∀ s : Slice, WF w.mem s → WF m' s ∧ contents m' s = contents w.mem s := fun s hs =>
    ⟨WF.congr hs (by rw [hf.length]; omega) (hf.others _ hs.arr), contents_congr (hf.others _ hs.arr)⟩
  refine ⟨⟨hW, ?_, fun i s hs => ⟨(hold s (h.dwf i s hs).1).1, (h.dwf i s hs).2⟩⟩, ?_⟩
  · intro i s hs
    simp only [List.getElem?_append] at hs
    split at hs
    · exact h.off i s hs
    · simp only [List.getElem?_singleton] at hs
      split at hs
      · cases hs; exact h0
      · cases hs
  · have e1 : w.vecs.map (svec m') = w.vecs.map (svec w.mem) := by
      apply List.map_congr_left
      intro s hs
      obtain ⟨i, hi⟩ := List.getElem?_of_mem hs
      simp only [svec, (hold s (h.inv.wf i s hi)).2]
    have e2 : w.datas.map (sdata m') = w.datas.map (sdata w.mem) := by
      apply List.map_congr_left
      intro s hs
      obtain ⟨i, hi⟩ := List.getElem?_of_mem hs
      simp only [sdata, (hold s (h.dwf i s hi).1).2]
    simp [view, e1, e2, hf.length]

theorem map_set_congr {α β : Type} {f g : α → β} : ∀ {l : List α} {i : Nat} {a : α} {b : β}, (∀ j x, j ≠ i → l[j]? = some x → f x = g x) → f a = b →
    (l.set i a).map f = (l.map g).set i b := by
  intro l i a b h hb
  apply List.ext_getElem?
  intro j
  rw [List.getElem?_map, List.getElem?_set, List.getElem?_set, List.getElem?_map]
  by_cases c : i = j
  · subst c
    simp only [if_true, List.length_map]
    split
    · simp [hb]
    · rfl
  · rw [if_neg c, if_neg c]
    cases hj : l[j]? with
    | none => rfl
    | some x => simp only [Option.map_some]; rw [h j x (fun e => c e.symm) hj]

theorem on_refines {w : DWorld T} (h : DInv w) (i : Nat) (op : Op T) : DRef (dstep zero (.vec (.on i op)) w) (dspec (.vec (.on i op)) (view w)) := by
  simp only [dstep, wstep, dspec, view_vec]
  cases hi : w.vecs[i]? with
  | none => rfl
  | some s =>
    have hs := h.inv.wf i s hi
    have h0 := h.off i s hi
    have hlen := hs.contents_length
    simp only [Option.map_some, Res.ofOption_some, Res.ok_bind]
    have hr := step_refines (zero := zero) hs op
    cases hsp : specStep op (contents w.mem s) with
    | panic =>
      rw [hsp] at hr; simp only [Refines] at hr
      simp only [svec, hsp, hr]; rfl
    | outOfFuel => rw [hsp] at hr; exact hr.elim
    | ok r =>
      obtain ⟨o, l⟩ := r
      rw [hsp] at hr
      obtain ⟨m', s', e, d⟩ := hr
      have hU := (h.inv.update (w := ⟨w.mem, w.vecs⟩) hi d).1
      obtain ⟨o', ef⟩ := step_effect (zero := zero) hs h0 e
      simp only [svec, hsp, e, Res.ok_bind, hlen]
      have hoff : ∀ (j : Nat) (t : Slice), (w.vecs.set i s')[j]? = some t → t.off = 0 := by
        intro j t ht
        rw [List.getElem?_set] at ht
        split at ht
        · split at ht
          · cases ht; exact o'
          · cases ht
        · exact h.off j t ht
      cases hm : moves s.len s.cap op with
      | none =>
        simp only [hm] at ef
        obtain ⟨a1, k1, w1⟩ := ef
        have hdat : ∀ (j : Nat) (t : Slice), w.datas[j]? = some t → WF m' t ∧ sdata m' t = if t.arr = s.arr then ⟨overlay l (contents w.mem t), t.arr⟩ else sdata w.mem t := by
          intro j t ht
          obtain ⟨t1, t2⟩ := h.dwf j t ht
          by_cases c : t.arr = s.arr
          · obtain ⟨v1, v2⟩ := window d.wf o' t1 t2 (c.trans a1.symm) (a1 ▸ w1)
            rw [if_pos c]
            refine ⟨v1, ?_⟩
            simp only [sdata, v2, d.contents]
          · rw [if_neg c]
            refine ⟨WF.congr t1 (Nat.le_of_eq w1.length.symm) (w1.others _ c), ?_⟩
            simp only [sdata, contents_congr (w1.others _ c)]
        refine ⟨_, rfl, ⟨hU, hoff, fun j t ht => ⟨(hdat j t ht).1, (h.dwf j t ht).2⟩⟩, ?_⟩
        simp only [view, SState.refresh, w1.length, List.map_map, SState.mk.injEq, and_true]
        constructor
        · apply map_set_congr
          · intro j t hj ht
            have := h.inv.disj i j s t (fun e => hj e.symm) hi ht
            simp only [svec, contents_congr (w1.others _ (fun e => this e.symm))]
          · simp only [svec, d.contents, k1, a1]
        · apply List.map_congr_left
          intro t ht
          obtain ⟨j, hj⟩ := List.getElem?_of_mem ht
          rw [(hdat j t hj).2]
          rfl
      | some c =>
        simp only [hm] at ef
        obtain ⟨a1, k1, f1⟩ := ef
        have hold : ∀ t : Slice, WF w.mem t → WF m' t ∧ contents m' t = contents w.mem t := fun t ht =>
          ⟨WF.congr ht (by rw [f1.length]; omega) (f1.others _ ht.arr), contents_congr (f1.others _ ht.arr)⟩
        refine ⟨_, rfl, ⟨hU, hoff, fun j t ht => ⟨(hold t (h.dwf j t ht).1).1, (h.dwf j t ht).2⟩⟩, ?_⟩
        simp only [view, f1.length, SState.mk.injEq, and_true]
        constructor
        · apply map_set_congr
          · intro j t hj ht
            simp only [svec, (hold t (h.inv.wf j t ht)).2]
          · simp only [svec, d.contents, k1, a1]
        · apply List.map_congr_left
          intro t ht
          obtain ⟨j, hj⟩ := List.getElem?_of_mem ht
          simp only [sdata, (hold t (h.dwf j t hj).1).2]

theorem at?_isSome {l : List T} {k : Int} : (∃ x, Seq.at? l k = some x) ↔ 0 ≤ k ∧ k < l.length := by
  unfold Seq.at?
  split
  · next h =>
    constructor
    · rintro ⟨x, hx⟩
      have := (List.getElem?_eq_some_iff.1 hx).1
      omega
    · rintro ⟨-, h2⟩
      exact ⟨_, List.getElem?_eq_getElem (by omega)⟩
  · next h => constructor
              · rintro ⟨x, hx⟩; cases hx
              · omega

theorem dstep_refines {w : DWorld T} (h : DInv w) (c : DCall T) : DRef (dstep zero c w) (dspec c (view w)) := by
  cases c with
  | vec c =>
    cases c with
    | on i op => exact on_refines h i op
    | new k =>
      simp only [dstep, wstep, dspec, new]
      by_cases c : k < 0
      · rw [if_pos c]
        simp only [make]
        rw [if_neg (by omega)]; rfl
      · rw [if_neg c]
        obtain ⟨m', s', e, w1, c1, a1, l1, k1, o1, f1, ln⟩ := make_spec zero w.mem (len := 0) (cap := k) (by omega) (by omega)
        obtain ⟨i1, i2⟩ := h.alloc ⟨ln, fun j hj => (f1 w.mem.length).2 j (by omega) hj⟩ w1 o1 a1
        refine ⟨_, by rw [e]; rfl, i1, ?_⟩
        rw [i2]
        have : svec m' s' = ⟨[], k.toNat, w.mem.length⟩ := by simp [svec, c1, k1, a1]
        rw [this]; rfl
    | newFromVector i =>
      simp only [dstep, wstep, dspec, view_vec]
      cases hi : w.vecs[i]? with
      | none => rfl
      | some s =>
        have hs := h.inv.wf i s hi
        have hle := hs.le
        obtain ⟨m', s', e, -⟩ := fresh_copy (zero := zero) hs (cap := s.cap) (by omega)
        obtain ⟨o1, a1, k1, l1, f1, w1, c1⟩ := fresh_effect (zero := zero) hs (by omega) e
        obtain ⟨i1, i2⟩ := h.alloc f1 w1 o1 a1
        refine ⟨_, by simp only [newFromVector]; rw [e]; rfl, i1, ?_⟩
        rw [i2]
        have : svec m' s' = ⟨contents w.mem s, s.cap, w.mem.length⟩ := by simp [svec, c1, k1, a1]
        rw [this]; rfl
  | capacity i =>
    simp only [dstep, dspec, view_vec]
    cases hi : w.vecs[i]? with
    | none => rfl
    | some s => exact ⟨w, rfl, h, rfl⟩
  | data i =>
    simp only [dstep, dspec, view_vec]
    cases hi : w.vecs[i]? with
    | none => rfl
    | some s =>
      refine ⟨_, rfl, ⟨h.inv, h.off, ?_⟩, by simp [view, svec, sdata]⟩
      intro j t ht
      simp only [List.getElem?_append] at ht
      split at ht
      · exact h.dwf j t ht
      · simp only [List.getElem?_singleton] at ht
        split at ht
        · cases ht; exact ⟨h.inv.wf i s hi, h.off i s hi⟩
        · cases ht
  | get d k =>
    simp only [dstep, dspec, view_data]
    cases hd : w.datas[d]? with
    | none => rfl
    | some s =>
      simp only [Option.map_some, Res.ofOption_some, Res.ok_bind, sdata, read_eq (h.dwf d s hd).1]
      cases Seq.at? (contents w.mem s) k with
      | none => rfl
      | some x => exact ⟨w, rfl, h, rfl⟩
  | put d k x =>
    simp only [dstep, dspec, view_data]
    cases hd : w.datas[d]? with
    | none => rfl
    | some s =>
      obtain ⟨hs, hs0⟩ := h.dwf d s hd
      have hl := hs.contents_length
      simp only [Option.map_some, Res.ofOption_some, Res.ok_bind, sdata]
      cases hx : Seq.at? (contents w.mem s) k with
      | none =>
        have : ¬ (0 ≤ k ∧ k < s.len) := by
          intro hc
          obtain ⟨y, hy⟩ := at?_isSome.2 (hl.symm ▸ hc : 0 ≤ k ∧ k < (contents w.mem s).length)
          rw [hx] at hy; cases hy
        have e : write w.mem s k x = .panic := if_neg this
        rw [e]; rfl
      | some y =>
        have hk := at?_isSome.1 ⟨y, hx⟩
        rw [hl] at hk
        obtain ⟨m', e, -, -, f, ln⟩ := write_spec hs hk.1 hk.2 x
        rw [e]
        have key : ∀ t : Slice, WF w.mem t → t.off = 0 → WF m' t ∧ contents m' t = if t.arr = s.arr then put k.toNat x (contents w.mem t) else contents w.mem t :=
          fun t ht ht0 => put_window ht ht0 hs hs0 hk.1 hk.2 e
        refine ⟨_, rfl, ⟨⟨fun i t ht => (key t (h.inv.wf i t ht) (h.off i t ht)).1, h.inv.disj⟩, h.off, fun i t ht => ⟨(key t (h.dwf i t ht).1 (h.dwf i t ht).2).1, (h.dwf i t ht).2⟩⟩, ?_⟩
        simp only [view, ln, List.map_map, SState.mk.injEq, and_true]
        constructor <;> apply List.map_congr_left <;> intro t ht <;> obtain ⟨j, hj⟩ := List.getElem?_of_mem ht
        · simp only [svec, Function.comp, (key t (h.inv.wf j t hj) (h.off j t hj)).2]
          split <;> simp [*]
        · simp only [sdata, Function.comp, (key t (h.dwf j t hj).1 (h.dwf j t hj).2).2]
          split <;> simp [*]

theorem drun_refines (cs : List (DCall T)) : ∀ {w : DWorld T}, DInv w →
    match dspecRun cs (view w) with
    | .ok (os, st) => ∃ w', drun zero cs w = .ok (os, w') ∧ DInv w' ∧ view w' = st
    | .panic => drun zero cs w = .panic
    | .outOfFuel => False := by
  induction cs with
  | nil => intro w h; exact ⟨w, rfl, h, rfl⟩
  | cons c cs ih =>
    intro w h
    have hr := dstep_refines (zero := zero) h c
    simp only [dspecRun, drun]
    cases hs : dspec c (view w) with
    | panic => rw [hs] at hr; simp only [DRef] at hr; rw [hr]; rfl
    | outOfFuel => rw [hs] at hr; exact hr.elim
    | ok r =>
      obtain ⟨o, st⟩ := r
      rw [hs] at hr
      obtain ⟨w1, e1, h1, rfl⟩ := hr
      rw [e1]
      simp only [Res.ok_bind]
      have := ih h1
      cases hs2 : dspecRun cs (view w1) with
      | panic => rw [hs2] at this; simp only at this; rw [this]; rfl
      | outOfFuel => rw [hs2] at this; exact this.elim
      | ok r2 =>
        obtain ⟨os, st2⟩ := r2
        rw [hs2] at this
        obtain ⟨w2, e2, h2, h3⟩ := this
        exact ⟨w2, by rw [e2]; rfl, h2, h3⟩

/-! ## Theorems -/

/-- No vectors, no slices. -/
def dstart : DWorld T := ⟨[], [], []⟩

theorem dstart_inv : DInv (dstart : DWorld T) :=
  ⟨⟨fun i s h => by simp [dstart] at h, fun i j s t _ h => by simp [dstart] at h⟩, fun i s h => by simp [dstart] at h, fun i s h => by simp [dstart] at h⟩

/-- **C68** For every history of calls on any number of vectors, with `Data` taken at any time and read and written by the caller, and with any growth of the
backing arrays: every result, all elements shown by vectors and slices, capacities, and which of them share storage are those of the specification. -/
theorem C68_data (zero : T) (cs : List (DCall T)) :
    match dspecRun cs ⟨[], [], 0⟩ with
    | .ok (os, st) => ∃ w, drun zero cs dstart = .ok (os, w) ∧ view w = st
    | .panic => drun zero cs dstart = .panic
    | .outOfFuel => False := by
  have h := drun_refines (zero := zero) cs dstart_inv
  have e : view (dstart : DWorld T) = ⟨[], [], 0⟩ := rfl
  rw [e] at h
  cases hs : dspecRun cs (⟨[], [], 0⟩ : SState T) with
  | ok r => rw [hs] at h; obtain ⟨w, h1, -, h3⟩ := h; exact ⟨w, h1, h3⟩
  | panic => rw [hs] at h; exact h
  | outOfFuel => rw [hs] at h; exact h

/-- States a program can reach. -/
def DReachable (zero : T) (w : DWorld T) : Prop := ∃ cs os, drun zero cs dstart = .ok (os, w)

theorem DReachable.inv {w : DWorld T} (h : DReachable zero w) : DInv w := by
  obtain ⟨cs, os, e⟩ := h
  have h := drun_refines (zero := zero) cs dstart_inv
  cases hs : dspecRun cs (view (dstart : DWorld T)) with
  | ok r => rw [hs] at h; obtain ⟨w', h1, h2, -⟩ := h; rw [e] at h1; cases h1; exact h2
  | panic => rw [hs] at h; simp only at h; rw [e] at h; cases h
  | outOfFuel => rw [hs] at h; exact h.elim

/-- **C68** While a vector and a slice share storage they agree on all positions both have; a vector and a slice of another vector's storage do not influence each
other by C68_data (`refresh` and `put` touch one storage only), and no two vectors ever share storage. -/
theorem C68_agree {w : DWorld T} (h : DReachable zero w) :
    (∀ (v : SVec T) (d : SData T), v ∈ (view w).vecs → d ∈ (view w).datas → v.store = d.store →
      ∀ k, k < v.elems.length → k < d.elems.length → v.elems[k]? = d.elems[k]?) ∧
    ∀ (i j : Nat) (v u : SVec T), (view w).vecs[i]? = some v → (view w).vecs[j]? = some u → v.store = u.store → i = j := by
  have hi := h.inv
  constructor
  · intro v d hv hd e k h1 h2
    simp only [view, List.mem_map] at hv hd
    obtain ⟨s, hs, rfl⟩ := hv
    obtain ⟨t, ht, rfl⟩ := hd
    obtain ⟨i, hs⟩ := List.getElem?_of_mem hs
    obtain ⟨j, ht⟩ := List.getElem?_of_mem ht
    simp only [svec, sdata] at e h1 h2 ⊢
    rw [(hi.inv.wf i s hs).contents_length] at h1
    rw [(hi.dwf j t ht).1.contents_length] at h2
    rw [contents_get h1, contents_get h2, hi.off i s hs, (hi.dwf j t ht).2]
    simp only [backing, e]
  · intro i j v u hv hu e
    rw [view_vec, Option.map_eq_some_iff] at hv hu
    obtain ⟨s, hs, rfl⟩ := hv
    obtain ⟨t, ht, rfl⟩ := hu
    rcases Nat.decEq i j with hij | hij
    · exact absurd e (hi.inv.disj i j s t hij hs ht)
    · exact hij

/-- `Data`, a write through the slice, a pop and a push that overwrite the slice's last element, a growth that separates the two, and a write each. -/
def ddemo : List (DCall Nat) :=
  [.vec (.new 2), .vec (.on 0 (.pushBack 1 0)), .vec (.on 0 (.pushBack 2 0)), .data 0, .put 0 0 7, .vec (.on 0 (.at 0)), .vec (.on 0 .popBack),
   .vec (.on 0 (.pushBack 9 0)), .get 0 1, .vec (.on 0 (.pushBack 3 4)), .vec (.on 0 (.setAt 0 8)), .put 0 1 5, .get 0 0, .capacity 0]

example : ∃ os st, dspecRun ddemo ⟨[], [], 0⟩ = .ok (os, st) ∧ st.vecs = [⟨[8, 9, 3], 7, 1⟩] ∧ st.datas = [⟨[7, 5], 0⟩] ∧
    os = [.unit, .unit, .unit, .unit, .unit, .val 7, .val 2, .unit, .val 9, .unit, .unit, .unit, .val 7, .int 7] := ⟨_, _, rfl, rfl, rfl, rfl⟩

example : ∃ w, DReachable 0 w ∧ (view w).datas = [⟨[7, 5], 0⟩] := by
  have h := C68_data 0 ddemo
  have e : ∃ os st, dspecRun ddemo ⟨[], [], 0⟩ = .ok (os, st) ∧ st.datas = [⟨[7, 5], 0⟩] := ⟨_, _, rfl, rfl⟩
  obtain ⟨os, st, e, e'⟩ := e
  rw [e] at h
  obtain ⟨w, h1, h2⟩ := h
  exact ⟨w, ⟨ddemo, os, h1⟩, by rw [h2, e']⟩

/-- `C68_agree` on a reachable state in which the last `Data()` slice and the vector share their store. -/
example : ∃ w : DWorld Int, DReachable 0 w ∧ (view w).vecs = [⟨[9, 5], 2, 0⟩] ∧ (view w).datas = [⟨[9, 5], 0⟩] ∧
    ∀ k, k < 2 → [(9 : Int), 5][k]? = [(9 : Int), 5][k]? := by
  let cs : List (DCall Int) := [.vec (.new 2), .vec (.on 0 (.pushBack 7 0)), .vec (.on 0 (.pushBack 5 0)), .data 0, .put 0 0 9]
  have h := C68_data 0 cs
  have e : ∃ os st, dspecRun cs ⟨[], [], 0⟩ = .ok (os, st) ∧ st.vecs = [⟨[9, 5], 2, 0⟩] ∧ st.datas = [⟨[9, 5], 0⟩] := ⟨_, _, rfl, rfl, rfl⟩
  obtain ⟨os, st, e, e1, e2⟩ := e
  rw [e] at h
  obtain ⟨w, h1, h2⟩ := h
  have hw : DReachable 0 w := ⟨cs, os, h1⟩
  refine ⟨w, hw, by rw [h2, e1], by rw [h2, e2], fun k hk => ?_⟩
  exact (C68_agree hw).1 ⟨[9, 5], 2, 0⟩ ⟨[9, 5], 0⟩ (by rw [h2, e1]; simp) (by rw [h2, e2]; simp) rfl k hk hk

end GoSTL.Vector
