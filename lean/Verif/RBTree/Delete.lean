import Verif.RBTree.Insert
/-!
# `Delete` and its fix-up
-/
namespace GoSTL.RB
open T
variable {K V : Type}

set_option maxHeartbeats 2000000

theorem fixupLeft_black {s : Tree K V} {c : Ctx K V} {x wl wr : T K V} {p pb pk pv w wk wv} {n : Nat}
    (hs : Reps s (plug c (.node x p pb pk pv (.node wl w true wk wv wr))))
    (hc : CtxOK c (if pb then n + 2 else n + 1)) (hx : BH x n) (hwl : BH wl n) (hwr : BH wr n)
    (nx : NoRR x) (nwl : NoRR wl) (nwr : NoRR wr) (bx : x.isBlack = true) (hh : pb = false → headBlack c = true) :
    (wl.isBlack = true ∧ wr.isBlack = true ∧ ∃ s', s.fixupLeft p = .ok (s', some p) ∧
      Reps s' (plug c (.node x p pb pk pv (.node wl w false wk wv wr))) ∧ s'.size = s.size ∧ s'.next = s.next) ∨
    (∃ s' t', s.fixupLeft p = .ok (s', s'.root) ∧ Reps s' t' ∧
      t'.entries = (plug c (.node x p pb pk pv (.node wl w true wk wv wr))).entries ∧ NoRR t' ∧ (∃ m, BH t' m) ∧
      s'.size = s.size ∧ s'.next = s.next) := by
  have hp := hs.node_eq
  have hs1 : Reps s (plug (.R x p pb pk pv :: c) (.node wl w true wk wv wr)) := hs
  have hw := hs1.node_eq
  have cl := hs1.split.1.2.1.getColor
  have cr := hs1.split.1.2.2.getColor
  by_cases hb : wl.isBlack = true ∧ wr.isBlack = true
  · left
    refine ⟨hb.1, hb.2, _, ?_, hs1.setBlack false, rfl, rfl⟩
    simp [Tree.fixupLeft, hp, hw, cl, cr, hb.1, hb.2]
  right
  by_cases hrb : wr.isBlack = true
  · have hlb : wl.isBlack = false := by simpa [hrb] using hb
    cases wl with
    | leaf => simp at hlb
    | node a i ib ik iv b =>
      simp at hlb
      subst hlb
      have hs2 : Reps s (plug (.L w true wk wv wr :: .R x p pb pk pv :: c) (.node a i false ik iv b)) := hs
      have hs3 := hs2.setBlack true
      have hs4 := Reps.setBlack (c := .R x p pb pk pv :: c) hs3 false
      obtain ⟨s5, e5, hs5, z1, z2⟩ := rightRotate_spec hs4
      have hp5 := Reps.node_eq (c := c) hs5
      have hs6 := hs5.setBlack pb
      have hs7 := Reps.setBlack (c := c) hs6 true
      have hs7' : Reps _ (plug (.R x p true pk pv :: c) (.node a i pb ik iv (.node b w false wk wv wr))) := hs7
      have hw7 := hs7'.node_eq
      have hs8 := Reps.setBlack (c := .R a i pb ik iv :: .R x p true pk pv :: c) hs7 true
      obtain ⟨s9, e9, hs9, z3, z4⟩ := leftRotate_spec (c := c) hs8
      refine ⟨s9, _, ?_, hs9, by simp [plug_entries], ?_⟩
      · simp only [rootId_node] at cl hp
        simp only [isBlack_node] at cl
        simp [Tree.fixupLeft, hp, hw, cl, cr, hrb, e5, hp5, hw7, e9]
      · obtain ⟨m, h1, h2, h3⟩ := hwl
        simp at h3
        subst h3
        obtain ⟨n1, n2, n3⟩ := nwl
        simp at n1
        have := plug_ok (t := .node (.node x p true pk pv a) i pb ik iv (.node b w true wk wv wr)) hc
          ⟨n + 1, ⟨n, hx, h1, rfl⟩, ⟨n, h2, hwr, rfl⟩, by cases pb <;> rfl⟩
          ⟨by simp, ⟨by simp, nx, n2⟩, ⟨by simp, n3, nwr⟩⟩ (by cases pb <;> simp_all)
        exact ⟨this.1, this.2.1, z3.trans z1, z4.trans z2⟩
  · have hrb : wr.isBlack = false := by simpa using hrb
    cases wr with
    | leaf => simp at hrb
    | node a i ib ik iv b =>
      simp at hrb
      subst hrb
      have hs6 := hs1.setBlack pb
      have hs7 := Reps.setBlack (c := c) hs6 true
      have hs7' : Reps _ (plug (.R x p true pk pv :: c) (.node wl w pb wk wv (.node a i false ik iv b))) := hs7
      have hw7 := hs7'.node_eq
      have hs8 := Reps.setBlack (c := .R wl w pb wk wv :: .R x p true pk pv :: c) hs7 true
      obtain ⟨s9, e9, hs9, z3, z4⟩ := leftRotate_spec (c := c) hs8
      refine ⟨s9, _, ?_, hs9, by simp [plug_entries], ?_⟩
      · simp only [rootId_node] at cr hp
        simp only [isBlack_node] at cr
        simp [Tree.fixupLeft, hp, hw, cl, cr, hw7, e9]
      · obtain ⟨m, h1, h2, h3⟩ := hwr
        simp at h3
        subst h3
        obtain ⟨n1, n2, n3⟩ := nwr
        simp at n1
        have := plug_ok (t := .node (.node x p true pk pv wl) w pb wk wv (.node a i true ik iv b)) hc
          ⟨n + 1, ⟨n, hx, hwl, rfl⟩, ⟨n, h1, h2, rfl⟩, by cases pb <;> rfl⟩
          ⟨by simp, ⟨by simp, nx, nwl⟩, ⟨by simp, n2, n3⟩⟩ (by cases pb <;> simp_all)
        exact ⟨this.1, this.2.1, z3, z4⟩

theorem fixupRight_black {s : Tree K V} {c : Ctx K V} {x wl wr : T K V} {p pb pk pv w wk wv} {n : Nat}
    (hs : Reps s (plug c (.node (.node wr w true wk wv wl) p pb pk pv x)))
    (hc : CtxOK c (if pb then n + 2 else n + 1)) (hx : BH x n) (hwl : BH wl n) (hwr : BH wr n)
    (nx : NoRR x) (nwl : NoRR wl) (nwr : NoRR wr) (bx : x.isBlack = true) (hh : pb = false → headBlack c = true) :
    (wl.isBlack = true ∧ wr.isBlack = true ∧ ∃ s', s.fixupRight p = .ok (s', some p) ∧
      Reps s' (plug c (.node (.node wr w false wk wv wl) p pb pk pv x)) ∧ s'.size = s.size ∧ s'.next = s.next) ∨
    (∃ s' t', s.fixupRight p = .ok (s', s'.root) ∧ Reps s' t' ∧
      t'.entries = (plug c (.node (.node wr w true wk wv wl) p pb pk pv x)).entries ∧ NoRR t' ∧ (∃ m, BH t' m) ∧
      s'.size = s.size ∧ s'.next = s.next) := by
  have hp := hs.node_eq
  have hs1 : Reps s (plug (.L p pb pk pv x :: c) (.node wr w true wk wv wl)) := hs
  have hw := hs1.node_eq
  have cl := hs1.split.1.2.2.getColor
  have cr := hs1.split.1.2.1.getColor
  by_cases hb : wl.isBlack = true ∧ wr.isBlack = true
  · left
    refine ⟨hb.1, hb.2, _, ?_, hs1.setBlack false, rfl, rfl⟩
    simp [Tree.fixupRight, hp, hw, cl, cr, hb.1, hb.2]
  right
  by_cases hrb : wr.isBlack = true
  · have hlb : wl.isBlack = false := by simpa [hrb] using hb
    cases wl with
    | leaf => simp at hlb
    | node b i ib ik iv a =>
      simp at hlb
      subst hlb
      have hs2 : Reps s (plug (.R wr w true wk wv :: .L p pb pk pv x :: c) (.node b i false ik iv a)) := hs
      have hs3 := hs2.setBlack true
      have hs4 := Reps.setBlack (c := .L p pb pk pv x :: c) hs3 false
      obtain ⟨s5, e5, hs5, z1, z2⟩ := leftRotate_spec hs4
      have hp5 := Reps.node_eq (c := c) hs5
      have hs6 := hs5.setBlack pb
      have hs7 := Reps.setBlack (c := c) hs6 true
      have hs7' : Reps _ (plug (.L p true pk pv x :: c) (.node (.node wr w false wk wv b) i pb ik iv a)) := hs7
      have hw7 := hs7'.node_eq
      have hs8 := Reps.setBlack (c := .L i pb ik iv a :: .L p true pk pv x :: c) hs7 true
      obtain ⟨s9, e9, hs9, z3, z4⟩ := rightRotate_spec (c := c) hs8
      refine ⟨s9, _, ?_, hs9, by simp [plug_entries], ?_⟩
      · simp only [rootId_node] at cl hp
        simp only [isBlack_node] at cl
        simp [Tree.fixupRight, hp, hw, cl, cr, hrb, e5, hp5, hw7, e9]
      · obtain ⟨m, h1, h2, h3⟩ := hwl
        simp at h3
        subst h3
        obtain ⟨n1, n2, n3⟩ := nwl
        simp at n1
        have := plug_ok (t := .node (.node wr w true wk wv b) i pb ik iv (.node a p true pk pv x)) hc
          ⟨n + 1, ⟨n, hwr, h1, rfl⟩, ⟨n, h2, hx, rfl⟩, by cases pb <;> rfl⟩
          ⟨by simp, ⟨by simp, nwr, n2⟩, ⟨by simp, n3, nx⟩⟩ (by cases pb <;> simp_all)
        exact ⟨this.1, this.2.1, z3.trans z1, z4.trans z2⟩
  · have hrb : wr.isBlack = false := by simpa using hrb
    cases wr with
    | leaf => simp at hrb
    | node b i ib ik iv a =>
      simp at hrb
      subst hrb
      have hs6 := hs1.setBlack pb
      have hs7 := Reps.setBlack (c := c) hs6 true
      have hs7' : Reps _ (plug (.L p true pk pv x :: c) (.node (.node b i false ik iv a) w pb wk wv wl)) := hs7
      have hw7 := hs7'.node_eq
      have hs8 := Reps.setBlack (c := .L w pb wk wv wl :: .L p true pk pv x :: c) hs7 true
      obtain ⟨s9, e9, hs9, z3, z4⟩ := rightRotate_spec (c := c) hs8
      refine ⟨s9, _, ?_, hs9, by simp [plug_entries], ?_⟩
      · simp only [rootId_node] at cr hp
        simp only [isBlack_node] at cr
        simp [Tree.fixupRight, hp, hw, cl, cr, hw7, e9]
      · obtain ⟨m, h1, h2, h3⟩ := hwr
        simp at h3
        subst h3
        obtain ⟨n1, n2, n3⟩ := nwr
        simp at n1
        have := plug_ok (t := .node (.node b i true ik iv a) w pb wk wv (.node wl p true pk pv x)) hc
          ⟨n + 1, ⟨n, h1, h2, rfl⟩, ⟨n, hwl, hx, rfl⟩, by cases pb <;> rfl⟩
          ⟨by simp, ⟨by simp, n2, n3⟩, ⟨by simp, nwl, nx⟩⟩ (by cases pb <;> simp_all)
        exact ⟨this.1, this.2.1, z3, z4⟩

/-- With a red sibling, `rbFixupLeft` first rotates and then behaves as on the rotated tree. -/
theorem fixupLeft_red {s : Tree K V} {c : Ctx K V} {x a d : T K V} {p pb pk pv w wk wv}
    {yl yr : T K V} {y yk yv} (hd : d = .node yl y true yk yv yr)
    (hs : Reps s (plug c (.node x p pb pk pv (.node d w false wk wv a)))) :
    ∃ s', s.fixupLeft p = s'.fixupLeft p ∧
      Reps s' (plug c (.node (.node x p false pk pv d) w true wk wv a)) ∧ s'.size = s.size ∧ s'.next = s.next := by
  subst hd
  have hp := hs.node_eq
  have hs1 : Reps s (plug (.R x p pb pk pv :: c) (.node (.node yl y true yk yv yr) w false wk wv a)) := hs
  have hw := hs1.node_eq
  have hs2 := hs1.setBlack true
  have hs3 := Reps.setBlack (c := c) hs2 false
  obtain ⟨s4, e4, hs4, z1, z2⟩ := leftRotate_spec hs3
  refine ⟨s4, ?_, hs4, z1, z2⟩
  have hs5 : Reps s4 (plug (.L w true wk wv a :: c) (.node x p false pk pv (.node yl y true yk yv yr))) := hs4
  have hp5 := hs5.node_eq
  have hy5 := Reps.node_eq (c := .R x p false pk pv :: .L w true wk wv a :: c) hs5
  rw [Tree.fixupLeft, hp]
  conv => rhs; rw [Tree.fixupLeft, hp5]
  simp [hw, e4, hp5, hy5]

theorem fixupRight_red {s : Tree K V} {c : Ctx K V} {x a d : T K V} {p pb pk pv w wk wv}
    {yl yr : T K V} {y yk yv} (hd : d = .node yl y true yk yv yr)
    (hs : Reps s (plug c (.node (.node a w false wk wv d) p pb pk pv x))) :
    ∃ s', s.fixupRight p = s'.fixupRight p ∧
      Reps s' (plug c (.node a w true wk wv (.node d p false pk pv x))) ∧ s'.size = s.size ∧ s'.next = s.next := by
  subst hd
  have hp := hs.node_eq
  have hs1 : Reps s (plug (.L p pb pk pv x :: c) (.node a w false wk wv (.node yl y true yk yv yr))) := hs
  have hw := hs1.node_eq
  have hs2 := hs1.setBlack true
  have hs3 := Reps.setBlack (c := c) hs2 false
  obtain ⟨s4, e4, hs4, z1, z2⟩ := rightRotate_spec hs3
  refine ⟨s4, ?_, hs4, z1, z2⟩
  have hs5 : Reps s4 (plug (.R a w true wk wv :: c) (.node (.node yl y true yk yv yr) p false pk pv x)) := hs4
  have hp5 := hs5.node_eq
  have hy5 := Reps.node_eq (c := .L p false pk pv x :: .R a w true wk wv :: c) hs5
  rw [Tree.fixupRight, hp]
  conv => rhs; rw [Tree.fixupRight, hp5]
  simp [hw, e4, hp5, hy5]

/-- Result of one round of the delete fix-up at parent `p`: either the deficit moves to `p` or the tree is repaired. -/
def RoundGoal (res : Res (Tree K V × Option Id)) (s : Tree K V) (p : Id) (c : Ctx K V) (n : Nat)
    (t : T K V) : Prop :=
  (∃ s' c' l r b k v m, res = .ok (s', some p) ∧ Reps s' (plug c' (.node l p b k v r)) ∧
    (plug c' (.node l p b k v r)).entries = t.entries ∧ BH (.node l p b k v r) m ∧ CtxOK c' (m + 1) ∧ NoRR l ∧ NoRR r ∧
    (b = false ∨ c'.length ≤ c.length) ∧ s'.size = s.size ∧ s'.next = s.next) ∨
  (∃ s' t', res = .ok (s', s'.root) ∧ Reps s' t' ∧ t'.entries = t.entries ∧ NoRR t' ∧ (∃ m, BH t' m) ∧
    s'.size = s.size ∧ s'.next = s.next)

theorem fixupLeft_spec {s : Tree K V} {c : Ctx K V} {x wt : T K V} {p pb pk pv} {n : Nat}
    (hs : Reps s (plug c (.node x p pb pk pv wt))) (hc : CtxOK (.L p pb pk pv wt :: c) (n + 1))
    (hx : BH x n) (nx : NoRR x) (bx : x.isBlack = true) :
    RoundGoal (s.fixupLeft p) s p c n (plug c (.node x p pb pk pv wt)) := by
  obtain ⟨h1, h2, h3, h4⟩ := hc
  cases wt with
  | leaf => simp [BH] at h1
  | node wl w wb wk wv wr =>
    obtain ⟨m, h1, h1', h1''⟩ := h1
    obtain ⟨h2, h2', h2''⟩ := h2
    cases wb with
    | true =>
      simp at h1''
      subst h1''
      rcases fixupLeft_black hs (by cases pb <;> exact h4) hx h1 h1' nx h2' h2'' bx (fun h => (h3 h).2) with
        ⟨g1, g2, s', e, g3, g4⟩ | g
      · left
        refine ⟨s', c, _, _, _, _, _, if pb then n + 1 else n, e, g3, by simp [plug_entries], ?_, ?_, nx,
          ⟨fun _ => ⟨g1, g2⟩, h2', h2''⟩, .inr (Nat.le_refl _), g4⟩
        · exact ⟨n, hx, ⟨n, h1, h1', rfl⟩, rfl⟩
        · cases pb <;> exact h4
      · exact .inr g
    | false =>
      simp at h1''
      subst h1''
      have hpb : pb = true := by
        cases pb with
        | true => rfl
        | false => simpa using (h3 rfl).1
      subst hpb
      simp at h2
      cases wl with
      | leaf => simp [BH] at h1
      | node yl y yb yk yv yr =>
        have h2l := h2.1
        simp at h2l
        subst h2l
        obtain ⟨s4, e4, hs4, z1, z2⟩ := fixupLeft_red rfl hs
        obtain ⟨m, k1, k1', k1''⟩ := h1
        simp at k1''
        subst k1''
        have hs5 : Reps s4 (plug (.L w true wk wv wr :: c) (.node x p false pk pv (.node yl y true yk yv yr))) := hs4
        have hc5 : CtxOK (.L w true wk wv wr :: c) (if false = true then n + 2 else n + 1) :=
          ⟨h1', h2'', by simp, by simpa using h4⟩
        rw [e4]
        rcases fixupLeft_black hs5 hc5 hx k1 k1' nx h2'.2.1 h2'.2.2 bx (fun _ => rfl) with
          ⟨g1, g2, s', e, g3, g4, g5⟩ | ⟨s', t', e, g1, g2, g3, g4, g5, g6⟩
        · left
          refine ⟨s', _, _, _, _, _, _, n, e, g3, by simp [plug_entries], ⟨n, hx, ⟨n, k1, k1', rfl⟩, rfl⟩, hc5, nx,
            ⟨fun _ => ⟨g1, g2⟩, h2'.2.1, h2'.2.2⟩, .inl rfl, g4.trans z1, g5.trans z2⟩
        · exact .inr ⟨s', t', e, g1, by rw [g2]; simp [plug_entries], g3, g4, g5.trans z1, g6.trans z2⟩

theorem fixupRight_spec {s : Tree K V} {c : Ctx K V} {x wt : T K V} {p pb pk pv} {n : Nat}
    (hs : Reps s (plug c (.node wt p pb pk pv x))) (hc : CtxOK (.R wt p pb pk pv :: c) (n + 1))
    (hx : BH x n) (nx : NoRR x) (bx : x.isBlack = true) :
    RoundGoal (s.fixupRight p) s p c n (plug c (.node wt p pb pk pv x)) := by
  obtain ⟨h1, h2, h3, h4⟩ := hc
  cases wt with
  | leaf => simp [BH] at h1
  | node wl w wb wk wv wr =>
    obtain ⟨m, h1, h1', h1''⟩ := h1
    obtain ⟨h2, h2', h2''⟩ := h2
    cases wb with
    | true =>
      simp at h1''
      subst h1''
      rcases fixupRight_black hs (by cases pb <;> exact h4) hx h1' h1 nx h2'' h2' bx (fun h => (h3 h).2) with
        ⟨g1, g2, s', e, g3, g4⟩ | g
      · left
        refine ⟨s', c, _, _, _, _, _, if pb then n + 1 else n, e, g3, by simp [plug_entries], ?_, ?_, ⟨fun _ => ⟨g2, g1⟩, h2', h2''⟩,
          nx, .inr (Nat.le_refl _), g4⟩
        · exact ⟨n, ⟨n, h1, h1', rfl⟩, hx, rfl⟩
        · cases pb <;> exact h4
      · exact .inr g
    | false =>
      simp at h1''
      subst h1''
      have hpb : pb = true := by
        cases pb with
        | true => rfl
        | false => simpa using (h3 rfl).1
      subst hpb
      simp at h2
      cases wr with
      | leaf => simp [BH] at h1'
      | node yl y yb yk yv yr =>
        have h2l := h2.2
        simp at h2l
        subst h2l
        obtain ⟨s4, e4, hs4, z1, z2⟩ := fixupRight_red rfl hs
        obtain ⟨m, k1, k1', k1''⟩ := h1'
        simp at k1''
        subst k1''
        have hs5 : Reps s4 (plug (.R wl w true wk wv :: c) (.node (.node yl y true yk yv yr) p false pk pv x)) := hs4
        have hc5 : CtxOK (.R wl w true wk wv :: c) (if false = true then n + 2 else n + 1) :=
          ⟨h1, h2', by simp, by simpa using h4⟩
        rw [e4]
        rcases fixupRight_black hs5 hc5 hx k1' k1 nx h2''.2.2 h2''.2.1 bx (fun _ => rfl) with
          ⟨g1, g2, s', e, g3, g4, g5⟩ | ⟨s', t', e, g1, g2, g3, g4, g5, g6⟩
        · left
          refine ⟨s', _, _, _, _, _, _, n, e, g3, by simp [plug_entries], ⟨n, ⟨n, k1, k1', rfl⟩, hx, rfl⟩, hc5,
            ⟨fun _ => ⟨g2, g1⟩, h2''.2.1, h2''.2.2⟩, nx, .inl rfl, g4.trans z1, g5.trans z2⟩
        · exact .inr ⟨s', t', e, g1, by rw [g2]; simp [plug_entries], g3, g4, g5.trans z1, g6.trans z2⟩

/-- The last step of `rbDeleteFixup`. -/
def finBlack (s : Tree K V) : Option Id → Tree K V
  | some xi => s.setBlack xi true
  | none => s

/-- What the delete fix-up establishes. -/
def DelGoal (fuel : Nat) (s : Tree K V) (x par : Option Id) (t : T K V) : Prop :=
  ∃ s' x' t', Tree.deleteFixupLoop fuel s x par = .ok (s', x') ∧ Reps (finBlack s' x') t' ∧
    t'.entries = t.entries ∧ RBT t' ∧ s'.size = s.size ∧ s'.next = s.next

theorem deleteFixupLoop_root {s : Tree K V} {t : T K V} {par : Option Id} {fuel : Nat} (hs : Reps s t) (hn : NoRR t)
    (hb : ∃ m, BH t m) : DelGoal (fuel + 1) s s.root par t := by
  have e : Tree.deleteFixupLoop (fuel + 1) s s.root par = .ok (s, s.root) := by simp [Tree.deleteFixupLoop]
  cases t with
  | leaf => exact ⟨s, _, .leaf, e, by rw [hs.root]; exact hs, rfl, ⟨rfl, trivial, 0, rfl⟩, rfl, rfl⟩
  | node l i b k v r =>
    refine ⟨s, _, .node l i true k v r, e, ?_, rfl, ⟨rfl, ⟨by simp, hn.2⟩, ?_⟩, rfl, rfl⟩
    · rw [hs.root]; exact Reps.setBlack (c := []) hs true
    · obtain ⟨m, q, h1, h2, -⟩ := hb; exact ⟨_, q, h1, h2, rfl⟩

/-- A red node absorbs the deficit. -/
theorem deleteFixupLoop_red {s : Tree K V} {c : Ctx K V} {l r : T K V} {i k v} {par : Option Id} {fuel n : Nat}
    (hs : Reps s (plug c (.node l i false k v r))) (hl : BH l n) (hr : BH r n) (hc : CtxOK c (n + 1))
    (nl : NoRR l) (nr : NoRR r) :
    DelGoal (fuel + 1) s (some i) par (plug c (.node l i false k v r)) := by
  have e : Tree.deleteFixupLoop (fuel + 1) s (some i) par = .ok (s, some i) := by
    simp [Tree.deleteFixupLoop, Tree.getColor, hs.node_eq]
  have := plug_ok (t := .node l i true k v r) hc ⟨n, hl, hr, rfl⟩ ⟨by simp, nl, nr⟩ (.inl rfl)
  refine ⟨s, _, _, e, hs.setBlack true, by simp [plug_entries], ⟨?_, this.1, this.2.1⟩, rfl, rfl⟩
  cases c with
  | nil => rfl
  | cons f c => exact this.2.2 (by simp)

theorem DelGoal.congr {fuel : Nat} {s s' : Tree K V} {x par : Option Id} {t t' : T K V} (h : DelGoal fuel s' x par t')
    (he : t'.entries = t.entries) (h1 : s'.size = s.size) (h2 : s'.next = s.next) :
    ∃ s'' x' t'', Tree.deleteFixupLoop fuel s' x par = .ok (s'', x') ∧ Reps (finBlack s'' x') t'' ∧
    t''.entries = t.entries ∧ RBT t'' ∧ s''.size = s.size ∧ s''.next = s.next := by
  obtain ⟨a, b, c, g1, g2, g3, g4, g5, g6⟩ := h
  exact ⟨a, b, c, g1, g2, g3.trans he, g4, g5.trans h1, g6.trans h2⟩

theorem RoundGoal.loop {res : Res (Tree K V × Option Id)} {s : Tree K V} {p : Id} {c : Ctx K V} {n fuel : Nat}
    {t : T K V} {par : Option Id} (h : RoundGoal res s p c n t)
    (ih : ∀ (c' : Ctx K V) (s' : Tree K V) (l r : T K V) (k : K) (v : V) (m : Nat), c'.length ≤ c.length →
      Reps s' (plug c' (.node l p true k v r)) → BH (.node l p true k v r) m → NoRR l → NoRR r → CtxOK c' (m + 1) →
      DelGoal (fuel + 1) s' (some p) par (plug c' (.node l p true k v r))) :
    ∃ s1 x1, res = .ok (s1, x1) ∧
    ∃ s'' x' t'', Tree.deleteFixupLoop (fuel + 1) s1 x1 par = .ok (s'', x') ∧ Reps (finBlack s'' x') t'' ∧
    t''.entries = t.entries ∧ RBT t'' ∧ s''.size = s.size ∧ s''.next = s.next := by
  rcases h with ⟨s', c', l, r, b, k, v, m, e, h1, h2, h3, h4, h5, h6, h7, h8, h9⟩ | ⟨s', t', e, h1, h2, h3, h4, h5, h6⟩
  · refine ⟨s', some p, e, ?_⟩
    cases b with
    | false =>
      obtain ⟨q, h3a, h3b, h3c⟩ := h3
      simp at h3c
      subst h3c
      exact (deleteFixupLoop_red h1 h3a h3b h4 h5 h6).congr h2 h8 h9
    | true => exact (ih c' s' l r k v m (by simpa using h7) h1 h3 h5 h6 h4).congr h2 h8 h9
  · exact ⟨s', _, e, (deleteFixupLoop_root h1 h3 h4).congr h2 h5 h6⟩

theorem deleteFixupLoop_spec (fuel : Nat) : ∀ (c : Ctx K V) (s : Tree K V) (x : T K V) (par : Option Id) (n : Nat),
    c.length + 1 ≤ fuel → Reps s (plug c x) → BH x n → NoRR x → CtxOK c (n + 1) →
    (x.rootId = none → par = parentId c) → DelGoal fuel s x.rootId par (plug c x) := by
  induction fuel with
  | zero => intro c _ _ _ _ h; omega
  | succ fuel ih =>
    intro c s x par n hlen hs hx nx hc hpar
    rcases c with _ | ⟨f, c⟩
    · have := deleteFixupLoop_root (par := par) (fuel := fuel) hs nx ⟨n, hx⟩
      rw [hs.root] at this
      exact this
    obtain ⟨fuel, rfl⟩ : ∃ k, fuel = k + 1 := ⟨fuel - 1, by simp at hlen; omega⟩
    by_cases bx : x.isBlack = true
    swap
    · cases x with
      | leaf => simp at bx
      | node l i b k v r =>
        simp at bx
        subst bx
        obtain ⟨q, h1, h2, h3⟩ := hx
        simp at h3
        subst h3
        exact deleteFixupLoop_red hs h1 h2 hc nx.2.1 nx.2.2
    have hcol := hs.split.1.getColor
    have hroot : ¬ x.rootId = s.root := by
      rw [hs.root]
      rcases plug_rootId_cases (f :: c) x with ⟨h, _⟩ | ⟨_, i, h1, h2⟩
      · simp at h
      · rw [h2]; intro h; exact hs.split.2.2.2.2 i (rootId_mem h) i h1 rfl
    have hpar' : s.fixupParent x.rootId par = .ok (some f.id) := by
      cases x with
      | leaf => simp at hpar; simp [hpar, Tree.fixupParent]
      | node l i b k v r => simp [hs.node_eq, Tree.fixupParent]
    have ih' : ∀ (c' : Ctx K V) (s' : Tree K V) (l r : T K V) (k : K) (v : V) (m : Nat), c'.length ≤ c.length →
      Reps s' (plug c' (.node l f.id true k v r)) → BH (.node l f.id true k v r) m → NoRR l → NoRR r → CtxOK c' (m + 1) →
      DelGoal (fuel + 1) s' (some f.id) (some f.id) (plug c' (.node l f.id true k v r)) := by
      intro c' s' l r k v m h1 h2 h3 h4 h5 h6
      exact ih c' s' (.node l f.id true k v r) _ m (by simp at hlen; omega) h2 h3 ⟨by simp, h4, h5⟩ h6 (by simp)
    cases f with
    | L p pb pk pv wt =>
      have hg := fixupLeft_spec (n := n) hs hc hx nx bx
      obtain ⟨s1, x1, e1, g⟩ := hg.loop ih'
      have hp := Reps.node_eq (c := c) hs
      obtain ⟨s2, x2, t2, e2, g⟩ := g
      refine ⟨s2, x2, t2, ?_, g⟩
      rw [Tree.deleteFixupLoop]
      simp only [hroot, if_false, hcol, bx, Res.ok_bind, Bool.true_eq_false, hpar', Res.ofOption_some,
        Frame.id_L, hp, if_true, e1]
      exact e2
    | R wt p pb pk pv =>
      have hg := fixupRight_spec (n := n) hs hc hx nx bx
      obtain ⟨s1, x1, e1, g⟩ := hg.loop ih'
      have hp := Reps.node_eq (c := c) hs
      have hne : ¬ x.rootId = wt.rootId := by
        cases wt with
        | leaf => exact absurd hc.1 (by simp [BH])
        | node wl w wb wk wv wr =>
          intro h
          exact hs.split.2.2.2.2 w (rootId_mem h) w (by simp) rfl
      obtain ⟨s2, x2, t2, e2, g⟩ := g
      refine ⟨s2, x2, t2, ?_, g⟩
      rw [Tree.deleteFixupLoop]
      simp only [hroot, if_false, hcol, bx, Res.ok_bind, Bool.true_eq_false, hpar', Res.ofOption_some,
        Frame.id_R, hp, hne, if_false, e1]
      exact e2

theorem deleteFixup_spec {B : Nat} {c : Ctx K V} {s : Tree K V} {x : T K V} {n : Nat} (hs : Reps s (plug c x)) (hx : BH x n)
    (nx : NoRR x) (hc : CtxOK c (n + 1)) (hB : c.length < B) :
    ∃ s' t', Tree.deleteFixup B s x.rootId (parentId c) = .ok s' ∧ Reps s' t' ∧ t'.entries = (plug c x).entries ∧ RBT t' ∧
      s'.size = s.size ∧ s'.next = s.next := by
  obtain ⟨s', x', t', e, h1, h2, h3, h4, h5⟩ :=
    deleteFixupLoop_spec B c s x (parentId c) n hB hs hx nx hc (fun _ => rfl)
  refine ⟨finBlack s' x', t', ?_, h1, h2, h3, ?_, ?_⟩
  · simp only [Tree.deleteFixup, e, Res.ok_bind]
    cases x' <;> rfl
  · rw [← h4]; cases x' <;> rfl
  · rw [← h5]; cases x' <;> rfl

end GoSTL.RB
