import Verif.RBTree.Holds
/-!
# What a tree operation writes

Trees share the memory. An operation on one tree writes only to nodes that can be reached from its root, and to new ones (used by C107).
-/
namespace GoSTL.RB
open T
variable {K V α β : Type}

/-- If the call returns, the result satisfies `P`. -/
def OkP (r : Res α) (P : α → Prop) : Prop := ∀ a, r = .ok a → P a

theorem OkP.bind {r : Res α} {f : α → Res β} {P : α → Prop} {Q : β → Prop} (h : OkP r P) (g : ∀ a, P a → OkP (f a) Q) : OkP (r >>= f) Q := by
  intro b e
  rw [Res.bind_eq_ok] at e
  obtain ⟨a, e1, e2⟩ := e
  exact g a (h a e1) b e2

theorem OkP.ok {a : α} {P : α → Prop} (h : P a) : OkP (.ok a) P := fun b e => by cases e; exact h
theorem OkP.pure {a : α} {P : α → Prop} (h : P a) : OkP (Pure.pure a) P := OkP.ok h
theorem OkP.panic {P : α → Prop} : OkP .panic P := fun _ e => by cases e
theorem OkP.outOfFuel {P : α → Prop} : OkP .outOfFuel P := fun _ e => by cases e
theorem OkP.mono {r : Res α} {P Q : α → Prop} (h : OkP r P) (g : ∀ a, P a → Q a) : OkP r Q := fun a e => g a (h a e)

/-- A pointer into the set, or nil. -/
def PIn (Q : Id → Prop) (p : Option Id) : Prop := ∀ i, p = some i → Q i

theorem PIn.none {Q : Id → Prop} : PIn Q none := fun _ e => by cases e
theorem PIn.some {Q : Id → Prop} {i : Id} (h : Q i) : PIn Q (some i) := fun _ e => by cases e; exact h
theorem PIn.elim {Q : Id → Prop} {i : Id} (h : PIn Q (Option.some i)) : Q i := h i rfl

theorem OkP.ofOption {Q : Id → Prop} {p : Option Id} (h : PIn Q p) : OkP (Res.ofOption p) Q := by
  cases p with
  | none => exact OkP.panic
  | some i => exact OkP.ok h.elim

/-- The pointers of a node. -/
structure NIn (Q : Id → Prop) (n : Node K V) : Prop where
  parent : PIn Q n.parent
  left : PIn Q n.left
  right : PIn Q n.right

/-- The set holds the root and everything its nodes point to. -/
structure Own (Q : Id → Prop) (t : Tree K V) : Prop where
  root : PIn Q t.root
  closed : ∀ i n, Q i → t.heap i = some n → NIn Q n

/-- Only nodes of the set are written. -/
structure Fr (Q : Id → Prop) (t t' : Tree K V) : Prop where
  own : Own Q t'
  same : ∀ i, ¬ Q i → t'.heap i = t.heap i
  next : t'.next = t.next

variable {Q : Id → Prop} {t t' t'' : Tree K V}

theorem Fr.refl (h : Own Q t) : Fr Q t t := ⟨h, fun _ _ => rfl, rfl⟩

theorem Fr.trans (h1 : Fr Q t t') (h2 : Fr Q t' t'') : Fr Q t t'' :=
  ⟨h2.own, fun i hi => (h2.same i hi).trans (h1.same i hi), h2.next.trans h1.next⟩

theorem OkP.trans {r : Res (Tree K V)} (h1 : Fr Q t t') (h2 : OkP r (Fr Q t')) : OkP r (Fr Q t) := h2.mono fun _ h => h1.trans h

theorem Own.node (h : Own Q t) {i : Id} (hi : Q i) : OkP (t.node i) (NIn Q) := by
  intro n e
  simp only [Tree.node] at e
  cases e1 : t.heap i with
  | none => rw [e1] at e; cases e
  | some m => rw [e1] at e; cases e; exact h.closed i _ hi e1

theorem Own.modify (h : Own Q t) {i : Id} (hi : Q i) {f : Node K V → Node K V} (hf : ∀ n, NIn Q n → NIn Q (f n)) : Fr Q t (t.modify i f) := by
  refine ⟨⟨h.root, fun j n hj e => ?_⟩, fun j hj => ?_, rfl⟩
  · simp only [Tree.modify] at e
    split at e
    · cases e1 : t.heap i with
      | none => rw [e1] at e; cases e
      | some m => rw [e1] at e; cases e; exact hf m (h.closed i m hi e1)
    · exact h.closed j n hj e
  · simp only [Tree.modify]
    rw [if_neg (fun c : j = i => hj (by rw [c]; exact hi))]

theorem Own.setParent (h : Own Q t) {i : Id} (hi : Q i) {p : Option Id} (hp : PIn Q p) : Fr Q t (t.setParent i p) :=
  h.modify hi fun _ hn => ⟨hp, hn.left, hn.right⟩
theorem Own.setLeft (h : Own Q t) {i : Id} (hi : Q i) {p : Option Id} (hp : PIn Q p) : Fr Q t (t.setLeft i p) :=
  h.modify hi fun _ hn => ⟨hn.parent, hp, hn.right⟩
theorem Own.setRight (h : Own Q t) {i : Id} (hi : Q i) {p : Option Id} (hp : PIn Q p) : Fr Q t (t.setRight i p) :=
  h.modify hi fun _ hn => ⟨hn.parent, hn.left, hp⟩
theorem Own.setBlack (h : Own Q t) {i : Id} (hi : Q i) (b : Bool) : Fr Q t (t.setBlack i b) :=
  h.modify hi fun _ hn => ⟨hn.parent, hn.left, hn.right⟩
theorem Own.setValue (h : Own Q t) {i : Id} (hi : Q i) (v : V) : Fr Q t (t.setValue i v) :=
  h.modify hi fun _ hn => ⟨hn.parent, hn.left, hn.right⟩
theorem Own.setKV (h : Own Q t) {i : Id} (hi : Q i) (k : K) (v : V) : Fr Q t (t.setKV i k v) :=
  h.modify hi fun _ hn => ⟨hn.parent, hn.left, hn.right⟩
theorem Own.setRoot (h : Own Q t) {p : Option Id} (hp : PIn Q p) : Fr Q t { t with root := p } :=
  ⟨⟨hp, h.closed⟩, fun _ _ => rfl, rfl⟩

theorem Own.leftRotate_tail (h : Own Q t) {x y : Id} (hx : Q x) (hy : Q y) :
    OkP (do
      let xn ← t.node x
      let t := t.setParent y xn.parent
      let t ← match xn.parent with
        | none => pure { t with root := some y }
        | some p => do
          let pn ← t.node p
          if pn.left = some x then pure (t.setLeft p (some y)) else pure (t.setRight p (some y))
      let t := t.setLeft y (some x)
      pure (t.setParent x (some y))) (Fr Q t) := by
  refine (h.node hx).bind fun xn hxn => ?_
  have f2 := h.setParent hy hxn.parent
  have fin : ∀ t2, Fr Q (t.setParent y xn.parent) t2 → Fr Q t ((t2.setLeft y (some x)).setParent x (some y)) := by
    intro t2 f3
    have f4 := f3.own.setLeft hy (.some hx)
    exact f2.trans (f3.trans (f4.trans (f4.own.setParent hx (.some hy))))
  cases e : xn.parent with
  | none => rw [e] at fin f2; exact OkP.pure (fin _ (f2.own.setRoot (.some hy)))
  | some p =>
    rw [e] at fin f2
    have hp := hxn.parent _ e
    refine (f2.own.node hp).bind fun pn _ => ?_
    split
    · exact OkP.pure (fin _ (f2.own.setLeft hp (.some hy)))
    · exact OkP.pure (fin _ (f2.own.setRight hp (.some hy)))

theorem Own.leftRotate (h : Own Q t) {x : Id} (hx : Q x) : OkP (t.leftRotate x) (Fr Q t) := by
  refine (h.node hx).bind fun xn hxn => ?_
  refine (OkP.ofOption hxn.right).bind fun y hy => ?_
  refine (h.node hy).bind fun yn hyn => ?_
  have g := h.setRight hx hyn.left
  cases e : yn.left with
  | none => rw [e] at g; exact OkP.trans g (g.own.leftRotate_tail hx hy)
  | some b =>
    rw [e] at g
    have f1 := g.trans (g.own.setParent (hyn.left _ e) (.some hx))
    exact OkP.trans f1 (f1.own.leftRotate_tail hx hy)

theorem Own.rightRotate_tail (h : Own Q t) {x y : Id} (hx : Q x) (hy : Q y) :
    OkP (do
      let xn ← t.node x
      let t := t.setParent y xn.parent
      let t ← match xn.parent with
        | none => pure { t with root := some y }
        | some p => do
          let pn ← t.node p
          if pn.right = some x then pure (t.setRight p (some y)) else pure (t.setLeft p (some y))
      let t := t.setRight y (some x)
      pure (t.setParent x (some y))) (Fr Q t) := by
  refine (h.node hx).bind fun xn hxn => ?_
  have f2 := h.setParent hy hxn.parent
  have fin : ∀ t2, Fr Q (t.setParent y xn.parent) t2 → Fr Q t ((t2.setRight y (some x)).setParent x (some y)) := by
    intro t2 f3
    have f4 := f3.own.setRight hy (.some hx)
    exact f2.trans (f3.trans (f4.trans (f4.own.setParent hx (.some hy))))
  cases e : xn.parent with
  | none => rw [e] at fin f2; exact OkP.pure (fin _ (f2.own.setRoot (.some hy)))
  | some p =>
    rw [e] at fin f2
    have hp := hxn.parent _ e
    refine (f2.own.node hp).bind fun pn _ => ?_
    split
    · exact OkP.pure (fin _ (f2.own.setRight hp (.some hy)))
    · exact OkP.pure (fin _ (f2.own.setLeft hp (.some hy)))

theorem Own.rightRotate (h : Own Q t) {x : Id} (hx : Q x) : OkP (t.rightRotate x) (Fr Q t) := by
  refine (h.node hx).bind fun xn hxn => ?_
  refine (OkP.ofOption hxn.left).bind fun y hy => ?_
  refine (h.node hy).bind fun yn hyn => ?_
  have g := h.setLeft hx hyn.right
  cases e : yn.right with
  | none => rw [e] at g; exact OkP.trans g (g.own.rightRotate_tail hx hy)
  | some b =>
    rw [e] at g
    have f1 := g.trans (g.own.setParent (hyn.right _ e) (.some hx))
    exact OkP.trans f1 (f1.own.rightRotate_tail hx hy)

theorem Own.parentOf (h : Own Q t) {x : Id} (hx : Q x) : OkP (t.parentOf x) Q :=
  (h.node hx).bind fun _ hn => OkP.ofOption hn.parent

theorem okp_true (r : Res α) : OkP r fun _ => True := fun _ _ => trivial

theorem Own.recolour (h : Own Q t) {p y g : Id} (hp : Q p) (hy : Q y) (hg : Q g) :
    Fr Q t (((t.setBlack p true).setBlack y true).setBlack g false) := by
  have f1 := h.setBlack hp true
  have f2 := f1.trans (f1.own.setBlack hy true)
  exact f2.trans (f2.own.setBlack hg false)

theorem Own.insertFixupLoop : ∀ (f : Nat) {t : Tree K V} {z : Id}, Own Q t → Q z → OkP (Tree.insertFixupLoop f t z) (Fr Q t)
  | 0, _, _, _, _ => OkP.outOfFuel
  | f + 1, t, z, h, hz => by
    rw [Tree.insertFixupLoop]
    refine (h.node hz).bind fun zn hzn => ?_
    cases ep : zn.parent with
    | none => exact OkP.pure (.refl h)
    | some p =>
      have hp := hzn.parent _ ep
      refine (h.node hp).bind fun pn hpn => ?_
      split
      · exact OkP.pure (.refl h)
      refine (OkP.ofOption hpn.parent).bind fun g hg => ?_
      refine (h.node hg).bind fun gn hgn => ?_
      split
      · refine (okp_true _).bind fun yb _ => ?_
        split
        · next y _ ey =>
          have f1 := h.recolour hp (hgn.right _ ey) hg
          exact OkP.trans f1 (Own.insertFixupLoop f f1.own hg)
        · refine OkP.bind (P := fun r => Fr Q t r.1 ∧ Q r.2) ?_ fun r hr => ?_
          · split
            · exact (h.leftRotate hp).bind fun t1 f1 => OkP.pure ⟨f1, hp⟩
            · exact OkP.pure ⟨.refl h, hz⟩
          · obtain ⟨t1, z1⟩ := r
            obtain ⟨f1, hz1⟩ := hr
            refine (f1.own.parentOf hz1).bind fun p1 hp1 => ?_
            have f2 := f1.trans (f1.own.setBlack hp1 true)
            refine (f2.own.parentOf hp1).bind fun g1 hg1 => ?_
            have f3 := f2.trans (f2.own.setBlack hg1 false)
            refine (f3.own.rightRotate hg1).bind fun t2 f4 => ?_
            exact OkP.trans (f3.trans f4) (Own.insertFixupLoop f f4.own hz1)
      · refine (okp_true _).bind fun yb _ => ?_
        split
        · next y _ ey =>
          have f1 := h.recolour hp (hgn.left _ ey) hg
          exact OkP.trans f1 (Own.insertFixupLoop f f1.own hg)
        · refine OkP.bind (P := fun r => Fr Q t r.1 ∧ Q r.2) ?_ fun r hr => ?_
          · split
            · exact (h.rightRotate hp).bind fun t1 f1 => OkP.pure ⟨f1, hp⟩
            · exact OkP.pure ⟨.refl h, hz⟩
          · obtain ⟨t1, z1⟩ := r
            obtain ⟨f1, hz1⟩ := hr
            refine (f1.own.parentOf hz1).bind fun p1 hp1 => ?_
            have f2 := f1.trans (f1.own.setBlack hp1 true)
            refine (f2.own.parentOf hp1).bind fun g1 hg1 => ?_
            have f3 := f2.trans (f2.own.setBlack hg1 false)
            refine (f3.own.leftRotate hg1).bind fun t2 f4 => ?_
            exact OkP.trans (f3.trans f4) (Own.insertFixupLoop f f4.own hz1)

theorem Own.insertFixup (B : Nat) (h : Own Q t) {z : Id} (hz : Q z) : OkP (Tree.insertFixup B t z) (Fr Q t) := by
  refine (Own.insertFixupLoop B h hz).bind fun t1 f1 => ?_
  refine (OkP.ofOption f1.own.root).bind fun r hr => ?_
  exact OkP.pure (f1.trans (f1.own.setBlack hr true))

theorem Own.insertDescend (cmp : K → K → Int) (h : Own Q t) (key : K) : ∀ (f : Nat) (x y : Option Id), PIn Q x → PIn Q y → OkP (t.insertDescend cmp key f x y) (PIn Q)
  | 0, _, _, _, _ => OkP.outOfFuel
  | f + 1, none, y, _, hy => OkP.pure hy
  | f + 1, some x, y, hx, hy => by
    rw [Tree.insertDescend]
    refine (h.node hx.elim).bind fun xn hxn => ?_
    split
    · exact Own.insertDescend cmp h key f _ _ hxn.left hx
    · exact Own.insertDescend cmp h key f _ _ hxn.right hx

/-- What an insertion does to the memory: only the nodes of the tree and one new node are written. -/
structure FrI (Q : Id → Prop) (t t' : Tree K V) : Prop where
  own : Own (fun i => Q i ∨ i = t.next) t'
  same : ∀ i, ¬ Q i → i ≠ t.next → t'.heap i = t.heap i
  next : t'.next = t.next + 1

theorem Own.alloc (h : Own Q t) {y : Option Id} (hy : PIn Q y) (k : K) (v : V) : FrI Q t (t.alloc y k v) := by
  have up : ∀ p, PIn Q p → PIn (fun i => Q i ∨ i = t.next) p := fun p hp i e => .inl (hp i e)
  refine ⟨⟨up _ h.root, fun i n hi e => ?_⟩, fun i _ hn => ?_, rfl⟩
  · simp only [Tree.alloc] at e
    split at e
    · cases e; exact ⟨up _ hy, .none, .none⟩
    · next c =>
      have := h.closed i n (hi.resolve_right c) e
      exact ⟨up _ this.parent, up _ this.left, up _ this.right⟩
  · simp only [Tree.alloc]; rw [if_neg hn]

theorem FrI.trans (h1 : FrI Q t t') (h2 : Fr (fun i => Q i ∨ i = t.next) t' t'') : FrI Q t t'' :=
  ⟨h2.own, fun i hi hn => (h2.same i (fun c => c.elim hi hn)).trans (h1.same i hi hn), h2.next.trans h1.next⟩

theorem Own.insertB (B : Nat) (cmp : K → K → Int) (h : Own Q t) (k : K) (v : V) : OkP (Tree.insertB B cmp t k v) (FrI Q t) := by
  refine (Own.insertDescend cmp h k B _ _ h.root .none).bind fun y hy => ?_
  have f1 := h.alloc hy k v
  have hz : (fun i => Q i ∨ i = t.next) t.next := .inr rfl
  cases y with
  | none =>
    have f2 := f1.own.setBlack hz true
    exact OkP.pure (f1.trans (f2.trans (f2.own.setRoot (.some hz))))
  | some y =>
    have hy' : (fun i => Q i ∨ i = t.next) y := .inl hy.elim
    refine (f1.own.node hy').bind fun yn _ => ?_
    refine (f1.own.node hz).bind fun zn _ => ?_
    have f2 : Fr (fun i => Q i ∨ i = t.next) (t.alloc (some y) k v)
        (if cmp zn.key yn.key < 0 then (t.alloc (some y) k v).setLeft y (some t.next) else (t.alloc (some y) k v).setRight y (some t.next)) := by
      split
      · exact f1.own.setLeft hy' (.some hz)
      · exact f1.own.setRight hy' (.some hz)
    exact (Own.insertFixup B f2.own hz).mono fun t2 f3 => f1.trans (f2.trans f3)

theorem Own.insert (cmp : K → K → Int) (h : Own Q t) (k : K) (v : V) : OkP (t.insert cmp k v) (FrI Q t) := Own.insertB _ cmp h k v


theorem Own.fixupLeft (h : Own Q t) {p : Id} (hp : Q p) : OkP (t.fixupLeft p) (fun r => Fr Q t r.1 ∧ PIn Q r.2) := by
  refine (h.node hp).bind fun pn hpn => ?_
  refine (OkP.ofOption hpn.right).bind fun w hw => ?_
  refine (h.node hw).bind fun wn _ => ?_
  refine OkP.bind (P := fun r => Fr Q t r.1 ∧ Q r.2) ?_ fun r hr => ?_
  · split
    · have f1 := h.setBlack hw true
      have f2 := f1.trans (f1.own.setBlack hp false)
      refine (f2.own.leftRotate hp).bind fun t1 f3 => ?_
      refine (f3.own.node hp).bind fun pn hpn => ?_
      exact (OkP.ofOption hpn.right).bind fun w hw => OkP.pure ⟨f2.trans f3, hw⟩
    · exact OkP.pure ⟨.refl h, hw⟩
  obtain ⟨t1, w⟩ := r
  obtain ⟨f1, hw⟩ := hr
  refine (f1.own.node hw).bind fun wn hwn => ?_
  refine (okp_true _).bind fun lb _ => ?_
  refine (okp_true _).bind fun rb _ => ?_
  split
  · exact OkP.pure ⟨f1.trans (f1.own.setBlack hw false), .some hp⟩
  refine OkP.bind (P := fun r => Fr Q t r.1 ∧ Q r.2) ?_ fun r hr => ?_
  · split
    · have f2 : Fr Q t1 (match wn.left with | some l => t1.setBlack l true | none => t1) := by
        cases e : wn.left with
        | none => exact .refl f1.own
        | some l => exact f1.own.setBlack (hwn.left _ e) true
      have f3 := f1.trans (f2.trans (f2.own.setBlack hw false))
      refine (f3.own.rightRotate hw).bind fun t2 f4 => ?_
      refine (f4.own.node hp).bind fun pn hpn => ?_
      exact (OkP.ofOption hpn.right).bind fun w hw => OkP.pure ⟨f3.trans f4, hw⟩
    · exact OkP.pure ⟨f1, hw⟩
  obtain ⟨t2, w⟩ := r
  obtain ⟨f2, hw⟩ := hr
  refine (f2.own.node hp).bind fun pn _ => ?_
  have f3 := f2.trans (f2.own.setBlack hw pn.black)
  have f4 := f3.trans (f3.own.setBlack hp true)
  refine (f4.own.node hw).bind fun wn hwn => ?_
  have f5 : Fr Q ((t2.setBlack w pn.black).setBlack p true)
      (match wn.right with | some r => ((t2.setBlack w pn.black).setBlack p true).setBlack r true | none => (t2.setBlack w pn.black).setBlack p true) := by
    cases e : wn.right with
    | none => exact .refl f4.own
    | some r => exact f4.own.setBlack (hwn.right _ e) true
  refine (f5.own.leftRotate hp).bind fun t3 f6 => ?_
  exact OkP.pure ⟨f4.trans (f5.trans f6), f6.own.root⟩

theorem Own.fixupRight (h : Own Q t) {p : Id} (hp : Q p) : OkP (t.fixupRight p) (fun r => Fr Q t r.1 ∧ PIn Q r.2) := by
  refine (h.node hp).bind fun pn hpn => ?_
  refine (OkP.ofOption hpn.left).bind fun w hw => ?_
  refine (h.node hw).bind fun wn _ => ?_
  refine OkP.bind (P := fun r => Fr Q t r.1 ∧ Q r.2) ?_ fun r hr => ?_
  · split
    · have f1 := h.setBlack hw true
      have f2 := f1.trans (f1.own.setBlack hp false)
      refine (f2.own.rightRotate hp).bind fun t1 f3 => ?_
      refine (f3.own.node hp).bind fun pn hpn => ?_
      exact (OkP.ofOption hpn.left).bind fun w hw => OkP.pure ⟨f2.trans f3, hw⟩
    · exact OkP.pure ⟨.refl h, hw⟩
  obtain ⟨t1, w⟩ := r
  obtain ⟨f1, hw⟩ := hr
  refine (f1.own.node hw).bind fun wn hwn => ?_
  refine (okp_true _).bind fun lb _ => ?_
  refine (okp_true _).bind fun rb _ => ?_
  split
  · exact OkP.pure ⟨f1.trans (f1.own.setBlack hw false), .some hp⟩
  refine OkP.bind (P := fun r => Fr Q t r.1 ∧ Q r.2) ?_ fun r hr => ?_
  · split
    · have f2 : Fr Q t1 (match wn.right with | some l => t1.setBlack l true | none => t1) := by
        cases e : wn.right with
        | none => exact .refl f1.own
        | some l => exact f1.own.setBlack (hwn.right _ e) true
      have f3 := f1.trans (f2.trans (f2.own.setBlack hw false))
      refine (f3.own.leftRotate hw).bind fun t2 f4 => ?_
      refine (f4.own.node hp).bind fun pn hpn => ?_
      exact (OkP.ofOption hpn.left).bind fun w hw => OkP.pure ⟨f3.trans f4, hw⟩
    · exact OkP.pure ⟨f1, hw⟩
  obtain ⟨t2, w⟩ := r
  obtain ⟨f2, hw⟩ := hr
  refine (f2.own.node hp).bind fun pn _ => ?_
  have f3 := f2.trans (f2.own.setBlack hw pn.black)
  have f4 := f3.trans (f3.own.setBlack hp true)
  refine (f4.own.node hw).bind fun wn hwn => ?_
  have f5 : Fr Q ((t2.setBlack w pn.black).setBlack p true)
      (match wn.left with | some r => ((t2.setBlack w pn.black).setBlack p true).setBlack r true | none => (t2.setBlack w pn.black).setBlack p true) := by
    cases e : wn.left with
    | none => exact .refl f4.own
    | some r => exact f4.own.setBlack (hwn.left _ e) true
  refine (f5.own.rightRotate hp).bind fun t3 f6 => ?_
  exact OkP.pure ⟨f4.trans (f5.trans f6), f6.own.root⟩

theorem Own.fixupParent (h : Own Q t) {x p : Option Id} (hx : PIn Q x) (hp : PIn Q p) : OkP (t.fixupParent x p) (PIn Q) := by
  cases x with
  | none => exact OkP.pure hp
  | some x => exact (h.node hx.elim).bind fun _ hn => OkP.pure hn.parent

theorem Own.deleteFixupLoop : ∀ (f : Nat) {t : Tree K V} {x p : Option Id}, Own Q t → PIn Q x → PIn Q p →
    OkP (Tree.deleteFixupLoop f t x p) (fun r => Fr Q t r.1 ∧ PIn Q r.2)
  | 0, _, _, _, _, _, _ => OkP.outOfFuel
  | f + 1, t, x, p, h, hx, hp => by
    rw [Tree.deleteFixupLoop]
    split
    · exact OkP.pure ⟨.refl h, hx⟩
    refine (okp_true _).bind fun xb _ => ?_
    split
    · exact OkP.pure ⟨.refl h, hx⟩
    refine (h.fixupParent hx hp).bind fun parent hpar => ?_
    refine (OkP.ofOption hpar).bind fun p hp => ?_
    refine (h.node hp).bind fun pn _ => ?_
    split
    · exact (h.fixupLeft hp).bind fun r hr => (Own.deleteFixupLoop f hr.1.own hr.2 hpar).mono fun _ g => ⟨hr.1.trans g.1, g.2⟩
    · exact (h.fixupRight hp).bind fun r hr => (Own.deleteFixupLoop f hr.1.own hr.2 hpar).mono fun _ g => ⟨hr.1.trans g.1, g.2⟩

theorem Own.deleteFixup (B : Nat) (h : Own Q t) {x p : Option Id} (hx : PIn Q x) (hp : PIn Q p) : OkP (Tree.deleteFixup B t x p) (Fr Q t) := by
  refine (Own.deleteFixupLoop B h hx hp).bind fun r hr => ?_
  obtain ⟨t1, x1⟩ := r
  cases x1 with
  | none => exact OkP.pure hr.1
  | some x1 => exact OkP.pure (hr.1.trans (hr.1.own.setBlack hr.2.elim true))

theorem Own.spliceOut (h : Own Q t) (y : Id) {x p : Option Id} (hx : PIn Q x) (hp : PIn Q p) : OkP (t.spliceOut y x p) (Fr Q t) := by
  have key : ∀ t1 : Tree K V, Fr Q t t1 → OkP (match p with
    | none => pure { t1 with root := x }
    | some p => do
      let pn ← t1.node p
      if pn.left = some y then pure (t1.setLeft p x) else pure (t1.setRight p x)) (Fr Q t) := by
    intro t1 f1
    cases p with
    | none => exact OkP.pure (f1.trans (f1.own.setRoot hx))
    | some p =>
      refine OkP.bind (f1.own.node hp.elim) fun pn _ => ?_
      split
      · exact OkP.pure (f1.trans (f1.own.setLeft hp.elim hx))
      · exact OkP.pure (f1.trans (f1.own.setRight hp.elim hx))
  cases x with
  | none => exact key t (.refl h)
  | some x => exact key _ (h.setParent hx.elim hp)

theorem Own.minimumLoop (h : Own Q t) : ∀ (f : Nat) {i : Id}, Q i → OkP (t.minimumLoop f i) Q
  | 0, _, _ => OkP.outOfFuel
  | f + 1, i, hi => by
    rw [Tree.minimumLoop]
    refine (h.node hi).bind fun n hn => ?_
    cases e : n.left with
    | none => exact OkP.pure hi
    | some l => exact Own.minimumLoop h f (hn.left _ e)

theorem Own.maximumLoop (h : Own Q t) : ∀ (f : Nat) {i : Id}, Q i → OkP (t.maximumLoop f i) Q
  | 0, _, _ => OkP.outOfFuel
  | f + 1, i, hi => by
    rw [Tree.maximumLoop]
    refine (h.node hi).bind fun n hn => ?_
    cases e : n.right with
    | none => exact OkP.pure hi
    | some l => exact Own.maximumLoop h f (hn.right _ e)

theorem Own.succClimb (h : Own Q t) : ∀ (f : Nat) (x : Id) {y : Option Id}, PIn Q y → OkP (t.succClimb f x y) (PIn Q)
  | 0, _, _, _ => OkP.outOfFuel
  | f + 1, x, none, _ => OkP.pure .none
  | f + 1, x, some y, hy => by
    rw [Tree.succClimb]
    refine (h.node hy.elim).bind fun n hn => ?_
    split
    · exact Own.succClimb h f y hn.parent
    · exact OkP.pure hy

theorem Own.successorB (B : Nat) (h : Own Q t) {x : Id} (hx : Q x) : OkP (Tree.successorB B t x) (PIn Q) := by
  refine (h.node hx).bind fun n hn => ?_
  cases e : n.right with
  | some r => exact (h.minimumLoop B (hn.right _ e)).bind fun m hm => OkP.pure (.some hm)
  | none => exact h.succClimb B x hn.parent

theorem Own.deleteB (B : Nat) (h : Own Q t) {z : Option Id} (hz : PIn Q z) : OkP (Tree.deleteB B t z) (Fr Q t) := by
  cases z with
  | none => exact OkP.pure (.refl h)
  | some z =>
    have hz := hz.elim
    refine (h.node hz).bind fun zn _ => ?_
    refine OkP.bind (P := Q) ?_ fun y hy => ?_
    · split
      · exact (h.successorB B hz).bind fun s hs => OkP.ofOption hs
      · exact OkP.pure hz
    refine (h.node hy).bind fun yn hyn => ?_
    have hx : PIn Q (if yn.left.isSome then yn.left else yn.right) := by
      split
      · exact hyn.left
      · exact hyn.right
    refine (h.spliceOut y hx hyn.parent).bind fun t1 f1 => ?_
    refine (f1.own.node hy).bind fun yn1 _ => ?_
    have f2 : Fr Q t1 (if y ≠ z then t1.setKV z yn1.key yn1.value else t1) := by
      split
      · exact f1.own.setKV hz _ _
      · exact .refl f1.own
    refine OkP.bind (P := Fr Q t) ?_ fun t2 f3 => OkP.pure ⟨⟨f3.own.root, f3.own.closed⟩, f3.same, f3.next⟩
    split
    · exact (Own.deleteFixup B f2.own hx hyn.parent).mono fun _ g => f1.trans (f2.trans g)
    · exact OkP.pure (f1.trans f2)

theorem Own.delete (h : Own Q t) {z : Option Id} (hz : PIn Q z) : OkP (t.delete z) (Fr Q t) := h.deleteB _ hz

theorem Own.lowerBoundFrom (cmp : K → K → Int) (h : Own Q t) (key : K) : ∀ (f : Nat) {x : Option Id}, PIn Q x → OkP (t.lowerBoundFrom cmp key f x) (PIn Q)
  | 0, _, _ => OkP.outOfFuel
  | f + 1, none, _ => OkP.pure .none
  | f + 1, some x, hx => by
    rw [Tree.lowerBoundFrom]
    refine (h.node hx.elim).bind fun n hn => ?_
    split
    · refine (Own.lowerBoundFrom cmp h key f hn.left).bind fun r hr => ?_
      cases r with
      | none => exact OkP.pure hx
      | some r =>
        refine (okp_true _).bind fun rn _ => ?_
        split
        · exact OkP.pure hr
        · exact OkP.pure hx
    · exact Own.lowerBoundFrom cmp h key f hn.right

theorem Own.findNode (cmp : K → K → Int) (h : Own Q t) (key : K) : OkP (t.findNode cmp key) (PIn Q) := by
  refine (Own.lowerBoundFrom cmp h key _ h.root).bind fun r hr => ?_
  cases r with
  | none => exact OkP.pure .none
  | some r =>
    refine (okp_true _).bind fun rn _ => ?_
    split
    · exact OkP.pure hr
    · exact OkP.pure .none

/-! ## The nodes of a well-formed tree -/

theorem Rep.nin {H : Id → Option (Node K V)} : ∀ {t : T K V} {par : Option Id}, Rep H par t → ∀ {S : Id → Prop}, (∀ i ∈ t.ids, S i) → PIn S par →
    ∀ i ∈ t.ids, ∀ n, H i = some n → NIn S n
  | .leaf, _, _, _, _, _, i, hi, _, _ => by simp at hi
  | .node l j b k v r, par, ⟨e, hl, hr⟩, S, hS, hp, i, hi, n, en => by
    have hj : S j := hS j (by simp)
    have sl : ∀ i ∈ l.ids, S i := fun i h => hS i (by simp [h])
    have sr : ∀ i ∈ r.ids, S i := fun i h => hS i (by simp [h])
    simp only [T.ids, List.mem_append, List.mem_cons] at hi
    rcases hi with h | rfl | h
    · exact Rep.nin hl sl (.some hj) i h n en
    · rw [e] at en
      cases en
      exact ⟨hp, fun i h => sl i (T.rootId_mem h), fun i h => sr i (T.rootId_mem h)⟩
    · exact Rep.nin hr sr (.some hj) i h n en

theorem Reps.own {s : Tree K V} {t : T K V} (h : Reps s t) : Own (· ∈ t.ids) s :=
  ⟨fun i e => T.rootId_mem (h.root ▸ e), fun i n hi e => h.rep.nin (fun _ h => h) .none i hi n e⟩

theorem Rep.mem {H : Id → Option (Node K V)} {S : Id → Prop} (hS : ∀ i n, S i → H i = some n → NIn S n) :
    ∀ {t : T K V} {par : Option Id}, Rep H par t → PIn S t.rootId → ∀ i ∈ t.ids, S i
  | .leaf, _, _, _, i, hi => by simp at hi
  | .node l j b k v r, par, ⟨e, hl, hr⟩, hroot, i, hi => by
    have hj : S j := hroot.elim
    have hn := hS j _ hj e
    simp only [T.ids, List.mem_append, List.mem_cons] at hi
    rcases hi with h | rfl | h
    · exact Rep.mem hS hl hn.left i h
    · exact hj
    · exact Rep.mem hS hr hn.right i h

theorem Reps.mem {s : Tree K V} {t : T K V} (h : Reps s t) {S : Id → Prop} (ho : Own S s) : ∀ i ∈ t.ids, S i :=
  h.rep.mem ho.closed (h.root ▸ ho.root)

theorem Rep.same {H H' : Id → Option (Node K V)} : ∀ {t : T K V} {par : Option Id}, Rep H par t → (∀ i ∈ t.ids, H' i = H i) → Rep H' par t
  | .leaf, _, _, _ => trivial
  | .node l j b k v r, par, ⟨e, hl, hr⟩, hs => by
    refine ⟨(hs j (by simp)).trans e, Rep.same hl fun i h => hs i (by simp [h]), Rep.same hr fun i h => hs i (by simp [h])⟩

/-- A tree is not changed by writes to other nodes. -/
theorem Holds.same {s s' : Tree K V} {es : List (Id × K × V)} (h : Holds s es) (hr : s'.root = s.root) (hz : s'.size = s.size) (hn : s.next ≤ s'.next)
    (hh : ∀ e ∈ es, s'.heap e.1 = s.heap e.1) : Holds s' es := by
  obtain ⟨t, h1, h2, rfl, h4⟩ := h
  refine ⟨t, ⟨hr.trans h1.root, h1.rep.same fun i hi => ?_, h1.nodup, fun i hi => Nat.lt_of_lt_of_le (h1.fresh i hi) hn⟩, h2, rfl, hz.trans h4⟩
  rw [T.ids_eq] at hi
  obtain ⟨e, he, rfl⟩ := List.mem_map.1 hi
  exact hh e he

theorem Holds.own {s : Tree K V} {es : List (Id × K × V)} (h : Holds s es) : Own (· ∈ es.map (·.1)) s := by
  obtain ⟨t, h1, h2, rfl, h4⟩ := h
  rw [← T.ids_eq]; exact h1.own

theorem Holds.mem {s : Tree K V} {es : List (Id × K × V)} (h : Holds s es) {S : Id → Prop} (ho : Own S s) : ∀ e ∈ es, S e.1 := by
  obtain ⟨t, h1, h2, rfl, h4⟩ := h
  intro e he
  exact h1.mem ho e.1 (by rw [T.ids_eq]; exact List.mem_map_of_mem he)

end GoSTL.RB
