import Verif.TreeMap.Moving
import Verif.RBTree.Frame
/-!
# C107: any number of ordered containers in one memory

The models of maps, multimaps, sets and multisets give each container a memory of its own. Here the containers of a program share the memory; the nodes of all of them,
and the erased ones, lie in one heap, and each container is a root pointer and a count (rbtree.go:17-21).
-/
namespace GoSTL.TreeMap
open GoSTL.RB

variable {K V : Type}

/-! ## Model -/

/-- A container: its comparator, root and count (rbtree.go:17-21); and the iterators that were made from it. -/
structure CH (K V : Type) where
  cmp : K → K → Int
  root : Option Id
  size : Int
  its : List (Option Id)

/-- The memory, the next unused address, the containers. -/
structure WSt (K V : Type) where
  heap : Id → Option (Node K V)
  next : Id
  cs : List (CH K V)

/-- Container `h` and its iterators in the common memory. -/
def WSt.view (w : WSt K V) (h : CH K V) : CSt K V := ⟨⟨w.heap, h.root, h.size, w.next⟩, h.its⟩

/-- A program whose containers have these comparators, at its start. (`New` allocates no node, so it makes no difference when a container is made.) -/
def WSt.start (cmps : List (K → K → Int)) : WSt K V := ⟨fun _ => none, 0, cmps.map fun cmp => ⟨cmp, none, 0, []⟩⟩

/-- What a program does: a call on a container or on one of its iterators; comparing iterators of two containers; `EraseIter` with an iterator of another container. -/
inductive WOp (K V : Type)
  | on (c : Nat) (op : COp K V)
  | equal (c i d j : Nat)
  | eraseForeign (c d j : Nat)

/-- Write back what a call did to container `c`. -/
def WSt.put (w : WSt K V) (c : Nat) (h : CH K V) (s : CSt K V) : WSt K V :=
  ⟨s.t.heap, s.t.next, w.cs.set c ⟨h.cmp, s.t.root, s.t.size, s.its⟩⟩

/-- One step: the functions of the model (map.go:56-178, multimap.go:30-139, set.go:62-157, multiset.go:33-152, iterators) on the common memory. -/
def wstep (op : WOp K V) (w : WSt K V) : Res (COut K V × WSt K V) :=
  match op with
  | .on c op => do
    let h ← Res.ofOption w.cs[c]?
    let (o, s) ← cstep h.cmp op (w.view h)
    .ok (o, w.put c h s)
  | .equal c i d j => do
    let h ← Res.ofOption w.cs[c]?
    let g ← Res.ofOption w.cs[d]?
    let a ← Res.ofOption h.its[i]?
    let b ← Res.ofOption g.its[j]?
    .ok (.bool (if b = a then true else false), w)
  | .eraseForeign c d j => do
    let h ← Res.ofOption w.cs[c]?
    let g ← Res.ofOption w.cs[d]?
    let it ← Res.ofOption g.its[j]?
    let t ← eraseIter (w.view h).t (.map it)
    .ok (.unit, w.put c h ⟨t, h.its⟩)

/-- A program. -/
def wrun : List (WOp K V) → WSt K V → Res (List (COut K V) × WSt K V)
  | [], w => .ok ([], w)
  | op :: ops, w => do
    let (o, w) ← wstep op w
    let (os, w) ← wrun ops w
    .ok (o :: os, w)

/-! ## Specification: each container is a list of entries of its own -/

/-- One step: `cspec` (C103) on the one container; iterators of different containers are equal only at the end. -/
def wspec (op : WOp K V) (q : List ((K → K → Int) × ESt K V)) : Res (COut K V × List ((K → K → Int) × ESt K V)) :=
  match op with
  | .on c op => do
    let (cmp, e) ← Res.ofOption q[c]?
    let (o, e) ← cspec cmp op e
    .ok (o, q.set c (cmp, e))
  | .equal c i d j => do
    let (_, e) ← Res.ofOption q[c]?
    let (_, f) ← Res.ofOption q[d]?
    let a ← Res.ofOption e.its[i]?
    let b ← Res.ofOption f.its[j]?
    .ok (.bool (decide (a = b ∧ (c = d ∨ a = .end))), q)
  | .eraseForeign .. => .panic

/-- A program on lists of entries. -/
def wspecRun : List (WOp K V) → List ((K → K → Int) × ESt K V) → Res (List (COut K V) × List ((K → K → Int) × ESt K V))
  | [], q => .ok ([], q)
  | op :: ops, q => do
    let (o, q) ← wspec op q
    let (os, q) ← wspecRun ops q
    .ok (o :: os, q)

/-- The step gives containers only their own iterators, and uses none of an erased entry. -/
def WOp.Live (op : WOp K V) (q : List ((K → K → Int) × ESt K V)) : Prop :=
  match op with
  | .on c op => ∀ cmp e, q[c]? = some (cmp, e) → op.Live e
  | .equal c i d j => (∀ cmp e, q[c]? = some (cmp, e) → e.its[i]? ≠ some .dead) ∧ ∀ cmp e, q[d]? = some (cmp, e) → e.its[j]? ≠ some .dead
  | .eraseForeign .. => False

/-- All steps do. -/
def WLive : List (WOp K V) → List ((K → K → Int) × ESt K V) → Prop
  | [], _ => True
  | op :: ops, q => op.Live q ∧ ∀ o q', wspec op q = .ok (o, q') → WLive ops q'

/-! ## Proof -/

/-- What a call on a tree does to the memory: it writes to nodes of the tree and to new ones. -/
structure FrS (S : Id → Prop) (t t' : Tree K V) : Prop where
  own : ∃ S', Own S' t' ∧ ∀ i, S' i → S i ∨ t.next ≤ i
  same : ∀ i, ¬ S i → i < t.next → t'.heap i = t.heap i
  next : t.next ≤ t'.next

variable {S : Id → Prop} {t t' : Tree K V}

theorem FrS.refl (h : Own S t) : FrS S t t := ⟨⟨S, h, fun _ h => .inl h⟩, fun _ _ _ => rfl, Nat.le_refl _⟩
theorem FrS.of (h : Fr S t t') : FrS S t t' := ⟨⟨S, h.own, fun _ h => .inl h⟩, fun i hi _ => h.same i hi, by rw [h.next]; exact Nat.le_refl _⟩
theorem FrS.ofI (h : FrI S t t') : FrS S t t' :=
  ⟨⟨_, h.own, fun _ h => h.imp id fun e => by rw [e]; exact Nat.le_refl _⟩, fun i hi hn => h.same i hi (Nat.ne_of_lt hn), by rw [h.next]; exact Nat.le_succ _⟩

theorem own_eraseAllLoop (cmp : K → K → Int) (k : K) : ∀ (f : Nat) {t : Tree K V}, Own S t → OkP (eraseAllLoop cmp k f t) (Fr S t)
  | 0, _, _ => OkP.outOfFuel
  | f + 1, t, h => by
    rw [eraseAllLoop]
    refine (h.findNode cmp k).bind fun p hp => ?_
    cases p with
    | none => exact OkP.pure (.refl h)
    | some i => exact (h.delete hp).bind fun t1 f1 => OkP.trans f1 (own_eraseAllLoop cmp k f f1.own)

theorem cstep_frame (cmp : K → K → Int) (op : COp K V) {s : CSt K V} (h : Own S s.t) (hi : ∀ j ∈ op.uses, ∀ p, s.its[j]? = some p → PIn S p) :
    OkP (cstep cmp op s) (fun r => FrS S s.t r.2.t) := by
  have it : ∀ j ∈ op.uses, OkP (Res.ofOption s.its[j]?) (PIn S) := by
    intro j hj
    cases e : s.its[j]? with
    | none => exact OkP.panic
    | some p => exact OkP.ok (hi j hj p e)
  cases op with
  | put k v =>
    refine OkP.bind (P := FrS S s.t) ?_ fun _ f => OkP.ok f
    refine (h.findNode cmp k).bind fun p hp => ?_
    cases p with
    | none => exact (h.insert cmp k v).mono fun _ f => .ofI f
    | some i => exact OkP.pure (.of (h.setValue hp.elim v))
  | add k v => exact OkP.bind (P := FrS S s.t) ((h.insert cmp k v).mono fun _ f => .ofI f) fun _ f => OkP.ok f
  | addNew k v =>
    refine OkP.bind (P := FrS S s.t) ?_ fun _ f => OkP.ok f
    refine (h.findNode cmp k).bind fun p hp => ?_
    cases p with
    | none => exact (h.insert cmp k v).mono fun _ f => .ofI f
    | some i => exact OkP.pure (.refl h)
  | erase k =>
    refine OkP.bind (P := FrS S s.t) ?_ fun _ f => OkP.ok f
    refine (h.findNode cmp k).bind fun p hp => ?_
    cases p with
    | none => exact OkP.pure (.refl h)
    | some i => exact (h.delete hp).mono fun _ f => .of f
  | eraseAll k => exact OkP.bind (P := FrS S s.t) ((own_eraseAllLoop cmp k _ h).mono fun _ f => .of f) fun _ f => OkP.ok f
  | eraseIter j =>
    refine (it j (by simp [COp.uses])).bind fun p hp => ?_
    exact OkP.bind (P := FrS S s.t) ((h.delete hp).mono fun _ f => .of f) fun _ f => OkP.ok f
  | clear => exact OkP.ok ⟨⟨S, ⟨.none, h.closed⟩, fun _ h => .inl h⟩, fun _ _ _ => rfl, Nat.le_refl _⟩
  | get k => exact (okp_true _).bind fun _ _ => OkP.ok (.refl h)
  | contains k => exact (okp_true _).bind fun _ _ => OkP.ok (.refl h)
  | size => exact OkP.ok (.refl h)
  | begin_ => exact (okp_true _).bind fun _ _ => OkP.ok (.refl h)
  | last => exact (okp_true _).bind fun _ _ => OkP.ok (.refl h)
  | find k => exact (okp_true _).bind fun _ _ => OkP.ok (.refl h)
  | lowerBound k => exact (okp_true _).bind fun _ _ => OkP.ok (.refl h)
  | upperBound k => exact (okp_true _).bind fun _ _ => OkP.ok (.refl h)
  | isValid j => exact (okp_true _).bind fun _ _ => OkP.ok (.refl h)
  | next j => exact (okp_true _).bind fun _ _ => (okp_true _).bind fun _ _ => OkP.ok (.refl h)
  | prev j => exact (okp_true _).bind fun _ _ => (okp_true _).bind fun _ _ => OkP.ok (.refl h)
  | key j => exact (okp_true _).bind fun _ _ => (okp_true _).bind fun _ _ => OkP.ok (.refl h)
  | value j => exact (okp_true _).bind fun _ _ => (okp_true _).bind fun _ _ => OkP.ok (.refl h)
  | setValue j v =>
    refine (it j (by simp [COp.uses])).bind fun p hp => ?_
    refine OkP.bind (P := FrS S s.t) ?_ fun _ f => OkP.ok f
    exact (OkP.ofOption hp).bind fun i hi => (okp_true _).bind fun _ _ => OkP.pure (FrS.of (h.setValue hi v))
  | clone j => exact (okp_true _).bind fun _ _ => OkP.ok (.refl h)
  | equal i j => exact (okp_true _).bind fun _ _ => (okp_true _).bind fun _ _ => OkP.ok (.refl h)

/-- The states agree: each container represents its list, with the nodes `zs c`, and these lie apart. -/
structure WSim (zs : Nat → List (ZEnt K V)) (w : WSt K V) (q : List ((K → K → Int) × ESt K V)) : Prop where
  len : w.cs.length = q.length
  sim : ∀ c h, w.cs[c]? = some h → ∃ e, q[c]? = some (h.cmp, e) ∧ LawfulCmp h.cmp ∧ CSim h.cmp (zs c) (w.view h) e
  apart : ∀ c d, c ≠ d → c < w.cs.length → d < w.cs.length → ∀ x ∈ zs c, ∀ y ∈ zs d, x.1 ≠ y.1

theorem WSim.none {zs : Nat → List (ZEnt K V)} {w : WSt K V} {q} (h : WSim zs w q) {c : Nat} (hc : w.cs[c]? = none) : q[c]? = none := by
  rw [List.getElem?_eq_none_iff] at hc ⊢
  rw [← h.len]; exact hc

theorem lt_of_get {α : Type} {l : List α} {c : Nat} {x : α} (h : l[c]? = some x) : c < l.length := (List.getElem?_eq_some_iff.1 h).1

/-- Another container does not see the call. -/
theorem CSim.other {cmp : K → K → Int} {z : List (ZEnt K V)} {w : WSt K V} {h g : CH K V} {e : ESt K V} {c : Nat} {s : CSt K V}
    (hs : CSim cmp z (w.view g) e) (f : FrS S (w.view h).t s.t) (ha : ∀ x ∈ z, ¬ S x.1) : CSim cmp z ((w.put c h s).view g) e := by
  refine ⟨⟨hs.holds.1.same rfl rfl f.next fun x hx => ?_, hs.holds.2⟩, hs.ents, hs.nodup, hs.fresh, hs.its⟩
  obtain ⟨y, hy, rfl⟩ := List.mem_map.1 hx
  exact f.same _ (ha y hy) (hs.holds.1.fresh _ hx)

theorem live_in {cmp : K → K → Int} {z : List (ZEnt K V)} {s : CSt K V} {e : ESt K V} (hs : CSim cmp z s e) {j : Nat} (hl : e.its[j]? ≠ some .dead) {p : Option Id}
    (hp : s.its[j]? = some p) : PIn (· ∈ (z.map zf).map (·.1)) p := by
  rcases forall₂_get hs.its j with ⟨h1, _⟩ | ⟨a, b, h1, h2, h3⟩
  · rw [h1] at hp; cases hp
  · rw [h1] at hp
    cases hp
    cases h3 with
    | «at» hm => exact .some (List.mem_map.2 ⟨_, List.mem_map.2 ⟨_, hm, rfl⟩, rfl⟩)
    | «end» => exact .none
    | dead => exact absurd h2 hl

theorem wstep_spec (op : WOp K V) {zs : Nat → List (ZEnt K V)} {w : WSt K V} {q} (h : WSim zs w q) (hl : op.Live q) :
    match wspec op q with
    | .ok (o, q') => ∃ zs' w', wstep op w = .ok (o, w') ∧ WSim zs' w' q'
    | .panic => wstep op w = .panic
    | .outOfFuel => False := by
  cases op with
  | on c op =>
    simp only [wspec, wstep]
    cases ec : w.cs[c]? with
    | none => rw [h.none ec]; rfl
    | some hd =>
      obtain ⟨e, eq, hlaw, hs⟩ := h.sim c hd ec
      have hlive := hl _ _ eq
      simp only [eq, Res.ofOption, Res.ok_bind]
      have r := cstep_spec hlaw op hs hlive
      have fr := cstep_frame hd.cmp op (s := w.view hd) hs.holds.1.own fun j hj p hp => live_in hs (hlive j hj) hp
      cases er : cspec hd.cmp op e with
      | outOfFuel => rw [er] at r; exact r
      | panic =>
        rw [er] at r
        have r : cstep hd.cmp op (w.view hd) = .panic := r
        rw [r]; rfl
      | ok oe =>
        obtain ⟨o, e'⟩ := oe
        rw [er] at r
        obtain ⟨s', z', r, hs'⟩ := r
        have f := fr _ r
        rw [r]
        refine ⟨fun d => if d = c then z' else zs d, _, rfl, ?_⟩
        have hclt := lt_of_get ec
        have hnew : ∀ x ∈ z', (∃ y ∈ zs c, y.1 = x.1) ∨ w.next ≤ x.1 := by
          intro x hx
          obtain ⟨S', o', hS'⟩ := f.own
          rcases hS' _ (hs'.holds.1.mem o' (zf x) (List.mem_map_of_mem hx)) with g | g
          · obtain ⟨u, hu, e1⟩ := List.mem_map.1 g
            obtain ⟨y, hy, rfl⟩ := List.mem_map.1 hu
            exact .inl ⟨y, hy, e1⟩
          · exact .inr g
        have hfresh : ∀ d, d < w.cs.length → ∀ x ∈ zs d, x.1 < w.next := by
          intro d hd x hx
          obtain ⟨g, hg⟩ : ∃ g, w.cs[d]? = some g := ⟨_, List.getElem?_eq_getElem hd⟩
          obtain ⟨e, _, _, hs⟩ := h.sim d g hg
          exact hs.holds.1.fresh (zf x) (List.mem_map_of_mem hx)
        have key : ∀ d, d ≠ c → d < w.cs.length → ∀ x ∈ z', ∀ y ∈ zs d, x.1 ≠ y.1 := by
          intro d hd hdl x hx y hy e
          rcases hnew x hx with ⟨u, hu, e2⟩ | e2
          · exact h.apart c d (Ne.symm hd) hclt hdl u hu y hy (e2.trans e)
          · have := hfresh d hdl y hy
            rw [e] at e2
            exact absurd this (Nat.not_lt.2 e2)
        refine ⟨?_, ?_, ?_⟩
        · simp [WSt.put, h.len]
        · intro d g hg
          simp only [WSt.put, List.getElem?_set] at hg
          by_cases hdc : c = d
          · subst hdc
            rw [if_pos rfl, if_pos hclt] at hg
            cases hg
            refine ⟨e', by rw [List.getElem?_set, if_pos rfl, if_pos (by rw [← h.len]; exact hclt)], hlaw, ?_⟩
            rw [if_pos rfl]
            exact hs'
          · rw [if_neg hdc] at hg
            obtain ⟨e2, eq2, hlaw2, hs2⟩ := h.sim d g hg
            refine ⟨e2, by rw [List.getElem?_set, if_neg hdc]; exact eq2, hlaw2, ?_⟩
            rw [if_neg (Ne.symm hdc)]
            refine hs2.other f fun x hx hS => ?_
            obtain ⟨u, hu, e1⟩ := List.mem_map.1 hS
            obtain ⟨y, hy, rfl⟩ := List.mem_map.1 hu
            exact h.apart c d hdc hclt (lt_of_get hg) y hy x hx e1
        · intro a b hab ha hb x hx y hy
          simp only [WSt.put, List.length_set] at ha hb
          by_cases hac : a = c
          · rw [if_pos hac] at hx
            rw [if_neg (fun hbc => hab (hac.trans hbc.symm))] at hy
            exact key b (fun hbc => hab (hac.trans hbc.symm)) hb x hx y hy
          · rw [if_neg hac] at hx
            by_cases hbc : b = c
            · rw [if_pos hbc] at hy
              exact (key a hac ha y hy x hx).symm
            · rw [if_neg hbc] at hy
              exact h.apart a b hab ha hb x hx y hy
  | equal c i d j =>
    simp only [wspec, wstep]
    cases ec : w.cs[c]? with
    | none => rw [h.none ec]; rfl
    | some hd =>
      obtain ⟨e, eq, -, hs⟩ := h.sim c hd ec
      simp only [eq, Res.ofOption, Res.ok_bind]
      cases ed : w.cs[d]? with
      | none => rw [h.none ed]; rfl
      | some gd =>
        obtain ⟨f, fq, -, hs2⟩ := h.sim d gd ed
        simp only [fq, Res.ok_bind]
        rcases forall₂_get hs.its i with ⟨a1, a2⟩ | ⟨a, m, a1, a2, a3⟩
        · have a1 : hd.its[i]? = none := a1
          rw [a1, a2]; rfl
        have a1 : hd.its[i]? = some a := a1
        rcases forall₂_get hs2.its j with ⟨b1, b2⟩ | ⟨b, n, b1, b2, b3⟩
        · have b1 : gd.its[j]? = none := b1
          rw [a1, a2, b1, b2]; rfl
        have b1 : gd.its[j]? = some b := b1
        rw [a1, a2, b1, b2]
        refine ⟨zs, w, ?_, h⟩
        simp only [Res.ok_bind]
        have hd1 := hl.1 _ _ eq
        have hd2 := hl.2 _ _ fq
        rw [a2] at hd1
        rw [b2] at hd2
        have : (if b = a then true else false) = decide (m = n ∧ (c = d ∨ m = .end)) := by
          cases a3 with
          | dead => exact absurd rfl hd1
          | «end» =>
            cases b3 with
            | dead => exact absurd rfl hd2
            | «end» => simp
            | «at» hm => simp
          | @«at» i1 n1 k1 v1 hm =>
            cases b3 with
            | dead => exact absurd rfl hd2
            | «end» => simp
            | @«at» i2 n2 k2 v2 hm2 =>
              by_cases hcd : c = d
              · subst hcd
                have nd : ((zs c).map (·.1)).Nodup := by simpa [List.map_map, Function.comp_def] using hs.holds.1.nodup
                have nd2 := hs.nodup
                have : (i2 = i1) ↔ (n1 = n2) := by
                  constructor
                  · intro e; subst e
                    have := nodup_map_inj nd hm hm2 rfl
                    exact (Prod.mk.inj (Prod.mk.inj this).2).1
                  · intro e; subst e
                    have := nodup_map_inj nd2 hm hm2 rfl
                    exact ((Prod.mk.inj this).1).symm
                simp [this]
              · have := h.apart c d hcd (lt_of_get ec) (lt_of_get ed) _ hm _ hm2
                have h2 : i2 ≠ i1 := fun e => this e.symm
                simp [h2, hcd]
        rw [this]
  | eraseForeign c d j => exact hl.elim

theorem wrun_spec (ops : List (WOp K V)) : ∀ {zs : Nat → List (ZEnt K V)} {w : WSt K V} {q}, WSim zs w q → WLive ops q → outs (wrun ops w) = outs (wspecRun ops q) := by
  induction ops with
  | nil => intros; rfl
  | cons op ops ih =>
    intro zs w q h hl
    have r := wstep_spec op h hl.1
    simp only [wrun, wspecRun]
    cases e : wspec op q with
    | outOfFuel => rw [e] at r; exact r.elim
    | panic =>
      rw [e] at r
      have r : wstep op w = .panic := r
      rw [r]; rfl
    | ok oq =>
      obtain ⟨o, q'⟩ := oq
      rw [e] at r
      obtain ⟨zs', w', r, h'⟩ := r
      rw [r]
      simp only [Res.ok_bind]
      have := ih h' (hl.2 o q' e)
      revert this
      cases wrun ops w' with
      | ok a => cases wspecRun ops q' with
        | ok b => intro e; exact congrArg (fun r => outs (do let os ← r; .ok (o :: os, ()))) e
        | panic => intro e; cases e
        | outOfFuel => intro e; cases e
      | panic => cases wspecRun ops q' with
        | ok b => intro e; cases e
        | panic => intro e; rfl
        | outOfFuel => intro e; cases e
      | outOfFuel => cases wspecRun ops q' with
        | ok b => intro e; cases e
        | panic => intro e; cases e
        | outOfFuel => intro e; rfl

/-- Empty lists with these comparators. -/
def wspecStart (cmps : List (K → K → Int)) : List ((K → K → Int) × ESt K V) := cmps.map fun cmp => (cmp, ⟨[], 0, []⟩)

theorem wsim_start {cmps : List (K → K → Int)} (hc : ∀ cmp ∈ cmps, LawfulCmp cmp) : WSim (K := K) (V := V) (fun _ => []) (WSt.start cmps) (wspecStart cmps) := by
  refine ⟨by simp [WSt.start, wspecStart], ?_, by simp⟩
  intro c h e
  simp only [WSt.start, List.getElem?_map] at e
  cases ec : cmps[c]? with
  | none => rw [ec] at e; cases e
  | some cmp =>
    rw [ec] at e
    cases e
    exact ⟨⟨[], 0, []⟩, by simp [wspecStart, ec], hc cmp (List.mem_of_getElem? ec), csim_new⟩

/-- **C107** Ordered containers in one memory: in every program on any number of containers and their iterators, interleaved in any way, every call returns what it
returns on lists of entries that know nothing of each other. -/
theorem C107_history {cmps : List (K → K → Int)} (hc : ∀ cmp ∈ cmps, LawfulCmp cmp) (ops : List (WOp K V)) (hl : WLive ops (wspecStart cmps)) :
    outs (wrun ops (WSt.start cmps)) = outs (wspecRun ops (wspecStart cmps)) := wrun_spec ops (wsim_start hc) hl

/-- The calls on container `c`. -/
def WOp.for? (c : Nat) : WOp K V → Option (COp K V)
  | .on d op => if d = c then some op else none
  | _ => none

/-- Their results. -/
def resultsOf (c : Nat) : List (WOp K V) → List (COut K V) → List (COut K V)
  | op :: ops, o :: os => match op.for? c with
    | some _ => o :: resultsOf c ops os
    | none => resultsOf c ops os
  | _, _ => []

theorem wspec_alone (c : Nat) (cmp : K → K → Int) (ops : List (WOp K V)) : ∀ {q q' : List ((K → K → Int) × ESt K V)} {e : ESt K V} {os}, q[c]? = some (cmp, e) →
    wspecRun ops q = .ok (os, q') → ∃ e', cspecRun cmp (ops.filterMap (WOp.for? c)) e = .ok (resultsOf c ops os, e') := by
  induction ops with
  | nil => intro q q' e os _ h; cases h; exact ⟨e, rfl⟩
  | cons op ops ih =>
    intro q q' e os hq h
    simp only [wspecRun] at h
    rw [Res.bind_eq_ok] at h
    obtain ⟨⟨o, q1⟩, h1, h⟩ := h
    rw [Res.bind_eq_ok] at h
    obtain ⟨⟨os1, q2⟩, h2, h⟩ := h
    cases h
    cases op with
    | on d op =>
      simp only [wspec] at h1
      by_cases hd : d = c
      · subst hd
        rw [hq] at h1
        simp only [Res.ofOption, Res.ok_bind] at h1
        rw [Res.bind_eq_ok] at h1
        obtain ⟨⟨o1, e1⟩, h3, h1⟩ := h1
        cases h1
        have hlt := lt_of_get hq
        obtain ⟨e', he'⟩ := ih (q := q.set d (cmp, e1)) (e := e1) (by rw [List.getElem?_set, if_pos rfl, if_pos hlt]) h2
        have hf : (WOp.on d op : WOp K V).for? d = some op := if_pos rfl
        refine ⟨e', ?_⟩
        simp only [List.filterMap_cons, hf, cspecRun, resultsOf, h3, Res.ok_bind, he']
      · have hf : (WOp.on d op : WOp K V).for? c = none := if_neg hd
        rw [Res.bind_eq_ok] at h1
        obtain ⟨⟨cmp1, e1⟩, h3, h1⟩ := h1
        rw [Res.bind_eq_ok] at h1
        obtain ⟨⟨o1, e2⟩, h4, h1⟩ := h1
        cases h1
        obtain ⟨e', he'⟩ := ih (q := q.set d (cmp1, e2)) (e := e) (by rw [List.getElem?_set, if_neg hd]; exact hq) h2
        refine ⟨e', ?_⟩
        simp only [List.filterMap_cons, hf, resultsOf, he']
    | equal a i d j =>
      simp only [wspec] at h1
      rw [Res.bind_eq_ok] at h1
      obtain ⟨_, _, h1⟩ := h1
      rw [Res.bind_eq_ok] at h1
      obtain ⟨_, _, h1⟩ := h1
      rw [Res.bind_eq_ok] at h1
      obtain ⟨_, _, h1⟩ := h1
      rw [Res.bind_eq_ok] at h1
      obtain ⟨_, _, h1⟩ := h1
      cases h1
      obtain ⟨e', he'⟩ := ih hq h2
      exact ⟨e', he'⟩
    | eraseForeign a d j => cases h1

theorem wlive_alone (c : Nat) (cmp : K → K → Int) (ops : List (WOp K V)) : ∀ {q q' : List ((K → K → Int) × ESt K V)} {e : ESt K V} {os}, q[c]? = some (cmp, e) →
    wspecRun ops q = .ok (os, q') → WLive ops q → AllLive cmp (ops.filterMap (WOp.for? c)) e := by
  induction ops with
  | nil => intros; trivial
  | cons op ops ih =>
    intro q q' e os hq h hl
    simp only [wspecRun] at h
    rw [Res.bind_eq_ok] at h
    obtain ⟨⟨o, q1⟩, h1, h⟩ := h
    rw [Res.bind_eq_ok] at h
    obtain ⟨⟨os1, q2⟩, h2, h⟩ := h
    have hl2 := hl.2 o q1 h1
    cases op with
    | on d op =>
      simp only [wspec] at h1
      by_cases hd : d = c
      · subst hd
        rw [hq] at h1
        simp only [Res.ofOption, Res.ok_bind] at h1
        rw [Res.bind_eq_ok] at h1
        obtain ⟨⟨o1, e1⟩, h3, h1⟩ := h1
        have h1 := (Prod.mk.inj (Res.ok.inj h1)).2
        subst h1
        have hlt := lt_of_get hq
        have hf : (WOp.on d op : WOp K V).for? d = some op := if_pos rfl
        simp only [List.filterMap_cons, hf]
        refine ⟨hl.1 _ _ hq, fun o2 e2 h4 => ?_⟩
        rw [h3] at h4
        have h4 := (Prod.mk.inj (Res.ok.inj h4)).2
        subst h4
        exact ih (by rw [List.getElem?_set, if_pos rfl, if_pos hlt]) h2 hl2
      · have hf : (WOp.on d op : WOp K V).for? c = none := if_neg hd
        rw [Res.bind_eq_ok] at h1
        obtain ⟨⟨cmp1, e1⟩, h3, h1⟩ := h1
        rw [Res.bind_eq_ok] at h1
        obtain ⟨⟨o1, e2⟩, h4, h1⟩ := h1
        have h1 := (Prod.mk.inj (Res.ok.inj h1)).2
        subst h1
        simp only [List.filterMap_cons, hf]
        exact ih (by rw [List.getElem?_set, if_neg hd]; exact hq) h2 hl2
    | equal a i d j =>
      simp only [wspec] at h1
      rw [Res.bind_eq_ok] at h1
      obtain ⟨_, _, h1⟩ := h1
      rw [Res.bind_eq_ok] at h1
      obtain ⟨_, _, h1⟩ := h1
      rw [Res.bind_eq_ok] at h1
      obtain ⟨_, _, h1⟩ := h1
      rw [Res.bind_eq_ok] at h1
      obtain ⟨_, _, h1⟩ := h1
      have h1 := (Prod.mk.inj (Res.ok.inj h1)).2
      subst h1
      exact ih hq h2 hl2
    | eraseForeign a d j => cases h1

/-- **C107** Each container answers as if it were the only one: leaving out all that is done to the others, and running the rest in a memory of its own, gives the same
results. -/
theorem C107_alone {cmps : List (K → K → Int)} (hc : ∀ cmp ∈ cmps, LawfulCmp cmp) (ops : List (WOp K V)) (hl : WLive ops (wspecStart cmps)) {os : List (COut K V)}
    {w : WSt K V} (e : wrun ops (WSt.start cmps) = .ok (os, w)) {c : Nat} {cmp : K → K → Int} (ec : cmps[c]? = some cmp) :
    outs (crun cmp (ops.filterMap (WOp.for? c)) ⟨Tree.new, []⟩) = .ok (resultsOf c ops os) := by
  have h := C107_history hc ops hl
  rw [e] at h
  cases eq : wspecRun ops (wspecStart cmps) with
  | panic => rw [eq] at h; cases h
  | outOfFuel => rw [eq] at h; cases h
  | ok r =>
    obtain ⟨os', q'⟩ := r
    rw [eq] at h
    have h : os = os' := Res.ok.inj h
    subst h
    have hq : (wspecStart cmps)[c]? = some (cmp, (⟨[], 0, []⟩ : ESt K V)) := by simp [wspecStart, ec]
    obtain ⟨e', he'⟩ := wspec_alone c cmp ops hq eq
    rw [C103_history_partial (hc cmp (List.mem_of_getElem? ec)) _ (wlive_alone c cmp ops hq eq hl), he']
    rfl

/-- **C107, foreign iterators** `EraseIter` with an iterator of another map takes the entry out of that map and counts it off this one: `a` holds one key and says it is
empty, `b` holds two keys and says it has three. -/
theorem C107_foreign_violated :
    outs (wrun [.on 0 (.put 1 10), .on 1 (.put 1 10), .on 1 (.put 2 20), .on 1 (.put 3 30), .on 1 .begin_, .eraseForeign 0 1 0,
      .on 0 .size, .on 0 (.contains 1), .on 1 .size, .on 1 (.contains 1), .on 1 (.contains 2), .on 1 (.contains 3)] (WSt.start [intCmp, intCmp])) =
      .ok [.unit, .unit, .unit, .unit, .made, .unit, .int 0, .bool true, .int 3, .bool false, .bool true, .bool (true : Bool)] := rfl

/-! ## Non-vacuity -/

/-- Two maps and an iterator of each; entries are put in turn, the second map loses one, and the iterators still show their entries. -/
def twoMaps : List (WOp Int Int) :=
  [.on 0 (.put 1 10), .on 1 (.put 1 11), .on 0 (.put 2 20), .on 0 .begin_, .on 1 (.put 5 50), .on 1 .last, .equal 0 0 1 0, .on 1 (.erase 1), .on 0 (.put 3 30),
   .on 0 (.value 0), .on 1 .size, .on 0 .size, .on 0 (.get 1)]

example : outs (wrun twoMaps (WSt.start [intCmp, intCmp])) =
    .ok [.unit, .unit, .unit, .made, .unit, .made, .bool false, .unit, .unit, .val 10, .int 1, .int 3, .got (some 10)] := rfl

/-- No iterator of `twoMaps` is used after its entry, or the one before it, is gone. -/
theorem twoMaps_live : WLive twoMaps (wspecStart [intCmp, intCmp]) := by
  simp only [twoMaps, WLive, WOp.Live, COp.Live, COp.uses]
  refine ⟨by simp, fun o q h => ?_⟩; cases h
  refine ⟨by simp, fun o q h => ?_⟩; cases h
  refine ⟨by simp, fun o q h => ?_⟩; cases h
  refine ⟨by simp, fun o q h => ?_⟩; cases h
  refine ⟨by simp, fun o q h => ?_⟩; cases h
  refine ⟨by simp, fun o q h => ?_⟩; cases h
  refine ⟨⟨fun cmp e h => by cases h; decide, fun cmp e h => by cases h; decide⟩, fun o q h => ?_⟩; cases h
  refine ⟨by simp, fun o q h => ?_⟩; cases h
  refine ⟨by simp, fun o q h => ?_⟩; cases h
  refine ⟨fun cmp e h j hj => by cases h; simp at hj; subst hj; decide, fun o q h => ?_⟩; cases h
  refine ⟨by simp, fun o q h => ?_⟩; cases h
  refine ⟨by simp, fun o q h => ?_⟩; cases h
  exact ⟨by simp, fun o q h => trivial⟩

example := C107_history (cmps := [intCmp, intCmp]) (by simp [intCmp_lawful]) twoMaps twoMaps_live

end GoSTL.TreeMap
