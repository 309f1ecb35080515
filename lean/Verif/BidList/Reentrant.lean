import Verif.BidList.Released
/-!
# C99: `Traversal` of a bidirectional list with a visitor that itself calls methods of lists

The visitor is a program: it gets the value, makes any number of calls (on this list, on other lists, through any handles), each chosen in view of the
results of the calls before, and says at the end whether to go on.
-/
namespace GoSTL.BidList
open Spec
variable {T σ : Type}

/-- What a visitor does with a value: finish with a new state of its own and an answer, or make a call and go on with its result. -/
inductive Visit (σ T : Type)
  | done (s : σ) (go : Bool)
  | call (op : Op T) (k : Out T → Visit σ T)

/-! ## Model -/

/-- The calls of a visit, on the lists of the code. -/
def Visit.run : Visit σ T → World T → Res ((Bool × σ) × World T)
  | .done s go, w => .ok ((go, s), w)
  | .call op k, w => do
    let (o, w) ← step op w
    (k o).run w

/-- list.go:299-303, the loop of `Traversal`, with a visitor that makes calls: the visited values, the state of the visitor, the lists left. The budget bounds
the number of visits. -/
def reLoop (visitor : σ → T → Visit σ T) : Nat → Option Nat → σ → World T → Res ((List T × σ) × World T)
  | 0, _, _, _ => .outOfFuel
  | _ + 1, none, s, w => .ok (([], s), w)
  | f + 1, some n, s, w => do
    let nd ← node w n
    let ((go, s), w) ← (visitor s nd.value).run w
    if go then do
      let m ← next w n
      let ((xs, s), w) ← reLoop visitor f m s w
      .ok ((nd.value :: xs, s), w)
    else .ok (([nd.value], s), w)

/-- list.go:298-304 `Traversal`. -/
def reTraversal (visitor : σ → T → Visit σ T) (f : Nat) (l : Nat) (s : σ) (w : World T) : Res ((List T × σ) × World T) := do
  let n ← frontNode w l
  reLoop visitor f n s w

/-! ## Specification -/

/-- The calls of a visit, on sequences. -/
def Visit.specRun : Visit σ T → Spec T → Res ((Bool × σ) × Spec T)
  | .done s go, S => .ok ((go, s), S)
  | .call op k, S => do
    let (o, S) ← specStep op S
    (k o).specRun S

/-- The node behind `n` in the list that `n` is in, nil if it is in none. -/
def Spec.follow (S : Spec T) (n : Nat) : Option Nat := (S.seqs.find? (n ∈ ·)).bind (after n)

/-- The walk on sequences: after each visit it goes to the node that is *then* behind the visited one. -/
def specReLoop (visitor : σ → T → Visit σ T) : Nat → Option Nat → σ → Spec T → Res ((List T × σ) × Spec T)
  | 0, _, _, _ => .outOfFuel
  | _ + 1, none, s, S => .ok (([], s), S)
  | f + 1, some n, s, S => do
    let x ← Res.ofOption S.vals[n]?
    let ((go, s), S) ← (visitor s x).specRun S
    if go then do
      let ((xs, s), S) ← specReLoop visitor f (S.follow n) s S
      .ok ((x :: xs, s), S)
    else .ok (([x], s), S)

/-- The visit makes no use of a handle whose list was cleared around it. -/
def Visit.Fresh : Visit σ T → Spec T → Prop
  | .done _ _, _ => True
  | .call op k, S => fresh op S ∧ ∀ o S', specStep op S = .ok (o, S') → (k o).Fresh S'

/-- No visit of the walk does, and the walk does not stand on such a node when it wants to go on. -/
def WalkFresh (visitor : σ → T → Visit σ T) : Nat → Option Nat → σ → Spec T → Prop
  | 0, _, _, _ => True
  | _ + 1, none, _, _ => True
  | f + 1, some n, s, S => ∀ x, S.vals[n]? = some x → (visitor s x).Fresh S ∧
      ∀ s' S', (visitor s x).specRun S = .ok ((true, s'), S') → n ∉ S'.stale ∧ WalkFresh visitor f (S'.follow n) s' S'

/-- The visit never calls `Clear`. -/
def Visit.NoClear : Visit σ T → Prop
  | .done _ _ => True
  | .call op k => (∀ l, op ≠ .clear l) ∧ ∀ o, (k o).NoClear

/-- Code and specification do the same, and the lists left are ordinary ones. -/
inductive Same {α : Type} : Res (α × World T) → Res (α × Spec T) → Prop
  | ok {a : α} {w : World T} {S : Spec T} : Reachable w S → Same (.ok (a, w)) (.ok (a, S))
  | panic : Same .panic .panic
  | outOfFuel : Same .outOfFuel .outOfFuel

/-! ## Proofs -/

theorem Reachable.same {w : World T} {S : Spec T} (h : Reachable w S) (op : Op T) (hf : fresh op S) : Same (BidList.step op w) (specStep op S) := by
  have hr := step_refines h.inv op hf
  cases e : specStep op S with
  | ok p =>
    obtain ⟨o, S'⟩ := p
    obtain ⟨w', e1, h1⟩ := h.step hf e
    rw [e1]; exact .ok h1
  | panic => rw [e] at hr; generalize BidList.step op w = a at hr; cases hr; exact .panic
  | outOfFuel => rw [e] at hr; generalize BidList.step op w = a at hr; cases hr

theorem Same.elim {α : Type} {P : Res (α × World T) → Res (α × Spec T) → Prop} {a b} (h : Same a b)
    (h1 : ∀ x w S, a = .ok (x, w) → b = .ok (x, S) → Reachable w S → P (.ok (x, w)) (.ok (x, S))) (h2 : P .panic .panic) (h3 : P .outOfFuel .outOfFuel) : P a b := by
  cases h with
  | ok hr => exact h1 _ _ _ rfl rfl hr
  | panic => exact h2
  | outOfFuel => exact h3

theorem Visit.same (v : Visit σ T) : ∀ {w : World T} {S : Spec T}, Reachable w S → v.Fresh S → Same (v.run w) (v.specRun S) := by
  induction v with
  | done s go => intro w S h _; exact .ok h
  | call op k ih =>
    intro w S h hf
    simp only [Visit.run, Visit.specRun]
    revert hf
    simp only [Visit.Fresh]
    rintro ⟨hf, hk⟩
    have hs := h.same op hf
    generalize e1 : BidList.step op w = a at hs
    generalize e2 : specStep op S = b at hs
    cases hs with
    | ok h1 => exact ih _ h1 (hk _ _ e2)
    | panic => exact .panic
    | outOfFuel => exact .outOfFuel

theorem Reachable.next {w : World T} {S : Spec T} (h : Reachable w S) {n : Nat} (hn : S.isNode n) (hf : n ∉ S.stale) : BidList.next w n = .ok (S.follow n) := by
  have hs : specStep (.next n) S = .ok (.node (S.follow n), S) := by simp [specStep, hn, Spec.follow]
  obtain ⟨w', e, -⟩ := h.step (op := .next n) (fun m hm => by simp only [handles, List.mem_singleton] at hm; subst hm; exact hf) hs
  simp only [BidList.step] at e
  obtain ⟨m, e1, e2⟩ := Res.bind_eq_ok.1 e
  rw [e1]
  have := Res.ok.inj e2
  simp only [Prod.mk.injEq, Out.node.injEq] at this
  rw [this.1]

/-- Handles stay handles. -/
theorem specStep_vals {S S' : Spec T} {op : Op T} {o : Out T} (e : specStep op S = .ok (o, S')) : S.vals.length ≤ S'.vals.length := by
  cases op <;> simp only [specStep] at e <;> (repeat' split at e) <;>
    first
    | (cases e; done)
    | (cases e; simp [setSeq, addVal])

theorem Visit.vals (v : Visit σ T) : ∀ {S S' : Spec T} {r : Bool × σ}, v.specRun S = .ok (r, S') → S.vals.length ≤ S'.vals.length := by
  induction v with
  | done s go => intro S S' r e; cases e; exact Nat.le_refl _
  | call op k ih =>
    intro S S' r e
    simp only [Visit.specRun] at e
    obtain ⟨⟨o, S1⟩, e1, e2⟩ := Res.bind_eq_ok.1 e
    exact Nat.le_trans (specStep_vals e1) (ih _ e2)

theorem reLoop_same (visitor : σ → T → Visit σ T) : ∀ (f : Nat) (n : Option Nat) (s : σ) {w : World T} {S : Spec T}, Reachable w S →
    WalkFresh visitor f n s S → Same (reLoop visitor f n s w) (specReLoop visitor f n s S)
  | 0, _, _, _, _, _, _ => .outOfFuel
  | _ + 1, none, _, _, _, h, _ => .ok h
  | f + 1, some n, s, w, S, h, hf => by
    simp only [reLoop, specReLoop]
    by_cases hn : n < S.vals.length
    · obtain ⟨nd, e, fv, -⟩ := h.inv.node_val hn
      simp only [e, fv, Res.ok_bind, Res.ofOption_some]
      obtain ⟨h1, h2⟩ := hf _ fv
      have hv := (visitor s nd.value).same h h1
      generalize e1 : (visitor s nd.value).run w = a at hv
      generalize e2 : (visitor s nd.value).specRun S = b at hv
      cases hv with
      | panic => exact .panic
      | outOfFuel => exact .outOfFuel
      | ok hr =>
        rename_i r w1 S1
        obtain ⟨go, s1⟩ := r
        simp only [Res.ok_bind]
        cases go with
        | false => exact .ok hr
        | true =>
          obtain ⟨h3, h4⟩ := h2 _ _ e2
          simp only [if_true, hr.next (show n < S1.vals.length from Nat.lt_of_lt_of_le hn ((visitor s nd.value).vals e2)) h3, Res.ok_bind]
          have := reLoop_same visitor f (S1.follow n) s1 hr h4
          generalize reLoop visitor f (S1.follow n) s1 w1 = a at this
          generalize specReLoop visitor f (S1.follow n) s1 S1 = b at this
          cases this with
          | panic => exact .panic
          | outOfFuel => exact .outOfFuel
          | ok hr => exact .ok hr
    · rw [h.inv.node_bad hn, List.getElem?_eq_none (Nat.not_lt.1 hn)]
      exact .panic

theorem Reachable.frontNode {w : World T} {S : Spec T} (h : Reachable w S) {l : Nat} (hl : S.isList l) : BidList.frontNode w l = .ok (S.seq l).head? := by
  simp [BidList.frontNode, h.inv.lst_good hl]

/-- **C99** (bidirectional lists, partial: no use of handles of a list that was cleared around them) The traversal with a visitor that makes calls does what the
walk over the sequences does that each time goes on with the node then behind the visited one: the same values are visited, the visitor ends in the same state,
the same calls panic, the lists are left as the calls made them, for every number of visits. If the visited node is in no list any more the walk ends (see
`C99_bidlist_violated`). -/
theorem C99_bidlist_partial {w : World T} {S : Spec T} (h : Reachable w S) {l : Nat} (hl : S.isList l) (visitor : σ → T → Visit σ T) (s : σ) (f : Nat)
    (hf : WalkFresh visitor f (S.seq l).head? s S) : Same (reTraversal visitor f l s w) (specReLoop visitor f (S.seq l).head? s S) := by
  simp only [reTraversal, h.frontNode hl, Res.ok_bind]
  exact reLoop_same visitor f _ s h hf

theorem specStep_noClear {S S' : Spec T} {op : Op T} {o : Out T} (hc : ∀ l, op ≠ .clear l) (e : specStep op S = .ok (o, S')) : S'.stale = S.stale := by
  cases op with
  | clear l => exact absurd rfl (hc l)
  | _ =>
    simp only [specStep] at e
    repeat' split at e
    all_goals first
      | (cases e; rfl)
      | (cases e; done)

theorem Visit.noClear (v : Visit σ T) : ∀ {S : Spec T}, S.stale = [] → v.NoClear → v.Fresh S ∧ ∀ r S', v.specRun S = .ok (r, S') → S'.stale = [] := by
  induction v with
  | done s go => intro S hS _; exact ⟨trivial, fun r S' e => by cases e; exact hS⟩
  | call op k ih =>
    intro S hS hc
    obtain ⟨h1, h2⟩ := hc
    refine ⟨⟨fun n _ => by rw [hS]; simp, fun o S' e => (ih o (by rw [specStep_noClear h1 e, hS]) (h2 o)).1⟩, ?_⟩
    intro r S' e
    simp only [Visit.specRun] at e
    obtain ⟨⟨o, S1⟩, e1, e2⟩ := Res.bind_eq_ok.1 e
    exact (ih o (by rw [specStep_noClear h1 e1, hS]) (h2 o)).2 _ _ e2

theorem walkFresh_of_noClear (visitor : σ → T → Visit σ T) (hc : ∀ s x, (visitor s x).NoClear) : ∀ (f : Nat) (n : Option Nat) (s : σ) (S : Spec T),
    S.stale = [] → WalkFresh visitor f n s S
  | 0, _, _, _, _ => trivial
  | _ + 1, none, _, _, _ => trivial
  | f + 1, some n, s, S, hS => fun x _ => by
    have := (visitor s x).noClear hS (hc s x)
    refine ⟨this.1, fun s' S' e => ?_⟩
    have h1 := this.2 _ _ e
    exact ⟨by rw [h1]; simp, walkFresh_of_noClear visitor hc f _ s' S' h1⟩

/-- **C99** (bidirectional lists, partial: `Clear` is never called) No condition on the handles. -/
theorem C99_bidlist_noClear_partial {w : World T} {S : Spec T} (h : Reachable w S) (hS : S.stale = []) {l : Nat} (hl : S.isList l) (visitor : σ → T → Visit σ T)
    (hc : ∀ s x, (visitor s x).NoClear) (s : σ) (f : Nat) : Same (reTraversal visitor f l s w) (specReLoop visitor f (S.seq l).head? s S) :=
  C99_bidlist_partial h hl visitor s f (walkFresh_of_noClear visitor hc f _ s S hS)

/-! ## A visitor that only adds -/

/-- Calls that only read, or add elements. -/
def Op.adds : Op T → Prop
  | .remove _ _ | .popBack _ | .popFront _ | .moveToFront _ _ | .moveToBack _ _ | .moveAfter _ _ _ | .clear _ | .setValue _ _ => False
  | _ => True

/-- The visit makes only such calls and always says go on. -/
def Visit.Adds : Visit σ T → Prop
  | .done _ go => go = true
  | .call op k => op.adds ∧ ∀ o, (k o).Adds

theorem sub_insAfter (m n : Nat) : ∀ s : List Nat, s.Sublist (insAfter m n s)
  | [] => List.Sublist.refl _
  | a :: s => by
    simp only [insAfter]
    split
    · exact ((List.sublist_cons_self _ _)).cons_cons _
    · exact (sub_insAfter m n s).cons_cons _

theorem sub_insBefore (m n : Nat) : ∀ s : List Nat, s.Sublist (insBefore m n s)
  | [] => List.Sublist.refl _
  | a :: s => by
    simp only [insBefore]
    split
    · exact List.sublist_cons_self _ _
    · exact (sub_insBefore m n s).cons_cons _

theorem sub_setSeq {S : Spec T} {V : List T} {l : Nat} {s : List Nat} (hs : (S.seq l).Sublist s) (i : Nat) :
    (S.seq i).Sublist (({ S with vals := V } : Spec T).setSeq l s |>.seq i) := by
  by_cases hl : S.isList l
  · by_cases e : i = l
    · subst e
      have := setSeq_seq_self (S := { S with vals := V }) (l := i) hl s
      rw [this]; exact hs
    · have := setSeq_seq_ne (S := { S with vals := V }) e s
      rw [this]; exact List.Sublist.refl _
  · have : S.seqs.set l s = S.seqs := List.set_eq_of_length_le (Nat.not_lt.1 hl)
    simp [setSeq, seq, this]

theorem specStep_adds {S S' : Spec T} {op : Op T} {o : Out T} (ha : op.adds) (e : specStep op S = .ok (o, S')) :
    (∀ i, (S.seq i).Sublist (S'.seq i)) ∧ (∃ V, S'.vals = S.vals ++ V) ∧ S'.stale = S.stale := by
  cases op with
  | remove | popBack | popFront | moveToFront | moveToBack | moveAfter | clear | setValue => exact ha.elim
  | newList =>
    cases e
    refine ⟨fun i => ?_, ⟨[], by simp⟩, rfl⟩
    simp only [seq]
    rcases Nat.lt_trichotomy i S.seqs.length with h | h | h
    · rw [List.getElem?_append_left h]
    · subst h; simp
    · rw [List.getElem?_eq_none (by omega)]; simp
  | _ =>
    simp only [specStep] at e
    repeat' split at e
    all_goals first
      | (cases e; done)
      | (cases e; exact ⟨fun i => List.Sublist.refl _, ⟨[], by simp⟩, rfl⟩)
      | (cases e
         refine ⟨fun i => sub_setSeq ?_ i, ⟨_, rfl⟩, rfl⟩
         first
         | exact List.sublist_append_left _ _
         | exact List.sublist_append_right _ _
         | exact List.sublist_cons_self _ _
         | exact sub_insAfter _ _ _
         | exact sub_insBefore _ _ _)

theorem Visit.adds (v : Visit σ T) : ∀ {S : Spec T}, v.Adds → ∀ r S', v.specRun S = .ok (r, S') →
    r.1 = true ∧ (∀ i, (S.seq i).Sublist (S'.seq i)) ∧ (∃ V, S'.vals = S.vals ++ V) ∧ S'.stale = S.stale := by
  induction v with
  | done s go => intro S hA r S' e; cases e; exact ⟨hA, fun i => List.Sublist.refl _, ⟨[], by simp⟩, rfl⟩
  | call op k ih =>
    intro S hA r S' e
    simp only [Visit.specRun] at e
    obtain ⟨⟨o, S1⟩, e1, e2⟩ := Res.bind_eq_ok.1 e
    obtain ⟨a1, ⟨V, a2⟩, a3⟩ := specStep_adds hA.1 e1
    obtain ⟨b0, b1, ⟨V', b2⟩, b3⟩ := ih o (hA.2 o) _ _ e2
    exact ⟨b0, fun i => (a1 i).trans (b1 i), ⟨V ++ V', by rw [b2, a2, List.append_assoc]⟩, by rw [b3, a3]⟩

theorem Visit.adds_noClear (v : Visit σ T) (h : v.Adds) : v.NoClear := by
  induction v with
  | done => trivial
  | call op k ih => exact ⟨fun l e => by subst e; exact h.1, fun o => ih o (h.2 o)⟩

theorem sub_split {n : Nat} {Q Q' : List Nat} : ∀ {P P' : List Nat}, n ∉ P' → n ∉ P → (P ++ n :: Q).Sublist (P' ++ n :: Q') → Q.Sublist Q'
  | [], P', h', h, hs => by
    induction P' with
    | nil => exact List.cons_sublist_cons.1 hs
    | cons p P' ih =>
      simp at h'
      rcases List.sublist_cons_iff.1 hs with hs | ⟨r, hr, hs⟩
      · exact ih h'.2 hs
      · simp at hr; exact absurd hr.1 h'.1
  | p :: P, P', h', h, hs => by
    simp at h
    exact sub_split h' h.2 ((List.sublist_cons_self p _).trans hs)

theorem follow_mid {w : World T} {S : Spec T} (h : Reachable w S) {l n : Nat} {P Q : List Nat} (hs : S.seq l = P ++ n :: Q) : S.follow n = Q.head? := by
  have hn : n ∈ S.seq l := by rw [hs]; simp
  have hd := (C05_sequences h l).1
  rw [hs, List.nodup_append] at hd
  rcases h.inv.find (n := n) with ⟨i, s, e1, e2, e3⟩ | ⟨e1, -⟩
  · have hi : i = l := Classical.byContradiction fun hne => (C05_sequences h l).2.2 i hne n hn (by rw [seq_of e1]; exact e2)
    subst hi
    rw [seq_of e1] at hs
    subst hs
    simp only [Spec.follow, e3, Option.bind_some]
    exact after_mid fun hp => hd.2.2 n hp n (by simp) rfl
  · exact absurd hn (e1 l)

theorem valsOf_keep {S S' : Spec T} {V : List T} (hv : S'.vals = S.vals ++ V) {s : List Nat} (h : ∀ n ∈ s, n < S.vals.length) : S'.valsOf s = S.valsOf s := by
  simp only [valsOf]
  apply List.filterMap_congr
  intro n hn
  rw [hv, List.getElem?_append_left (h n hn)]

theorem adds_visits (visitor : σ → T → Visit σ T) (ha : ∀ s x, (visitor s x).Adds) {l : Nat} : ∀ (f : Nat) (Q P : List Nat) (s : σ) {w : World T} {S S' : Spec T}
    {xs : List T} {s' : σ}, Reachable w S → S.stale = [] → S.seq l = P ++ Q → specReLoop visitor f Q.head? s S = .ok ((xs, s'), S') →
    (S.valsOf Q).Sublist xs
  | 0, _, _, _, _, _, _, _, _, _, _, _, e => by cases e
  | f + 1, [], _, _, _, _, _, _, _, _, _, _, _ => by simp [valsOf]
  | f + 1, n :: Q, P, s, w, S, S', xs, s', h, hS, hs, e => by
    have hn : n ∈ S.seq l := by rw [hs]; simp
    obtain ⟨nd, -, fv, -⟩ := h.inv.node_val (h.inv.mem_lt hn)
    simp only [List.head?_cons, specReLoop, fv, Res.ofOption_some, Res.ok_bind] at e
    obtain ⟨⟨⟨go, s1⟩, S1⟩, e1, e⟩ := Res.bind_eq_ok.1 e
    obtain ⟨a0, a1, ⟨V, a2⟩, a3⟩ := (visitor s nd.value).adds (ha _ _) _ _ e1
    simp only at a0
    subst a0
    have hsame := (visitor s nd.value).same h ((visitor s nd.value).noClear hS (Visit.adds_noClear _ (ha _ _))).1
    rw [e1] at hsame
    generalize (visitor s nd.value).run w = a at hsame
    cases hsame with
    | ok hr =>
    simp only [if_true] at e
    obtain ⟨⟨⟨ys, s2⟩, S2⟩, e2, e⟩ := Res.bind_eq_ok.1 e
    have e := Res.ok.inj e
    simp only [Prod.mk.injEq] at e
    obtain ⟨⟨rfl, rfl⟩, rfl⟩ := e
    have hn1 := (a1 l).subset hn
    obtain ⟨P1, Q1, hs1⟩ := List.append_of_mem hn1
    have d1 := (C05_sequences hr l).1
    have d0 := (C05_sequences h l).1
    rw [hs1, List.nodup_append] at d1
    rw [hs, List.nodup_append] at d0
    have hsub : Q.Sublist Q1 := sub_split (fun hp => d1.2.2 n hp n (by simp) rfl) (fun hp => d0.2.2 n hp n (by simp) rfl) (by rw [← hs, ← hs1]; exact a1 l)
    rw [follow_mid hr hs1] at e2
    have := adds_visits visitor ha f Q1 (P1 ++ [n]) s1 hr (by rw [a3, hS]) (by rw [hs1]; simp) e2
    rw [valsOf_cons fv]
    refine List.Sublist.cons_cons _ (List.Sublist.trans ?_ this)
    rw [← valsOf_keep a2 (s := Q) (fun m hm => h.inv.mem_lt (l := l) (by rw [hs]; simp [hm]))]
    exact hsub.filterMap _

/-- **C99** A visitor that only reads and adds elements, anywhere, and always goes on: if the walk ends, the values the list had at the start have all been
visited, in order. -/
theorem C99_bidlist_adding {w w' : World T} {S : Spec T} (h : Reachable w S) (hS : S.stale = []) {l : Nat} (hl : S.isList l) (visitor : σ → T → Visit σ T)
    (ha : ∀ s x, (visitor s x).Adds) {s s' : σ} {f : Nat} {xs : List T} (e : reTraversal visitor f l s w = .ok ((xs, s'), w')) :
    (S.valsOf (S.seq l)).Sublist xs := by
  have := C99_bidlist_noClear_partial h hS hl visitor (fun s x => Visit.adds_noClear _ (ha s x)) s f
  rw [e] at this
  generalize e1 : specReLoop visitor f (S.seq l).head? s S = b at this
  cases this with
  | ok hr => exact adds_visits visitor ha f (S.seq l) [] s h hS rfl e1

/-! ## Violations -/

/-- A visitor that removes the node it is at (which it finds with `FrontNode`) and goes on. -/
def popper (l : Nat) : Unit → T → Visit Unit T := fun _ _ => .call (.popFront l) fun _ => .done () true

/-- The walk of a visitor that takes the visited element off a list of at least two ends after the first element. -/
theorem C99_bidlist_violated {w : World T} {S : Spec T} (h : Reachable w S) {l a : Nat} {x : T} {Q : List Nat} (hs : S.seq l = a :: Q) (hx : S.vals[a]? = some x)
    (f : Nat) : ∃ w', reTraversal (popper l) (f + 2) l () w = .ok (([x], ()), w') ∧ Reachable w' (S.setSeq l Q) := by
  have hl : S.isList l := isList_of (seqs_some_mem (n := a) (by rw [hs]; simp))
  have hlive : a ∉ S.stale := h.live (l := l) (by rw [hs]; simp)
  have e0 : specStep (.popFront l) S = .ok (.val x, S.setSeq l Q) := by simp [specStep, hs, hx]
  have hvis : (popper l () x).specRun S = .ok ((true, ()), S.setSeq l Q) := by simp [popper, Visit.specRun, e0]
  obtain ⟨w1, -, h1⟩ := h.step (op := .popFront l) (fun m hm => by simp [handles] at hm) e0
  have hd := (C05_sequences h l).1
  rw [hs] at hd
  have hno : ∀ i, a ∉ (S.setSeq l Q).seq i := by
    intro i
    by_cases c : i = l
    · subst c; rw [setSeq_seq_self hl]; exact (List.nodup_cons.1 hd).1
    · rw [setSeq_seq_ne c]; exact (C05_sequences h l).2.2 i c a (by rw [hs]; simp)
  have hfo : (S.setSeq l Q).follow a = none := by
    rcases h1.inv.find (n := a) with ⟨i, s, e1, e2, -⟩ | ⟨-, e⟩
    · exact absurd (by rw [seq_of e1]; exact e2) (hno i)
    · simp [Spec.follow, e]
  have hspec : specReLoop (popper l) (f + 2) (S.seq l).head? () S = .ok (([x], ()), S.setSeq l Q) := by
    simp only [hs, List.head?_cons, specReLoop, hx, Res.ofOption_some, Res.ok_bind, hvis, hfo, if_true]
  have := C99_bidlist_partial h hl (popper l) () (f + 2) (by
    rw [hs, List.head?_cons]
    intro y hy
    rw [hx] at hy; cases hy
    refine ⟨⟨fun m hm => by simp [handles] at hm, fun _ _ _ => trivial⟩, fun s' S' e => ?_⟩
    rw [hvis] at e
    have := Res.ok.inj e
    simp only [Prod.mk.injEq] at this
    obtain ⟨-, rfl⟩ := this
    refine ⟨hlive, ?_⟩
    rw [hfo]; trivial)
  rw [hspec] at this
  generalize e1 : reTraversal (popper l) (f + 2) l () w = b at this
  cases this with
  | ok hr => exact ⟨_, rfl, hr⟩

/-- A visitor that clears the list at its first visit and goes on. -/
def clearer (l : Nat) : Bool → T → Visit Bool T := fun b _ => if b then .call (.clear l) fun _ => .done false true else .done false true

theorem ring_forever {w : World T} {s : List Nat} {l : Nat} (hr : Ring w s) (ho : ∀ n ∈ s, ow w n = some (some l)) {k : Int} (hl : w.lists[l]? = some ⟨none, k⟩) :
    ∀ (f : Nat) (n : Nat), n ∈ s → reLoop (clearer l) f (some n) false w = .outOfFuel
  | 0, _, _ => rfl
  | f + 1, n, hn => by
    obtain ⟨m, hm, hx⟩ := ring_next hr hn
    have ho := ho n hn
    cases e : w.nodes[n]? with
    | none => simp [ow, e] at ho
    | some nd =>
      simp only [ow, nx, e, Option.map_some, Option.some.injEq, Option.bind_some] at ho hx
      have en : node w n = .ok nd := by simp [node, e]
      have e2 : next w n = .ok (some m) := by
        simp [next, en, ho, hx, lst_ok hl]
      simp only [reLoop, en, Res.ok_bind, clearer, Visit.run, if_true, e2, Bool.false_eq_true, if_false]
      have := ring_forever hr ‹_› hl f m hm
      rw [this]; rfl

/-- The walk of a visitor that clears the list never ends, whatever the list: it goes round the old ring of nodes. -/
theorem C99_bidlist_clear_violated {w : World T} {S : Spec T} (h : Reachable w S) {l a : Nat} {Q : List Nat} (hs : S.seq l = a :: Q) (f : Nat) :
    reTraversal (clearer l) f l true w = .outOfFuel := by
  have hss := seqs_some_mem (S := S) (i := l) (n := a) (by rw [hs]; simp)
  have hl := isList_of hss
  have hli := h.inv.lst l _ hss
  simp only [reTraversal, h.frontNode hl, Res.ok_bind, hs, List.head?_cons]
  cases f with
  | zero => rfl
  | succ f =>
    obtain ⟨nd, e, -⟩ := h.inv.node_val (h.inv.mem_lt (l := l) (n := a) (by rw [hs]; simp))
    have ec : clear w l = .ok { w with lists := w.lists.set l ⟨none, 0⟩ } := by
      simp [clear, modLst, lst_ok hli]
    simp only [reLoop, e, Res.ok_bind, clearer, if_true, Visit.run, BidList.step, ec]
    have hr : Ring ({ w with lists := w.lists.set l ⟨none, 0⟩ } : World T) (a :: Q) := by
      have := h.inv.ring l _ hss
      rw [hs] at this
      exact this
    have ho : ∀ n ∈ a :: Q, ow ({ w with lists := w.lists.set l ⟨none, 0⟩ } : World T) n = some (some l) := fun n hn =>
      h.inv.own l _ n hss (by rw [hs]; exact hn)
    have hl' : ({ w with lists := w.lists.set l ⟨none, 0⟩ } : World T).lists[l]? = some ⟨none, 0⟩ := by
      have := (List.getElem?_eq_some_iff.1 hli).1
      simp [this]
    obtain ⟨m, hm, hx⟩ := ring_next hr (a := a) (by simp)
    have ho1 := ho a (by simp)
    have e2 : next ({ w with lists := w.lists.set l ⟨none, 0⟩ } : World T) a = .ok (some m) := by
      have e : node ({ w with lists := w.lists.set l ⟨none, 0⟩ } : World T) a = .ok nd := e
      have en : w.nodes[a]? = some nd := by
        cases e3 : w.nodes[a]? with
        | none => simp [node, e3] at e
        | some nd' => simp [node, e3] at e; rw [e]
      simp only [ow, nx, en, Option.map_some, Option.some.injEq, Option.bind_some] at ho1 hx
      simp [next, e, ho1, hx, lst_ok hl']
    rw [e2]
    have := ring_forever hr ho hl' f m hm
    simp only [Res.ok_bind, this]
    rfl

/-! ## The theorems on a concrete list -/

theorem walk_demo : ∃ w : World Nat, Reachable w ⟨[[0, 1], [2]], [10, 20, 30], []⟩ :=
  ⟨_, [.newList, .newList, .pushBack 0 10, .pushBack 0 20, .pushBack 1 30], _, noStale_of_noStaleB _ _ rfl, rfl, rfl⟩

/-- A visitor that appends `x + 100` to the list for every `x < 100`, and reads the length. -/
def echo : Nat → Nat → Visit Nat Nat := fun s x =>
  if x < 100 then .call (.pushBack 0 (x + 100)) fun _ => .call (.len 0) fun o => .done (match o with | .int k => k.toNat | _ => s) true
  else .done s true

theorem echo_adds (s x : Nat) : (echo s x).Adds := by
  simp only [echo]
  split
  · exact ⟨trivial, fun _ => ⟨trivial, fun _ => rfl⟩⟩
  · rfl

/-- It visits the appended elements too. -/
example : ∃ w w' : World Nat, ∃ S', Reachable w ⟨[[0, 1], [2]], [10, 20, 30], []⟩ ∧
    reTraversal echo 9 0 0 w = .ok (([10, 20, 110, 120], 4), w') ∧ Reachable w' S' ∧ S'.seqs = [[0, 1, 3, 4], [2]] := by
  obtain ⟨w, h⟩ := walk_demo
  have h1 := C99_bidlist_noClear_partial h rfl (l := 0) (by decide) echo (fun s x => Visit.adds_noClear _ (echo_adds s x)) 0 9
  have h2 : specReLoop echo 9 (some 0) 0 ⟨[[0, 1], [2]], [10, 20, 30], []⟩ = .ok (([10, 20, 110, 120], 4), ⟨[[0, 1, 3, 4], [2]], [10, 20, 30, 110, 120], []⟩) := rfl
  rw [show specReLoop echo 9 (Spec.seq ⟨[[0, 1], [2]], [10, 20, 30], []⟩ 0).head? 0 _ = _ from h2] at h1
  generalize e : reTraversal echo 9 0 0 w = r at h1
  cases h1 with
  | ok hr => exact ⟨w, _, _, h, e, hr, rfl⟩

example : ∃ w w' : World Nat, reTraversal (popper 0) 9 0 () w = .ok (([10], ()), w') ∧ Reachable w' ⟨[[1], [2]], [10, 20, 30], []⟩ := by
  obtain ⟨w, h⟩ := walk_demo
  obtain ⟨w', h1, h2⟩ := C99_bidlist_violated h (l := 0) rfl rfl 7
  exact ⟨w, w', h1, h2⟩

example : ∃ w : World Nat, ∀ f, reTraversal (clearer 0) f 0 true w = .outOfFuel := by
  obtain ⟨w, h⟩ := walk_demo
  exact ⟨w, fun f => C99_bidlist_clear_violated h (l := 0) rfl f⟩

end GoSTL.BidList
