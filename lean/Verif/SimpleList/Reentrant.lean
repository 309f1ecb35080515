import Verif.SimpleList.EraseLoop
/-!
# C99: `Traversal` of a singly linked list with a visitor that itself calls methods of the list

A removed node keeps its pointer, so a walk that stands on a removed node goes on with the node that followed it when it was removed. The specification records
that node for every removed node.
-/
namespace GoSTL.SimpleList
open BidList (before before_mid after after_mid split_nodup erase_mid)
variable {T σ : Type} {zero : T}

/-- What a visitor does with a value: finish with a new state of its own and an answer, or make a call and go on with its result. -/
inductive Visit (σ T : Type)
  | done (s : σ) (go : Bool)
  | call (op : Op T) (k : Out T → Visit σ T)

/-! ## Model -/

/-- The calls of a visit, on the list of the code. -/
def Visit.run (zero : T) : Visit σ T → World T → Res ((Bool × σ) × World T)
  | .done s go, w => .ok ((go, s), w)
  | .call op k, w => do
    let (o, w) ← step zero op w
    (k o).run zero w

/-- simplelist.go:159-163, the loop of `Traversal`, with a visitor that makes calls: the visited values, the state of the visitor, the list left. The budget
bounds the number of visits. -/
def reLoop (zero : T) (visitor : σ → T → Visit σ T) : Nat → Option Nat → σ → World T → Res ((List T × σ) × World T)
  | 0, _, _, _ => .outOfFuel
  | _ + 1, none, s, w => .ok (([], s), w)
  | f + 1, some n, s, w => do
    let nd ← node w n
    let ((go, s), w) ← (visitor s nd.value).run zero w
    if go then do
      let m ← next w n
      let ((xs, s), w) ← reLoop zero visitor f m s w
      .ok ((nd.value :: xs, s), w)
    else .ok (([nd.value], s), w)

/-- simplelist.go:158-164 `Traversal`. -/
def reTraversal (zero : T) (visitor : σ → T → Visit σ T) (f : Nat) (s : σ) (w : World T) : Res ((List T × σ) × World T) :=
  reLoop zero visitor f w.head s w

/-! ## Specification -/

/-- A list, and for every removed node the node that followed it when it was removed. -/
structure Hist (T : Type) where
  S : Spec T
  gone : Nat → Option Nat

/-- What a call does: as in `specStep`; a removal is recorded. -/
def histStep (zero : T) (op : Op T) (H : Hist T) : Res (Out T × Hist T) := do
  let (o, S') ← specStep zero op H.S
  match op with
  | .remove _ (some n) => .ok (o, ⟨S', fun m => if m = n then after n H.S.seq else H.gone m⟩)
  | _ => .ok (o, ⟨S', H.gone⟩)

/-- The node a walk goes to from `n`: the one behind it, or, if `n` has been removed, the one that was behind it then. -/
def Hist.follow (H : Hist T) (n : Nat) : Option Nat := if n ∈ H.S.seq then after n H.S.seq else H.gone n

/-- The calls of one visit, on the specification. -/
def Visit.specRun (zero : T) : Visit σ T → Hist T → Res ((Bool × σ) × Hist T)
  | .done s go, H => .ok ((go, s), H)
  | .call op k, H => do
    let (o, H) ← histStep zero op H
    (k o).specRun zero H

/-- The walk, on the specification. -/
def specReLoop (zero : T) (visitor : σ → T → Visit σ T) : Nat → Option Nat → σ → Hist T → Res ((List T × σ) × Hist T)
  | 0, _, _, _ => .outOfFuel
  | _ + 1, none, s, H => .ok (([], s), H)
  | f + 1, some n, s, H => do
    let x ← Res.ofOption H.S.vals[n]?
    let ((go, s), H) ← (visitor s x).specRun zero H
    if go then do
      let ((xs, s), H) ← specReLoop zero visitor f (H.follow n) s H
      .ok ((x :: xs, s), H)
    else .ok (([x], s), H)

/-- Every call of the visit has right arguments. -/
def Visit.OkArgs (zero : T) : Visit σ T → Hist T → Prop
  | .done _ _, _ => True
  | .call op k, H => okArgs op H.S ∧ ∀ o H', histStep zero op H = .ok (o, H') → (k o).OkArgs zero H'

/-- Every call of the walk has right arguments. -/
def WalkOk (zero : T) (visitor : σ → T → Visit σ T) : Nat → Option Nat → σ → Hist T → Prop
  | 0, _, _, _ => True
  | _ + 1, none, _, _ => True
  | f + 1, some n, s, H => ∀ x, H.S.vals[n]? = some x → (visitor s x).OkArgs zero H ∧
      ∀ s' H', (visitor s x).specRun zero H = .ok ((true, s'), H') → WalkOk zero visitor f (H'.follow n) s' H'

/-- The removed nodes of the code point to what the specification records. -/
def Keeps (w : World T) (H : Hist T) : Prop := ∀ n, n < H.S.vals.length → n ∉ H.S.seq → nx w n = H.gone n

/-- Code and specification do the same, and the list left is an ordinary one. -/
inductive Same (zero : T) {α : Type} : Res (α × World T) → Res (α × Hist T) → Prop
  | ok {a : α} {w : World T} {H : Hist T} : Reachable zero w H.S → Keeps w H → Same zero (.ok (a, w)) (.ok (a, H))
  | panic : Same zero .panic .panic
  | outOfFuel : Same zero .outOfFuel .outOfFuel

/-! ## Proofs -/

theorem setNext_frame {w w' : World T} {n m : Nat} {p : Option Nat} (e : setNext w n p = .ok w') (h : m ≠ n) : nx w' m = nx w m := by
  simp only [setNext] at e
  obtain ⟨nd, -, e⟩ := Res.bind_eq_ok.1 e
  cases e
  simp [nx, List.getElem?_set_ne (Ne.symm h)]

theorem alloc_frame {w : World T} {v : T} {m : Nat} (h : m < w.nodes.length) : nx (alloc w v).2 m = nx w m := by
  simp [alloc, nx, List.getElem?_append_left h]

/-- A call leaves the pointers of nodes that are not in the list, and of the node it removes. -/
theorem step_frame {w w' : World T} {S : Spec T} (h : WInv w S) {op : Op T} {o : Out T} (ha : okArgs op S) (e : step zero op w = .ok (o, w')) {m : Nat}
    (hm : m < S.vals.length) (hs : m ∉ S.seq ∨ ∃ p, op = .remove p (some m)) : nx w' m = nx w m := by
  rw [← h.nnode] at hm
  cases op with
  | pushFront v =>
    simp only [step] at e
    obtain ⟨w1, e1, e2⟩ := Res.bind_eq_ok.1 e
    cases e2
    simp only [pushFront] at e1
    rw [← alloc_frame (v := v) hm]
    split at e1
    · cases e1; rfl
    · obtain ⟨w3, e3, e4⟩ := Res.bind_eq_ok.1 e1
      cases e4
      have := setNext_frame (m := m) e3 (by simp only [alloc]; omega)
      exact this
  | pushBack v =>
    simp only [step] at e
    obtain ⟨w1, e1, e2⟩ := Res.bind_eq_ok.1 e
    cases e2
    simp only [pushBack] at e1
    rw [← alloc_frame (v := v) hm]
    split at e1
    · cases e1; rfl
    · obtain ⟨t, e3, e1⟩ := Res.bind_eq_ok.1 e1
      obtain ⟨w3, e4, e1⟩ := Res.bind_eq_ok.1 e1
      cases e1
      suffices hne : m ≠ t by
        have := setNext_frame e4 hne
        exact this
      rintro rfl
      have ht : (alloc w v).2.tail = w.tail := rfl
      rw [ht, h.tail] at e3
      rcases hs with hs | ⟨p, hs⟩
      · cases e5 : S.seq.getLast? with
        | none => rw [e5] at e3; cases e3
        | some t => rw [e5] at e3; cases e3; exact hs (List.mem_of_getLast? e5)
      · cases hs
  | insertAfter v a =>
    simp only [step] at e
    obtain ⟨⟨n, w1⟩, e1, e2⟩ := Res.bind_eq_ok.1 e
    cases e2
    simp only [insertAfter] at e1
    obtain ⟨nd, e2, e1⟩ := Res.bind_eq_ok.1 e1
    obtain ⟨w2, e3, e1⟩ := Res.bind_eq_ok.1 e1
    obtain ⟨w3, e4, e1⟩ := Res.bind_eq_ok.1 e1
    obtain ⟨nd2, e5, e1⟩ := Res.bind_eq_ok.1 e1
    have e1 := Res.ok.inj e1
    simp only [Prod.mk.injEq] at e1
    obtain ⟨-, rfl⟩ := e1
    rcases hs with hs | ⟨p, hs⟩
    · rw [← alloc_frame (v := v) hm, ← setNext_frame e3 (m := m) (by simp only [alloc]; omega), ← setNext_frame e4 (m := m) (by rintro rfl; exact hs ha)]
      split <;> rfl
    · cases hs
  | remove p n =>
    cases n with
    | none => cases e; rfl
    | some n =>
      simp only [okArgs] at ha
      simp only [step] at e
      obtain ⟨⟨x, w1⟩, e1, e2⟩ := Res.bind_eq_ok.1 e
      cases e2
      simp only [remove] at e1
      obtain ⟨nd, e2, e1⟩ := Res.bind_eq_ok.1 e1
      cases p with
      | none =>
        simp only [Res.ok_bind] at e1
        obtain ⟨nd3, e5, e1⟩ := Res.bind_eq_ok.1 e1
        cases e1
        rfl
      | some q =>
        simp only at e1
        obtain ⟨w4, e4, e1⟩ := Res.bind_eq_ok.1 e1
        obtain ⟨nd3, e5, e1⟩ := Res.bind_eq_ok.1 e1
        simp only [Res.ok_bind] at e1
        obtain ⟨nd4, e6, e1⟩ := Res.bind_eq_ok.1 e1
        cases e1
        suffices hne : m ≠ q by
          have := setNext_frame e4 hne
          exact this
        rintro rfl
        obtain ⟨P, Q, hPQ, hP, hQ⟩ := split_nodup ha.1 h.nodup
        have hb := ha.2
        rw [hPQ, before_mid hP] at hb
        have hq : m ∈ P := List.mem_of_getLast? hb.symm
        rcases hs with hs | ⟨p, hs⟩
        · exact hs (by rw [hPQ]; simp [hq])
        · cases hs; exact hP hq
  | moveToFront p n =>
    rcases hs with hs | ⟨q, hs⟩
    swap
    · cases hs
    simp only [step] at e
    obtain ⟨w1, e1, e2⟩ := Res.bind_eq_ok.1 e
    cases e2
    cases p with
    | none => cases e1; rfl
    | some p =>
      simp only [moveToFront] at e1
      obtain ⟨pd, e2, e1⟩ := Res.bind_eq_ok.1 e1
      split at e1
      · cases e1; rfl
      · cases n with
        | none => cases e1; rfl
        | some n =>
          simp only at e1
          split at e1
          · cases e1; rfl
          · simp only [okArgs] at ha
            obtain ⟨P, Q, hPQ, hP, hQ⟩ := split_nodup ha.1 h.nodup
            have hb := ha.2
            rw [hPQ, before_mid hP] at hb
            have hq : p ∈ P := List.mem_of_getLast? hb.symm
            obtain ⟨nd, e3, e1⟩ := Res.bind_eq_ok.1 e1
            obtain ⟨w2, e4, e1⟩ := Res.bind_eq_ok.1 e1
            obtain ⟨pd2, e5, e1⟩ := Res.bind_eq_ok.1 e1
            obtain ⟨w3, e6, e1⟩ := Res.bind_eq_ok.1 e1
            cases e1
            rw [← setNext_frame e4 (m := m) (by rintro rfl; exact hs (by rw [hPQ]; simp [hq]))]
            have := setNext_frame (m := m) e6 (by rintro rfl; exact hs ha.1)
            exact this
  | moveToBack p n =>
    rcases hs with hs | ⟨q, hs⟩
    swap
    · cases hs
    simp only [step] at e
    obtain ⟨w1, e1, e2⟩ := Res.bind_eq_ok.1 e
    cases e2
    cases n with
    | none => cases e1; rfl
    | some n =>
      simp only [moveToBack] at e1
      obtain ⟨nd, e2, e1⟩ := Res.bind_eq_ok.1 e1
      split at e1
      · cases e1; rfl
      split at e1
      · cases e1; rfl
      simp only [okArgs] at ha
      obtain ⟨P, Q, hPQ, hP, hQ⟩ := split_nodup ha.1 h.nodup
      obtain ⟨w2, e3, t, e4, w3, e5, e1⟩ : ∃ w2, (match p with
          | none => Res.ok { w with head := nd.next }
          | some p => setNext w p nd.next) = .ok w2 ∧ ∃ t, Res.ofOption w2.tail = .ok t ∧ ∃ w3, setNext w2 t (some n) = .ok w3 ∧
            setNext { w3 with tail := some n } n none = .ok w' := by
        cases p with
        | none =>
          simp only [Res.ok_bind] at e1
          obtain ⟨t, e4, e1⟩ := Res.bind_eq_ok.1 e1
          obtain ⟨w3, e5, e1⟩ := Res.bind_eq_ok.1 e1
          exact ⟨_, rfl, t, e4, w3, e5, e1⟩
        | some p =>
          obtain ⟨w2, e3, e1⟩ := Res.bind_eq_ok.1 e1
          obtain ⟨t, e4, e1⟩ := Res.bind_eq_ok.1 e1
          obtain ⟨w3, e5, e1⟩ := Res.bind_eq_ok.1 e1
          exact ⟨w2, e3, t, e4, w3, e5, e1⟩
      have h2 : nx w2 m = nx w m ∧ w2.tail = w.tail := by
        cases p with
        | none => cases e3; exact ⟨rfl, rfl⟩
        | some p =>
          have hb := ha.2
          rw [hPQ, before_mid hP] at hb
          have hq : p ∈ P := List.mem_of_getLast? hb.symm
          refine ⟨setNext_frame e3 (by rintro rfl; exact hs (by rw [hPQ]; simp [hq])), ?_⟩
          simp only [setNext] at e3
          obtain ⟨nd, -, e3⟩ := Res.bind_eq_ok.1 e3
          cases e3; rfl
      rw [← h2.1]
      rw [h2.2, h.tail] at e4
      have ht : m ≠ t := by
        rintro rfl
        cases e6 : S.seq.getLast? with
        | none => rw [e6] at e4; cases e4
        | some t => rw [e6] at e4; cases e4; exact hs (List.mem_of_getLast? e6)
      rw [← setNext_frame e5 ht]
      have := setNext_frame (m := m) e1 (by rintro rfl; exact hs ha.1)
      exact this
  | setValue n v =>
    simp only [step] at e
    obtain ⟨w1, e1, e2⟩ := Res.bind_eq_ok.1 e
    cases e2
    simp only [setValue] at e1
    obtain ⟨nd, e2, e1⟩ := Res.bind_eq_ok.1 e1
    cases e1
    by_cases c : m = n
    · subst c
      simp only [node] at e2
      cases e3 : w.nodes[m]? with
      | none => rw [e3] at e2; cases e2
      | some nd' =>
        rw [e3] at e2; cases e2
        simp only [nx, List.getElem?_set_self hm, e3, Option.bind_some]
    · simp [nx, List.getElem?_set_ne (Ne.symm c)]
  | value n =>
    simp only [step] at e
    obtain ⟨x, -, e2⟩ := Res.bind_eq_ok.1 e
    cases e2; rfl
  | next n =>
    simp only [step] at e
    obtain ⟨x, -, e2⟩ := Res.bind_eq_ok.1 e
    cases e2; rfl
  | frontNode => cases e; rfl
  | backNode => cases e; rfl
  | len => cases e; rfl

/-- What a call does to the sets of nodes. -/
theorem specStep_nodes {S S' : Spec T} {op : Op T} {o : Out T} (e : specStep zero op S = .ok (o, S')) : S.vals.length ≤ S'.vals.length ∧
    ((∃ v, S'.vals = S.vals ++ [v]) ∨ S'.vals.length = S.vals.length) := by
  cases op with
  | remove p n => cases n <;> simp only [specStep] at e <;> (repeat' split at e) <;> cases e <;> simp
  | moveToFront p n => cases n <;> cases e <;> simp
  | moveToBack p n => cases n <;> cases e <;> simp
  | _ =>
    simp only [specStep] at e
    repeat' split at e
    all_goals first
      | (cases e; done)
      | (cases e; simp)

/-- Except by `Remove`, no node leaves the list, and a new node enters it. -/
theorem specStep_mem {S S' : Spec T} {op : Op T} {o : Out T} (ha : okArgs op S) (e : specStep zero op S = .ok (o, S')) {m : Nat} (hm : m < S'.vals.length)
    (hs : m ∉ S'.seq) : m < S.vals.length ∧ (m ∉ S.seq ∨ ∃ p, op = .remove p (some m)) := by
  cases op with
  | pushFront v => cases e; simp at hm hs; exact ⟨by omega, .inl hs.2⟩
  | pushBack v => cases e; simp at hm hs; exact ⟨by omega, .inl hs.1⟩
  | insertAfter v a =>
    cases e
    simp only [okArgs] at ha
    simp at hm hs
    have : m ≠ S.vals.length ∧ m ∉ S.seq := by
      obtain ⟨P, Q, hPQ⟩ := List.append_of_mem ha
      clear hm
      have : ∀ s : List Nat, a ∈ s → S.vals.length ∈ BidList.insAfter a S.vals.length s ∧ ∀ x ∈ s, x ∈ BidList.insAfter a S.vals.length s := by
        intro s
        induction s with
        | nil => simp
        | cons b s ih =>
          intro hb
          simp only [BidList.insAfter]
          split
          · simp; intro x hx; simp [hx]
          · rename_i hne
            have := ih (by simpa [Ne.symm hne] using hb)
            simp; exact ⟨.inr this.1, fun x hx => .inr (this.2 x hx)⟩
      have := this S.seq ha
      exact ⟨by rintro rfl; exact hs this.1, fun h => hs (this.2 m h)⟩
    exact ⟨by omega, .inl this.2⟩
  | remove p n =>
    cases n with
    | none => cases e; exact ⟨hm, .inl hs⟩
    | some n =>
      simp only [specStep] at e
      split at e
      · cases e
      · cases e
        refine ⟨hm, ?_⟩
        by_cases c : m = n
        · subst c; exact .inr ⟨p, rfl⟩
        · exact .inl fun h => hs ((List.mem_erase_of_ne c).2 h)
  | moveToFront p n =>
    cases n with
    | none => cases e; exact ⟨hm, .inl hs⟩
    | some n =>
      cases e
      refine ⟨hm, .inl fun h => hs ?_⟩
      by_cases c : m = n
      · subst c; simp
      · exact List.mem_cons_of_mem _ ((List.mem_erase_of_ne c).2 h)
  | moveToBack p n =>
    cases n with
    | none => cases e; exact ⟨hm, .inl hs⟩
    | some n =>
      cases e
      refine ⟨hm, .inl fun h => hs ?_⟩
      by_cases c : m = n
      · subst c; simp
      · exact List.mem_append_left _ ((List.mem_erase_of_ne c).2 h)
  | setValue n v =>
    simp only [specStep] at e
    split at e
    · cases e; simp at hm; exact ⟨hm, .inl hs⟩
    · cases e
  | value n =>
    simp only [specStep] at e
    split at e
    · cases e
    · cases e; exact ⟨hm, .inl hs⟩
  | next n => cases e; exact ⟨hm, .inl hs⟩
  | frontNode => cases e; exact ⟨hm, .inl hs⟩
  | backNode => cases e; exact ⟨hm, .inl hs⟩
  | len => cases e; exact ⟨hm, .inl hs⟩

theorem Reachable.nx_mem {w : World T} {S : Spec T} (h : Reachable zero w S) {n : Nat} (hn : n ∈ S.seq) : nx w n = after n S.seq := by
  obtain ⟨P, Q, hPQ, hP, hQ⟩ := split_nodup hn h.inv.nodup
  have hc := h.inv.chain
  rw [hPQ, sg_append] at hc
  rw [hPQ, after_mid hP, hc.2.1]
  simp

/-- The node a call removes. -/
def Op.removes : Op T → Option Nat
  | .remove _ n => n
  | _ => none

theorem Op.removes_iff {op : Op T} {m : Nat} : op.removes = some m ↔ ∃ p, op = .remove p (some m) := by
  cases op with
  | remove p n =>
    constructor
    · intro h; exact ⟨p, by rw [show n = some m from h]⟩
    · rintro ⟨q, hq⟩; cases hq; rfl
  | _ => exact ⟨fun h => by (cases h), fun ⟨p, h⟩ => by (cases h)⟩

theorem histStep_eq (op : Op T) (H : Hist T) : histStep zero op H = (specStep zero op H.S >>= fun r =>
    .ok (r.1, ⟨r.2, fun m => if op.removes = some m then after m H.S.seq else H.gone m⟩)) := by
  simp only [histStep]
  cases specStep zero op H.S with
  | panic => rfl
  | outOfFuel => rfl
  | ok r =>
    simp only [Res.ok_bind]
    have hk : (∀ p n, op ≠ .remove p (some n)) →
        (.ok (r.1, ⟨r.2, H.gone⟩) : Res (Out T × Hist T)) = .ok (r.1, ⟨r.2, fun m => if op.removes = some m then after m H.S.seq else H.gone m⟩) := by
      intro hne
      congr 3
      funext m
      rw [if_neg]
      intro hr; obtain ⟨p, rfl⟩ := Op.removes_iff.1 hr; exact hne p m rfl
    cases op with
    | remove p n =>
      cases n with
      | none => exact hk (fun p n h => by cases h)
      | some n =>
        show (Res.ok (r.1, ⟨r.2, fun m => if m = n then after n H.S.seq else H.gone m⟩) : Res (Out T × Hist T)) = _
        congr 3
        funext m
        by_cases c : m = n
        · subst c; simp [Op.removes]
        · rw [if_neg c, if_neg]
          intro hr; exact c (Option.some.inj hr).symm
    | _ => exact hk (fun p n h => by cases h)

theorem Same.step {w : World T} {H : Hist T} (h : Reachable zero w H.S) (hk : Keeps w H) (op : Op T) (ha : okArgs op H.S) :
    Same zero (SimpleList.step zero op w) (histStep zero op H) := by
  have hr := step_refines h.inv zero op ha
  rw [histStep_eq]
  cases e : specStep zero op H.S with
  | ok r =>
    obtain ⟨o, S'⟩ := r
    obtain ⟨w', e1, h1⟩ := h.step ha e
    rw [e1]
    refine .ok (H := ⟨S', _⟩) h1 ?_
    intro n hn hs
    obtain ⟨h2, h3⟩ := specStep_mem ha e hn hs
    rw [step_frame h.inv ha e1 h2 h3]
    show _ = if op.removes = some n then after n H.S.seq else H.gone n
    by_cases c : op.removes = some n
    · rw [if_pos c]
      obtain ⟨p, rfl⟩ := Op.removes_iff.1 c
      exact h.nx_mem ha.1
    · rw [if_neg c]
      exact hk n h2 (h3.resolve_right fun h => c (Op.removes_iff.2 h))
  | panic => rw [e] at hr; generalize SimpleList.step zero op w = a at hr; cases hr; exact .panic
  | outOfFuel => rw [e] at hr; generalize SimpleList.step zero op w = a at hr; cases hr

theorem Visit.same (v : Visit σ T) : ∀ {w : World T} {H : Hist T}, Reachable zero w H.S → Keeps w H → v.OkArgs zero H →
    Same zero (v.run zero w) (v.specRun zero H) := by
  induction v with
  | done s go => intro w H h hk _; exact .ok h hk
  | call op k ih =>
    intro w H h hk hf
    simp only [Visit.run, Visit.specRun]
    revert hf
    simp only [Visit.OkArgs]
    rintro ⟨hf, hv⟩
    have hs := Same.step h hk op hf
    generalize e1 : SimpleList.step zero op w = a at hs
    generalize e2 : histStep zero op H = b at hs
    cases hs with
    | ok h1 k1 => exact ih _ h1 k1 (hv _ _ e2)
    | panic => exact .panic
    | outOfFuel => exact .outOfFuel

theorem Visit.vals (v : Visit σ T) : ∀ {H H' : Hist T} {r : Bool × σ}, v.specRun zero H = .ok (r, H') → H.S.vals.length ≤ H'.S.vals.length := by
  induction v with
  | done s go => intro H H' r e; cases e; exact Nat.le_refl _
  | call op k ih =>
    intro H H' r e
    simp only [Visit.specRun] at e
    obtain ⟨⟨o, H1⟩, e1, e2⟩ := Res.bind_eq_ok.1 e
    refine Nat.le_trans ?_ (ih _ e2)
    rw [histStep_eq] at e1
    obtain ⟨⟨o, S1⟩, e3, e4⟩ := Res.bind_eq_ok.1 e1
    cases e4
    exact (specStep_nodes e3).1

theorem Reachable.next {w : World T} {H : Hist T} (h : Reachable zero w H.S) (hk : Keeps w H) {n : Nat} (hn : n < H.S.vals.length) :
    SimpleList.next w n = .ok (H.follow n) := by
  obtain ⟨nd, e, f, -⟩ := node_ok (w := w) (n := n) (by rw [h.inv.nnode]; exact hn)
  simp only [SimpleList.next, e, Res.ok_bind, ← f, Hist.follow]
  by_cases c : n ∈ H.S.seq
  · rw [if_pos c, h.nx_mem c]
  · rw [if_neg c, hk n hn c]

theorem reLoop_same (visitor : σ → T → Visit σ T) : ∀ (f : Nat) (n : Option Nat) (s : σ) {w : World T} {H : Hist T}, Reachable zero w H.S → Keeps w H →
    WalkOk zero visitor f n s H → Same zero (reLoop zero visitor f n s w) (specReLoop zero visitor f n s H)
  | 0, _, _, _, _, _, _, _ => .outOfFuel
  | _ + 1, none, _, _, _, h, hk, _ => .ok h hk
  | f + 1, some n, s, w, H, h, hk, hf => by
    simp only [reLoop, specReLoop]
    by_cases hn : n < H.S.vals.length
    · obtain ⟨nd, e, -, g⟩ := node_ok (w := w) (n := n) (by rw [h.inv.nnode]; exact hn)
      have fv : H.S.vals[n]? = some nd.value := by rw [← h.inv.vals, g]
      simp only [e, fv, Res.ok_bind, Res.ofOption_some]
      obtain ⟨h1, h2⟩ := hf _ fv
      have hv := (visitor s nd.value).same h hk h1
      generalize e1 : (visitor s nd.value).run zero w = a at hv
      generalize e2 : (visitor s nd.value).specRun zero H = b at hv
      cases hv with
      | panic => exact .panic
      | outOfFuel => exact .outOfFuel
      | ok hr hk1 =>
        rename_i r w1 H1
        obtain ⟨go, s1⟩ := r
        simp only [Res.ok_bind]
        cases go with
        | false => exact .ok hr hk1
        | true =>
          have h4 := h2 _ _ e2
          simp only [if_true, hr.next hk1 (Nat.lt_of_lt_of_le hn ((visitor s nd.value).vals e2)), Res.ok_bind]
          have := reLoop_same visitor f (H1.follow n) s1 hr hk1 h4
          generalize reLoop zero visitor f (H1.follow n) s1 w1 = a at this
          generalize specReLoop zero visitor f (H1.follow n) s1 H1 = b at this
          cases this with
          | panic => exact .panic
          | outOfFuel => exact .outOfFuel
          | ok hr hk => exact .ok hr hk
    · rw [node_panic (by rw [h.inv.nnode]; exact Nat.not_lt.1 hn), List.getElem?_eq_none (Nat.not_lt.1 hn)]
      exact .panic

/-- A record of the removed nodes of a list: whatever they point to. -/
def Reachable.hist {w : World T} {S : Spec T} (_ : Reachable zero w S) : Hist T := ⟨S, nx w⟩

/-- **C99** (singly linked lists) The traversal with a visitor that makes calls (with right arguments) does what the walk over the sequence does that each time
goes on with the node then behind the visited one or, if the visited one has been removed, with the node that was behind it at its removal: the same values are
visited, the visitor ends in the same state, the list is left as the calls made it, for every number of visits. -/
theorem C99_simplelist {w : World T} {S : Spec T} (h : Reachable zero w S) (visitor : σ → T → Visit σ T) (s : σ) (f : Nat)
    (hf : WalkOk zero visitor f S.seq.head? s h.hist) : Same zero (reTraversal zero visitor f s w) (specReLoop zero visitor f S.seq.head? s h.hist) := by
  simp only [reTraversal, h.inv.head]
  exact reLoop_same visitor f _ s (H := h.hist) h (fun n _ _ => rfl) hf

/-! ## A visitor that removes visited elements -/

/-- The visitor keeps the last node it left in the list; the visited node is the one behind that, or the front node. It removes the visited node if its value
is to be dropped, and always goes on. -/
def dropper (drop : T → Bool) : Option Nat → T → Visit (Option Nat) T := fun pre x =>
  .call (match pre with | none => .frontNode | some p => .next p) fun o =>
    match o with
    | .node (some n) => if drop x then .call (.remove pre (some n)) fun _ => .done pre true else .done (some n) true
    | _ => .done pre true

theorem dropper_spec (drop : T → Bool) : ∀ (Q P : List Nat) (f : Nat) (w : World T) (H : Hist T), Reachable zero w H.S →
    H.S.seq = P ++ Q → Q.length < f →
    WalkOk zero (dropper drop) f Q.head? P.getLast? H ∧
    ∃ p g, specReLoop zero (dropper drop) f Q.head? P.getLast? H = .ok ((H.S.valsOf Q, p), ⟨{ H.S with seq := P ++ Q.filter (H.S.kept drop) }, g⟩) := by
  intro Q
  induction Q with
  | nil =>
    intro P f w H h hs hf
    obtain ⟨f, rfl⟩ : ∃ g, f = g + 1 := ⟨f - 1, by simp at hf; omega⟩
    refine ⟨trivial, P.getLast?, H.gone, ?_⟩
    rw [List.filter_nil, ← hs]; rfl
  | cons n Q ih =>
    intro P f w H h hs hf
    obtain ⟨f, rfl⟩ : ∃ g, f = g + 1 := ⟨f - 1, by simp at hf; omega⟩
    have hn : n ∈ H.S.seq := by rw [hs]; simp
    have hnd := h.inv.nodup
    have hP : n ∉ P := by
      rw [hs, List.nodup_append] at hnd
      exact fun hp => hnd.2.2 n hp n (by simp) rfl
    obtain ⟨x, w1, hx, e4, h1⟩ := h.remove hn
    have hvo : H.S.valsOf (n :: Q) = x :: H.S.valsOf Q := by simp [Spec.valsOf, hx]
    have hbef : before n H.S.seq = P.getLast? := by rw [hs, before_mid hP]
    have haft : after n H.S.seq = Q.head? := by rw [hs, after_mid hP]
    have her : H.S.seq.erase n = P ++ Q := by rw [hs, erase_mid hP]
    -- the visitor finds the node
    have hop : okArgs (match P.getLast? with | none => Op.frontNode | some p => Op.next p) H.S ∧
        histStep zero (match P.getLast? with | none => Op.frontNode | some p => Op.next p) H = .ok (.node (some n), H) := by
      cases e : P.getLast? with
      | none =>
        have : P = [] := List.getLast?_eq_none_iff.1 e
        subst this
        refine ⟨trivial, ?_⟩
        simp [histStep, specStep, hs]
      | some p =>
        obtain ⟨P', rfl⟩ : ∃ P', P = P' ++ [p] := by
          obtain ⟨h1, h2⟩ := List.getLast?_eq_some_iff.1 e
          exact ⟨h1, h2⟩
        refine ⟨by simp [okArgs, hs], ?_⟩
        have : after p H.S.seq = some n := by
          rw [hs, List.append_assoc, List.singleton_append, after_mid]
          · rfl
          · intro hp
            rw [hs, List.append_assoc, List.nodup_append] at hnd
            exact hnd.2.2 p hp p (by simp) rfl
        simp [histStep, specStep, this]
    by_cases hd : drop x = true
    · -- dropped
      let H1 : Hist T := ⟨{ H.S with seq := P ++ Q }, fun m => if m = n then after n H.S.seq else H.gone m⟩
      have hrm : histStep zero (.remove P.getLast? (some n)) H = .ok (.val x, H1) := by
        simp [histStep, specStep, hx, her, H1]
      have hrun : (dropper drop P.getLast? x).specRun zero H = .ok ((true, P.getLast?), H1) := by
        simp only [dropper, Visit.specRun, hop.2, Res.ok_bind, hd, if_true, hrm]
      have hfo : H1.follow n = Q.head? := by
        have : n ∉ P ++ Q := by
          rw [hs, List.nodup_append, List.nodup_cons] at hnd
          simp [hP, hnd.2.1.1]
        simp [Hist.follow, H1, this, haft]
      rw [her] at h1
      obtain ⟨i1, p, g, i2⟩ := ih P f w1 H1 h1 rfl (by simp at hf; omega)
      refine ⟨?_, p, g, ?_⟩
      · intro y hy
        rw [hx] at hy; cases hy
        refine ⟨?_, ?_⟩
        · simp only [dropper, Visit.OkArgs]
          refine ⟨hop.1, fun o H' e => ?_⟩
          rw [hop.2] at e
          cases e
          simp only [hd, if_true, Visit.OkArgs]
          exact ⟨⟨hn, hbef.symm⟩, fun _ _ _ => trivial⟩
        · intro s' H' e
          rw [hrun] at e
          cases e
          rw [hfo]; exact i1
      · simp only [List.head?_cons, specReLoop, hx, Res.ofOption_some, Res.ok_bind, hrun, if_true, hfo, i2]
        have hk : H.S.kept drop n = false := by simp [Spec.kept, hx, hd]
        rw [List.filter_cons_of_neg (by simp [hk]), hvo]
        rfl
    · -- kept
      have hrun : (dropper drop P.getLast? x).specRun zero H = .ok ((true, some n), H) := by
        simp only [dropper, Visit.specRun, hop.2, Res.ok_bind, hd, Bool.false_eq_true, if_false]
      have hfo : H.follow n = Q.head? := by simp [Hist.follow, hn, haft]
      obtain ⟨i1, p, g, i2⟩ := ih (P ++ [n]) f w H h (by simpa using hs) (by simp at hf; omega)
      rw [List.getLast?_append, List.getLast?_singleton, Option.some_or] at i1 i2
      refine ⟨?_, p, g, ?_⟩
      · intro y hy
        rw [hx] at hy; cases hy
        refine ⟨?_, ?_⟩
        · simp only [dropper, Visit.OkArgs]
          refine ⟨hop.1, fun o H' e => ?_⟩
          rw [hop.2] at e
          cases e
          simp [hd, Visit.OkArgs]
        · intro s' H' e
          rw [hrun] at e
          cases e
          rw [hfo]; exact i1
      · simp only [List.head?_cons, specReLoop, hx, Res.ofOption_some, Res.ok_bind, hrun, if_true, hfo, i2]
        have hk : H.S.kept drop n = true := by simp [Spec.kept, hx, hd]
        rw [List.filter_cons_of_pos hk, hvo]
        simp

/-- **C99** A traversal that removes the visited element whenever a condition holds visits every element once, in order, and leaves exactly the others, in
order. -/
theorem C99_simplelist_dropper {w : World T} {S : Spec T} (h : Reachable zero w S) (drop : T → Bool) {f : Nat} (hf : S.seq.length < f) :
    ∃ w' S' p, reTraversal zero (dropper drop) f none w = .ok ((S.valsOf S.seq, p), w') ∧ Reachable zero w' S' ∧
      S'.seq = S.seq.filter (S.kept drop) ∧ S'.vals = S.vals := by
  obtain ⟨h1, p, g, h2⟩ := dropper_spec drop S.seq [] f w h.hist h rfl hf
  have h3 := C99_simplelist h (dropper drop) none f h1
  rw [show ([] : List Nat).getLast? = none from rfl] at h2
  rw [h2] at h3
  generalize e : reTraversal zero (dropper drop) f none w = a at h3
  cases h3 with
  | ok hr hk => exact ⟨_, _, p, rfl, hr, rfl, rfl⟩

/-- A visitor that takes the first two elements off the list at its first visit, and stops at its second. -/
def twice (zero : T) : Bool → T → Visit Bool T := fun b _ =>
  if b then
    .call .frontNode fun o => match o with
      | .node n => .call (.remove none n) fun _ => .call .frontNode fun o => match o with
        | .node n => .call (.remove none n) fun _ => .done false true
        | _ => .done b false
      | _ => .done b false
  else .done b false

/-- The walk can stand on a removed node: if the visitor removes the first two elements when it visits the first, the second is visited all the same. -/
theorem C99_simplelist_violated {w : World T} {S : Spec T} (h : Reachable zero w S) {a b : Nat} {Q : List Nat} {x y : T} (hs : S.seq = a :: b :: Q)
    (hx : S.vals[a]? = some x) (hy : S.vals[b]? = some y) (f : Nat) :
    ∃ w', reTraversal zero (twice zero) (f + 2) true w = .ok (([x, y], false), w') ∧ Reachable zero w' { S with seq := Q } := by
  have hnd := h.inv.nodup
  rw [hs] at hnd
  have hab : a ≠ b := by simp at hnd; exact hnd.1.1
  have haQ : a ∉ Q := by simp at hnd; exact hnd.1.2
  let H0 : Hist T := h.hist
  let H1 : Hist T := ⟨{ S with seq := b :: Q }, fun m => if m = a then some b else nx w m⟩
  let H2 : Hist T := ⟨{ S with seq := Q }, fun m => if m = b then Q.head? else H1.gone m⟩
  have e1 : histStep zero .frontNode H0 = .ok (.node (some a), H0) := by simp [histStep, specStep, H0, Reachable.hist, hs]
  have e2 : histStep zero (.remove none (some a)) H0 = .ok (.val x, H1) := by
    simp [histStep, specStep, H0, H1, Reachable.hist, hs, hx, after]
  have e3 : histStep zero .frontNode H1 = .ok (.node (some b), H1) := by simp [histStep, specStep, H1]
  have e4 : histStep zero (.remove none (some b)) H1 = .ok (.val y, H2) := by
    simp [histStep, specStep, H1, H2, hy, after]
  have hrun : (twice zero true x).specRun zero H0 = .ok ((true, false), H2) := by
    simp only [twice, if_true, Visit.specRun, e1, e2, e3, e4, Res.ok_bind]
  have hfo : H2.follow a = some b := by simp [Hist.follow, H2, haQ, hab, H1]
  have hwalk : WalkOk zero (twice zero) (f + 2) S.seq.head? true H0 := by
    rw [hs, List.head?_cons]
    intro z hz
    have : S.vals[a]? = some z := hz
    rw [hx] at this; cases this
    refine ⟨?_, ?_⟩
    · simp only [twice, if_true, Visit.OkArgs]
      refine ⟨trivial, fun o H' e => ?_⟩
      rw [e1] at e; cases e
      refine ⟨⟨by simp [H0, Reachable.hist, hs], by simp [H0, Reachable.hist, hs, before]⟩, fun o H' e => ?_⟩
      rw [e2] at e; cases e
      refine ⟨trivial, fun o H' e => ?_⟩
      rw [e3] at e; cases e
      exact ⟨⟨by simp [H1], by simp [H1, before]⟩, fun _ _ _ => trivial⟩
    · intro s' H' e
      rw [hrun] at e; cases e
      rw [hfo]
      intro z hz
      refine ⟨trivial, fun s' H' e => ?_⟩
      simp only [twice, Bool.false_eq_true, if_false, Visit.specRun] at e
      cases e
  have hspec : specReLoop zero (twice zero) (f + 2) S.seq.head? true H0 = .ok (([x, y], false), H2) := by
    have v0 : H0.S.vals[a]? = some x := hx
    have v2 : H2.S.vals[b]? = some y := hy
    simp only [hs, List.head?_cons, specReLoop, v0, Res.ofOption_some, Res.ok_bind, hrun, if_true, hfo, v2]
    simp only [twice, Bool.false_eq_true, if_false, Visit.specRun, Res.ok_bind]
  have h3 := C99_simplelist h (twice zero) true (f + 2) hwalk
  rw [show specReLoop zero (twice zero) (f + 2) S.seq.head? true h.hist = _ from hspec] at h3
  generalize e : reTraversal zero (twice zero) (f + 2) true w = r at h3
  cases h3 with
  | ok hr hk => exact ⟨_, rfl, hr⟩

/-! ## The theorems on a concrete list -/

theorem walk_demo : ∃ w : World Nat, Reachable 0 w ⟨[0, 1, 2], [10, 20, 25]⟩ := by
  refine ⟨_, [.pushBack 10, .pushBack 20, .pushBack 25], [.unit, .unit, .unit], ?_, rfl, rfl⟩
  refine ⟨trivial, fun o S e => ?_⟩
  refine ⟨trivial, fun o S e => ?_⟩
  exact ⟨trivial, fun _ _ _ => trivial⟩

/-- Dropping the multiples of ten leaves 25. -/
example : ∃ w w' : World Nat, ∃ S' p, reTraversal 0 (dropper (· % 10 == 0)) 9 none w = .ok (([10, 20, 25], p), w') ∧ Reachable 0 w' S' ∧ S'.seq = [2] := by
  obtain ⟨w, h⟩ := walk_demo
  obtain ⟨w', S', p, h1, h2, h3, -⟩ := C99_simplelist_dropper h (· % 10 == 0) (f := 9) (by decide)
  exact ⟨w, w', S', p, h1, h2, by rw [h3]; decide⟩

/-- The conditions of `C99_simplelist` hold for `dropper`. -/
example : ∃ w : World Nat, ∃ h : Reachable 0 w ⟨[0, 1, 2], [10, 20, 25]⟩, WalkOk 0 (dropper (· % 10 == 0)) 9 (some 0) none h.hist := by
  obtain ⟨w, h⟩ := walk_demo
  exact ⟨w, h, (dropper_spec (· % 10 == 0) [0, 1, 2] [] 9 w h.hist h rfl (by decide)).1⟩

example : ∃ w w' : World Nat, reTraversal 0 (twice 0) 7 true w = .ok (([10, 20], false), w') ∧ Reachable 0 w' ⟨[2], [10, 20, 25]⟩ := by
  obtain ⟨w, h⟩ := walk_demo
  obtain ⟨w', h1, h2⟩ := C99_simplelist_violated h rfl rfl rfl 5
  exact ⟨w, w', h1, h2⟩

end GoSTL.SimpleList
