import Verif.BidList.Props
import Verif.SimpleList.Props
/-!
# C104: iterators of lists while the lists change

A program with lists and any number of iterators that stay around while the lists change. An iterator object holds a node pointer, nothing else
(ds/list/bidlist/iterator.go:11-13, ds/list/simplelist/iterator.go:9-11). The bidirectional and the single list have the same iterator code; it is modelled once, over
the calls of either package.
-/
namespace GoSTL.Lists
open BidList (outs)

variable {W S C O T : Type}

/-! ## Model -/

/-- What the iterators use of a list package: the calls, and `Next`, `Prev` and the field `Value` of a node. -/
structure Kit (W C O T : Type) where
  call : C → W → Res (O × W)
  next : W → Nat → Res (Option Nat)
  prev : W → Nat → Res (Option Nat)
  value : W → Nat → Res T
  setValue : W → Nat → T → Res W

/-- The lists, and the iterator objects in the order of their creation. -/
structure St (W : Type) where
  w : W
  its : List (Option Nat)

/-- What a program does. Nodes and iterators are named by the order of their creation. -/
inductive LOp (C T : Type)
  | call (c : C)
  | newIterator (n : Option Nat)
  | isValid (k : Nat)
  | next (k : Nat)
  | prev (k : Nat)
  | value (k : Nat)
  | setValue (k : Nat) (v : T)
  | clone (k : Nat)
  | equal (j k : Nat)

/-- What it gets back; `made` is a new iterator, the next in number. -/
inductive LOut (O T : Type)
  | call (o : O)
  | made
  | unit
  | bool (b : Bool)
  | val (x : T)
deriving DecidableEq

/-- One step: bidlist/iterator.go:16-71 (`NewIterator` 16-18, `IsValid` 21-23, `Next` 26-31, `Prev` 34-39, `Value` 42-47, `SetValue` 50-54, `Clone` 57-59, `Equal` 62-71), and
simplelist/iterator.go:14-61 without `Prev`. -/
def lstep (K : Kit W C O T) (op : LOp C T) (s : St W) : Res (LOut O T × St W) :=
  match op with
  | .call c => do let (o, w) ← K.call c s.w; .ok (.call o, ⟨w, s.its⟩)
  | .newIterator n => .ok (.made, ⟨s.w, s.its ++ [n]⟩)
  | .isValid k => do let it ← Res.ofOption s.its[k]?; .ok (.bool (if it = none then false else true), s)
  | .next k => do
    let it ← Res.ofOption s.its[k]?
    match it with
    | none => .ok (.unit, s)
    | some n => do let m ← K.next s.w n; .ok (.unit, ⟨s.w, s.its.set k m⟩)
  | .prev k => do
    let it ← Res.ofOption s.its[k]?
    match it with
    | none => .ok (.unit, s)
    | some n => do let m ← K.prev s.w n; .ok (.unit, ⟨s.w, s.its.set k m⟩)
  | .value k => do
    let it ← Res.ofOption s.its[k]?
    match it with
    | none => .panic
    | some n => do let x ← K.value s.w n; .ok (.val x, s)
  | .setValue k v => do
    let it ← Res.ofOption s.its[k]?
    match it with
    | none => .ok (.unit, s)
    | some n => do let w ← K.setValue s.w n v; .ok (.unit, ⟨w, s.its⟩)
  | .clone k => do let it ← Res.ofOption s.its[k]?; .ok (.made, ⟨s.w, s.its ++ [it]⟩)
  | .equal j k => do
    let a ← Res.ofOption s.its[j]?
    let b ← Res.ofOption s.its[k]?
    .ok (.bool (if b = a then true else false), s)

/-- A program. -/
def lrun (K : Kit W C O T) : List (LOp C T) → St W → Res (List (LOut O T) × St W)
  | [], s => .ok ([], s)
  | op :: ops, s => do
    let (o, s) ← lstep K op s
    let (os, s) ← lrun K ops s
    .ok (o :: os, s)

/-! ## Specification -/

/-- Lists as sequences of elements: the calls, what comes behind and before an element in the list it is in now, the value of an element. -/
structure Sp (S C O T : Type) where
  call : C → S → Res (O × S)
  behind : S → Nat → Option Nat
  before : S → Nat → Option Nat
  vals : S → List T
  set : S → Nat → T → S

/-- One step on sequences. An iterator denotes an element, or nothing; it denotes that element wherever the element is put, and also when it is taken out of its list. -/
def lspec (P : Sp S C O T) (op : LOp C T) (s : St S) : Res (LOut O T × St S) :=
  match op with
  | .call c => do let (o, w) ← P.call c s.w; .ok (.call o, ⟨w, s.its⟩)
  | .newIterator n => .ok (.made, ⟨s.w, s.its ++ [n]⟩)
  | .isValid k => do let it ← Res.ofOption s.its[k]?; .ok (.bool it.isSome, s)
  | .next k => do let it ← Res.ofOption s.its[k]?; .ok (.unit, ⟨s.w, s.its.set k (it.bind (P.behind s.w))⟩)
  | .prev k => do let it ← Res.ofOption s.its[k]?; .ok (.unit, ⟨s.w, s.its.set k (it.bind (P.before s.w))⟩)
  | .value k => do
    let it ← Res.ofOption s.its[k]?
    let x ← Res.ofOption (it.bind fun n => (P.vals s.w)[n]?)
    .ok (.val x, s)
  | .setValue k v => do
    let it ← Res.ofOption s.its[k]?
    .ok (.unit, match it with | none => s | some n => ⟨P.set s.w n v, s.its⟩)
  | .clone k => do let it ← Res.ofOption s.its[k]?; .ok (.made, ⟨s.w, s.its ++ [it]⟩)
  | .equal j k => do
    let a ← Res.ofOption s.its[j]?
    let b ← Res.ofOption s.its[k]?
    .ok (.bool (decide (a = b)), s)

/-- A program on sequences. -/
def lspecRun (P : Sp S C O T) : List (LOp C T) → St S → Res (List (LOut O T) × St S)
  | [], s => .ok ([], s)
  | op :: ops, s => do
    let (o, s) ← lspec P op s
    let (os, s) ← lspecRun P ops s
    .ok (o :: os, s)

/-- A step may be taken: iterators are made for nodes that exist; `okCall` holds of a call, and `okNext` or `okPrev` of the element that an iterator which is moved denotes. -/
def Ok (P : Sp S C O T) (okCall : C → S → Prop) (okNext okPrev : Nat → S → Prop) (op : LOp C T) (s : St S) : Prop :=
  match op with
  | .call c => okCall c s.w
  | .newIterator n => ∀ m ∈ n, m < (P.vals s.w).length
  | .next k => ∀ n, s.its[k]? = some (some n) → okNext n s.w
  | .prev k => ∀ n, s.its[k]? = some (some n) → okPrev n s.w
  | _ => True

/-- All steps of a program. -/
def AllOk (P : Sp S C O T) (okCall : C → S → Prop) (okNext okPrev : Nat → S → Prop) : List (LOp C T) → St S → Prop
  | [], _ => True
  | op :: ops, s => Ok P okCall okNext okPrev op s ∧ ∀ o s', lspec P op s = .ok (o, s') → AllOk P okCall okNext okPrev ops s'

/-! ## Proof -/

/-- The package behaves as its specification says. -/
structure Good (K : Kit W C O T) (P : Sp S C O T) (okCall : C → S → Prop) (okNext okPrev : Nat → S → Prop) (Inv : W → S → Prop) : Prop where
  call : ∀ c w S, Inv w S → okCall c S → match P.call c S with
    | .ok (o, S') => (∃ w', K.call c w = .ok (o, w') ∧ Inv w' S') ∧ (P.vals S).length ≤ (P.vals S').length
    | .panic => K.call c w = .panic
    | .outOfFuel => False
  next : ∀ w S n, Inv w S → n < (P.vals S).length → okNext n S → K.next w n = .ok (P.behind S n)
  prev : ∀ w S n, Inv w S → n < (P.vals S).length → okPrev n S → K.prev w n = .ok (P.before S n)
  behind : ∀ w S n m, Inv w S → okNext n S → P.behind S n = some m → m < (P.vals S).length
  before : ∀ w S n m, Inv w S → okPrev n S → P.before S n = some m → m < (P.vals S).length
  value : ∀ w S n, Inv w S → K.value w n = Res.ofOption (P.vals S)[n]?
  set : ∀ w S n v, Inv w S → n < (P.vals S).length → (∃ w', K.setValue w n v = .ok w' ∧ Inv w' (P.set S n v)) ∧ (P.vals (P.set S n v)).length = (P.vals S).length

/-- The states agree, and the iterators denote elements there are. -/
structure LSim (P : Sp S C O T) (Inv : W → S → Prop) (s : St W) (q : St S) : Prop where
  inv : Inv s.w q.w
  its : s.its = q.its
  lt : ∀ n, some n ∈ q.its → n < (P.vals q.w).length

/-- Same result, and the states reached agree. -/
def LRes {A : Type} (P : Sp S C O T) (Inv : W → S → Prop) (r : Res (A × St W)) (q : Res (A × St S)) : Prop :=
  match q with
  | .ok (o, q') => ∃ s', r = .ok (o, s') ∧ LSim P Inv s' q'
  | .panic => r = .panic
  | .outOfFuel => False

variable {K : Kit W C O T} {P : Sp S C O T} {okCall : C → S → Prop} {okNext okPrev : Nat → S → Prop} {Inv : W → S → Prop}

theorem LSim.push {s : St W} {q : St S} (h : LSim P Inv s q) {it : Option Nat} (hi : ∀ n, it = some n → n < (P.vals q.w).length) :
    LSim P Inv ⟨s.w, s.its ++ [it]⟩ ⟨q.w, q.its ++ [it]⟩ :=
  ⟨h.inv, by rw [h.its], fun n hn => by
    rcases List.mem_append.1 hn with hn | hn
    · exact h.lt n hn
    · exact hi n (List.mem_singleton.1 hn).symm⟩

theorem LSim.move {s : St W} {q : St S} (h : LSim P Inv s q) (k : Nat) {it : Option Nat} (hi : ∀ n, it = some n → n < (P.vals q.w).length) :
    LSim P Inv ⟨s.w, s.its.set k it⟩ ⟨q.w, q.its.set k it⟩ :=
  ⟨h.inv, by rw [h.its], fun n hn => by
    rcases List.mem_or_eq_of_mem_set hn with hn | hn
    · exact h.lt n hn
    · exact hi n hn.symm⟩

theorem set_none {l : List (Option Nat)} {k : Nat} {a : Option Nat} (h : l[k]? = some a) : l.set k a = l := by
  apply List.ext_getElem?
  intro j
  rw [List.getElem?_set]
  split
  · next c =>
    subst c
    split
    · exact h.symm
    · rw [List.getElem?_eq_none (by omega)]
  · rfl

theorem lstep_spec (g : Good K P okCall okNext okPrev Inv) {s : St W} {q : St S} (h : LSim P Inv s q) (op : LOp C T) (ho : Ok P okCall okNext okPrev op q) :
    LRes P Inv (lstep K op s) (lspec P op q) := by
  cases op with
  | call c =>
    have := g.call c s.w q.w h.inv ho
    revert this
    simp only [lstep, lspec]
    cases P.call c q.w with
    | ok x =>
      rintro ⟨⟨w', e, hi⟩, hl⟩
      rw [e]
      exact ⟨⟨w', s.its⟩, rfl, hi, h.its, fun n hn => Nat.lt_of_lt_of_le (h.lt n hn) hl⟩
    | panic => intro e; rw [e]; rfl
    | outOfFuel => exact False.elim
  | newIterator n => exact ⟨_, rfl, h.push fun m hm => ho m hm⟩
  | isValid k =>
    simp only [lstep, lspec, h.its]
    cases q.its[k]? with
    | none => rfl
    | some it => cases it <;> exact ⟨s, rfl, h⟩
  | next k =>
    have hm := h.move k (it := none) (by simp)
    simp only [lstep, lspec, h.its] at hm ⊢
    cases e : q.its[k]? with
    | none => rfl
    | some it =>
      cases it with
      | none =>
        refine ⟨s, rfl, h.inv, ?_, ?_⟩
        · show s.its = q.its.set k none
          rw [set_none e, h.its]
        · exact hm.lt
      | some n =>
        have hn := h.lt n (List.mem_of_getElem? e)
        simp only [Res.ofOption_some, Res.ok_bind, g.next _ _ n h.inv hn (ho n e)]
        have := h.move k (it := P.behind q.w n) (fun m hm => g.behind _ _ n m h.inv (ho n e) hm)
        rw [h.its] at this
        exact ⟨_, rfl, this⟩
  | prev k =>
    have hm := h.move k (it := none) (by simp)
    simp only [lstep, lspec, h.its] at hm ⊢
    cases e : q.its[k]? with
    | none => rfl
    | some it =>
      cases it with
      | none =>
        refine ⟨s, rfl, h.inv, ?_, ?_⟩
        · show s.its = q.its.set k none
          rw [set_none e, h.its]
        · exact hm.lt
      | some n =>
        have hn := h.lt n (List.mem_of_getElem? e)
        simp only [Res.ofOption_some, Res.ok_bind, g.prev _ _ n h.inv hn (ho n e)]
        have := h.move k (it := P.before q.w n) (fun m hm => g.before _ _ n m h.inv (ho n e) hm)
        rw [h.its] at this
        exact ⟨_, rfl, this⟩
  | value k =>
    simp only [lstep, lspec, h.its]
    cases e : q.its[k]? with
    | none => rfl
    | some it =>
      cases it with
      | none => rfl
      | some n =>
        simp only [Res.ofOption_some, Res.ok_bind, g.value _ _ n h.inv, Option.bind_some]
        cases (P.vals q.w)[n]? with
        | none => rfl
        | some x => exact ⟨s, rfl, h⟩
  | setValue k v =>
    simp only [lstep, lspec, h.its]
    cases e : q.its[k]? with
    | none => rfl
    | some it =>
      cases it with
      | none => exact ⟨s, rfl, h⟩
      | some n =>
        obtain ⟨⟨w', e1, hi⟩, hl⟩ := g.set s.w q.w n v h.inv (h.lt n (List.mem_of_getElem? e))
        simp only [Res.ofOption_some, Res.ok_bind, e1]
        exact ⟨_, rfl, hi, rfl, fun m hm => by rw [hl]; exact h.lt m hm⟩
  | clone k =>
    simp only [lstep, lspec, h.its]
    cases e : q.its[k]? with
    | none => rfl
    | some it =>
      have := h.push (it := it) (fun n hn => h.lt n (List.mem_of_getElem? (hn ▸ e)))
      rw [h.its] at this
      exact ⟨_, rfl, this⟩
  | equal j k =>
    simp only [lstep, lspec, h.its]
    cases e : q.its[j]? with
    | none => rfl
    | some a =>
      cases e' : q.its[k]? with
      | none => rfl
      | some b =>
        refine ⟨s, ?_, h⟩
        simp only [Res.ofOption_some, Res.ok_bind]
        by_cases c : a = b
        · subst c; simp
        · simp [c, Ne.symm c]

theorem lrun_spec (g : Good K P okCall okNext okPrev Inv) : ∀ (ops : List (LOp C T)) {s : St W} {q : St S}, LSim P Inv s q → AllOk P okCall okNext okPrev ops q →
    LRes P Inv (lrun K ops s) (lspecRun P ops q)
  | [], s, _, h, _ => ⟨s, rfl, h⟩
  | op :: ops, s, q, h, ho => by
    have h1 := lstep_spec g h op ho.1
    have h2 := ho.2
    simp only [lrun, lspecRun]
    revert h1 h2
    cases lspec P op q with
    | outOfFuel => intro h1; exact h1.elim
    | panic => intro h1 _; rw [show lstep K op s = .panic from h1]; rfl
    | ok x =>
      obtain ⟨o, q'⟩ := x
      rintro ⟨s', e, h'⟩ h2
      rw [e]
      have h3 := lrun_spec g ops h' (h2 o q' rfl)
      simp only [Res.ok_bind]
      revert h3
      cases lspecRun P ops q' with
      | outOfFuel => exact False.elim
      | panic => intro h3; rw [show lrun K ops s' = .panic from h3]; rfl
      | ok y =>
        obtain ⟨os, q''⟩ := y
        rintro ⟨s'', e', h''⟩
        rw [e']
        exact ⟨s'', rfl, h''⟩

theorem LRes.outs_eq {A : Type} {r : Res (A × St W)} {q : Res (A × St S)} (h : LRes P Inv r q) : outs r = outs q := by
  match q, h with
  | .ok (o, q'), ⟨s', e, _⟩ => rw [e]; rfl
  | .panic, e => rw [show r = .panic from e]; rfl

/-! ## Bidirectional lists -/

/-- ds/list/bidlist. -/
def bidKit : Kit (BidList.World T) (BidList.Op T) (BidList.Out T) T where
  call := BidList.step
  next := BidList.next
  prev := BidList.prev
  value := BidList.value
  setValue := BidList.setValue

/-- Lists as sequences of handles (`BidList/Spec`). -/
def bidSp : Sp (BidList.Spec T) (BidList.Op T) (BidList.Out T) T where
  call := BidList.specStep
  behind S n := (S.seqs.find? (n ∈ ·)).bind (BidList.after n)
  before S n := (S.seqs.find? (n ∈ ·)).bind (BidList.before n)
  vals S := S.vals
  set S n v := { S with vals := S.vals.set n v }

theorem specStep_vals {op : BidList.Op T} {S S' : BidList.Spec T} {o} (e : BidList.specStep op S = .ok (o, S')) : S.vals.length ≤ S'.vals.length := by
  cases op <;> simp only [BidList.specStep] at e <;> (repeat' split at e) <;>
    first
      | (cases e; done)
      | (cases e; simp [BidList.Spec.addVal, BidList.Spec.setSeq])

theorem mem_after {n m : Nat} {s : List Nat} (h : BidList.after n s = some m) : m ∈ s :=
  List.mem_of_mem_drop (List.mem_of_mem_head? (show m ∈ (s.drop (s.idxOf n + 1)).head? from h))

theorem mem_before {n m : Nat} {s : List Nat} (h : BidList.before n s = some m) : m ∈ s :=
  List.mem_of_mem_take (List.mem_of_getLast? (show (s.take (s.idxOf n)).getLast? = some m from h))

/-- The element's list was not cleared around it. -/
abbrev unstale (n : Nat) (S : BidList.Spec T) : Prop := n ∉ S.stale

theorem bidGood : Good (bidKit (T := T)) bidSp BidList.fresh unstale unstale BidList.WInv where
  call c w S h hf := by
    have := BidList.step_refines h c hf
    revert this
    show BidList.Agree (BidList.step c w) (BidList.specStep c S) → _
    simp only [bidSp, bidKit]
    generalize e : BidList.specStep c S = b
    generalize BidList.step c w = a
    intro this
    cases this with
    | ok hi => exact ⟨⟨_, rfl, hi⟩, specStep_vals e⟩
    | panic => rfl
  next w S n h hn hf := by
    have := BidList.step_refines h (.next n) (by intro m hm; simp [BidList.handles] at hm; subst hm; exact hf)
    simp only [BidList.step, BidList.specStep] at this
    rw [if_neg (show ¬¬ S.isNode n from not_not.2 hn)] at this
    generalize e : BidList.next w n = a at this
    show BidList.next w n = _
    rw [e]
    cases a with
    | ok x => simp only [Res.ok_bind] at this; cases this; rfl
    | panic => simp only [Res.panic_bind] at this; cases this
    | outOfFuel => cases this
  prev w S n h hn hf := by
    have := BidList.step_refines h (.prev n) (by intro m hm; simp [BidList.handles] at hm; subst hm; exact hf)
    simp only [BidList.step, BidList.specStep] at this
    rw [if_neg (show ¬¬ S.isNode n from not_not.2 hn)] at this
    generalize e : BidList.prev w n = a at this
    show BidList.prev w n = _
    rw [e]
    cases a with
    | ok x => simp only [Res.ok_bind] at this; cases this; rfl
    | panic => simp only [Res.panic_bind] at this; cases this
    | outOfFuel => cases this
  behind w S n m h _ e := by
    obtain ⟨s, e1, e2⟩ := Option.bind_eq_some_iff.1 e
    obtain ⟨l, hl⟩ := List.getElem?_of_mem (List.mem_of_find?_eq_some e1)
    exact h.mem_lt (l := l) (show m ∈ S.seq l by rw [BidList.Spec.seq, hl]; exact mem_after e2)
  before w S n m h _ e := by
    obtain ⟨s, e1, e2⟩ := Option.bind_eq_some_iff.1 e
    obtain ⟨l, hl⟩ := List.getElem?_of_mem (List.mem_of_find?_eq_some e1)
    exact h.mem_lt (l := l) (show m ∈ S.seq l by rw [BidList.Spec.seq, hl]; exact mem_before e2)
  value w S n h := by
    have := BidList.step_refines h (.value n) (by intro m hm; simp [BidList.handles] at hm)
    simp only [BidList.step, BidList.specStep] at this
    show BidList.value w n = Res.ofOption S.vals[n]?
    generalize e : BidList.value w n = a at this ⊢
    cases ev : S.vals[n]? with
    | none =>
      rw [ev] at this
      cases a with
      | ok x => cases this
      | panic => rfl
      | outOfFuel => cases this
    | some x =>
      rw [ev] at this
      cases a with
      | ok y => simp only [Res.ok_bind] at this; cases this; rfl
      | panic => cases this
      | outOfFuel => cases this
  set w S n v h hn := by
    have := BidList.step_refines h (.setValue n v) (by intro m hm; simp [BidList.handles] at hm)
    simp only [BidList.step, BidList.specStep] at this
    rw [if_pos (show S.isNode n from hn)] at this
    refine ⟨?_, by simp [bidSp]⟩
    show ∃ w', BidList.setValue w n v = .ok w' ∧ _
    generalize e : BidList.setValue w n v = a at this ⊢
    cases a with
    | ok x => simp only [Res.ok_bind] at this; cases this; exact ⟨_, rfl, by assumption⟩
    | panic => cases this
    | outOfFuel => cases this

/-- C104, bidirectional lists: every program with any number of lists and iterators gets the same results, and panics at the same points, as on sequences of elements, with iterators
that denote elements. Left out are the elements whose list was cleared around them (C06): they are not to be given to calls, and iterators to them not to be moved. -/
theorem C104_bidlist_partial (ops : List (LOp (BidList.Op T) T)) (h : AllOk bidSp BidList.fresh unstale unstale ops ⟨BidList.specStart, []⟩) :
    outs (lrun bidKit ops ⟨BidList.start, []⟩) = outs (lspecRun bidSp ops ⟨BidList.specStart, []⟩) :=
  (lrun_spec bidGood ops ⟨BidList.start_inv, rfl, by simp⟩ h).outs_eq

/-! ## Single lists -/

/-- ds/list/simplelist; there is no `Prev`. -/
def simpleKit (zero : T) : Kit (SimpleList.World T) (SimpleList.Op T) (SimpleList.Out T) T where
  call := SimpleList.step zero
  next := SimpleList.next
  prev _ _ := .panic
  value := SimpleList.value
  setValue := SimpleList.setValue

/-- The list as a sequence of handles (`SimpleList/Proofs`). -/
def simpleSp (zero : T) : Sp (SimpleList.Spec T) (SimpleList.Op T) (SimpleList.Out T) T where
  call := SimpleList.specStep zero
  behind S n := BidList.after n S.seq
  before _ _ := none
  vals S := S.vals
  set S n v := { S with vals := S.vals.set n v }

/-- The element is in the list. -/
abbrev inList (n : Nat) (S : SimpleList.Spec T) : Prop := n ∈ S.seq

theorem simple_vals {zero : T} {op : SimpleList.Op T} {S S' : SimpleList.Spec T} {o} (e : SimpleList.specStep zero op S = .ok (o, S')) : S.vals.length ≤ S'.vals.length := by
  unfold SimpleList.specStep at e
  repeat' split at e
  all_goals first
    | (cases e; done)
    | (cases e; simp)

theorem simpleGood (zero : T) : Good (simpleKit zero) (simpleSp zero) SimpleList.okArgs inList (fun _ _ => False) SimpleList.WInv where
  call c w S h hf := by
    have := SimpleList.step_refines h zero c hf
    revert this
    simp only [simpleSp, simpleKit]
    generalize e : SimpleList.specStep zero c S = b
    generalize SimpleList.step zero c w = a
    intro this
    cases this with
    | ok hi => exact ⟨⟨_, rfl, hi⟩, simple_vals e⟩
    | panic => rfl
  next w S n h hn hf := by
    have := SimpleList.step_refines h zero (.next n) hf
    simp only [SimpleList.step, SimpleList.specStep] at this
    show SimpleList.next w n = _
    generalize e : SimpleList.next w n = a at this ⊢
    cases a with
    | ok x => simp only [Res.ok_bind] at this; cases this; rfl
    | panic => cases this
    | outOfFuel => cases this
  prev w S n h hn hf := hf.elim
  behind w S n m h _ e := by rw [show ((simpleSp zero).vals S).length = _ from h.nnode.symm]; exact h.lt m (mem_after e)
  before w S n m h hf e := hf.elim
  value w S n h := by
    have := SimpleList.step_refines h zero (.value n) trivial
    simp only [SimpleList.step, SimpleList.specStep] at this
    show SimpleList.value w n = Res.ofOption S.vals[n]?
    generalize e : SimpleList.value w n = a at this ⊢
    cases ev : S.vals[n]? with
    | none =>
      rw [ev] at this
      cases a with
      | ok x => cases this
      | panic => rfl
      | outOfFuel => cases this
    | some x =>
      rw [ev] at this
      cases a with
      | ok y => simp only [Res.ok_bind] at this; cases this; rfl
      | panic => cases this
      | outOfFuel => cases this
  set w S n v h hn := by
    obtain ⟨w', e, hi⟩ := SimpleList.setValue_spec h v hn
    exact ⟨⟨w', e, hi⟩, by simp [simpleSp]⟩

/-- C104, single lists: every program with a list and any number of iterators gets the same results, and panics at the same points, as on a sequence of elements, with iterators that
denote elements. The calls get right arguments (C10, C11), and iterators to elements that are not in the list are not moved. -/
theorem C104_simplelist_partial (zero : T) (ops : List (LOp (SimpleList.Op T) T)) (h : AllOk (simpleSp zero) SimpleList.okArgs inList (fun _ _ => False) ops ⟨⟨[], []⟩, []⟩) :
    outs (lrun (simpleKit zero) ops ⟨SimpleList.new, []⟩) = outs (lspecRun (simpleSp zero) ops ⟨⟨[], []⟩, []⟩) :=
  (lrun_spec (simpleGood zero) ops ⟨SimpleList.new_inv, rfl, by simp⟩ h).outs_eq

/-! ## Without `Clear` nothing is left out -/

theorem specStep_stale {c : BidList.Op T} {S S' : BidList.Spec T} {o} (hc : ∀ l, c ≠ .clear l) (e : BidList.specStep c S = .ok (o, S')) : S'.stale = S.stale := by
  cases c with
  | clear l => exact absurd rfl (hc l)
  | _ =>
    simp only [BidList.specStep] at e
    repeat' split at e
    all_goals first
      | (cases e; rfl)
      | (cases e; done)

theorem lspec_stale {op : LOp (BidList.Op T) T} {s s' : St (BidList.Spec T)} {o} (hc : ∀ l, op ≠ .call (.clear l)) (e : lspec bidSp op s = .ok (o, s')) : s'.w.stale = s.w.stale := by
  cases op with
  | call c =>
    simp only [lspec, Res.bind_eq_ok] at e
    obtain ⟨⟨o', S'⟩, e1, e⟩ := e
    cases e
    exact specStep_stale (fun l hl => hc l (by rw [hl])) e1
  | newIterator n => cases e; rfl
  | equal j k =>
    simp only [lspec, Res.bind_eq_ok] at e
    obtain ⟨a, -, b, -, e⟩ := e
    cases e; rfl
  | value k =>
    simp only [lspec, Res.bind_eq_ok] at e
    obtain ⟨a, -, b, -, e⟩ := e
    cases e; rfl
  | setValue k v =>
    simp only [lspec, Res.bind_eq_ok] at e
    obtain ⟨a, -, e⟩ := e
    cases a <;> (cases e; rfl)
  | isValid k | next k | prev k | clone k =>
    simp only [lspec, Res.bind_eq_ok] at e
    obtain ⟨a, -, e⟩ := e
    cases e; rfl

/-- Iterators are made only for nodes there are. -/
abbrev Made (ops : List (LOp (BidList.Op T) T)) (s : St (BidList.Spec T)) : Prop := AllOk bidSp (fun _ _ => True) (fun _ _ => True) (fun _ _ => True) ops s

theorem allOk_of_noClear : ∀ (ops : List (LOp (BidList.Op T) T)) (s : St (BidList.Spec T)), s.w.stale = [] → (∀ l, LOp.call (.clear l) ∉ ops) → Made ops s →
    AllOk bidSp BidList.fresh unstale unstale ops s
  | [], _, _, _, _ => trivial
  | op :: ops, s, hs, hc, hm => by
    have hf : ∀ n, n ∉ s.w.stale := by rw [hs]; simp
    refine ⟨?_, fun o s' e => allOk_of_noClear ops s' ?_ (fun l hl => hc l (by simp [hl])) (hm.2 o s' e)⟩
    · have h1 := hm.1
      cases op with
      | call c => exact fun n _ => hf n
      | newIterator n => exact h1
      | next k => exact fun n _ => hf n
      | prev k => exact fun n _ => hf n
      | _ => trivial
    · rw [lspec_stale (fun l hl => hc l (by simp [hl])) e, hs]

/-- C104, bidirectional lists, for all programs without `Clear`: nothing is asked of nodes and iterators, except that iterators are made for nodes there are. -/
theorem C104_bidlist_noClear (ops : List (LOp (BidList.Op T) T)) (hc : ∀ l, LOp.call (.clear l) ∉ ops) (hm : Made ops ⟨BidList.specStart, []⟩) :
    outs (lrun bidKit ops ⟨BidList.start, []⟩) = outs (lspecRun bidSp ops ⟨BidList.specStart, []⟩) :=
  C104_bidlist_partial ops (allOk_of_noClear ops _ rfl hc hm)

/-! ## What one iterator shows -/

/-- The lists and iterators after some program, beside the sequences they stand for. -/
def Reach (K : Kit W C O T) (P : Sp S C O T) (okCall : C → S → Prop) (okNext okPrev : Nat → S → Prop) (w₀ : W) (S₀ : S) (s : St W) (q : St S) : Prop :=
  ∃ ops os, AllOk P okCall okNext okPrev ops ⟨S₀, []⟩ ∧ lrun K ops ⟨w₀, []⟩ = .ok (os, s) ∧ lspecRun P ops ⟨S₀, []⟩ = .ok (os, q)

theorem Reach.sim (g : Good K P okCall okNext okPrev Inv) {w₀ : W} {S₀ : S} (h0 : Inv w₀ S₀) {s : St W} {q : St S} (h : Reach K P okCall okNext okPrev w₀ S₀ s q) : LSim P Inv s q := by
  obtain ⟨ops, os, h1, h2, h3⟩ := h
  have := lrun_spec g ops (s := ⟨w₀, []⟩) (q := ⟨S₀, []⟩) ⟨h0, rfl, by simp⟩ h1
  rw [h2, h3] at this
  obtain ⟨s', e, h⟩ := this
  cases e; exact h

/-- The step moves iterator `j`. -/
def LOp.Moves (j : Nat) : LOp C T → Prop
  | .next k | .prev k => k = j
  | _ => False

/-- The step writes the value of element `n` of the bidirectional lists. -/
def bidWrites (its : List (Option Nat)) (n : Nat) : LOp (BidList.Op T) T → Prop
  | .call (.setValue m _) => m = n
  | .setValue k _ => its[k]? = some (some n)
  | _ => False

/-- The step writes the value of element `n` of the single list. -/
def simpleWrites (its : List (Option Nat)) (n : Nat) : LOp (SimpleList.Op T) T → Prop
  | .call (.setValue m _) => m = n
  | .setValue k _ => its[k]? = some (some n)
  | _ => False

theorem bid_vals {c : BidList.Op T} {S S' : BidList.Spec T} {o n x} (hw : ∀ v, c ≠ .setValue n v) (e : BidList.specStep c S = .ok (o, S')) (hx : S.vals[n]? = some x) : S'.vals[n]? = some x := by
  have hlt : n < S.vals.length := (List.getElem?_eq_some_iff.1 hx).1
  cases c <;> simp only [BidList.specStep] at e <;> (repeat' split at e) <;>
    first
      | (cases e; done)
      | (cases e; exact hx)
      | (cases e; simp only [BidList.Spec.addVal, BidList.Spec.setSeq]; rw [List.getElem?_append_left hlt]; exact hx)
      | (cases e
         rename_i m v _
         have : m ≠ n := fun hm => hw v (by rw [hm])
         simp only
         rw [List.getElem?_set_ne this]; exact hx)

theorem simple_vals_get {zero : T} {c : SimpleList.Op T} {S S' : SimpleList.Spec T} {o n x} (hw : ∀ v, c ≠ .setValue n v) (e : SimpleList.specStep zero c S = .ok (o, S'))
    (hx : S.vals[n]? = some x) : S'.vals[n]? = some x := by
  have hlt : n < S.vals.length := (List.getElem?_eq_some_iff.1 hx).1
  unfold SimpleList.specStep at e
  repeat' split at e
  all_goals first
      | (cases e; done)
      | (cases e; exact hx)
      | (cases e; simp only; rw [List.getElem?_append_left hlt]; exact hx)
      | (cases e
         rename_i m v _
         have : m ≠ n := fun hm => hw v (by rw [hm])
         simp only
         rw [List.getElem?_set_ne this]; exact hx)

/-- On sequences. -/
theorem lspec_shows {op : LOp C T} {q q' : St S} {o} (hset : ∀ (S : S) n v, P.vals (P.set S n v) = (P.vals S).set n v) {j n : Nat} {x : T} (hj : q.its[j]? = some (some n))
    (hx : (P.vals q.w)[n]? = some x) (hm : ¬ op.Moves j) (hw : ∀ k v, op = .setValue k v → q.its[k]? ≠ some (some n))
    (hcall : ∀ c o S', op = .call c → P.call c q.w = .ok (o, S') → (P.vals S')[n]? = some x) (e : lspec P op q = .ok (o, q')) :
    q'.its[j]? = some (some n) ∧ (P.vals q'.w)[n]? = some x := by
  have hlj : j < q.its.length := (List.getElem?_eq_some_iff.1 hj).1
  cases op with
  | call c =>
    simp only [lspec, Res.bind_eq_ok] at e
    obtain ⟨⟨o', S'⟩, e1, e⟩ := e
    cases e
    exact ⟨hj, hcall c o' S' rfl e1⟩
  | newIterator m => cases e; exact ⟨by rw [List.getElem?_append_left hlj]; exact hj, hx⟩
  | clone k =>
    simp only [lspec, Res.bind_eq_ok] at e
    obtain ⟨a, -, e⟩ := e
    cases e; exact ⟨by rw [List.getElem?_append_left hlj]; exact hj, hx⟩
  | isValid k =>
    simp only [lspec, Res.bind_eq_ok] at e
    obtain ⟨a, -, e⟩ := e
    cases e; exact ⟨hj, hx⟩
  | next k | prev k =>
    simp only [lspec, Res.bind_eq_ok] at e
    obtain ⟨a, -, e⟩ := e
    cases e; exact ⟨by rw [List.getElem?_set_ne hm]; exact hj, hx⟩
  | value k =>
    simp only [lspec, Res.bind_eq_ok] at e
    obtain ⟨a, -, b, -, e⟩ := e
    cases e; exact ⟨hj, hx⟩
  | equal i k =>
    simp only [lspec, Res.bind_eq_ok] at e
    obtain ⟨a, -, b, -, e⟩ := e
    cases e; exact ⟨hj, hx⟩
  | setValue k v =>
    simp only [lspec, Res.bind_eq_ok] at e
    obtain ⟨a, ha, e⟩ := e
    have ha : q.its[k]? = some a := by
      cases hq : q.its[k]? with
      | none => rw [hq] at ha; cases ha
      | some b => rw [hq] at ha; cases ha; rfl
    cases a with
    | none => cases e; exact ⟨hj, hx⟩
    | some m =>
      cases e
      have : m ≠ n := fun hmn => hw k v rfl (by rw [ha, hmn])
      exact ⟨hj, by rw [hset, List.getElem?_set_ne this]; exact hx⟩

theorem shows_of (g : Good K P okCall okNext okPrev Inv) (hset : ∀ (S : S) n v, P.vals (P.set S n v) = (P.vals S).set n v) {s s' : St W} {q : St S} (h : LSim P Inv s q)
    {op : LOp C T} (hop : Ok P okCall okNext okPrev op q) {o} (e : lstep K op s = .ok (o, s')) {j n : Nat} {x : T} (hj : s.its[j]? = some (some n))
    (hx : lstep K (.value j) s = .ok (.val x, s)) (hm : ¬ op.Moves j) (hw : ∀ k v, op = .setValue k v → s.its[k]? ≠ some (some n))
    (hcall : ∀ c o S', op = .call c → P.call c q.w = .ok (o, S') → (P.vals q.w)[n]? = some x → (P.vals S')[n]? = some x) :
    lstep K (.value j) s' = .ok (.val x, s') := by
  have hv : (P.vals q.w)[n]? = some x := by
    simp only [lstep, hj, Res.ofOption_some, Res.ok_bind, g.value _ _ n h.inv] at hx
    cases hv : (P.vals q.w)[n]? with
    | none => rw [hv] at hx; cases hx
    | some y => rw [hv] at hx; cases hx; rfl
  have h1 := lstep_spec g h op hop
  rw [e] at h1
  have hj' := hj
  rw [h.its] at hj' hw
  revert h1
  cases e1 : lspec P op q with
  | outOfFuel => exact False.elim
  | panic => intro h1; cases h1
  | ok y =>
    obtain ⟨o', q'⟩ := y
    rintro ⟨s2, e2, h2⟩
    cases e2
    obtain ⟨a, b⟩ := lspec_shows hset hj' hv hm hw (fun c o S' hc he => hcall c o S' hc he hv) e1
    rw [← h2.its] at a
    simp only [lstep, a, Res.ofOption_some, Res.ok_bind, g.value _ _ n h2.inv, b]

/-- C104, in terms of one iterator of a bidirectional list: whatever step is taken next, if it does not move the iterator and does not write the value of its element, then the iterator shows
the same value afterwards, also when the step takes the element out of its list, puts it elsewhere, or clears the list. -/
theorem C104_bidlist_shows {s s' : St (BidList.World T)} {q : St (BidList.Spec T)} (h : Reach bidKit bidSp BidList.fresh unstale unstale BidList.start BidList.specStart s q)
    {op : LOp (BidList.Op T) T} (hop : Ok bidSp BidList.fresh unstale unstale op q) {o} (e : lstep bidKit op s = .ok (o, s')) {j n : Nat} {x : T} (hj : s.its[j]? = some (some n))
    (hx : lstep bidKit (.value j) s = .ok (.val x, s)) (hm : ¬ op.Moves j) (hw : ¬ bidWrites s.its n op) : lstep bidKit (.value j) s' = .ok (.val x, s') :=
  shows_of bidGood (fun _ _ _ => rfl) (h.sim bidGood BidList.start_inv) hop e hj hx hm (fun k v hk hc => hw (by rw [hk]; exact hc))
    fun c o S' hc he hv => bid_vals (fun v hcv => hw (by rw [hc, hcv]; rfl)) he hv

/-- C104, in terms of one iterator of a single list. -/
theorem C104_simplelist_shows {zero : T} {s s' : St (SimpleList.World T)} {q : St (SimpleList.Spec T)}
    (h : Reach (simpleKit zero) (simpleSp zero) SimpleList.okArgs inList (fun _ _ => False) SimpleList.new ⟨[], []⟩ s q)
    {op : LOp (SimpleList.Op T) T} (hop : Ok (simpleSp zero) SimpleList.okArgs inList (fun _ _ => False) op q) {o} (e : lstep (simpleKit zero) op s = .ok (o, s')) {j n : Nat} {x : T}
    (hj : s.its[j]? = some (some n)) (hx : lstep (simpleKit zero) (.value j) s = .ok (.val x, s)) (hm : ¬ op.Moves j) (hw : ¬ simpleWrites s.its n op) :
    lstep (simpleKit zero) (.value j) s' = .ok (.val x, s') :=
  shows_of (simpleGood zero) (fun _ _ _ => rfl) (h.sim (simpleGood zero) SimpleList.new_inv) hop e hj hx hm (fun k v hk hc => hw (by rw [hk]; exact hc))
    fun c o S' hc he hv => simple_vals_get (fun v hcv => hw (by rw [hc, hcv]; rfl)) he hv

/-! ## What is left out, is different -/

/-- C104 does not hold of elements whose list was cleared around them: `Next` still goes to the old neighbour, which on sequences an element outside of all lists does not have. -/
theorem C104_bidlist_violated :
    outs (lrun bidKit [.call .newList, .call (.pushBack 0 10), .call (.pushBack 0 20), .newIterator (some 0), .call (.clear 0), .next 0, .isValid 0, .value 0] ⟨BidList.start, []⟩) =
      .ok [.call .unit, .call .unit, .call .unit, .made, .call .unit, .unit, .bool true, .val (20 : Nat)] ∧
    outs (lspecRun bidSp [.call .newList, .call (.pushBack 0 10), .call (.pushBack 0 20), .newIterator (some 0), .call (.clear 0), .next 0, .isValid 0] ⟨BidList.specStart, []⟩) =
      .ok [.call .unit, .call .unit, .call .unit, .made, .call .unit, .unit, (.bool false : LOut (BidList.Out Nat) Nat)] := ⟨rfl, rfl⟩

/-- C104 does not hold of elements that were removed from a single list: `Next` still goes to the neighbour the element had, although that has been removed as well (here both are removed
with right arguments, and the list holds only 30). -/
theorem C104_simplelist_violated :
    outs (lrun (simpleKit 0) [.call (.pushBack 10), .call (.pushBack 20), .call (.pushBack 30), .newIterator (some 0), .call (.remove none (some 0)), .call (.remove none (some 1)), .call .len,
        .next 0, .isValid 0, .value 0] ⟨SimpleList.new, []⟩) =
      .ok [.call .unit, .call .unit, .call .unit, .made, .call (.val 10), .call (.val 20), .call (.int 1), .unit, .bool true, .val (20 : Nat)] ∧
    outs (lspecRun (simpleSp 0) [.call (.pushBack 10), .call (.pushBack 20), .call (.pushBack 30), .newIterator (some 0), .call (.remove none (some 0)), .call (.remove none (some 1)), .call .len,
        .next 0, .isValid 0] ⟨⟨[], []⟩, []⟩) =
      .ok [.call .unit, .call .unit, .call .unit, .made, .call (.val 10), .call (.val 20), .call (.int 1), .unit, (.bool false : LOut (SimpleList.Out Nat) Nat)] := ⟨rfl, rfl⟩

/-! ## Cases -/

/-- `AllOk`, computed. -/
def bidOkB : List (LOp (BidList.Op T) T) → St (BidList.Spec T) → Bool
  | [], _ => true
  | op :: ops, s => (match op with
      | .call c => (BidList.handles c).all fun n => decide (n ∉ s.w.stale)
      | .newIterator n => n.all fun m => decide (m < s.w.vals.length)
      | .next k | .prev k => (s.its[k]?.getD none).all fun n => decide (n ∉ s.w.stale)
      | _ => true) && match lspec bidSp op s with
    | .ok (_, s') => bidOkB ops s'
    | _ => true

theorem bidOk_of : ∀ (ops : List (LOp (BidList.Op T) T)) (s : St (BidList.Spec T)), bidOkB ops s = true → AllOk bidSp BidList.fresh unstale unstale ops s
  | [], _, _ => trivial
  | op :: ops, s, h => by
    simp only [bidOkB, Bool.and_eq_true] at h
    refine ⟨?_, fun o s' e => bidOk_of ops s' (by have := h.2; rw [e] at this; exact this)⟩
    have h1 := h.1
    cases op with
    | call c => simpa [Ok, BidList.fresh] using h1
    | newIterator n => cases n <;> simpa [Ok, bidSp] using h1
    | next k | prev k =>
      intro n hn
      simp only [hn, Option.getD_some, Option.all_some, decide_eq_true_eq] at h1
      exact h1
    | _ => trivial

/-- Two lists; iterators to 20 and to the end; 20 is moved to the front, its neighbours are read, it is removed, still shows its value, and has no neighbours any more; the other list is cleared. -/
def bidDemo : List (LOp (BidList.Op Nat) Nat) :=
  [.call .newList, .call .newList, .call (.pushBack 0 10), .call (.pushBack 0 20), .call (.pushBack 0 30), .call (.pushBack 1 7), .newIterator (some 1), .clone 0, .next 1, .value 1, .equal 0 1,
    .call (.moveToFront 0 1), .value 0, .clone 0, .prev 2, .isValid 2, .clone 0, .next 3, .value 3, .setValue 3 11, .call (.front 0), .call (.remove 0 1), .value 0, .next 0, .isValid 0,
    .call (.insertBefore 0 5 2), .prev 1, .value 1, .call (.clear 1), .call (.len 1), .value 0]

set_option maxRecDepth 40000 in
/-- `C104_bidlist_partial` for it; the last step panics, as it should. -/
example : outs (lrun bidKit bidDemo ⟨BidList.start, []⟩) = outs (lspecRun bidSp bidDemo ⟨BidList.specStart, []⟩) := C104_bidlist_partial bidDemo (bidOk_of _ _ (by rfl))

set_option maxRecDepth 40000 in
/-- What it gets before. -/
example : outs (lrun bidKit bidDemo.dropLast ⟨BidList.start, []⟩) = .ok [.call .unit, .call .unit, .call .unit, .call .unit, .call .unit, .call .unit, .made, .made, .unit, .val 30, .bool false,
    .call .unit, .val 20, .made, .unit, .bool false, .made, .unit, .val 10, .unit, .call (.val 20), .call (.val 20), .val 20, .unit, .bool false,
    .call (.node (some 4)), .unit, .val 5, .call .unit, .call (.int 0)] ∧ outs (lrun bidKit bidDemo ⟨BidList.start, []⟩) = .panic := ⟨rfl, rfl⟩

/-- `C104_bidlist_noClear`: two lists, the second appended to the first; an iterator to the element behind which it went. -/
example : outs (lrun bidKit [.call .newList, .call .newList, .call (.pushBack 0 1), .call (.pushBack 1 2), .newIterator (some 0), .call (.pushBackList 0 1), .next 0, .value 0, .call (.popBack 0),
      .value 0, .prev 0, .isValid 0] ⟨BidList.start, []⟩) =
    outs (lspecRun bidSp [.call .newList, .call .newList, .call (.pushBack 0 1), .call (.pushBack 1 2), .newIterator (some 0), .call (.pushBackList 0 1), .next 0, .value 0, .call (.popBack 0),
      .value 0, .prev 0, .isValid 0] ⟨BidList.specStart, []⟩) ∧
    outs (lrun bidKit [.call .newList, .call .newList, .call (.pushBack 0 1), .call (.pushBack 1 2), .newIterator (some 0), .call (.pushBackList 0 1), .next 0, .value 0, .call (.popBack 0),
      .value 0, .prev 0, .isValid 0] ⟨BidList.start, []⟩) = .ok [.call .unit, .call .unit, .call .unit, .call .unit, .made, .call .unit, .unit, .val 2, .call (.val (2 : Nat)), .val 2, .unit, .bool false] := by
  refine ⟨C104_bidlist_noClear _ (by simp) ?_, rfl⟩
  refine ⟨trivial, fun o s e => ?_⟩; cases e
  refine ⟨trivial, fun o s e => ?_⟩; cases e
  refine ⟨trivial, fun o s e => ?_⟩; cases e
  refine ⟨trivial, fun o s e => ?_⟩; cases e
  refine ⟨by intro m hm; cases hm; decide, fun o s e => ?_⟩; cases e
  refine ⟨trivial, fun o s e => ?_⟩; cases e
  refine ⟨fun _ _ => trivial, fun o s e => ?_⟩; cases e
  refine ⟨trivial, fun o s e => ?_⟩; cases e
  refine ⟨trivial, fun o s e => ?_⟩; cases e
  refine ⟨trivial, fun o s e => ?_⟩; cases e
  refine ⟨fun _ _ => trivial, fun o s e => ?_⟩; cases e
  exact ⟨trivial, fun o s e => trivial⟩

/-- `C104_bidlist_shows`: an iterator to 20, which is then removed. -/
example : ∃ s s' q, Reach bidKit bidSp BidList.fresh unstale unstale BidList.start BidList.specStart s q ∧ lstep bidKit (.call (.remove 0 1)) s = .ok (.call (.val 20), s') ∧
    s'.w.lists.map (·.len) ≠ s.w.lists.map (·.len) ∧ lstep bidKit (.value 0) s' = .ok (.val (20 : Nat), s') := by
  have h : Reach bidKit bidSp BidList.fresh unstale unstale (BidList.start (T := Nat)) BidList.specStart _ _ :=
    ⟨[.call .newList, .call (.pushBack 0 10), .call (.pushBack 0 20), .newIterator (some 1)], _, bidOk_of _ _ rfl, rfl, rfl⟩
  exact ⟨_, _, _, h, rfl, by decide, C104_bidlist_shows h (op := .call (.remove 0 1)) (fun _ _ => List.not_mem_nil) rfl (j := 0) rfl rfl (by simp [LOp.Moves]) (by simp [bidWrites])⟩

/-- `AllOk` for single lists, computed. -/
def simpleOkB (zero : T) : List (LOp (SimpleList.Op T) T) → St (SimpleList.Spec T) → Bool
  | [], _ => true
  | op :: ops, s => (match op with
      | .call (.pushFront _) | .call (.pushBack _) | .call (.setValue _ _) | .call (.value _) | .call .frontNode | .call .backNode | .call .len => true
      | .call (.insertAfter _ m) => decide (m ∈ s.w.seq)
      | .call (.remove p (some n)) | .call (.moveToFront p (some n)) | .call (.moveToBack p (some n)) => decide (n ∈ s.w.seq) && decide (p = BidList.before n s.w.seq)
      | .call _ => false
      | .newIterator n => n.all fun m => decide (m < s.w.vals.length)
      | .next k => (s.its[k]?.getD none).all fun n => decide (n ∈ s.w.seq)
      | .prev _ => false
      | _ => true) && match lspec (simpleSp zero) op s with
    | .ok (_, s') => simpleOkB zero ops s'
    | _ => true

theorem simpleOk_of (zero : T) : ∀ (ops : List (LOp (SimpleList.Op T) T)) (s : St (SimpleList.Spec T)), simpleOkB zero ops s = true →
    AllOk (simpleSp zero) SimpleList.okArgs inList (fun _ _ => False) ops s
  | [], _, _ => trivial
  | op :: ops, s, h => by
    simp only [simpleOkB, Bool.and_eq_true] at h
    refine ⟨?_, fun o s' e => simpleOk_of zero ops s' (by have := h.2; rw [e] at this; exact this)⟩
    have h1 := h.1
    cases op with
    | call c =>
      cases c with
      | insertAfter v m => simpa [Ok, SimpleList.okArgs] using h1
      | remove p n => cases n <;> simp_all [Ok, SimpleList.okArgs]
      | moveToFront p n => cases n <;> simp_all [Ok, SimpleList.okArgs]
      | moveToBack p n => cases n <;> simp_all [Ok, SimpleList.okArgs]
      | next n => simp at h1
      | _ => trivial
    | newIterator n => cases n <;> simpa [Ok, simpleSp] using h1
    | next k =>
      intro n hn
      simp only [hn, Option.getD_some, Option.all_some, decide_eq_true_eq] at h1
      exact h1
    | prev k => simp at h1
    | _ => trivial

/-- A single list; iterators to 10 and 20; 20 goes to the front, 15 behind 10, 20 is removed and still shows its value; the walk of the other iterator finds 15 and 30 and ends. -/
def simpleDemo : List (LOp (SimpleList.Op Nat) Nat) :=
  [.call (.pushBack 10), .call (.pushBack 20), .call (.pushBack 30), .newIterator (some 0), .newIterator (some 1), .call (.moveToFront (some 0) (some 1)), .clone 1, .next 2, .equal 0 2,
    .call (.insertAfter 15 0), .call (.remove none (some 1)), .value 1, .next 0, .value 0, .setValue 0 16, .call (.value 3), .next 0, .value 0, .next 0, .isValid 0]

set_option maxRecDepth 40000 in
/-- `C104_simplelist_partial` for it. -/
example : outs (lrun (simpleKit 0) simpleDemo ⟨SimpleList.new, []⟩) = outs (lspecRun (simpleSp 0) simpleDemo ⟨⟨[], []⟩, []⟩) ∧ outs (lrun (simpleKit 0) simpleDemo ⟨SimpleList.new, []⟩) =
    .ok [.call .unit, .call .unit, .call .unit, .made, .made, .call .unit, .made, .unit, .bool true, .call (.node (some 3)), .call (.val 20), .val 20, .unit, .val 15, .unit, .call (.val 16),
      .unit, .val 30, .unit, .bool false] := ⟨C104_simplelist_partial 0 simpleDemo (simpleOk_of _ _ _ (by rfl)), rfl⟩

/-- `C104_simplelist_shows`: an iterator to 20, which is then moved to the front. -/
example : ∃ s s' q, Reach (simpleKit 0) (simpleSp 0) SimpleList.okArgs inList (fun _ _ => False) SimpleList.new ⟨[], []⟩ s q ∧
    lstep (simpleKit 0) (.call (.moveToFront (some 0) (some 1))) s = .ok (.call .unit, s') ∧ s'.w.head ≠ s.w.head ∧ lstep (simpleKit 0) (.value 0) s' = .ok (.val (20 : Nat), s') := by
  have h : Reach (simpleKit (T := Nat) 0) (simpleSp 0) SimpleList.okArgs inList (fun _ _ => False) SimpleList.new ⟨[], []⟩ _ _ :=
    ⟨[.call (.pushBack 10), .call (.pushBack 20), .newIterator (some 1)], _, simpleOk_of _ _ _ rfl, rfl, rfl⟩
  exact ⟨_, _, _, h, rfl, by decide, C104_simplelist_shows h (op := .call (.moveToFront (some 0) (some 1))) (by constructor <;> decide) rfl (j := 0) rfl rfl (by simp [LOp.Moves]) (by simp [simpleWrites])⟩

end GoSTL.Lists
