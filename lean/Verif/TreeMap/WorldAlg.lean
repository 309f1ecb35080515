import Verif.TreeMap.World
/-!
# C109: the sets that Intersect, Union and Diff make

The world of C107, in which new sets may also be made from two others. `Intersect`, `Union` and `Diff` read the nodes of two trees while they build a third one in the same
memory.
-/
namespace GoSTL.TreeMap
open GoSTL.RB
variable {K : Type}

/-! ## Model -/

/-- The three methods. -/
inductive SetAlg
  | intersect
  | union
  | diff

/-- The tree `s` in the memory as it is after changes to the tree `r`. -/
def inMem (s r : Tree K Bool) : Tree K Bool := ⟨r.heap, s.root, s.size, r.next⟩

/-- set.go:194-205, the loop of `Intersect`. -/
def intersectIn (cmp : K → K → Int) (s o : Tree K Bool) : Nat → Option Id → Option Id → Tree K Bool → Res (Tree K Bool)
  | f + 1, some a, some b, r => do
    let ka ← iterKey (inMem s r) (some a)
    let kb ← iterKey (inMem o r) (some b)
    if cmp ka kb = 0 then do
      let r ← r.insert cmp ka true
      let a ← iterNext (inMem s r) (some a)
      let b ← iterNext (inMem o r) (some b)
      intersectIn cmp s o f a b r
    else if cmp ka kb < 0 then do
      let a ← iterNext (inMem s r) (some a)
      intersectIn cmp s o f a (some b) r
    else do
      let b ← iterNext (inMem o r) (some b)
      intersectIn cmp s o f (some a) b r
  | 0, _, _, _ => .outOfFuel
  | _ + 1, _, _, r => .ok r

/-- set.go:233-238 and 262-264, the draining loops of `Union` and `Diff`. -/
def drainIn (cmp : K → K → Int) (s : Tree K Bool) : Nat → Option Id → Tree K Bool → Res (Tree K Bool)
  | 0, _, _ => .outOfFuel
  | _ + 1, none, r => .ok r
  | f + 1, some a, r => do
    let ka ← iterKey (inMem s r) (some a)
    let r ← r.insert cmp ka true
    let a ← iterNext (inMem s r) (some a)
    drainIn cmp s f a r

/-- set.go:218-232, the merging loop of `Union`. -/
def unionIn (cmp : K → K → Int) (s o : Tree K Bool) : Nat → Option Id → Option Id → Tree K Bool → Res (Option Id × Option Id × Tree K Bool)
  | f + 1, some a, some b, r => do
    let ka ← iterKey (inMem s r) (some a)
    let kb ← iterKey (inMem o r) (some b)
    if cmp ka kb = 0 then do
      let r ← r.insert cmp ka true
      let a ← iterNext (inMem s r) (some a)
      let b ← iterNext (inMem o r) (some b)
      unionIn cmp s o f a b r
    else if cmp ka kb < 0 then do
      let r ← r.insert cmp ka true
      let a ← iterNext (inMem s r) (some a)
      unionIn cmp s o f a (some b) r
    else do
      let r ← r.insert cmp kb true
      let b ← iterNext (inMem o r) (some b)
      unionIn cmp s o f (some a) b r
  | 0, _, _, _ => .outOfFuel
  | _ + 1, a, b, r => .ok (a, b, r)

/-- set.go:250-261, the merging loop of `Diff`. -/
def diffIn (cmp : K → K → Int) (s o : Tree K Bool) : Nat → Option Id → Option Id → Tree K Bool → Res (Option Id × Tree K Bool)
  | f + 1, some a, some b, r => do
    let ka ← iterKey (inMem s r) (some a)
    let kb ← iterKey (inMem o r) (some b)
    if cmp ka kb = 0 then do
      let a ← iterNext (inMem s r) (some a)
      let b ← iterNext (inMem o r) (some b)
      diffIn cmp s o f a b r
    else if cmp ka kb < 0 then do
      let r ← r.insert cmp ka true
      let a ← iterNext (inMem s r) (some a)
      diffIn cmp s o f a (some b) r
    else do
      let b ← iterNext (inMem o r) (some b)
      diffIn cmp s o f (some a) b r
  | 0, _, _, _ => .outOfFuel
  | _ + 1, a, _, r => .ok (a, r)

/-- set.go:187-207 `Intersect`, 211-239 `Union`, 243-266 `Diff`; `r` is the tree of the new set. -/
def algIn (m : SetAlg) (cmp : K → K → Int) (s o r : Tree K Bool) : Res (Tree K Bool) := do
  let a ← s.first
  let b ← o.first
  match m with
  | .intersect => intersectIn cmp s o (s.fuel + o.fuel) a b r
  | .union => do
    let (a, b, r) ← unionIn cmp s o (s.fuel + o.fuel) a b r
    let r ← drainIn cmp s s.fuel a r
    drainIn cmp o o.fuel b r
  | .diff => do
    let (a, r) ← diffIn cmp s o (s.fuel + o.fuel) a b r
    drainIn cmp s s.fuel a r

/-- What a program does: a step as in C107, or making a new set of two sets. -/
inductive AOp (K : Type)
  | base (op : WOp K Bool)
  | make (m : SetAlg) (c d : Nat)

/-- One step; a new set is named by the next number. -/
def astep (op : AOp K) (w : WSt K Bool) : Res (COut K Bool × WSt K Bool) :=
  match op with
  | .base op => wstep op w
  | .make m c d => do
    let h ← Res.ofOption w.cs[c]?
    let g ← Res.ofOption w.cs[d]?
    let r ← algIn m h.cmp (w.view h).t (w.view g).t ⟨w.heap, none, 0, w.next⟩
    .ok (.unit, ⟨r.heap, r.next, w.cs ++ [⟨h.cmp, r.root, r.size, []⟩]⟩)

/-- A program. -/
def arun : List (AOp K) → WSt K Bool → Res (List (COut K Bool) × WSt K Bool)
  | [], w => .ok ([], w)
  | op :: ops, w => do
    let (o, w) ← astep op w
    let (os, w) ← arun ops w
    .ok (o :: os, w)

/-! ## Specification -/

/-- `x` is in the list. -/
def hasKey (cmp : K → K → Int) (x : K) (l : List K) : Bool := l.any fun y => decide (cmp x y = 0)

/-- What the methods make of two increasing lists: a selection of the first; for `Union`, the first with the rest of the second merged in. -/
def algSpec (m : SetAlg) (cmp : K → K → Int) (a b : List K) : List K :=
  match m with
  | .intersect => a.filter fun x => hasKey cmp x b
  | .union => List.merge a (b.filter fun y => !hasKey cmp y a) fun x y => decide (cmp x y ≤ 0)
  | .diff => a.filter fun x => !hasKey cmp x b

/-- The keys of the entries. -/
def ESt.keys (e : ESt K Bool) : List K := e.ents.map (·.2.1)

/-- A new set with these elements; no iterators yet. -/
def ESt.ofKeys (ks : List K) : ESt K Bool := ⟨ks.zipIdx.map fun p => (p.2, p.1, true), ks.length, []⟩

/-- One step on lists that know nothing of each other: a new set is a list of its own. -/
def aspec (op : AOp K) (q : List ((K → K → Int) × ESt K Bool)) : Res (COut K Bool × List ((K → K → Int) × ESt K Bool)) :=
  match op with
  | .base op => wspec op q
  | .make m c d => do
    let (cmp, e) ← Res.ofOption q[c]?
    let (_, f) ← Res.ofOption q[d]?
    .ok (.unit, q ++ [(cmp, ESt.ofKeys (algSpec m cmp e.keys f.keys))])

/-- A program on such lists. -/
def aspecRun : List (AOp K) → List ((K → K → Int) × ESt K Bool) → Res (List (COut K Bool) × List ((K → K → Int) × ESt K Bool))
  | [], q => .ok ([], q)
  | op :: ops, q => do
    let (o, q) ← aspec op q
    let (os, q) ← aspecRun ops q
    .ok (o :: os, q)

/-- Not an insertion into a multimap or multiset. -/
def WOp.Single (op : WOp K Bool) : Prop :=
  match op with
  | .on _ (.add _ _) => False
  | _ => True

/-- The step is as C107 demands, is not one of a multimap or multiset, and combines sets with one comparator only. -/
def AOp.Live (op : AOp K) (q : List ((K → K → Int) × ESt K Bool)) : Prop :=
  match op with
  | .base op => op.Live q ∧ op.Single
  | .make _ c d => ∀ cmp e cmp' e', q[c]? = some (cmp, e) → q[d]? = some (cmp', e') → cmp' = cmp

/-- All steps are. -/
def ALive : List (AOp K) → List ((K → K → Int) × ESt K Bool) → Prop
  | [], _ => True
  | op :: ops, q => op.Live q ∧ ∀ o q', aspec op q = .ok (o, q') → ALive ops q'

/-! ## Proof: the lists -/

variable {cmp : K → K → Int}

theorem hasKey_iff {x : K} {l : List K} : hasKey cmp x l = true ↔ In cmp x l := by
  simp [hasKey, In]

theorem hasKey_cons {x y : K} {l : List K} : hasKey cmp x (y :: l) = (decide (cmp x y = 0) || hasKey cmp x l) := by simp [hasKey]

/-- All of `l` is behind `k`. -/
theorem hasKey_lt (hc : LawfulCmp cmp) {x k : K} {l : List K} (h : ∀ a ∈ l, cmp k a < 0) (hx : cmp x k ≤ 0) : hasKey cmp x l = false := by
  rw [Bool.eq_false_iff]
  intro h1
  obtain ⟨a, ha, e⟩ := hasKey_iff.1 h1
  have := hc.lt_of_le_of_lt hx (h a ha)
  omega

theorem filter_congr' {p q : K → Bool} {l : List K} (h : ∀ x ∈ l, p x = q x) : l.filter p = l.filter q := List.filter_congr h

section
variable (hc : LawfulCmp cmp) {ka kb : K} {A B : List K} (hA : ∀ a ∈ A, cmp ka a < 0) (hB : ∀ b ∈ B, cmp kb b < 0)
include hc hA hB

theorem inter_eq (h : cmp ka kb = 0) : algSpec .intersect cmp (ka :: A) (kb :: B) = ka :: algSpec .intersect cmp A B := by
  simp only [algSpec, List.filter_cons, hasKey_cons, h, decide_true, Bool.true_or, if_true]
  congr 1
  apply filter_congr'
  intro x hx
  have : cmp x kb ≠ 0 := by
    have h1 := hA x hx
    intro h2
    have := hc.eq_trans h (hc.eq_symm.1 h2)
    omega
  simp [this]

theorem inter_lt (h : cmp ka kb < 0) : algSpec .intersect cmp (ka :: A) (kb :: B) = algSpec .intersect cmp A (kb :: B) := by
  have : hasKey cmp ka (kb :: B) = false := by
    rw [hasKey_cons, hasKey_lt hc hB (by omega)]; simp; omega
  simp only [algSpec, List.filter_cons, this]; rfl

theorem ne_of_gt (h : ¬ cmp ka kb ≤ 0) : ∀ x ∈ ka :: A, cmp x kb ≠ 0 := by
  intro x hx e
  have h1 : cmp kb ka < 0 := by rw [hc.swap]; omega
  rcases List.mem_cons.1 hx with rfl | hx
  · omega
  · have := hc.lt_trans h1 (hA x hx)
    have := hc.eq_symm.1 e
    omega

theorem inter_gt (h : ¬ cmp ka kb ≤ 0) : algSpec .intersect cmp (ka :: A) (kb :: B) = algSpec .intersect cmp (ka :: A) B := by
  simp only [algSpec]
  apply filter_congr'
  intro x hx
  simp [hasKey_cons, ne_of_gt hc hA hB h x hx]

theorem diff_eq (h : cmp ka kb = 0) : algSpec .diff cmp (ka :: A) (kb :: B) = algSpec .diff cmp A B := by
  simp only [algSpec, List.filter_cons, hasKey_cons, h, decide_true, Bool.true_or, Bool.not_true]
  rw [if_neg (by simp)]
  apply filter_congr'
  intro x hx
  have : cmp x kb ≠ 0 := by
    have h1 := hA x hx
    intro h2
    have := hc.eq_trans h (hc.eq_symm.1 h2)
    omega
  simp [this]

theorem diff_lt (h : cmp ka kb < 0) : algSpec .diff cmp (ka :: A) (kb :: B) = ka :: algSpec .diff cmp A (kb :: B) := by
  have : hasKey cmp ka (kb :: B) = false := by
    rw [hasKey_cons, hasKey_lt hc hB (by omega)]; simp; omega
  simp only [algSpec, List.filter_cons, this]; rfl

theorem diff_gt (h : ¬ cmp ka kb ≤ 0) : algSpec .diff cmp (ka :: A) (kb :: B) = algSpec .diff cmp (ka :: A) B := by
  simp only [algSpec]
  apply filter_congr'
  intro x hx
  simp [hasKey_cons, ne_of_gt hc hA hB h x hx]

theorem union_eq (h : cmp ka kb = 0) : algSpec .union cmp (ka :: A) (kb :: B) = ka :: algSpec .union cmp A B := by
  have e : (kb :: B).filter (fun y => !hasKey cmp y (ka :: A)) = B.filter fun y => !hasKey cmp y A := by
    rw [List.filter_cons, if_neg (by simp [hasKey_cons, hc.eq_symm.1 h])]
    apply filter_congr'
    intro x hx
    have : cmp x ka ≠ 0 := by
      intro h2
      have h3 := hB x hx
      have := hc.eq_trans h2 h
      have := hc.eq_symm.1 this
      omega
    simp [hasKey_cons, this]
  simp only [algSpec, e]
  cases hX : B.filter (fun y => !hasKey cmp y A) with
  | nil => simp
  | cons x X =>
    have hx : x ∈ B := (List.mem_filter.1 (hX ▸ List.mem_cons_self)).1
    have := hc.lt_of_le_of_lt (Int.le_of_eq h) (hB x hx)
    rw [List.cons_merge_cons_pos]
    simp; omega

theorem union_lt (h : cmp ka kb < 0) : algSpec .union cmp (ka :: A) (kb :: B) = ka :: algSpec .union cmp A (kb :: B) := by
  have e : (kb :: B).filter (fun y => !hasKey cmp y (ka :: A)) = (kb :: B).filter fun y => !hasKey cmp y A := by
    apply filter_congr'
    intro x hx
    have h1 : cmp ka x < 0 := by
      rcases List.mem_cons.1 hx with rfl | hx
      · exact h
      · exact hc.lt_trans h (hB x hx)
    have : cmp x ka ≠ 0 := by
      intro h2
      have := hc.eq_symm.1 h2
      omega
    simp [hasKey_cons, this]
  simp only [algSpec, e]
  cases hX : (kb :: B).filter (fun y => !hasKey cmp y A) with
  | nil => simp
  | cons x X =>
    have hx : x ∈ kb :: B := (List.mem_filter.1 (hX ▸ List.mem_cons_self)).1
    have : cmp ka x < 0 := by
      rcases List.mem_cons.1 hx with rfl | hx
      · exact h
      · exact hc.lt_trans h (hB x hx)
    rw [List.cons_merge_cons_pos]
    simp; omega

theorem union_gt (h : ¬ cmp ka kb ≤ 0) : algSpec .union cmp (ka :: A) (kb :: B) = kb :: algSpec .union cmp (ka :: A) B := by
  have h1 : cmp kb ka < 0 := by rw [hc.swap]; omega
  have : hasKey cmp kb (ka :: A) = false := by
    rw [hasKey_cons, hasKey_lt hc hA (by omega)]; simp; omega
  simp only [algSpec]
  rw [List.filter_cons, if_pos (by simp [this]), List.cons_merge_cons_neg]
  simp; omega
end

theorem union_nil_left {B : List K} : algSpec .union cmp [] B = B := by simp [algSpec, hasKey]
theorem union_nil_right {A : List K} : algSpec .union cmp A [] = A := by simp [algSpec]
theorem diff_nil_right {A : List K} : algSpec .diff cmp A [] = A := by simp [algSpec, hasKey]
theorem diff_nil_left {B : List K} : algSpec .diff cmp [] B = [] := by simp [algSpec]
theorem inter_nil_right {A : List K} : algSpec .intersect cmp A [] = [] := by simp [algSpec, hasKey]
theorem inter_nil_left {B : List K} : algSpec .intersect cmp [] B = [] := by simp [algSpec]

/-! ## Proof: the loops -/

/-- The tree being built: the memory below `n` is as it was, the nodes of the tree lie above. -/
structure Work (cmp : K → K → Int) (s r : Tree K Bool) (zs : List (Id × K × Bool)) : Prop where
  heap : ∀ i, i < s.next → r.heap i = s.heap i
  next : s.next ≤ r.next
  holds : HoldsS cmp r zs
  new : ∀ z ∈ zs, s.next ≤ z.1
  tt : ∀ z ∈ zs, z.2.2 = true
  strict : StrictK cmp (keysE zs)

theorem insertBy_last {α : Type} (key : α → K) (x : α) : ∀ l : List α, (∀ e ∈ l, ¬ cmp (key x) (key e) < 0) → insertBy cmp key x l = l ++ [x]
  | [], _ => rfl
  | e :: l, h => by
    simp only [insertBy, List.cons_append]
    rw [if_neg (h e (by simp)), insertBy_last key x l fun e he => h e (by simp [he])]

theorem Work.push (hc : LawfulCmp cmp) {s r : Tree K Bool} {zs} (h : Work cmp s r zs) (k : K) (hk : ∀ z ∈ keysE zs, cmp z k < 0) :
    ∃ r' i, r.insert cmp k true = .ok r' ∧ Work cmp s r' (zs ++ [(i, k, true)]) := by
  obtain ⟨r', e, h1, h2, h3⟩ := h.holds.1.insert hc h.holds.2 k true
  have f := h.holds.1.own.insert cmp k true r' e
  have hl : insertBy cmp (fun x : Id × K × Bool => x.2.1) (r.next, k, true) zs = zs ++ [(r.next, k, true)] := by
    apply insertBy_last
    intro z hz
    have := hk z.2.1 (List.mem_map_of_mem hz)
    have := hc.swap z.2.1 k
    show ¬ cmp k z.2.1 < 0
    omega
  rw [hl] at h1 h2
  refine ⟨r', r.next, e, ⟨fun i hi => ?_, by rw [h3]; exact Nat.le_succ_of_le h.next, ⟨h1, h2⟩, ?_, ?_, ?_⟩⟩
  · rw [← h.heap i hi]
    refine f.same i (fun hm => ?_) (Nat.ne_of_lt (Nat.lt_of_lt_of_le hi h.next))
    obtain ⟨z, hz, e⟩ := List.mem_map.1 hm
    exact absurd (h.new z hz) (by rw [e]; exact Nat.not_le.2 hi)
  · intro z hz
    rcases List.mem_append.1 hz with hz | hz
    · exact h.new z hz
    · simp at hz; subst hz; exact h.next
  · intro z hz
    rcases List.mem_append.1 hz with hz | hz
    · exact h.tt z hz
    · simp at hz; subst hz; rfl
  · have e1 : keysE (zs ++ [(r.next, k, true)]) = keysE zs ++ [k] := by simp [keysE]
    rw [e1]
    simp only [StrictK, List.pairwise_append]
    refine ⟨h.strict, by simp, fun a ha b hb => ?_⟩
    simp at hb; subst hb; exact hk a ha

/-- The trees that are read stay what they are. -/
theorem Work.src {s t r : Tree K Bool} {zs L} (h : Work cmp s r zs) (hh : t.heap = s.heap) (hn : t.next = s.next) (hL : HoldsS cmp t L) : HoldsS cmp (inMem t r) L := by
  refine ⟨hL.1.same rfl rfl (by rw [hn]; exact h.next) fun e he => ?_, hL.2⟩
  rw [hh]
  exact h.heap _ (by rw [← hn]; exact hL.1.fresh e he)

@[simp] theorem keysE_append {A B : List (Id × K × Bool)} : keysE (A ++ B) = keysE A ++ keysE B := by simp [keysE]

section
variable (hc : LawfulCmp cmp) {s o : Tree K Bool} {L M : List (Id × K × Bool)} (hs : HoldsS cmp s L) (ho : HoldsS cmp o M) (hh : o.heap = s.heap) (hn : o.next = s.next)
include hc hs ho hh hn

theorem intersectIn_spec : ∀ (f : Nat) (A1 A2 B1 B2 : List (Id × K × Bool)) (r : Tree K Bool) (zs), L = A1 ++ A2 → M = B1 ++ B2 →
    Work cmp s r zs → StrictK cmp (keysE A2) → StrictK cmp (keysE B2) → (∀ a ∈ keysE zs, ∀ b ∈ keysE A2, cmp a b < 0) → A2.length + B2.length < f →
    ∃ r' zs', intersectIn cmp s o f (hd A2) (hd B2) r = .ok r' ∧ Work cmp s r' zs' ∧ keysE zs' = keysE zs ++ algSpec .intersect cmp (keysE A2) (keysE B2) := by
  intro f
  induction f with
  | zero => intros; omega
  | succ f ih =>
    intro A1 A2 B1 B2 r zs eL eM hw h3 h4 h6 hf
    cases A2 with
    | nil => exact ⟨r, zs, by simp [intersectIn], hw, by simp [inter_nil_left]⟩
    | cons a A2 =>
      cases B2 with
      | nil => exact ⟨r, zs, by simp [intersectIn], hw, by simp [inter_nil_right]⟩
      | cons b B2 =>
        obtain ⟨ia, ka, va⟩ := a
        obtain ⟨ib, kb, vb⟩ := b
        have ga := fun {r zs} (w : Work cmp s r zs) => iter_at (eL ▸ w.src rfl rfl hs)
        have gb := fun {r zs} (w : Work cmp s r zs) => iter_at (eM ▸ w.src hh hn ho)
        have eL' : L = (A1 ++ [(ia, ka, va)]) ++ A2 := by simpa using eL
        have eM' : M = (B1 ++ [(ib, kb, vb)]) ++ B2 := by simpa using eM
        have sA := h3
        have sB := h4
        simp only [keysE_cons, StrictK, List.pairwise_cons] at h3 h4
        simp only [List.length_cons] at hf
        simp only [hd_cons, intersectIn, (ga hw).1, (gb hw).1, Res.ok_bind]
        by_cases e0 : cmp ka kb = 0
        · rw [if_pos e0]
          obtain ⟨r1, i, e1, g1⟩ := hw.push hc ka fun k hk => h6 k hk ka (by simp)
          obtain ⟨r', zs', e2, g2, g3⟩ := ih _ A2 _ B2 r1 _ eL' eM' g1 h3.2 h4.2
            (by rw [keysE_append]; exact below_snoc (fun a ha b hb => h6 a ha b (by simp [hb])) h3.1) (by omega)
          refine ⟨r', zs', by simp only [e1, Res.ok_bind, (ga g1).2, (gb g1).2, e2], g2, ?_⟩
          rw [g3, keysE_cons, keysE_cons, inter_eq hc h3.1 h4.1 e0]; simp
        · rw [if_neg e0]
          by_cases e1 : cmp ka kb < 0
          · rw [if_pos e1]
            obtain ⟨r', zs', e2, g2, g3⟩ := ih _ A2 _ ((ib, kb, vb) :: B2) r zs eL' eM hw h3.2 sB
              (fun a ha b hb => h6 a ha b (by simp [hb])) (by simp only [List.length_cons]; omega)
            refine ⟨r', zs', by simp only [(ga hw).2, Res.ok_bind]; exact e2, g2, ?_⟩
            rw [g3, keysE_cons, keysE_cons, inter_lt hc h3.1 h4.1 e1]
          · rw [if_neg e1]
            obtain ⟨r', zs', e2, g2, g3⟩ := ih _ ((ia, ka, va) :: A2) _ B2 r zs eL eM' hw sA h4.2 h6 (by simp only [List.length_cons]; omega)
            refine ⟨r', zs', by simp only [(gb hw).2, Res.ok_bind]; exact e2, g2, ?_⟩
            rw [g3, keysE_cons, keysE_cons, inter_gt hc h3.1 h4.1 (by omega)]

theorem unionIn_spec : ∀ (f : Nat) (A1 A2 B1 B2 : List (Id × K × Bool)) (r : Tree K Bool) (zs), L = A1 ++ A2 → M = B1 ++ B2 →
    Work cmp s r zs → StrictK cmp (keysE A2) → StrictK cmp (keysE B2) → (∀ a ∈ keysE zs, ∀ b ∈ keysE A2, cmp a b < 0) → (∀ a ∈ keysE zs, ∀ b ∈ keysE B2, cmp a b < 0) →
    A2.length + B2.length < f →
    ∃ r' zs' C1 C2 D1 D2, unionIn cmp s o f (hd A2) (hd B2) r = .ok (hd C2, hd D2, r') ∧ L = C1 ++ C2 ∧ M = D1 ++ D2 ∧ (C2 = [] ∨ D2 = []) ∧ Work cmp s r' zs' ∧
      StrictK cmp (keysE C2) ∧ StrictK cmp (keysE D2) ∧ (∀ a ∈ keysE zs', ∀ b ∈ keysE C2, cmp a b < 0) ∧ (∀ a ∈ keysE zs', ∀ b ∈ keysE D2, cmp a b < 0) ∧
      keysE zs' ++ keysE C2 ++ keysE D2 = keysE zs ++ algSpec .union cmp (keysE A2) (keysE B2) := by
  intro f
  induction f with
  | zero => intros; omega
  | succ f ih =>
    intro A1 A2 B1 B2 r zs eL eM hw h3 h4 h6 h7 hf
    cases A2 with
    | nil => exact ⟨r, zs, A1, [], B1, B2, by simp [unionIn], eL, eM, .inl rfl, hw, h3, h4, h6, h7, by simp [union_nil_left]⟩
    | cons a A2 =>
      cases B2 with
      | nil => exact ⟨r, zs, A1, a :: A2, B1, [], by simp [unionIn], eL, eM, .inr rfl, hw, h3, h4, h6, h7, by simp [union_nil_right]⟩
      | cons b B2 =>
        obtain ⟨ia, ka, va⟩ := a
        obtain ⟨ib, kb, vb⟩ := b
        have ga := fun {r zs} (w : Work cmp s r zs) => iter_at (eL ▸ w.src rfl rfl hs)
        have gb := fun {r zs} (w : Work cmp s r zs) => iter_at (eM ▸ w.src hh hn ho)
        have eL' : L = (A1 ++ [(ia, ka, va)]) ++ A2 := by simpa using eL
        have eM' : M = (B1 ++ [(ib, kb, vb)]) ++ B2 := by simpa using eM
        have sA := h3
        have sB := h4
        simp only [keysE_cons, StrictK, List.pairwise_cons] at h3 h4
        simp only [List.length_cons] at hf
        simp only [hd_cons, unionIn, (ga hw).1, (gb hw).1, Res.ok_bind]
        by_cases e0 : cmp ka kb = 0
        · rw [if_pos e0]
          obtain ⟨r1, i, e1, g1⟩ := hw.push hc ka fun k hk => h6 k hk ka (by simp)
          obtain ⟨r', zs', C1, C2, D1, D2, e2, p1, p2, p3, p4, p5, p6, p7, p8, p9⟩ := ih _ A2 _ B2 r1 _ eL' eM' g1 h3.2 h4.2
            (by rw [keysE_append]; exact below_snoc (fun a ha b hb => h6 a ha b (by simp [hb])) h3.1)
            (by rw [keysE_append]; exact below_snoc (fun a ha b hb => h7 a ha b (by simp [hb])) (lt_tail (ka := ka) hc (by omega) h4.1)) (by omega)
          refine ⟨r', zs', C1, C2, D1, D2, by simp only [e1, Res.ok_bind, (ga g1).2, (gb g1).2, e2], p1, p2, p3, p4, p5, p6, p7, p8, ?_⟩
          rw [p9, keysE_cons, keysE_cons, union_eq hc h3.1 h4.1 e0]; simp
        · rw [if_neg e0]
          by_cases e1 : cmp ka kb < 0
          · rw [if_pos e1]
            obtain ⟨r1, i, e1', g1⟩ := hw.push hc ka fun k hk => h6 k hk ka (by simp)
            obtain ⟨r', zs', C1, C2, D1, D2, e2, p1, p2, p3, p4, p5, p6, p7, p8, p9⟩ := ih _ A2 _ ((ib, kb, vb) :: B2) r1 _ eL' eM g1 h3.2 sB
              (by rw [keysE_append]; exact below_snoc (fun a ha b hb => h6 a ha b (by simp [hb])) h3.1)
              (by
                rw [keysE_append]
                refine below_snoc h7 fun b hb => ?_
                simp only [keysE_cons, List.mem_cons] at hb
                rcases hb with rfl | hb
                · exact e1
                · exact hc.lt_trans e1 (h4.1 b hb)) (by simp only [List.length_cons]; omega)
            refine ⟨r', zs', C1, C2, D1, D2, by simp only [e1', Res.ok_bind, (ga g1).2]; exact e2, p1, p2, p3, p4, p5, p6, p7, p8, ?_⟩
            rw [p9, keysE_cons, keysE_cons, union_lt hc h3.1 h4.1 e1]; simp
          · rw [if_neg e1]
            have e3 : cmp kb ka < 0 := by rw [hc.swap]; omega
            obtain ⟨r1, i, e1', g1⟩ := hw.push hc kb fun k hk => h7 k hk kb (by simp)
            obtain ⟨r', zs', C1, C2, D1, D2, e2, p1, p2, p3, p4, p5, p6, p7, p8, p9⟩ := ih _ ((ia, ka, va) :: A2) _ B2 r1 _ eL eM' g1 sA h4.2
              (by
                rw [keysE_append]
                refine below_snoc h6 fun b hb => ?_
                simp only [keysE_cons, List.mem_cons] at hb
                rcases hb with rfl | hb
                · exact e3
                · exact hc.lt_trans e3 (h3.1 b hb))
              (by rw [keysE_append]; exact below_snoc (fun a ha b hb => h7 a ha b (by simp [hb])) h4.1) (by simp only [List.length_cons]; omega)
            refine ⟨r', zs', C1, C2, D1, D2, by simp only [e1', Res.ok_bind, (gb g1).2]; exact e2, p1, p2, p3, p4, p5, p6, p7, p8, ?_⟩
            rw [p9, keysE_cons, keysE_cons, union_gt hc h3.1 h4.1 (by omega)]; simp

theorem diffIn_spec : ∀ (f : Nat) (A1 A2 B1 B2 : List (Id × K × Bool)) (r : Tree K Bool) (zs), L = A1 ++ A2 → M = B1 ++ B2 →
    Work cmp s r zs → StrictK cmp (keysE A2) → StrictK cmp (keysE B2) → (∀ a ∈ keysE zs, ∀ b ∈ keysE A2, cmp a b < 0) → A2.length + B2.length < f →
    ∃ r' zs' C1 C2, diffIn cmp s o f (hd A2) (hd B2) r = .ok (hd C2, r') ∧ L = C1 ++ C2 ∧ Work cmp s r' zs' ∧ StrictK cmp (keysE C2) ∧
      (∀ a ∈ keysE zs', ∀ b ∈ keysE C2, cmp a b < 0) ∧ keysE zs' ++ keysE C2 = keysE zs ++ algSpec .diff cmp (keysE A2) (keysE B2) := by
  intro f
  induction f with
  | zero => intros; omega
  | succ f ih =>
    intro A1 A2 B1 B2 r zs eL eM hw h3 h4 h6 hf
    cases A2 with
    | nil => exact ⟨r, zs, A1, [], by simp [diffIn], eL, hw, h3, h6, by simp [diff_nil_left]⟩
    | cons a A2 =>
      cases B2 with
      | nil => exact ⟨r, zs, A1, a :: A2, by simp [diffIn], eL, hw, h3, h6, by simp [diff_nil_right]⟩
      | cons b B2 =>
        obtain ⟨ia, ka, va⟩ := a
        obtain ⟨ib, kb, vb⟩ := b
        have ga := fun {r zs} (w : Work cmp s r zs) => iter_at (eL ▸ w.src rfl rfl hs)
        have gb := fun {r zs} (w : Work cmp s r zs) => iter_at (eM ▸ w.src hh hn ho)
        have eL' : L = (A1 ++ [(ia, ka, va)]) ++ A2 := by simpa using eL
        have eM' : M = (B1 ++ [(ib, kb, vb)]) ++ B2 := by simpa using eM
        have sA := h3
        have sB := h4
        simp only [keysE_cons, StrictK, List.pairwise_cons] at h3 h4
        simp only [List.length_cons] at hf
        simp only [hd_cons, diffIn, (ga hw).1, (gb hw).1, Res.ok_bind]
        by_cases e0 : cmp ka kb = 0
        · rw [if_pos e0]
          obtain ⟨r', zs', C1, C2, e2, p1, p2, p3, p4, p5⟩ := ih _ A2 _ B2 r _ eL' eM' hw h3.2 h4.2 (fun a ha b hb => h6 a ha b (by simp [hb])) (by omega)
          refine ⟨r', zs', C1, C2, by simp only [Res.ok_bind, (ga hw).2, (gb hw).2, e2], p1, p2, p3, p4, ?_⟩
          rw [p5, keysE_cons, keysE_cons, diff_eq hc h3.1 h4.1 e0]
        · rw [if_neg e0]
          by_cases e1 : cmp ka kb < 0
          · rw [if_pos e1]
            obtain ⟨r1, i, e1', g1⟩ := hw.push hc ka fun k hk => h6 k hk ka (by simp)
            obtain ⟨r', zs', C1, C2, e2, p1, p2, p3, p4, p5⟩ := ih _ A2 _ ((ib, kb, vb) :: B2) r1 _ eL' eM g1 h3.2 sB
              (by rw [keysE_append]; exact below_snoc (fun a ha b hb => h6 a ha b (by simp [hb])) h3.1) (by simp only [List.length_cons]; omega)
            refine ⟨r', zs', C1, C2, by simp only [e1', Res.ok_bind, (ga g1).2]; exact e2, p1, p2, p3, p4, ?_⟩
            rw [p5, keysE_cons, keysE_cons, diff_lt hc h3.1 h4.1 e1]; simp
          · rw [if_neg e1]
            obtain ⟨r', zs', C1, C2, e2, p1, p2, p3, p4, p5⟩ := ih _ ((ia, ka, va) :: A2) _ B2 r _ eL eM' hw sA h4.2 h6 (by simp only [List.length_cons]; omega)
            refine ⟨r', zs', C1, C2, by simp only [(gb hw).2, Res.ok_bind]; exact e2, p1, p2, p3, p4, ?_⟩
            rw [p5, keysE_cons, keysE_cons, diff_gt hc h3.1 h4.1 (by omega)]
end

theorem drainIn_spec (hc : LawfulCmp cmp) {s t : Tree K Bool} {L} (hL : HoldsS cmp t L) (hh : t.heap = s.heap) (hn : t.next = s.next) :
    ∀ (f : Nat) (A1 A2 : List (Id × K × Bool)) (r : Tree K Bool) (zs), L = A1 ++ A2 → Work cmp s r zs → StrictK cmp (keysE A2) →
    (∀ a ∈ keysE zs, ∀ b ∈ keysE A2, cmp a b < 0) → A2.length < f →
    ∃ r' zs', drainIn cmp t f (hd A2) r = .ok r' ∧ Work cmp s r' zs' ∧ keysE zs' = keysE zs ++ keysE A2 := by
  intro f
  induction f with
  | zero => intros; omega
  | succ f ih =>
    intro A1 A2 r zs eL hw h3 h6 hf
    cases A2 with
    | nil => exact ⟨r, zs, by simp [drainIn], hw, by simp⟩
    | cons a A2 =>
      obtain ⟨ia, ka, va⟩ := a
      have ga := fun {r zs} (w : Work cmp s r zs) => iter_at (eL ▸ w.src hh hn hL)
      have eL' : L = (A1 ++ [(ia, ka, va)]) ++ A2 := by simpa using eL
      simp only [keysE_cons, StrictK, List.pairwise_cons] at h3
      simp only [List.length_cons] at hf
      obtain ⟨r1, i, e1, g1⟩ := hw.push hc ka fun k hk => h6 k hk ka (by simp)
      obtain ⟨r', zs', e2, g2, g3⟩ := ih _ A2 r1 _ eL' g1 h3.2 (by rw [keysE_append]; exact below_snoc (fun a ha b hb => h6 a ha b (by simp [hb])) h3.1) (by omega)
      refine ⟨r', zs', by simp only [hd_cons, drainIn, (ga hw).1, e1, Res.ok_bind, (ga g1).2, e2], g2, ?_⟩
      rw [g3]; simp

theorem algIn_spec (hc : LawfulCmp cmp) (m : SetAlg) {s o : Tree K Bool} {L M : List (Id × K × Bool)} (hs : HoldsS cmp s L) (ho : HoldsS cmp o M) (hh : o.heap = s.heap)
    (hn : o.next = s.next) (sL : StrictK cmp (keysE L)) (sM : StrictK cmp (keysE M)) :
    ∃ r zs, algIn m cmp s o ⟨s.heap, none, 0, s.next⟩ = .ok r ∧ Work cmp s r zs ∧ keysE zs = algSpec m cmp (keysE L) (keysE M) := by
  have w0 : Work cmp s ⟨s.heap, none, 0, s.next⟩ [] :=
    ⟨fun _ _ => rfl, Nat.le_refl _, ⟨⟨.leaf, ⟨rfl, trivial, by simp, by simp⟩, ⟨rfl, trivial, 0, rfl⟩, rfl, rfl⟩, List.Pairwise.nil⟩, by simp, by simp, List.Pairwise.nil⟩
  have l1 := hs.1.length_le
  have l2 := ho.1.length_le
  have hf : L.length + M.length < s.fuel + o.fuel := by simp only [Tree.fuel]; omega
  simp only [algIn, hs.1.first, ho.1.first, Res.ok_bind]
  cases m with
  | intersect =>
    obtain ⟨r, zs, e, g1, g2⟩ := intersectIn_spec hc hs ho hh hn (s.fuel + o.fuel) [] L [] M _ [] rfl rfl w0 sL sM (by simp) hf
    exact ⟨r, zs, e, g1, by simpa using g2⟩
  | union =>
    obtain ⟨r, zs, C1, C2, D1, D2, e, p1, p2, p3, p4, p5, p6, p7, p8, p9⟩ := unionIn_spec hc hs ho hh hn (s.fuel + o.fuel) [] L [] M _ [] rfl rfl w0 sL sM (by simp) (by simp) hf
    have q1 : C2.length ≤ L.length := by rw [p1]; simp
    have q2 : D2.length ≤ M.length := by rw [p2]; simp
    obtain ⟨r1, zs1, e1, w1, k1⟩ := drainIn_spec hc hs rfl rfl s.fuel C1 C2 r zs p1 p4 p5 p7 (by simp only [Tree.fuel]; omega)
    obtain ⟨r2, zs2, e2, w2, k2⟩ := drainIn_spec hc ho hh hn o.fuel D1 D2 r1 zs1 p2 w1 p6 (by
      rcases p3 with rfl | rfl
      · rw [k1]; simpa using p8
      · simp) (by simp only [Tree.fuel]; omega)
    refine ⟨r2, zs2, by simp only [e, Res.ok_bind, e1, e2], w2, ?_⟩
    rw [k2, k1, p9]; simp
  | diff =>
    obtain ⟨r, zs, C1, C2, e, p1, p2, p3, p4, p5⟩ := diffIn_spec hc hs ho hh hn (s.fuel + o.fuel) [] L [] M _ [] rfl rfl w0 sL sM (by simp) hf
    have q1 : C2.length ≤ L.length := by rw [p1]; simp
    obtain ⟨r1, zs1, e1, w1, k1⟩ := drainIn_spec hc hs rfl rfl s.fuel C1 C2 r zs p1 p2 p3 p4 (by simp only [Tree.fuel]; omega)
    refine ⟨r1, zs1, by simp only [e, Res.ok_bind, e1], w1, ?_⟩
    rw [k1, p5]; simp

/-! ## Proof: the program -/

theorem insertBy_strict (hc : LawfulCmp cmp) {α : Type} (key : α → K) (x : α) : ∀ l : List α, StrictK cmp (l.map key) → (∀ e ∈ l, cmp (key x) (key e) ≠ 0) →
    StrictK cmp ((insertBy cmp key x l).map key)
  | [], _, _ => by simp [insertBy, StrictK]
  | e :: l, hs, hn => by
    simp only [insertBy]
    simp only [StrictK, List.map_cons, List.pairwise_cons] at hs
    split
    · next c =>
      simp only [StrictK, List.map_cons, List.pairwise_cons]
      refine ⟨fun a ha => ?_, hs⟩
      rcases List.mem_cons.1 ha with rfl | ha
      · exact c
      · exact hc.lt_trans c (hs.1 a ha)
    · next c =>
      simp only [StrictK, List.map_cons, List.pairwise_cons]
      refine ⟨fun a ha => ?_, insertBy_strict hc key x l hs.2 fun e he => hn e (by simp [he])⟩
      obtain ⟨y, hy, rfl⟩ := List.mem_map.1 ha
      rcases List.mem_cons.1 ((insertBy_perm key x l).mem_iff.1 hy) with rfl | hy
      · have := hn e (by simp)
        have := hc.swap (key e) (key y)
        omega
      · exact hs.1 _ (List.mem_map_of_mem hy)

theorem strict_filter {e : ESt K Bool} (h : StrictK cmp e.keys) (p : Nat × K × Bool → Bool) : StrictK cmp ((e.ents.filter p).map (·.2.1)) :=
  List.Pairwise.sublist (List.Sublist.map _ List.filter_sublist) h

theorem first?_none {e : ESt K Bool} {k : K} (h : e.first? cmp k = none) : ∀ x ∈ e.ents, cmp k x.2.1 ≠ 0 := by
  intro x hx
  have := List.find?_eq_none.1 h x hx
  simpa using this

theorem insert_strict (hc : LawfulCmp cmp) {e : ESt K Bool} (h : StrictK cmp e.keys) {k : K} (v : Bool) (hn : e.first? cmp k = none) : StrictK cmp (e.insert cmp k v).keys :=
  insertBy_strict hc (fun x : Nat × K × Bool => x.2.1) (e.made, k, v) e.ents h (first?_none hn)

theorem set_keys (e : ESt K Bool) (n : Nat) (v : Bool) : (e.set n v).keys = e.keys := by
  simp only [ESt.keys, ESt.set, List.map_map]
  apply List.map_congr_left
  intro x _
  simp only [Function.comp]
  split <;> rfl

/-- What is not an insertion into a multimap or multiset keeps the keys different. -/
theorem cspec_strict (hc : LawfulCmp cmp) {op : COp K Bool} {e e' : ESt K Bool} {o} (h : StrictK cmp e.keys) (hop : ∀ k v, op ≠ .add k v) (he : cspec cmp op e = .ok (o, e')) :
    StrictK cmp e'.keys := by
  cases op with
  | add k v => exact absurd rfl (hop k v)
  | put k v =>
    cases he
    cases e1 : e.first? cmp k with
    | none => exact insert_strict hc h v e1
    | some x => simp only; rw [set_keys]; exact h
  | addNew k v =>
    cases he
    cases e1 : e.first? cmp k with
    | none => exact insert_strict hc h v e1
    | some x => exact h
  | erase k =>
    cases he
    cases e1 : e.first? cmp k with
    | none => exact h
    | some x => exact strict_filter h _
  | eraseAll k =>
    simp only [cspec] at he
    cases he
    split
    · exact h
    · exact strict_filter h _
  | eraseIter j =>
    simp only [cspec] at he
    rw [Res.bind_eq_ok] at he
    obtain ⟨m, _, he⟩ := he
    cases m with
    | «at» n => cases he; exact strict_filter h _
    | «end» => cases he; exact h
    | dead => cases he; exact h
  | clear => cases he; exact List.Pairwise.nil
  | get k => cases he; exact h
  | contains k => cases he; exact h
  | size => cases he; exact h
  | begin_ => cases he; exact h
  | last => cases he; exact h
  | find k => cases he; exact h
  | lowerBound k => cases he; exact h
  | upperBound k => cases he; exact h
  | isValid j =>
    simp only [cspec] at he
    rw [Res.bind_eq_ok] at he
    obtain ⟨m, _, he⟩ := he
    cases he; exact h
  | next j =>
    simp only [cspec] at he
    rw [Res.bind_eq_ok] at he
    obtain ⟨m, _, he⟩ := he
    cases m <;> (cases he; exact h)
  | prev j =>
    simp only [cspec] at he
    rw [Res.bind_eq_ok] at he
    obtain ⟨m, _, he⟩ := he
    cases m <;> (cases he; exact h)
  | key j =>
    simp only [cspec] at he
    rw [Res.bind_eq_ok] at he
    obtain ⟨m, _, he⟩ := he
    rw [Res.bind_eq_ok] at he
    obtain ⟨x, _, he⟩ := he
    cases he; exact h
  | value j =>
    simp only [cspec] at he
    rw [Res.bind_eq_ok] at he
    obtain ⟨m, _, he⟩ := he
    rw [Res.bind_eq_ok] at he
    obtain ⟨x, _, he⟩ := he
    cases he; exact h
  | setValue j v =>
    simp only [cspec] at he
    rw [Res.bind_eq_ok] at he
    obtain ⟨m, _, he⟩ := he
    rw [Res.bind_eq_ok] at he
    obtain ⟨x, _, he⟩ := he
    cases he
    rw [set_keys]; exact h
  | clone j =>
    simp only [cspec] at he
    rw [Res.bind_eq_ok] at he
    obtain ⟨m, _, he⟩ := he
    cases he; exact h
  | equal i j =>
    simp only [cspec] at he
    rw [Res.bind_eq_ok] at he
    obtain ⟨m, _, he⟩ := he
    rw [Res.bind_eq_ok] at he
    obtain ⟨x, _, he⟩ := he
    cases he; exact h

/-- All keys are different, in each of the lists. -/
def StrictQ (q : List ((K → K → Int) × ESt K Bool)) : Prop := ∀ (c : Nat) (cmp : K → K → Int) (e : ESt K Bool), q[c]? = some (cmp, e) → LawfulCmp cmp ∧ StrictK cmp e.keys

theorem wspec_strict {op : WOp K Bool} {q q' : List ((K → K → Int) × ESt K Bool)} {o} (h : StrictQ q) (hop : op.Single) (he : wspec op q = .ok (o, q')) : StrictQ q' := by
  cases op with
  | on c op =>
    simp only [wspec] at he
    rw [Res.bind_eq_ok] at he
    obtain ⟨⟨cmp, e⟩, h1, he⟩ := he
    rw [Res.bind_eq_ok] at he
    obtain ⟨⟨o1, e1⟩, h2, he⟩ := he
    have he := (Prod.mk.inj (Res.ok.inj he)).2
    subst he
    have hq : q[c]? = some (cmp, e) := by
      cases e2 : q[c]? with
      | none => rw [e2] at h1; cases h1
      | some x => rw [e2] at h1; cases h1; rfl
    obtain ⟨hl, hs⟩ := h c cmp e hq
    intro d cmp' e' hd
    rw [List.getElem?_set] at hd
    by_cases hcd : c = d
    · rw [if_pos hcd, if_pos (lt_of_get hq)] at hd
      cases hd
      refine ⟨hl, cspec_strict hl hs (fun k v e => ?_) h2⟩
      subst e; exact hop
    · rw [if_neg hcd] at hd
      exact h d cmp' e' hd
  | equal c i d j =>
    simp only [wspec] at he
    rw [Res.bind_eq_ok] at he
    obtain ⟨_, _, he⟩ := he
    rw [Res.bind_eq_ok] at he
    obtain ⟨_, _, he⟩ := he
    rw [Res.bind_eq_ok] at he
    obtain ⟨_, _, he⟩ := he
    rw [Res.bind_eq_ok] at he
    obtain ⟨_, _, he⟩ := he
    cases he; exact h
  | eraseForeign c d j => cases he

theorem keys_eq {z : List (ZEnt K Bool)} {s : CSt K Bool} {e : ESt K Bool} (h : CSim cmp z s e) : keysE (z.map zf) = e.keys := by
  simp [keysE, ESt.keys, h.ents, List.map_map, Function.comp_def]

theorem astep_spec (op : AOp K) {zs : Nat → List (ZEnt K Bool)} {w : WSt K Bool} {q} (h : WSim zs w q) (hq : StrictQ q) (hl : op.Live q) :
    match aspec op q with
    | .ok (o, q') => ∃ zs' w', astep op w = .ok (o, w') ∧ WSim zs' w' q' ∧ StrictQ q'
    | .panic => astep op w = .panic
    | .outOfFuel => False := by
  cases op with
  | base op =>
    have r := wstep_spec op h hl.1
    simp only [aspec, astep]
    cases e : wspec op q with
    | outOfFuel => rw [e] at r; exact r
    | panic => rw [e] at r; exact r
    | ok oq =>
      obtain ⟨o, q'⟩ := oq
      rw [e] at r
      obtain ⟨zs', w', r1, r2⟩ := r
      exact ⟨zs', w', r1, r2, wspec_strict hq hl.2 e⟩
  | make m c d =>
    simp only [aspec, astep]
    cases ec : w.cs[c]? with
    | none => rw [h.none ec]; rfl
    | some hd =>
      obtain ⟨e, eq, hlaw, hs⟩ := h.sim c hd ec
      simp only [eq, Res.ofOption, Res.ok_bind]
      cases ed : w.cs[d]? with
      | none => rw [h.none ed]; rfl
      | some gd =>
        obtain ⟨f, fq, -, hs2⟩ := h.sim d gd ed
        simp only [fq, Res.ok_bind]
        have hcmp : gd.cmp = hd.cmp := hl _ _ _ _ eq fq
        rw [hcmp] at hs2 fq
        have s1 := (hq c _ _ eq).2
        have s2 := (hq d _ _ fq).2
        obtain ⟨r, ys, er, wk, hk⟩ := algIn_spec hlaw m hs.holds hs2.holds rfl rfl (by rw [keys_eq hs]; exact s1) (by rw [keys_eq hs2]; exact s2)
        rw [keys_eq hs, keys_eq hs2] at hk
        have er : algIn m hd.cmp (w.view hd).t (w.view gd).t ⟨w.heap, none, 0, w.next⟩ = .ok r := er
        simp only [er, Res.ok_bind]
        have hstrict : StrictK hd.cmp (algSpec m hd.cmp e.keys f.keys) := hk ▸ wk.strict
        have hle : w.next ≤ r.next := wk.next
        have hheap : ∀ i, i < w.next → r.heap i = w.heap i := wk.heap
        refine ⟨fun k => if k = w.cs.length then ys.zipIdx.map fun p => (p.1.1, p.2, p.1.2) else zs k, _, rfl, ⟨?_, ?_, ?_⟩, ?_⟩
        · simp [h.len]
        · intro k g hg
          by_cases hk2 : k < w.cs.length
          · rw [List.getElem?_append_left hk2] at hg
            obtain ⟨e2, eq2, hl2, hs3⟩ := h.sim k g hg
            refine ⟨e2, by rw [List.getElem?_append_left (by rw [← h.len]; exact hk2)]; exact eq2, hl2, ?_⟩
            rw [if_neg (Nat.ne_of_lt hk2)]
            refine ⟨⟨hs3.holds.1.same rfl rfl hle fun x hx => ?_, hs3.holds.2⟩, hs3.ents, hs3.nodup, hs3.fresh, hs3.its⟩
            exact hheap _ (hs3.holds.1.fresh _ hx)
          · have hlt := lt_of_get hg
            simp only [List.length_append, List.length_cons, List.length_nil] at hlt
            have : k = w.cs.length := by omega
            subst this
            rw [List.getElem?_append_right (Nat.le_refl _), Nat.sub_self] at hg
            cases hg
            refine ⟨ESt.ofKeys (algSpec m hd.cmp e.keys f.keys), by rw [h.len, List.getElem?_append_right (Nat.le_refl _), Nat.sub_self]; rfl, hlaw, ?_⟩
            rw [if_pos rfl]
            have e1 : (ys.zipIdx.map fun p => ((p.1.1, p.2, p.1.2) : ZEnt K Bool)).map zf = ys := by
              rw [List.map_map]
              have : (zf ∘ fun p : (Id × K × Bool) × Nat => ((p.1.1, p.2, p.1.2) : ZEnt K Bool)) = Prod.fst := rfl
              rw [this, List.zipIdx_map_fst]
            refine ⟨?_, ?_, ?_, ?_, .nil⟩
            · rw [e1]; exact wk.holds
            · rw [← hk]
              simp only [ESt.ofKeys, keysE, List.zipIdx_map, List.map_map]
              apply List.map_congr_left
              intro p hp
              have : p.1 ∈ ys := by
                have := List.mem_map_of_mem (f := Prod.fst) hp
                rwa [List.zipIdx_map_fst] at this
              have := wk.tt _ this
              simp only [Function.comp, Prod.map]
              rw [← this]; rfl
            · have : (ys.zipIdx.map fun p => ((p.1.1, p.2, p.1.2) : ZEnt K Bool)).map (·.2.1) = ys.zipIdx.map Prod.snd := by rw [List.map_map]; rfl
              rw [this, List.zipIdx_map_snd]
              exact List.nodup_range'
            · intro x hx
              obtain ⟨p, hp, rfl⟩ := List.mem_map.1 hx
              have := List.snd_lt_of_mem_zipIdx hp
              have hlen : ys.length = (algSpec m hd.cmp e.keys f.keys).length := by rw [← hk]; simp [keysE]
              show p.2 < (algSpec m hd.cmp e.keys f.keys).length
              omega
        · have hfresh : ∀ d, d < w.cs.length → ∀ x ∈ zs d, x.1 < w.next := by
            intro d hd x hx
            obtain ⟨g, hg⟩ : ∃ g, w.cs[d]? = some g := ⟨_, List.getElem?_eq_getElem hd⟩
            obtain ⟨e, _, _, hs⟩ := h.sim d g hg
            exact hs.holds.1.fresh (zf x) (List.mem_map_of_mem hx)
          have hnew : ∀ x ∈ ys.zipIdx.map fun p => ((p.1.1, p.2, p.1.2) : ZEnt K Bool), w.next ≤ x.1 := by
            intro x hx
            obtain ⟨p, hp, rfl⟩ := List.mem_map.1 hx
            have := List.mem_map_of_mem (f := Prod.fst) hp
            rw [List.zipIdx_map_fst] at this
            exact wk.new _ this
          intro a b hab ha hb x hx y hy
          simp only [List.length_append, List.length_cons, List.length_nil] at ha hb
          by_cases hac : a = w.cs.length
          · rw [if_pos hac] at hx
            rw [if_neg (by omega)] at hy
            exact Ne.symm (Nat.ne_of_lt (Nat.lt_of_lt_of_le (hfresh b (by omega) y hy) (hnew x hx)))
          · rw [if_neg hac] at hx
            by_cases hbc : b = w.cs.length
            · rw [if_pos hbc] at hy
              exact Nat.ne_of_lt (Nat.lt_of_lt_of_le (hfresh a (by omega) x hx) (hnew y hy))
            · rw [if_neg hbc] at hy
              exact h.apart a b hab (by omega) (by omega) x hx y hy
        · intro k cmp' e' hk'
          by_cases hk2 : k < q.length
          · rw [List.getElem?_append_left hk2] at hk'
            exact hq k cmp' e' hk'
          · have hlt := lt_of_get hk'
            simp only [List.length_append, List.length_cons, List.length_nil] at hlt
            have : k = q.length := by omega
            subst this
            rw [List.getElem?_append_right (Nat.le_refl _), Nat.sub_self] at hk'
            cases hk'
            refine ⟨hlaw, ?_⟩
            have : (ESt.ofKeys (algSpec m hd.cmp e.keys f.keys)).keys = algSpec m hd.cmp e.keys f.keys := by
              simp only [ESt.ofKeys, ESt.keys, List.map_map]
              exact List.zipIdx_map_fst 0 _
            rw [this]; exact hstrict

theorem arun_spec (ops : List (AOp K)) : ∀ {zs : Nat → List (ZEnt K Bool)} {w : WSt K Bool} {q}, WSim zs w q → StrictQ q → ALive ops q →
    outs (arun ops w) = outs (aspecRun ops q) := by
  induction ops with
  | nil => intros; rfl
  | cons op ops ih =>
    intro zs w q h hq hl
    have r := astep_spec op h hq hl.1
    simp only [arun, aspecRun]
    cases e : aspec op q with
    | outOfFuel => rw [e] at r; exact r.elim
    | panic =>
      rw [e] at r
      have r : astep op w = .panic := r
      rw [r]; rfl
    | ok oq =>
      obtain ⟨o, q'⟩ := oq
      rw [e] at r
      obtain ⟨zs', w', r, h', hq'⟩ := r
      rw [r]
      simp only [Res.ok_bind]
      have := ih h' hq' (hl.2 o q' e)
      revert this
      cases arun ops w' with
      | ok a => cases aspecRun ops q' with
        | ok b => intro e; exact congrArg (fun r => outs (do let os ← r; .ok (o :: os, ()))) e
        | panic => intro e; cases e
        | outOfFuel => intro e; cases e
      | panic => cases aspecRun ops q' with
        | ok b => intro e; cases e
        | panic => intro e; rfl
        | outOfFuel => intro e; cases e
      | outOfFuel => cases aspecRun ops q' with
        | ok b => intro e; cases e
        | panic => intro e; cases e
        | outOfFuel => intro e; rfl

/-! ## C109 -/

/-- **C109** In every program on sets in one memory, in which new sets are made of others, of one twice, of such that were themselves made so, and all go on being changed and
walked in any order, every call returns what it returns on lists that share nothing. -/
theorem C109_history {cmps : List (K → K → Int)} (hc : ∀ cmp ∈ cmps, LawfulCmp cmp) (ops : List (AOp K)) (hl : ALive ops (wspecStart cmps)) :
    outs (arun ops (WSt.start cmps)) = outs (aspecRun ops (wspecStart cmps)) := by
  refine arun_spec ops (wsim_start hc) ?_ hl
  intro c cmp e h
  simp only [wspecStart, List.getElem?_map] at h
  cases ec : cmps[c]? with
  | none => rw [ec] at h; cases h
  | some x =>
    rw [ec] at h
    cases h
    exact ⟨hc _ (List.mem_of_getElem? ec), List.Pairwise.nil⟩

/-- **C109** What the three methods make of increasing lists is increasing, and has the elements it should. -/
theorem C109_meaning (hc : LawfulCmp cmp) {a b : List K} (ha : StrictK cmp a) (hb : StrictK cmp b) :
    (∀ m, StrictK cmp (algSpec m cmp a b)) ∧
    (∀ x, In cmp x (algSpec .intersect cmp a b) ↔ In cmp x a ∧ In cmp x b) ∧
    (∀ x, In cmp x (algSpec .union cmp a b) ↔ In cmp x a ∨ In cmp x b) ∧
    ∀ x, In cmp x (algSpec .diff cmp a b) ↔ In cmp x a ∧ ¬ In cmp x b := by
  have cg : ∀ {x y : K} {l : List K}, cmp x y = 0 → (In cmp x l ↔ In cmp y l) := by
    intro x y l e
    exact ⟨fun ⟨z, hz, h⟩ => ⟨z, hz, hc.eq_trans (hc.eq_symm.1 e) h⟩, fun ⟨z, hz, h⟩ => ⟨z, hz, hc.eq_trans e h⟩⟩
  refine ⟨fun m => ?_, fun x => ?_, fun x => ?_, fun x => ?_⟩
  · cases m with
    | intersect => exact List.Pairwise.sublist List.filter_sublist ha
    | diff => exact List.Pairwise.sublist List.filter_sublist ha
    | union =>
      have key : ∀ (n : Nat) (a b : List K), a.length + b.length ≤ n → StrictK cmp a → StrictK cmp b → StrictK cmp (algSpec .union cmp a b) ∧
          ∀ k, (∀ x ∈ a, cmp k x < 0) → (∀ x ∈ b, cmp k x < 0) → ∀ x ∈ algSpec .union cmp a b, cmp k x < 0 := by
        intro n
        induction n with
        | zero =>
          intro a b hn _ _
          have h1 : a = [] := List.length_eq_zero_iff.1 (by omega)
          have h2 : b = [] := List.length_eq_zero_iff.1 (by omega)
          subst h1 h2
          rw [union_nil_left]
          exact ⟨List.Pairwise.nil, by simp⟩
        | succ n ih =>
          intro a b hn sa sb
          cases a with
          | nil => rw [union_nil_left]; exact ⟨sb, fun k _ h => h⟩
          | cons ka A =>
            cases b with
            | nil => rw [union_nil_right]; exact ⟨sa, fun k h _ => h⟩
            | cons kb B =>
              have sa' := sa
              have sb' := sb
              simp only [StrictK, List.pairwise_cons] at sa sb
              simp only [List.length_cons] at hn
              have fin : ∀ (y : K) (l : List K), StrictK cmp l → (∀ x ∈ l, cmp y x < 0) → ∀ (Q : K → Prop), (∀ k, Q k → cmp k y < 0) → (∀ k, Q k → ∀ x ∈ l, cmp k x < 0) →
                  StrictK cmp (y :: l) ∧ ∀ k, Q k → ∀ x ∈ y :: l, cmp k x < 0 := by
                intro y l h1 h2 Q h3 h4
                refine ⟨by simp only [StrictK, List.pairwise_cons]; exact ⟨h2, h1⟩, fun k hk x hx => ?_⟩
                rcases List.mem_cons.1 hx with rfl | hx
                · exact h3 k hk
                · exact h4 k hk x hx
              by_cases e0 : cmp ka kb = 0
              · rw [union_eq hc sa.1 sb.1 e0]
                obtain ⟨i1, i2⟩ := ih A B (by omega) sa.2 sb.2
                have := fin ka _ i1 (i2 ka sa.1 (lt_tail hc (by omega) sb.1)) (fun k => (∀ x ∈ ka :: A, cmp k x < 0) ∧ ∀ x ∈ kb :: B, cmp k x < 0) (fun k h => h.1 ka (by simp))
                  (fun k h => i2 k (fun x hx => h.1 x (by simp [hx])) (fun x hx => h.2 x (by simp [hx])))
                exact ⟨this.1, fun k h1 h2 => this.2 k ⟨h1, h2⟩⟩
              · by_cases e1 : cmp ka kb < 0
                · rw [union_lt hc sa.1 sb.1 e1]
                  obtain ⟨i1, i2⟩ := ih A (kb :: B) (by simp only [List.length_cons]; omega) sa.2 sb'
                  have hkb : ∀ x ∈ kb :: B, cmp ka x < 0 := by
                    intro x hx
                    rcases List.mem_cons.1 hx with rfl | hx
                    · exact e1
                    · exact hc.lt_trans e1 (sb.1 x hx)
                  have := fin ka _ i1 (i2 ka sa.1 hkb) (fun k => (∀ x ∈ ka :: A, cmp k x < 0) ∧ ∀ x ∈ kb :: B, cmp k x < 0) (fun k h => h.1 ka (by simp))
                    (fun k h => i2 k (fun x hx => h.1 x (by simp [hx])) h.2)
                  exact ⟨this.1, fun k h1 h2 => this.2 k ⟨h1, h2⟩⟩
                · rw [union_gt hc sa.1 sb.1 (by omega)]
                  have e3 : cmp kb ka < 0 := by rw [hc.swap]; omega
                  obtain ⟨i1, i2⟩ := ih (ka :: A) B (by simp only [List.length_cons]; omega) sa' sb.2
                  have hka : ∀ x ∈ ka :: A, cmp kb x < 0 := by
                    intro x hx
                    rcases List.mem_cons.1 hx with rfl | hx
                    · exact e3
                    · exact hc.lt_trans e3 (sa.1 x hx)
                  have := fin kb _ i1 (i2 kb hka sb.1) (fun k => (∀ x ∈ ka :: A, cmp k x < 0) ∧ ∀ x ∈ kb :: B, cmp k x < 0) (fun k h => h.2 kb (by simp))
                    (fun k h => i2 k h.1 (fun x hx => h.2 x (by simp [hx])))
                  exact ⟨this.1, fun k h1 h2 => this.2 k ⟨h1, h2⟩⟩
      exact (key _ a b (Nat.le_refl _) ha hb).1
  · constructor
    · rintro ⟨y, hy, e⟩
      obtain ⟨h1, h2⟩ := List.mem_filter.1 hy
      exact ⟨⟨y, h1, e⟩, (cg e).2 (hasKey_iff.1 h2)⟩
    · rintro ⟨⟨y, hy, e⟩, h2⟩
      exact ⟨y, List.mem_filter.2 ⟨hy, hasKey_iff.2 ((cg e).1 h2)⟩, e⟩
  · have mm : ∀ y, y ∈ algSpec .union cmp a b ↔ y ∈ a ∨ (y ∈ b ∧ ¬ In cmp y a) := by
      intro y
      simp only [algSpec, List.mem_merge, List.mem_filter, Bool.not_eq_true', ← Bool.not_eq_true, hasKey_iff]
    constructor
    · rintro ⟨y, hy, e⟩
      rcases (mm y).1 hy with h | h
      · exact .inl ⟨y, h, e⟩
      · exact .inr ⟨y, h.1, e⟩
    · intro h
      by_cases h1 : In cmp x a
      · obtain ⟨y, hy, e⟩ := h1
        exact ⟨y, (mm y).2 (.inl hy), e⟩
      · rcases h with h | ⟨y, hy, e⟩
        · exact absurd h h1
        · exact ⟨y, (mm y).2 (.inr ⟨hy, fun h2 => h1 ((cg e).2 h2)⟩), e⟩
  · constructor
    · rintro ⟨y, hy, e⟩
      obtain ⟨h1, h2⟩ := List.mem_filter.1 hy
      refine ⟨⟨y, h1, e⟩, fun h3 => ?_⟩
      rw [hasKey_iff.2 ((cg e).1 h3)] at h2
      cases h2
    · rintro ⟨⟨y, hy, e⟩, h2⟩
      refine ⟨y, List.mem_filter.2 ⟨hy, ?_⟩, e⟩
      have : hasKey cmp y b = false := by
        rw [Bool.eq_false_iff]
        exact fun h3 => h2 ((cg e).2 (hasKey_iff.1 h3))
      simp [this]

/-! ## Non-vacuity -/

/-- Two sets; their union, of which an element is then erased; the operands change too, while an iterator stands in the first; the difference of the union and itself. -/
def threeSets : List (AOp Int) :=
  [.base (.on 0 (.addNew 1 true)), .base (.on 0 (.addNew 3 true)), .base (.on 1 (.addNew 2 true)), .base (.on 1 (.addNew 3 true)), .base (.on 0 .begin_),
   .make .union 0 1, .base (.on 2 (.erase 3)), .base (.on 0 (.addNew 7 true)), .base (.on 0 (.next 0)), .base (.on 0 (.key 0)), .base (.on 1 (.contains 3)),
   .base (.on 2 .size), .base (.on 2 (.contains 7)), .make .diff 2 2, .base (.on 3 .size), .make .intersect 0 1, .base (.on 4 (.contains 3))]

example : outs (arun threeSets (WSt.start [intCmp, intCmp])) =
    .ok [.unit, .unit, .unit, .unit, .made, .unit, .unit, .unit, .unit, .key 3, .bool true, .int 2, .bool false, .unit, .int 0, .unit, .bool true] := rfl

/-- It keeps to the rules. -/
theorem threeSets_live : ALive threeSets (wspecStart [intCmp, intCmp]) := by
  simp only [threeSets, ALive, AOp.Live, WOp.Live, WOp.Single, COp.Live, COp.uses]
  refine ⟨by simp, fun o q h => ?_⟩; cases h
  refine ⟨by simp, fun o q h => ?_⟩; cases h
  refine ⟨by simp, fun o q h => ?_⟩; cases h
  refine ⟨by simp, fun o q h => ?_⟩; cases h
  refine ⟨by simp, fun o q h => ?_⟩; cases h
  refine ⟨fun c e c' e' h h' => by cases h; cases h'; rfl, fun o q h => ?_⟩; cases h
  refine ⟨by simp, fun o q h => ?_⟩; cases h
  refine ⟨by simp, fun o q h => ?_⟩; cases h
  refine ⟨⟨fun cmp e h j hj => by cases h; simp at hj; subst hj; decide, trivial⟩, fun o q h => ?_⟩; cases h
  refine ⟨⟨fun cmp e h j hj => by cases h; simp at hj; subst hj; decide, trivial⟩, fun o q h => ?_⟩; cases h
  refine ⟨by simp, fun o q h => ?_⟩; cases h
  refine ⟨by simp, fun o q h => ?_⟩; cases h
  refine ⟨by simp, fun o q h => ?_⟩; cases h
  refine ⟨fun c e c' e' h h' => by cases h; cases h'; rfl, fun o q h => ?_⟩; cases h
  refine ⟨by simp, fun o q h => ?_⟩; cases h
  refine ⟨fun c e c' e' h h' => by cases h; cases h'; rfl, fun o q h => ?_⟩; cases h
  exact ⟨by simp, fun o q h => trivial⟩

example := C109_history (cmps := [intCmp, intCmp]) (by simp [intCmp_lawful]) threeSets threeSets_live
example := C109_meaning (cmp := intCmp) intCmp_lawful (a := [1, 3, 5]) (b := [2, 3]) (by simp [StrictK, intCmp]) (by simp [StrictK, intCmp])

end GoSTL.TreeMap
