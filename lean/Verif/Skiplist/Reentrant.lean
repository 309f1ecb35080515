import Verif.Skiplist.Props
import Verif.TreeMap.Reentrant
/-!
# C97: `Skiplist.Traversal` with a visitor that changes the skip list

As for maps and sets (`Verif/TreeMap/Reentrant.lean`, whose specification of the walk is used here), but a visitor may also remove the visited key, if that is the
last thing it does.
-/
namespace GoSTL.Skiplist
open GoSTL.TreeMap (Visitor Answer putKV delKV specLoop putKV_mid delKV_mid Strict)

variable {K V σ : Type} {cmp : K → K → Int}

/-! ## Model -/

/-- The calls a visitor makes; `draw` is the random number of an `Insert`. -/
inductive SlCall (K V : Type)
  | insert (k : K) (v : V) (draw : BitVec 64)
  | remove (k : K)

/-- skiplist.go:86-113 `Insert`, 138-156 `Remove`. -/
def slCall (cmp : K → K → Int) : SlCall K V → SL K V → Res (SL K V)
  | .insert k v draw, w => Insert cmp k v draw w
  | .remove k, w => do
    let r ← Remove cmp k w
    .ok r.2

/-- The calls of one visit, one after the other. -/
def slCalls (cmp : K → K → Int) : List (SlCall K V) → SL K V → Res (SL K V)
  | [], w => .ok w
  | c :: cs, w => do
    let w ← slCall cmp c w
    slCalls cmp cs w

/-- What a skip list holds, in order. -/
def entries (w : SL K V) : Res (List (K × V)) := Traversal (fun (l : List (K × V)) k v => (l ++ [(k, v)], true)) w []

/-- skiplist.go:200-204, the loop of `Traversal`, with a visitor that changes the list. Returns the visited entries, the state of the visitor and the list. -/
def reTravLoop (cmp : K → K → Int) (visit : Visitor K V σ (SlCall K V)) : Nat → Option Nat → SL K V → σ → Res (List (K × V) × σ × SL K V)
  | 0, _, _, _ => .outOfFuel
  | _ + 1, none, w, s => .ok ([], s, w)
  | f + 1, some i, w, s => do
    let e ← Res.ofOption w.elems[i]?
    let held ← entries w
    let a := visit held s e.key e.value
    let w ← slCalls cmp a.calls w
    if a.go then do
      let n ← nextAt w (.elem i) 0
      let r ← reTravLoop cmp visit f n w a.st
      .ok ((e.key, e.value) :: r.1, r.2)
    else .ok ([(e.key, e.value)], a.st, w)

/-- skiplist.go:196-205 `Traversal`, with room for `fuel` visits. -/
def ReTraversal (cmp : K → K → Int) (visit : Visitor K V σ (SlCall K V)) (fuel : Nat) (w : SL K V) (s : σ) : Res (List (K × V) × σ × SL K V) := do
  let n ← nextAt w .head 0
  reTravLoop cmp visit fuel n w s

/-! ## Specification -/

/-- What a call does to the entries. -/
def specSl (cmp : K → K → Int) : SlCall K V → List (K × V) → List (K × V)
  | .insert k v _, m => putKV cmp k v m
  | .remove k, m => delKV cmp k m

/-- While `k` is visited, only the last call may remove `k`. -/
def SafeCalls (cmp : K → K → Int) (k : K) (cs : List (SlCall K V)) : Prop := ∀ x, .remove x ∈ cs.dropLast → cmp x k ≠ 0

/-- The walk over the skip list and the walk over the sorted list do the same. -/
def SameWalk (cmp : K → K → Int) : Res (List (K × V) × σ × SL K V) → Res (List (K × V) × σ × List (K × V)) → Prop
  | .ok (vs, s, w), .ok (ws, s', m) => vs = ws ∧ s = s' ∧ entries w = .ok m ∧ Agree cmp w m
  | .outOfFuel, .outOfFuel => True
  | _, _ => False

/-! ## Proofs -/

theorem lvl0 {w : SL K V} {G : List (Cell K V)} (hi : Inv cmp w G) : lvl 0 G = G := by
  apply List.filter_eq_self.2
  intro c hcG
  have := (hi.height c hcG).1
  simp; omega

theorem visitAll_entries : ∀ (L acc : List (K × V)), visitAll (fun (l : List (K × V)) k v => (l ++ [(k, v)], true)) L acc = acc ++ L
  | [], acc => by simp [visitAll]
  | (k, v) :: L, acc => by simp [visitAll, visitAll_entries L]

theorem Inv.entries {w : SL K V} {G : List (Cell K V)} (hi : Inv cmp w G) : entries w = .ok (G.map Cell.kv) := by
  have hs := hi.seg 0 hi.max1
  rw [lvl0 hi] at hs
  simp only [Skiplist.entries, Traversal, hs.first, Res.ok_bind]
  rw [travLoop_spec _ G _ .head [] (hi.fuel (.refl _)) hi.stored hs, visitAll_entries, List.nil_append]

theorem Inv.strict {w : SL K V} {G : List (Cell K V)} (hi : Inv cmp w G) : Strict cmp (G.map Cell.kv) := List.pairwise_map.2 hi.sorted

theorem putKV_split (hc : LawfulCmp cmp) (k : K) (v : V) (B : List (K × V)) : ∀ A : List (K × V), (∀ a ∈ A, cmp a.1 k < 0) → (∀ b ∈ B, 0 < cmp b.1 k) →
    putKV cmp k v (A ++ B) = A ++ (k, v) :: B
  | [], _, hB => by
    cases B with
    | nil => rfl
    | cons b B =>
      have := (hc.swap k b.1).2 (hB b (by simp))
      simp only [List.nil_append, putKV, if_pos this]
  | a :: A, hA, hB => by
    have h1 := hA a (by simp)
    have h2 := hc.swap a.1 k
    simp only [List.cons_append, putKV]
    rw [if_neg (by omega), if_neg (by omega), putKV_split hc k v B A (fun x hx => hA x (by simp [hx])) hB]

theorem delKV_none (hc : LawfulCmp cmp) {k : K} {A B : List (K × V)} (hA : ∀ a ∈ A, cmp a.1 k < 0) (hB : ∀ b ∈ B, 0 < cmp b.1 k) :
    delKV cmp k (A ++ B) = A ++ B := by
  rw [delKV, List.filter_eq_self]
  intro e he
  have h : cmp e.1 k ≠ 0 := by
    rcases List.mem_append.1 he with h | h
    · have := hA e h; omega
    · have := hB e h; omega
  simpa using fun h' => h (hc.eq_symm.1 h')

/-- A call that does not remove the visited key keeps its cell. -/
theorem step_keeps (hc : LawfulCmp cmp) {w : SL K V} {G : List (Cell K V)} (hi : Inv cmp w G) {c : Cell K V} (hm : c ∈ G) (op : SlCall K V)
    (hop : ∀ x, op = .remove x → cmp x c.key ≠ 0) :
    ∃ w' G' c', slCall cmp op w = .ok w' ∧ Inv cmp w' G' ∧ G'.map Cell.kv = specSl cmp op (G.map Cell.kv) ∧ c' ∈ G' ∧ c'.id = c.id ∧ c'.key = c.key := by
  cases op with
  | insert k v d =>
    rcases hi.cases hc k with ⟨A, b, B, rfl, hA, hb, hB⟩ | ⟨A, B, rfl, hA, hB⟩
    · obtain ⟨w', e, hi'⟩ := insert_present hi v d hA hb hB
      have hspec : (A ++ { b with val := v } :: B).map Cell.kv = specSl cmp (.insert k v d) ((A ++ b :: B).map Cell.kv) := by
        have hst := hi.strict
        simp only [List.map_append, List.map_cons, specSl] at hst ⊢
        rw [show Cell.kv b = (b.key, b.val) from rfl] at hst ⊢
        rw [putKV_mid hc hst (hc.eq_symm.1 hb)]
        rfl
      rw [List.mem_append, List.mem_cons] at hm
      rcases hm with hm | rfl | hm
      · exact ⟨w', _, c, e, hi', hspec, by simp [hm], rfl, rfl⟩
      · exact ⟨w', _, _, e, hi', hspec, List.mem_append_right _ (List.mem_cons_self ..), rfl, rfl⟩
      · exact ⟨w', _, c, e, hi', hspec, by simp [hm], rfl, rfl⟩
    · obtain ⟨w', ce, e, rfl, rfl, -, hi'⟩ := insert_absent hc hi v d hA hB
      refine ⟨w', _, c, e, hi', ?_, ?_, rfl, rfl⟩
      · simp only [List.map_append, List.map_cons, specSl]
        rw [putKV_split hc]
        · rfl
        · intro a ha
          obtain ⟨x, hx, rfl⟩ := List.mem_map.1 ha
          exact hA x hx
        · intro a ha
          obtain ⟨x, hx, rfl⟩ := List.mem_map.1 ha
          exact hB x hx
      · rw [List.mem_append] at hm
        rcases hm with hm | hm <;> simp [hm]
  | remove k =>
    have hk := hop k rfl
    rcases hi.cases hc k with ⟨A, b, B, rfl, hA, hb, hB⟩ | ⟨A, B, rfl, hA, hB⟩
    · obtain ⟨w', e, hi'⟩ := remove_present hi hA hb hB
      refine ⟨w', _, c, by simp [slCall, e], hi', ?_, ?_, rfl, rfl⟩
      · have hst := hi.strict
        simp only [List.map_append, List.map_cons, specSl] at hst ⊢
        rw [show Cell.kv b = (b.key, b.val) from rfl] at hst ⊢
        rw [delKV_mid hc hst (hc.eq_symm.1 hb)]
      · rw [List.mem_append, List.mem_cons] at hm
        rcases hm with hm | rfl | hm
        · simp [hm]
        · exact absurd (hc.eq_symm.1 hb) hk
        · simp [hm]
    · refine ⟨w, _, c, by simp [slCall, remove_absent hi hA hB], hi, ?_, hm, rfl, rfl⟩
      simp only [List.map_append, specSl]
      rw [delKV_none hc]
      · intro a ha
        obtain ⟨x, hx, rfl⟩ := List.mem_map.1 ha
        exact hA x hx
      · intro a ha
        obtain ⟨x, hx, rfl⟩ := List.mem_map.1 ha
        exact hB x hx

theorem setNext_frame {w w' : SL K V} {r r' : Ref} {i j : Nat} {v : Option Nat} (e : setNext w r i v = .ok w') (h : r' ≠ r) :
    nextAt w' r' j = nextAt w r' j := by
  cases r with
  | head =>
    simp only [setNext] at e
    split at e
    · cases e
      cases r' with
      | head => exact absurd rfl h
      | elem a => rfl
    · cases e
  | elem a =>
    simp only [setNext, Res.bind_eq_ok] at e
    obtain ⟨x, -, e⟩ := e
    split at e
    · cases e
      cases r' with
      | head => rfl
      | elem b =>
        have hne : a ≠ b := fun e => h (by rw [e])
        simp only [nextAt, List.getElem?_set_ne hne]
    · cases e

theorem unlink_frame {r' : Ref} {j : Nat} {a : Nat} {prevs : List Ref} (h : ∀ p ∈ prevs, r' ≠ p) : ∀ (n i : Nat) (w w' : SL K V),
    unlink a prevs n i w = .ok w' → nextAt w' r' j = nextAt w r' j
  | 0, i, w, w', e => by cases e; rfl
  | n + 1, i, w, w', e => by
    simp only [unlink, Res.bind_eq_ok] at e
    obtain ⟨v, -, p, hp, w1, e1, e2⟩ := e
    rw [unlink_frame h n _ _ _ e2]
    have hp' : prevs[i]? = some p := by
      cases hq : prevs[i]? with
      | none => rw [hq] at hp; cases hp
      | some q => rw [hq] at hp; cases hp; rfl
    exact setNext_frame e1 (h p (List.mem_of_getElem? hp'))

/-- Removing a key leaves the pointers of the removed element. -/
theorem remove_keeps_next {w w' : SL K V} {A B : List (Cell K V)} {b : Cell K V} (hi : Inv cmp w (A ++ b :: B)) {k : K}
    (hA : ∀ c ∈ A, cmp c.key k < 0) (hb : cmp b.key k = 0) (hB : ∀ c ∈ B, 0 < cmp c.key k) (e : Remove cmp k w = .ok (true, w')) :
    nextAt w' (.elem b.id) 0 = .ok (firstOr none B) := by
  have hB' : ∀ c ∈ b :: B, 0 ≤ cmp c.key k := by
    intro c hc
    rcases List.mem_cons.1 hc with rfl | hc
    · omega
    · have := hB c hc; omega
  obtain ⟨el, h1, h2, h3, h4⟩ := (hi.stored b (by simp)).elem
  simp only [Remove, findPrevs_all hi rfl hA hB', Res.ok_bind, prevsOf_get hi.max1, Res.ofOption_some, first0 hi rfl, firstOr, h1, h2, h4] at e
  rw [if_neg (by simpa using hb), Res.bind_eq_ok] at e
  obtain ⟨w1, e1, e2⟩ := e
  cases e2
  have hne := ids_ne hi.ids
  show nextAt w1 (.elem b.id) 0 = _
  rw [unlink_frame (r' := .elem b.id) (j := 0) ?_ _ _ _ _ e1]
  · have := first0 hi (A := A ++ [b]) (B := B) (by simp)
    rw [lvl_app, lvl_cons_pos (by have := (hi.height b (by simp)).1; omega)] at this
    simpa [lastRef_append, lastRef] using this
  · intro p hp
    obtain ⟨i, -, rfl⟩ := List.mem_map.1 hp
    exact (lastRef_ne fun c hc => hne c (.inl (mem_lvl hc).1)).symm

theorem slCalls_append (cmp : K → K → Int) : ∀ (cs ds : List (SlCall K V)) (w : SL K V), slCalls cmp (cs ++ ds) w = (slCalls cmp cs w >>= slCalls cmp ds)
  | [], ds, w => rfl
  | c :: cs, ds, w => by
    simp only [List.cons_append, slCalls]
    cases slCall cmp c w with
    | ok w => simp only [Res.ok_bind]; exact slCalls_append cmp cs ds w
    | panic => rfl
    | outOfFuel => rfl

/-- The element a walk is at still points to the entry that comes next. -/
def StandsAt (cmp : K → K → Int) (w : SL K V) (i : Nat) (k : K) (m : List (K × V)) : Prop :=
  ∃ A B, Inv cmp w (A ++ B) ∧ (A ++ B).map Cell.kv = m ∧ (∀ a ∈ A, cmp a.key k ≤ 0) ∧ (∀ b ∈ B, cmp k b.key < 0) ∧ nextAt w (.elem i) 0 = .ok (firstOr none B)

theorem calls_keep (hc : LawfulCmp cmp) : ∀ (cs : List (SlCall K V)) {w : SL K V} {G : List (Cell K V)}, Inv cmp w G → ∀ {c : Cell K V}, c ∈ G →
    (∀ x, .remove x ∈ cs → cmp x c.key ≠ 0) →
    ∃ w' G' c', slCalls cmp cs w = .ok w' ∧ Inv cmp w' G' ∧ G'.map Cell.kv = cs.foldl (fun m c => specSl cmp c m) (G.map Cell.kv) ∧ c' ∈ G' ∧
      c'.id = c.id ∧ c'.key = c.key
  | [], w, G, hi, c, hm, _ => ⟨w, G, c, rfl, hi, rfl, hm, rfl, rfl⟩
  | op :: cs, w, G, hi, c, hm, hs => by
    obtain ⟨w1, G1, c1, e1, i1, m1, h1, d1, k1⟩ := step_keeps hc hi hm op fun x hx => hs x (by simp [hx])
    obtain ⟨w2, G2, c2, e2, i2, m2, h2, d2, k2⟩ := calls_keep hc cs i1 h1 fun x hx => by rw [k1]; exact hs x (by simp [hx])
    exact ⟨w2, G2, c2, by simp [slCalls, e1, e2], i2, by rw [m2, m1]; rfl, h2, d2.trans d1, k2.trans k1⟩

theorem next_at (hc : LawfulCmp cmp) {w : SL K V} {G : List (Cell K V)} (hi : Inv cmp w G) {c : Cell K V} (hm : c ∈ G) : StandsAt cmp w c.id c.key (G.map Cell.kv) := by
  obtain ⟨A, B, rfl⟩ := List.append_of_mem hm
  have hs := hi.sorted
  rw [List.pairwise_append, List.pairwise_cons] at hs
  refine ⟨A ++ [c], B, by simpa using hi, by simp, ?_, hs.2.1.1, ?_⟩
  · intro a ha
    rw [List.mem_append, List.mem_singleton] at ha
    rcases ha with ha | rfl
    · exact Int.le_of_lt (hs.2.2 a ha c (by simp))
    · exact Int.le_of_eq (hc.refl _)
  · have := first0 hi (A := A ++ [c]) (B := B) (by simp)
    rw [lvl_app, lvl_cons_pos (by have := (hi.height c (by simp)).1; omega)] at this
    simpa [lastRef_append, lastRef] using this

/-- After the calls of a visit the element still points to the entry that comes next. -/
theorem calls_at (hc : LawfulCmp cmp) {w : SL K V} {G : List (Cell K V)} (hi : Inv cmp w G) {c : Cell K V} (hm : c ∈ G) (cs : List (SlCall K V))
    (hs : SafeCalls cmp c.key cs) : ∃ w', slCalls cmp cs w = .ok w' ∧ StandsAt cmp w' c.id c.key (cs.foldl (fun m c => specSl cmp c m) (G.map Cell.kv)) := by
  rcases List.eq_nil_or_concat cs with rfl | ⟨ds, op, rfl⟩
  · exact ⟨w, rfl, next_at hc hi hm⟩
  · rw [List.concat_eq_append] at *
    simp only [SafeCalls, List.dropLast_concat] at hs
    obtain ⟨w1, G1, c1, e1, i1, m1, h1, d1, k1⟩ := calls_keep hc ds hi hm hs
    rw [slCalls_append, e1, Res.ok_bind, List.foldl_append, ← m1, ← d1, ← k1]
    by_cases hop : ∀ x, op = .remove x → cmp x c1.key ≠ 0
    · obtain ⟨w2, G2, c2, e2, i2, m2, h2, d2, k2⟩ := step_keeps hc i1 h1 op hop
      refine ⟨w2, by simp [slCalls, e2], ?_⟩
      rw [List.foldl_cons, List.foldl_nil, ← m2, ← d2, ← k2]
      exact next_at hc i2 h2
    · obtain ⟨k, rfl, hk⟩ : ∃ k, op = .remove k ∧ cmp k c1.key = 0 := by
        cases op with
        | insert x v d => exact absurd (fun x h => by cases h) hop
        | remove k => exact ⟨k, rfl, Classical.byContradiction fun h => hop fun x hx => by cases hx; exact h⟩
      rcases i1.cases hc k with ⟨A, b, B, rfl, hA, hb, hB⟩ | ⟨A, B, rfl, hA, hB⟩
      · have hcb : c1 = b := by
          have := hc.eq_symm.1 hk
          rw [List.mem_append, List.mem_cons] at h1
          rcases h1 with h1 | h1 | h1
          · have := hA c1 h1; omega
          · exact h1
          · have := hB c1 h1; omega
        subst hcb
        obtain ⟨w2, e2, i2⟩ := remove_present i1 hA hb hB
        refine ⟨w2, by simp [slCalls, slCall, e2], A, B, i2, ?_, ?_, ?_, remove_keeps_next i1 hA hb hB e2⟩
        · have hst := i1.strict
          simp only [List.foldl_cons, List.foldl_nil, List.map_append, List.map_cons, specSl] at hst ⊢
          rw [show Cell.kv c1 = (c1.key, c1.val) from rfl] at hst ⊢
          rw [delKV_mid hc hst hk]
        · intro a ha
          exact Int.le_of_lt (hc.lt_of_lt_of_le (hA a ha) (Int.le_of_eq hk))
        · intro b hb'
          exact hc.lt_of_le_of_lt (Int.le_of_eq hb) ((hc.swap _ _).2 (hB b hb'))
      · exfalso
        have := hc.eq_symm.1 hk
        rw [List.mem_append] at h1
        rcases h1 with h1 | h1
        · have := hA c1 h1; omega
        · have := hB c1 h1; omega

theorem reTravLoop_spec (hc : LawfulCmp cmp) (visit : Visitor K V σ (SlCall K V))
    (hsafe : ∀ m s k v, Strict cmp m → (k, v) ∈ m → SafeCalls cmp k (visit m s k v).calls) :
    ∀ (f : Nat) (w : SL K V) (G : List (Cell K V)) (c : Cell K V) (s : σ), Inv cmp w G → c ∈ G →
      SameWalk cmp (reTravLoop cmp visit f (some c.id) w s) (specLoop cmp (specSl cmp) visit f (some c.kv) (G.map Cell.kv) s) := by
  intro f
  induction f with
  | zero => intro w G c s _ _; trivial
  | succ f ih =>
    intro w G c s hi hm
    obtain ⟨e, g1, g2, g3, -⟩ := (hi.stored c hm).elem
    obtain ⟨w', e1, h1⟩ := calls_at hc hi hm _ (hsafe _ s _ _ hi.strict (List.mem_map.2 ⟨c, hm, rfl⟩))
    rw [show c.kv = (c.key, c.val) from rfl]
    simp only [reTravLoop, g1, Res.ofOption_some, Res.ok_bind, hi.entries, g2, g3, e1, specLoop]
    generalize visit (G.map Cell.kv) s c.key c.val = a at *
    generalize a.calls.foldl (fun m c => specSl cmp c m) (G.map Cell.kv) = m' at *
    obtain ⟨A, B, i1, rfl, hA, hB, hn⟩ := h1
    cases hgo : a.go with
    | false => exact ⟨rfl, rfl, i1.entries, _, i1, .refl _⟩
    | true =>
      simp only [if_true, hn, Res.ok_bind]
      have hfind : ((A ++ B).map Cell.kv).find? (fun x => decide (cmp c.key x.1 < 0)) = (B.head?).map Cell.kv := by
        rw [List.map_append, List.find?_append]
        have : (A.map Cell.kv).find? (fun x => decide (cmp c.key x.1 < 0)) = none := by
          rw [List.find?_eq_none]
          intro x hx
          obtain ⟨y, hy, rfl⟩ := List.mem_map.1 hx
          have h1 := hA y hy
          have h2 := hc.swap c.key y.key
          show ¬ (decide (cmp c.key y.key < 0) = true)
          simp only [decide_eq_true_eq]
          omega
        rw [this, Option.none_or]
        cases B with
        | nil => rfl
        | cons b B =>
          have := hB b (by simp)
          simp [Cell.kv, this]
      rw [hfind]
      cases B with
      | nil =>
        cases f with
        | zero => trivial
        | succ f => exact ⟨rfl, rfl, i1.entries, _, i1, .refl _⟩
      | cons b B =>
        have := ih w' _ b a.st i1 (by simp)
        simp only [firstOr, List.head?_cons, Option.map_some]
        revert this
        generalize reTravLoop cmp visit f (some b.id) w' a.st = r1
        generalize specLoop cmp (specSl cmp) visit f (some b.kv) _ a.st = r2
        intro this
        cases r1 <;> cases r2 <;> first | exact False.elim this | trivial | skip
        rename_i p1 p2
        obtain ⟨vs, s1, t1⟩ := p1
        obtain ⟨ws, s2, m2⟩ := p2
        obtain ⟨r1, r2, q1, q2⟩ := this
        subst r1 r2
        exact ⟨rfl, rfl, q1, q2⟩

/-- **C97** A visitor of `Skiplist.Traversal` may insert and remove whatever it likes, the visited key included if that is its last call: the traversal goes on each
time with the entry of the smallest key above the visited one, in the list as it then is, and the list is what the calls made of it. -/
theorem C97_skiplist_partial (hc : LawfulCmp cmp) (n : Nat) (h1 : 1 ≤ n) (h2 : n ≤ 64) (ops : List (Op K V)) {w0 w : SL K V} {os : List (Out V)}
    (hn : New n = .ok w0) (hr : run cmp ops w0 = .ok (os, w)) {m : List (K × V)} (hm : entries w = .ok m) (visit : Visitor K V σ (SlCall K V))
    (hsafe : ∀ m s k v, Strict cmp m → (k, v) ∈ m → SafeCalls cmp k (visit m s k v).calls) (fuel : Nat) (s : σ) :
    SameWalk cmp (ReTraversal cmp visit fuel w s) (specLoop cmp (specSl cmp) visit fuel m.head? m s) := by
  obtain ⟨w0', e0, a0⟩ := agree_new (K := K) (V := V) (cmp := cmp) h1 h2
  rw [e0] at hn; cases hn
  obtain ⟨w', e, G, hi, -⟩ := run_agree hc ops a0
  rw [e] at hr; cases hr
  rw [hi.entries] at hm; cases hm
  have hs := hi.seg 0 hi.max1
  rw [lvl0 hi] at hs
  rw [ReTraversal, hs.first, Res.ok_bind]
  cases G with
  | nil =>
    cases fuel with
    | zero => trivial
    | succ f => exact ⟨rfl, rfl, hi.entries, _, hi, .refl _⟩
  | cons c G => exact reTravLoop_spec hc visit hsafe fuel w _ c s hi (by simp)

/-! ### What the walk means, and examples -/

/-- A walk with such a visitor visits keys in strictly increasing order. -/
theorem C97_skiplist_increasing_partial (hc : LawfulCmp cmp) (n : Nat) (h1 : 1 ≤ n) (h2 : n ≤ 64) (ops : List (Op K V)) {w0 w w' : SL K V} {os : List (Out V)}
    (hn : New n = .ok w0) (hr : run cmp ops w0 = .ok (os, w)) {m : List (K × V)} (hm : entries w = .ok m) (visit : Visitor K V σ (SlCall K V))
    (hsafe : ∀ m s k v, Strict cmp m → (k, v) ∈ m → SafeCalls cmp k (visit m s k v).calls) {fuel : Nat} {s s' : σ} {vs : List (K × V)}
    (ht : ReTraversal cmp visit fuel w s = .ok (vs, s', w')) : vs.Pairwise (fun a b => cmp a.1 b.1 < 0) := by
  have h := C97_skiplist_partial hc n h1 h2 ops hn hr hm visit hsafe fuel s
  rw [ht] at h
  cases hq : specLoop cmp (specSl cmp) visit fuel m.head? m s with
  | panic => rw [hq] at h; exact h.elim
  | outOfFuel => rw [hq] at h; exact h.elim
  | ok r =>
    obtain ⟨ws, s2, m2⟩ := r
    rw [hq] at h
    obtain ⟨rfl, -, -, -⟩ := h
    exact (TreeMap.specLoop_sorted hc _ visit _ _ _ _ _ hq).1

/-- Removing, while visiting, exactly the entries that satisfy a condition. -/
def removing (p : K → V → Bool) : Visitor K V Unit (SlCall K V) := fun _ _ k v => ⟨(), if p k v then [.remove k] else [], true⟩

theorem removing_safe (p : K → V → Bool) (m : List (K × V)) (s : Unit) (k : K) (v : V) : SafeCalls cmp k ((removing p) m s k v).calls := by
  intro x hx
  simp only [removing] at hx
  split at hx <;> simp at hx

theorem specLoop_removing (hc : LawfulCmp cmp) (p : K → V → Bool) : ∀ (B : List (K × V)) (A : List (K × V)) (e : K × V) (f : Nat),
    Strict cmp (A ++ e :: B) → B.length + 1 < f →
    specLoop cmp (specSl cmp) (removing p) f (some e) (A ++ e :: B) () = .ok (e :: B, (), A ++ (e :: B).filter fun x => !p x.1 x.2)
  | B, A, e, 0, _, hf => by omega
  | B, A, e, f + 1, hs, hf => by
    have hsp := hs
    simp only [Strict, List.pairwise_append, List.pairwise_cons] at hsp
    have hfind : ∀ A' : List (K × V), (∀ a ∈ A', cmp a.1 e.1 ≤ 0) → (A' ++ B).find? (fun x => decide (cmp e.1 x.1 < 0)) = B.head? := by
      intro A' hA'
      rw [List.find?_append]
      have : A'.find? (fun x => decide (cmp e.1 x.1 < 0)) = none := by
        rw [List.find?_eq_none]
        intro x hx
        have h1 := hA' x hx
        have h2 := hc.swap e.1 x.1
        simp only [decide_eq_true_eq]
        omega
      rw [this, Option.none_or]
      cases B with
      | nil => rfl
      | cons b B =>
        have := hsp.2.1.1 b (by simp)
        simp [this]
    have hAe : ∀ a ∈ A, cmp a.1 e.1 ≤ 0 := fun a ha => Int.le_of_lt (hsp.2.2 a ha e (by simp))
    have rest : ∀ A' : List (K × V), (∀ a ∈ A', cmp a.1 e.1 ≤ 0) → Strict cmp (A' ++ B) →
        specLoop cmp (specSl cmp) (removing p) f ((A' ++ B).find? fun x => decide (cmp e.1 x.1 < 0)) (A' ++ B) () =
          .ok (B, (), A' ++ B.filter fun x => !p x.1 x.2) := by
      intro A' hA' hs'
      rw [hfind A' hA']
      cases B with
      | nil =>
        obtain ⟨f, rfl⟩ : ∃ g, f = g + 1 := ⟨f - 1, by simp at hf; omega⟩
        simp [specLoop]
      | cons b B => exact specLoop_removing hc p B A' b f hs' (by simp at hf; omega)
    simp only [specLoop, removing]
    cases hp : p e.1 e.2 with
    | true =>
      simp only [if_true, List.foldl_cons, List.foldl_nil, specSl]
      rw [delKV_mid (k' := e.1) (v' := e.2) hc hs (hc.refl _)]
      have := rest A hAe (by
        simp only [Strict, List.pairwise_append]
        exact ⟨hsp.1, hsp.2.1.2, fun a ha b hb => hsp.2.2 a ha b (by simp [hb])⟩)
      rw [this]
      simp [hp]
    | false =>
      simp only [Bool.false_eq_true, if_false, List.foldl_nil, if_true]
      have := rest (A ++ [e]) (by
        intro a ha
        rw [List.mem_append, List.mem_singleton] at ha
        rcases ha with ha | rfl
        · exact hAe a ha
        · exact Int.le_of_eq (hc.refl _)) (by simpa using hs)
      simp only [List.append_assoc, List.singleton_append] at this
      rw [this]
      simp [hp]

/-- **C97** A traversal that removes the visited entry whenever it satisfies a condition visits every entry once, in order, and leaves exactly the entries that do
not satisfy the condition. -/
theorem C97_skiplist_remove_if (hc : LawfulCmp cmp) (n : Nat) (h1 : 1 ≤ n) (h2 : n ≤ 64) (ops : List (Op K V)) {w0 w : SL K V} {os : List (Out V)}
    (hn : New n = .ok w0) (hr : run cmp ops w0 = .ok (os, w)) {m : List (K × V)} (hm : entries w = .ok m) (p : K → V → Bool) :
    ∃ w', ReTraversal cmp (removing p) (m.length + 1) w () = .ok (m, (), w') ∧ entries w' = .ok (m.filter fun x => !p x.1 x.2) := by
  have h := C97_skiplist_partial hc n h1 h2 ops hn hr hm (removing p) (fun m s k v _ _ => removing_safe p m s k v) (m.length + 1) ()
  have hs : Strict cmp m := by
    obtain ⟨w0', e0, a0⟩ := agree_new (K := K) (V := V) (cmp := cmp) h1 h2
    rw [e0] at hn; cases hn
    obtain ⟨w', e, G, hi, -⟩ := run_agree hc ops a0
    rw [e] at hr; cases hr
    rw [hi.entries] at hm; cases hm
    exact hi.strict
  have hspec : specLoop cmp (specSl cmp) (removing p) (m.length + 1) m.head? m () = .ok (m, (), m.filter fun x => !p x.1 x.2) := by
    cases m with
    | nil => rfl
    | cons e m => exact specLoop_removing hc p m [] e _ hs (by simp)
  rw [hspec] at h
  revert h
  cases ReTraversal cmp (removing p) (m.length + 1) w () with
  | ok r =>
    obtain ⟨vs, s, w'⟩ := r
    rintro ⟨rfl, -, h, -⟩
    exact ⟨w', rfl, h⟩
  | panic => intro h; exact h.elim
  | outOfFuel => intro h; exact h.elim

/-- A visitor that makes the given calls at 3. -/
def exAt3 (cs : List (SlCall Int Int)) : Visitor Int Int Unit (SlCall Int Int) := fun _ _ k _ => ⟨(), if k = 3 then cs else [], true⟩

/-- What a traversal visited, and what the list holds afterwards. -/
def outcomeSl {τ : Type} (r : Res (List (Int × Int) × τ × SL Int Int)) : Res (List (Int × Int) × τ × List (Int × Int)) := do
  let (vs, s, w) ← r
  let m ← entries w
  .ok (vs, s, m)

/-- A list with the keys 1, 3 and 5, of levels 1, 2 and 3. -/
def ops3 : List (Op Int Int) := [.insert 5 50 0, .insert 1 10 6, .insert 3 30 2]

/-- A walk with safe calls: at 3, the key 5 is removed, 2 and 4 are added, and 3 itself is removed: 1, 3 and 4 are visited. -/
theorem C97_demo : ∃ w0 w, New 3 = .ok w0 ∧ (∃ os, run (fun a b : Int => a - b) ops3 w0 = .ok (os, w)) ∧ entries w = .ok [(1, 10), (3, 30), (5, 50)] ∧
    outcomeSl (ReTraversal (fun a b : Int => a - b) (exAt3 [.remove 5, .insert 4 40 0, .insert 2 20 0, .remove 3]) 9 w ()) =
      .ok ([(1, 10), (3, 30), (4, 40)], (), [(1, 10), (2, 20), (4, 40)]) ∧
    outcomeSl (ReTraversal (fun a b : Int => a - b) (removing fun k _ => decide (k ≠ 3)) 4 w ()) = .ok ([(1, 10), (3, 30), (5, 50)], (), [(3, 30)]) :=
  ⟨_, _, rfl, ⟨_, rfl⟩, rfl, rfl, rfl⟩

/-- **C97 (violation)** If the visitor removes the visited key and goes on changing the list, the walk may visit an entry that is no longer there, and may miss an
entry that is. -/
theorem C97_skiplist_violated : ∃ w0 w, New 3 = .ok w0 ∧ (∃ os, run (fun a b : Int => a - b) ops3 w0 = .ok (os, w)) ∧ entries w = .ok [(1, 10), (3, 30), (5, 50)] ∧
    outcomeSl (ReTraversal (fun a b : Int => a - b) (exAt3 [.remove 3, .remove 5]) 9 w ()) = .ok ([(1, 10), (3, 30), (5, 50)], (), [(1, 10)]) ∧
    outcomeSl (ReTraversal (fun a b : Int => a - b) (exAt3 [.remove 3, .insert 4 40 0]) 9 w ()) =
      .ok ([(1, 10), (3, 30), (5, 50)], (), [(1, 10), (4, 40), (5, 50)]) :=
  ⟨_, _, rfl, ⟨_, rfl⟩, rfl, rfl, rfl⟩

end GoSTL.Skiplist
