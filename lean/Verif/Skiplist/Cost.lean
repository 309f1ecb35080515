import Verif.Skiplist.Props
/-!
# Comparator calls of the skip list

`Insert`, `Get` and `Remove` once more, returning also how often they called the comparator, and a bound of that number by the heights of the
elements with a smaller key.
-/
namespace GoSTL.Skiplist
variable {K V : Type} {cmp : K → K → Int}

/-! ## The operations with a counter -/

/-- skiplist.go:183-188, counting the calls of the comparator in line 184. -/
def walkC (cmp : K → K → Int) (w : SL K V) (key : K) (i : Nat) : Nat → Ref → Option Nat → Res (Ref × Nat)
  | 0, _, _ => .outOfFuel
  | _ + 1, prev, none => .ok (prev, 0)
  | f + 1, prev, some a => do
    let e ← Res.ofOption w.elems[a]?
    if cmp e.key key ≥ 0 then .ok (prev, 1)
    else do
      let n ← nextAt w (.elem a) i
      let r ← walkC cmp w key i f (.elem a) n
      .ok (r.1, r.2 + 1)

/-- skiplist.go:182-190, counting. -/
def prevLevelC (cmp : K → K → Int) (w : SL K V) (key : K) (i : Nat) (prev : Ref) : Res (Ref × Nat) := do
  let h ← nextAt w .head i
  match h with
  | none => .ok (prev, 0)
  | some _ => do
    let n ← nextAt w prev i
    walkC cmp w key i (budget w) prev n

/-- skiplist.go:178-193 `findPrevNodes`, counting. -/
def findPrevsC (cmp : K → K → Int) (w : SL K V) (key : K) : Nat → Ref → List Ref → Nat → Res (List Ref × Nat)
  | 0, _, acc, c => .ok (acc, c)
  | i + 1, prev, acc, c => do
    let p ← prevLevelC cmp w key i prev
    findPrevsC cmp w key i p.1 (p.1 :: acc) (c + p.2)

/-- skiplist.go:86-113 `Insert`, counting the calls in `findPrevNodes` and in line 91. -/
def InsertC (cmp : K → K → Int) (key : K) (value : V) (draw : BitVec 64) (w : SL K V) : Res (SL K V × Nat) := do
  let pc ← findPrevsC cmp w key w.maxLevel .head [] 0
  let p0 ← Res.ofOption pc.1[0]?
  let n0 ← nextAt w p0 0
  let same ← match n0 with
    | none => .ok none
    | some a => do
      let e ← Res.ofOption w.elems[a]?
      .ok (if cmp e.key key = 0 then some (a, e) else none)
  let c := pc.2 + (if n0.isSome then 1 else 0)
  match same with
  | some (a, e) => .ok ({ w with elems := w.elems.set a { e with value := value } }, c)
  | none => do
    let level ← randomLevel 65 w.maxLevel draw
    let e := w.elems.length
    let w1 := { w with elems := w.elems ++ [⟨key, value, List.replicate level none⟩] }
    let w2 ← link e pc.1 level 0 w1
    .ok ({ w2 with len := w2.len + 1 }, c)

/-- skiplist.go:123-132, counting the calls in line 124. -/
def getWalkC (cmp : K → K → Int) (w : SL K V) (key : K) (i : Nat) : Nat → Ref → Option Nat → Res (Sum V Ref × Nat)
  | 0, _, _ => .outOfFuel
  | _ + 1, pre, none => .ok (.inr pre, 0)
  | f + 1, pre, some a => do
    let e ← Res.ofOption w.elems[a]?
    if cmp e.key key = 0 then .ok (.inl e.value, 1)
    else if cmp e.key key > 0 then .ok (.inr pre, 1)
    else do
      let n ← nextAt w (.elem a) i
      let r ← getWalkC cmp w key i f (.elem a) n
      .ok (r.1, r.2 + 1)

/-- skiplist.go:121-133, counting. -/
def getLoopC (cmp : K → K → Int) (w : SL K V) (key : K) : Nat → Ref → Nat → Res (Option V × Nat)
  | 0, _, c => .ok (none, c)
  | i + 1, pre, c => do
    let n ← nextAt w pre i
    let r ← getWalkC cmp w key i (budget w) pre n
    match r.1 with
    | .inl v => .ok (some v, c + r.2)
    | .inr pre => getLoopC cmp w key i pre (c + r.2)

/-- skiplist.go:116-135 `Get`, counting. -/
def GetC (cmp : K → K → Int) (key : K) (w : SL K V) : Res (Option V × Nat) := getLoopC cmp w key w.maxLevel .head 0

/-- skiplist.go:138-156 `Remove`, counting the calls in `findPrevNodes` and in line 147. -/
def RemoveC (cmp : K → K → Int) (key : K) (w : SL K V) : Res ((Bool × SL K V) × Nat) := do
  let pc ← findPrevsC cmp w key w.maxLevel .head [] 0
  let p0 ← Res.ofOption pc.1[0]?
  let n0 ← nextAt w p0 0
  match n0 with
  | none => .ok ((false, w), pc.2)
  | some a => do
    let e ← Res.ofOption w.elems[a]?
    if cmp e.key key ≠ 0 then .ok ((false, w), pc.2 + 1)
    else do
      let w ← unlink a pc.1 e.next.length 0 w
      .ok ((true, { w with len := w.len - 1 }), pc.2 + 1)

/-- One call, counting. -/
def stepC (cmp : K → K → Int) (op : Op K V) (w : SL K V) : Res ((Out V × SL K V) × Nat) :=
  match op with
  | .insert k v draw => do let r ← InsertC cmp k v draw w; .ok ((.unit, r.1), r.2)
  | .get k => do let r ← GetC cmp k w; .ok ((.val r.1, w), r.2)
  | .remove k => do let r ← RemoveC cmp k w; .ok ((.bool r.1.1, r.1.2), r.2)
  | .len => .ok ((.int (Len w), w), 0)

/-! ## Counting changes nothing -/

theorem walkC_fst (w : SL K V) (key : K) (i : Nat) : ∀ (f : Nat) (r : Ref) (o : Option Nat),
    (walkC cmp w key i f r o >>= fun p => .ok p.1) = walk cmp w key i f r o := by
  intro f
  induction f with
  | zero => intro r o; rfl
  | succ f ih =>
    intro r o
    cases o with
    | none => rfl
    | some a =>
      simp only [walkC, walk, bind_assoc]
      congr 1; funext e
      split
      · rfl
      · simp only [bind_assoc, Res.ok_bind]
        congr 1; funext n
        exact ih _ _

theorem prevLevelC_fst (w : SL K V) (key : K) (i : Nat) (r : Ref) : (prevLevelC cmp w key i r >>= fun p => .ok p.1) = prevLevel cmp w key i r := by
  simp only [prevLevelC, prevLevel, bind_assoc]
  congr 1; funext h
  cases h with
  | none => rfl
  | some _ =>
    simp only [bind_assoc]
    congr 1; funext n
    exact walkC_fst _ _ _ _ _ _

theorem findPrevsC_fst (w : SL K V) (key : K) : ∀ (i : Nat) (r : Ref) (acc : List Ref) (c : Nat),
    (findPrevsC cmp w key i r acc c >>= fun p => .ok p.1) = findPrevs cmp w key i r acc := by
  intro i
  induction i with
  | zero => intro r acc c; rfl
  | succ i ih =>
    intro r acc c
    simp only [findPrevsC, findPrevs, bind_assoc, ← prevLevelC_fst, Res.ok_bind]
    congr 1; funext p
    exact ih _ _ _

theorem InsertC_fst (k : K) (v : V) (d : BitVec 64) (w : SL K V) : (InsertC cmp k v d w >>= fun p => .ok p.1) = Insert cmp k v d w := by
  simp only [InsertC, Insert, ← findPrevsC_fst (cmp := cmp) w k w.maxLevel .head [] 0, bind_assoc, Res.ok_bind]
  congr 1; funext pc
  congr 1; funext p0
  congr 1; funext n0
  cases n0 with
  | none => simp only [bind_assoc, Res.ok_bind]
  | some a =>
    simp only [bind_assoc]
    congr 1; funext e
    by_cases c : cmp e.key k = 0
    · simp only [if_pos c, Res.ok_bind]
    · simp only [if_neg c, bind_assoc, Res.ok_bind]

theorem getWalkC_fst (w : SL K V) (key : K) (i : Nat) : ∀ (f : Nat) (r : Ref) (o : Option Nat),
    (getWalkC cmp w key i f r o >>= fun p => .ok p.1) = getWalk cmp w key i f r o := by
  intro f
  induction f with
  | zero => intro r o; rfl
  | succ f ih =>
    intro r o
    cases o with
    | none => rfl
    | some a =>
      simp only [getWalkC, getWalk, bind_assoc]
      congr 1; funext e
      split
      · rfl
      · split
        · rfl
        · simp only [bind_assoc, Res.ok_bind]
          congr 1; funext n
          exact ih _ _

theorem getLoopC_fst (w : SL K V) (key : K) : ∀ (i : Nat) (r : Ref) (c : Nat),
    (getLoopC cmp w key i r c >>= fun p => .ok p.1) = getLoop cmp w key i r := by
  intro i
  induction i with
  | zero => intro r c; rfl
  | succ i ih =>
    intro r c
    simp only [getLoopC, getLoop, bind_assoc, ← getWalkC_fst, Res.ok_bind]
    congr 1; funext n
    congr 1; funext p
    cases p.1 with
    | inl v => rfl
    | inr r => exact ih _ _

theorem RemoveC_fst (k : K) (w : SL K V) : (RemoveC cmp k w >>= fun p => .ok p.1) = Remove cmp k w := by
  simp only [RemoveC, Remove, ← findPrevsC_fst (cmp := cmp) w k w.maxLevel .head [] 0, bind_assoc, Res.ok_bind]
  congr 1; funext pc
  congr 1; funext p0
  congr 1; funext n0
  cases n0 with
  | none => rfl
  | some a =>
    simp only [bind_assoc]
    congr 1; funext e
    split
    · rfl
    · simp only [bind_assoc, Res.ok_bind]

/-- The counting operations do what the operations do. -/
theorem stepC_fst (op : Op K V) (w : SL K V) : (stepC cmp op w >>= fun p => .ok p.1) = step cmp op w := by
  cases op with
  | insert k v d => simp only [stepC, step, ← InsertC_fst, bind_assoc, Res.ok_bind]
  | get k => simp only [stepC, step, Get, GetC, ← getLoopC_fst (cmp := cmp) w k w.maxLevel .head 0, bind_assoc, Res.ok_bind]
  | remove k => simp only [stepC, step, ← RemoveC_fst, bind_assoc, Res.ok_bind]
  | len => rfl

/-! ## Forward steps -/

/-- Of a list of heights, the number of those equal to `i + 1` after which nothing is higher. -/
def climbs (i : Nat) : List Nat → Nat
  | [] => 0
  | h :: t => (if h = i + 1 ∧ ∀ x ∈ t, x ≤ i + 1 then 1 else 0) + climbs i t

theorem climbs_last {i : Nat} {c : Nat} (hc : i + 1 < c) (B : List Nat) : ∀ A : List Nat, climbs i (A ++ c :: B) = climbs i B := by
  intro A
  induction A with
  | nil => simp only [List.nil_append, climbs]; rw [if_neg (by omega)]; omega
  | cons a A ih =>
    simp only [List.cons_append, climbs, ih]
    rw [if_neg (by rintro ⟨_, h⟩; have := h c (by simp); omega)]; omega

theorem climbs_low {i : Nat} : ∀ B : List Nat, (∀ x ∈ B, x ≤ i + 1) → climbs i B = (B.filter (fun x => decide (i < x))).length := by
  intro B
  induction B with
  | nil => intro _; rfl
  | cons b B ih =>
    intro h
    have hb := h b (by simp)
    have hB : ∀ x ∈ B, x ≤ i + 1 := fun x hx => h x (by simp [hx])
    simp only [climbs, ih hB, List.filter_cons]
    by_cases c : i < b
    · rw [if_pos ⟨by omega, hB⟩, if_pos (by simpa using c)]
      simp; omega
    · rw [if_neg (by omega), if_neg (by simpa using c)]; omega

theorem last_high (i : Nat) : ∀ A : List (Cell K V), ∃ A' A'', A = A' ++ A'' ∧ (∀ c ∈ A'', c.h ≤ i + 1) ∧ (A' = [] ∨ ∃ A0 c, A' = A0 ++ [c] ∧ i + 1 < c.h) := by
  intro A
  induction A with
  | nil => exact ⟨[], [], rfl, by simp, .inl rfl⟩
  | cons a A ih =>
    obtain ⟨A', A'', e, h1, h2⟩ := ih
    rcases h2 with rfl | ⟨A0, c, e', hc⟩
    · by_cases c : i + 1 < a.h
      · exact ⟨[a], A'', by simp [e], h1, .inr ⟨[], a, rfl, c⟩⟩
      · refine ⟨[], a :: A'', by simp [e], ?_, .inl rfl⟩
        intro x hx
        rcases List.mem_cons.1 hx with rfl | hx
        · omega
        · exact h1 x hx
    · exact ⟨a :: A', A'', by simp [e], h1, .inr ⟨a :: A0, c, by simp [e'], hc⟩⟩

/-- A level from where the level above was left. -/
theorem level_split (i : Nat) (A : List (Cell K V)) : ∃ X Y, lvl i A = X ++ Y ∧ lastRef .head (lvl (i + 1) A) = lastRef .head X ∧ Y.length = climbs i (A.map Cell.h) := by
  obtain ⟨A', A'', rfl, h1, h2⟩ := last_high i A
  have hlen : (lvl i A'').length = climbs i (A''.map Cell.h) := by
    rw [climbs_low _ (by
      intro x hx
      obtain ⟨c, hc, rfl⟩ := List.mem_map.1 hx
      exact h1 c hc), List.filter_map, List.length_map]
    rfl
  have hz : lvl (i + 1) A'' = [] := by
    apply List.filter_eq_nil_iff.2
    intro c hc
    have := h1 c hc
    simp; omega
  refine ⟨lvl i A', lvl i A'', lvl_app _ _ _, ?_, ?_⟩
  · rw [lvl_app, hz, List.append_nil]
    rcases h2 with rfl | ⟨A0, c, rfl, hc⟩
    · rfl
    · rw [lvl_app, lvl_app, lvl_cons_pos hc, lvl_cons_pos (by omega), lastRef_append, lastRef_append]
      rfl
  · rw [hlen]
    rcases h2 with rfl | ⟨A0, c, rfl, hc⟩
    · rfl
    · rw [List.append_assoc, List.map_append]
      exact (climbs_last hc _ _).symm

/-- Steps forward on the levels below `n`, plus one look ahead per level. -/
def climbSum (n : Nat) (H : List Nat) : Nat := ((List.range n).map (fun i => climbs i H + 1)).sum

theorem climbSum_succ (n : Nat) (H : List Nat) : climbSum (n + 1) H = climbSum n H + (climbs n H + 1) := by
  simp [climbSum, List.range_succ]

theorem walkC_spec {w : SL K V} {k : K} {i : Nat} {B : List (Cell K V)} (hB : ∀ c ∈ B, Stored w c) (hge : ∀ c ∈ B, 0 ≤ cmp c.key k) :
    ∀ (A : List (Cell K V)) (f : Nat) (r : Ref), A.length < f → (∀ c ∈ A, Stored w c) → (∀ c ∈ A, cmp c.key k < 0) → Sg w i r (A ++ B) none →
      ∃ n, walkC cmp w k i f r (firstOr none (A ++ B)) = .ok (lastRef r A, n) ∧ A.length ≤ n ∧ n ≤ A.length + 1 := by
  intro A
  induction A with
  | nil =>
    intro f r hf _ _ hs
    obtain ⟨f, rfl⟩ : ∃ f', f = f' + 1 := ⟨f - 1, by simp at hf; omega⟩
    cases B with
    | nil => exact ⟨0, rfl, by simp, by simp⟩
    | cons b B =>
      obtain ⟨e, h1, h2, _⟩ := (hB b (by simp)).elem
      refine ⟨1, ?_, by simp, by simp⟩
      simp only [List.nil_append, firstOr, walkC, h1, Res.ofOption_some, Res.ok_bind, lastRef]
      rw [if_pos (by rw [h2]; exact hge b (by simp))]
  | cons a A ih =>
    intro f r hf hA hlt hs
    obtain ⟨f, rfl⟩ : ∃ f', f = f' + 1 := ⟨f - 1, by simp at hf; omega⟩
    obtain ⟨e, h1, h2, _⟩ := (hA a (by simp)).elem
    have hl := hlt a (by simp)
    have hs2 : Sg w i (.elem a.id) (A ++ B) none := hs.2
    obtain ⟨n, e1, l1, l2⟩ := ih f (.elem a.id) (by simp at hf; omega) (fun c hc => hA c (by simp [hc])) (fun c hc => hlt c (by simp [hc])) hs2
    refine ⟨n + 1, ?_, by simpa using l1, by simpa using l2⟩
    simp only [List.cons_append, firstOr, walkC, h1, Res.ofOption_some, Res.ok_bind, lastRef]
    rw [if_neg (by rw [h2]; omega), hs2.first]
    simp only [Res.ok_bind, e1]

section
variable {w : SL K V} {G : List (Cell K V)}

theorem prevLevelC_spec (hi : Inv cmp w G) {k : K} {A B : List (Cell K V)} (hG : G = A ++ B) (hA : ∀ c ∈ A, cmp c.key k < 0) (hB : ∀ c ∈ B, 0 ≤ cmp c.key k)
    {i : Nat} (hl : i < w.maxLevel) :
    ∃ n, prevLevelC cmp w k i (lastRef .head (lvl (i + 1) A)) = .ok (lastRef .head (lvl i A), n) ∧ climbs i (A.map Cell.h) ≤ n ∧ n ≤ climbs i (A.map Cell.h) + 1 := by
  obtain ⟨X, Y, hX, hr, hY⟩ := level_split i A
  rw [hr, ← hY]
  have hs := hi.seg i hl
  have hsp : lvl i G = lvl i A ++ lvl i B := by rw [hG]; simp [lvl]
  rw [hsp] at hs
  simp only [prevLevelC, hs.first, Res.ok_bind]
  have hmemA : ∀ c ∈ lvl i A, c ∈ A := fun c hc => (List.mem_filter.1 hc).1
  have hmemB : ∀ c ∈ lvl i B, c ∈ B := fun c hc => (List.mem_filter.1 hc).1
  rw [hX, List.append_assoc] at hs
  have hs2 := (Sg.append.1 hs).2
  have hfu : Y.length < budget w := by
    apply hi.fuel
    have h1 : Y.Sublist (lvl i A) := by rw [hX]; exact List.sublist_append_right _ _
    exact h1.trans (List.filter_sublist.trans (by rw [hG]; exact List.sublist_append_left _ _))
  obtain ⟨n, e1, l1, l2⟩ := walkC_spec (A := Y) (B := lvl i B) (k := k) (cmp := cmp) (fun c hc => hi.stored c (by rw [hG]; simp [hmemB c hc])) (fun c hc => hB c (hmemB c hc)) _ _ hfu
    (fun c hc => hi.stored c (by rw [hG]; simp [hmemA c (by rw [hX]; simp [hc])])) (fun c hc => hA c (hmemA c (by rw [hX]; simp [hc]))) hs2
  cases hf : firstOr none (lvl i A ++ lvl i B) with
  | none =>
    have h0 : lvl i A ++ lvl i B = [] := by
      cases h : lvl i A ++ lvl i B with
      | nil => rfl
      | cons a L => rw [h] at hf; cases hf
    have h0 := (List.append_eq_nil_iff.1 h0).1
    rw [hX] at h0
    obtain ⟨rfl, rfl⟩ := List.append_eq_nil_iff.1 h0
    rw [hX]
    exact ⟨0, rfl, by simp, by simp⟩
  | some a =>
    refine ⟨n, ?_, l1, l2⟩
    simp only [hs2.first, Res.ok_bind, e1]
    rw [hX, lastRef_append]

theorem findPrevsC_spec (hi : Inv cmp w G) {k : K} {A B : List (Cell K V)} (hG : G = A ++ B) (hA : ∀ c ∈ A, cmp c.key k < 0) (hB : ∀ c ∈ B, 0 ≤ cmp c.key k) :
    ∀ (n : Nat) (acc : List Ref) (c : Nat), n ≤ w.maxLevel →
      ∃ m, findPrevsC cmp w k n (lastRef .head (lvl n A)) acc c = .ok ((List.range n).map (fun i => lastRef .head (lvl i A)) ++ acc, m) ∧
        c + climbSum n (A.map Cell.h) ≤ m + n ∧ m ≤ c + climbSum n (A.map Cell.h) := by
  intro n
  induction n with
  | zero => intro acc c _; exact ⟨c, rfl, by simp [climbSum], by simp [climbSum]⟩
  | succ n ih =>
    intro acc c hn
    obtain ⟨m1, e1, l1, l2⟩ := prevLevelC_spec hi hG hA hB (i := n) (by omega)
    obtain ⟨m2, e2, l3, l4⟩ := ih (lastRef .head (lvl n A) :: acc) (c + m1) (by omega)
    refine ⟨m2, ?_, ?_, ?_⟩
    · simp only [findPrevsC, e1, Res.ok_bind, e2]
      rw [List.range_succ]; simp
    · rw [climbSum_succ]; omega
    · rw [climbSum_succ]; omega

theorem lvl_top (hi : Inv cmp w G) {A B : List (Cell K V)} (hG : G = A ++ B) : lvl w.maxLevel A = [] := by
  apply List.filter_eq_nil_iff.2
  intro c hc
  have := (hi.height c (by rw [hG]; simp [hc])).2
  simp; omega

theorem getWalkC_spec {w : SL K V} {k : K} {i : Nat} {B : List (Cell K V)} (hB : ∀ c ∈ B, Stored w c) (hge : ∀ c ∈ B, 0 ≤ cmp c.key k) :
    ∀ (A : List (Cell K V)) (f : Nat) (r : Ref), A.length < f → (∀ c ∈ A, Stored w c) → (∀ c ∈ A, cmp c.key k < 0) → Sg w i r (A ++ B) none →
      ∃ n, getWalkC cmp w k i f r (firstOr none (A ++ B)) = .ok (found cmp k (lastRef r A) B, n) ∧ A.length ≤ n ∧ n ≤ A.length + 1 := by
  intro A
  induction A with
  | nil =>
    intro f r hf _ _ hs
    obtain ⟨f, rfl⟩ : ∃ f', f = f' + 1 := ⟨f - 1, by simp at hf; omega⟩
    cases B with
    | nil => exact ⟨0, rfl, by simp, by simp⟩
    | cons b B =>
      obtain ⟨e, h1, h2, h3, _⟩ := (hB b (by simp)).elem
      have := hge b (by simp)
      refine ⟨1, ?_, by simp, by simp⟩
      simp only [List.nil_append, firstOr, getWalkC, h1, Res.ofOption_some, Res.ok_bind, lastRef, h2, h3, found]
      split
      · rfl
      · rw [if_pos (by omega)]
  | cons a A ih =>
    intro f r hf hA hlt hs
    obtain ⟨f, rfl⟩ : ∃ f', f = f' + 1 := ⟨f - 1, by simp at hf; omega⟩
    obtain ⟨e, h1, h2, _⟩ := (hA a (by simp)).elem
    have hl := hlt a (by simp)
    have hs2 : Sg w i (.elem a.id) (A ++ B) none := hs.2
    obtain ⟨n, e1, l1, l2⟩ := ih f (.elem a.id) (by simp at hf; omega) (fun c hc => hA c (by simp [hc])) (fun c hc => hlt c (by simp [hc])) hs2
    refine ⟨n + 1, ?_, by simpa using l1, by simpa using l2⟩
    simp only [List.cons_append, firstOr, getWalkC, h1, Res.ofOption_some, Res.ok_bind, lastRef, h2]
    rw [if_neg (by omega), if_neg (by omega), hs2.first]
    simp only [Res.ok_bind, e1]

/-- `Get` makes no more calls than the forward steps and one per level; and at least the steps of the levels it visits, which is all of them if the key is absent. -/
theorem getLoopC_spec (hi : Inv cmp w G) {k : K} {A B : List (Cell K V)} (hG : G = A ++ B) (hA : ∀ c ∈ A, cmp c.key k < 0) (hB : ∀ c ∈ B, 0 ≤ cmp c.key k) :
    ∀ (n c : Nat), n ≤ w.maxLevel →
      ∃ v m, getLoopC cmp w k n (lastRef .head (lvl n A)) c = .ok (v, m) ∧ m ≤ c + climbSum n (A.map Cell.h) ∧ (0 < n → c + climbs (n - 1) (A.map Cell.h) ≤ m) := by
  intro n
  induction n with
  | zero => intro c _; exact ⟨none, c, rfl, by simp [climbSum], by simp⟩
  | succ n ih =>
    intro c hn
    obtain ⟨X, Y, hX, hr, hY⟩ := level_split n A
    have hs := hi.seg n (by omega)
    rw [hG, lvl_app, hX, List.append_assoc] at hs
    have hs2 := (Sg.append.1 hs).2
    have hYA : ∀ c ∈ Y, c ∈ A := fun c hc => (mem_lvl (i := n) (A := A) (c := c) (by rw [hX]; simp [hc])).1
    have hfu : Y.length < budget w := by
      apply hi.fuel
      have h1 : Y.Sublist (lvl n A) := by rw [hX]; exact List.sublist_append_right _ _
      exact h1.trans (List.filter_sublist.trans (by rw [hG]; exact List.sublist_append_left _ _))
    obtain ⟨m1, e1, l1, l2⟩ := getWalkC_spec (A := Y) (B := lvl n B) (cmp := cmp) (k := k) (fun c hc => hi.stored c (by rw [hG]; simp [(mem_lvl hc).1])) (fun c hc => hB c (mem_lvl hc).1) _ _ hfu
      (fun c hc => hi.stored c (by rw [hG]; exact List.mem_append_left _ (hYA c hc)))
      (fun c hc => hA c (hYA c hc)) hs2
    rw [hr]
    simp only [getLoopC, hs2.first, Res.ok_bind, e1]
    have hmono : m1 ≤ climbs n (A.map Cell.h) + 1 := by omega
    have key : ∀ F, F = found cmp k (lastRef (lastRef .head X) Y) (lvl n B) → (∃ v, F = .inl v) ∨ F = .inr (lastRef .head (lvl n A)) := by
      rintro F rfl
      have hXY : lastRef (lastRef .head X) Y = lastRef .head (lvl n A) := by rw [hX, lastRef_append]
      rw [hXY]
      cases lvl n B with
      | nil => exact .inr rfl
      | cons b B' =>
        simp only [found]
        split
        · exact .inl ⟨_, rfl⟩
        · exact .inr rfl
    rcases key _ rfl with ⟨v, ev⟩ | ev
    · rw [ev]
      refine ⟨some v, c + m1, rfl, ?_, ?_⟩
      · rw [climbSum_succ]; omega
      · intro _; simp only [Nat.add_sub_cancel]; omega
    · rw [ev]
      obtain ⟨v, m, e2, l3, l4⟩ := ih (c + m1) (by omega)
      refine ⟨v, m, e2, ?_, ?_⟩
      · rw [climbSum_succ]; omega
      · intro _; simp only [Nat.add_sub_cancel]
        have : c + m1 ≤ m := by
          rcases Nat.eq_zero_or_pos n with rfl | hp
          · simp only [getLoopC] at e2; cases e2; omega
          · have := l4 hp; omega
        omega

end

end GoSTL.Skiplist
