import Verif.Skiplist.Average
/-!
# C80, C81: the levels of a skip list, and how often a call uses the comparator on average
-/
namespace GoSTL.Skiplist
open Finset
variable {K V : Type} {cmp : K → K → Int}

/-! ## Specification -/

/-- The call with its random number replaced. -/
def setDraw (op : Op K V) (d : BitVec 64) : Op K V :=
  match op with
  | .insert k v _ => .insert k v d
  | op => op

/-- A history with its random numbers replaced: the calls take `D t`, `D (t + 1)`, ... -/
def withDraws (D : Nat → BitVec 64) : Nat → List (Op K V) → List (Op K V)
  | _, [] => []
  | t, op :: ops => setDraw op (D t) :: withDraws D (t + 1) ops

/-- The first `N` random numbers, one for each call. -/
def draws {N : Nat} (d : Fin N → BitVec 64) (t : Nat) : BitVec 64 := if h : t < N then d ⟨t, h⟩ else 0

/-! ## Nothing changes the maximum level -/

theorem setNext_max {w w' : SL K V} {r : Ref} {i : Nat} {v : Option Nat} (h : setNext w r i v = .ok w') : w'.maxLevel = w.maxLevel := by
  cases r with
  | head =>
    simp only [setNext] at h
    split at h
    · cases h; rfl
    · cases h
  | elem a =>
    simp only [setNext] at h
    rw [Res.bind_eq_ok] at h
    obtain ⟨e, _, h⟩ := h
    split at h
    · cases h; rfl
    · cases h

theorem link_max {e : Nat} {prevs : List Ref} : ∀ (n i : Nat) (w w' : SL K V), link e prevs n i w = .ok w' → w'.maxLevel = w.maxLevel := by
  intro n
  induction n with
  | zero => intro i w w' h; cases h; rfl
  | succ n ih =>
    intro i w w' h
    simp only [link] at h
    rw [Res.bind_eq_ok] at h; obtain ⟨p, _, h⟩ := h
    rw [Res.bind_eq_ok] at h; obtain ⟨v, _, h⟩ := h
    rw [Res.bind_eq_ok] at h; obtain ⟨w1, h1, h⟩ := h
    rw [Res.bind_eq_ok] at h; obtain ⟨w2, h2, h⟩ := h
    rw [ih _ _ _ h, setNext_max h2, setNext_max h1]

theorem unlink_max {e : Nat} {prevs : List Ref} : ∀ (n i : Nat) (w w' : SL K V), unlink e prevs n i w = .ok w' → w'.maxLevel = w.maxLevel := by
  intro n
  induction n with
  | zero => intro i w w' h; cases h; rfl
  | succ n ih =>
    intro i w w' h
    simp only [unlink] at h
    rw [Res.bind_eq_ok] at h; obtain ⟨p, _, h⟩ := h
    rw [Res.bind_eq_ok] at h; obtain ⟨v, _, h⟩ := h
    rw [Res.bind_eq_ok] at h; obtain ⟨w1, h1, h⟩ := h
    rw [ih _ _ _ h, setNext_max h1]

theorem Insert_max {k : K} {v : V} {d : BitVec 64} {w w' : SL K V} (h : Insert cmp k v d w = .ok w') : w'.maxLevel = w.maxLevel := by
  simp only [Insert] at h
  rw [Res.bind_eq_ok] at h; obtain ⟨p, _, h⟩ := h
  rw [Res.bind_eq_ok] at h; obtain ⟨p0, _, h⟩ := h
  rw [Res.bind_eq_ok] at h; obtain ⟨n0, _, h⟩ := h
  have tail : ∀ w', ((do
      let level ← randomLevel 65 w.maxLevel d
      let w2 ← link w.elems.length p level 0 { w with elems := w.elems ++ [⟨k, v, List.replicate level none⟩] }
      .ok { w2 with len := w2.len + 1 }) : Res (SL K V)) = .ok w' → w'.maxLevel = w.maxLevel := by
    intro w' h
    rw [Res.bind_eq_ok] at h; obtain ⟨l, _, h⟩ := h
    rw [Res.bind_eq_ok] at h; obtain ⟨w2, h2, h⟩ := h
    cases h
    have := link_max _ _ _ _ h2
    exact this
  cases n0 with
  | none => exact tail _ h
  | some a =>
    simp only at h
    rw [Res.bind_eq_ok] at h; obtain ⟨e, _, h⟩ := h
    by_cases c : cmp e.key k = 0
    · simp only [if_pos c, Res.ok_bind] at h
      cases h; rfl
    · simp only [if_neg c, Res.ok_bind] at h
      exact tail _ h

theorem Remove_max {k : K} {b : Bool} {w w' : SL K V} (h : Remove cmp k w = .ok (b, w')) : w'.maxLevel = w.maxLevel := by
  simp only [Remove] at h
  rw [Res.bind_eq_ok] at h; obtain ⟨p, _, h⟩ := h
  rw [Res.bind_eq_ok] at h; obtain ⟨p0, _, h⟩ := h
  rw [Res.bind_eq_ok] at h; obtain ⟨n0, _, h⟩ := h
  cases n0 with
  | none => cases h; rfl
  | some a =>
    simp only at h
    rw [Res.bind_eq_ok] at h; obtain ⟨e, _, h⟩ := h
    split at h
    · cases h; rfl
    · rw [Res.bind_eq_ok] at h; obtain ⟨w2, h2, h⟩ := h
      cases h
      have := unlink_max _ _ _ _ h2
      exact this

/-! ## Which call put which key there -/

/-- The sorted keys, each with the number of the call that inserted it: this does not depend on the random numbers. -/
def symStep (cmp : K → K → Int) (op : Op K V) (t : Nat) (S : List (K × Nat)) : List (K × Nat) :=
  match op with
  | .insert k _ _ =>
    if S.any (fun x => cmp x.1 k = 0) then S else S.filter (fun x => cmp x.1 k < 0) ++ (k, t) :: S.filter (fun x => 0 < cmp x.1 k)
  | .remove k => S.filter (fun x => ¬ cmp x.1 k = 0)
  | _ => S

/-- A program, on the keys and their draws. -/
def symRun (cmp : K → K → Int) : Nat → List (Op K V) → List (K × Nat) → List (K × Nat)
  | _, [], S => S
  | t, op :: ops, S => symRun cmp (t + 1) ops (symStep cmp op t S)

/-- The cells are the keys with the levels drawn for them. -/
def Tracks (n : Nat) (D : Nat → BitVec 64) (G : List (Cell K V)) (S : List (K × Nat)) : Prop :=
  G.map (fun c => (c.key, c.h)) = S.map (fun x => (x.1, levelOf n (D x.2)))

theorem Tracks.filter {n : Nat} {D : Nat → BitVec 64} (p : K → Bool) : ∀ {G : List (Cell K V)} {S : List (K × Nat)}, Tracks n D G S →
    Tracks n D (G.filter (fun c => p c.key)) (S.filter (fun x => p x.1)) := by
  intro G
  induction G with
  | nil =>
    intro S h
    cases S with
    | nil => exact rfl
    | cons x S => cases h
  | cons c G ih =>
    intro S h
    cases S with
    | nil => cases h
    | cons x S =>
      simp only [Tracks, List.map_cons, List.cons.injEq] at h
      have hk : c.key = x.1 := congrArg Prod.fst h.1
      have := ih (S := S) h.2
      simp only [List.filter_cons, hk]
      split
      · simp only [Tracks, List.map_cons, h.1]
        exact congrArg _ this
      · exact this

theorem Tracks.any {n : Nat} {D : Nat → BitVec 64} (p : K → Bool) {G : List (Cell K V)} {S : List (K × Nat)} (h : Tracks n D G S) :
    S.any (fun x => p x.1) = G.any (fun c => p c.key) := by
  have e : G.map Cell.key = S.map Prod.fst := by
    have := congrArg (List.map Prod.fst) h
    simpa [Function.comp_def] using this
  have e1 : S.any (fun x => p x.1) = (S.map Prod.fst).any p := by simp [Function.comp_def]
  have e2 : G.any (fun c => p c.key) = (G.map Cell.key).any p := by simp [Function.comp_def]
  rw [e1, e2, e]

theorem Tracks.append {n : Nat} {D : Nat → BitVec 64} {G G' : List (Cell K V)} {S S' : List (K × Nat)} (h : Tracks n D G S) (h' : Tracks n D G' S') :
    Tracks n D (G ++ G') (S ++ S') := by
  simp only [Tracks, List.map_append] at *
  rw [h, h']

/-- Filtering the cells below, at and above a key. -/
theorem split_below {A B : List (Cell K V)} {k : K} (hA : ∀ c ∈ A, cmp c.key k < 0) (hB : ∀ c ∈ B, 0 ≤ cmp c.key k) : (A ++ B).filter (fun c => cmp c.key k < 0) = A := by
  rw [List.filter_append, List.filter_eq_self.2 (by simpa using hA), List.filter_eq_nil_iff.2 (by simpa using hB), List.append_nil]

theorem split_above {A B : List (Cell K V)} {k : K} (hA : ∀ c ∈ A, cmp c.key k ≤ 0) (hB : ∀ c ∈ B, 0 < cmp c.key k) : (A ++ B).filter (fun c => 0 < cmp c.key k) = B := by
  rw [List.filter_append, List.filter_eq_nil_iff.2 (by simpa using hA), List.filter_eq_self.2 (by simpa using hB), List.nil_append]

theorem step_tracks (hc : LawfulCmp cmp) {w : SL K V} {G : List (Cell K V)} (hi : Inv cmp w G) {D : Nat → BitVec 64} {S : List (K × Nat)}
    (hT : Tracks w.maxLevel D G S) (op : Op K V) (t : Nat) :
    ∃ o w' G', step cmp (setDraw op (D t)) w = .ok (o, w') ∧ w'.maxLevel = w.maxLevel ∧ Inv cmp w' G' ∧ Tracks w.maxLevel D G' (symStep cmp op t S) := by
  cases op with
  | insert k v d =>
    simp only [setDraw, symStep]
    rw [hT.any (fun x => decide (cmp x k = 0))]
    rcases hi.cases hc k with ⟨A, b, B, hG, hA, hb, hB⟩ | ⟨A, B, hG, hA, hB⟩
    · rw [if_pos (by rw [hG]; simp [hb])]
      rw [hG] at hi hT
      obtain ⟨w', e, i⟩ := insert_present hi v (D t) hA hb hB
      refine ⟨.unit, w', _, by simp only [step, e, Res.ok_bind], Insert_max e, i, ?_⟩
      simpa [Tracks] using hT
    · have hn : ¬ G.any (fun c => decide (cmp c.key k = 0)) = true := by
        rw [List.any_eq_true]
        rintro ⟨c, hc', h⟩
        have h : cmp c.key k = 0 := by simpa using h
        rw [hG] at hc'
        rcases List.mem_append.1 hc' with hc' | hc'
        · have := hA c hc'; omega
        · have := hB c hc'; omega
      rw [if_neg hn]
      have t1 := hT.filter (fun x => decide (cmp x k < 0))
      have t2 := hT.filter (fun x => decide (0 < cmp x k))
      rw [hG] at hi t1 t2
      rw [split_below hA (fun c hc => by have := hB c hc; omega)] at t1
      rw [split_above (fun c hc => by have := hA c hc; omega) hB] at t2
      obtain ⟨w', ce, e, ek, ev, el, i⟩ := insert_absent hc hi v (D t) hA hB
      refine ⟨.unit, w', _, by simp only [step, e, Res.ok_bind], Insert_max e, i, ?_⟩
      refine t1.append ?_
      have hl : levelOf w.maxLevel (D t) = ce.h := by simp only [levelOf, el]
      simp only [Tracks, List.map_cons, ek, hl]
      exact congrArg _ t2
  | get k =>
    obtain ⟨A, B, hG, hA, hB2, hB, e⟩ := get_spec hc hi k
    exact ⟨.val (hit cmp k B), w, G, by simp only [setDraw, step, e, Res.ok_bind], rfl, hi, hT⟩
  | remove k =>
    simp only [setDraw, symStep]
    have t1 := hT.filter (fun x => decide (¬ cmp x k = 0))
    rcases hi.cases hc k with ⟨A, b, B, hG, hA, hb, hB⟩ | ⟨A, B, hG, hA, hB⟩
    · rw [hG] at hi t1
      obtain ⟨w', e, i⟩ := remove_present hi hA hb hB
      refine ⟨.bool true, w', _, by simp only [step, e, Res.ok_bind], Remove_max e, i, ?_⟩
      have : (A ++ b :: B).filter (fun c => decide (¬ cmp c.key k = 0)) = A ++ B := by
        rw [List.filter_append, List.filter_cons_of_neg (by simp [hb])]
        rw [List.filter_eq_self.2 (by intro c hc; have := hA c hc; simp; omega), List.filter_eq_self.2 (by intro c hc; have := hB c hc; simp; omega)]
      rw [this] at t1
      exact t1
    · rw [hG] at hi
      have e := remove_absent hi hA hB
      refine ⟨.bool false, w, _, by simp only [step, e, Res.ok_bind], rfl, hi, ?_⟩
      have : G.filter (fun c => decide (¬ cmp c.key k = 0)) = A ++ B := by
        rw [List.filter_eq_self.2, hG]
        intro c hc
        rw [hG] at hc
        rcases List.mem_append.1 hc with hc | hc
        · have := hA c hc; simp; omega
        · have := hB c hc; simp; omega
      rw [this] at t1
      exact t1
  | len => exact ⟨_, w, G, rfl, rfl, hi, hT⟩

theorem run_tracks (hc : LawfulCmp cmp) (D : Nat → BitVec 64) : ∀ (ops : List (Op K V)) (t : Nat) {w : SL K V} {G : List (Cell K V)} (_ : Inv cmp w G) {S : List (K × Nat)}
    (_ : Tracks w.maxLevel D G S),
    ∃ os w' G', run cmp (withDraws D t ops) w = .ok (os, w') ∧ w'.maxLevel = w.maxLevel ∧ Inv cmp w' G' ∧ Tracks w.maxLevel D G' (symRun cmp t ops S) := by
  intro ops
  induction ops with
  | nil => intro t w G hi S hT; exact ⟨[], w, G, rfl, rfl, hi, hT⟩
  | cons op ops ih =>
    intro t w G hi S hT
    obtain ⟨o, w1, G1, e1, m1, i1, t1⟩ := step_tracks hc hi hT op t
    rw [← m1] at t1
    obtain ⟨os, w2, G2, e2, m2, i2, t2⟩ := ih (t + 1) i1 t1
    refine ⟨o :: os, w2, G2, ?_, m2.trans m1, i2, ?_⟩
    · simp only [withDraws, run, e1, e2, Res.ok_bind]
    · rw [m1] at t2; exact t2

/-- Distinct calls inserted distinct keys. -/
theorem symRun_nodup (cmp : K → K → Int) : ∀ (ops : List (Op K V)) (t : Nat) (S : List (K × Nat)), (S.map Prod.snd).Nodup → (∀ x ∈ S, x.2 < t) →
    ((symRun cmp t ops S).map Prod.snd).Nodup ∧ ∀ x ∈ symRun cmp t ops S, x.2 < t + ops.length := by
  intro ops
  induction ops with
  | nil => intro t S h1 h2; exact ⟨h1, h2⟩
  | cons op ops ih =>
    intro t S h1 h2
    have keep : ((S.map Prod.snd).Nodup) ∧ ∀ x ∈ S, x.2 < t + 1 := ⟨h1, fun x hx => by have := h2 x hx; omega⟩
    have filt : ∀ p, ((S.filter p).map Prod.snd).Nodup ∧ ∀ x ∈ S.filter p, x.2 < t + 1 := fun p =>
      ⟨h1.sublist (List.filter_sublist.map _), fun x hx => keep.2 x (List.mem_filter.1 hx).1⟩
    have hs : ((symStep cmp op t S).map Prod.snd).Nodup ∧ ∀ x ∈ symStep cmp op t S, x.2 < t + 1 := by
      cases op with
      | insert k v d =>
        simp only [symStep]
        split
        · exact keep
        · constructor
          · rw [List.map_append, List.map_cons, List.nodup_append]
            refine ⟨(filt _).1, ?_, ?_⟩
            · rw [List.nodup_cons]
              refine ⟨?_, (filt _).1⟩
              intro hm
              obtain ⟨x, hx, e⟩ := List.mem_map.1 hm
              have := h2 x (List.mem_filter.1 hx).1
              omega
            · intro a ha b hb e
              subst e
              obtain ⟨x, hx, e⟩ := List.mem_map.1 ha
              rcases List.mem_cons.1 hb with hb | hb
              · have := h2 x (List.mem_filter.1 hx).1
                omega
              · obtain ⟨y, hy, e'⟩ := List.mem_map.1 hb
                have hxy : x = y := List.inj_on_of_nodup_map h1 (List.mem_filter.1 hx).1 (List.mem_filter.1 hy).1 (e.trans e'.symm)
                subst hxy
                have a1 := (List.mem_filter.1 hx).2
                have a2 := (List.mem_filter.1 hy).2
                simp only [decide_eq_true_eq] at a1 a2
                omega
          · intro x hx
            rcases List.mem_append.1 hx with hx | hx
            · exact (filt _).2 x hx
            · rcases List.mem_cons.1 hx with rfl | hx
              · exact Nat.lt_succ_self _
              · exact (filt _).2 x hx
      | get k => exact keep
      | remove k => exact filt _
      | len => exact keep
    have := ih (t + 1) _ hs.1 hs.2
    refine ⟨this.1, fun x hx => ?_⟩
    have := this.2 x hx
    rw [List.length_cons]; omega

/-! ## The cost of one call -/

/-- Is the key below the one the call is about? -/
def below (cmp : K → K → Int) (op : Op K V) (x : K) : Bool :=
  match op with
  | .insert k _ _ => cmp x k < 0
  | .get k => cmp x k < 0
  | .remove k => cmp x k < 0
  | .len => false

theorem stepC_bound (hc : LawfulCmp cmp) {w : SL K V} {G : List (Cell K V)} (hi : Inv cmp w G) (op : Op K V) :
    ∃ r m, stepC cmp op w = .ok (r, m) ∧ m ≤ climbSum w.maxLevel ((G.filter (fun c => below cmp op c.key)).map Cell.h) + 1 := by
  have fp : ∀ k, ∃ A B m, G = A ++ B ∧ G.filter (fun c => decide (cmp c.key k < 0)) = A ∧ (∀ c ∈ B, 0 ≤ cmp c.key k) ∧ (∀ c ∈ A, cmp c.key k < 0) ∧
      findPrevsC cmp w k w.maxLevel .head [] 0 = .ok (prevsOf w.maxLevel A, m) ∧ m ≤ climbSum w.maxLevel (A.map Cell.h) := by
    intro k
    obtain ⟨A, B, hG, hA, hB, _⟩ := hi.split hc k
    obtain ⟨m, e, _, l⟩ := findPrevsC_spec hi hG hA hB w.maxLevel [] 0 (Nat.le_refl _)
    rw [lvl_top hi hG, List.append_nil] at e
    rw [Nat.zero_add] at l
    exact ⟨A, B, m, hG, by rw [hG]; exact split_below hA hB, hB, hA, e, l⟩
  -- the result is there, the count is what we look for
  have total : ∀ op', ∃ r m, stepC cmp op' w = .ok (r, m) := by
    intro op'
    obtain ⟨w', e, _⟩ := step_agree (m := G.map Cell.kv) hc ⟨G, hi, .refl _⟩ op'
    rw [← stepC_fst, Res.bind_eq_ok] at e
    obtain ⟨p, e, _⟩ := e
    exact ⟨p.1, p.2, e⟩
  obtain ⟨r, m, e⟩ := total op
  refine ⟨r, m, e, ?_⟩
  cases op with
  | insert k v d =>
    obtain ⟨A, B, m0, hG, hf, hB, hA, e0, l0⟩ := fp k
    simp only [below]
    rw [hf]
    simp only [stepC, InsertC, e0, Res.ok_bind, prevsOf_get hi.max1, Res.ofOption_some, first0 hi hG, bind_assoc] at e
    have tail : ∀ (c : Nat) (w' : Res (SL K V)), (w' >>= fun x => (.ok ((Out.unit, x), c) : Res ((Out V × SL K V) × Nat))) = .ok (r, m) → m = c := by
      intro c w' h
      rw [Res.bind_eq_ok] at h
      obtain ⟨_, _, h⟩ := h
      cases h; rfl
    cases hfo : firstOr none B with
    | none =>
      rw [hfo] at e
      simp only [bind_assoc] at e
      rw [Res.bind_eq_ok] at e; obtain ⟨l, _, e⟩ := e
      rw [Res.bind_eq_ok] at e; obtain ⟨w2, _, e⟩ := e
      simp only [Res.ok_bind] at e
      cases e
      simp; omega
    | some a =>
      rw [hfo] at e
      simp only [bind_assoc] at e
      rw [Res.bind_eq_ok] at e; obtain ⟨el, _, e⟩ := e
      by_cases c : cmp el.key k = 0
      · simp only [if_pos c, Res.ok_bind] at e
        cases e
        simp; omega
      · simp only [if_neg c, Res.ok_bind, bind_assoc] at e
        rw [Res.bind_eq_ok] at e; obtain ⟨l, _, e⟩ := e
        rw [Res.bind_eq_ok] at e; obtain ⟨w2, _, e⟩ := e
        cases e
        simp; omega
  | get k =>
    obtain ⟨A, B, hG, hA, hB, _⟩ := hi.split hc k
    obtain ⟨v, m', e', l, _⟩ := getLoopC_spec hi hG hA hB w.maxLevel 0 (Nat.le_refl _)
    rw [lvl_top hi hG] at e'
    simp only [below]
    rw [hG, split_below hA hB]
    simp only [stepC, GetC] at e
    rw [show (Ref.head) = lastRef .head ([] : List (Cell K V)) from rfl, e'] at e
    simp only [Res.ok_bind] at e
    cases e
    omega
  | remove k =>
    obtain ⟨A, B, m0, hG, hf, hB, hA, e0, l0⟩ := fp k
    simp only [below]
    rw [hf]
    simp only [stepC, RemoveC, e0, Res.ok_bind, prevsOf_get hi.max1, Res.ofOption_some, first0 hi hG] at e
    cases hfo : firstOr none B with
    | none =>
      rw [hfo] at e
      simp only [Res.ok_bind] at e
      cases e
      omega
    | some a =>
      rw [hfo] at e
      simp only [bind_assoc] at e
      rw [Res.bind_eq_ok] at e; obtain ⟨el, _, e⟩ := e
      by_cases c : cmp el.key k ≠ 0
      · rw [if_pos c] at e
        simp only [Res.ok_bind] at e
        cases e
        omega
      · rw [if_neg c] at e
        simp only [bind_assoc] at e
        rw [Res.bind_eq_ok] at e; obtain ⟨w2, _, e⟩ := e
        simp only [Res.ok_bind] at e
        cases e
        omega
  | len =>
    simp only [stepC] at e
    cases e
    omega

/-- A full traversal shows the cells. -/
theorem traversal_cells {w : SL K V} {G : List (Cell K V)} (hi : Inv cmp w G) :
    Traversal (fun (s : List (K × V)) k v => (s ++ [(k, v)], true)) w [] = .ok (G.map Cell.kv) := by
  have hall : lvl 0 G = G := by
    apply List.filter_eq_self.2
    intro c hc
    have := (hi.height c hc).1
    simp; omega
  have hs := hi.seg 0 hi.max1
  rw [hall] at hs
  simp only [Traversal, hs.first, Res.ok_bind]
  rw [travLoop_spec _ G _ _ _ (hi.fuel (List.Sublist.refl _)) hi.stored hs]
  have : ∀ (L s : List (K × V)), visitAll (fun (s : List (K × V)) k v => (s ++ [(k, v)], true)) L s = s ++ L := by
    intro L
    induction L with
    | nil => intro s; simp [visitAll]
    | cons x L ih => intro s; simp [visitAll, ih]
  rw [this, List.nil_append]

/-! ## C80 -/

/-- C80: `randomLevel` uses its random number only modulo `2^n - 1`, and of these residues exactly `2^(n-i)` lead to level `i`: each level is half as likely as the one below. -/
theorem C80_levels_geometric (n : Nat) (h1 : 1 ≤ n) (h2 : n ≤ 64) :
    (∀ d : BitVec 64, randomLevel 65 n d = randomLevel 65 n (BitVec.ofNat 64 (d.toNat % (2 ^ n - 1)))) ∧
    ∀ i, 1 ≤ i → i ≤ n → ((range (2 ^ n - 1)).filter (fun k => randomLevel 65 n (BitVec.ofNat 64 k) = .ok i)).card = 2 ^ (n - i) := by
  have hp : 2 ^ 1 ≤ 2 ^ n := Nat.pow_le_pow_right (by omega) h1
  have hpn : 2 ^ n ≤ 2 ^ 64 := Nat.pow_le_pow_right (by omega) h2
  constructor
  · intro d
    rw [(levelOf_spec h1 h2 d).1, (levelOf_spec h1 h2 _).1]
    congr 1
    apply levelOf_mod h1 h2
    have : d.toNat % (2 ^ n - 1) < 2 ^ n - 1 := Nat.mod_lt _ (by omega)
    rw [BitVec.toNat_ofNat, Nat.mod_eq_of_lt (a := d.toNat % (2 ^ n - 1)) (b := 2 ^ 64) (lt_of_lt_of_le this ((Nat.sub_le _ _).trans hpn)), Nat.mod_mod]
  · intro i hi1 hi2
    have hle : 2 ^ (n - i + 1) ≤ 2 ^ n := Nat.pow_le_pow_right (by omega) (by omega)
    have hs : 2 ^ (n - i + 1) = 2 * 2 ^ (n - i) := Nat.pow_succ'
    have hpos := Nat.two_pow_pos (n - i)
    have e : (range (2 ^ n - 1)).filter (fun k => randomLevel 65 n (BitVec.ofNat 64 k) = .ok i) = Ico (2 ^ (n - i) - 1) (2 ^ (n - i + 1) - 1) := by
      ext k
      simp only [mem_filter, mem_range, mem_Ico]
      have spec : k < 2 ^ n - 1 → (randomLevel 65 n (BitVec.ofNat 64 k) = .ok i ↔ 2 ^ (n - i) - 1 ≤ k ∧ k < 2 ^ (n - i + 1) - 1) := by
        intro hk
        obtain ⟨a0, a1, a2, a3⟩ := levelOf_spec h1 h2 (BitVec.ofNat 64 k)
        rw [BitVec.toNat_ofNat, Nat.mod_eq_of_lt (lt_of_lt_of_le hk ((Nat.sub_le _ _).trans hpn)), Nat.mod_eq_of_lt hk] at a3
        rw [a0, Res.ok.injEq]
        have b1 := a3 (i - 1) (by omega)
        rw [show n - (i - 1) = n - i + 1 by omega] at b1
        rcases Nat.lt_or_ge i n with c | c
        · have b2 := a3 i c
          constructor
          · intro h
            exact ⟨by rw [h] at b2; have := b2.not.1 (by omega); omega, b1.1 (by omega)⟩
          · rintro ⟨c1, c2⟩
            have := b1.2 c2
            have := b2.not.2 (by omega)
            omega
        · obtain rfl : i = n := by omega
          rw [Nat.sub_self] at *
          constructor
          · intro h
            exact ⟨by simp, b1.1 (by omega)⟩
          · rintro ⟨_, c2⟩
            have := b1.2 c2
            omega
      constructor
      · rintro ⟨hk, h⟩; exact (spec hk).1 h
      · rintro h
        have hk : k < 2 ^ n - 1 := by omega
        exact ⟨hk, (spec hk).2 h⟩
    rw [e, Nat.card_Ico]
    omega

/-- Maximum level 3: of the 7 residues, 4 lead to level 1, 2 to level 2 and 1 to level 3. -/
example : (List.range 7).map (fun k => randomLevel 65 3 (BitVec.ofNat 64 k)) = [.ok 3, .ok 2, .ok 2, .ok 1, .ok 1, .ok 1, .ok 1] := rfl

/-! ## C81 -/

theorem inv_new {n : Nat} (h1 : 1 ≤ n) (h2 : n ≤ 64) : ∃ w, (New n : Res (SL K V)) = .ok w ∧ w.maxLevel = n ∧ Inv cmp w [] := by
  obtain ⟨w, e, G, hi, hp⟩ := agree_new (K := K) (V := V) (cmp := cmp) h1 h2
  have : G = [] := by
    have := hp.length_eq
    simpa using this
  subst this
  refine ⟨w, e, ?_, hi⟩
  simp only [New] at e
  rw [if_neg (by omega)] at e
  cases e
  simp

/-- Histories that differ only in their random numbers leave the same map. -/
theorem specRun_draws (D : Nat → BitVec 64) : ∀ (ops : List (Op K V)) (t : Nat) (m : List (K × V)), specRun cmp (withDraws D t ops) m = specRun cmp ops m := by
  intro ops
  induction ops with
  | nil => intro t m; rfl
  | cons op ops ih =>
    intro t m
    have : specStep cmp (setDraw op (D t)) m = specStep cmp op m := by cases op <;> rfl
    simp only [withDraws, specRun, this, ih]

/-- Everything about a history: the keys present and the calls that inserted them, for all random numbers. -/
theorem history (hc : LawfulCmp cmp) {n : Nat} (h1 : 1 ≤ n) (h2 : n ≤ 64) (ops : List (Op K V)) (p : K → Bool) :
    ∃ J : List (Fin ops.length), J.Nodup ∧ J.length = ((specRun cmp ops []).2.filter (fun x => p x.1)).length ∧ ∀ d : Fin ops.length → BitVec 64,
      ∃ w0 os w G, New n = .ok w0 ∧ run cmp (withDraws (draws d) 0 ops) w0 = .ok (os, w) ∧ w.maxLevel = n ∧ Inv cmp w G ∧
        (G.map Cell.kv).Perm (specRun cmp ops []).2 ∧ (G.filter (fun c => p c.key)).map Cell.h = heights n J d := by
  obtain ⟨nd, lt⟩ := symRun_nodup cmp ops 0 [] (by simp) (by simp)
  rw [Nat.zero_add] at lt
  obtain ⟨J, hJ⟩ : ∃ J : List (Fin ops.length), J.map Fin.val = ((symRun cmp 0 ops []).filter (fun x => p x.1)).map Prod.snd := by
    refine ⟨((symRun cmp 0 ops []).filter (fun x => p x.1)).attach.map (fun x => ⟨x.1.2, lt x.1 (List.mem_filter.1 x.2).1⟩), ?_⟩
    rw [List.map_map]
    have : ∀ L : List (K × Nat), L.attach.map (fun x => x.1.2) = L.map Prod.snd := by
      intro L
      conv => rhs; rw [← List.attach_map_subtype_val L, List.map_map]
      rfl
    exact this _
  have main : ∀ d : Fin ops.length → BitVec 64, ∃ w0 os w G, New n = .ok w0 ∧ run cmp (withDraws (draws d) 0 ops) w0 = .ok (os, w) ∧ w.maxLevel = n ∧ Inv cmp w G ∧
        (G.map Cell.kv).Perm (specRun cmp ops []).2 ∧ (G.filter (fun c => p c.key)).map Cell.h = heights n J d := by
    intro d
    obtain ⟨w0, e0, m0, i0⟩ := inv_new (K := K) (V := V) (cmp := cmp) h1 h2
    obtain ⟨os, w, G, e, m, i, tr⟩ := run_tracks hc (draws d) ops 0 i0 (S := []) rfl
    rw [m0] at m tr
    refine ⟨w0, os, w, G, e0, e, m, i, ?_, ?_⟩
    · obtain ⟨w', e', G', i', hp⟩ := run_agree (m := []) hc (withDraws (draws d) 0 ops) ⟨[], i0, .refl _⟩
      rw [e] at e'
      rw [specRun_draws] at e' hp
      cases e'
      -- two invariants of one list describe the same cells
      have t1 := traversal_cells i
      have t2 := traversal_cells i'
      rw [t1] at t2
      have : G.map Cell.kv = G'.map Cell.kv := by injection t2
      rw [this]; exact hp
    · have tf := tr.filter p
      have e1 : (G.filter (fun c => p c.key)).map Cell.h = ((symRun cmp 0 ops []).filter (fun x => p x.1)).map (fun x => levelOf n (draws d x.2)) := by
        have := congrArg (List.map Prod.snd) tf
        simpa [Function.comp_def] using this
      rw [e1]
      have e2 : heights n J d = (J.map Fin.val).map (fun j => levelOf n (draws d j)) := by
        rw [List.map_map]
        apply List.map_congr_left
        intro j _
        simp only [Function.comp_apply, draws]
        rw [dif_pos j.isLt]
      rw [e2, hJ, List.map_map]
      rfl
  refine ⟨J, ?_, ?_, main⟩
  · apply List.Nodup.of_map Fin.val
    rw [hJ]
    exact nd.sublist (List.filter_sublist.map _)
  · obtain ⟨w0, os, w, G, _, _, _, _, hp, hh⟩ := main (fun _ => 0)
    have := congrArg List.length hh
    simp only [heights, List.length_map] at this
    rw [← this]
    have hp := (hp.filter (fun x => p x.1)).length_eq
    rw [← hp, List.filter_map, List.length_map]
    rfl

/-- C81: `Insert`, `Get` and `Remove` search quickly. Take any history on a skip list of `n` levels and any further call. Averaged over all random numbers the insertions of the
history may have drawn, the call uses the comparator at most `2 n + 2 + r (1 / (2^n - 1) + 1 / 2^64)` times, where `r` is the number of keys present below the one asked for. -/
theorem C81_average_comparisons (hc : LawfulCmp cmp) (n : Nat) (h1 : 1 ≤ n) (h2 : n ≤ 64) (ops : List (Op K V)) (op : Op K V) :
    ∃ cost : (Fin ops.length → BitVec 64) → Nat,
      (∀ d, ∃ w0 os w r, New n = .ok w0 ∧ run cmp (withDraws (draws d) 0 ops) w0 = .ok (os, w) ∧ stepC cmp op w = .ok (r, cost d)) ∧
      (∑ d, (cost d : ℚ)) / (2 ^ 64) ^ ops.length ≤
        2 * n + 2 + ((specRun cmp ops []).2.filter (fun x => below cmp op x.1)).length * (1 / (2 ^ n - 1) + 1 / 2 ^ 64) := by
  obtain ⟨J, hJ, hlen, hist⟩ := history hc h1 h2 ops (below cmp op)
  have step1 : ∀ d, ∃ m, (∃ w0 os w r, New n = .ok w0 ∧ run cmp (withDraws (draws d) 0 ops) w0 = .ok (os, w) ∧ stepC cmp op w = .ok (r, m)) ∧
      m ≤ climbSum n (heights n J d) + 1 := by
    intro d
    obtain ⟨w0, os, w, G, e0, e, hm, hi, _, hh⟩ := hist d
    obtain ⟨r, m, e', l⟩ := stepC_bound hc hi op
    rw [hh, hm] at l
    exact ⟨m, ⟨w0, os, w, r, e0, e, e'⟩, l⟩
  choose cost hcost hle using step1
  refine ⟨cost, hcost, ?_⟩
  have hW : (0 : ℚ) < (2 ^ 64) ^ ops.length := by positivity
  rw [div_le_iff₀ hW, ← hlen]
  have hcard : (∑ _d : Fin ops.length → BitVec 64, (1 : ℚ)) = (2 ^ 64) ^ ops.length := by
    rw [sum_const, card_univ, Fintype.card_fun, card_bv, Fintype.card_fin, nsmul_eq_mul, mul_one]
    push_cast; rfl
  have a := avg_climbSum h1 h2 J hJ
  have b : (∑ d, (cost d : ℚ)) ≤ ∑ d : Fin ops.length → BitVec 64, ((climbSum n (heights n J d) : ℚ) + 1) := by
    apply sum_le_sum
    intro d _
    exact_mod_cast hle d
  rw [sum_add_distrib, hcard] at b
  generalize (J.length : ℚ) * (1 / (2 ^ n - 1) + 1 / 2 ^ 64) = X at *
  generalize ((2 : ℚ) ^ 64) ^ ops.length = W at *
  nlinarith

/-- C81 for a list with enough levels for its keys: with fewer than `2^n` keys below the one asked for, `2 n + 4` comparator calls on average. -/
theorem C81_logarithmic (hc : LawfulCmp cmp) (n : Nat) (h1 : 1 ≤ n) (h2 : n ≤ 64) (ops : List (Op K V)) (op : Op K V)
    (hr : ((specRun cmp ops []).2.filter (fun x => below cmp op x.1)).length < 2 ^ n) :
    ∃ cost : (Fin ops.length → BitVec 64) → Nat,
      (∀ d, ∃ w0 os w r, New n = .ok w0 ∧ run cmp (withDraws (draws d) 0 ops) w0 = .ok (os, w) ∧ stepC cmp op w = .ok (r, cost d)) ∧
      (∑ d, (cost d : ℚ)) / (2 ^ 64) ^ ops.length ≤ 2 * n + 4 := by
  obtain ⟨cost, h, l⟩ := C81_average_comparisons hc n h1 h2 ops op
  refine ⟨cost, h, l.trans ?_⟩
  generalize ((specRun cmp ops []).2.filter (fun x => below cmp op x.1)).length = r at *
  have hpow : (2 : ℚ) ≤ 2 ^ n := by
    calc (2 : ℚ) = 2 ^ 1 := by norm_num
      _ ≤ 2 ^ n := pow_le_pow_right₀ (by norm_num) h1
  have hpow2 : (2 : ℚ) ^ n ≤ 2 ^ 64 := pow_le_pow_right₀ (by norm_num) h2
  have hr' : (r : ℚ) ≤ 2 ^ n - 1 := by
    have : r + 1 ≤ 2 ^ n := hr
    have : ((r + 1 : Nat) : ℚ) ≤ ((2 ^ n : Nat) : ℚ) := by exact_mod_cast this
    push_cast at this
    linarith
  have a : (r : ℚ) * (1 / (2 ^ n - 1)) ≤ 1 := by
    rw [mul_one_div, div_le_one (by linarith)]; exact hr'
  have b : (r : ℚ) * (1 / 2 ^ 64) ≤ 1 := by
    rw [mul_one_div, div_le_one (by positivity)]; linarith
  rw [mul_add]
  linarith

/-- The bound needs the term in `r`: whatever the history, `Get` compares with at least `r / 2^n` keys on average, so a list with a fixed number of levels, such as the
default 10, takes linear time. -/
theorem C81_linear_for_fixed_levels (hc : LawfulCmp cmp) (n : Nat) (h1 : 1 ≤ n) (h2 : n ≤ 64) (ops : List (Op K V)) (k : K) :
    ∃ cost : (Fin ops.length → BitVec 64) → Nat,
      (∀ d, ∃ w0 os w r, New n = .ok w0 ∧ run cmp (withDraws (draws d) 0 ops) w0 = .ok (os, w) ∧ stepC cmp (.get k) w = .ok (r, cost d)) ∧
      ((specRun cmp ops []).2.filter (fun x => cmp x.1 k < 0)).length / 2 ^ n ≤ (∑ d, (cost d : ℚ)) / (2 ^ 64) ^ ops.length := by
  obtain ⟨J, hJ, hlen, hist⟩ := history hc h1 h2 ops (fun x => decide (cmp x k < 0))
  have step1 : ∀ d, ∃ m, (∃ w0 os w r, New n = .ok w0 ∧ run cmp (withDraws (draws d) 0 ops) w0 = .ok (os, w) ∧ stepC cmp (.get k) w = .ok (r, m)) ∧
      climbs (n - 1) (heights n J d) ≤ m := by
    intro d
    obtain ⟨w0, os, w, G, e0, e, hm, hi, _, hh⟩ := hist d
    obtain ⟨A, B, hG, hA, hB, _⟩ := hi.split hc k
    obtain ⟨v, m, e', _, l⟩ := getLoopC_spec hi hG hA hB w.maxLevel 0 (Nat.le_refl _)
    rw [lvl_top hi hG] at e'
    have l := l hi.max1
    rw [hG, split_below hA hB] at hh
    rw [hh, hm, Nat.zero_add] at l
    refine ⟨m, ⟨w0, os, w, (.val v, w), e0, e, ?_⟩, l⟩
    simp only [stepC, GetC]
    rw [show (Ref.head) = lastRef .head ([] : List (Cell K V)) from rfl, e']
    rfl
  choose cost hcost hle using step1
  refine ⟨cost, hcost, ?_⟩
  have hW : (0 : ℚ) < (2 ^ 64) ^ ops.length := by positivity
  have hM : (0 : ℚ) < 2 ^ 64 := by positivity
  have hP : (0 : ℚ) < 2 ^ n := by positivity
  rw [le_div_iff₀ hW, ← hlen]
  have b : ∑ d : Fin ops.length → BitVec 64, (climbs (n - 1) (heights n J d) : ℚ) ≤ ∑ d, (cost d : ℚ) := by
    apply sum_le_sum
    intro d _
    exact_mod_cast hle d
  have hl : J.length ≤ ops.length := by
    have := hJ.length_le_card
    rwa [Fintype.card_fin] at this
  have hz : above n (n - 1 + 1) = 0 := by rw [show n - 1 + 1 = n by omega]; exact above_top h1 h2
  have h := sum_climbs_top n hz J hJ hl
  have h' : (∑ d : Fin ops.length → BitVec 64, (climbs (n - 1) (heights n J d) : ℚ)) * 2 ^ 64 = J.length * exactly n (n - 1) * (2 ^ 64) ^ ops.length := by
    rw [← Nat.cast_sum]; exact_mod_cast h
  have hx : 2 ^ 64 / 2 ^ n ≤ exactly n (n - 1) :=
    (Nat.div_le_div_left (Nat.sub_le _ _) (by
      have : 2 ^ 1 ≤ 2 ^ n := Nat.pow_le_pow_right (by omega) h1
      omega)).trans (exactly_top h1 h2).2
  have hx' : (2 : ℚ) ^ 64 / 2 ^ n ≤ exactly n (n - 1) := by
    rw [Nat.pow_div h2 (by omega)] at hx
    rw [div_eq_mul_inv, ← pow_sub₀ (2 : ℚ) (by norm_num) h2]
    exact_mod_cast hx
  generalize (∑ d : Fin ops.length → BitVec 64, (climbs (n - 1) (heights n J d) : ℚ)) = S at *
  refine le_trans ?_ b
  generalize ((2 : ℚ) ^ 64) ^ ops.length = W at *
  generalize ((2 : ℚ) ^ 64) = M at *
  apply le_of_mul_le_mul_right _ hM
  rw [h']
  have hJ0 : (0 : ℚ) ≤ J.length := Nat.cast_nonneg _
  calc (J.length : ℚ) / 2 ^ n * W * M = J.length * (M / 2 ^ n) * W := by ring
    _ ≤ J.length * exactly n (n - 1) * W := mul_le_mul_of_nonneg_right (mul_le_mul_of_nonneg_left hx' hJ0) hW.le

/-- Three keys, three levels, drawn 3, 1 and 2 levels: a search beyond the end compares with the first and the last key only. -/
theorem cost_example : ∃ (w : SL Int Int) (os : List (Out Int)), (New 3 >>= run (fun a b => a - b) [.insert 1 10 0, .insert 2 20 3, .insert 3 30 1]) = .ok (os, w) ∧
    (stepC (fun a b => a - b) (.get 4) w >>= fun r => .ok r.2) = .ok 2 ∧ (stepC (fun a b => a - b) (.get 2) w >>= fun r => .ok r.2) = .ok 3 ∧
    (stepC (fun a b => a - b) (.remove 2) w >>= fun r => .ok r.2) = .ok 4 ∧
    (stepC (fun a b => a - b) (.insert 2 21 0) w >>= fun r => .ok r.2) = .ok 4 ∧ (stepC (fun a b => a - b) (.insert 5 50 0) w >>= fun r => .ok r.2) = .ok 2 :=
  ⟨_, _, rfl, rfl, rfl, rfl, rfl, rfl⟩

/-- `C80_levels_geometric` for three levels: 4 of the 7 draws give level 1, 2 give level 2, 1 gives level 3. -/
example : ∀ i, 1 ≤ i → i ≤ 3 → ((range (2 ^ 3 - 1)).filter (fun k => randomLevel 65 3 (BitVec.ofNat 64 k) = .ok i)).card = 2 ^ (3 - i) :=
  (C80_levels_geometric 3 (by decide) (by decide)).2
/-- `C81_average_comparisons`, `C81_logarithmic` and `C81_linear_for_fixed_levels` for the demo program. -/
example := C81_average_comparisons subCmp_lawful 3 (by decide) (by decide) demoOps (.get 5)
/-- `C81_logarithmic`: two keys are left, and one is below 5. -/
example := C81_logarithmic subCmp_lawful 3 (by decide) (by decide) demoOps (.get 5) (by decide)
/-- `C81_linear_for_fixed_levels`. -/
example := C81_linear_for_fixed_levels subCmp_lawful 3 (by decide) (by decide) demoOps 5

end GoSTL.Skiplist
