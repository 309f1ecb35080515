import Verif.TreeMap.MapProps
import Verif.TreeMap.SetProps
/-!
# C96: `Traversal` of a map or a set with a visitor that changes the container

The visitor calls `Insert` and `Erase` of the container that is being walked (without `WithGoroutineSafe`; with it the visitor blocks for ever, C64).
-/
namespace GoSTL.TreeMap
open GoSTL.RB

variable {K V σ Call : Type} {cmp : K → K → Int}

/-! ## Model -/

/-- What a visitor does when it is called: it changes its own state, makes calls on the container, and says whether to go on. -/
structure Answer (σ Call : Type) where
  st : σ
  calls : List Call
  go : Bool

/-- A visitor may read everything the container holds before it decides. -/
abbrev Visitor (K V σ Call : Type) := List (K × V) → σ → K → V → Answer σ Call

/-- The calls of one visit, one after the other. -/
def runCalls (call : Call → Tree K V → Res (Tree K V)) : List Call → Tree K V → Res (Tree K V)
  | [], t => .ok t
  | c :: cs, t => do
    let t ← call c t
    runCalls call cs t

/-- rbtree.go:400-404 (and set.go:164-168), the loop of `Traversal`; the tree is the one the visitor leaves behind. Returns the visited entries, the state of the
visitor and the tree. -/
def reLoop (call : Call → Tree K V → Res (Tree K V)) (visit : Visitor K V σ Call) : Nat → Option Id → Tree K V → σ → Res (List (K × V) × σ × Tree K V)
  | 0, _, _, _ => .outOfFuel
  | _ + 1, none, t, s => .ok ([], s, t)
  | f + 1, some i, t, s => do
    let n ← t.node i
    let held ← iterList t
    let a := visit held s n.key n.value
    let t ← runCalls call a.calls t
    if a.go then do
      let nx ← t.successor i
      let r ← reLoop call visit f nx t a.st
      .ok ((n.key, n.value) :: r.1, r.2)
    else .ok ([(n.key, n.value)], a.st, t)

/-- map.go:181-186, rbtree.go:399-405 `Traversal`, with room for `fuel` visits. -/
def reTraversal (call : Call → Tree K V → Res (Tree K V)) (visit : Visitor K V σ Call) (fuel : Nat) (t : Tree K V) (s : σ) :
    Res (List (K × V) × σ × Tree K V) := do
  let n ← t.first
  reLoop call visit fuel n t s

/-- The calls a visitor of a map makes. -/
inductive MapCall (K V : Type)
  | insert (k : K) (v : V)
  | erase (k : K)

/-- map.go:56-66 `Insert`, 81-89 `Erase`. -/
def mapCall (cmp : K → K → Int) : MapCall K V → Tree K V → Res (Tree K V)
  | .insert k v, t => mapInsert cmp t k v
  | .erase k, t => eraseOne cmp t k

/-- The calls a visitor of a set makes. -/
inductive SetCall (K : Type)
  | insert (x : K)
  | erase (x : K)

/-- set.go:62-71 `Insert`, 74-82 `Erase`. -/
def setCall (cmp : K → K → Int) : SetCall K → Tree K Bool → Res (Tree K Bool)
  | .insert x, t => setInsert cmp t x
  | .erase x, t => eraseOne cmp t x

/-! ## Specification: the same walk over a sorted list of entries -/

/-- Insert into a sorted list; an equal key stays and gets the new value. -/
def putKV (cmp : K → K → Int) (k : K) (v : V) : List (K × V) → List (K × V)
  | [] => [(k, v)]
  | e :: m => if cmp k e.1 < 0 then (k, v) :: e :: m else if cmp k e.1 = 0 then (e.1, v) :: m else e :: putKV cmp k v m

/-- Erase a key from a list of entries. -/
def delKV (cmp : K → K → Int) (k : K) (m : List (K × V)) : List (K × V) := m.filter fun e => decide (cmp k e.1 ≠ 0)

/-- What a call does to the entries of a map. -/
def specMap (cmp : K → K → Int) : MapCall K V → List (K × V) → List (K × V)
  | .insert k v, m => putKV cmp k v m
  | .erase k, m => delKV cmp k m

/-- What a call does to the elements of a set (the keys; the values mean nothing): an equal element is kept. -/
def specSet (cmp : K → K → Int) : SetCall K → List (K × Bool) → List (K × Bool)
  | .insert x, m => if m.any (fun e => decide (cmp x e.1 = 0)) then m else putKV cmp x true m
  | .erase x, m => delKV cmp x m

/-- The walk: an entry is visited, the visitor's calls take effect, and the walk goes on with the entry of the smallest key above the visited one. -/
def specLoop (cmp : K → K → Int) (spec : Call → List (K × V) → List (K × V)) (visit : Visitor K V σ Call) :
    Nat → Option (K × V) → List (K × V) → σ → Res (List (K × V) × σ × List (K × V))
  | 0, _, _, _ => .outOfFuel
  | _ + 1, none, m, s => .ok ([], s, m)
  | f + 1, some e, m, s =>
    let a := visit m s e.1 e.2
    let m' := a.calls.foldl (fun m c => spec c m) m
    if a.go then do
      let r ← specLoop cmp spec visit f (m'.find? fun x => decide (cmp e.1 x.1 < 0)) m' a.st
      .ok (e :: r.1, r.2)
    else .ok ([e], a.st, m')

/-- Erasing `x` while `k` is visited, when the container holds `m`: `x` is not `k`, and it is not the entry right before `k`: it is above `k`, or another entry
lies between, or it is not there at all. -/
def SafeErase (cmp : K → K → Int) (k : K) (m : List (K × V)) (x : K) : Prop :=
  cmp x k ≠ 0 ∧ (cmp k x < 0 ∨ (∃ e ∈ m, cmp x e.1 < 0 ∧ cmp e.1 k < 0) ∨ ∀ e ∈ m, cmp x e.1 ≠ 0)

/-- Safe calls of a map's visitor: any `Insert`, and safe erasures. -/
def MapCall.Safe (cmp : K → K → Int) (k : K) (m : List (K × V)) : MapCall K V → Prop
  | .insert _ _ => True
  | .erase x => SafeErase cmp k m x

/-- Safe calls of a set's visitor. -/
def SetCall.Safe (cmp : K → K → Int) (k : K) (m : List (K × Bool)) : SetCall K → Prop
  | .insert _ => True
  | .erase x => SafeErase cmp k m x

/-- All calls of one visit are safe, each at its time. -/
def AllSafe (safe : List (K × V) → Call → Prop) (spec : Call → List (K × V) → List (K × V)) : List Call → List (K × V) → Prop
  | [], _ => True
  | c :: cs, m => safe m c ∧ AllSafe safe spec cs (spec c m)

/-- The walk over the tree and the walk over the list do the same: both run out of visits, or the same entries were visited, the visitor is in the same state, and
the tree is a good one that holds the entries of the list. -/
def Agree (Good : Tree K V → Prop) : Res (List (K × V) × σ × Tree K V) → Res (List (K × V) × σ × List (K × V)) → Prop
  | .ok (vs, s, t), .ok (ws, s', m) => vs = ws ∧ s = s' ∧ iterList t = .ok m ∧ Good t
  | .outOfFuel, .outOfFuel => True
  | _, _ => False

/-! ## Proofs -/

/-- The good tree `t` holds the strictly increasing entries `m`, and the node `i` stands for the entry `(k, v)`. -/
structure Has (cmp : K → K → Int) (Good : Tree K V → Prop) (t : Tree K V) (i : Id) (k : K) (v : V) (m : List (K × V)) : Prop where
  good : Good t
  strict : Strict cmp m
  holds : ∃ es, HoldsS cmp t es ∧ es.map (·.2) = m ∧ (i, k, v) ∈ es

theorem mem_insertBy {α : Type} (key : α → K) (e x : α) : ∀ xs : List α, x ∈ xs → x ∈ insertBy cmp key e xs
  | [], h => by cases h
  | y :: ys, h => by
    simp only [insertBy]
    split
    · exact List.mem_cons_of_mem _ h
    · rcases List.mem_cons.1 h with rfl | h
      · exact List.mem_cons_self ..
      · exact List.mem_cons_of_mem _ (mem_insertBy key e x ys h)

theorem putKV_new (k : K) (v : V) : ∀ m : List (K × V), (∀ e ∈ m, cmp k e.1 ≠ 0) → putKV cmp k v m = insertBy cmp (·.1) (k, v) m
  | [], _ => rfl
  | e :: m, h => by
    simp only [putKV, insertBy]
    rw [if_neg (h e (by simp)), putKV_new k v m fun x hx => h x (by simp [hx])]

theorem putKV_mid (hc : LawfulCmp cmp) {A B : List (K × V)} {k k' : K} {v v' : V} (hs : Strict cmp (A ++ (k', v') :: B)) (hk : cmp k k' = 0) :
    putKV cmp k v (A ++ (k', v') :: B) = A ++ (k', v) :: B := by
  induction A with
  | nil => simp [putKV, hk]
  | cons a A ih =>
    simp only [List.cons_append, Strict, List.pairwise_cons] at hs
    have h1 : cmp a.1 k' < 0 := hs.1 (k', v') (by simp)
    have h2 : cmp a.1 k < 0 := hc.lt_of_lt_of_le h1 (Int.le_of_eq (hc.eq_symm.1 hk))
    have h3 := hc.swap a.1 k
    simp only [List.cons_append, putKV]
    rw [if_neg (by omega), if_neg (by omega), ih hs.2]

theorem delKV_mid (hc : LawfulCmp cmp) {A B : List (K × V)} {k k' : K} {v' : V} (hs : Strict cmp (A ++ (k', v') :: B)) (hk : cmp k k' = 0) :
    delKV cmp k (A ++ (k', v') :: B) = A ++ B := by
  simp only [Strict, List.pairwise_append, List.pairwise_cons] at hs
  have hA : A.filter (fun e => decide (cmp k e.1 ≠ 0)) = A := by
    rw [List.filter_eq_self]
    intro a ha
    have h1 := hs.2.2 a ha (k', v') (by simp)
    have h2 : cmp a.1 k < 0 := hc.lt_of_lt_of_le h1 (Int.le_of_eq (hc.eq_symm.1 hk))
    have h3 := hc.swap a.1 k
    simp; omega
  have hB : B.filter (fun e => decide (cmp k e.1 ≠ 0)) = B := by
    rw [List.filter_eq_self]
    intro b hb
    have h1 := hs.2.1.1 b hb
    have h2 : cmp k b.1 < 0 := hc.lt_of_le_of_lt (Int.le_of_eq hk) h1
    simp; omega
  simp only [delKV, List.filter_append, List.filter_cons, hk, ne_eq, not_true_eq_false, decide_false, Bool.false_eq_true, if_false] at hA hB ⊢
  rw [hA, hB]

theorem sortedE_set {A B : List (Id × K × V)} {i k v} (v' : V) (h : SortedE cmp (A ++ (i, k, v) :: B)) : SortedE cmp (A ++ (i, k, v') :: B) := by
  simp only [SortedE, List.pairwise_append, List.pairwise_cons, List.mem_cons, forall_eq_or_imp] at h ⊢
  exact h

theorem has_insert (hc : LawfulCmp cmp) {Good : Tree K V → Prop} {t t' : Tree K V} {i k v m} (h : Has cmp Good t i k v m) (x : K) (y : V)
    (e : mapInsert cmp t x y = .ok t') (hg : Good t') : ∃ v', Has cmp Good t' i k v' (putKV cmp x y m) := by
  obtain ⟨-, hs, es, h1, rfl, hm⟩ := h
  rcases h1.findNode hc x with ⟨h4, h5⟩ | ⟨A, j, k', v', B, rfl, h4, h5, -⟩
  · obtain ⟨t'', e', h6, h7, -⟩ := h1.1.insert hc h1.2 x y
    simp only [mapInsert, h4, Res.ok_bind] at e
    rw [e] at e'; cases e'
    have hne : ∀ a ∈ es.map (·.2), cmp x a.1 ≠ 0 := by
      intro a ha
      obtain ⟨b, hb, rfl⟩ := List.mem_map.1 ha
      exact h5 b hb
    rw [putKV_new x y _ hne]
    obtain ⟨A, B, -, e2, h8⟩ := hs.insert hc x y hne
    refine ⟨v, hg, e2 ▸ h8, _, ⟨h6, h7⟩, insertBy_map (fun x : Id × K × V => x.2) (fun x : K × V => x.1) _ _, mem_insertBy _ _ _ _ hm⟩
  · simp only [mapInsert, h4, Res.ok_bind, Res.pure_eq] at e
    cases e
    simp only [List.map_append, List.map_cons] at hs ⊢
    rw [putKV_mid hc hs h5]
    have h6 : HoldsS cmp (t.setValue j y) (A ++ (j, k', y) :: B) := by
      refine ⟨h1.1.setValue y, sortedE_set y h1.2⟩
    rw [List.mem_append, List.mem_cons] at hm
    rcases hm with hm | hm | hm
    · exact ⟨v, hg, hs.set, _, h6, by simp, by simp [hm]⟩
    · cases hm
      exact ⟨y, hg, hs.set, _, h6, by simp, by simp⟩
    · exact ⟨v, hg, hs.set, _, h6, by simp, by simp [hm]⟩

theorem has_erase (hc : LawfulCmp cmp) {Good : Tree K V → Prop} {t t' : Tree K V} {i k v m} (h : Has cmp Good t i k v m) (x : K)
    (hsafe : SafeErase cmp k m x) (e : eraseOne cmp t x = .ok t') (hg : Good t') : Has cmp Good t' i k v (delKV cmp x m) := by
  obtain ⟨-, hs, es, h1, rfl, hm⟩ := h
  rcases h1.findNode hc x with ⟨h4, h5⟩ | ⟨A, j, k', v', B, rfl, h4, h5, -⟩
  · simp only [eraseOne, h4, Res.ok_bind, Res.pure_eq] at e
    cases e
    have : delKV cmp x (es.map (·.2)) = es.map (·.2) := by
      rw [delKV, List.filter_eq_self]
      intro a ha
      obtain ⟨b, hb, rfl⟩ := List.mem_map.1 ha
      simpa using h5 b hb
    rw [this]
    exact ⟨hg, hs, es, h1, rfl, hm⟩
  · simp only [eraseOne, h4, Res.ok_bind] at e
    obtain ⟨t'', es', e', h6, h7, -, h8⟩ := h1.1.delete
    rw [e] at e'; cases e'
    have hs' := hs
    simp only [List.map_append, List.map_cons] at hs ⊢
    rw [delKV_mid hc hs h5]
    rw [List.map_append] at h7
    refine ⟨hg, hs.sub, es', ⟨h6, h1.2.of_map (by rw [h7]; simp)⟩, h7, ?_⟩
    obtain ⟨n1, n2⟩ := hsafe
    rw [List.mem_append, List.mem_cons] at hm
    rcases hm with hm | hm | hm
    · rcases h8 with rfl | ⟨y, yk, yv, B', rfl, rfl⟩ <;> simp [hm]
    · cases hm; exact absurd h5 n1
    · rcases h8 with rfl | ⟨y, yk, yv, B', rfl, rfl⟩
      · simp [hm]
      · rw [List.mem_cons] at hm
        rcases hm with hm | hm
        · cases hm
          exfalso
          simp only [List.map_cons, Strict, List.pairwise_append, List.pairwise_cons] at hs
          have hk'k : cmp k' k < 0 := hs.2.1.1 (k, v) (by simp)
          have hxk : cmp x k < 0 := hc.lt_of_le_of_lt (Int.le_of_eq h5) hk'k
          have sw := hc.swap x k
          rcases n2 with n2 | ⟨a, ha, a1, a2⟩ | n2
          · omega
          · simp only [List.map_append, List.map_cons, List.mem_append, List.mem_cons] at ha
            have hk'a : cmp k' a.1 < 0 := hc.lt_of_le_of_lt (Int.le_of_eq (hc.eq_symm.1 h5)) a1
            have s1 := hc.swap k' a.1
            rcases ha with ha | rfl | rfl | ha
            · have := hs.2.2 a ha (k', v') (by simp)
              simp only at this
              omega
            · have := hc.refl k'; simp only at hk'a; omega
            · have := hc.refl k; simp only at a2; omega
            · have := hs.2.1.2.1 a ha
              have s2 := hc.swap k a.1
              omega
          · exact n2 (k', v') (by simp) h5
        · simp [hm]

/-- The walks agree, whatever the calls are, if a safe call keeps the visited node. -/
theorem reLoop_spec (hc : LawfulCmp cmp) (Good : Tree K V → Prop) (call : Call → Tree K V → Res (Tree K V)) (spec : Call → List (K × V) → List (K × V))
    (safe : K → List (K × V) → Call → Prop) (visit : Visitor K V σ Call)
    (hstep : ∀ t i k v m c, Has cmp Good t i k v m → safe k m c → ∃ t' v', call c t = .ok t' ∧ Has cmp Good t' i k v' (spec c m))
    (hsafe : ∀ m s k v, Strict cmp m → (k, v) ∈ m → AllSafe (safe k) spec (visit m s k v).calls m) :
    ∀ (f : Nat) (t : Tree K V) (i : Id) (k : K) (v : V) (m : List (K × V)) (s : σ), Has cmp Good t i k v m →
      Agree Good (reLoop call visit f (some i) t s) (specLoop cmp spec visit f (some (k, v)) m s) := by
  have hcalls : ∀ (cs : List Call) (t : Tree K V) (i : Id) (k : K) (v : V) (m : List (K × V)), Has cmp Good t i k v m → AllSafe (safe k) spec cs m →
      ∃ t' v', runCalls call cs t = .ok t' ∧ Has cmp Good t' i k v' (cs.foldl (fun m c => spec c m) m) := by
    intro cs
    induction cs with
    | nil => intro t i k v m h _; exact ⟨t, v, rfl, h⟩
    | cons c cs ih =>
      intro t i k v m h hs
      obtain ⟨t1, v1, e1, h1⟩ := hstep t i k v m c h hs.1
      obtain ⟨t2, v2, e2, h2⟩ := ih t1 i k v1 _ h1 hs.2
      exact ⟨t2, v2, by simp [runCalls, e1, e2], h2⟩
  intro f
  induction f with
  | zero => intro t i k v m s _; trivial
  | succ f ih =>
    intro t i k v m s h
    have h0 := h
    obtain ⟨hg, hst, es, h1, rfl, hm⟩ := h
    obtain ⟨n, hn, rfl, rfl⟩ := h1.1.node hm
    have hl : iterList t = .ok (es.map (·.2)) := HoldsKV.iterList ⟨_, h1, rfl⟩
    obtain ⟨t', v', e1, h2⟩ := hcalls (visit (es.map (·.2)) s n.key n.value).calls t i n.key n.value _ h0
      (hsafe _ s _ _ hst (List.mem_map.2 ⟨_, hm, rfl⟩))
    simp only [reLoop, hn, hl, Res.ok_bind, e1, specLoop]
    generalize visit (es.map (·.2)) s n.key n.value = a at *
    generalize a.calls.foldl (fun m c => spec c m) (es.map (·.2)) = m' at *
    have hl' : iterList t' = .ok m' := by
      obtain ⟨_, _, es', g1, g2, _⟩ := h2
      exact HoldsKV.iterList ⟨_, g1, g2⟩
    cases hgo : a.go with
    | false => exact ⟨rfl, rfl, hl', h2.good⟩
    | true =>
      simp only [if_true]
      obtain ⟨hg', hst', es', g1, rfl, hm'⟩ := h2
      obtain ⟨A, B, rfl⟩ := List.append_of_mem hm'
      have hsp := hst'
      simp only [Strict, List.map_append, List.map_cons, List.pairwise_append, List.pairwise_cons] at hsp
      have hfind : ((A ++ (i, n.key, v') :: B).map (·.2)).find? (fun x => decide (cmp n.key x.1 < 0)) = (B.map (·.2)).head? := by
        rw [List.map_append, List.find?_append, List.map_cons, List.find?_cons]
        have hA : (A.map (·.2)).find? (fun x => decide (cmp n.key x.1 < 0)) = none := by
          rw [List.find?_eq_none]
          intro a ha
          have h1 : cmp a.1 n.key < 0 := hsp.2.2 a ha (n.key, v') (by simp)
          have := hc.swap a.1 n.key
          simp; omega
        rw [hA]
        have := hc.refl n.key
        simp only [this, Int.lt_irrefl, decide_false, Option.none_or]
        cases B with
        | nil => rfl
        | cons b B =>
          have := hsp.2.1.1 b.2 (by simp)
          simp [this]
      rw [g1.1.successor, hfind, Res.ok_bind]
      cases B with
      | nil =>
        cases f with
        | zero => trivial
        | succ f => exact ⟨rfl, rfl, hl', hg'⟩
      | cons b B =>
        obtain ⟨j, k1, v1⟩ := b
        have := ih t' j k1 v1 _ a.st ⟨hg', hst', _, g1, rfl, by simp⟩
        simp only [List.map_cons, List.head?_cons, hd, Option.map_some] at this ⊢
        revert this
        generalize reLoop call visit f (some j) t' a.st = r1
        generalize specLoop cmp spec visit f (some (k1, v1)) _ a.st = r2
        intro this
        cases r1 <;> cases r2 <;> first | exact False.elim this | trivial | skip
        rename_i p1 p2
        obtain ⟨vs, s1, t1⟩ := p1
        obtain ⟨ws, s2, m2⟩ := p2
        obtain ⟨r1, r2, q1, q2⟩ := this
        subst r1 r2
        exact ⟨rfl, rfl, q1, q2⟩

theorem reTraversal_spec (hc : LawfulCmp cmp) (Good : Tree K V → Prop) (call : Call → Tree K V → Res (Tree K V)) (spec : Call → List (K × V) → List (K × V))
    (safe : K → List (K × V) → Call → Prop) (visit : Visitor K V σ Call)
    (hstep : ∀ t i k v m c, Has cmp Good t i k v m → safe k m c → ∃ t' v', call c t = .ok t' ∧ Has cmp Good t' i k v' (spec c m))
    (hsafe : ∀ m s k v, Strict cmp m → (k, v) ∈ m → AllSafe (safe k) spec (visit m s k v).calls m)
    {t : Tree K V} {m : List (K × V)} (hg : Good t) (hk : HoldsKV cmp t m) (hs : Strict cmp m) (f : Nat) (s : σ) :
    Agree Good (reTraversal call visit f t s) (specLoop cmp spec visit f m.head? m s) := by
  have hl := hk.iterList
  obtain ⟨es, h1, rfl⟩ := hk
  rw [reTraversal, h1.1.first, Res.ok_bind]
  cases es with
  | nil =>
    cases f with
    | zero => trivial
    | succ f => exact ⟨rfl, rfl, hl, hg⟩
  | cons e es =>
    obtain ⟨i, k, v⟩ := e
    exact reLoop_spec hc Good call spec safe visit hstep hsafe f t i k v _ s ⟨hg, hs, _, h1, rfl, by simp⟩

/-- **C96** A visitor of `Map.Traversal` may insert whatever it likes, and erase every key but the one visited and the one right before it: the traversal goes on
each time with the entry of the smallest key above the visited one, in the map as it then is, and the map is what the calls made of it. -/
theorem C96_map_partial (hc : LawfulCmp cmp) {t : Tree K V} {f : K → Option V} (h : MapHist cmp t f) {m : List (K × V)} (hm : iterList t = .ok m)
    (visit : Visitor K V σ (MapCall K V)) (hsafe : ∀ m s k v, Strict cmp m → (k, v) ∈ m → AllSafe (MapCall.Safe cmp k) (specMap cmp) (visit m s k v).calls m)
    (fuel : Nat) (s : σ) :
    Agree (fun t => ∃ f, MapHist cmp t f) (reTraversal (mapCall cmp) visit fuel t s) (specLoop cmp (specMap cmp) visit fuel m.head? m s) := by
  obtain ⟨kvs, h1, h2, -⟩ := mapHist_inv hc h
  rw [h1.iterList] at hm; cases hm
  refine reTraversal_spec hc _ _ _ (MapCall.Safe cmp) visit ?_ hsafe ⟨f, h⟩ h1 h2 fuel s
  rintro t i k v m c hh hs
  obtain ⟨g, hg⟩ := hh.good
  cases c with
  | insert x y =>
    obtain ⟨t', e⟩ := (C40_map_no_panic hc hg).1 x y
    obtain ⟨v', h'⟩ := has_insert hc hh x y e ⟨_, hg.insert e⟩
    exact ⟨t', v', e, h'⟩
  | erase x =>
    obtain ⟨t', e⟩ := (C40_map_no_panic hc hg).2.1 x
    exact ⟨t', v, e, has_erase hc hh x hs e ⟨_, hg.erase e⟩⟩

/-- **C96** The same for `Set.Traversal`. -/
theorem C96_set_partial (hc : LawfulCmp cmp) {t : Tree K Bool} {P : K → Prop} (h : SetHist cmp t P) {m : List (K × Bool)} (hm : iterList t = .ok m)
    (visit : Visitor K Bool σ (SetCall K))
    (hsafe : ∀ m s k v, Strict cmp m → (k, v) ∈ m → AllSafe (SetCall.Safe cmp k) (specSet cmp) (visit m s k v).calls m)
    (fuel : Nat) (s : σ) :
    Agree (fun t => ∃ P, SetHist cmp t P) (reTraversal (setCall cmp) visit fuel t s) (specLoop cmp (specSet cmp) visit fuel m.head? m s) := by
  obtain ⟨ks, ⟨kvs, h1, h2, h3⟩, -⟩ := setHist_inv hc h
  rw [h1.iterList] at hm; cases hm
  have hst : Strict cmp m := by rw [← h2] at h3; exact List.pairwise_map.1 h3
  refine reTraversal_spec hc _ _ _ (SetCall.Safe cmp) visit ?_ hsafe ⟨P, h⟩ h1 hst fuel s
  rintro t i k v m c hh hs
  obtain ⟨Q, hg⟩ := hh.good
  cases c with
  | insert x =>
    obtain ⟨t', e⟩ := (C43_set_no_panic hc hg x).1
    have hg' : ∃ P, SetHist cmp t' P := ⟨_, hg.insert e⟩
    refine ⟨t', ?_⟩
    obtain ⟨-, hs, es, g1, rfl, hm⟩ := hh
    rcases g1.findNode hc x with ⟨h4, h5⟩ | ⟨A, j, k', v', B, rfl, h4, h5, -⟩
    · have e' := e
      simp only [setInsert, h4, Res.ok_bind] at e'
      have hn : (es.map (·.2)).any (fun e => decide (cmp x e.1 = 0)) = false := by
        rw [List.any_eq_false]
        intro a ha
        obtain ⟨b, hb, rfl⟩ := List.mem_map.1 ha
        simpa using h5 b hb
      obtain ⟨v', h'⟩ := has_insert (Good := fun t => ∃ P, SetHist cmp t P) hc ⟨⟨Q, hg⟩, hs, es, g1, rfl, hm⟩ x true
        (by simp only [mapInsert, h4, Res.ok_bind]; exact e') hg'
      exact ⟨v', e, by simp only [specSet, hn, Bool.false_eq_true, if_false]; exact h'⟩
    · have e' := e
      simp only [setInsert, h4, Res.ok_bind, Res.pure_eq] at e'
      cases e'
      have hn : ((A ++ (j, k', v') :: B).map (·.2)).any (fun e => decide (cmp x e.1 = 0)) = true := by simp [h5]
      exact ⟨v, e, by simp only [specSet, hn, if_true]; exact ⟨⟨Q, hg⟩, hs, _, g1, rfl, hm⟩⟩
  | erase x =>
    obtain ⟨t', e⟩ := (C43_set_no_panic hc hg x).2
    exact ⟨t', v, e, has_erase hc hh x hs e ⟨_, hg.erase e⟩⟩

/-! ### What the walk over the list means -/

theorem putKV_strict (hc : LawfulCmp cmp) {m : List (K × V)} (h : Strict cmp m) (k : K) (v : V) : Strict cmp (putKV cmp k v m) := by
  cases hf : m.find? (fun e => decide (cmp k e.1 = 0)) with
  | none =>
    rw [List.find?_eq_none] at hf
    have hne : ∀ e ∈ m, cmp k e.1 ≠ 0 := fun e he => by simpa using hf e he
    rw [putKV_new k v m hne]
    obtain ⟨A, B, -, e2, h8⟩ := h.insert hc k v hne
    rw [e2]; exact h8
  | some e =>
    obtain ⟨A, B, rfl⟩ := List.append_of_mem (List.mem_of_find?_eq_some hf)
    have hk : cmp k e.1 = 0 := by simpa using List.find?_some hf
    rw [putKV_mid (k' := e.1) (v' := e.2) hc h hk]
    exact Strict.set (v := e.2) h

theorem specMap_strict (hc : LawfulCmp cmp) {m : List (K × V)} (h : Strict cmp m) (c : MapCall K V) : Strict cmp (specMap cmp c m) := by
  cases c with
  | insert k v => exact putKV_strict hc h k v
  | erase k => exact List.Pairwise.sublist List.filter_sublist h

theorem specMaps_strict (hc : LawfulCmp cmp) : ∀ (cs : List (MapCall K V)) {m : List (K × V)}, Strict cmp m →
    Strict cmp (cs.foldl (fun m c => specMap cmp c m) m)
  | [], _, h => h
  | c :: cs, _, h => specMaps_strict hc cs (specMap_strict hc h c)

theorem mem_putKV {m : List (K × V)} {k : K} {v : V} {e : K × V} (hk : cmp k e.1 ≠ 0) : e ∈ m → e ∈ putKV cmp k v m := by
  induction m with
  | nil => intro h; cases h
  | cons a m ih =>
    intro h
    simp only [putKV]
    split
    · exact List.mem_cons_of_mem _ h
    split
    · next h2 =>
      rcases List.mem_cons.1 h with rfl | h
      · exact absurd h2 hk
      · exact List.mem_cons_of_mem _ h
    · rcases List.mem_cons.1 h with rfl | h
      · exact List.mem_cons_self ..
      · exact List.mem_cons_of_mem _ (ih h)

/-- The key a call names. -/
def MapCall.key : MapCall K V → K
  | .insert k _ => k
  | .erase k => k

theorem mem_specMaps {e : K × V} : ∀ (cs : List (MapCall K V)) (m : List (K × V)), (∀ c ∈ cs, cmp c.key e.1 ≠ 0) → e ∈ m →
    e ∈ cs.foldl (fun m c => specMap cmp c m) m
  | [], _, _, h => h
  | c :: cs, m, hn, h => by
    refine mem_specMaps cs _ (fun c' hc' => hn c' (by simp [hc'])) ?_
    have := hn c (by simp)
    cases c with
    | insert k v => exact mem_putKV this h
    | erase k => exact List.mem_filter.2 ⟨h, by simpa [MapCall.key] using this⟩

theorem specLoop_sorted (hc : LawfulCmp cmp) (spec : Call → List (K × V) → List (K × V)) (visit : Visitor K V σ Call) :
    ∀ (f : Nat) (o : Option (K × V)) (m : List (K × V)) (s : σ) (r), specLoop cmp spec visit f o m s = .ok r →
      r.1.Pairwise (fun a b => cmp a.1 b.1 < 0) ∧ ∀ x, (∀ e, o = some e → cmp x e.1 < 0) → ∀ y ∈ r.1, cmp x y.1 < 0 := by
  intro f
  induction f with
  | zero => intro o m s r e; cases e
  | succ f ih =>
    intro o m s r e
    cases o with
    | none => cases e; exact ⟨.nil, by simp⟩
    | some c =>
      simp only [specLoop] at e
      generalize visit m s c.1 c.2 = a at e
      cases hg : a.go with
      | false =>
        simp only [hg, Bool.false_eq_true, if_false, Res.ok.injEq] at e
        subst e
        exact ⟨by simp, fun x hx y hy => by simp at hy; subst hy; exact hx _ rfl⟩
      | true =>
        simp only [hg, if_true, Res.bind_eq_ok] at e
        obtain ⟨r', e1, e2⟩ := e
        cases e2
        obtain ⟨h1, h2⟩ := ih _ _ _ _ e1
        have h3 := h2 c.1 fun e he => by simpa using List.find?_some he
        refine ⟨List.pairwise_cons.2 ⟨h3, h1⟩, fun x hx y hy => ?_⟩
        have hxc := hx c rfl
        rcases List.mem_cons.1 hy with rfl | hy
        · exact hxc
        · exact hc.lt_trans hxc (h3 y hy)

theorem specLoop_untouched (hc : LawfulCmp cmp) (visit : Visitor K V σ (MapCall K V)) (hgo : ∀ m s k v, (visit m s k v).go = true) (e : K × V)
    (hne : ∀ m s k v, ∀ c ∈ (visit m s k v).calls, cmp c.key e.1 ≠ 0) :
    ∀ (f : Nat) (c : K × V) (m : List (K × V)) (s : σ) (r), specLoop cmp (specMap cmp) visit f (some c) m s = .ok r → Strict cmp m → e ∈ m →
      (c = e ∨ cmp c.1 e.1 < 0) → e ∈ r.1 := by
  intro f
  induction f with
  | zero => intro c m s r h; cases h
  | succ f ih =>
    intro c m s r h hs hm hce
    have hg := hgo m s c.1 c.2
    have hn := hne m s c.1 c.2
    simp only [specLoop] at h
    generalize visit m s c.1 c.2 = a at h hg hn
    simp only [hg, if_true, Res.bind_eq_ok] at h
    obtain ⟨r', e1, e2⟩ := h
    cases e2
    rcases hce with rfl | hce
    · exact List.mem_cons_self ..
    · refine List.mem_cons_of_mem _ ?_
      have hs' := specMaps_strict hc a.calls hs
      have hm' := mem_specMaps a.calls m hn hm
      generalize a.calls.foldl (fun m c => specMap cmp c m) m = m' at *
      obtain ⟨A, B, rfl⟩ := List.append_of_mem hm'
      cases hA : A.find? (fun x => decide (cmp c.1 x.1 < 0)) with
      | none =>
        rw [List.find?_append, hA, Option.none_or, List.find?_cons_of_pos (by simpa using hce)] at e1
        exact ih e _ _ _ e1 hs' hm' (.inl rfl)
      | some x =>
        rw [List.find?_append, hA, Option.some_or] at e1
        refine ih x _ _ _ e1 hs' hm' (.inr ?_)
        simp only [Strict, List.pairwise_append] at hs'
        exact hs'.2.2 x (List.mem_of_find?_eq_some hA) e (by simp)

/-- **C96** Such a traversal visits keys in strictly increasing order, so none twice; and, if the visitor always goes on, every entry that was there at the start and
that no call names. -/
theorem C96_map_visits_partial (hc : LawfulCmp cmp) {t t' : Tree K V} {f : K → Option V} (h : MapHist cmp t f) {m : List (K × V)} (hm : iterList t = .ok m)
    (visit : Visitor K V σ (MapCall K V)) (hsafe : ∀ m s k v, Strict cmp m → (k, v) ∈ m → AllSafe (MapCall.Safe cmp k) (specMap cmp) (visit m s k v).calls m)
    {fuel : Nat} {s s' : σ} {vs : List (K × V)} (hr : reTraversal (mapCall cmp) visit fuel t s = .ok (vs, s', t')) :
    vs.Pairwise (fun a b => cmp a.1 b.1 < 0) ∧
    ((∀ m s k v, (visit m s k v).go = true) → ∀ e ∈ m, (∀ m s k v, ∀ c ∈ (visit m s k v).calls, cmp c.key e.1 ≠ 0) → e ∈ vs) := by
  have ha := C96_map_partial hc h hm visit hsafe fuel s
  obtain ⟨kvs, h1, h2, -⟩ := mapHist_inv hc h
  rw [h1.iterList] at hm; cases hm
  rw [hr] at ha
  cases hq : specLoop cmp (specMap cmp) visit fuel m.head? m s with
  | panic => rw [hq] at ha; exact ha.elim
  | outOfFuel => rw [hq] at ha; exact ha.elim
  | ok r =>
    obtain ⟨ws, s2, m2⟩ := r
    rw [hq] at ha
    obtain ⟨rfl, -, -, -⟩ := ha
    refine ⟨(specLoop_sorted hc _ visit _ _ _ _ _ hq).1, fun hgo e he hne => ?_⟩
    cases m with
    | nil => cases he
    | cons c m =>
      refine specLoop_untouched hc visit hgo e hne fuel c _ s _ hq h2 he ?_
      rcases List.mem_cons.1 he with rfl | he
      · exact .inl rfl
      · exact .inr ((List.pairwise_cons.1 h2).1 e he)

theorem countP_putKV (hc : LawfulCmp cmp) (x : K) (k : K) (v : V) (hk : cmp k x ≤ 0) (m : List (K × V)) :
    (putKV cmp k v m).countP (fun e => decide (cmp x e.1 < 0)) = m.countP (fun e => decide (cmp x e.1 < 0)) := by
  have : ¬ cmp x k < 0 := by have := hc.swap x k; omega
  induction m with
  | nil => simp [putKV, this]
  | cons a m ih =>
    simp only [putKV]
    split
    · simp [List.countP_cons, this]
    split
    · simp [List.countP_cons]
    · simp [List.countP_cons, ih]

theorem specLoop_ends (hc : LawfulCmp cmp) (visit : Visitor K V σ (MapCall K V))
    (hins : ∀ m s k v x y, MapCall.insert x y ∈ (visit m s k v).calls → cmp x k ≤ 0) :
    ∀ (f : Nat) (e : K × V) (m : List (K × V)) (s : σ), m.countP (fun x => decide (cmp e.1 x.1 < 0)) + 1 < f →
      ∃ r, specLoop cmp (specMap cmp) visit f (some e) m s = .ok r := by
  have hcalls : ∀ (k : K) (cs : List (MapCall K V)) (m : List (K × V)), (∀ x y, MapCall.insert x y ∈ cs → cmp x k ≤ 0) →
      (cs.foldl (fun m c => specMap cmp c m) m).countP (fun x => decide (cmp k x.1 < 0)) ≤ m.countP (fun x => decide (cmp k x.1 < 0)) := by
    intro k cs
    induction cs with
    | nil => intro m _; exact Nat.le_refl _
    | cons c cs ih =>
      intro m hi
      refine Nat.le_trans (ih _ fun x y h => hi x y (by simp [h])) ?_
      cases c with
      | insert x y => exact Nat.le_of_eq (countP_putKV hc k x y (hi x y (by simp)) m)
      | erase x => exact List.Sublist.countP_le List.filter_sublist
  intro f
  induction f with
  | zero => intro e m s h; omega
  | succ f ih =>
    intro e m s h
    have hi := hins m s e.1 e.2
    simp only [specLoop]
    generalize visit m s e.1 e.2 = a at hi
    have hle := hcalls e.1 a.calls m hi
    generalize a.calls.foldl (fun m c => specMap cmp c m) m = m' at *
    cases a.go with
    | false => exact ⟨_, rfl⟩
    | true =>
      simp only [if_true]
      cases hf : m'.find? (fun x => decide (cmp e.1 x.1 < 0)) with
      | none =>
        obtain ⟨g, rfl⟩ : ∃ g, f = g + 1 := ⟨f - 1, by omega⟩
        exact ⟨_, rfl⟩
      | some c =>
        have hec : cmp e.1 c.1 < 0 := by simpa using List.find?_some hf
        have hlt : m'.countP (fun x => decide (cmp c.1 x.1 < 0)) < m'.countP (fun x => decide (cmp e.1 x.1 < 0)) := by
          obtain ⟨A, B, rfl⟩ := List.append_of_mem (List.mem_of_find?_eq_some hf)
          have hcc := hc.refl c.1
          have h1 : ∀ L : List (K × V), L.countP (fun x => decide (cmp c.1 x.1 < 0)) ≤ L.countP (fun x => decide (cmp e.1 x.1 < 0)) := fun L =>
            List.countP_mono_left fun x _ hx => by simpa using hc.lt_trans hec (by simpa using hx)
          have := h1 A
          have := h1 B
          simp only [List.countP_append, List.countP_cons, hcc, hec, Int.lt_irrefl, decide_true, decide_false, if_true, Bool.false_eq_true, if_false]
          omega
        obtain ⟨r, hr⟩ := ih c m' a.st (by omega)
        exact ⟨_, by rw [hr]; rfl⟩

/-- **C96** If, moreover, the visitor inserts no key above the visited one, the traversal ends, after at most as many visits as there were entries. -/
theorem C96_map_ends_partial (hc : LawfulCmp cmp) {t : Tree K V} {f : K → Option V} (h : MapHist cmp t f) {m : List (K × V)} (hm : iterList t = .ok m)
    (visit : Visitor K V σ (MapCall K V)) (hsafe : ∀ m s k v, Strict cmp m → (k, v) ∈ m → AllSafe (MapCall.Safe cmp k) (specMap cmp) (visit m s k v).calls m)
    (hins : ∀ m s k v x y, MapCall.insert x y ∈ (visit m s k v).calls → cmp x k ≤ 0) (s : σ) :
    ∃ r, reTraversal (mapCall cmp) visit (m.length + 1) t s = .ok r := by
  have ha := C96_map_partial hc h hm visit hsafe (m.length + 1) s
  have : ∃ r, specLoop cmp (specMap cmp) visit (m.length + 1) m.head? m s = .ok r := by
    cases m with
    | nil => exact ⟨_, rfl⟩
    | cons e m =>
      refine specLoop_ends hc visit hins _ e _ s ?_
      have h1 : ¬ cmp e.1 e.1 < 0 := by have := hc.refl e.1; omega
      have := List.countP_le_length (p := fun x : K × V => decide (cmp e.1 x.1 < 0)) (l := m)
      simp only [List.countP_cons, h1, decide_false, Bool.false_eq_true, if_false, List.length_cons]
      omega
  obtain ⟨r, hr⟩ := this
  rw [hr] at ha
  cases hq : reTraversal (mapCall cmp) visit (m.length + 1) t s with
  | ok r' => exact ⟨r', rfl⟩
  | panic => rw [hq] at ha; exact ha.elim
  | outOfFuel => rw [hq] at ha; exact ha.elim

/-! ### Examples -/

/-- A visitor that, at every odd key `k`, inserts `k + 10` and `k - 10`, gives `k` the value 0 and erases `k + 1`. -/
def exVisit : Visitor Int Int Nat (MapCall Int Int) := fun _ n k _ =>
  if k % 2 = 1 then ⟨n + 1, [.insert (k + 10) 7, .insert (k - 10) 8, .insert k 0, .erase (k + 1)], decide (k < 20)⟩ else ⟨n + 1, [], true⟩

/-- The visitor of the example makes safe calls only. -/
theorem exVisit_safe (m : List (Int × Int)) (s : Nat) (k v : Int) (_ : Strict intCmp m) (_ : (k, v) ∈ m) :
    AllSafe (MapCall.Safe intCmp k) (specMap intCmp) (exVisit m s k v).calls m := by
  simp only [exVisit]
  split
  · refine ⟨trivial, trivial, trivial, ⟨?_, .inl ?_⟩, trivial⟩ <;> simp only [intCmp] <;> split <;> (try split) <;> omega
  · trivial

/-- A visitor that erases `x` while it is at `k`. -/
def exErase (k x : Int) : Visitor Int Int Unit (MapCall Int Int) := fun _ _ j _ => ⟨(), if j = k then [.erase x] else [], true⟩

/-- What a traversal visited, and what the map holds afterwards. -/
def outcome {τ : Type} (r : Res (List (Int × Int) × τ × Tree Int Int)) : Res (List (Int × Int) × τ × List (Int × Int)) := do
  let (vs, s, t) ← r
  let m ← iterList t
  .ok (vs, s, m)

set_option maxRecDepth 40000 in
/-- A walk with safe calls: at 1 the entries 11 and -9 are added and 2 is erased; at 3 the entries 13 and -7; 11 and 13 are visited as well. -/
theorem C96_demo : ∃ t f, MapHist intCmp t f ∧ iterList t = .ok [(1, 10), (2, 20), (3, 30)] ∧
    outcome (reTraversal (mapCall intCmp) exVisit 40 t 0) =
      .ok ([(1, 10), (3, 30), (11, 7), (13, 7), (21, 7)], 5,
        [(-9, 8), (-7, 8), (1, 8), (3, 8), (11, 8), (13, 0), (21, 0), (23, 7), (31, 7)]) := by
  have h0 : ∃ t, buildMap [(2, 20), (1, 10), (3, 30)] Tree.new = .ok t ∧ iterList t = .ok [(1, 10), (2, 20), (3, 30)] ∧
      outcome (reTraversal (mapCall intCmp) exVisit 40 t 0) =
      .ok ([(1, 10), (3, 30), (11, 7), (13, 7), (21, 7)], 5,
        [(-9, 8), (-7, 8), (1, 8), (3, 8), (11, 8), (13, 0), (21, 0), (23, 7), (31, 7)]) := ⟨_, rfl, rfl, rfl⟩
  obtain ⟨t, e1, e2, e3⟩ := h0
  exact ⟨t, _, buildMap_hist _ _ _ _ .new e1, e2, e3⟩

set_option maxRecDepth 40000 in
/-- **C96 (violation)** Erasing the visited key may end the walk before an entry nobody touched; erasing the key right before it may visit an entry twice. -/
theorem C96_map_violated : ∃ t f, MapHist intCmp t f ∧ iterList t = .ok [(1, 10), (2, 20), (3, 30)] ∧
    outcome (reTraversal (mapCall intCmp) (exErase 2 2) 40 t ()) = .ok ([(1, 10), (2, 20)], (), [(1, 10), (3, 30)]) ∧
    outcome (reTraversal (mapCall intCmp) (exErase 3 2) 40 t ()) = .ok ([(1, 10), (2, 20), (3, 30), (3, 30)], (), [(1, 10), (3, 30)]) := by
  have h0 : ∃ t, buildMap [(2, 20), (1, 10), (3, 30)] Tree.new = .ok t ∧ iterList t = .ok [(1, 10), (2, 20), (3, 30)] ∧
    outcome (reTraversal (mapCall intCmp) (exErase 2 2) 40 t ()) = .ok ([(1, 10), (2, 20)], (), [(1, 10), (3, 30)]) ∧
    outcome (reTraversal (mapCall intCmp) (exErase 3 2) 40 t ()) = .ok ([(1, 10), (2, 20), (3, 30), (3, 30)], (), [(1, 10), (3, 30)]) :=
    ⟨_, rfl, rfl, rfl, rfl⟩
  obtain ⟨t, e1, e2, e3⟩ := h0
  exact ⟨t, _, buildMap_hist _ _ _ _ .new e1, e2, e3⟩

end GoSTL.TreeMap
