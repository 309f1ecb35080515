import Verif.Hamt.Trav
/-!
# C47–C50: the hash array mapped trie
-/
namespace GoSTL.Hamt
variable {T : Type} {σ : Type}

/-! ## Specification -/

/-- One call on a finite map. -/
def specStep (op : Op T) (m : Key → Option T) : Out T × (Key → Option T) :=
  match op with
  | .insert k v => (.unit, fun k' => if k' = k then some v else m k')
  | .get k => (.val (m k), m)
  | .erase k => (.bool (m k).isSome, fun k' => if k' = k then none else m k')

/-- A history on a finite map. -/
def specRun : List (Op T) → (Key → Option T) → List (Out T) × (Key → Option T)
  | [], m => ([], m)
  | op :: ops, m =>
    let (o, m) := specStep op m
    let (os, m) := specRun ops m
    (o :: os, m)

/-- The map that holds nothing. -/
def emptyMap : Key → Option T := fun _ => none

/-! ## The trie agrees with the map -/

/-- The trie is well formed and holds the pairs of the map. -/
def Agree (hashOf : Key → Hash) (h : Node T) (m : Key → Option T) : Prop :=
  WFN hashOf [] h ∧ ∀ k v, HasL h.children k v ↔ m k = some v

theorem agree_new (hashOf : Key → Hash) : Agree hashOf (new : Node T) emptyMap :=
  ⟨⟨by simp, bits_zero.symm, by simp [new]⟩, fun k v => ⟨fun ⟨_, h, _⟩ => by simp [new] at h, fun h => by simp [emptyMap] at h⟩⟩

theorem step_agree {hashOf : Key → Hash} {h : Node T} {m : Key → Option T} (ha : Agree hashOf h m) (op : Op T) :
    ∃ h', step hashOf op h = .ok ((specStep op m).1, h') ∧ Agree hashOf h' (specStep op m).2 := by
  obtain ⟨hw, hm⟩ := ha
  cases op with
  | insert k v =>
    have := insert_spec levels [] h (hashOf k) [(k, v)] hw (by simp [levels]) (OnPath.nil _) (by simp) (by simp) (by simp) (.inl rfl)
    obtain ⟨h', e, w, c⟩ := this
    refine ⟨h', ?_, w, ?_⟩
    · simp only [step, Insert]
      rw [show insert levels 0 h (hashOf k) [(k, v)] = .ok h' from e]; rfl
    · intro k' v'
      rw [c, hm]
      simp only [specStep]
      by_cases ck : k' = k
      · subst ck
        simp [eq_comm]
      · simp [ck]
  | get k =>
    obtain ⟨r, e, c⟩ := find_spec k levels [] h hw (by simp [levels]) (OnPath.nil _)
    have hr : r = m k := by
      apply Option.ext
      intro v
      rw [c, hm]
    refine ⟨h, ?_, hw, hm⟩
    simp only [step, Get]
    rw [show find levels 0 h (hashOf k) k = .ok r from e, hr]; rfl
  | erase k =>
    obtain ⟨b, h', e, w, hb, c⟩ := erase_spec k levels [] h hw (by simp [levels]) (OnPath.nil _)
    have hr : b = (m k).isSome := by
      rw [Bool.eq_iff_iff, hb, Option.isSome_iff_exists]
      simp only [hm]
    refine ⟨h', ?_, w, ?_⟩
    · simp only [step, Erase]
      rw [show erase levels 0 h (hashOf k) k = .ok (b, h') from e, hr]; rfl
    · intro k' v'
      rw [c, hm]
      simp only [specStep]
      by_cases ck : k' = k
      · simp [ck]
      · simp [ck]

theorem run_agree {hashOf : Key → Hash} : ∀ (ops : List (Op T)) {h : Node T} {m : Key → Option T}, Agree hashOf h m →
    ∃ h', run hashOf ops h = .ok ((specRun ops m).1, h') ∧ Agree hashOf h' (specRun ops m).2 := by
  intro ops
  induction ops with
  | nil => intro h m ha; exact ⟨h, rfl, ha⟩
  | cons op ops ih =>
    intro h m ha
    obtain ⟨h1, e1, a1⟩ := step_agree ha op
    obtain ⟨h2, e2, a2⟩ := ih a1
    refine ⟨h2, ?_, a2⟩
    simp only [run, e1, Res.ok_bind, e2]
    rfl

/-! ## C47 -/

/-- C47: for every hash function and every history, each call on a `Hamt` returns what a finite map returns; no call panics or loops. -/
theorem C47_hamt_is_a_map (hashOf : Key → Hash) (ops : List (Op T)) :
    ∃ h, run hashOf ops (new : Node T) = .ok ((specRun ops emptyMap).1, h) :=
  let ⟨h, e, _⟩ := run_agree ops (agree_new hashOf)
  ⟨h, e⟩

/-- A history with full and partial collisions: all keys of one length collide, and lengths 1 and 65 share the first slot. -/
example : (run (fun k => BitVec.ofNat 64 k.length) [.insert [1] 10, .insert [2] 20, .insert (List.replicate 65 0) 30, .insert [1] 11, .get [1], .erase [2], .get [2], .erase [2], .get (List.replicate 65 0)] (new : Node Nat)).bind (fun r => .ok r.1)
    = .ok [.unit, .unit, .unit, .unit, .val (some 11), .bool true, .val none, .bool false, .val (some 30)] := rfl

/-! ## C48 -/

theorem traversal_agree {hashOf : Key → Hash} {h : Node T} {m : Key → Option T} (ha : Agree hashOf h m) :
    ∃ L : List (Key × T), (L.map Prod.fst).Nodup ∧ (∀ k v, (k, v) ∈ L ↔ m k = some v) ∧
      ∀ (σ : Type) (visit : σ → Key → T → σ × Bool) (s : σ), (∀ s k v, (visit s k v).2 = true) →
        Traversal visit h s = .ok (L.foldl (fun s x => (visit s x.1 x.2).1) s) := by
  obtain ⟨w, hm⟩ := ha
  obtain ⟨f1, f2⟩ := flatL_has w
  refine ⟨flatL h.children, f2, fun k v => by rw [f1, hm], ?_⟩
  intro σ visit s hv
  obtain ⟨V, e1, e2⟩ := traversal_spec visit levels [] h.children s (by simp) w.sub (by simp [levels])
  rw [Traversal, e1]
  cases e2 with
  | all e _ => rw [e]; rfl
  | stopped A B V' x _ _ h3 _ _ => rw [hv] at h3; cases h3

theorem keys_agree {hashOf : Key → Hash} {h : Node T} {m : Key → Option T} (ha : Agree hashOf h m) :
    ∃ ks, Keys h = .ok ks ∧ ks.Nodup ∧ ∀ k, k ∈ ks ↔ (m k).isSome = true := by
  obtain ⟨L, h1, h2, h3⟩ := traversal_agree ha
  refine ⟨L.map Prod.fst, ?_, h1, ?_⟩
  · rw [Keys, h3 _ _ _ (fun _ _ _ => rfl)]
    have : ∀ (L : List (Key × T)) (acc : List Key), L.foldl (fun s x => s ++ [x.1]) acc = acc ++ L.map Prod.fst := by
      intro L
      induction L with
      | nil => simp
      | cons x L ih => intro acc; simp [ih]
    exact congrArg Res.ok (by simpa using this L [])
  · intro k
    rw [Option.isSome_iff_exists]
    simp only [← h2, List.mem_map]
    constructor
    · rintro ⟨x, hx, rfl⟩; exact ⟨x.2, hx⟩
    · rintro ⟨v, hv⟩; exact ⟨_, hv, rfl⟩

/-- C48: after every history there is one listing of the map, each key once, which every visitor that never stops is taken through. -/
theorem C48_traversal_lists_the_map (hashOf : Key → Hash) (ops : List (Op T)) (h : Node T) (os : List (Out T))
    (hr : run hashOf ops (new : Node T) = .ok (os, h)) :
    ∃ L : List (Key × T), (L.map Prod.fst).Nodup ∧ (∀ k v, (k, v) ∈ L ↔ (specRun ops emptyMap).2 k = some v) ∧
      ∀ (σ : Type) (visit : σ → Key → T → σ × Bool) (s : σ), (∀ s k v, (visit s k v).2 = true) →
        Traversal visit h s = .ok (L.foldl (fun s x => (visit s x.1 x.2).1) s) := by
  obtain ⟨h', e, ha⟩ := run_agree ops (agree_new (T := T) hashOf)
  rw [e] at hr; cases hr
  exact traversal_agree ha

/-- C48: after every history `Keys` returns each present key once and nothing else. -/
theorem C48_keys (hashOf : Key → Hash) (ops : List (Op T)) (h : Node T) (os : List (Out T)) (hr : run hashOf ops (new : Node T) = .ok (os, h)) :
    ∃ ks, Keys h = .ok ks ∧ ks.Nodup ∧ ∀ k, k ∈ ks ↔ ((specRun ops emptyMap).2 k).isSome = true := by
  obtain ⟨h', e, ha⟩ := run_agree ops (agree_new (T := T) hashOf)
  rw [e] at hr; cases hr
  exact keys_agree ha

/-! ## C49 -/

/-- C49, the part that holds: everything up to and including the first entry for which the visitor says stop is visited in the listing order, and
what is visited after that is a part of the rest of the listing, each entry at most once. Missing: after the first stop nothing more may be visited. -/
theorem C49_traversal_partial (hashOf : Key → Hash) (ops : List (Op T)) (h : Node T) (os : List (Out T))
    (hr : run hashOf ops (new : Node T) = .ok (os, h)) :
    ∃ L : List (Key × T), (L.map Prod.fst).Nodup ∧ (∀ k v, (k, v) ∈ L ↔ (specRun ops emptyMap).2 k = some v) ∧
      ∀ (σ : Type) (visit : σ → Key → T → σ × Bool) (s : σ), ∃ V, Traversal visit h s = .ok (visits visit s V) ∧ Visited visit s L V := by
  obtain ⟨h', e, w, hm⟩ := run_agree ops (agree_new (T := T) hashOf)
  rw [e] at hr; cases hr
  obtain ⟨f1, f2⟩ := flatL_has w
  exact ⟨flatL h.children, f2, fun k v => by rw [f1, hm],
    fun σ visit s => traversal_spec visit levels [] h.children s (by simp) w.sub (by simp [levels])⟩

/-- C49 is false of the code: with the hash function the code uses, three one-byte keys, and a visitor that says stop at once, two keys are visited. -/
theorem C49_violated : ∃ (ops : List (Op Nat)) (os : List (Out Nat)) (h : Node Nat), run fnv1 ops new = .ok (os, h) ∧
    Traversal (fun (s : List Key) k _ => (s ++ [k], false)) h [] = .ok [[64], [32]] := by
  refine ⟨[.insert [0] 1, .insert [64] 2, .insert [32] 3], _, _, rfl, rfl⟩

/-- When the root holds no nested node the traversal stops at the first stop. -/
theorem travLoop_flat (visit : σ → Key → T → σ × Bool) (rec : List (Entry T) → σ → Res σ) : ∀ (cs : List (Entry T)) (s : σ),
    (∀ c ∈ cs, ∃ hh l, c = .kv hh l) → travLoop visit rec cs s = .ok (visitKvs visit (flatL cs) s).1 := by
  intro cs
  induction cs with
  | nil => intro s _; rfl
  | cons c cs ih =>
    intro s hc
    obtain ⟨hh, l, rfl⟩ := hc c (by simp)
    have key : ∀ (l : List (Key × T)) (R : List (Key × T)) (s : σ), visitKvs visit (l ++ R) s = cond (visitKvs visit l s).2 (visitKvs visit R (visitKvs visit l s).1) (visitKvs visit l s) := by
      intro l R
      induction l with
      | nil => intro s; rfl
      | cons y l ihl =>
        obtain ⟨k, v⟩ := y
        intro s
        simp only [List.cons_append, visitKvs]
        rcases visit s k v with ⟨s', b⟩
        cases b with
        | true => exact ihl s'
        | false => rfl
    simp only [travLoop, flatL, flat, key]
    rcases visitKvs visit l s with ⟨s', b⟩
    cases b with
    | true => exact ih s' (fun x hx => hc x (by simp [hx]))
    | false => rfl

/-! ## C50 -/

/-- `Below cs cs' d`: `cs'` are the children of a nested bitmap node that is `d` levels below the node with children `cs`. -/
inductive Below : List (Entry T) → List (Entry T) → Nat → Prop
  | child {cs bm p cs'} : Entry.node bm p cs' ∈ cs → Below cs cs' 1
  | deeper {cs bm p cs' cs'' d} : Entry.node bm p cs' ∈ cs → Below cs' cs'' d → Below cs cs'' (d + 1)

theorem below_spec {hashOf : Key → Hash} {cs cs' : List (Entry T)} {d : Nat} (hb : Below cs cs' d) : ∀ path : List Nat,
    (∀ c ∈ cs, WF hashOf (path ++ [posAt path.length c]) c) → path.length + d ≤ 10 ∧ TwoHashes hashOf cs' := by
  induction hb with
  | child hm =>
    intro path hw
    obtain ⟨a, b⟩ := (hw _ hm).wfn
    exact ⟨by simpa using a.len, b⟩
  | deeper hm hb ih =>
    intro path hw
    obtain ⟨a, b⟩ := (hw _ hm).wfn
    obtain ⟨c, d⟩ := ih _ a.sub
    simp at c
    exact ⟨by omega, d⟩

/-- C50: after every history with every hash function, nested nodes are at most 10 levels below the root (11 levels in all), and each of them
holds keys with at least two different hashes. -/
theorem C50_depth_and_shape (hashOf : Key → Hash) (ops : List (Op T)) (h : Node T) (os : List (Out T))
    (hr : run hashOf ops (new : Node T) = .ok (os, h)) (cs : List (Entry T)) (d : Nat) (hb : Below h.children cs d) :
    d ≤ 10 ∧ ∃ k v k' v', HasL cs k v ∧ HasL cs k' v' ∧ hashOf k ≠ hashOf k' := by
  obtain ⟨h', e, w, hm⟩ := run_agree ops (agree_new (T := T) hashOf)
  rw [e] at hr; cases hr
  obtain ⟨a, b⟩ := below_spec hb [] w.sub
  exact ⟨by simpa using a, b⟩

/-- Keys whose hashes differ in the last bits only go down all 11 levels; erasing one of them undoes every level. -/
example : ∃ (os : List (Out Nat)) (h : Node Nat), run (fun k => if k = [0] then 0 else 1 <<< 60) [.insert [0] 1, .insert [1] 2] new = .ok (os, h) ∧
    ∃ cs, Below h.children cs 10 :=
  ⟨_, _, rfl, _, .deeper (.head _) (.deeper (.head _) (.deeper (.head _) (.deeper (.head _) (.deeper (.head _) (.deeper (.head _) (.deeper (.head _) (.deeper (.head _) (.deeper (.head _) (.child (.head _))))))))))⟩

/-- In a trie without nested nodes a traversal does stop. -/
theorem C49_flat_root_partial (h : Node T) (hf : ∀ c ∈ h.children, ∃ hh l, c = Entry.kv hh l) (visit : σ → Key → T → σ × Bool) (s : σ) :
    Traversal visit h s = .ok (visitKvs visit (flatL h.children) s).1 := travLoop_flat visit _ _ s hf

/-! ### The theorems on a history with collisions -/

/-- The hash is the length of the key: `[1]` and `[2]` collide, the key of length 65 shares their first slot. -/
def demoHash (k : Key) : Hash := BitVec.ofNat 64 k.length
/-- Insertions with long keys, replacements and erasures. -/
def demoOps : List (Op Nat) := [.insert [1] 10, .insert [2] 20, .insert (List.replicate 65 0) 30, .insert [1] 11, .insert [] 5, .erase [2]]

theorem demo_run : ∃ os h, run demoHash demoOps (new : Node Nat) = .ok (os, h) ∧ Keys h = .ok [[], [1], List.replicate 65 0] ∧ ∃ cs, Below h.children cs 1 :=
  ⟨_, _, rfl, rfl, _, .child (List.mem_cons_of_mem _ (List.mem_cons_self ..))⟩

example : ∃ h, run demoHash demoOps (new : Node Nat) = .ok ((specRun demoOps emptyMap).1, h) := C47_hamt_is_a_map demoHash demoOps
/-- `C48_traversal_lists_the_map`: the values sum up to 46. -/
example : ∃ h : Node Nat, (∃ os, run demoHash demoOps new = .ok (os, h)) ∧ ∃ L : List (Key × Nat), (∀ k v, (k, v) ∈ L ↔ (specRun demoOps emptyMap).2 k = some v) ∧
    Traversal (fun (s : Nat) _ v => (s + v, true)) h 0 = .ok (L.foldl (fun s x => s + x.2) 0) := by
  obtain ⟨os, h, e, -⟩ := demo_run
  obtain ⟨L, -, h2, h3⟩ := C48_traversal_lists_the_map _ _ h os e
  exact ⟨h, ⟨os, e⟩, L, h2, h3 Nat (fun s _ v => (s + v, true)) 0 fun _ _ _ => rfl⟩
/-- `C48_keys`. -/
example : ∃ h : Node Nat, Keys h = .ok [[], [1], List.replicate 65 0] ∧ ∀ k, k ∈ [[], [1], List.replicate 65 0] ↔ ((specRun demoOps emptyMap).2 k).isSome = true := by
  obtain ⟨os, h, e, ek, -⟩ := demo_run
  obtain ⟨ks, e', -, h2⟩ := C48_keys _ _ h os e
  rw [ek] at e'; cases e'
  exact ⟨h, ek, h2⟩
/-- `C49_traversal_partial`, `C50_depth_and_shape` on this trie. -/
example : ∃ (h : Node Nat) (L : List (Key × Nat)), Keys h = .ok [[], [1], List.replicate 65 0] ∧
    ∃ V, Traversal (fun (s : List Key) k _ => (s ++ [k], false)) h [] = .ok (visits (fun (s : List Key) k _ => (s ++ [k], false)) [] V) ∧
      Visited (fun (s : List Key) k _ => (s ++ [k], false)) [] L V := by
  obtain ⟨os, h, e, ek, -⟩ := demo_run
  obtain ⟨L, -, -, h3⟩ := C49_traversal_partial _ _ h os e
  exact ⟨h, L, ek, h3 _ _ _⟩
example : ∃ (h : Node Nat) (cs : List (Entry Nat)), Below h.children cs 1 ∧ ∃ k v k' v', HasL cs k v ∧ HasL cs k' v' ∧ demoHash k ≠ demoHash k' := by
  obtain ⟨os, h, e, -, cs, hb⟩ := demo_run
  exact ⟨h, cs, hb, (C50_depth_and_shape _ _ h os e cs 1 hb).2⟩
/-- `C49_flat_root_partial`: three keys in different slots; the visitor that stops at once sees one key. -/
example : ∃ (os : List (Out Nat)) (h : Node Nat), run demoHash [.insert [] 1, .insert [0] 2, .insert [0, 0] 3] new = .ok (os, h) ∧
    Traversal (fun (s : List Key) k _ => (s ++ [k], false)) h [] = .ok [[]] := by
  refine ⟨_, _, rfl, (C49_flat_root_partial _ ?_ _ _).trans rfl⟩
  intro c hc
  simp only [List.mem_cons, List.not_mem_nil, or_false] at hc
  rcases hc with rfl | rfl | rfl <;> exact ⟨_, _, rfl⟩

end GoSTL.Hamt
