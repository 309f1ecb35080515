import Verif.Hamt.HeapProps
/-!
# C49: what a visitor that says stop does not get to see

A "stop" ends the loop of the innermost node only (hamt.go:164-177). Which entries are skipped, then, depends on the hashes of the keys alone.
-/
namespace GoSTL.Hamt
variable {T σ : Type}

/-- The lowest `6 * n` bits of the hashes agree. -/
def SameBits (n : Nat) (a b : Hash) : Prop := a.toNat % 2 ^ (6 * n) = b.toNat % 2 ^ (6 * n)

/-- Among the `present` keys whose hash is not that of `x`, none has a hash that agrees with that of `x` further, counted from the lowest bits in steps of six, than that of `y` does. -/
def Nearest (hashOf : Key → Hash) (present : Key → Prop) (x y : Key) : Prop :=
  ∀ z n, present z → hashOf z ≠ hashOf x → SameBits n (hashOf z) (hashOf x) → SameBits n (hashOf y) (hashOf x)

open Classical in
/-- Of the entries `E`, in this order, those of `V` are shown to the visitor: after a stop at `x`, the entries whose keys are `Nearest` to `x` are left out, and the others still
come. -/
inductive Shown (hashOf : Key → Hash) (present : Key → Prop) (visit : σ → Key → T → σ × Bool) : σ → List (Key × T) → List (Key × T) → Prop
  | nil {s} : Shown hashOf present visit s [] []
  | go {s x E V} : (visit s x.1 x.2).2 = true → Shown hashOf present visit (visit s x.1 x.2).1 E V → Shown hashOf present visit s (x :: E) (x :: V)
  | stop {s x E V} : (visit s x.1 x.2).2 = false →
      Shown hashOf present visit (visit s x.1 x.2).1 (E.filter fun y => ¬ Nearest hashOf present x.1 y.1) V → Shown hashOf present visit s (x :: E) (x :: V)

/-- The specification leaves no choice. -/
theorem Shown.unique {hashOf : Key → Hash} {present : Key → Prop} {visit : σ → Key → T → σ × Bool} {s : σ} {E V V' : List (Key × T)}
    (h : Shown hashOf present visit s E V) (h' : Shown hashOf present visit s E V') : V = V' := by
  induction h generalizing V' with
  | nil => cases h'; rfl
  | go e _ ih =>
    cases h' with
    | go e' h' => rw [ih h']
    | stop e' h' => rw [e] at e'; cases e'
  | stop e _ ih =>
    cases h' with
    | go e' h' => rw [e] at e'; cases e'
    | stop e' h' => rw [ih h']

theorem pos_eq (h : Hash) (i : Nat) : pos h i = h.toNat / 2 ^ (6 * i) % 64 := by
  have e : (63 : BitVec 64) = BitVec.ofNat 64 63 := rfl
  simp only [pos, BitVec.toNat_and, BitVec.toNat_ushiftRight, Nat.shiftRight_eq_div_pow, Nat.mul_comm i 6]
  exact Nat.and_two_pow_sub_one_eq_mod _ 6

theorem sameBits_iff (a b : Hash) : ∀ n, SameBits n a b ↔ ∀ i < n, pos a i = pos b i := by
  intro n
  induction n with
  | zero => simp [SameBits, Nat.mod_one]
  | succ n ih =>
    have key : ∀ x : Nat, x % 2 ^ (6 * (n + 1)) = x % 2 ^ (6 * n) + 2 ^ (6 * n) * (x / 2 ^ (6 * n) % 64) := by
      intro x
      rw [show 2 ^ (6 * (n + 1)) = 2 ^ (6 * n) * 64 by rw [Nat.mul_add, Nat.pow_add], Nat.mod_mul]
    constructor
    · intro h
      have h : a.toNat % 2 ^ (6 * (n + 1)) = b.toNat % 2 ^ (6 * (n + 1)) := h
      have h1 : SameBits n a b := by
        have := congrArg (· % 2 ^ (6 * n)) h
        have hd : 2 ^ (6 * n) ∣ 2 ^ (6 * (n + 1)) := Nat.pow_dvd_pow 2 (by omega)
        show a.toNat % _ = b.toNat % _
        simpa [Nat.mod_mod_of_dvd _ hd] using this
      have h2 := ih.1 h1
      rw [key, key, h1] at h
      intro i hi
      rcases Nat.lt_succ_iff_lt_or_eq.1 hi with hi | rfl
      · exact h2 i hi
      · rw [pos_eq, pos_eq]
        have := Nat.add_left_cancel h
        exact Nat.eq_of_mul_eq_mul_left (Nat.pow_pos (by decide)) this
    · intro h
      have h1 := ih.2 fun i hi => h i (by omega)
      have h2 := h n (by omega)
      rw [pos_eq, pos_eq] at h2
      show a.toNat % _ = b.toNat % _
      rw [key, key, h1, h2]

theorem OnPath.sameBits {a b : Hash} {path : List Nat} (ha : OnPath a path) : OnPath b path ↔ SameBits path.length b a := by
  rw [sameBits_iff]
  constructor
  · intro hb i hi
    rw [hb i path[i] (by simp [hi]), ha i path[i] (by simp [hi])]
  · intro h i p e
    obtain ⟨hi, rfl⟩ := List.getElem?_eq_some_iff.1 e
    rw [h i hi]
    exact ha i _ e

theorem SameBits.mono {a b : Hash} {n m : Nat} (h : SameBits n a b) (hm : m ≤ n) : SameBits m a b := by
  rw [sameBits_iff] at h ⊢
  exact fun i hi => h i (by omega)

/-- For a key in a leaf of the node at `path`: the nearest keys are those of the node. -/
theorem nearest_iff {hashOf : Key → Hash} {present : Key → Prop} {path : List Nat} {x : Key} (hx : OnPath (hashOf x) path)
    (h1 : path = [] ∨ ∃ z, present z ∧ hashOf z ≠ hashOf x ∧ OnPath (hashOf z) path)
    (h2 : ∀ z, present z → OnPath (hashOf z) (path ++ [pos (hashOf x) path.length]) → hashOf z = hashOf x) (y : Key) :
    Nearest hashOf present x y ↔ OnPath (hashOf y) path := by
  constructor
  · intro h
    rcases h1 with rfl | ⟨z, hz, hzx, ho⟩
    · exact .nil _
    · exact hx.sameBits.2 (h z _ hz hzx (hx.sameBits.1 ho))
  · intro hy z n hz hzx hs
    have hn : n ≤ path.length := by
      by_contra hn
      refine hzx (h2 z hz ?_)
      have : OnPath (hashOf x) (path ++ [pos (hashOf x) path.length]) := OnPath.snoc.2 ⟨hx, rfl⟩
      exact this.sameBits.2 (hs.mono (by simp; omega))
    exact (hx.sameBits.1 hy).mono hn

open Classical in
theorem visitKvs_shown {hashOf : Key → Hash} {present : Key → Prop} (visit : σ → Key → T → σ × Bool) {path : List Nat} : ∀ (l : List (Key × T)) (s : σ),
    (∀ x ∈ l, ∀ y, Nearest hashOf present x.1 y ↔ OnPath (hashOf y) path) → (∀ x ∈ l, OnPath (hashOf x.1) path) →
    ∃ V, (visitKvs visit l s).1 = visits visit s V ∧ ∀ (E R V2 : List (Key × T)), (∀ y ∈ E, OnPath (hashOf y.1) path) → (∀ y ∈ R, ¬ OnPath (hashOf y.1) path) →
      Shown hashOf present visit (visits visit s V) (if (visitKvs visit l s).2 then E ++ R else R) V2 → Shown hashOf present visit s (l ++ E ++ R) (V ++ V2) := by
  intro l
  induction l with
  | nil => intro s _ _; exact ⟨[], rfl, fun E R V2 _ _ h => h⟩
  | cons x l ih =>
    intro s hn hp
    obtain ⟨k, v⟩ := x
    have hk : ∀ s' b, visit s k v = (s', b) → visitKvs visit ((k, v) :: l) s = if b then visitKvs visit l s' else (s', false) := by
      intro s' b e
      simp only [visitKvs, e]
      cases b <;> rfl
    rcases hv : visit s k v with ⟨s', b⟩
    rw [hk _ _ hv]
    cases b with
    | true =>
      obtain ⟨V, e, h⟩ := ih s' (fun x hx => hn x (by simp [hx])) fun x hx => hp x (by simp [hx])
      refine ⟨(k, v) :: V, ?_, fun E R V2 hE hR hs => ?_⟩
      · rw [if_pos rfl, e]; simp [visits, hv]
      · rw [if_pos rfl] at hs
        refine .go (by rw [hv]) ?_
        rw [hv]
        refine h E R V2 hE hR ?_
        have : visits visit s ((k, v) :: V) = visits visit s' V := by simp [visits, hv]
        rw [this] at hs
        exact hs
    | false =>
      refine ⟨[(k, v)], by simp [visits, hv], fun E R V2 hE hR hs => ?_⟩
      refine .stop (E := l ++ E ++ R) (by rw [hv]) ?_
      have e : (l ++ E ++ R).filter (fun y => decide ¬ Nearest hashOf present k y.1) = R := by
        rw [List.filter_append, List.filter_eq_nil_iff.2, List.filter_eq_self.2, List.nil_append]
        · intro y hy
          simpa [hn (k, v) (by simp)] using hR y hy
        · intro y hy
          have : OnPath (hashOf y.1) path := by
            rcases List.mem_append.1 hy with hy | hy
            · exact hp y (by simp [hy])
            · exact hE y hy
          simpa [hn (k, v) (by simp)] using this
      rw [e]
      exact hs

theorem traversal_shown {hashOf : Key → Hash} {present : Key → Prop} (visit : σ → Key → T → σ × Bool) : ∀ (f : Nat) (path : List Nat) (n : Node T) (s : σ),
    WFN hashOf path n → 11 ≤ f + path.length → (path = [] ∨ TwoHashes hashOf n.children) → (∀ k v, HasL n.children k v → present k) →
    (∀ k, present k → OnPath (hashOf k) path → ∃ v, HasL n.children k v) →
    ∃ V, traversal visit f n.children s = .ok (visits visit s V) ∧ ∀ R V2 : List (Key × T), (∀ y ∈ R, ¬ OnPath (hashOf y.1) path) →
      Shown hashOf present visit (visits visit s V) R V2 → Shown hashOf present visit s (flatL n.children ++ R) (V ++ V2) := by
  intro f
  induction f with
  | zero => intro path n s hw hf; have := hw.len; omega
  | succ f ih =>
    intro path n s hw hf htwo hpres hall
    have hlen := hw.len
    have hsub := hw.sub
    have hnd : (n.children.map (posAt path.length)).Nodup := hw.slots ▸ bits_nodup n.bitmap
    simp only [traversal]
    -- a present key in the slot of a child is in the child
    have hslot : ∀ c ∈ n.children, ∀ k, present k → OnPath (hashOf k) (path ++ [posAt path.length c]) → ∃ v, Has c k v := by
      intro c hc k hk ho
      obtain ⟨ho1, ho2⟩ := OnPath.snoc.1 ho
      obtain ⟨v, c', hc', hv⟩ := hall k hk ho1
      have := (OnPath.snoc.1 ((hsub c' hc').onPath _ _ hv)).2
      have e : c' = c := by
        refine List.inj_on_of_nodup_map hnd hc' hc ?_
        rw [← this, ho2]
      exact ⟨v, e ▸ hv⟩
    have main : ∀ (cs : List (Entry T)) (s : σ), (∃ A, n.children = A ++ cs) →
        ∃ V, travLoop visit (traversal visit f) cs s = .ok (visits visit s V) ∧ ∀ R V2 : List (Key × T), (∀ y ∈ R, ¬ OnPath (hashOf y.1) path) →
          Shown hashOf present visit (visits visit s V) R V2 → Shown hashOf present visit s (flatL cs ++ R) (V ++ V2) := by
      intro cs
      induction cs with
      | nil => intro s _; exact ⟨[], rfl, fun R V2 _ h => h⟩
      | cons c cs ihc =>
        rintro s ⟨A, hA⟩
        have hc : c ∈ n.children := by rw [hA]; simp
        have hcs : ∀ y ∈ cs, y ∈ n.children := fun y hy => by rw [hA]; simp [hy]
        have hrest := fun s => ihc s ⟨A ++ [c], by simp [hA]⟩
        have hwc := hsub c hc
        have hne : ∀ y ∈ cs, posAt path.length y ≠ posAt path.length c := by
          rw [hA, List.map_append, List.map_cons, List.nodup_append, List.nodup_cons] at hnd
          intro y hy e
          exact hnd.2.1.1 (List.mem_map.2 ⟨y, hy, e⟩)
        -- the entries of the later children are in the node, but not in this slot
        have hflat : ∀ y ∈ flatL cs, OnPath (hashOf y.1) path ∧ ¬ OnPath (hashOf y.1) (path ++ [posAt path.length c]) := by
          intro y hy
          obtain ⟨c', hc', hy⟩ := mem_flatL.1 hy
          have hw' := hsub c' (hcs c' hc')
          obtain ⟨o1, o2⟩ := OnPath.snoc.1 (hw'.onPath _ _ ((hw'.flat.1 y.1 y.2).1 hy))
          refine ⟨o1, fun h => hne c' hc' ?_⟩
          rw [← (OnPath.snoc.1 h).2, o2]
        cases c with
        | kv hh l =>
          cases hwc with
          | kv w1 w2 w3 w4 =>
          obtain ⟨w4, w5⟩ := OnPath.snoc.1 w4
          have hl : ∀ x ∈ l, ∀ y, Nearest hashOf present x.1 y ↔ OnPath (hashOf y) path := by
            intro x hx
            have ex := w3 x hx
            refine nearest_iff (by rw [ex]; exact w4) ?_ fun z hz ho => ?_
            · rcases htwo with h | ⟨k, v, k', v', h1, h2, h3⟩
              · exact .inl h
              · right
                have hin : ∀ k v, HasL n.children k v → OnPath (hashOf k) path := by
                  rintro k v ⟨c', hc', hv⟩
                  exact (OnPath.snoc.1 ((hsub c' hc').onPath _ _ hv)).1
                by_cases hk : hashOf k = hashOf x.1
                · exact ⟨k', hpres _ _ h2, fun h => h3 (hk.trans h.symm), hin _ _ h2⟩
                · exact ⟨k, hpres _ _ h1, hk, hin _ _ h1⟩
            · obtain ⟨v, hv⟩ := hslot _ hc z hz (by rw [ex] at ho; exact ho)
              rw [w3 _ (has_kv.1 hv), ex]
          obtain ⟨V, e, h⟩ := visitKvs_shown visit (path := path) l s hl fun x hx => by rw [w3 x hx]; exact w4
          simp only [travLoop, flatL, flat]
          rcases hv : visitKvs visit l s with ⟨s', b⟩
          rw [hv] at e h
          have e : s' = visits visit s V := e
          subst e
          cases b with
          | true =>
            obtain ⟨V', e', h'⟩ := hrest (visits visit s V)
            refine ⟨V ++ V', by dsimp only; rw [e', visits_append], fun R V2 hR hs => ?_⟩
            rw [List.append_assoc V]
            refine h _ R _ (fun y hy => (hflat y hy).1) hR ?_
            rw [if_pos rfl]
            rw [visits_append] at hs
            exact h' R V2 hR hs
          | false =>
            refine ⟨V, rfl, fun R V2 hR hs => ?_⟩
            exact h _ R _ (fun y hy => (hflat y hy).1) hR hs
        | node bm p cs' =>
          obtain ⟨hwn, htw⟩ := hwc.wfn
          obtain ⟨V, e, h⟩ := ih _ ⟨bm, cs'⟩ s hwn (by simp; omega) (.inr htw)
            (fun k v hv => hpres k v ⟨_, hc, has_node.2 hv⟩) (fun k hk ho => by
              obtain ⟨v, hv⟩ := hslot _ hc k hk ho
              exact ⟨v, has_node.1 hv⟩)
          simp only [travLoop, flatL, flat]
          simp only at e
          obtain ⟨V', e', h'⟩ := hrest (visits visit s V)
          refine ⟨V ++ V', by rw [e]; simp only [Res.ok_bind]; rw [e', visits_append], fun R V2 hR hs => ?_⟩
          rw [List.append_assoc, List.append_assoc]
          refine h _ _ (fun y hy => ?_) (h' R V2 hR (by rw [visits_append] at hs; exact hs))
          rcases List.mem_append.1 hy with hy | hy
          · exact (hflat y hy).2
          · exact fun ho => hR y hy (OnPath.snoc.1 ho).1
    exact main n.children s ⟨[], rfl⟩

theorem traversal_agree_shown {hashOf : Key → Hash} {h : Node T} {m : Key → Option T} (ha : Agree hashOf h m) :
    ∃ L : List (Key × T), (L.map Prod.fst).Nodup ∧ (∀ k v, (k, v) ∈ L ↔ m k = some v) ∧
      ∀ (σ : Type) (visit : σ → Key → T → σ × Bool) (s : σ), ∃ V, Traversal visit h s = .ok (visits visit s V) ∧
        Shown hashOf (fun k => (m k).isSome = true) visit s L V := by
  obtain ⟨w, hm⟩ := ha
  obtain ⟨f1, f2⟩ := flatL_has w
  refine ⟨flatL h.children, f2, fun k v => by rw [f1, hm], fun σ visit s => ?_⟩
  obtain ⟨V, e, hV⟩ := traversal_shown (present := fun k => (m k).isSome = true) visit levels [] h s w (by simp [levels]) (.inl rfl)
    (fun k v hv => by rw [(hm k v).1 hv]; rfl) (fun k hk _ => by
      obtain ⟨v, hv⟩ := Option.isSome_iff_exists.1 hk
      exact ⟨v, (hm k v).2 hv⟩)
  refine ⟨V, e, ?_⟩
  have := hV [] [] (by simp) .nil
  simpa using this

/-- **C49**, exactly: there is one listing of the map, the same for every visitor, such that a traversal shows its entries in order; and when the visitor says stop at a key `x`, the
entries skipped are those of the rest whose keys are nearest to `x`, that is, those whose hashes agree with that of `x` in as many low-order groups of six bits as the hash of
any other key of the map (not counting keys with the very hash of `x`). The others still come, and the visitor may say stop again. -/
theorem C49_exactly_partial (hashOf : Key → Hash) (ops : List (Op T)) (h : Node T) (os : List (Out T)) (hr : run hashOf ops (new : Node T) = .ok (os, h)) :
    ∃ L : List (Key × T), (L.map Prod.fst).Nodup ∧ (∀ k v, (k, v) ∈ L ↔ (specRun ops emptyMap).2 k = some v) ∧
      ∀ (σ : Type) (visit : σ → Key → T → σ × Bool) (s : σ), ∃ V, Traversal visit h s = .ok (visits visit s V) ∧
        Shown hashOf (fun k => ((specRun ops emptyMap).2 k).isSome = true) visit s L V := by
  obtain ⟨h', e, ha⟩ := run_agree ops (agree_new (T := T) hashOf)
  rw [e] at hr; cases hr
  exact traversal_agree_shown ha

/-- **C49**, exactly, with pointers. -/
theorem C49_exactly_heap_partial (hashOf : Key → Hash) (ops : List (Op T)) (m : Heap.Mem T) (os : List (Out T)) (hr : Heap.run hashOf ops (Heap.new : Heap.Mem T) = .ok (os, m)) :
    ∃ L : List (Key × T), (L.map Prod.fst).Nodup ∧ (∀ k v, (k, v) ∈ L ↔ (specRun ops emptyMap).2 k = some v) ∧
      ∀ (σ : Type) (visit : σ → Key → T → σ × Bool) (s : σ), ∃ V, Heap.Traversal visit m s = .ok (visits visit s V) ∧
        Shown hashOf (fun k => ((specRun ops emptyMap).2 k).isSome = true) visit s L V := by
  obtain ⟨m', h, e, hrep, e', ha⟩ := Heap.reach_rep hashOf ops
  rw [e] at hr; cases hr
  obtain ⟨L, h1, h2, h3⟩ := traversal_agree_shown ha
  refine ⟨L, h1, h2, fun σ visit s => ?_⟩
  obtain ⟨V, e1, e2⟩ := h3 σ visit s
  exact ⟨V, Heap.traversal_rep hrep e1, e2⟩

/-! ## Cases that meet the hypotheses -/

/-- `C49_exactly_partial`: the trie of `demoOps`. The visitor that says stop at once is shown `[]` only: no other key agrees with its hash, 0, in the lowest bits. -/
example : ∃ (h : Node Nat) (L V : List (Key × Nat)), Keys h = .ok [[], [1], List.replicate 65 0] ∧
    Traversal (fun (s : List Key) k _ => (s ++ [k], false)) h [] = .ok (visits (fun (s : List Key) k _ => (s ++ [k], false)) [] V) ∧
      Shown demoHash (fun k => ((specRun demoOps emptyMap).2 k).isSome = true) (fun (s : List Key) k _ => (s ++ [k], false)) [] L V := by
  obtain ⟨os, h, e, ek, -⟩ := demo_run
  obtain ⟨L, -, -, h3⟩ := C49_exactly_partial _ _ h os e
  obtain ⟨V, h4, h5⟩ := h3 _ (fun (s : List Key) k _ => (s ++ [k], false)) []
  exact ⟨h, L, V, ek, h4, h5⟩

/-- A stop at `[1]` skips the key of length 65, whose hash agrees in the lowest six bits, but would not skip `[]`. -/
example : Nearest demoHash (fun k => ((specRun demoOps emptyMap).2 k).isSome = true) [1] (List.replicate 65 0) ∧
    ¬ Nearest demoHash (fun k => ((specRun demoOps emptyMap).2 k).isSome = true) [1] [] := by
  constructor
  · intro z n hz hne hs
    have hz : z = List.replicate 65 0 ∨ demoHash z = demoHash [1] ∨ z = [] := by
      by_contra hcon
      push Not at hcon
      have h2 : z ≠ [2] := by rintro rfl; exact hcon.2.1 rfl
      have h1 : z ≠ [1] := by rintro rfl; exact hcon.2.1 rfl
      simp only [specRun, demoOps, specStep, emptyMap] at hz
      repeat' split at hz
      all_goals first | contradiction | exact hcon.1 ‹_› | exact hcon.2.2 ‹_›
    rcases hz with rfl | hz | rfl
    · exact hs
    · exact absurd hz hne
    · rw [sameBits_iff] at hs ⊢
      intro i hi
      have := hs 0 (by omega)
      exact absurd this (by decide)
  · intro h
    have := h (List.replicate 65 0) 1 (by decide) (by decide) (by unfold SameBits; decide)
    exact absurd this (by unfold SameBits; decide)

end GoSTL.Hamt
