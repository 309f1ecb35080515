import Verif.Hamt.Props
/-!
# C83: the order of the keys and the shape of the trie depend only on what is stored
-/
namespace GoSTL.Hamt
variable {T : Type}

/-! ## Specification -/

/-- The `d`-th digit of a hash in base 64, lowest first. -/
def digit (h : Hash) (d : Nat) : Nat := h.toNat / 64 ^ d % 64

/-- The digits of `h` come before those of `h'` in the dictionary. -/
def Before (h h' : Hash) : Prop := ∃ d, (∀ i < d, digit h i = digit h' i) ∧ digit h d < digit h' d

/-! ## Proofs -/

theorem pos_eq_digit (h : Hash) (d : Nat) : pos h d = digit h d := by
  have : pos h d = (h >>> (d * 6)).toNat % 64 := by
    simp only [pos, BitVec.toNat_and]
    exact Nat.and_two_pow_sub_one_eq_mod _ 6
  rw [this, digit, BitVec.toNat_ushiftRight, Nat.shiftRight_eq_div_pow]
  have : 2 ^ (d * 6) = 64 ^ d := by
    rw [Nat.mul_comm, Nat.pow_mul]
  rw [this]

theorem before_of_paths {h h' : Hash} {path : List Nat} {p p' : Nat} (a : OnPath h (path ++ [p])) (b : OnPath h' (path ++ [p'])) (hp : p < p') : Before h h' := by
  obtain ⟨a1, a2⟩ := OnPath.snoc.1 a
  obtain ⟨b1, b2⟩ := OnPath.snoc.1 b
  refine ⟨path.length, ?_, ?_⟩
  · intro i hi
    have e : path[i]? = some path[i] := by simp [hi]
    rw [← pos_eq_digit, ← pos_eq_digit, a1 i _ e, b1 i _ e]
  · rw [← pos_eq_digit, ← pos_eq_digit, a2, b2]; exact hp

/-- In order of the hashes; equal hashes in any order. -/
def Ordered (hashOf : Key → Hash) (L : List (Key × T)) : Prop := L.Pairwise fun a b => hashOf a.1 = hashOf b.1 ∨ Before (hashOf a.1) (hashOf b.1)

theorem flatL_ordered {hashOf : Key → Hash} {path : List Nat} : ∀ (cs : List (Entry T)), (cs.map (posAt path.length)).Pairwise (· < ·) →
    (∀ c ∈ cs, WF hashOf (path ++ [posAt path.length c]) c) → (∀ c ∈ cs, Ordered hashOf (flat c)) → Ordered hashOf (flatL cs) := by
  intro cs
  induction cs with
  | nil => intro _ _ _; exact .nil
  | cons c cs ih =>
    intro hs hw ho
    rw [List.map_cons, List.pairwise_cons] at hs
    rw [flatL, Ordered, List.pairwise_append]
    refine ⟨ho c (by simp), ih hs.2 (fun x hx => hw x (by simp [hx])) (fun x hx => ho x (by simp [hx])), ?_⟩
    rintro ⟨k, v⟩ hx ⟨k', v'⟩ hy
    obtain ⟨c', hc', hy⟩ := mem_flatL.1 hy
    right
    have w := hw c (by simp)
    have w' := hw c' (by simp [hc'])
    exact before_of_paths (w.onPath _ _ ((w.flat.1 _ _).1 hx)) (w'.onPath _ _ ((w'.flat.1 _ _).1 hy)) (hs.1 _ (List.mem_map.2 ⟨c', hc', rfl⟩))

theorem WF.ordered {hashOf : Key → Hash} {path : List Nat} {e : Entry T} (h : WF hashOf path e) : Ordered hashOf (Hamt.flat e) := by
  induction h with
  | kv h1 h2 h3 h4 =>
    rw [Hamt.flat]
    rw [Ordered, List.pairwise_iff_forall_sublist]
    intro a b hab
    have ha := hab.subset (List.mem_cons_self)
    have hb := hab.subset (show b ∈ [a, b] by simp)
    left
    rw [h3 a ha, h3 b hb]
  | @node path bm p cs h1 h2 h3 h4 ih =>
    rw [Hamt.flat]
    exact flatL_ordered cs (h2 ▸ bits_sorted bm) h3 ih

theorem keys_flat {hashOf : Key → Hash} {h : Node T} {m : Key → Option T} (ha : Agree hashOf h m) : Keys h = .ok ((flatL h.children).map Prod.fst) := by
  obtain ⟨w, hm⟩ := ha
  obtain ⟨V, e1, e2⟩ := traversal_spec (fun (s : List Key) k (_ : T) => (s ++ [k], true)) levels [] h.children [] (by simp) w.sub (by simp [levels])
  rw [Keys, Traversal, e1]
  have hV : V = flatL h.children := by
    cases e2 with
    | all e _ => exact e
    | stopped A B V' x _ _ h3 _ _ => cases h3
  have : ∀ (L : List (Key × T)) (acc : List Key), L.foldl (fun s x => s ++ [x.1]) acc = acc ++ L.map Prod.fst := by
    intro L
    induction L with
    | nil => simp
    | cons x L ih => intro acc; simp [ih]
  rw [hV]
  exact congrArg Res.ok (by simpa [visits] using this (flatL h.children) [])

/-- C83: whatever the history, the keys are listed in the dictionary order of their hashes' base-64 digits, lowest digit first (equal hashes next to each other). -/
theorem C83_order (hashOf : Key → Hash) (ops : List (Op T)) (h : Node T) (os : List (Out T)) (hr : run hashOf ops (new : Node T) = .ok (os, h)) :
    ∃ ks, Keys h = .ok ks ∧ ks.Pairwise fun a b => hashOf a = hashOf b ∨ Before (hashOf a) (hashOf b) := by
  obtain ⟨h', e, ha⟩ := run_agree ops (agree_new (T := T) hashOf)
  rw [e] at hr; cases hr
  refine ⟨_, keys_flat ha, ?_⟩
  rw [List.pairwise_map]
  exact flatL_ordered _ (ha.1.slots ▸ bits_sorted _) ha.1.sub fun c hc => (ha.1.sub c hc).ordered

/-! ## The trie is determined by its contents -/

theorem bits_inj {a b : Hash} (h : bits a = bits b) : a = b := by
  apply BitVec.eq_of_getLsbD_eq
  intro i hi
  have h1 := mem_bits (b := a) (p := i)
  have h2 := mem_bits (b := b) (p := i)
  rw [h, h2] at h1
  rw [Bool.eq_iff_iff]
  constructor
  · intro x; exact (h1.2 ⟨hi, x⟩).2
  · intro x; exact (h1.1 ⟨hi, x⟩).2

theorem sorted_ext : ∀ (l l' : List Nat), l.Pairwise (· < ·) → l'.Pairwise (· < ·) → (∀ x, x ∈ l ↔ x ∈ l') → l = l' := by
  intro l
  induction l with
  | nil =>
    intro l' _ _ h
    cases l' with
    | nil => rfl
    | cons y l' => exact absurd ((h y).2 (by simp)) (by simp)
  | cons x l ih =>
    intro l' h1 h2 h
    cases l' with
    | nil => exact absurd ((h x).1 (by simp)) (by simp)
    | cons y l' =>
      rw [List.pairwise_cons] at h1 h2
      have hxy : x = y := by
        have a := (h x).1 (by simp)
        have b := (h y).2 (by simp)
        rw [List.mem_cons] at a b
        rcases a with a | a
        · exact a
        · rcases b with b | b
          · exact b.symm
          · have := h2.1 x a
            have := h1.1 y b
            omega
      subst hxy
      congr 1
      refine ih l' h1.2 h2.2 fun z => ?_
      have := h z
      rw [List.mem_cons, List.mem_cons] at this
      constructor
      · intro hz
        rcases this.1 (.inr hz) with c | c
        · have := h1.1 z hz; omega
        · exact c
      · intro hz
        rcases this.2 (.inr hz) with c | c
        · have := h2.1 z hz; omega
        · exact c

/-- The children of a node are determined by the contents, if subtries are. -/
theorem children_eq {hashOf : Key → Hash} {path : List Nat} {n1 n2 : Node T} (w1 : WFN hashOf path n1) (w2 : WFN hashOf path n2)
    (hc : ∀ k v, HasL n1.children k v ↔ HasL n2.children k v)
    (ih : ∀ c1 ∈ n1.children, ∀ c2 ∈ n2.children, posAt path.length c1 = posAt path.length c2 → (∀ k v, Has c1 k v ↔ Has c2 k v) → c1 = c2) : n1 = n2 := by
  have atPos : ∀ {n : Node T}, WFN hashOf path n → ∀ c ∈ n.children, ∀ k v, Has c k v → posAt path.length c = pos (hashOf k) path.length := by
    intro n w c hm k v h
    exact (OnPath.snoc.1 ((w.sub c hm).onPath k v h)).2.symm
  have unique : ∀ {n : Node T}, WFN hashOf path n → ∀ c ∈ n.children, ∀ c' ∈ n.children, posAt path.length c = posAt path.length c' → c = c' := by
    intro n w c hm c' hm' e
    have hnd : (n.children.map (posAt path.length)).Nodup := w.slots ▸ bits_nodup n.bitmap
    exact List.inj_on_of_nodup_map hnd hm hm' e
  have sub : ∀ {n n' : Node T}, WFN hashOf path n → WFN hashOf path n' → (∀ k v, HasL n.children k v ↔ HasL n'.children k v) →
      ∀ c ∈ n.children, ∃ c' ∈ n'.children, posAt path.length c = posAt path.length c' ∧ ∀ k v, Has c k v → Has c' k v := by
    intro n n' w w' hc c hm
    obtain ⟨k, v, h⟩ := (w.sub c hm).nonempty
    obtain ⟨c', hm', h'⟩ := (hc k v).1 ⟨c, hm, h⟩
    refine ⟨c', hm', by rw [atPos w c hm k v h, atPos w' c' hm' k v h'], ?_⟩
    intro k2 v2 h2
    obtain ⟨c2, hm2, h2'⟩ := (hc k2 v2).1 ⟨c, hm, h2⟩
    have : c2 = c' := unique w' c2 hm2 c' hm' (by
      rw [atPos w' c2 hm2 k2 v2 h2', ← atPos w c hm k2 v2 h2, atPos w c hm k v h, atPos w' c' hm' k v h'])
    rw [← this]; exact h2'
  have same : ∀ c ∈ n1.children, ∃ c' ∈ n2.children, c = c' := by
    intro c hm
    obtain ⟨c', hm', e, h⟩ := sub w1 w2 hc c hm
    refine ⟨c', hm', ih c hm c' hm' e fun k v => ⟨h k v, fun h' => ?_⟩⟩
    obtain ⟨c2, hm2, e2, h2⟩ := sub w2 w1 (fun k v => (hc k v).symm) c' hm'
    have : c2 = c := unique w1 c2 hm2 c hm (by rw [← e2, ← e])
    rw [← this]; exact h2 k v h'
  have bm : bits n1.bitmap = bits n2.bitmap := by
    refine sorted_ext _ _ (bits_sorted _) (bits_sorted _) fun p => ?_
    rw [← w1.slots, ← w2.slots, List.mem_map, List.mem_map]
    constructor
    · rintro ⟨c, hm, rfl⟩
      obtain ⟨c', hm', e, _⟩ := sub w1 w2 hc c hm
      exact ⟨c', hm', e.symm⟩
    · rintro ⟨c, hm, rfl⟩
      obtain ⟨c', hm', e, _⟩ := sub w2 w1 (fun k v => (hc k v).symm) c hm
      exact ⟨c', hm', e.symm⟩
  have cs : n1.children = n2.children := by
    apply List.ext_getElem
    · have := congrArg List.length (w1.slots.trans (bm.trans w2.slots.symm))
      simpa using this
    · intro i h1 h2
      obtain ⟨c', hm', e⟩ := same n1.children[i] (List.getElem_mem h1)
      rw [e]
      apply unique w2 _ hm' _ (List.getElem_mem h2)
      rw [← e]
      have h3 : n1.children.map (posAt path.length) = n2.children.map (posAt path.length) := w1.slots.trans (bm.trans w2.slots.symm)
      have := congrArg (fun l => l[i]?) h3
      simpa [h1, h2] using this
  have := bits_inj bm
  cases n1; cases n2
  simp only at cs this
  rw [cs, this]

theorem kv_eq {hashOf : Key → Hash} {h h' : Hash} {l l' : List (Key × T)} (a1 : l ≠ []) (a2 : (l.map Prod.fst).Nodup) (a3 : ∀ x ∈ l, hashOf x.1 = h)
    (b2 : (l'.map Prod.fst).Nodup) (b3 : ∀ x ∈ l', hashOf x.1 = h')
    (hc : ∀ k v, Has (Entry.kv h l) k v ↔ Has (Entry.kv h' l') k v) (hi : ∀ k v k' v', Has (Entry.kv h l) k v → Has (Entry.kv h l) k' v' → hashOf k = hashOf k' → k = k') :
    Entry.kv h l = Entry.kv h' l' := by
  simp only [has_kv] at hc hi
  have one : ∀ (l : List (Key × T)) (k : Key) (v : T), (l.map Prod.fst).Nodup → (k, v) ∈ l → (∀ x ∈ l, x.1 = k) → l = [(k, v)] := by
    intro l k v hnd hm hk
    match l, hnd, hm, hk with
    | [x], _, hm, _ => rw [List.mem_singleton] at hm; rw [hm]
    | x :: y :: l, hnd, hm, hk =>
      have h1 := hk x (by simp)
      have h2 := hk y (by simp)
      simp [h1, h2] at hnd
  obtain ⟨⟨k, v⟩, l2, e⟩ := List.exists_cons_of_ne_nil a1
  have hm : (k, v) ∈ l := by rw [e]; simp
  have hm' := (hc k v).1 hm
  have e1 := one l k v a2 hm fun x hx => (hi k v x.1 x.2 hm hx ((a3 _ hm).trans (a3 _ hx).symm)).symm
  have e2 := one l' k v b2 hm' fun x hx => (hi k v x.1 x.2 hm ((hc _ _).2 hx) ((b3 _ hm').trans (b3 _ hx).symm)).symm
  rw [e1, e2, ← a3 _ hm, ← b3 _ hm']

theorem WF.canonical {hashOf : Key → Hash} (f : Nat) : ∀ (path : List Nat) (e1 e2 : Entry T), 11 - path.length ≤ f → WF hashOf path e1 → WF hashOf path e2 →
    (∃ d, posAt d e1 = posAt d e2) → (∀ k v, Has e1 k v ↔ Has e2 k v) →
    (∀ k v k' v', Has e1 k v → Has e1 k' v' → hashOf k = hashOf k' → k = k') → e1 = e2 := by
  induction f with
  | zero =>
    intro path e1 e2 hf w1 w2 hp hc hi
    have : 11 ≤ path.length := by omega
    cases w1 with
    | node h => omega
    | @kv _ h l a1 a2 a3 a4 =>
      cases w2 with
      | node h => omega
      | @kv _ h' l' b1 b2 b3 b4 => exact kv_eq a1 a2 a3 b2 b3 hc hi
  | succ f ih =>
    intro path e1 e2 hf w1 w2 hp hc hi
    cases w1 with
    | @kv _ h l a1 a2 a3 a4 =>
      cases w2 with
      | @kv _ h' l' b1 b2 b3 b4 => exact kv_eq a1 a2 a3 b2 b3 hc hi
      | node b1 b2 b3 b4 =>
        obtain ⟨k, v, k', v', c1, c2, c3⟩ := b4
        have d1 := has_kv.1 ((hc k v).2 (has_node.2 c1))
        have d2 := has_kv.1 ((hc k' v').2 (has_node.2 c2))
        exact absurd ((a3 _ d1).trans (a3 _ d2).symm) c3
    | @node _ bm p cs a1 a2 a3 a4 =>
      cases w2 with
      | @kv _ h' l' b1 b2 b3 b4 =>
        obtain ⟨k, v, k', v', c1, c2, c3⟩ := a4
        have d1 := has_kv.1 ((hc k v).1 (has_node.2 c1))
        have d2 := has_kv.1 ((hc k' v').1 (has_node.2 c2))
        exact absurd ((b3 _ d1).trans (b3 _ d2).symm) c3
      | @node _ bm' p' cs' b1 b2 b3 b4 =>
        obtain ⟨d, hp⟩ := hp
        simp only [posAt] at hp
        simp only [has_node] at hc hi
        have := children_eq (n1 := ⟨bm, cs⟩) (n2 := ⟨bm', cs'⟩) ⟨a1, a2, a3⟩ ⟨b1, b2, b3⟩ hc (by
          intro c1 m1 c2 m2 e hcc
          simp only at m1 m2
          have w2 := b3 c2 m2
          rw [← e] at w2
          exact ih _ c1 c2 (by simp; omega) (a3 c1 m1) w2 ⟨_, e⟩ hcc fun k v k' v' h h' => hi k v k' v' ⟨c1, m1, h⟩ ⟨c1, m1, h'⟩)
        injection this with h1 h2
        rw [hp, h1, h2]

/-- No two of the keys present have the same hash. -/
def NoCollisions (hashOf : Key → Hash) (m : Key → Option T) : Prop := ∀ k k', (m k).isSome → (m k').isSome → hashOf k = hashOf k' → k = k'

/-- C83: two tries that hold the same pairs are the same trie, whatever their histories, if no two keys present have the same hash. So all later calls on
them, `Traversal` with any visitor included, do the same. -/
theorem C83_canonical (hashOf : Key → Hash) (ops ops' : List (Op T)) {os os' : List (Out T)} {h h' : Node T} (hr : run hashOf ops (new : Node T) = .ok (os, h))
    (hr' : run hashOf ops' (new : Node T) = .ok (os', h')) (hsame : (specRun ops emptyMap).2 = (specRun ops' emptyMap).2)
    (hn : NoCollisions hashOf (specRun ops (emptyMap (T := T))).2) : h = h' := by
  obtain ⟨h1, e1, w1, m1⟩ := run_agree ops (agree_new (T := T) hashOf)
  rw [e1] at hr; cases hr
  obtain ⟨h2, e2, w2, m2⟩ := run_agree ops' (agree_new (T := T) hashOf)
  rw [e2] at hr'; cases hr'
  rw [← hsame] at m2
  refine children_eq w1 w2 (fun k v => by rw [m1, m2]) ?_
  intro c1 hm1 c2 hm2 e hcc
  have w := w2.sub c2 hm2
  rw [← e] at w
  refine WF.canonical 11 _ c1 c2 (by omega) (w1.sub c1 hm1) w ⟨_, e⟩ hcc ?_
  intro k v k' v' hk hk'
  refine hn k k' ?_ ?_
  · rw [(m1 k v).1 ⟨c1, hm1, hk⟩]; rfl
  · rw [(m1 k' v').1 ⟨c1, hm1, hk'⟩]; rfl

theorem Before.asymm {h h' : Hash} (a : Before h h') (b : Before h' h) : False := by
  obtain ⟨d, a1, a2⟩ := a
  obtain ⟨d', b1, b2⟩ := b
  rcases Nat.lt_trichotomy d d' with c | c | c
  · have := b1 d c; omega
  · subst c; omega
  · have := a1 d' c; omega

/-- C83: the order of `Keys` depends only on the set of keys present, if no two of them have the same hash. -/
theorem C83_same_keys_same_order (hashOf : Key → Hash) (ops ops' : List (Op T)) {os os' : List (Out T)} {h h' : Node T} (hr : run hashOf ops (new : Node T) = .ok (os, h))
    (hr' : run hashOf ops' (new : Node T) = .ok (os', h')) (hsame : ∀ k, ((specRun ops emptyMap).2 k).isSome = ((specRun ops' emptyMap).2 k).isSome)
    (hn : NoCollisions hashOf (specRun ops (emptyMap (T := T))).2) : Keys h = Keys h' := by
  obtain ⟨ks, e1, o1⟩ := C83_order hashOf ops h os hr
  obtain ⟨ks', e2, o2⟩ := C83_order hashOf ops' h' os' hr'
  obtain ⟨ks1, e3, n1, k1⟩ := C48_keys hashOf ops h os hr
  obtain ⟨ks2, e4, n2, k2⟩ := C48_keys hashOf ops' h' os' hr'
  rw [e1] at e3; cases e3
  rw [e2] at e4; cases e4
  rw [e1, e2]
  congr 1
  have hp : ks.Perm ks' := (List.perm_ext_iff_of_nodup n1 n2).2 fun k => by rw [k1, k2, hsame]
  refine hp.eq_of_pairwise ?_ o1 o2
  intro a b ha hb h1 h2
  have ha' := (k1 a).1 ha
  have hb' := (k1 b).1 (hp.symm.subset hb)
  rcases h1 with h1 | h1
  · exact hn a b ha' hb' h1
  · rcases h2 with h2 | h2
    · exact (hn b a hb' ha' h2).symm
    · exact (h1.asymm h2).elim

/-- A case that meets the hypotheses: three keys with different hashes, two of which share their lowest digit, inserted in another order after a detour. -/
example : (∃ (os os' : List (Out Nat)) (h : Node Nat), run fnv1 [.insert [0] 1, .insert [64] 2, .insert [32] 3] new = .ok (os, h) ∧
      run fnv1 [.insert [32] 9, .insert [7] 0, .insert [64] 2, .insert [0] 1, .insert [32] 3, .erase [7]] new = .ok (os', h) ∧
      Keys h = .ok [[64], [0], [32]]) ∧
    fnv1 [0] ≠ fnv1 [64] ∧ fnv1 [0] ≠ fnv1 [32] ∧ fnv1 [64] ≠ fnv1 [32] ∧ digit (fnv1 [0]) 0 = digit (fnv1 [64]) 0 :=
  ⟨⟨_, _, _, rfl, rfl, rfl⟩, by decide, by decide, by decide, by decide⟩

theorem bits_bitPos {p : Nat} (hp : p < 64) : bits (bitPos p) = [p] := by
  refine sorted_ext _ _ (bits_sorted _) (by simp) fun q => ?_
  rw [mem_bits, List.mem_singleton]
  constructor
  · rintro ⟨h1, h2⟩
    rw [bitPos_get h1] at h2
    exact of_decide_eq_true h2
  · rintro rfl
    exact ⟨hp, by rw [bitPos_get hp]; simp⟩

theorem insert_empty (f depth : Nat) (hash : Hash) (kvs : List (Key × T)) :
    insert (f + 1) depth ⟨0, []⟩ hash kvs = .ok ⟨bitPos (pos hash depth), [.kv hash kvs]⟩ := by
  have hp := pos_lt hash depth
  obtain ⟨L, e, h1, _⟩ := place_spec depth (bitPos (pos hash depth)) [Entry.kv hash kvs] 1 rfl (by rw [bits_bitPos hp]; exact .refl _)
  have e0 : (0 : Hash) ||| bitPos (pos hash depth) = bitPos (pos hash depth) := by simp
  have e1 : bitPos (pos hash depth) &&& (0 : Hash) = 0 := by simp
  simp only [insert, e1, if_true, e0, List.length_nil]
  rw [e, List.perm_singleton.1 h1]
  rfl

theorem insert_collision (f depth : Nat) (hash : Hash) (k k' : Key) (v v' : T) (hk : k ≠ k') :
    insert (f + 1) depth ⟨bitPos (pos hash depth), [.kv hash [(k, v)]]⟩ hash [(k', v')] = .ok ⟨bitPos (pos hash depth), [.kv hash [(k', v'), (k, v)]]⟩ := by
  have hp := pos_lt hash depth
  have h1 : ¬ bitPos (pos hash depth) &&& bitPos (pos hash depth) = 0 := by
    rw [test_zero hp, bits_bitPos hp]; simp
  have h2 : index (bitPos (pos hash depth)) (bitPos (pos hash depth)) = 0 := index_get (by rw [bits_bitPos hp]; rfl)
  simp only [insert, if_neg h1, h2]
  simp [setKv, updKv, hk]

/-- With equal hashes the order does depend on the history: the later of two colliding keys is listed first. -/
theorem C83_collisions (hashOf : Key → Hash) (k k' : Key) (hk : k ≠ k') (hc : hashOf k = hashOf k') (v v' : T) :
    ∃ os os' h h', run hashOf [.insert k v, .insert k' v'] (new : Node T) = .ok (os, h) ∧ run hashOf [.insert k' v', .insert k v] (new : Node T) = .ok (os', h') ∧
      Keys h = .ok [k', k] ∧ Keys h' = .ok [k, k'] := by
  have main : ∀ (a b : Key) (u w : T), a ≠ b → hashOf a = hashOf b → ∃ os h, run hashOf [.insert a u, .insert b w] (new : Node T) = .ok (os, h) ∧ Keys h = .ok [b, a] := by
    intro a b u w hab hcab
    refine ⟨[.unit, .unit], ⟨bitPos (pos (hashOf b) 0), [.kv (hashOf b) [(b, w), (a, u)]]⟩, ?_, rfl⟩
    simp only [run, step, Insert, new, levels, insert_empty, Res.ok_bind, hcab, insert_collision _ _ _ _ _ _ _ hab]
  obtain ⟨os, h, e1, e2⟩ := main k k' v v' hk hc
  obtain ⟨os', h', e3, e4⟩ := main k' k v' v hk.symm hc.symm
  exact ⟨os, os', h, h', e1, e3, e2, e4⟩

/-- `C83_order` on a program with an erase. -/
example : ∃ (os : List (Out Nat)) (h : Node Nat) (ks : List Key), run fnv1 [.insert [0] 1, .insert [64] 2, .insert [32] 3, .erase [0]] new = .ok (os, h) ∧ Keys h = .ok ks ∧
    ks.Pairwise fun a b => fnv1 a = fnv1 b ∨ Before (fnv1 a) (fnv1 b) := by
  have h0 : ∃ (os : List (Out Nat)) (h : Node Nat), run fnv1 [.insert [0] 1, .insert [64] 2, .insert [32] 3, .erase [0]] new = .ok (os, h) := ⟨_, _, rfl⟩
  obtain ⟨os, h, e⟩ := h0
  obtain ⟨ks, e1, e2⟩ := C83_order fnv1 _ _ _ e
  exact ⟨os, h, ks, e, e1, e2⟩
/-- `C83_canonical` and `C83_same_keys_same_order`: two programs that leave the keys `[0]` and `[64]`, which do not collide. -/
example : ∃ (os os' : List (Out Nat)) (h h' : Node Nat), run fnv1 [.insert [0] 1, .insert [64] 2] new = .ok (os, h) ∧
    run fnv1 [.insert [64] 9, .insert [0] 1, .insert [64] 2] new = .ok (os', h') ∧ h = h' ∧ Keys h = Keys h' := by
  have h0 : ∃ (os os' : List (Out Nat)) (h h' : Node Nat), run fnv1 [.insert [0] 1, .insert [64] 2] new = .ok (os, h) ∧
    run fnv1 [.insert [64] 9, .insert [0] 1, .insert [64] 2] new = .ok (os', h') := ⟨_, _, _, _, rfl, rfl⟩
  obtain ⟨os, os', h, h', e, e'⟩ := h0
  have hs : (specRun [.insert [0] 1, .insert [64] 2] (emptyMap (T := Nat))).2 = (specRun [.insert [64] 9, .insert [0] 1, .insert [64] 2] emptyMap).2 := by
    funext k
    by_cases k1 : k = [0#8] <;> by_cases k2 : k = [64#8] <;> simp [specRun, specStep, emptyMap, k1, k2]
  have hn : NoCollisions fnv1 (specRun [.insert [0] 1, .insert [64] 2] (emptyMap (T := Nat))).2 := by
    intro a b ha hb hab
    have key : ∀ k : Key, ((specRun [.insert [0] 1, .insert [64] 2] (emptyMap (T := Nat))).2 k).isSome → k = [0] ∨ k = [64] := by
      intro k hk
      by_cases k1 : k = [0#8] <;> by_cases k2 : k = [64#8] <;> simp [specRun, specStep, emptyMap, k1, k2] at hk ⊢
    rcases key a ha with rfl | rfl <;> rcases key b hb with rfl | rfl
    · rfl
    · exact absurd hab (by decide)
    · exact absurd hab (by decide)
    · rfl
  refine ⟨os, os', h, h', e, e', C83_canonical fnv1 _ _ e e' hs hn, C83_same_keys_same_order fnv1 _ _ e e' (fun k => by rw [hs]) hn⟩
/-- `C83_collisions`: with a hash that maps everything to 0, any two keys collide. -/
example := C83_collisions (fun _ => 0) [0] [64] (by decide) rfl (1 : Nat) 2

end GoSTL.Hamt
