import Verif.Hamt.ArraysCalls
/-!
# Arrays of children as objects: histories of calls
-/
namespace GoSTL.Hamt.Arr
variable {T : Type} {H : Key → Hash} {K V : Key → Prop} {F : Nat → Prop} {L L' L'' : Lab} {m m' m'' : Mem T}

/-- The invariant, with the root. -/
structure Good (H : Key → Hash) (L : Lab) (m : Mem T) : Prop where
  wf : WF H L m
  root : ∃ bm p ar, m.objs[0]? = some (.node bm p ar) ∧ (L ar).1 = []

/-- The trie holds the pairs of the map. -/
def Is (m : Mem T) (M : Key → Option T) : Prop := ∀ k v, M k = some v ↔ ∃ y n, EntHas m 0 (y, k) ∧ m.objs[y]? = some (.pair k v n)

theorem good_new : Good H (fun _ => ([], [])) (new : Mem T) := by
  have ho : ∀ (a : Nat) (o : Obj T), (new : Mem T).objs[a]? = some o → a = 0 ∧ o = .node 0 0 0 := by
    intro a o e
    cases a with
    | zero => exact ⟨rfl, (Option.some.inj e).symm⟩
    | succ a => cases e
  have ha : ∀ (a : Nat) (cs : List (Option Nat)), (new : Mem T).arrs[a]? = some cs → a = 0 ∧ cs = [] := by
    intro a o e
    cases a with
    | zero => exact ⟨rfl, (Option.some.inj e).symm⟩
    | succ a => cases e
  refine ⟨⟨?_, ?_, ?_, ?_, ?_⟩, 0, 0, 0, rfl, rfl⟩
  · intro ar cs e
    obtain ⟨rfl, rfl⟩ := ha _ _ e
    exact ⟨by simp, by simp, rfl, by simp⟩
  · intro a bm p ar e
    cases (ho _ _ e).2
    exact ⟨bits_zero.symm, [], rfl, by simp⟩
  · intro a b bm p bm' p' ar e1 e2
    rw [(ho _ _ e1).1, (ho _ _ e2).1]
  · intro a h l e
    cases (ho _ _ e).2
  · intro a k v n e
    cases (ho _ _ e).2

theorem is_new : Is (new : Mem T) emptyMap := by
  intro k v
  refine ⟨fun c => by (cases c), ?_⟩
  rintro ⟨y, n, c, -⟩
  obtain ⟨c, hc, -⟩ := (entHas_node (m := (new : Mem T)) (e := 0) (ar := 0) rfl rfl).1 c
  cases hc

/-- A key is below an entry once. -/
theorem WF.uniq (hw : WF H L m) {e : Nat} {x x' : Nat × Key} (h : EntHas m e x) : EntHas m e x' → x.2 = x'.2 → x = x' := by
  induction h with
  | kv ho hC hx =>
    intro h' hk
    have := (entHas_kv ho hC).1 h'
    exact List.inj_on_of_nodup_map (Chain.nodup hw hC) hx this hk
  | @node e bm p ar cs c x ho ha hc hx ih =>
    intro h' hk
    obtain ⟨c', hc', hx'⟩ := (entHas_node ho ha).1 h'
    obtain ⟨i, q, h1, h2, h3⟩ := hw.child ha hc
    obtain ⟨j, r, g1, g2, g3⟩ := hw.child ha hc'
    have e1 := (OnPath.snoc.1 (hx.onPath hw h3)).2
    have e2 := (OnPath.snoc.1 (hx'.onPath hw g3)).2
    rw [← hk, e1] at e2
    subst e2
    obtain rfl : i = j := by
      have hn : (L ar).2.Nodup := (hw.arr _ _ ha).sorted.imp (fun h => Nat.ne_of_lt h)
      obtain ⟨l1, w1⟩ := List.getElem?_eq_some_iff.1 h1
      obtain ⟨l2, w2⟩ := List.getElem?_eq_some_iff.1 g1
      exact (List.Nodup.getElem_inj_iff hn).1 (w1.trans w2.symm)
    rw [h2] at g2
    cases g2
    exact ih hx' hk

/-- How calls may change the heap, seen from a traversal under way; `K` are the keys that were erased. -/
structure Mv (H : Key → Hash) (K : Key → Prop) (L : Lab) (m : Mem T) (L' : Lab) (m' : Mem T) : Prop where
  label : ∀ ar, ar < m.arrs.length → L' ar = L ar
  arrs : m.arrs.length ≤ m'.arrs.length
  objs : m.objs.length ≤ m'.objs.length
  chain : ∀ a, a < m.objs.length → ChainTo K m m' (some a)
  keep : ∀ x, EntHas m 0 x → ¬ K x.2 → EntHas m' 0 x
  nil : ∀ (ar : Nat) (cs : List (Option Nat)) (i : Nat), m.arrs[ar]? = some cs → cs[i]? = some none → ∃ cs', m'.arrs[ar]? = some cs' ∧ cs'[i]? = some none
  slot : ∀ (ar : Nat) (cs : List (Option Nat)) (i p e : Nat), m.arrs[ar]? = some cs → (L ar).2[i]? = some p → cs[i]? = some (some e) → ∃ cs', m'.arrs[ar]? = some cs' ∧
    ((cs'[i]? = some none ∧ ∃ k, K k ∧ OnPath (H k) ((L ar).1 ++ [p])) ∨
    ∃ e', cs'[i]? = some (some e') ∧ (∀ x, EntHas m e x → ¬ K x.2 → EntHas m' e' x) ∧
      ((∀ k, K k → ¬ OnPath (H k) ((L ar).1 ++ [p])) → (∀ x, EntHas m e x → EntHas m 0 x) → ∀ x, EntHas m' e' x → EntHas m' 0 x))

theorem Evo.mv (hw : WF H L m) (he : Evo H K V F L m L' m') (hF : ∀ a, F a → m.objs.length ≤ a) (hl : ∀ e x, EntHas m' e x → F x.1 → EntHas m' 0 x) : Mv H K L m L' m' where
  label := he.label
  arrs := by
    by_contra c
    have := he.arrs_le (a := m'.arrs.length) (by omega)
    omega
  objs := by
    by_contra c
    have := he.objs_le (a := m'.objs.length) (by omega)
    omega
  chain a ha := he.chain a (fun c => by have := hF a c; omega)
  keep x := he.keep 0 x
  nil ar cs i ha hi := by
    obtain ⟨cs', h1, h2⟩ := he.arr _ _ ha
    have := h2 i
    rw [hi] at this
    exact ⟨cs', h1, this⟩
  slot ar cs i p e ha hp hi := by
    obtain ⟨cs', h1, h2⟩ := he.arr _ _ ha
    have := h2 i
    rw [hi] at this
    refine ⟨cs', h1, ?_⟩
    rcases this with ⟨g1, k, g2, g3⟩ | ⟨e', g1, g2, g3⟩
    · exact .inl ⟨g1, k, g2, g3 p hp⟩
    · refine .inr ⟨e', g1, g2, fun hno hlive x hx => ?_⟩
      rcases g3 x hx with c | c
      · refine he.keep _ _ (hlive x c) fun hk => hno _ hk ?_
        exact c.onPath hw ((hw.arr _ _ ha).ent _ _ _ hp hi)
      · exact hl _ _ hx c

theorem Mv.refl : Mv H K L m L m where
  label _ _ := rfl
  arrs := Nat.le_refl _
  objs := Nat.le_refl _
  chain _ _ := .same fun _ h => h
  keep _ h _ := h
  nil ar cs i ha hi := ⟨cs, ha, hi⟩
  slot ar cs i p e ha hp hi := ⟨cs, ha, .inr ⟨e, hi, fun _ h _ => h, fun _ h => h⟩⟩

theorem Mv.mono {K' : Key → Prop} (h : Mv H K L m L' m') (hK : ∀ k, K k → K' k) : Mv H K' L m L' m' where
  label := h.label
  arrs := h.arrs
  objs := h.objs
  chain a ha C hC := by
    obtain ⟨C', b1, b2, b3⟩ := h.chain a ha C hC
    exact ⟨C', b1, b2, fun x hx hk => b3 x hx fun c => hk (hK _ c)⟩
  keep x hx hk := h.keep x hx fun c => hk (hK _ c)
  nil := h.nil
  slot ar cs i p e ha hp hi := by
    obtain ⟨cs', h1, h2⟩ := h.slot ar cs i p e ha hp hi
    refine ⟨cs', h1, ?_⟩
    rcases h2 with ⟨g1, k, g2, g3⟩ | ⟨e', g1, g2, g3⟩
    · exact .inl ⟨g1, k, hK _ g2, g3⟩
    · exact .inr ⟨e', g1, fun x hx hk => g2 x hx fun c => hk (hK _ c), fun hno => g3 fun k hk => hno k (hK _ hk)⟩

theorem Mv.trans (h1 : Mv H K L m L' m') (h2 : Mv H K L' m' L'' m'') : Mv H K L m L'' m'' where
  label ar ha := (h2.label ar (Nat.lt_of_lt_of_le ha h1.arrs)).trans (h1.label ar ha)
  arrs := Nat.le_trans h1.arrs h2.arrs
  objs := Nat.le_trans h1.objs h2.objs
  chain a ha := (h1.chain a ha).trans (h2.chain a (Nat.lt_of_lt_of_le ha h1.objs))
  keep x hx hk := h2.keep x (h1.keep x hx hk) hk
  nil ar cs i ha hi := by
    obtain ⟨cs', a1, a2⟩ := h1.nil ar cs i ha hi
    exact h2.nil ar cs' i a1 a2
  slot ar cs i p e ha hp hi := by
    obtain ⟨cs', a1, a2⟩ := h1.slot ar cs i p e ha hp hi
    have hlab := h1.label ar (List.getElem?_eq_some_iff.1 ha).1
    rcases a2 with ⟨g1, g2⟩ | ⟨e', g1, g2, g3⟩
    · obtain ⟨cs'', b1, b2⟩ := h2.nil ar cs' i a1 g1
      exact ⟨cs'', b1, .inl ⟨b2, g2⟩⟩
    · obtain ⟨cs'', b1, b2⟩ := h2.slot ar cs' i p e' a1 (by rw [hlab]; exact hp) g1
      rw [hlab] at b2
      refine ⟨cs'', b1, ?_⟩
      rcases b2 with c | ⟨e'', c1, c2, c3⟩
      · exact .inl c
      · exact .inr ⟨e'', c1, fun x hx hk => c2 x (g2 x hx hk) hk, fun hno hl => c3 hno (g3 hno hl)⟩

/-! ## One call -/

theorem Evo.root (he : Evo H K V F L m L' m') (hg : Good H L m) : ∃ bm p ar, m'.objs[0]? = some (.node bm p ar) ∧ (L' ar).1 = [] := by
  obtain ⟨bm, p, ar, h1, h2⟩ := hg.root
  obtain ⟨bm', ar', h3, h4⟩ := he.node _ _ _ _ h1
  exact ⟨bm', p, ar', h3, h4.trans h2⟩

theorem insert_good (hg : Good H L m) (k : Key) (v : T) : ∃ L' m', Insert H m k v = .ok m' ∧ Good H L' m' ∧ Mv H (fun _ => False) L m L' m' ∧
    ∀ M, Is m M → Is m' (fun k' => if k' = k then some v else M k') := by
  generalize hm1 : (⟨m.objs ++ [.pair k v none], m.arrs⟩ : Mem T) = m1
  have hobj : ∀ (a : Nat) (o : Obj T), m.objs[a]? = some o → m1.objs[a]? = some o := by
    intro a o e
    rw [← hm1]
    show (m.objs ++ _)[a]? = _
    rw [List.getElem?_append_left (List.getElem?_eq_some_iff.1 e).1]; exact e
  have hx : m1.objs[m.objs.length]? = some (.pair k v none) := by rw [← hm1]; simp
  have hnew : ∀ (a : Nat) (o : Obj T), m.objs.length ≤ a → m1.objs[a]? = some o → a = m.objs.length ∧ o = .pair k v none := by
    intro a o ha e
    have h1 := (List.getElem?_eq_some_iff.1 e).1
    have h1 : a < m.objs.length + 1 := by rw [← hm1] at h1; simpa using h1
    obtain rfl : a = m.objs.length := by omega
    rw [hx] at e
    exact ⟨rfl, (Option.some.inj e).symm⟩
  have harr : m1.arrs = m.arrs := by rw [← hm1]
  have hst := ext_step (K := fun _ => False) (V := (· = k)) (F := (· = m.objs.length)) (L' := L) (m' := m1) hg.wf hobj (fun ar cs e => by rw [harr]; exact e) (fun _ _ => rfl)
    (fun ar cs h1 h2 => by rw [harr] at h2; exact absurd (List.getElem?_eq_some_iff.1 h2).1 (by omega))
    (fun b bm p ar h1 h2 => by cases (hnew b _ h1 h2).2) (fun b c bm p bm' p' ar h1 _ h2 _ => by cases (hnew b _ h1 h2).2)
    (fun b h l h1 h2 => by cases (hnew b _ h1 h2).2) (fun b k' v' n' h1 h2 => by cases (hnew b _ h1 h2).2; exact ⟨[], .nil, by simp, by simp⟩)
  obtain ⟨hw1, he1, -⟩ := hst
  have hu : Unref m1 m.objs.length := by
    refine ⟨fun e h c => ?_, fun e k' v' c => ?_⟩
    · rcases Nat.lt_or_ge e m.objs.length with hlt | hge
      · have c0 : m.objs[e]? = some (.kv h (some m.objs.length)) := by
          rw [← hm1] at c
          have c : (m.objs ++ _)[e]? = _ := c
          rwa [List.getElem?_append_left hlt] at c
        obtain ⟨C, hC, -⟩ := hg.wf.kv_chain c0
        cases hC with
        | cons e1 _ => have := (List.getElem?_eq_some_iff.1 e1).1; omega
      · cases (hnew e _ hge c).2
    · rcases Nat.lt_or_ge e m.objs.length with hlt | hge
      · have c0 : m.objs[e]? = some (.pair k' v' (some m.objs.length)) := by
          rw [← hm1] at c
          have c : (m.objs ++ _)[e]? = _ := c
          rwa [List.getElem?_append_left hlt] at c
        obtain ⟨C, hC, -⟩ := hg.wf.pair _ _ _ _ c0
        cases hC with
        | cons e1 _ => have := (List.getElem?_eq_some_iff.1 e1).1; omega
      · cases (hnew e _ hge c).2
  obtain ⟨bm, p, ar, hr, hq⟩ := he1.root hg
  have hi := insert_spec k v m.objs.length levels 0 bm p ar L m1 hw1 hr (by simp [levels]) (by rw [hq]; exact OnPath.nil _) hx hu
  rw [hq] at hi
  obtain ⟨L', m', i1, i2, i3, -, i5⟩ := hi
  have hx' : ∃ v' n, m'.objs[m.objs.length]? = some (.pair k v' n) := by
    obtain ⟨v', n', h, -⟩ := i3.pair _ _ _ _ hx
    exact ⟨v', n', h⟩
  have i3 := he1.trans i3
  have hkey : ∀ (x : Nat × Key) (e : Nat), EntHas m' e x → x.1 = m.objs.length → x.2 = k := by
    rintro ⟨y, k'⟩ e h rfl
    obtain ⟨v', n', h1⟩ := h.pair
    obtain ⟨v'', n, h2⟩ := hx'
    have h1 : m'.objs[m.objs.length]? = some (.pair k' v' n') := h1
    rw [h2] at h1
    cases h1
    rfl
  have hlive : ∀ (e : Nat) (x : Nat × Key), EntHas m' e x → x.1 = m.objs.length → EntHas m' 0 x := by
    intro e x h hx0
    rcases i5 with ⟨j1, -⟩ | ⟨j1, -⟩
    · exact absurd hx0 (j1.entHas h)
    · have := hkey x e h hx0
      obtain ⟨y, k'⟩ := x
      cases hx0
      cases this
      exact j1
  refine ⟨L', m', ?_, ⟨i2, i3.root hg⟩, i3.mv hg.wf (fun a h => Nat.le_of_eq h.symm) hlive, ?_⟩
  · show insert levels 0 0 (H k) (some m.objs.length) ⟨m.objs ++ [.pair k v none], m.arrs⟩ = .ok m'
    rw [hm1]
    exact i1
  · intro M hM k' v'
    have h0 : (0 : Nat) < m.objs.length := by
      obtain ⟨_, _, _, h, -⟩ := hg.root
      exact (List.getElem?_eq_some_iff.1 h).1
    by_cases hk : k' = k
    · subst hk
      simp only [if_true]
      have hone : ∃ y n, EntHas m' 0 (y, k') ∧ m'.objs[y]? = some (.pair k' v n) := by
        rcases i5 with ⟨j1, y, n, j2, j3⟩ | ⟨j1, n, j2⟩
        · rcases he1.upper 0 _ h0 j2 with c | c
          · exact ⟨y, n, i3.keep _ _ c id, j3⟩
          · exact absurd c (hu.entHas j2)
        · exact ⟨_, n, j1, j2⟩
      obtain ⟨y, n, h1, h2⟩ := hone
      constructor
      · intro c; cases c; exact ⟨y, n, h1, h2⟩
      · rintro ⟨y', n', g1, g2⟩
        cases i2.uniq h1 g1 rfl
        rw [h2] at g2
        cases g2
        rfl
    · simp only [if_neg hk]
      rw [hM k' v']
      constructor
      · rintro ⟨y, n, h1, h2⟩
        obtain ⟨v2, n2, h3, h4⟩ := i3.pair _ _ _ _ h2
        rw [h4 hk] at h3
        exact ⟨y, n2, i3.keep _ _ h1 id, h3⟩
      · rintro ⟨y, n, h1, h2⟩
        rcases i3.upper 0 _ h0 h1 with c | c
        · obtain ⟨v0, n0, c1⟩ := c.pair
          have c1 : m.objs[y]? = some (.pair k' v0 n0) := c1
          obtain ⟨v2, n2, h3, h4⟩ := i3.pair _ _ _ _ c1
          rw [h4 hk, h2] at h3
          cases h3
          exact ⟨y, n0, c, c1⟩
        · exact absurd (hkey _ _ h1 c) hk

theorem erase_good (hg : Good H L m) (k : Key) : ∃ b L' m', Erase H m k = .ok (b, m') ∧ Good H L' m' ∧ Mv H (· = k) L m L' m' ∧
    ∀ M, Is m M → b = (M k).isSome ∧ Is m' (fun k' => if k' = k then none else M k') := by
  obtain ⟨bm, p, ar, hr, hq⟩ := hg.root
  have hi := erase_spec (H := H) k levels 0 bm p ar L m hg.wf hr (by simp [levels]) (by rw [hq]; exact OnPath.nil _)
  rw [hq] at hi
  obtain ⟨b, L', m', i1, i2, i3, -, i5, i6⟩ := hi
  refine ⟨b, L', m', i1, ⟨i2, i3.root hg⟩, i3.mv hg.wf (fun a h => h.elim) (fun _ _ _ h => h.elim), fun M hM => ⟨?_, ?_⟩⟩
  · rw [Bool.eq_iff_iff, i5, Option.isSome_iff_exists]
    constructor
    · rintro ⟨y, h⟩
      obtain ⟨v, n, h1⟩ := h.pair
      exact ⟨v, (hM k v).2 ⟨y, n, h, h1⟩⟩
    · rintro ⟨v, h⟩
      obtain ⟨y, n, h1, -⟩ := (hM k v).1 h
      exact ⟨y, h1⟩
  · intro k' v'
    have h0 : (0 : Nat) < m.objs.length := (List.getElem?_eq_some_iff.1 hr).1
    by_cases hk : k' = k
    · subst hk
      simp only [if_true]
      refine ⟨fun c => by (cases c), ?_⟩
      rintro ⟨y, n, h, -⟩
      exact absurd h (i6 y)
    · simp only [if_neg hk]
      rw [hM k' v']
      constructor
      · rintro ⟨y, n, h1, h2⟩
        obtain ⟨v2, n2, h3, h4⟩ := i3.pair _ _ _ _ h2
        rw [h4 id] at h3
        exact ⟨y, n2, i3.keep _ _ h1 hk, h3⟩
      · rintro ⟨y, n, h1, h2⟩
        rcases i3.upper 0 _ h0 h1 with c | c
        · obtain ⟨v0, n0, c1⟩ := c.pair
          have c1 : m.objs[y]? = some (.pair k' v0 n0) := c1
          obtain ⟨v2, n2, h3, h4⟩ := i3.pair _ _ _ _ c1
          rw [h4 id, h2] at h3
          cases h3
          exact ⟨y, n0, c, c1⟩
        · exact c.elim

theorem get_good (hg : Good H L m) {M : Key → Option T} (hM : Is m M) (k : Key) : Get H m k = .ok (M k) := by
  obtain ⟨bm, p, ar, hr, hq⟩ := hg.root
  have hi := find_spec k hg.wf levels 0 bm p ar hr (by simp [levels]) (by rw [hq]; exact OnPath.nil _)
  rw [hq] at hi
  obtain ⟨r, h1, h2⟩ := hi
  have : r = M k := by
    refine Option.ext fun v => ?_
    rw [h2 v, ← hM k v]
  rw [← this]
  exact h1

/-! ## Histories -/

theorem step_good (hg : Good H L m) {M : Key → Option T} (hM : Is m M) (op : Op T) :
    ∃ L' m', step H op m = .ok ((specStep op M).1, m') ∧ Good H L' m' ∧ Is m' (specStep op M).2 := by
  cases op with
  | insert k v =>
    obtain ⟨L', m', h1, h2, -, h3⟩ := insert_good hg k v
    exact ⟨L', m', by simp only [step, h1, Res.ok_bind]; rfl, h2, h3 M hM⟩
  | get k => exact ⟨L, m, by simp only [step, get_good hg hM, Res.ok_bind]; rfl, hg, hM⟩
  | erase k =>
    obtain ⟨b, L', m', h1, h2, -, h3⟩ := erase_good hg k
    obtain ⟨h4, h5⟩ := h3 M hM
    exact ⟨L', m', by simp only [step, h1, Res.ok_bind, h4]; rfl, h2, h5⟩

theorem run_good : ∀ (ops : List (Op T)) {L : Lab} {m : Mem T} {M : Key → Option T}, Good H L m → Is m M →
    ∃ L' m', run H ops m = .ok ((specRun ops M).1, m') ∧ Good H L' m' ∧ Is m' (specRun ops M).2 := by
  intro ops
  induction ops with
  | nil => intro L m M hg hM; exact ⟨L, m, rfl, hg, hM⟩
  | cons op ops ih =>
    intro L m M hg hM
    obtain ⟨L1, m1, h1, h2, h3⟩ := step_good hg hM op
    obtain ⟨L2, m2, g1, g2, g3⟩ := ih h2 h3
    exact ⟨L2, m2, by simp only [run, h1, g1, Res.ok_bind]; rfl, g2, g3⟩

/-- C47 again, with the arrays of children as objects: the answers of every history are those of a map. -/
theorem C98_hamt_arrays (ops : List (Op T)) : ∃ m, run H ops (new : Mem T) = .ok ((specRun ops emptyMap).1, m) := by
  obtain ⟨L, m, h, -⟩ := run_good (H := H) ops good_new is_new
  exact ⟨m, h⟩

end GoSTL.Hamt.Arr
