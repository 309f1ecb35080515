import Verif.Hamt.ArraysInv
/-!
# Arrays of children as objects: the single changes that the calls make
-/
namespace GoSTL.Hamt.Arr
variable {T : Type} {H : Key → Hash} {K V : Key → Prop} {F : Nat → Prop} {L L' : Lab} {m m' : Mem T}

theorem keep_of (hkv : ∀ (e : Nat) (h : Hash) (l : Option Nat), m.objs[e]? = some (.kv h l) → ∀ C, Chain m l C → ∀ x ∈ C, ¬ K x.2 → EntHas m' e x)
    (hnode : ∀ (e : Nat) (bm : Hash) (p ar : Nat) (cs : List (Option Nat)) (c : Nat) (x : Nat × Key), m.objs[e]? = some (.node bm p ar) → m.arrs[ar]? = some cs → some c ∈ cs →
      EntHas m c x → ¬ K x.2 → EntHas m' c x → EntHas m' e x) : ∀ e x, EntHas m e x → ¬ K x.2 → EntHas m' e x := by
  intro e x h
  induction h with
  | kv ho hC hx => exact fun hk => hkv _ _ _ ho _ hC _ hx hk
  | node ho ha hc hx ih => exact fun hk => hnode _ _ _ _ _ _ _ ho ha hc hx hk (ih hk)

theorem upper_of (hkv : ∀ (e : Nat) (h : Hash) (l : Option Nat), e < m.objs.length → m'.objs[e]? = some (.kv h l) → ∀ C, Chain m' l C → ∀ x ∈ C, EntHas m e x ∨ F x.1)
    (hnode : ∀ (e : Nat) (bm : Hash) (p ar : Nat) (cs : List (Option Nat)) (c : Nat) (x : Nat × Key), e < m.objs.length → m'.objs[e]? = some (.node bm p ar) →
      m'.arrs[ar]? = some cs → some c ∈ cs → EntHas m' c x → (c < m.objs.length → EntHas m c x ∨ F x.1) → EntHas m e x ∨ F x.1) :
    ∀ e x, e < m.objs.length → EntHas m' e x → EntHas m e x ∨ F x.1 := by
  intro e x he h
  induction h with
  | kv ho hC hx => exact hkv _ _ _ he ho _ hC _ hx
  | node ho ha hc hx ih => exact hnode _ _ _ _ _ _ _ he ho ha hc hx ih

/-- The children of the nodes are in the heap. -/
theorem WF.child_lt (hw : WF H L m) {ar : Nat} {cs : List (Option Nat)} (ha : m.arrs[ar]? = some cs) {c : Nat} (hc : some c ∈ cs) : c < m.objs.length := by
  obtain ⟨_, _, _, _, h⟩ := hw.child ha hc
  exact h.lt

theorem WF.kv_chain (hw : WF H L m) {e : Nat} {h : Hash} {l : Option Nat} (ho : m.objs[e]? = some (.kv h l)) : ∃ C, Chain m l C ∧ ∀ x ∈ C, H x.2 = h := hw.kv _ _ _ ho

theorem objs_back {o o' : Obj T} {a : Nat} (h : m.objs[a]? = some o → m'.objs[a]? = some o') (ha : m.objs[a]? = some o) {o'' : Obj T} (h' : m'.objs[a]? = some o'') : o'' = o' := by
  rw [h ha] at h'
  exact (Option.some.inj h').symm

/-! ## New objects -/

/-- Objects and arrays are added. -/
theorem ext_step (hw : WF H L m) (hobj : ∀ (a : Nat) (o : Obj T), m.objs[a]? = some o → m'.objs[a]? = some o)
    (harr : ∀ (ar : Nat) (cs : List (Option Nat)), m.arrs[ar]? = some cs → m'.arrs[ar]? = some cs) (hL : ∀ ar, ar < m.arrs.length → L' ar = L ar)
    (hA : ∀ (ar : Nat) (cs : List (Option Nat)), m.arrs.length ≤ ar → m'.arrs[ar]? = some cs → ArrOk L' m' ar cs)
    (hN : ∀ (a : Nat) (bm : Hash) (p ar : Nat), m.objs.length ≤ a → m'.objs[a]? = some (.node bm p ar) →
      m.arrs.length ≤ ar ∧ (L' ar).2 = bits bm ∧ ∃ cs, m'.arrs[ar]? = some cs ∧ none ∉ cs)
    (hO : ∀ (a b : Nat) (bm : Hash) (p : Nat) (bm' : Hash) (p' ar : Nat), m.objs.length ≤ a → m.objs.length ≤ b → m'.objs[a]? = some (.node bm p ar) →
      m'.objs[b]? = some (.node bm' p' ar) → a = b)
    (hK : ∀ (a : Nat) (h : Hash) (l : Option Nat), m.objs.length ≤ a → m'.objs[a]? = some (.kv h l) → KvOk H m' h l)
    (hP : ∀ (a : Nat) (k : Key) (v : T) (n : Option Nat), m.objs.length ≤ a → m'.objs[a]? = some (.pair k v n) → PairOk H m' k n) :
    WF H L' m' ∧ Evo H K V F L m L' m' ∧ ∀ d, Shallow d L m m' := by
  have hback : ∀ (a : Nat) (o : Obj T), a < m.objs.length → m'.objs[a]? = some o → m.objs[a]? = some o := by
    intro a o ha h
    have e : m.objs[a]? = some m.objs[a] := by simp [ha]
    rw [hobj _ _ e] at h
    rw [e, h]
  have hbarr : ∀ (ar : Nat) (cs : List (Option Nat)), ar < m.arrs.length → m'.arrs[ar]? = some cs → m.arrs[ar]? = some cs := by
    intro a o ha h
    have e : m.arrs[a]? = some m.arrs[a] := by simp [ha]
    rw [harr _ _ e] at h
    rw [e, h]
  have hch : ∀ {l C}, Chain m l C → Chain m' l C := fun h => h.congr fun a k v n _ e => ⟨v, hobj _ _ e⟩
  have hent : ∀ {q e}, EntAt L m q e → EntAt L' m' q e := by
    rintro q e (⟨hh, l, h1, h2⟩ | ⟨bm, p, ar, h1, h2, h3⟩)
    · exact .inl ⟨hh, l, hobj _ _ h1, h2⟩
    · exact .inr ⟨bm, p, ar, hobj _ _ h1, by rw [hL _ (hw.arr_lt h1)]; exact h2, h3⟩
  have hkeep : ∀ e x, EntHas m e x → ¬ False → EntHas m' e x := keep_of (K := fun _ => False)
    (fun e h l ho C hC x hx _ => .kv (hobj _ _ ho) (hch hC) hx) (fun e bm p ar cs c x ho ha hc _ _ hx => .node (hobj _ _ ho) (harr _ _ ha) hc hx)
  have hupper : ∀ e x, e < m.objs.length → EntHas m' e x → EntHas m e x ∨ False := upper_of (F := fun _ => False)
    (by
      intro e h l he ho C hC x hx
      have ho := hback _ _ he ho
      obtain ⟨C', h1, h2⟩ := hw.kv_chain ho
      rw [Chain.det hC (hch h1)] at hx
      exact .inl (.kv ho h1 hx))
    (by
      intro e bm p ar cs c x he ho ha hc hx hi
      have ho := hback _ _ he ho
      have ha := hbarr _ _ (hw.arr_lt ho) ha
      rcases hi (hw.child_lt ha hc) with h | h
      · exact .inl (.node ho ha hc h)
      · exact .inr h)
  refine ⟨⟨?_, ?_, ?_, ?_, ?_⟩, ⟨hL, ?_, ?_, ?_, ?_, ?_, ?_, ?_⟩, ?_⟩
  · intro ar cs ha
    rcases Nat.lt_or_ge ar m.arrs.length with h | h
    · have ho := hw.arr _ _ (hbarr _ _ h ha)
      have hl := hL ar h
      exact ⟨by rw [hl]; exact ho.len, by rw [hl]; exact ho.sorted, by rw [hl]; exact ho.size, by rw [hl]; exact fun i p e h1 h2 => hent (ho.ent i p e h1 h2)⟩
    · exact hA _ _ h ha
  · intro a bm p ar ho
    rcases Nat.lt_or_ge a m.objs.length with h | h
    · have ho := hback _ _ h ho
      obtain ⟨h1, cs, h2, h3⟩ := hw.node _ _ _ _ ho
      exact ⟨by rw [hL _ (hw.arr_lt ho)]; exact h1, cs, harr _ _ h2, h3⟩
    · exact (hN _ _ _ _ h ho).2
  · intro a b bm p bm' p' ar h1 h2
    rcases Nat.lt_or_ge a m.objs.length with h3 | h3 <;> rcases Nat.lt_or_ge b m.objs.length with h4 | h4
    · exact hw.own _ _ _ _ _ _ _ (hback _ _ h3 h1) (hback _ _ h4 h2)
    · have := hw.arr_lt (hback _ _ h3 h1)
      have := (hN _ _ _ _ h4 h2).1
      omega
    · have := hw.arr_lt (hback _ _ h4 h2)
      have := (hN _ _ _ _ h3 h1).1
      omega
    · exact hO _ _ _ _ _ _ _ h3 h4 h1 h2
  · intro a h l ho
    rcases Nat.lt_or_ge a m.objs.length with h1 | h1
    · obtain ⟨C, h2, h3⟩ := hw.kv _ _ _ (hback _ _ h1 ho)
      exact ⟨C, hch h2, h3⟩
    · exact hK _ _ _ h1 ho
  · intro a k v n ho
    rcases Nat.lt_or_ge a m.objs.length with h1 | h1
    · obtain ⟨C, h2, h3⟩ := hw.pair _ _ _ _ (hback _ _ h1 ho)
      exact ⟨C, hch h2, h3⟩
    · exact hP _ _ _ _ h1 ho
  · exact fun a bm p ar ho => ⟨bm, ar, hobj _ _ ho, by rw [hL _ (hw.arr_lt ho)]⟩
  · exact fun a h l ho => ⟨l, hobj _ _ ho⟩
  · exact fun a k v n ho => ⟨v, n, hobj _ _ ho, fun _ => rfl⟩
  · exact fun a _ => .same fun C hC => hch hC
  · exact fun e x hx _ => hkeep e x hx id
  · exact fun e x he hx => (hupper e x he hx).imp id False.elim
  · intro ar cs ha
    exact ⟨cs, harr _ _ ha, slots_same (fun c hc x hx _ => hkeep c x hx id) (fun c hc x hx => (hupper c x (hw.child_lt ha hc) hx).imp id False.elim)⟩
  · exact fun d => ⟨fun a bm p ar ho _ => hobj _ _ ho, fun ar cs ha _ => harr _ _ ha⟩

/-! ## Pairs -/

theorem getElem?_set_ne {α : Type} {l : List α} {i j : Nat} (h : i ≠ j) (x : α) : (l.set i x)[j]? = l[j]? := by simp [h]

theorem getElem?_set_eq {α : Type} {l : List α} {i : Nat} {y : α} (h : l[i]? = some y) (x : α) : (l.set i x)[i]? = some x := by
  have := (List.getElem?_eq_some_iff.1 h).1
  simp [this]

/-- The invariant, when nodes, arrays and hashes of `KvNode`s stay. -/
theorem same_arrays (hw : WF H L m) (ha : m'.arrs = m.arrs) (hn : ∀ (a : Nat) (bm : Hash) (p ar : Nat), m'.objs[a]? = some (.node bm p ar) ↔ m.objs[a]? = some (.node bm p ar))
    (hk : ∀ (a : Nat) (h : Hash) (l : Option Nat), m.objs[a]? = some (.kv h l) → ∃ l', m'.objs[a]? = some (.kv h l'))
    (hK : ∀ (a : Nat) (h : Hash) (l : Option Nat), m'.objs[a]? = some (.kv h l) → KvOk H m' h l)
    (hP : ∀ (a : Nat) (k : Key) (v : T) (n : Option Nat), m'.objs[a]? = some (.pair k v n) → PairOk H m' k n) : WF H L m' := by
  have hent : ∀ {q e}, EntAt L m q e → EntAt L m' q e := by
    rintro q e (⟨hh, l, h1, h2⟩ | ⟨bm, p, ar, h1, h2, h3⟩)
    · obtain ⟨l', h3⟩ := hk _ _ _ h1
      exact .inl ⟨hh, l', h3, h2⟩
    · exact .inr ⟨bm, p, ar, (hn _ _ _ _).2 h1, h2, h3⟩
  refine ⟨?_, ?_, ?_, hK, hP⟩
  · intro ar cs h
    rw [ha] at h
    have ho := hw.arr _ _ h
    exact ⟨ho.len, ho.sorted, ho.size, fun i p e h1 h2 => hent (ho.ent i p e h1 h2)⟩
  · intro a bm p ar ho
    rw [ha]
    exact hw.node _ _ _ _ ((hn _ _ _ _).1 ho)
  · intro a b bm p bm' p' ar h1 h2
    exact hw.own _ _ _ _ _ _ _ ((hn _ _ _ _).1 h1) ((hn _ _ _ _).1 h2)

/-- The rest, when nodes and arrays stay. -/
theorem same_arrays_evo (hw : WF H L m) (ha : m'.arrs = m.arrs) (hn : ∀ (a : Nat) (bm : Hash) (p ar : Nat), m'.objs[a]? = some (.node bm p ar) ↔ m.objs[a]? = some (.node bm p ar))
    (hk : ∀ (a : Nat) (h : Hash) (l : Option Nat), m.objs[a]? = some (.kv h l) → ∃ l', m'.objs[a]? = some (.kv h l'))
    (hp : ∀ (a : Nat) (k : Key) (v : T) (n : Option Nat), m.objs[a]? = some (.pair k v n) → ∃ v' n', m'.objs[a]? = some (.pair k v' n') ∧ (¬ V k → v' = v))
    (hc : ∀ a, ¬ F a → ChainTo K m m' (some a))
    (hkv : ∀ (e : Nat) (h : Hash) (l : Option Nat), m.objs[e]? = some (.kv h l) → ∀ C, Chain m l C → ∀ x ∈ C, ¬ K x.2 → EntHas m' e x)
    (hkv' : ∀ (e : Nat) (h : Hash) (l : Option Nat), e < m.objs.length → m'.objs[e]? = some (.kv h l) → ∀ C, Chain m' l C → ∀ x ∈ C, EntHas m e x ∨ F x.1) :
    Evo H K V F L m L m' ∧ ∀ d, Shallow d L m m' := by
  have hkeep : ∀ e x, EntHas m e x → ¬ K x.2 → EntHas m' e x := keep_of hkv (fun e bm p ar cs c x ho hcs hc _ _ hx => .node ((hn _ _ _ _).2 ho) (by rw [ha]; exact hcs) hc hx)
  have hupper : ∀ e x, e < m.objs.length → EntHas m' e x → EntHas m e x ∨ F x.1 := upper_of hkv' (by
    intro e bm p ar cs c x he ho hcs hc hx hi
    rw [ha] at hcs
    rcases hi (hw.child_lt hcs hc) with h | h
    · exact .inl (.node ((hn _ _ _ _).1 ho) hcs hc h)
    · exact .inr h)
  refine ⟨⟨fun _ _ => rfl, fun a bm p ar ho => ⟨bm, ar, (hn _ _ _ _).2 ho, rfl⟩, hk, hp, hc, hkeep, hupper, ?_⟩, ?_⟩
  · intro ar cs h
    exact ⟨cs, by rw [ha]; exact h, slots_same (fun c hc x => hkeep c x) (fun c hc x hx => hupper c x (hw.child_lt h hc) hx)⟩
  · exact fun d => ⟨fun a bm p ar ho _ => (hn _ _ _ _).2 ho, fun ar cs h _ => by rw [ha]; exact h⟩

/-- A pair gets another value, or skips the pair after it. -/
theorem pair_step (hw : WF H L m) {a : Nat} {k : Key} {v v' : T} {n n' : Option Nat} (ho : m.objs[a]? = some (.pair k v n)) (hv : ¬ V k → v' = v)
    (hn : n' = n ∨ ∃ (b : Nat) (kb : Key) (vb : T), n = some b ∧ m.objs[b]? = some (.pair kb vb n') ∧ K kb) :
    WF H L (⟨m.objs.set a (.pair k v' n'), m.arrs⟩ : Mem T) ∧ Evo H K V F L m L ⟨m.objs.set a (.pair k v' n'), m.arrs⟩ ∧
      ∀ d, Shallow d L m ⟨m.objs.set a (.pair k v' n'), m.arrs⟩ := by
  generalize hm : (⟨m.objs.set a (.pair k v' n'), m.arrs⟩ : Mem T) = m'
  have hset : m'.objs[a]? = some (.pair k v' n') := by rw [← hm]; exact getElem?_set_eq ho _
  have hne : ∀ b, b ≠ a → m'.objs[b]? = m.objs[b]? := fun b hb => by rw [← hm]; exact getElem?_set_ne (Ne.symm hb) _
  have harr : m'.arrs = m.arrs := by rw [← hm]
  have hch : ∀ (N : Nat) (l : Option Nat) (C : List (Nat × Key)), C.length ≤ N → Chain m l C → ∃ C', Chain m' l C' ∧ C'.Sublist C ∧ ∀ x ∈ C, ¬ K x.2 → x ∈ C' := by
    intro N
    induction N with
    | zero =>
      intro l C hN hC
      cases hC with
      | nil => exact ⟨[], .nil, .refl _, by simp⟩
      | cons => simp at hN
    | succ N ih =>
      intro l C hN hC
      cases hC with
      | nil => exact ⟨[], .nil, .refl _, by simp⟩
      | @cons b kb vb nb C e t =>
        have hN' : C.length ≤ N := by simpa using hN
        by_cases hb : b = a
        · subst hb
          rw [ho] at e
          cases e
          rcases hn with rfl | ⟨c, kc, vc, rfl, hc, hkc⟩
          · obtain ⟨C', h1, h2, h3⟩ := ih _ _ hN' t
            refine ⟨(b, k) :: C', .cons hset h1, h2.cons_cons _, ?_⟩
            intro x hx hk
            rcases List.mem_cons.1 hx with rfl | hx
            · simp
            · exact List.mem_cons_of_mem _ (h3 x hx hk)
          · cases t with
            | cons e2 t2 =>
              rw [hc] at e2
              cases e2
              obtain ⟨C', h1, h2, h3⟩ := ih _ _ (by simp at hN'; omega) t2
              refine ⟨(b, k) :: C', .cons hset h1, (h2.cons _).cons_cons _, ?_⟩
              intro x hx hk
              rcases List.mem_cons.1 hx with rfl | hx
              · simp
              · rcases List.mem_cons.1 hx with rfl | hx
                · exact absurd hkc hk
                · exact List.mem_cons_of_mem _ (h3 x hx hk)
        · obtain ⟨C', h1, h2, h3⟩ := ih _ _ hN' t
          refine ⟨(b, kb) :: C', .cons ((hne b hb).trans e) h1, h2.cons_cons _, ?_⟩
          intro x hx hk
          rcases List.mem_cons.1 hx with rfl | hx
          · simp
          · exact List.mem_cons_of_mem _ (h3 x hx hk)
  have hch : ∀ l, ChainTo K m m' l := fun l C hC => hch C.length l C (Nat.le_refl _) hC
  have hnode : ∀ (b : Nat) (bm : Hash) (p ar : Nat), m'.objs[b]? = some (.node bm p ar) ↔ m.objs[b]? = some (.node bm p ar) := by
    intro b bm p ar
    by_cases hb : b = a
    · subst hb
      rw [hset, ho]
      constructor <;> intro h <;> cases h
    · rw [hne b hb]
  have hkv : ∀ (b : Nat) (h : Hash) (l : Option Nat), m'.objs[b]? = some (.kv h l) ↔ m.objs[b]? = some (.kv h l) := by
    intro b h l
    by_cases hb : b = a
    · subst hb
      rw [hset, ho]
      constructor <;> intro h <;> cases h
    · rw [hne b hb]
  have hpair : ∀ (b : Nat) (kb : Key) (vb : T) (nb : Option Nat), m.objs[b]? = some (.pair kb vb nb) → ∃ v' n', m'.objs[b]? = some (.pair kb v' n') ∧ (¬ V kb → v' = vb) := by
    intro b kb vb nb e
    by_cases hb : b = a
    · subst hb
      rw [ho] at e
      cases e
      exact ⟨_, _, hset, hv⟩
    · exact ⟨vb, nb, (hne b hb).trans e, fun _ => rfl⟩
  refine ⟨same_arrays hw harr hnode (fun b h l e => ⟨l, (hkv _ _ _).2 e⟩) ?_ ?_, same_arrays_evo hw harr hnode (fun b h l e => ⟨l, (hkv _ _ _).2 e⟩) hpair (fun b _ => hch _) ?_ ?_⟩
  · intro b h l e
    obtain ⟨C, h1, h2⟩ := hw.kv _ _ _ ((hkv _ _ _).1 e)
    obtain ⟨C', h3, h4, -⟩ := hch l C h1
    exact ⟨C', h3, fun x hx => h2 x (h4.subset hx)⟩
  · intro b kb vb nb e
    have : ∃ vb' nb', m.objs[b]? = some (.pair kb vb' nb') := by
      by_cases hb : b = a
      · subst hb
        rw [hset] at e
        cases e
        exact ⟨_, _, ho⟩
      · exact ⟨vb, nb, (hne b hb).symm.trans e⟩
    obtain ⟨vb', nb', e'⟩ := this
    obtain ⟨C, h1, h2, h3, h4⟩ := hw.chain e'
    obtain ⟨C', h5, h6, -⟩ := hch _ _ h1
    cases h5 with
    | cons e5 t5 =>
      rw [e] at e5
      cases e5
      have h6 := h6.of_cons_cons
      exact ⟨_, t5, h3.sublist (List.Sublist.cons_cons _ (h6.map _)), fun x hx => h4 x (h6.subset hx)⟩
  · intro e h l e1 C hC x hx hk
    obtain ⟨C', h1, -, h2⟩ := hch l C hC
    exact .kv ((hkv _ _ _).2 e1) h1 (h2 x hx hk)
  · intro e h l _ e1 C hC x hx
    have e2 := (hkv _ _ _).1 e1
    obtain ⟨C1, h1, -⟩ := hw.kv_chain e2
    obtain ⟨C', h2, h3, -⟩ := hch l C1 h1
    rw [Chain.det hC h2] at hx
    exact .inl (.kv e2 h1 (h3.subset hx))

/-- A `KvNode` skips its first pair. -/
theorem kv_step (hw : WF H L m) {a : Nat} {h : Hash} {b : Nat} {kb : Key} {vb : T} {n : Option Nat} (ho : m.objs[a]? = some (.kv h (some b)))
    (hb : m.objs[b]? = some (.pair kb vb n)) (hkb : K kb) :
    WF H L (⟨m.objs.set a (.kv h n), m.arrs⟩ : Mem T) ∧ Evo H K V F L m L ⟨m.objs.set a (.kv h n), m.arrs⟩ ∧ ∀ d, Shallow d L m ⟨m.objs.set a (.kv h n), m.arrs⟩ := by
  generalize hm : (⟨m.objs.set a (.kv h n), m.arrs⟩ : Mem T) = m'
  have hset : m'.objs[a]? = some (.kv h n) := by rw [← hm]; exact getElem?_set_eq ho _
  have hne : ∀ b, b ≠ a → m'.objs[b]? = m.objs[b]? := fun b hb => by rw [← hm]; exact getElem?_set_ne (Ne.symm hb) _
  have harr : m'.arrs = m.arrs := by rw [← hm]
  have hpair : ∀ (b : Nat) (k : Key) (v : T) (n : Option Nat), m'.objs[b]? = some (.pair k v n) ↔ m.objs[b]? = some (.pair k v n) := by
    intro b k v n
    by_cases hb : b = a
    · subst hb
      rw [hset, ho]
      constructor <;> intro h <;> cases h
    · rw [hne b hb]
  have hnode : ∀ (b : Nat) (bm : Hash) (p ar : Nat), m'.objs[b]? = some (.node bm p ar) ↔ m.objs[b]? = some (.node bm p ar) := by
    intro b bm p ar
    by_cases hb : b = a
    · subst hb
      rw [hset, ho]
      constructor <;> intro h <;> cases h
    · rw [hne b hb]
  have hch : ∀ {l C}, Chain m l C → Chain m' l C := fun h => h.congr fun a k v n _ e => ⟨v, (hpair _ _ _ _).2 e⟩
  obtain ⟨C0, hC0, hh0⟩ := hw.kv_chain ho
  obtain ⟨C1, rfl, hC1⟩ : ∃ C1, C0 = (b, kb) :: C1 ∧ Chain m n C1 := by
    cases hC0 with
    | cons e t =>
      rw [hb] at e
      cases e
      exact ⟨_, rfl, t⟩
  have hkv : ∀ (b : Nat) (h : Hash) (l : Option Nat), m.objs[b]? = some (.kv h l) → ∃ l', m'.objs[b]? = some (.kv h l') := by
    intro b h l e
    by_cases hb : b = a
    · subst hb
      rw [ho] at e
      cases e
      exact ⟨_, hset⟩
    · exact ⟨l, (hne b hb).trans e⟩
  refine ⟨same_arrays hw harr hnode hkv ?_ ?_, same_arrays_evo hw harr hnode hkv (fun a k v n e => ⟨v, n, (hpair _ _ _ _).2 e, fun _ => rfl⟩)
    (fun b _ => .same fun C hC => hch hC) ?_ ?_⟩
  · intro b h l e
    by_cases hb : b = a
    · subst hb
      rw [hset] at e
      cases e
      exact ⟨C1, hch hC1, fun x hx => hh0 x (by simp [hx])⟩
    · obtain ⟨C, h1, h2⟩ := hw.kv _ _ _ ((hne b hb).symm.trans e)
      exact ⟨C, hch h1, h2⟩
  · intro b k v n e
    obtain ⟨C, h1, h2⟩ := hw.pair _ _ _ _ ((hpair _ _ _ _).1 e)
    exact ⟨C, hch h1, h2⟩
  · intro e h' l e1 C hC x hx hk
    by_cases hb : e = a
    · subst hb
      rw [ho] at e1
      cases e1
      rw [Chain.det hC hC0] at hx
      rcases List.mem_cons.1 hx with rfl | hx
      · exact absurd hkb hk
      · exact .kv hset (hch hC1) hx
    · exact .kv ((hne e hb).trans e1) (hch hC) hx
  · intro e h' l _ e1 C hC x hx
    by_cases hb : e = a
    · subst hb
      rw [hset] at e1
      cases e1
      rw [Chain.det hC (hch hC1)] at hx
      exact .inl (.kv ho hC0 (by simp [hx]))
    · have e2 := (hne e hb).symm.trans e1
      obtain ⟨C1, h1, -⟩ := hw.kv_chain e2
      rw [Chain.det hC (hch h1)] at hx
      exact .inl (.kv e2 h1 hx)

/-- Nothing refers to the pair. -/
structure Unref (m : Mem T) (a : Nat) : Prop where
  kv : ∀ (e : Nat) (h : Hash), m.objs[e]? ≠ some (.kv h (some a))
  pair : ∀ (c : Nat) (k : Key) (v : T), m.objs[c]? ≠ some (.pair k v (some a))

theorem Unref.chain {a : Nat} (hu : Unref m a) {l : Option Nat} {C : List (Nat × Key)} (h : Chain m l C) (hl : l ≠ some a) : ∀ k, (a, k) ∉ C := by
  induction h with
  | nil => simp
  | @cons b kb vb n C e t ih =>
    intro k hk
    rcases List.mem_cons.1 hk with h | h
    · cases h; exact hl rfl
    · refine ih ?_ k h
      rintro rfl
      exact hu.pair _ _ _ e

theorem Unref.entHas {a : Nat} (hu : Unref m a) {e : Nat} {x : Nat × Key} (h : EntHas m e x) : x.1 ≠ a := by
  induction h with
  | @kv e h l C x ho hC hx =>
    rintro rfl
    exact hu.chain hC (by rintro rfl; exact hu.kv _ _ ho) x.2 hx
  | node _ _ _ _ ih => exact ih

/-- A pair is put before the chain of a `KvNode`. -/
theorem prepend_step (hw : WF H L m) {a x0 : Nat} {k : Key} {v : T} {l : Option Nat} {C0 : List (Nat × Key)} (ho : m.objs[a]? = some (.kv (H k) l))
    (hx : m.objs[x0]? = some (.pair k v none)) (hu : Unref m x0) (hF : F x0) (hC0 : Chain m l C0) (hk : k ∉ C0.map Prod.snd) :
    WF H L (⟨(m.objs.set x0 (.pair k v l)).set a (.kv (H k) (some x0)), m.arrs⟩ : Mem T) ∧
      Evo H K V F L m L ⟨(m.objs.set x0 (.pair k v l)).set a (.kv (H k) (some x0)), m.arrs⟩ ∧
      ∀ d, Shallow d L m ⟨(m.objs.set x0 (.pair k v l)).set a (.kv (H k) (some x0)), m.arrs⟩ := by
  generalize hm : (⟨(m.objs.set x0 (.pair k v l)).set a (.kv (H k) (some x0)), m.arrs⟩ : Mem T) = m'
  have hax : x0 ≠ a := by rintro rfl; rw [ho] at hx; cases hx
  have hset : m'.objs[a]? = some (.kv (H k) (some x0)) := by
    rw [← hm]; exact getElem?_set_eq (y := .kv (H k) l) (by rw [getElem?_set_ne hax]; exact ho) _
  have hset2 : m'.objs[x0]? = some (.pair k v l) := by
    rw [← hm]; show ((m.objs.set x0 _).set a _)[x0]? = _
    rw [getElem?_set_ne hax.symm]; exact getElem?_set_eq hx _
  have hne : ∀ b, b ≠ a → b ≠ x0 → m'.objs[b]? = m.objs[b]? := fun b hb hb2 => by
    rw [← hm]; show ((m.objs.set x0 _).set a _)[b]? = _
    rw [getElem?_set_ne hb.symm, getElem?_set_ne hb2.symm]
  have harr : m'.arrs = m.arrs := by rw [← hm]
  have hnode : ∀ (b : Nat) (bm : Hash) (p ar : Nat), m'.objs[b]? = some (.node bm p ar) ↔ m.objs[b]? = some (.node bm p ar) := by
    intro b bm p ar
    by_cases hb : b = a
    · subst hb
      rw [hset, ho]
      constructor <;> intro h <;> cases h
    · by_cases hb2 : b = x0
      · subst hb2
        rw [hset2, hx]
        constructor <;> intro h <;> cases h
      · rw [hne b hb hb2]
  have hl0 : l ≠ some x0 := by rintro rfl; exact hu.kv _ _ ho
  have hch : ∀ {l C}, l ≠ some x0 → Chain m l C → Chain m' l C := by
    intro l C hl hC
    refine hC.congr fun b kb vb n hmem e => ⟨vb, ?_⟩
    rw [hne b ?_ ?_]; exact e
    · rintro rfl; rw [ho] at e; cases e
    · rintro rfl; exact hu.chain hC hl _ hmem
  have hnew : Chain m' (some x0) ((x0, k) :: C0) := .cons hset2 (hch hl0 hC0)
  have hh0 : ∀ x ∈ C0, H x.2 = H k := by
    obtain ⟨C, h1, h2⟩ := hw.kv_chain ho
    rw [Chain.det hC0 h1]; exact h2
  have hkv : ∀ (b : Nat) (h : Hash) (l : Option Nat), m.objs[b]? = some (.kv h l) → ∃ l', m'.objs[b]? = some (.kv h l') := by
    intro b h l e
    by_cases hb : b = a
    · subst hb
      rw [ho] at e
      cases e
      exact ⟨_, hset⟩
    · refine ⟨l, (hne b hb ?_).trans e⟩
      rintro rfl; rw [hx] at e; cases e
  refine ⟨same_arrays hw harr hnode hkv ?_ ?_, same_arrays_evo hw harr hnode hkv ?_ ?_ ?_ ?_⟩
  · intro b h l' e
    by_cases hb : b = a
    · subst hb
      rw [hset] at e
      cases e
      refine ⟨_, hnew, ?_⟩
      intro x hx
      rcases List.mem_cons.1 hx with rfl | hx
      · rfl
      · exact hh0 x hx
    · have hb2 : b ≠ x0 := by rintro rfl; rw [hset2] at e; cases e
      have e' := (hne b hb hb2).symm.trans e
      obtain ⟨C, h1, h2⟩ := hw.kv _ _ _ e'
      exact ⟨C, hch (by rintro rfl; exact hu.kv _ _ e') h1, h2⟩
  · intro b kb vb n e
    by_cases hb2 : b = x0
    · subst hb2
      rw [hset2] at e
      cases e
      exact ⟨C0, hch hl0 hC0, List.nodup_cons.2 ⟨hk, Chain.nodup hw hC0⟩, hh0⟩
    · have hb : b ≠ a := by rintro rfl; rw [hset] at e; cases e
      have e' := (hne b hb hb2).symm.trans e
      obtain ⟨C, h1, h2⟩ := hw.pair _ _ _ _ e'
      exact ⟨C, hch (by rintro rfl; exact hu.pair _ _ _ e') h1, h2⟩
  · intro b kb vb n e
    by_cases hb2 : b = x0
    · subst hb2
      rw [hx] at e
      cases e
      exact ⟨v, l, hset2, fun _ => rfl⟩
    · have hb : b ≠ a := by rintro rfl; rw [ho] at e; cases e
      exact ⟨vb, n, (hne b hb hb2).trans e, fun _ => rfl⟩
  · intro b hb
    exact .same fun C hC => hch (by intro c; cases c; exact hb hF) hC
  · intro e h' l' e1 C hC x hx' hk
    by_cases hb : e = a
    · subst hb
      rw [ho] at e1
      cases e1
      rw [Chain.det hC hC0] at hx'
      exact .kv hset hnew (by simp [hx'])
    · have hb2 : e ≠ x0 := by rintro rfl; rw [hx] at e1; cases e1
      exact .kv ((hne e hb hb2).trans e1) (hch (by rintro rfl; exact hu.kv _ _ e1) hC) hx'
  · intro e h' l' _ e1 C hC x hx'
    by_cases hb : e = a
    · subst hb
      rw [hset] at e1
      cases e1
      rw [Chain.det hC hnew] at hx'
      rcases List.mem_cons.1 hx' with rfl | hx'
      · exact .inr hF
      · exact .inl (.kv ho hC0 hx')
    · have hb2 : e ≠ x0 := by rintro rfl; rw [hset2] at e1; cases e1
      have e2 := (hne e hb hb2).symm.trans e1
      obtain ⟨C1, h1, -⟩ := hw.kv_chain e2
      rw [Chain.det hC (hch (by rintro rfl; exact hu.kv _ _ e2) h1)] at hx'
      exact .inl (.kv e2 h1 hx')

/-! ## Arrays -/

theorem mem_set_cases {α : Type} {l : List α} {i : Nat} {x y : α} (h : y ∈ l.set i x) : y = x ∨ y ∈ l := by
  rcases List.mem_or_eq_of_mem_set h with h | h
  · exact .inr h
  · exact .inl h

/-- A slot gets another entry. -/
theorem write_step (hw : WF H L m) {ar : Nat} {cs : List (Option Nat)} {i p e a : Nat} (ha : m.arrs[ar]? = some cs) (hi : cs[i]? = some (some e))
    (hp : (L ar).2[i]? = some p) (hent : EntAt L m ((L ar).1 ++ [p]) a) (hk : ∀ x, EntHas m e x → ¬ K x.2 → EntHas m a x)
    (hu : ∀ x, EntHas m a x → EntHas m e x ∨ F x.1) :
    WF H L (⟨m.objs, m.arrs.set ar (cs.set i (some a))⟩ : Mem T) ∧ Evo H K V F L m L ⟨m.objs, m.arrs.set ar (cs.set i (some a))⟩ ∧
      ∀ d, d ≤ (L ar).1.length → Shallow d L m ⟨m.objs, m.arrs.set ar (cs.set i (some a))⟩ := by
  generalize hm : (⟨m.objs, m.arrs.set ar (cs.set i (some a))⟩ : Mem T) = m'
  have hobj : m'.objs = m.objs := by rw [← hm]
  have hset : m'.arrs[ar]? = some (cs.set i (some a)) := by rw [← hm]; exact getElem?_set_eq ha _
  have hne : ∀ b, b ≠ ar → m'.arrs[b]? = m.arrs[b]? := fun b hb => by rw [← hm]; exact getElem?_set_ne (Ne.symm hb) _
  have hch : ∀ {l C}, Chain m l C → Chain m' l C := fun h => h.congr fun a k v n _ e => ⟨v, by rw [hobj]; exact e⟩
  have hil := (List.getElem?_eq_some_iff.1 hi).1
  have hia : some a ∈ cs.set i (some a) := List.mem_of_getElem? (getElem?_set_eq hi _)
  have hdeep : ∀ c x, EntHas m c x → ∀ q, EntAt L m q c → (L ar).1.length < q.length → EntHas m' c x := by
    intro c x h
    induction h with
    | kv ho hC hx => intro q _ _; exact .kv (by rw [hobj]; exact ho) (hch hC) hx
    | @node e bm p ar' cs' c x ho hcs hc hx ih =>
      intro q hq hl
      rcases hq with ⟨_, _, h1, -⟩ | ⟨_, _, _, h1, h2, -⟩
      · rw [ho] at h1; cases h1
      · rw [ho] at h1
        cases h1
        have hn : ar' ≠ ar := by rintro rfl; rw [h2] at hl; omega
        obtain ⟨j, r, -, -, h3⟩ := hw.child hcs hc
        exact .node (by rw [hobj]; exact ho) ((hne _ hn).trans hcs) hc (ih _ h3 (by rw [h2]; simp; omega))
  have hdeep' : ∀ c x, EntHas m' c x → ∀ q, EntAt L m q c → (L ar).1.length < q.length → EntHas m c x := by
    intro c x h
    induction h with
    | @kv e h l C x ho hC hx =>
      intro q _ _
      rw [hobj] at ho
      obtain ⟨C1, h1, -⟩ := hw.kv_chain ho
      rw [Chain.det hC (hch h1)] at hx
      exact .kv ho h1 hx
    | @node e bm p ar' cs' c x ho hcs hc hx ih =>
      intro q hq hl
      rw [hobj] at ho
      rcases hq with ⟨_, _, h1, -⟩ | ⟨_, _, _, h1, h2, -⟩
      · rw [ho] at h1; cases h1
      · rw [ho] at h1
        cases h1
        have hn : ar' ≠ ar := by rintro rfl; rw [h2] at hl; omega
        rw [hne _ hn] at hcs
        obtain ⟨j, r, -, -, h3⟩ := hw.child hcs hc
        exact .node ho hcs hc (ih _ h3 (by rw [h2]; simp; omega))
  have hq : (L ar).1.length < ((L ar).1 ++ [p]).length := by simp
  have hkeep : ∀ e x, EntHas m e x → ¬ K x.2 → EntHas m' e x := keep_of
    (fun e h l ho C hC x hx _ => .kv (by rw [hobj]; exact ho) (hch hC) hx) (by
      intro e' bm p' ar' cs' c x ho hcs hc hx hkx hx'
      by_cases hn : ar' = ar
      · subst hn
        rw [ha] at hcs
        cases hcs
        obtain ⟨j, hj⟩ := List.mem_iff_getElem?.1 hc
        by_cases hij : i = j
        · subst hij
          rw [hi] at hj
          cases hj
          exact .node (by rw [hobj]; exact ho) hset hia (hdeep _ _ (hk x hx hkx) _ hent hq)
        · exact .node (by rw [hobj]; exact ho) hset (List.mem_of_getElem? ((getElem?_set_ne hij _).trans hj)) hx'
      · exact .node (by rw [hobj]; exact ho) ((hne _ hn).trans hcs) hc hx')
  have hupper : ∀ e x, e < m.objs.length → EntHas m' e x → EntHas m e x ∨ F x.1 := upper_of
    (by
      intro e h l he ho C hC x hx
      rw [hobj] at ho
      obtain ⟨C', h1, h2⟩ := hw.kv_chain ho
      rw [Chain.det hC (hch h1)] at hx
      exact .inl (.kv ho h1 hx))
    (by
      intro e' bm p' ar' cs' c x he ho hcs hc hx ih
      rw [hobj] at ho
      by_cases hn : ar' = ar
      · subst hn
        rw [hset] at hcs
        cases hcs
        have hold : some c ∈ cs → EntHas m e' x ∨ F x.1 := by
          intro hc
          rcases ih (hw.child_lt ha hc) with h | h
          · exact .inl (.node ho ha hc h)
          · exact .inr h
        rcases mem_set_cases hc with h | h
        · cases h
          rcases hu x (hdeep' _ _ hx _ hent hq) with h | h
          · exact .inl (.node ho ha (List.mem_of_getElem? hi) h)
          · exact .inr h
        · exact hold h
      · rw [hne _ hn] at hcs
        rcases ih (hw.child_lt hcs hc) with h | h
        · exact .inl (.node ho hcs hc h)
        · exact .inr h)
  refine ⟨⟨?_, ?_, ?_, ?_, ?_⟩, ⟨fun _ _ => rfl, ?_, ?_, ?_, ?_, hkeep, hupper, ?_⟩, ?_⟩
  · have hent2 : ∀ {q c}, EntAt L m q c → EntAt L m' q c := by
      intro q c h
      unfold EntAt at *
      rw [hobj]; exact h
    intro b bs hb
    by_cases hn : b = ar
    · subst hn
      rw [hset] at hb
      cases hb
      have ho := hw.arr _ _ ha
      refine ⟨ho.len, ho.sorted, by simpa using ho.size, ?_⟩
      intro j r c h1 h2
      by_cases hij : i = j
      · subst hij
        rw [getElem?_set_eq hi] at h2
        cases h2
        rw [hp] at h1
        cases h1
        exact hent2 hent
      · rw [getElem?_set_ne hij] at h2
        exact hent2 (ho.ent _ _ _ h1 h2)
    · have ho := hw.arr _ _ ((hne b hn).symm.trans hb)
      exact ⟨ho.len, ho.sorted, ho.size, fun j r c h1 h2 => hent2 (ho.ent j r c h1 h2)⟩
  · intro b bm p' ar' ho
    rw [hobj] at ho
    obtain ⟨h1, bs, h2, h3⟩ := hw.node _ _ _ _ ho
    refine ⟨h1, ?_⟩
    by_cases hn : ar' = ar
    · subst hn
      rw [ha] at h2
      cases h2
      refine ⟨_, hset, ?_⟩
      intro c
      rcases mem_set_cases c with c | c
      · cases c
      · exact h3 c
    · exact ⟨bs, (hne _ hn).trans h2, h3⟩
  · intro a b bm p bm' p' ar' h1 h2
    rw [hobj] at h1 h2
    exact hw.own _ _ _ _ _ _ _ h1 h2
  · intro b h l ho
    rw [hobj] at ho
    obtain ⟨C, h1, h2⟩ := hw.kv _ _ _ ho
    exact ⟨C, hch h1, h2⟩
  · intro b k v n ho
    rw [hobj] at ho
    obtain ⟨C, h1, h2⟩ := hw.pair _ _ _ _ ho
    exact ⟨C, hch h1, h2⟩
  · exact fun b bm p' ar' ho => ⟨bm, ar', by rw [hobj]; exact ho, rfl⟩
  · exact fun b h l ho => ⟨l, by rw [hobj]; exact ho⟩
  · exact fun b k v n ho => ⟨v, n, by rw [hobj]; exact ho, fun _ => rfl⟩
  · exact fun b _ => .same fun C hC => hch hC
  · intro b bs hb
    by_cases hn : b = ar
    · subst hn
      rw [ha] at hb
      cases hb
      refine ⟨_, hset, fun j => ?_⟩
      by_cases hij : i = j
      · subst hij
        rw [hi, getElem?_set_eq hi]
        refine .inr ⟨a, rfl, fun x hx hkx => hdeep _ _ (hk x hx hkx) _ hent hq, fun x hx => hu x (hdeep' _ _ hx _ hent hq)⟩
      · rw [getElem?_set_ne hij]
        exact slots_same (fun c hc x => hkeep c x) (fun c hc x hx => hupper c x (hw.child_lt ha hc) hx) j
    · exact ⟨bs, (hne b hn).trans hb, slots_same (fun c hc x => hkeep c x) (fun c hc x hx => hupper c x (hw.child_lt hb hc) hx)⟩
  · intro d hd
    refine ⟨fun b bm p' ar' ho _ => by rw [hobj]; exact ho, fun b bs hb hl => ?_⟩
    rw [hne b (by rintro rfl; omega)]
    exact hb

/-- The labels with one more array. -/
def addLab (L : Lab) (n : Nat) (x : List Nat × List Nat) : Lab := fun i => if i = n then x else L i

theorem addLab_new (L : Lab) (n : Nat) (x : List Nat × List Nat) : addLab L n x n = x := if_pos rfl
theorem addLab_old (L : Lab) {n i : Nat} (x : List Nat × List Nat) (h : i < n) : addLab L n x i = L i := if_neg (by omega)

/-- A node gets a new array. The slots of the old array stay, or become nil. -/
theorem setArr_step (hw : WF H L m) {a : Nat} {bm bm' : Hash} {p0 ar : Nat} {cs cs1 arr : List (Option Nat)} (ho : m.objs[a]? = some (.node bm p0 ar))
    (ha : m.arrs[ar]? = some cs) (hsize : (bits bm').length = arr.length) (hnone : none ∉ arr)
    (hent : ∀ (j p c : Nat), (bits bm')[j]? = some p → arr[j]? = some (some c) → EntAt L m ((L ar).1 ++ [p]) c)
    (hsub : ∀ c, some c ∈ cs → some c ∈ arr ∨ ∀ x, ¬ EntHas m c x)
    (hnew : ∀ c, some c ∈ arr → some c ∈ cs ∨ ∃ h l C, m.objs[c]? = some (.kv h l) ∧ Chain m l C ∧ ∀ x ∈ C, F x.1) (hlen : cs1.length = cs.length)
    (hcs1 : ∀ (j : Nat), cs1[j]? = cs[j]? ∨ (cs1[j]? = some none ∧ ∃ k, K k ∧ ∀ p, (L ar).2[j]? = some p → OnPath (H k) ((L ar).1 ++ [p]))) :
    WF H (addLab L m.arrs.length ((L ar).1, bits bm')) (⟨m.objs.set a (.node bm' p0 m.arrs.length), m.arrs.set ar cs1 ++ [arr]⟩ : Mem T) ∧
      Evo H K V F L m (addLab L m.arrs.length ((L ar).1, bits bm')) ⟨m.objs.set a (.node bm' p0 m.arrs.length), m.arrs.set ar cs1 ++ [arr]⟩ ∧
      ∀ d, d ≤ (L ar).1.length → Shallow d L m ⟨m.objs.set a (.node bm' p0 m.arrs.length), m.arrs.set ar cs1 ++ [arr]⟩ := by
  generalize hm : (⟨m.objs.set a (.node bm' p0 m.arrs.length), m.arrs.set ar cs1 ++ [arr]⟩ : Mem T) = m'
  generalize hLL : addLab L m.arrs.length ((L ar).1, bits bm') = L'
  have hL : ∀ i, i < m.arrs.length → L' i = L i := fun i hi => by rw [← hLL]; exact addLab_old _ _ hi
  have hLn : L' m.arrs.length = ((L ar).1, bits bm') := by rw [← hLL]; exact addLab_new _ _ _
  have harl := (List.getElem?_eq_some_iff.1 ha).1
  have hset : m'.objs[a]? = some (.node bm' p0 m.arrs.length) := by rw [← hm]; exact getElem?_set_eq ho _
  have hne : ∀ b, b ≠ a → m'.objs[b]? = m.objs[b]? := fun b hb => by rw [← hm]; exact getElem?_set_ne (Ne.symm hb) _
  have harr1 : m'.arrs[ar]? = some cs1 := by
    rw [← hm]
    show (m.arrs.set ar cs1 ++ [arr])[ar]? = _
    rw [List.getElem?_append_left (by simpa using harl)]; exact getElem?_set_eq ha _
  have harrn : m'.arrs[m.arrs.length]? = some arr := by
    rw [← hm]
    show (m.arrs.set ar cs1 ++ [arr])[m.arrs.length]? = _
    simp
  have harro : ∀ b, b ≠ ar → b < m.arrs.length → m'.arrs[b]? = m.arrs[b]? := by
    intro b hb hl
    rw [← hm]
    show (m.arrs.set ar cs1 ++ [arr])[b]? = _
    rw [List.getElem?_append_left (by simpa using hl), getElem?_set_ne (Ne.symm hb)]
  have hcases : ∀ (b : Nat) (bs : List (Option Nat)), m'.arrs[b]? = some bs → (b = ar ∧ bs = cs1) ∨ (b = m.arrs.length ∧ bs = arr) ∨ (b ≠ ar ∧ b < m.arrs.length ∧ m.arrs[b]? = some bs) := by
    intro b bs hb
    by_cases h1 : b = ar
    · subst h1
      rw [harr1] at hb
      exact .inl ⟨rfl, (Option.some.inj hb).symm⟩
    · by_cases h2 : b = m.arrs.length
      · subst h2
        rw [harrn] at hb
        exact .inr (.inl ⟨rfl, (Option.some.inj hb).symm⟩)
      · have h3 : b < m'.arrs.length := (List.getElem?_eq_some_iff.1 hb).1
        have h3 : b < m.arrs.length := by rw [← hm] at h3; simp at h3; omega
        exact .inr (.inr ⟨h1, h3, (harro b h1 h3).symm.trans hb⟩)
  have hpair : ∀ (b : Nat) (k : Key) (v : T) (n : Option Nat), m'.objs[b]? = some (.pair k v n) ↔ m.objs[b]? = some (.pair k v n) := by
    intro b k v n
    by_cases hb : b = a
    · subst hb
      rw [hset, ho]
      constructor <;> intro h <;> cases h
    · rw [hne b hb]
  have hkv : ∀ (b : Nat) (h : Hash) (l : Option Nat), m'.objs[b]? = some (.kv h l) ↔ m.objs[b]? = some (.kv h l) := by
    intro b h l
    by_cases hb : b = a
    · subst hb
      rw [hset, ho]
      constructor <;> intro h <;> cases h
    · rw [hne b hb]
  have hch : ∀ {l C}, Chain m l C → Chain m' l C := fun h => h.congr fun a k v n _ e => ⟨v, (hpair _ _ _ _).2 e⟩
  have hother : ∀ {b : Nat} {bm1 : Hash} {p1 ar1 : Nat}, b ≠ a → m.objs[b]? = some (.node bm1 p1 ar1) → ar1 ≠ ar := by
    rintro b bm1 p1 ar1 hb e rfl
    exact hb (hw.own _ _ _ _ _ _ _ e ho)
  have hent2 : ∀ {q c}, EntAt L m q c → EntAt L' m' q c := by
    rintro q c (⟨hh, l, h1, h2⟩ | ⟨bm1, p1, ar1, h1, h2, h3⟩)
    · exact .inl ⟨hh, l, (hkv _ _ _).2 h1, h2⟩
    · by_cases hb : c = a
      · subst hb
        rw [ho] at h1
        cases h1
        exact .inr ⟨_, _, _, hset, by rw [hLn]; exact h2, h3⟩
      · exact .inr ⟨bm1, p1, ar1, (hne c hb).trans h1, by rw [hL _ (hw.arr_lt h1)]; exact h2, h3⟩
  have hkeep : ∀ e x, EntHas m e x → ¬ K x.2 → EntHas m' e x := keep_of
    (fun e h l ho C hC x hx _ => .kv ((hkv _ _ _).2 ho) (hch hC) hx) (by
      intro e' bm1 p1 ar1 cs' c x ho1 hcs hc hx hkx hx'
      by_cases hb : e' = a
      · subst hb
        rw [ho] at ho1
        cases ho1
        rw [ha] at hcs
        cases hcs
        rcases hsub c hc with h | h
        · exact .node hset harrn h hx'
        · exact absurd hx (h x)
      · exact .node ((hne _ hb).trans ho1) ((harro _ (hother hb ho1) (hw.arr_lt ho1)).trans hcs) hc hx')
  have hupper : ∀ e x, e < m.objs.length → EntHas m' e x → EntHas m e x ∨ F x.1 := upper_of
    (by
      intro e h l he ho C hC x hx
      have ho := (hkv _ _ _).1 ho
      obtain ⟨C', h1, h2⟩ := hw.kv_chain ho
      rw [Chain.det hC (hch h1)] at hx
      exact .inl (.kv ho h1 hx))
    (by
      intro e' bm1 p1 ar1 cs' c x he ho1 hcs hc hx ih
      by_cases hb : e' = a
      · subst hb
        rw [hset] at ho1
        cases ho1
        rw [harrn] at hcs
        cases hcs
        rcases hnew c hc with h | ⟨hh, l, C, h1, h2, h3⟩
        · rcases ih (hw.child_lt ha h) with h1 | h1
          · exact .inl (.node ho ha h h1)
          · exact .inr h1
        · exact .inr (h3 x ((entHas_kv ((hkv _ _ _).2 h1) (hch h2)).1 hx))
      · have ho1 := (hne _ hb).symm.trans ho1
        have hcs := (harro _ (hother hb ho1) (hw.arr_lt ho1)).symm.trans hcs
        rcases ih (hw.child_lt hcs hc) with h | h
        · exact .inl (.node ho1 hcs hc h)
        · exact .inr h)
  refine ⟨⟨?_, ?_, ?_, ?_, ?_⟩, ⟨hL, ?_, ?_, ?_, ?_, hkeep, hupper, ?_⟩, ?_⟩
  · intro b bs hb
    rcases hcases b bs hb with ⟨rfl, rfl⟩ | ⟨rfl, rfl⟩ | ⟨h1, h2, h3⟩
    · have hok := hw.arr _ _ ha
      have hl := hL b harl
      refine ⟨by rw [hl]; exact hok.len, by rw [hl]; exact hok.sorted, by rw [hl, hlen]; exact hok.size, ?_⟩
      rw [hl]
      intro j r c h1 h2
      rcases hcs1 j with h3 | ⟨h3, -⟩
      · exact hent2 (hok.ent _ _ _ h1 (h3.symm.trans h2))
      · rw [h3] at h2; cases h2
    · have hok := hw.arr _ _ ha
      refine ⟨by rw [hLn]; exact hok.len, by rw [hLn]; exact bits_sorted _, by rw [hLn]; exact hsize, ?_⟩
      rw [hLn]
      exact fun j r c h1 h2 => hent2 (hent j r c h1 h2)
    · have hok := hw.arr _ _ h3
      have hl := hL b h2
      refine ⟨by rw [hl]; exact hok.len, by rw [hl]; exact hok.sorted, by rw [hl]; exact hok.size, ?_⟩
      rw [hl]
      exact fun j r c h1 h2 => hent2 (hok.ent j r c h1 h2)
  · intro b bm1 p1 ar1 ho1
    by_cases hb : b = a
    · subst hb
      rw [hset] at ho1
      cases ho1
      exact ⟨by rw [hLn], arr, harrn, hnone⟩
    · have ho1 := (hne _ hb).symm.trans ho1
      obtain ⟨h1, bs, h2, h3⟩ := hw.node _ _ _ _ ho1
      exact ⟨by rw [hL _ (hw.arr_lt ho1)]; exact h1, bs, (harro _ (hother hb ho1) (hw.arr_lt ho1)).trans h2, h3⟩
  · intro b c bm1 p1 bm2 p2 ar1 h1 h2
    by_cases hb : b = a <;> by_cases hc : c = a
    · rw [hb, hc]
    · subst hb
      rw [hset] at h1
      cases h1
      have := hw.arr_lt ((hne _ hc).symm.trans h2)
      omega
    · subst hc
      rw [hset] at h2
      cases h2
      have := hw.arr_lt ((hne _ hb).symm.trans h1)
      omega
    · exact hw.own _ _ _ _ _ _ _ ((hne _ hb).symm.trans h1) ((hne _ hc).symm.trans h2)
  · intro b h l e
    obtain ⟨C, h1, h2⟩ := hw.kv _ _ _ ((hkv _ _ _).1 e)
    exact ⟨C, hch h1, h2⟩
  · intro b k v n e
    obtain ⟨C, h1, h2⟩ := hw.pair _ _ _ _ ((hpair _ _ _ _).1 e)
    exact ⟨C, hch h1, h2⟩
  · intro b bm1 p1 ar1 ho1
    by_cases hb : b = a
    · subst hb
      rw [ho] at ho1
      cases ho1
      exact ⟨_, _, hset, by rw [hLn]⟩
    · exact ⟨bm1, ar1, (hne _ hb).trans ho1, by rw [hL _ (hw.arr_lt ho1)]⟩
  · exact fun b h l e => ⟨l, (hkv _ _ _).2 e⟩
  · exact fun b k v n e => ⟨v, n, (hpair _ _ _ _).2 e, fun _ => rfl⟩
  · exact fun b _ => .same fun C hC => hch hC
  · intro b bs hb
    have hbl := (List.getElem?_eq_some_iff.1 hb).1
    by_cases hn : b = ar
    · subst hn
      rw [ha] at hb
      cases hb
      refine ⟨cs1, harr1, fun j => ?_⟩
      rcases hcs1 j with h | ⟨h, h'⟩
      · rw [h]
        exact slots_same (fun c hc x => hkeep c x) (fun c hc x hx => hupper c x (hw.child_lt ha hc) hx) j
      · rw [h]
        rcases hs : cs[j]? with _ | _ | e
        · have h1 := (List.getElem?_eq_some_iff.1 h).1
          rw [List.getElem?_eq_none_iff] at hs
          omega
        · exact rfl
        · exact .inl ⟨rfl, h'⟩
    · exact ⟨bs, (harro b hn hbl).trans hb, slots_same (fun c hc x => hkeep c x) (fun c hc x hx => hupper c x (hw.child_lt hb hc) hx)⟩
  · intro d hd
    refine ⟨fun b bm1 p1 ar1 ho1 hl => ?_, fun b bs hb hl => ?_⟩
    · rw [hne b ?_]; exact ho1
      rintro rfl
      rw [ho] at ho1
      cases ho1
      omega
    · rw [harro b ?_ (List.getElem?_eq_some_iff.1 hb).1]; exact hb
      rintro rfl
      omega

end GoSTL.Hamt.Arr
