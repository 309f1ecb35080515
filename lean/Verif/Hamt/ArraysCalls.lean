import Verif.Hamt.ArraysOps
/-!
# Arrays of children as objects: `insert`, `find` and `erase` keep the invariant
-/
namespace GoSTL.Hamt.Arr
variable {T : Type} {H : Key → Hash} {K V : Key → Prop} {F : Nat → Prop} {L L' : Lab} {m m' : Mem T}

/-! ## `insert` -/

theorem bits_single (p : Nat) (hp : p < 64) : bits (0 ||| bitPos p) = [p] := by
  have := bits_or_perm (bm := 0) hp (by rw [bits_zero]; simp)
  rw [bits_zero] at this
  exact List.perm_singleton.1 this

/-- A new node with a key-value child is not seen from the rest of the heap. -/
theorem newNode_step (hw : WF H L m) {q : List Nat} {p p' : Nat} {h : Hash} {l : Option Nat} {C : List (Nat × Key)} (hC : Chain m l C) (hCh : ∀ x ∈ C, H x.2 = h)
    (hp' : p' < 64) (hlen : (q ++ [p]).length ≤ 10) (hpath : OnPath h (q ++ [p] ++ [p'])) {m' : Mem T}
    (hm : m' = ⟨m.objs ++ [.node (0 ||| bitPos p') p (m.arrs.length + 1), .kv h l], m.arrs ++ [[], [some (m.objs.length + 1)]]⟩) :
    ∃ L', L' (m.arrs.length + 1) = (q ++ [p], [p']) ∧ WF H L' m' ∧ Evo H K V F L m L' m' ∧ ∀ d, Shallow d L m m' := by
  have hobj : ∀ (a : Nat) (o : Obj T), m.objs[a]? = some o → m'.objs[a]? = some o := by
    intro a o e
    rw [hm]
    show (m.objs ++ _)[a]? = _
    rw [List.getElem?_append_left (List.getElem?_eq_some_iff.1 e).1]; exact e
  have harr : ∀ (a : Nat) (o : List (Option Nat)), m.arrs[a]? = some o → m'.arrs[a]? = some o := by
    intro a o e
    rw [hm]
    show (m.arrs ++ _)[a]? = _
    rw [List.getElem?_append_left (List.getElem?_eq_some_iff.1 e).1]; exact e
  have hn0 : m'.objs[m.objs.length]? = some (.node (0 ||| bitPos p') p (m.arrs.length + 1)) := by rw [hm]; simp
  have hn1 : m'.objs[m.objs.length + 1]? = some (.kv h l) := by rw [hm]; simp [List.getElem?_append]
  have ha0 : m'.arrs[m.arrs.length]? = some [] := by rw [hm]; simp
  have ha1 : m'.arrs[m.arrs.length + 1]? = some [some (m.objs.length + 1)] := by rw [hm]; simp [List.getElem?_append]
  have hobjs : ∀ (a : Nat) (o : Obj T), m.objs.length ≤ a → m'.objs[a]? = some o →
      (a = m.objs.length ∧ o = .node (0 ||| bitPos p') p (m.arrs.length + 1)) ∨ (a = m.objs.length + 1 ∧ o = .kv h l) := by
    intro a o ha e
    have h1 := (List.getElem?_eq_some_iff.1 e).1
    have h1 : a < m.objs.length + 2 := by rw [hm] at h1; simpa using h1
    rcases (by omega : a = m.objs.length ∨ a = m.objs.length + 1) with rfl | rfl
    · rw [hn0] at e; exact .inl ⟨rfl, (Option.some.inj e).symm⟩
    · rw [hn1] at e; exact .inr ⟨rfl, (Option.some.inj e).symm⟩
  have harrs : ∀ (a : Nat) (o : List (Option Nat)), m.arrs.length ≤ a → m'.arrs[a]? = some o →
      (a = m.arrs.length ∧ o = []) ∨ (a = m.arrs.length + 1 ∧ o = [some (m.objs.length + 1)]) := by
    intro a o ha e
    have h1 := (List.getElem?_eq_some_iff.1 e).1
    have h1 : a < m.arrs.length + 2 := by rw [hm] at h1; simpa using h1
    rcases (by omega : a = m.arrs.length ∨ a = m.arrs.length + 1) with rfl | rfl
    · rw [ha0] at e; exact .inl ⟨rfl, (Option.some.inj e).symm⟩
    · rw [ha1] at e; exact .inr ⟨rfl, (Option.some.inj e).symm⟩
  let L' : Lab := addLab (addLab L m.arrs.length (q ++ [p], [])) (m.arrs.length + 1) (q ++ [p], [p'])
  have hL1 : L' (m.arrs.length + 1) = (q ++ [p], [p']) := addLab_new _ _ _
  have hL0 : L' m.arrs.length = (q ++ [p], []) := (addLab_old _ _ (by omega)).trans (addLab_new _ _ _)
  have hL : ∀ ar, ar < m.arrs.length → L' ar = L ar := fun ar h => (addLab_old _ _ (by omega)).trans (addLab_old _ _ h)
  refine ⟨L', hL1, ext_step hw hobj harr hL ?_ ?_ ?_ ?_ ?_⟩
  · intro ar cs h1 h2
    rcases harrs ar cs h1 h2 with ⟨rfl, rfl⟩ | ⟨rfl, rfl⟩
    · exact ⟨by rw [hL0]; exact hlen, by rw [hL0]; simp, by rw [hL0]; rfl, by intro i p e _ h; simp at h⟩
    · refine ⟨by rw [hL1]; exact hlen, by rw [hL1]; simp, by rw [hL1]; rfl, ?_⟩
      rw [hL1]
      intro i r e h1 h2
      cases i with
      | succ i => simp at h2
      | zero =>
        simp at h1 h2
        subst h1 h2
        exact .inl ⟨h, l, hn1, hpath⟩
  · intro a bm r ar h1 h2
    rcases hobjs a _ h1 h2 with ⟨rfl, e⟩ | ⟨rfl, e⟩
    · cases e
      exact ⟨by omega, by rw [hL1, bits_single p' hp'], _, ha1, by simp⟩
    · cases e
  · intro a b bm r bm' r' ar h1 h2 h3 h4
    rcases hobjs a _ h1 h3 with ⟨rfl, e⟩ | ⟨rfl, e⟩
    · rcases hobjs b _ h2 h4 with ⟨rfl, e'⟩ | ⟨rfl, e'⟩
      · rfl
      · cases e'
    · cases e
  · intro a hh l' h1 h2
    rcases hobjs a _ h1 h2 with ⟨rfl, e⟩ | ⟨rfl, e⟩
    · cases e
    · cases e
      exact ⟨C, hC.congr fun b k v n _ e => ⟨v, hobj _ _ e⟩, hCh⟩
  · intro a k v n h1 h2
    rcases hobjs a _ h1 h2 with ⟨rfl, e⟩ | ⟨rfl, e⟩ <;> cases e

/-- The first `insert` into a new node. -/
theorem insert_first (f d : Nat) (hash : Hash) (l : Option Nat) (p : Nat) (m : Mem T) :
    insert (f + 1) d m.objs.length hash l ⟨m.objs ++ [.node 0 p m.arrs.length], m.arrs ++ [[]]⟩ =
      .ok ⟨m.objs ++ [.node (0 ||| bitPos (pos hash d)) p (m.arrs.length + 1), .kv hash l], m.arrs ++ [[], [some (m.objs.length + 1)]]⟩ := by
  have h1 : asNode (⟨m.objs ++ [.node 0 p m.arrs.length], m.arrs ++ [[]]⟩ : Mem T) m.objs.length = .ok (0, p, m.arrs.length, []) := asNode_of (by simp) (by simp)
  have h2 : index (0 ||| bitPos (pos hash d)) (bitPos (pos hash d)) = 0 :=
    index_get (by rw [bits_single _ (pos_lt _ _)]; rfl)
  simp only [insert, h1, Res.ok_bind]
  rw [if_pos (show bitPos (pos hash d) &&& (0 : Hash) = 0 from BitVec.and_zero)]
  simp only [addChild, h2, Heap.setSlot, placeLoop, List.length_nil, Nat.zero_add, List.replicate_one, List.length_singleton, if_pos (Nat.zero_lt_one), Res.ok_bind,
    List.set_cons_zero, List.append_assoc, List.length_append, List.cons_append, List.nil_append]
  rw [List.set_append_right _ _ (Nat.le_refl _)]
  simp

/-- What `insert` has done at the node `h`. -/
def Inserted (m m' : Mem T) (h x0 : Nat) (k : Key) (v : T) : Prop :=
  (Unref m' x0 ∧ ∃ y n, EntHas m h (y, k) ∧ m'.objs[y]? = some (.pair k v n)) ∨ (EntHas m' h (x0, k) ∧ ∃ n, m'.objs[x0]? = some (.pair k v n))

theorem insert_spec (k : Key) (v : T) (x0 : Nat) : ∀ (f : Nat) (a : Nat) (bm : Hash) (p0 ar : Nat) (L : Lab) (m : Mem T), WF H L m → m.objs[a]? = some (.node bm p0 ar) →
    11 ≤ f + (L ar).1.length → OnPath (H k) (L ar).1 → m.objs[x0]? = some (.pair k v none) → Unref m x0 →
    ∃ L' m', insert f (L ar).1.length a (H k) (some x0) m = .ok m' ∧ WF H L' m' ∧ Evo H (fun _ => False) (· = k) (· = x0) L m L' m' ∧
      (∀ d, d ≤ (L ar).1.length → Shallow d L m m') ∧ Inserted m m' a x0 k v := by
  intro f
  induction f with
  | zero =>
    intro a bm p0 ar L m hw ho hf
    obtain ⟨_, cs, hcs, -⟩ := hw.node _ _ _ _ ho
    have := (hw.arr _ _ hcs).len
    omega
  | succ f ih =>
    intro a bm p0 ar L m hw ho hf hpath hx hu
    obtain ⟨hlab, cs, hcs, hnone⟩ := hw.node _ _ _ _ ho
    have hlen := (hw.arr _ _ hcs).len
    have hlt := pos_lt (H k) (L ar).1.length
    simp only [insert, asNode_of ho hcs, Res.ok_bind]
    by_cases hb : pos (H k) (L ar).1.length ∈ bits bm
    · rw [if_neg (fun c => (test_zero hlt).1 c hb)]
      obtain ⟨e, he, hei, hent⟩ := hw.slot ho hcs hb
      simp only [he, Res.ofOption_some, Res.ok_bind]
      have hsub : ∀ x, EntHas m e x → EntHas m a x := fun x h => .node ho hcs (List.mem_of_getElem? he) h
      rcases id hent with ⟨h', l, h1, h2⟩ | ⟨bm1, p1, ar1, h1, h2, h3⟩
      · simp only [h1]
        obtain ⟨C, hC, hCh⟩ := hw.kv_chain h1
        by_cases hh : h' = H k
        · subst hh
          simp only [if_true, asPair_of hx, Res.ok_bind]
          obtain ⟨r, e1, e2⟩ := findPair_spec k C _ l hC (Chain.length_lt hw hC)
          simp only [e1, Res.ok_bind]
          rcases e2 with ⟨rfl, e2⟩ | ⟨y, rfl, e2⟩
          · simp only []
            have hst := prepend_step (K := fun _ => False) (V := (· = k)) (F := (· = x0)) hw h1 hx hu rfl hC e2
            refine ⟨_, _, rfl, hst.1, hst.2.1, fun d _ => hst.2.2 d, .inr ?_⟩
            have hxe : x0 ≠ e := by rintro rfl; rw [h1] at hx; cases hx
            have hx' : ((m.objs.set x0 (.pair k v l)).set e (.kv (H k) (some x0)))[x0]? = some (.pair k v l) := by
              rw [getElem?_set_ne hxe.symm]; exact getElem?_set_eq hx _
            refine ⟨?_, l, hx'⟩
            have hae : e ≠ a := by rintro rfl; rw [h1] at ho; cases ho
            have hax : x0 ≠ a := by rintro rfl; rw [hx] at ho; cases ho
            have hC' : Chain (⟨(m.objs.set x0 (.pair k v l)).set e (.kv (H k) (some x0)), m.arrs⟩ : Mem T) l C := by
              refine hC.congr fun b kb vb n hm eb => ⟨vb, ?_⟩
              show ((m.objs.set x0 _).set e _)[b]? = _
              rw [getElem?_set_ne, getElem?_set_ne]; exact eb
              · rintro rfl; exact hu.chain hC (by rintro rfl; exact hu.kv _ _ h1) _ hm
              · rintro rfl; rw [h1] at eb; cases eb
            refine .node (bm := bm) (p := p0) (ar := ar) (cs := cs) (c := e) ?_ hcs (List.mem_of_getElem? he) (.kv (h := H k) (l := some x0) (C := (x0, k) :: C) ?_ (.cons hx' hC') (by simp))
            · show ((m.objs.set x0 _).set e _)[a]? = _
              rw [getElem?_set_ne hae, getElem?_set_ne hax]; exact ho
            · exact getElem?_set_eq (y := .kv (H k) l) (by rw [getElem?_set_ne hxe]; exact h1) _
          · obtain ⟨vy, ny, ey⟩ := hC.mem _ e2
            have ey : m.objs[y]? = some (.pair k vy ny) := ey
            simp only [asPair_of ey, Res.ok_bind]
            have hst := pair_step (K := fun _ => False) (V := (· = k)) (F := (· = x0)) (v' := v) (n' := ny) hw ey (fun c => absurd rfl c) (.inl rfl)
            refine ⟨_, _, rfl, hst.1, hst.2.1, fun d _ => hst.2.2 d, .inl ⟨⟨?_, ?_⟩, y, ny, hsub _ (.kv h1 hC e2), getElem?_set_eq ey _⟩⟩
            · intro b h c
              by_cases hb : y = b
              · subst hb; rw [getElem?_set_eq ey] at c; cases c
              · rw [getElem?_set_ne hb] at c; exact hu.kv _ _ c
            · intro b kb vb c
              by_cases hb : y = b
              · subst hb; rw [getElem?_set_eq ey] at c; cases c; exact hu.pair _ _ _ ey
              · rw [getElem?_set_ne hb] at c; exact hu.pair _ _ _ c
        · simp only [if_neg hh]
          have hq : ((L ar).1 ++ [pos (H k) (L ar).1.length]).length ≤ 10 := by
            by_contra c
            exact hh (OnPath.eq h2 (OnPath.snoc.2 ⟨hpath, rfl⟩) (by omega))
          have hql : ((L ar).1 ++ [pos (H k) (L ar).1.length]).length = (L ar).1.length + 1 := by simp
          obtain ⟨f, rfl⟩ : ∃ g, f = g + 1 := ⟨f - 1, by omega⟩
          rw [insert_first]
          simp only [Res.ok_bind]
          generalize hm1 : (⟨m.objs ++ [.node (0 ||| bitPos (pos h' ((L ar).1.length + 1))) (pos (H k) (L ar).1.length) (m.arrs.length + 1), .kv h' l],
            m.arrs ++ [[], [some (m.objs.length + 1)]]⟩ : Mem T) = m1
          obtain ⟨L1, hl1, hw1, he1, hs1⟩ := newNode_step (K := fun _ => False) (V := (· = k)) (F := (· = x0)) hw hC hCh (pos_lt h' ((L ar).1.length + 1)) hq
            (OnPath.snoc.2 ⟨h2, by rw [hql]⟩) hm1.symm
          have hn0 : m1.objs[m.objs.length]? = some (.node (0 ||| bitPos (pos h' ((L ar).1.length + 1))) (pos (H k) (L ar).1.length) (m.arrs.length + 1)) := by
            rw [← hm1]; simp
          have hn1 : m1.objs[m.objs.length + 1]? = some (.kv h' l) := by rw [← hm1]; simp [List.getElem?_append]
          have ha1 : m1.arrs[m.arrs.length + 1]? = some [some (m.objs.length + 1)] := by rw [← hm1]; simp [List.getElem?_append]
          have hold : ∀ (b : Nat) (o : Obj T), m.objs[b]? = some o → m1.objs[b]? = some o := by
            intro b o eb
            rw [← hm1]
            show (m.objs ++ _)[b]? = _
            rw [List.getElem?_append_left (List.getElem?_eq_some_iff.1 eb).1]; exact eb
          have hC1 : Chain m1 l C := hC.congr fun b kb vb n _ eb => ⟨vb, hold _ _ eb⟩
          have hcov : ∀ x, EntHas m1 m.objs.length x ↔ x ∈ C := by
            intro x
            rw [entHas_node hn0 ha1]
            simp only [List.mem_singleton, Option.some.injEq, exists_eq_left]
            exact entHas_kv hn1 hC1
          have hu1 : Unref m1 x0 := by
            refine ⟨fun b hb c => ?_, fun b kb vb c => ?_⟩
            · rcases Nat.lt_or_ge b m.objs.length with hlt | hge
              · rw [← hm1] at c
                have c : (m.objs ++ _)[b]? = _ := c
                rw [List.getElem?_append_left hlt] at c
                exact hu.kv _ _ c
              · have hbl : b < m1.objs.length := (List.getElem?_eq_some_iff.1 c).1
                have hbl : b < m.objs.length + 2 := by rw [← hm1] at hbl; simpa using hbl
                rcases (by omega : b = m.objs.length ∨ b = m.objs.length + 1) with rfl | rfl
                · rw [hn0] at c; cases c
                · rw [hn1] at c; cases c; exact hu.kv _ _ h1
            · rcases Nat.lt_or_ge b m.objs.length with hlt | hge
              · rw [← hm1] at c
                have c : (m.objs ++ _)[b]? = _ := c
                rw [List.getElem?_append_left hlt] at c
                exact hu.pair _ _ _ c
              · have hbl : b < m1.objs.length := (List.getElem?_eq_some_iff.1 c).1
                have hbl : b < m.objs.length + 2 := by rw [← hm1] at hbl; simpa using hbl
                rcases (by omega : b = m.objs.length ∨ b = m.objs.length + 1) with rfl | rfl
                · rw [hn0] at c; cases c
                · rw [hn1] at c; cases c
          have hi := ih m.objs.length _ _ _ L1 m1 hw1 hn0 (by rw [hl1]; simp only []; omega) (by rw [hl1]; exact OnPath.snoc.2 ⟨hpath, rfl⟩) (hold _ _ hx) hu1
          rw [hl1] at hi
          simp only [hql] at hi
          obtain ⟨L2, m2, i1, hw2, he2, hs2, hins⟩ := hi
          simp only [i1, Res.ok_bind]
          have harl := (List.getElem?_eq_some_iff.1 hcs).1
          have hlab1 : L1 ar = L ar := he1.label ar harl
          have hlab2 : L2 ar = L ar := (he2.label ar (he1.arrs_le harl)).trans hlab1
          have ho1 := (hs1 ((L ar).1.length + 1)).node _ _ _ _ ho (by omega)
          have hcs1 := (hs1 ((L ar).1.length + 1)).arr _ _ hcs (by omega)
          have ho2 := (hs2 ((L ar).1.length + 1) (Nat.le_refl _)).node _ _ _ _ ho1 (by rw [hlab1]; omega)
          have hcs2 := (hs2 ((L ar).1.length + 1) (Nat.le_refl _)).arr _ _ hcs1 (by rw [hlab1]; omega)
          simp only [asNode_of ho2 hcs2, Res.ok_bind, write, hcs2, Res.ofOption_some]
          rw [if_pos (List.getElem?_eq_some_iff.1 he).1]
          have hkk : ∀ y, (y, k) ∉ C := by
            intro y c
            exact hh (hCh _ c).symm
          have hins2 : EntHas m2 m.objs.length (x0, k) ∧ ∃ n, m2.objs[x0]? = some (.pair k v n) := by
            rcases hins with ⟨-, y, n, c, -⟩ | c
            · exact absurd ((hcov _).1 c) (hkk y)
            · exact c
          have hx2 : ∀ x : Nat × Key, (∃ e, EntHas m2 e x) → x.1 = x0 → x = (x0, k) := by
            rintro ⟨b, kb⟩ ⟨e, c⟩ rfl
            obtain ⟨v', n', c1⟩ := c.pair
            obtain ⟨v2, n2, c2, -⟩ := he2.pair _ _ _ _ (hold _ _ hx)
            have c1 : m2.objs[b]? = some (.pair kb v' n') := c1
            rw [c2] at c1
            cases c1
            rfl
          have hent2 : EntAt L2 m2 ((L2 ar).1 ++ [pos (H k) (L ar).1.length]) m.objs.length := by
            rw [hlab2]
            refine he2.entAt (.inr ⟨_, _, _, hn0, by rw [hl1], by simp⟩)
          have hst := write_step (K := fun _ => False) (V := (· = k)) (F := (· = x0)) (p := pos (H k) (L ar).1.length) (a := m.objs.length) hw2 hcs2 he (by rw [hlab2]; exact hei) hent2
            (by
              intro x hxx _
              rcases he2.upper e x (he1.objs_le hent.lt) hxx with c | c
              · refine he2.keep _ _ ((hcov x).2 ?_) id
                exact (entHas_kv (hold _ _ h1) hC1).1 c
              · rw [hx2 x ⟨e, hxx⟩ c]; exact hins2.1)
            (by
              intro x hxx
              rcases he2.upper _ x (List.getElem?_eq_some_iff.1 hn0).1 hxx with c | c
              · exact .inl (he2.keep _ _ (.kv (hold _ _ h1) hC1 ((hcov x).1 c)) id)
              · exact .inr c)
          refine ⟨L2, _, rfl, hst.1, (he1.trans he2).trans hst.2.1, ?_, .inr ⟨?_, hins2.2⟩⟩
          · intro d hd
            refine Shallow.trans hw (he1.trans he2) (Shallow.trans hw he1 (hs1 d) (hs2 d (by omega))) (hst.2.2 d (by rw [hlab2]; exact hd))
          · exact .node (cs := cs.set (index bm (bitPos (pos (H k) (L ar).1.length))) (some m.objs.length)) ho2 (getElem?_set_eq hcs2 _)
              (List.mem_of_getElem? (getElem?_set_eq he _)) (hst.2.1.keep _ _ hins2.1 id)
      · simp only [h1]
        have hi := ih e bm1 p1 ar1 L m hw h1 (by rw [h2]; simp; omega) (by rw [h2]; exact OnPath.snoc.2 ⟨hpath, rfl⟩) hx hu
        rw [h2] at hi
        simp only [List.length_append, List.length_singleton] at hi
        obtain ⟨L', m', i1, i2, i3, i4, i5⟩ := hi
        refine ⟨L', m', i1, i2, i3, fun d hd => i4 d (by omega), ?_⟩
        rcases i5 with ⟨j1, y, n, j2, j3⟩ | ⟨j1, j2⟩
        · exact .inl ⟨j1, y, n, hsub _ j2, j3⟩
        · have ho' := (i4 ((L ar).1.length + 1) (Nat.le_refl _)).node _ _ _ _ ho (by omega)
          have hcs' := (i4 ((L ar).1.length + 1) (Nat.le_refl _)).arr _ _ hcs (by omega)
          exact .inr ⟨.node ho' hcs' (List.mem_of_getElem? he) j1, j2⟩
    · rw [if_pos ((test_zero hlt).2 hb)]
      -- the new key-value node
      have hobj : ∀ (b : Nat) (o : Obj T), m.objs[b]? = some o → (⟨m.objs ++ [.kv (H k) (some x0)], m.arrs⟩ : Mem T).objs[b]? = some o := by
        intro b o eb
        show (m.objs ++ _)[b]? = _
        rw [List.getElem?_append_left (List.getElem?_eq_some_iff.1 eb).1]; exact eb
      have hnew : ∀ (b : Nat) (o : Obj T), m.objs.length ≤ b → (⟨m.objs ++ [.kv (H k) (some x0)], m.arrs⟩ : Mem T).objs[b]? = some o → b = m.objs.length ∧ o = .kv (H k) (some x0) := by
        intro b o hb eb
        have h1 := (List.getElem?_eq_some_iff.1 eb).1
        have h1 : b < m.objs.length + 1 := by simpa using h1
        obtain rfl : b = m.objs.length := by omega
        have eb : (m.objs ++ [Obj.kv (H k) (some x0)])[m.objs.length]? = some o := eb
        rw [List.getElem?_append_right (Nat.le_refl _)] at eb
        simp at eb
        exact ⟨rfl, eb.symm⟩
      have hC : Chain (⟨m.objs ++ [.kv (H k) (some x0)], m.arrs⟩ : Mem T) (some x0) [(x0, k)] := .cons (hobj _ _ hx) .nil
      obtain ⟨hw1, he1, hs1⟩ := ext_step (K := fun _ => False) (V := (· = k)) (F := (· = x0)) (L' := L) (m' := ⟨m.objs ++ [.kv (H k) (some x0)], m.arrs⟩) hw hobj
        (fun _ _ h => h) (fun _ _ => rfl)
        (fun ar cs h1 h2 => absurd (List.getElem?_eq_some_iff.1 h2).1 (by simpa using h1)) (fun b bm p ar h1 h2 => by cases (hnew b _ h1 h2).2)
        (fun b c bm p bm' p' ar h1 _ h2 _ => by cases (hnew b _ h1 h2).2)
        (fun b h l h1 h2 => by cases (hnew b _ h1 h2).2; exact ⟨_, hC, by simp⟩) (fun b k' v' n' h1 h2 => by cases (hnew b _ h1 h2).2)
      obtain ⟨L', m', i1, i2, i3, i4, i5, i6⟩ := addChild_spec (K := fun _ => False) (V := (· = k)) (F := (· = x0)) hw1 (hobj _ _ ho) hcs hlt hb
        (c := m.objs.length) (h := H k) (l := some x0) (by simp) (OnPath.snoc.2 ⟨hpath, rfl⟩) hC (by simp)
      refine ⟨L', m', i1, i2, he1.trans i3, fun d hd => Shallow.trans hw he1 (hs1 d) (i4 d hd), .inr ⟨i5 _ (by simp), none, ?_⟩⟩
      rw [i6 x0 (by rintro rfl; rw [hx] at ho; cases ho)]
      exact hobj _ _ hx

/-! ## `find` -/

theorem find_spec (k : Key) (hw : WF H L m) : ∀ (f : Nat) (a : Nat) (bm : Hash) (p0 ar : Nat), m.objs[a]? = some (.node bm p0 ar) → 11 ≤ f + (L ar).1.length → OnPath (H k) (L ar).1 →
    ∃ r, find f (L ar).1.length a (H k) k m = .ok r ∧ ∀ v, r = some v ↔ ∃ y n, EntHas m a (y, k) ∧ m.objs[y]? = some (.pair k v n) := by
  intro f
  induction f with
  | zero =>
    intro a bm p0 ar ho hf
    obtain ⟨_, cs, hcs, -⟩ := hw.node _ _ _ _ ho
    have := (hw.arr _ _ hcs).len
    omega
  | succ f ih =>
    intro a bm p0 ar ho hf hpath
    obtain ⟨hlab, cs, hcs, hnone⟩ := hw.node _ _ _ _ ho
    have hlt := pos_lt (H k) (L ar).1.length
    simp only [find, asNode_of ho hcs, Res.ok_bind]
    by_cases hb : pos (H k) (L ar).1.length ∈ bits bm
    · rw [if_neg (fun c => (test_zero hlt).1 c hb)]
      obtain ⟨e, he, hei, hent⟩ := hw.slot ho hcs hb
      simp only [he, Res.ofOption_some, Res.ok_bind]
      have hsub : ∀ y, EntHas m a (y, k) ↔ EntHas m e (y, k) :=
        fun y => ⟨fun h => (hw.has_key ho hcs h).2 e he, fun h => .node ho hcs (List.mem_of_getElem? he) h⟩
      simp only [hsub]
      rcases hent with ⟨h', l, h1, h2⟩ | ⟨bm1, p1, ar1, h1, h2, h3⟩
      · simp only [h1]
        obtain ⟨C, hC, hCh⟩ := hw.kv_chain h1
        simp only [entHas_kv h1 hC]
        by_cases hh : h' = H k
        · subst hh
          simp only [ne_eq, not_true_eq_false, if_false]
          obtain ⟨r, e1, e2⟩ := findPair_spec k C _ l hC (Chain.length_lt hw hC)
          simp only [e1, Res.ok_bind]
          rcases e2 with ⟨rfl, e2⟩ | ⟨y, rfl, e2⟩
          · refine ⟨none, rfl, fun v => ⟨fun c => by (cases c), ?_⟩⟩
            rintro ⟨y, n, c, -⟩
            exact absurd (mem_keys c) e2
          · obtain ⟨vy, ny, ey⟩ := hC.mem _ e2
            have ey : m.objs[y]? = some (.pair k vy ny) := ey
            simp only [asPair_of ey, Res.ok_bind]
            refine ⟨some vy, rfl, fun v => ⟨?_, ?_⟩⟩
            · intro c; cases c; exact ⟨y, ny, e2, ey⟩
            · rintro ⟨y', n, c, c2⟩
              have : (y', k) = (y, k) := List.inj_on_of_nodup_map (Chain.nodup hw hC) c e2 rfl
              cases this
              rw [ey] at c2
              cases c2
              rfl
        · rw [if_pos hh]
          refine ⟨none, rfl, fun v => ⟨fun c => by (cases c), ?_⟩⟩
          rintro ⟨y, n, c, -⟩
          exact absurd (hCh _ c).symm hh
      · simp only [h1]
        have hi := ih e bm1 p1 ar1 h1 (by rw [h2]; simp; omega) (by rw [h2]; exact OnPath.snoc.2 ⟨hpath, rfl⟩)
        rw [h2] at hi
        simpa only [List.length_append, List.length_singleton] using hi
    · rw [if_pos ((test_zero hlt).2 hb)]
      refine ⟨none, rfl, fun v => ⟨fun c => by (cases c), ?_⟩⟩
      rintro ⟨y, n, c, -⟩
      exact absurd (hw.has_key ho hcs c).1 hb

/-! ## `erase` -/

theorem erase_spec (k : Key) : ∀ (f : Nat) (a : Nat) (bm : Hash) (p0 ar : Nat) (L : Lab) (m : Mem T), WF H L m → m.objs[a]? = some (.node bm p0 ar) →
    11 ≤ f + (L ar).1.length → OnPath (H k) (L ar).1 →
    ∃ b L' m', erase f (L ar).1.length a (H k) k m = .ok (b, m') ∧ WF H L' m' ∧ Evo H (· = k) (fun _ => False) (fun _ => False) L m L' m' ∧
      (∀ d, d ≤ (L ar).1.length → Shallow d L m m') ∧ (b = true ↔ ∃ y, EntHas m a (y, k)) ∧ ∀ y, ¬ EntHas m' a (y, k) := by
  intro f
  induction f with
  | zero =>
    intro a bm p0 ar L m hw ho hf
    obtain ⟨_, cs, hcs, -⟩ := hw.node _ _ _ _ ho
    have := (hw.arr _ _ hcs).len
    omega
  | succ f ih =>
    intro a bm p0 ar L m hw ho hf hpath
    obtain ⟨hlab, cs, hcs, hnone⟩ := hw.node _ _ _ _ ho
    have hlt := pos_lt (H k) (L ar).1.length
    have hno : (∀ y, ¬ EntHas m a (y, k)) → ∃ b L' m', (.ok (false, m) : Res (Bool × Mem T)) = .ok (b, m') ∧ WF H L' m' ∧
        Evo H (· = k) (fun _ => False) (fun _ => False) L m L' m' ∧ (∀ d, d ≤ (L ar).1.length → Shallow d L m m') ∧ (b = true ↔ ∃ y, EntHas m a (y, k)) ∧
        ∀ y, ¬ EntHas m' a (y, k) :=
      fun h => ⟨false, L, m, rfl, hw, .refl hw, fun d _ => .refl d, ⟨fun c => by (cases c), fun ⟨y, c⟩ => absurd c (h y)⟩, h⟩
    simp only [erase, asNode_of ho hcs, Res.ok_bind]
    by_cases hb : pos (H k) (L ar).1.length ∈ bits bm
    · rw [if_neg (fun c => (test_zero hlt).1 c hb)]
      obtain ⟨e, he, hei, hent⟩ := hw.slot ho hcs hb
      simp only [he, Res.ofOption_some, Res.ok_bind]
      have hsub : ∀ y, EntHas m a (y, k) ↔ EntHas m e (y, k) :=
        fun y => ⟨fun h => (hw.has_key ho hcs h).2 e he, fun h => .node ho hcs (List.mem_of_getElem? he) h⟩
      rcases id hent with ⟨h', l, h1, h2⟩ | ⟨bm1, p1, ar1, h1, h2, h3⟩
      · simp only [h1]
        obtain ⟨C, hC, hCh⟩ := hw.kv_chain h1
        by_cases hh : h' = H k
        · subst hh
          simp only [ne_eq, not_true_eq_false, if_false]
          obtain ⟨r, e1, e2⟩ := findPrev_spec k C _ none l hC (Chain.length_lt hw hC)
          simp only [e1, Res.ok_bind]
          rcases e2 with ⟨rfl, e2⟩ | ⟨A, y, B, rfl, rfl⟩
          · exact hno fun y c => e2 (mem_keys ((entHas_kv h1 hC).1 ((hsub y).1 c)))
          · simp only []
            obtain ⟨vy, ny, ey, hB⟩ := Chain.split hC
            have hhas : ∃ y, EntHas m a (y, k) := ⟨y, (hsub y).2 (.kv h1 hC (by simp))⟩
            have hnd := Chain.nodup hw hC
            have hAB : k ∉ (A ++ B).map Prod.snd := by
              rw [List.map_append, List.map_cons] at hnd
              have := (List.nodup_middle.1 hnd)
              rw [List.nodup_cons] at this
              rw [List.map_append]; exact this.1
            have hae : e ≠ a := by rintro rfl; rw [h1] at ho; cases ho
            -- the pair is unlinked
            have hun : ∃ m1 l1, unlink m e y (lastOr none A) = .ok m1 ∧ WF H L m1 ∧ Evo H (· = k) (fun _ => False) (fun _ => False) L m L m1 ∧ (∀ d, Shallow d L m m1) ∧
                m1.objs[e]? = some (.kv (H k) l1) ∧ m1.objs[a]? = some (.node bm p0 ar) ∧ m1.arrs = m.arrs ∧ Chain m1 l1 (A ++ B) := by
              rcases List.eq_nil_or_concat A with rfl | ⟨A, ⟨c, kc⟩, rfl⟩
              · cases Chain.head hC
                have hst := kv_step (K := (· = k)) (V := fun _ => False) (F := fun _ => False) hw h1 ey rfl
                refine ⟨_, ny, ?_, hst.1, hst.2.1, hst.2.2, getElem?_set_eq h1 _, (getElem?_set_ne hae _).trans ho, rfl, ?_⟩
                · show unlink m e y none = _
                  simp only [unlink, asPair_of ey, Res.ok_bind, h1]
                · refine hB.congr fun b kb vb n _ eb => ⟨vb, (getElem?_set_ne ?_ _).trans eb⟩
                  rintro rfl; rw [h1] at eb; cases eb
              · rw [List.concat_eq_append, List.append_assoc] at hC
                have hC : Chain m l (A ++ (c, kc) :: (y, k) :: B) := hC
                have hnd : ((A ++ (c, kc) :: (y, k) :: B).map Prod.snd).Nodup := by simpa using hnd
                obtain ⟨vc, nc, ec, hc⟩ := Chain.split hC
                cases Chain.head hc
                have hst := pair_step (K := (· = k)) (V := fun _ => False) (F := fun _ => False) (v' := vc) (n' := ny) hw ec (fun _ => rfl) (.inr ⟨y, k, vy, rfl, ey, rfl⟩)
                have hce : c ≠ e := by rintro rfl; rw [h1] at ec; cases ec
                have hca : c ≠ a := by rintro rfl; rw [ho] at ec; cases ec
                refine ⟨_, l, ?_, hst.1, hst.2.1, hst.2.2, (getElem?_set_ne hce _).trans h1, (getElem?_set_ne hca _).trans ho, rfl, ?_⟩
                · have : lastOr none (A.concat (c, kc)) = some c := by simp [lastOr, List.concat_eq_append]
                  rw [this]
                  simp only [unlink, asPair_of ey, asPair_of ec, Res.ok_bind]
                · rw [List.concat_eq_append, List.append_assoc]
                  exact Chain.unlink (m := m) (vc := vc) ey (getElem?_set_eq ec _) (fun b hb => getElem?_set_ne (Ne.symm hb) _) hC hnd
            obtain ⟨m1, l1, u1, u2, u3, u4, u5, u6, u7, u8⟩ := hun
            have hno1 : ∀ y', ¬ EntHas m1 a (y', k) := by
              intro y' c
              have c1 := (u2.has_key u6 (by rw [u7]; exact hcs) c).2 e he
              exact hAB (mem_keys ((entHas_kv u5 u8).1 c1))
            simp only [u1, Res.ok_bind, u5]
            cases l1 with
            | some z => exact ⟨true, L, m1, rfl, u2, u3, fun d _ => u4 d, by simpa using hhas, hno1⟩
            | none =>
              simp only []
              cases hAB' : A ++ B with
              | cons z Z => rw [hAB'] at u8; cases u8
              | nil =>
                obtain ⟨L2, m2, d1, d2, d3, d4⟩ := dropChild_spec (K := (· = k)) (V := fun _ => False) (F := fun _ => False) (k := k) u2 u6 (by rw [u7]; exact hcs) hb he
                  (fun x c => by have := (entHas_kv u5 u8).1 c; rw [hAB'] at this; simp at this) rfl (OnPath.snoc.2 ⟨hpath, rfl⟩)
                simp only [d1, Res.ok_bind]
                refine ⟨true, L2, m2, rfl, d2, u3.trans d3, fun d hd => Shallow.trans hw u3 (u4 d) (d4 d hd), by simpa using hhas, ?_⟩
                intro y' c
                rcases d3.upper a _ (List.getElem?_eq_some_iff.1 u6).1 c with c | c
                · exact hno1 y' c
                · exact c
        · simp only [ne_eq, hh, not_false_eq_true, if_true]
          exact hno fun y c => hh (hCh _ ((entHas_kv h1 hC).1 ((hsub y).1 c))).symm
      · simp only [h1]
        have hi := ih e bm1 p1 ar1 L m hw h1 (by rw [h2]; simp; omega) (by rw [h2]; exact OnPath.snoc.2 ⟨hpath, rfl⟩)
        rw [h2] at hi
        simp only [List.length_append, List.length_singleton] at hi
        obtain ⟨b, L', m', i1, i2, i3, i4, i5, i6⟩ := hi
        simp only [i1, Res.ok_bind]
        have ho' := (i4 ((L ar).1.length + 1) (Nat.le_refl _)).node _ _ _ _ ho (by omega)
        have hcs' := (i4 ((L ar).1.length + 1) (Nat.le_refl _)).arr _ _ hcs (by omega)
        have harl := (List.getElem?_eq_some_iff.1 hcs).1
        have hlab' : L' ar = L ar := i3.label ar harl
        obtain ⟨bm2, ar2, ho2, hl2⟩ := i3.node _ _ _ _ h1
        obtain ⟨hb2, ds, hds, hnone2⟩ := i2.node _ _ _ _ ho2
        have hsub' : ∀ y, EntHas m' a (y, k) → EntHas m' e (y, k) := by
          intro y h
          have := (i2.has_key ho' hcs' h).2 e
          rw [hlab'] at this
          exact this he
        simp only [collapse, asNode_of ho2 hds, Res.ok_bind]
        have hkeepres : ∃ b0 L0 m0, (.ok (b, m') : Res (Bool × Mem T)) = .ok (b0, m0) ∧ WF H L0 m0 ∧ Evo H (· = k) (fun _ => False) (fun _ => False) L m L0 m0 ∧
            (∀ d, d ≤ (L ar).1.length → Shallow d L m m0) ∧ (b0 = true ↔ ∃ y, EntHas m a (y, k)) ∧ ∀ y, ¬ EntHas m0 a (y, k) :=
          ⟨b, L', m', rfl, i2, i3, fun d hd => i4 d (by omega), by simp only [hsub]; exact i5, fun y c => i6 y (hsub' y c)⟩
        split
        next c =>
          split
          next hc lc hoc =>
            simp only [asNode_of ho' hcs', Res.ok_bind, write, hcs', Res.ofOption_some]
            rw [if_pos (List.getElem?_eq_some_iff.1 he).1]
            simp only [Res.ok_bind]
            have hce : ∀ x, EntHas m' e x ↔ EntHas m' c x := by
              intro x
              rw [entHas_node ho2 hds]
              simp
            have hentc : EntAt L' m' ((L' ar).1 ++ [pos (H k) (L ar).1.length]) c := by
              obtain ⟨j, r, -, -, hr⟩ := i2.child hds (c := c) (by simp)
              rcases hr with ⟨hh, ll, r1, r2⟩ | ⟨bmm, pp, aa, r1, -⟩
              · refine .inl ⟨hh, ll, r1, ?_⟩
                rw [hlab', ← h2, ← hl2]
                exact (OnPath.snoc.1 r2).1
              · rw [hoc] at r1; cases r1
            have hst := write_step (K := (· = k)) (V := fun _ => False) (F := fun _ => False) (p := pos (H k) (L ar).1.length) (a := c) i2 hcs' he (by rw [hlab']; exact hei) hentc
              (fun x hx _ => (hce x).1 hx) (fun x hx => .inl ((hce x).2 hx))
            refine ⟨true, L', _, rfl, hst.1, i3.trans hst.2.1, fun d hd => Shallow.trans hw i3 (i4 d (by omega)) (hst.2.2 d (by rw [hlab']; exact hd)), by simpa only [hsub] using i5, ?_⟩
            intro y hy
            rcases hst.2.1.upper a _ (List.getElem?_eq_some_iff.1 ho').1 hy with c | c
            · exact i6 y (hsub' y c)
            · exact c
          next => exact hkeepres
        next => exact hkeepres
    · rw [if_pos ((test_zero hlt).2 hb)]
      exact hno fun y c => hb (hw.has_key ho hcs c).1

end GoSTL.Hamt.Arr
