import Verif.Skiplist.Props
/-!
# C71: the skip list with a comparator that is not an order

The comparator is an arbitrary function. The invariant is that of the ordinary proofs with `before`, a comparator under
which every list is sorted, in place of the comparator in use: it says nothing about order.
-/
namespace GoSTL.Skiplist
variable {K V : Type} {cmp : K → K → Int}

/-- Every list is strictly sorted under this function. -/
def before (_ _ : K) : Int := -1

/-- The first cell, if any, does not come before the key. -/
def Stops (cmp : K → K → Int) (k : K) : List (Cell K V) → Prop
  | [] => True
  | b :: _ => 0 ≤ cmp b.key k

theorem before_sorted (G : List (Cell K V)) : G.Pairwise (fun c d => before c.key d.key < 0) := by
  induction G with
  | nil => exact .nil
  | cons c G ih => exact List.pairwise_cons.2 ⟨fun _ _ => by simp [before], ih⟩

/-! ## Walking along a level -/

theorem walk_any (cmp : K → K → Int) {w : SL K V} {k : K} {i : Nat} : ∀ (L : List (Cell K V)) (f : Nat) (r : Ref), L.length < f →
    (∀ c ∈ L, Stored w c) → Sg w i r L none →
    ∃ C D, L = C ++ D ∧ walk cmp w k i f r (firstOr none L) = .ok (lastRef r C) ∧ (∀ c ∈ C, cmp c.key k < 0) ∧ Stops cmp k D := by
  intro L
  induction L with
  | nil =>
    intro f r hf _ _
    obtain ⟨f, rfl⟩ : ∃ f', f = f' + 1 := ⟨f - 1, by simp at hf; omega⟩
    exact ⟨[], [], rfl, rfl, by simp, trivial⟩
  | cons a L ih =>
    intro f r hf hst hs
    obtain ⟨f, rfl⟩ : ∃ f', f = f' + 1 := ⟨f - 1, by simp at hf; omega⟩
    obtain ⟨e, h1, h2, _⟩ := (hst a (by simp)).elem
    have hs2 : Sg w i (.elem a.id) L none := hs.2
    by_cases c : 0 ≤ cmp a.key k
    · refine ⟨[], a :: L, rfl, ?_, by simp, c⟩
      simp only [firstOr, walk, h1, Res.ofOption_some, Res.ok_bind, lastRef]
      rw [if_pos (by rw [h2]; exact c)]
    · obtain ⟨C, D, g1, g2, g3, g4⟩ := ih f (.elem a.id) (by simp at hf; omega) (fun d hd => hst d (by simp [hd])) hs2
      refine ⟨a :: C, D, by simp [g1], ?_, ?_, g4⟩
      · simp only [firstOr, walk, h1, Res.ofOption_some, Res.ok_bind, lastRef]
        rw [if_neg (by rw [h2]; omega), hs2.first]
        simp only [Res.ok_bind]
        exact g2
      · intro d hd
        rcases List.mem_cons.1 hd with rfl | hd
        · omega
        · exact g3 d hd

theorem getWalk_any (cmp : K → K → Int) {w : SL K V} {k : K} {i : Nat} : ∀ (L : List (Cell K V)) (f : Nat) (r : Ref), L.length < f →
    (∀ c ∈ L, Stored w c) → Sg w i r L none →
    (∃ b ∈ L, cmp b.key k = 0 ∧ getWalk cmp w k i f r (firstOr none L) = .ok (.inl b.val)) ∨
    ∃ C D, L = C ++ D ∧ getWalk cmp w k i f r (firstOr none L) = .ok (.inr (lastRef r C)) := by
  intro L
  induction L with
  | nil =>
    intro f r hf _ _
    obtain ⟨f, rfl⟩ : ∃ f', f = f' + 1 := ⟨f - 1, by simp at hf; omega⟩
    exact .inr ⟨[], [], rfl, rfl⟩
  | cons a L ih =>
    intro f r hf hst hs
    obtain ⟨f, rfl⟩ : ∃ f', f = f' + 1 := ⟨f - 1, by simp at hf; omega⟩
    obtain ⟨e, h1, h2, h3, _⟩ := (hst a (by simp)).elem
    have hs2 : Sg w i (.elem a.id) L none := hs.2
    by_cases c0 : cmp a.key k = 0
    · refine .inl ⟨a, by simp, c0, ?_⟩
      simp only [firstOr, getWalk, h1, Res.ofOption_some, Res.ok_bind, h2, h3, if_pos c0]
    by_cases c : cmp a.key k > 0
    · refine .inr ⟨[], a :: L, rfl, ?_⟩
      simp only [firstOr, getWalk, h1, Res.ofOption_some, Res.ok_bind, h2, if_neg c0, if_pos c, lastRef]
    · have hw : getWalk cmp w k i (f + 1) r (firstOr none (a :: L)) = getWalk cmp w k i f (.elem a.id) (firstOr none L) := by
        simp only [firstOr, getWalk, h1, Res.ofOption_some, Res.ok_bind, h2, if_neg c0, if_neg c, hs2.first]
      rw [hw]
      rcases ih f (.elem a.id) (by simp at hf; omega) (fun d hd => hst d (by simp [hd])) hs2 with ⟨b, hb, g1, g2⟩ | ⟨C, D, g1, g2⟩
      · exact .inl ⟨b, by simp [hb], g1, g2⟩
      · exact .inr ⟨a :: C, D, by simp [g1], g2⟩

/-! ## Going down the levels -/

theorem lvl_lvl {i j : Nat} (h : i ≤ j) (A : List (Cell K V)) : lvl j (lvl i A) = lvl j A := by
  simp only [lvl, List.filter_filter]
  apply List.filter_congr
  intro c _
  by_cases h' : j < c.h
  · have : i < c.h := by omega
    simp [h', this]
  · simp [h']

/-- Where the search stands before it walks along level `n - 1`: at the head, or at the last of `A`, which is on that level. -/
def At (A : List (Cell K V)) (r : Ref) (n : Nat) : Prop :=
  (A = [] ∧ r = .head) ∨ ∃ A' c, A = A' ++ [c] ∧ r = .elem c.id ∧ n ≤ c.h

theorem At.last {A : List (Cell K V)} {r : Ref} {i : Nat} (h : At A r (i + 1)) : lastRef .head (lvl i A) = r := by
  rcases h with ⟨rfl, rfl⟩ | ⟨A', c, rfl, rfl, h⟩
  · rfl
  · rw [lvl_app, lvl_cons_pos (by omega), lastRef_append]; rfl

theorem At.mono {A : List (Cell K V)} {r : Ref} {n m : Nat} (h : At A r n) (hm : m ≤ n) : At A r m := by
  rcases h with h | ⟨A', c, h1, h2, h3⟩
  · exact .inl h
  · exact .inr ⟨A', c, h1, h2, by omega⟩

/-- A prefix of a level, taken over to the whole list: the new place, with nothing of the prefix on the levels from `m` up
other than what is on them. -/
theorem At.advance {A B C D : List (Cell K V)} {r : Ref} {i : Nat} (h : At A r (i + 1)) (hB : lvl i B = C ++ D) :
    ∃ E F, B = E ++ F ∧ lvl i E = C ∧ lvl i F = D ∧ At (A ++ E) (lastRef r C) (i + 1) := by
  rcases List.eq_nil_or_concat C with rfl | ⟨C', c, rfl⟩
  · refine ⟨[], B, rfl, rfl, by simpa using hB, by simpa [lastRef] using h⟩
  · rw [List.concat_eq_append, List.append_assoc] at hB
    obtain ⟨E1, E2, rfl, h1, h2⟩ := List.filter_eq_append_iff.1 hB
    have h2 : lvl i E2 = c :: D := h2
    obtain ⟨E3, E4, rfl, h3, h4, h5⟩ := List.filter_eq_cons_iff.1 h2
    have h4 : i < c.h := by simpa using h4
    have h3' : lvl i E3 = [] := List.filter_eq_nil_iff.2 (by simpa using h3)
    refine ⟨E1 ++ (E3 ++ [c]), E4, by simp, ?_, h5, .inr ⟨A ++ E1 ++ E3, c, by simp, ?_, h4⟩⟩
    · rw [lvl_app, lvl_app, h3', lvl_cons_pos h4]
      simp only [List.concat_eq_append, List.nil_append]
      congr 1
    · rw [List.concat_eq_append, lastRef_append]; rfl

section
variable {w : SL K V} {G : List (Cell K V)}

theorem prevLevel_any (cmp : K → K → Int) (hi : Inv before w G) (k : K) {A B : List (Cell K V)} (hG : G = A ++ B) {i : Nat} (hl : i < w.maxLevel)
    {r : Ref} (hr : At A r (i + 1)) :
    ∃ C D, lvl i B = C ++ D ∧ prevLevel cmp w k i r = .ok (lastRef r C) ∧ (∀ c ∈ C, cmp c.key k < 0) ∧ Stops cmp k D := by
  have hs := hi.seg i hl
  have h0 := hs.first
  rw [hG, lvl_app] at hs
  have hs2 := (Sg.append.1 hs).2
  rw [hr.last] at hs2
  have hst : ∀ c ∈ lvl i B, Stored w c := fun c hc => hi.stored c (by rw [hG]; simp [(mem_lvl hc).1])
  have hf : (lvl i B).length < budget w := hi.fuel (List.filter_sublist.trans (by rw [hG]; exact List.sublist_append_right _ _))
  obtain ⟨C, D, h1, h2, h3, h4⟩ := walk_any cmp (k := k) (lvl i B) (budget w) r hf hst hs2
  cases hg : lvl i G with
  | nil =>
    rw [hG, lvl_app] at hg
    have hb : lvl i B = [] := (List.append_eq_nil_iff.1 hg).2
    refine ⟨[], [], hb, ?_, by simp, trivial⟩
    have : lvl i G = [] := by rw [hG, lvl_app]; exact hg
    simp only [prevLevel, h0, this, firstOr, Res.ok_bind, lastRef]
  | cons g L =>
    refine ⟨C, D, h1, ?_, h3, h4⟩
    rw [← h2]
    simp only [prevLevel, h0, hg, Res.ok_bind, hs2.first]
    rfl

/-- The search for the predecessors of a key: it ends at some place of the list, the predecessors are the last cells before
that place on each level, and the cell after it does not come before the key. -/
theorem findPrevs_any (cmp : K → K → Int) (hi : Inv before w G) (k : K) : ∀ (n : Nat) (acc : List Ref) (A B : List (Cell K V)) (r : Ref), n ≤ w.maxLevel →
    G = A ++ B → At A r n → Stops cmp k (lvl n B) →
    ∃ A' B', G = A' ++ B' ∧ findPrevs cmp w k n r acc = .ok (prevsOf n A' ++ acc) ∧ (∀ j, n ≤ j → lvl j A' = lvl j A) ∧ Stops cmp k (lvl 0 B') := by
  intro n
  induction n with
  | zero => intro acc A B r _ hG _ hs; exact ⟨A, B, hG, rfl, fun _ _ => rfl, hs⟩
  | succ i ih =>
    intro acc A B r hn hG hr hst
    obtain ⟨C, D, h1, h2, h3, h4⟩ := prevLevel_any cmp hi k hG (by omega) hr
    obtain ⟨E, F, rfl, g1, g2, g3⟩ := hr.advance h1
    have hC : lvl (i + 1) E = [] := by
      rw [← lvl_lvl (Nat.le_succ i), g1]
      cases hc : lvl (i + 1) C with
      | nil => rfl
      | cons c L =>
        have hm : c ∈ lvl (i + 1) C := by rw [hc]; simp
        rw [← lvl_lvl (Nat.le_succ i), h1, lvl_app, hc] at hst
        have := h3 c (mem_lvl hm).1
        simp only [Stops, List.cons_append] at hst
        omega
    have hE : ∀ j, i + 1 ≤ j → lvl j E = [] := by
      intro j hj
      rw [← lvl_lvl hj, hC]; rfl
    obtain ⟨A', B', k1, k2, k3, k4⟩ := ih (lastRef r C :: acc) (A ++ E) F (lastRef r C) (by omega) (by rw [hG]; simp) (g3.mono (by omega))
      (by rw [g2]; exact h4)
    refine ⟨A', B', k1, ?_, ?_, k4⟩
    · simp only [findPrevs, h2, Res.ok_bind, k2]
      rw [prevsOf, prevsOf, List.range_succ, List.map_append, List.append_assoc]
      have hlast : lastRef .head (lvl i A') = lastRef r C := by
        rw [k3 i (Nat.le_refl _)]
        exact g3.last
      simp [hlast]
    · intro j hj
      rw [k3 j (by omega), lvl_app, hE j hj, List.append_nil]

theorem lvl_zero (hi : Inv before w G) {B : List (Cell K V)} (h : ∀ c ∈ B, c ∈ G) : lvl 0 B = B := by
  apply List.filter_eq_self.2
  intro c hc
  have := (hi.height c (h c hc)).1
  simp; omega

theorem findPrevs_place (cmp : K → K → Int) (hi : Inv before w G) (k : K) :
    ∃ A B, G = A ++ B ∧ findPrevs cmp w k w.maxLevel .head [] = .ok (prevsOf w.maxLevel A) ∧ Stops cmp k B := by
  obtain ⟨A, B, h1, h2, _, h4⟩ := findPrevs_any cmp hi k w.maxLevel [] [] G .head (Nat.le_refl _) rfl (.inl ⟨rfl, rfl⟩) (by
    have : lvl w.maxLevel G = [] := by
      apply List.filter_eq_nil_iff.2
      intro c hc
      have := (hi.height c hc).2
      simp; omega
    rw [this]; trivial)
  rw [lvl_zero hi (by rw [h1]; intro c hc; simp [hc])] at h4
  exact ⟨A, B, h1, by simpa using h2, h4⟩

theorem getLoop_any (cmp : K → K → Int) (hi : Inv before w G) (k : K) : ∀ (n : Nat) (A B : List (Cell K V)) (r : Ref), n ≤ w.maxLevel →
    G = A ++ B → At A r n →
    getLoop cmp w k n r = .ok none ∨ ∃ b ∈ G, cmp b.key k = 0 ∧ getLoop cmp w k n r = .ok (some b.val) := by
  intro n
  induction n with
  | zero => intro A B r _ _ _; exact .inl rfl
  | succ i ih =>
    intro A B r hn hG hr
    have hs := hi.seg i (by omega)
    rw [hG, lvl_app] at hs
    have hs2 := (Sg.append.1 hs).2
    rw [hr.last] at hs2
    have hst : ∀ c ∈ lvl i B, Stored w c := fun c hc => hi.stored c (by rw [hG]; simp [(mem_lvl hc).1])
    have hf : (lvl i B).length < budget w := hi.fuel (List.filter_sublist.trans (by rw [hG]; exact List.sublist_append_right _ _))
    rcases getWalk_any cmp (k := k) (lvl i B) (budget w) r hf hst hs2 with ⟨b, hb, g1, g2⟩ | ⟨C, D, g1, g2⟩
    · refine .inr ⟨b, by rw [hG]; simp [(mem_lvl hb).1], g1, ?_⟩
      simp only [getLoop, hs2.first, Res.ok_bind, g2]
    · obtain ⟨E, F, rfl, _, _, g3⟩ := hr.advance g1
      have := ih (A ++ E) F (lastRef r C) (by omega) (by rw [hG]; simp) (g3.mono (by omega))
      simp only [getLoop, hs2.first, Res.ok_bind, g2]
      exact this

end

/-! ## The operations -/

theorem insert_equal_any {w : SL K V} {A B : List (Cell K V)} {b : Cell K V} (hi : Inv before w (A ++ b :: B)) {k : K} (v : V) (d : BitVec 64)
    (hp : findPrevs cmp w k w.maxLevel .head [] = .ok (prevsOf w.maxLevel A)) (hb : cmp b.key k = 0) :
    ∃ w', Insert cmp k v d w = .ok w' ∧ Inv before w' (A ++ { b with val := v } :: B) := by
  obtain ⟨e, h1, h2, h3, h4⟩ := (hi.stored b (by simp)).elem
  have hlt := (hi.stored b (by simp)).lt
  refine ⟨{ w with elems := w.elems.set b.id { e with value := v } }, ?_, ?_⟩
  · simp only [Insert, hp, Res.ok_bind, prevsOf_get hi.max1, Res.ofOption_some, first0 hi rfl, firstOr, h1, h2, if_pos hb]
  · have hnx : ∀ r i, nextAt { w with elems := w.elems.set b.id { e with value := v } } r i = nextAt w r i := by
      intro r i
      cases r with
      | head => rfl
      | elem a =>
        by_cases c : b.id = a
        · subst c
          simp only [nextAt, List.getElem?_set_self hlt, h1, Res.ofOption_some, Res.ok_bind]
        · simp only [nextAt, List.getElem?_set_ne c]
    have hne := ids_ne hi.ids
    constructor
    · exact hi.max1
    · exact hi.max2
    · exact hi.headLen
    · intro c hc
      rcases List.mem_append.1 hc with hc | hc
      · exact stored_set h1 (hne c (.inl hc)) (hi.stored c (by simp [hc]))
      · rcases List.mem_cons.1 hc with rfl | hc
        · simp [Stored, shape, hlt, h2, h4]
        · exact stored_set h1 (hne c (.inr hc)) (hi.stored c (by simp [hc]))
    · intro c hc
      rcases List.mem_append.1 hc with hc | hc
      · exact hi.height c (by simp [hc])
      · rcases List.mem_cons.1 hc with rfl | hc
        · exact hi.height b (by simp)
        · exact hi.height c (by simp [hc])
    · exact before_sorted _
    · simpa using hi.ids
    · intro i hl
      have hs := hi.seg i hl
      rw [lvl_app] at hs ⊢
      by_cases c : i < b.h
      · rw [lvl_cons_pos c] at hs
        rw [lvl_cons_pos (c := { b with val := v }) c]
        exact (Sg.replace (b := b) (b' := { b with val := v }) rfl hs).frame (hnx _ _) (fun _ _ => hnx _ _)
      · rw [lvl_cons_neg c] at hs
        rw [lvl_cons_neg (c := { b with val := v }) c]
        exact hs.frame (hnx _ _) (fun _ _ => hnx _ _)
    · simpa using hi.count

theorem insert_new_any {w : SL K V} {A B : List (Cell K V)} (hi : Inv before w (A ++ B)) {k : K} (v : V) (d : BitVec 64)
    (hp : findPrevs cmp w k w.maxLevel .head [] = .ok (prevsOf w.maxLevel A)) (hb : ∀ b B', B = b :: B' → ¬ cmp b.key k = 0) :
    ∃ w' ce, Insert cmp k v d w = .ok w' ∧ ce.key = k ∧ ce.val = v ∧ Inv before w' (A ++ ce :: B) := by
  obtain ⟨r, hr, hr1, hr2⟩ := randomLevel_spec hi.max1 hi.max2 d
  have hfresh : ∀ c ∈ A ++ B, c.id ≠ w.elems.length := fun c hc => by have := (hi.stored c hc).lt; omega
  have hids : ((A ++ (⟨w.elems.length, k, v, r⟩ : Cell K V) :: B).map Cell.id).Nodup := by
    have := hi.ids
    rw [List.map_append, List.nodup_append] at this ⊢
    refine ⟨this.1, ?_, ?_⟩
    · rw [List.map_cons, List.nodup_cons]
      refine ⟨?_, this.2.1⟩
      intro hm
      obtain ⟨c, hc, e⟩ := List.mem_map.1 hm
      exact hfresh c (by simp [hc]) e
    · intro x hx y hy
      rw [List.map_cons, List.mem_cons] at hy
      rcases hy with rfl | hy
      · obtain ⟨c, hc, e⟩ := List.mem_map.1 hx
        rw [← e]; exact hfresh c (by simp [hc])
      · exact this.2.2 x hx y hy
  have hst : ∀ c ∈ A ++ B, Stored { w with elems := w.elems ++ [⟨k, v, List.replicate r none⟩] } c := by
    intro c hc
    have h := hi.stored c hc
    simp only [Stored, shape, List.map_append] at h ⊢
    rw [List.getElem?_append_left (by simpa using (hi.stored c hc).lt)]; exact h
  have hnx : ∀ r', r' ≠ Ref.elem w.elems.length → ∀ i, nextAt { w with elems := w.elems ++ [⟨k, v, List.replicate r none⟩] } r' i = nextAt w r' i := by
    intro r' hr' i
    cases r' with
    | head => rfl
    | elem a =>
      have ha : a ≠ w.elems.length := fun e => hr' (by rw [e])
      simp only [nextAt]
      by_cases c : a < w.elems.length
      · rw [List.getElem?_append_left c]
      · rw [List.getElem?_eq_none (by simp; omega), List.getElem?_eq_none (by omega)]
  have hnew : Stored { w with elems := w.elems ++ [⟨k, v, List.replicate r none⟩] } (⟨w.elems.length, k, v, r⟩ : Cell K V) := by
    simp [Stored, shape]
  obtain ⟨w', e1, s1, h1⟩ := link_spec (ce := (⟨w.elems.length, k, v, r⟩ : Cell K V)) hr2 hids r 0 { w with elems := w.elems ++ [⟨k, v, List.replicate r none⟩] } (by simp) hnew (by simp) (by
    intro j _ hj
    apply (hi.seg j hj).frame
    · exact hnx _ (fun c => Ref.noConfusion c) _
    · intro c hc
      exact hnx _ (fun e => hfresh c (mem_lvl hc).1 (Ref.elem.inj e)) _)
  refine ⟨{ w' with len := w'.len + 1 }, ⟨w.elems.length, k, v, r⟩, ?_, rfl, rfl, ?_⟩
  · have hgt : ∀ (a : Nat) , firstOr none B = some a → ∃ e, w.elems[a]? = some e ∧ ¬ cmp e.key k = 0 := by
      intro a ha
      cases B with
      | nil => cases ha
      | cons b B =>
        cases ha
        obtain ⟨e, h1, h2, _⟩ := (hi.stored b (by simp)).elem
        refine ⟨e, h1, ?_⟩
        rw [h2]; exact hb b B rfl
    simp only [Insert, hp, Res.ok_bind, prevsOf_get hi.max1, Res.ofOption_some, first0 hi rfl]
    cases hf : firstOr none B with
    | none => simp only [hr, Res.ok_bind, e1]
    | some a =>
      obtain ⟨e, g1, g2⟩ := hgt a hf
      simp only [g1, Res.ofOption_some, Res.ok_bind, if_neg g2, hr, e1]
  · have hmem : ∀ c ∈ A ++ (⟨w.elems.length, k, v, r⟩ : Cell K V) :: B, c = ⟨w.elems.length, k, v, r⟩ ∨ c ∈ A ++ B := by
      intro c hc
      rcases List.mem_append.1 hc with hc | hc
      · exact .inr (by simp [hc])
      · rcases List.mem_cons.1 hc with rfl | hc
        · exact .inl rfl
        · exact .inr (by simp [hc])
    constructor
    · rw [show w'.maxLevel = w.maxLevel from s1.maxLevel]; exact hi.max1
    · rw [show w'.maxLevel = w.maxLevel from s1.maxLevel]; exact hi.max2
    · show w'.head.length = w'.maxLevel
      rw [s1.headLen, s1.maxLevel]; exact hi.headLen
    · intro c hc
      show Stored w' c
      rcases hmem c hc with rfl | hc
      · exact s1.stored hnew
      · exact s1.stored (hst c hc)
    · intro c hc
      show 1 ≤ c.h ∧ c.h ≤ w'.maxLevel
      rw [s1.maxLevel]
      rcases hmem c hc with rfl | hc
      · exact ⟨hr1, hr2⟩
      · exact hi.height c hc
    · exact before_sorted _
    · exact hids
    · intro i hl
      have hl : i < w'.maxLevel := hl
      rw [s1.maxLevel] at hl
      exact (h1 i hl).frame rfl (fun _ _ => rfl)
    · show w'.len + 1 = _
      rw [s1.len]
      show w.len + 1 = _
      rw [hi.count]
      simp; omega

theorem remove_equal_any {w : SL K V} {A B : List (Cell K V)} {b : Cell K V} (hi : Inv before w (A ++ b :: B)) {k : K}
    (hp : findPrevs cmp w k w.maxLevel .head [] = .ok (prevsOf w.maxLevel A)) (hb : cmp b.key k = 0) :
    ∃ w', Remove cmp k w = .ok (true, w') ∧ Inv before w' (A ++ B) := by
  have hst := hi.stored b (by simp)
  obtain ⟨e, h1, h2, h3, h4⟩ := hst.elem
  obtain ⟨w', e1, s1, g1⟩ := unlink_spec (hi.height b (by simp)).2 hi.ids b.h 0 w (by simp) hst (by simp) (fun j _ hj => hi.seg j hj)
  have hsub : (A ++ B).Sublist (A ++ b :: B) := (List.Sublist.refl A).append (List.sublist_cons_self _ _)
  refine ⟨{ w' with len := w'.len - 1 }, ?_, ?_⟩
  · simp only [Remove, hp, Res.ok_bind, prevsOf_get hi.max1, Res.ofOption_some, first0 hi rfl, firstOr, h1, h2, h4]
    rw [if_neg (by simpa using hb), e1]; rfl
  · constructor
    · rw [show w'.maxLevel = w.maxLevel from s1.maxLevel]; exact hi.max1
    · rw [show w'.maxLevel = w.maxLevel from s1.maxLevel]; exact hi.max2
    · show w'.head.length = w'.maxLevel
      rw [s1.headLen, s1.maxLevel]; exact hi.headLen
    · intro c hc
      show Stored w' c
      exact s1.stored (hi.stored c (hsub.subset hc))
    · intro c hc
      show 1 ≤ c.h ∧ c.h ≤ w'.maxLevel
      rw [s1.maxLevel]
      exact hi.height c (hsub.subset hc)
    · exact before_sorted _
    · exact hi.ids.sublist (hsub.map _)
    · intro i hl
      have hl : i < w'.maxLevel := hl
      rw [s1.maxLevel] at hl
      exact (g1 i hl).frame rfl (fun _ _ => rfl)
    · show w'.len - 1 = _
      rw [s1.len, hi.count]
      simp; omega

theorem remove_none_any {w : SL K V} {A B : List (Cell K V)} (hi : Inv before w (A ++ B)) {k : K}
    (hp : findPrevs cmp w k w.maxLevel .head [] = .ok (prevsOf w.maxLevel A)) (hb : ∀ b B', B = b :: B' → ¬ cmp b.key k = 0) : Remove cmp k w = .ok (false, w) := by
  simp only [Remove, hp, Res.ok_bind, prevsOf_get hi.max1, Res.ofOption_some, first0 hi rfl]
  cases B with
  | nil => rfl
  | cons b B =>
    obtain ⟨e, h1, h2, _⟩ := (hi.stored b (by simp)).elem
    simp only [firstOr, h1, Res.ofOption_some, Res.ok_bind, h2]
    rw [if_pos (hb b B rfl)]

/-! ## Specification -/

/-- What one call may do to the entries and return, whatever the comparator is. -/
inductive MayStep (cmp : K → K → Int) : Op K V → List (K × V) → Out V → List (K × V) → Prop
  | overwrite {A B : List (K × V)} {k k' : K} {v v' : V} {d : BitVec 64} (h : cmp k' k = 0) :
    MayStep cmp (.insert k v d) (A ++ (k', v') :: B) .unit (A ++ (k', v) :: B)
  | add {A B : List (K × V)} {k : K} {v : V} {d : BitVec 64} (h : ∀ e B', B = e :: B' → 0 < cmp e.1 k) : MayStep cmp (.insert k v d) (A ++ B) .unit (A ++ (k, v) :: B)
  | found {L : List (K × V)} {k k' : K} {v : V} (hm : (k', v) ∈ L) (h : cmp k' k = 0) : MayStep cmp (.get k) L (.val (some v)) L
  | notFound {L : List (K × V)} {k : K} : MayStep cmp (.get k) L (.val none) L
  | remove {A B : List (K × V)} {k k' : K} {v' : V} (h : cmp k' k = 0) : MayStep cmp (.remove k) (A ++ (k', v') :: B) (.bool true) (A ++ B)
  | keep {L : List (K × V)} {k : K} : MayStep cmp (.remove k) L (.bool false) L
  | len {L : List (K × V)} : MayStep cmp .len L (.int L.length) L

/-- A history of such calls. -/
inductive MayRun (cmp : K → K → Int) : List (Op K V) → List (K × V) → List (Out V) → List (K × V) → Prop
  | nil {L : List (K × V)} : MayRun cmp [] L [] L
  | cons {op : Op K V} {ops : List (Op K V)} {L L1 L2 : List (K × V)} {o : Out V} {os : List (Out V)} (h : MayStep cmp op L o L1)
    (hs : MayRun cmp ops L1 os L2) : MayRun cmp (op :: ops) L (o :: os) L2

theorem step_any (cmp : K → K → Int) {w : SL K V} {G : List (Cell K V)} (hi : Inv before w G) (op : Op K V) :
    ∃ o w' G', step cmp op w = .ok (o, w') ∧ Inv before w' G' ∧ MayStep cmp op (G.map Cell.kv) o (G'.map Cell.kv) := by
  cases op with
  | insert k v d =>
    obtain ⟨A, B, rfl, hp, hst⟩ := findPrevs_place cmp hi k
    by_cases hb : ∀ b B', B = b :: B' → ¬ cmp b.key k = 0
    · obtain ⟨w', ce, e, h1, h2, h3⟩ := insert_new_any hi v d hp hb
      refine ⟨.unit, w', _, by simp [step, e], h3, ?_⟩
      simp only [List.map_append, List.map_cons, Cell.kv, h1, h2]
      refine .add ?_
      intro x L hx
      cases B with
      | nil => cases hx
      | cons b B =>
        cases hx
        have := hb b B rfl
        have h0 : 0 ≤ cmp b.key k := hst
        show 0 < cmp b.key k
        omega
    · push Not at hb
      obtain ⟨b, B', rfl, hb⟩ := hb
      obtain ⟨w', e, h3⟩ := insert_equal_any hi v d hp hb
      refine ⟨.unit, w', _, by simp [step, e], h3, ?_⟩
      simp only [List.map_append, List.map_cons, Cell.kv]
      exact .overwrite hb
  | get k =>
    rcases getLoop_any cmp hi k w.maxLevel [] G .head (Nat.le_refl _) rfl (.inl ⟨rfl, rfl⟩) with e | ⟨b, hb, h1, e⟩
    · exact ⟨.val none, w, G, by simp [step, Get, e], hi, .notFound⟩
    · exact ⟨.val (some b.val), w, G, by simp [step, Get, e], hi, .found (k' := b.key) (List.mem_map.2 ⟨b, hb, rfl⟩) h1⟩
  | remove k =>
    obtain ⟨A, B, rfl, hp, hst⟩ := findPrevs_place cmp hi k
    by_cases hb : ∀ b B', B = b :: B' → ¬ cmp b.key k = 0
    · have e := remove_none_any hi hp hb
      exact ⟨.bool false, w, _, by simp [step, e], hi, .keep⟩
    · push Not at hb
      obtain ⟨b, B', rfl, hb⟩ := hb
      obtain ⟨w', e, h3⟩ := remove_equal_any hi hp hb
      refine ⟨.bool true, w', _, by simp [step, e], h3, ?_⟩
      simp only [List.map_append, List.map_cons, Cell.kv]
      exact .remove hb
  | len =>
    refine ⟨.int (Len w), w, G, rfl, hi, ?_⟩
    have : Len w = ((G.map Cell.kv).length : Int) := by simp [Len, hi.count]
    rw [this]; exact .len

theorem run_any (cmp : K → K → Int) : ∀ (ops : List (Op K V)) {w : SL K V} {G : List (Cell K V)}, Inv before w G →
    ∃ os w' G', run cmp ops w = .ok (os, w') ∧ Inv before w' G' ∧ MayRun cmp ops (G.map Cell.kv) os (G'.map Cell.kv) := by
  intro ops
  induction ops with
  | nil => intro w G hi; exact ⟨[], w, G, rfl, hi, .nil⟩
  | cons op ops ih =>
    intro w G hi
    obtain ⟨o, w1, G1, e1, h1, m1⟩ := step_any cmp hi op
    obtain ⟨os, w2, G2, e2, h2, m2⟩ := ih h1
    exact ⟨o :: os, w2, G2, by simp [run, e1, e2], h2, .cons m1 m2⟩

/-- **C71** With any comparator at all, every maximum level from 1 to 64, every history and all random draws: no call panics or
loops; `Insert` overwrites the value of one entry the comparator calls equal or adds one, before an entry the comparator calls greater or at the end, `Remove` removes one such entry or
nothing and says which, `Get` returns the value of such an entry or an error, `Len` is the number of entries, and traversals
visit each entry once in the same order. -/
theorem C71_skiplist (cmp : K → K → Int) (n : Nat) (h1 : 1 ≤ n) (h2 : n ≤ 64) (ops : List (Op K V)) :
    ∃ w0 w os L, New n = .ok w0 ∧ run cmp ops w0 = .ok (os, w) ∧ MayRun cmp ops [] os L ∧ Keys w = .ok (L.map Prod.fst) ∧
      ∀ (σ : Type) (visit : σ → K → V → σ × Bool) (s : σ), Traversal visit w s = .ok (visitAll visit L s) := by
  obtain ⟨w0, e0, G0, hi0, hp0⟩ := agree_new (K := K) (V := V) (cmp := before) h1 h2
  have : G0.map Cell.kv = [] := List.perm_nil.1 hp0
  obtain ⟨os, w, G, e, hi, m⟩ := run_any cmp ops hi0
  rw [this] at m
  have hall : lvl 0 G = G := lvl_zero hi (fun _ h => h)
  have hs := hi.seg 0 hi.max1
  rw [hall] at hs
  have key : ∀ (σ : Type) (visit : σ → K → V → σ × Bool) (s : σ), Traversal visit w s = .ok (visitAll visit (G.map Cell.kv) s) := by
    intro σ visit s
    simp only [Traversal, hs.first, Res.ok_bind]
    exact travLoop_spec visit G _ .head s (hi.fuel (.refl _)) hi.stored hs
  refine ⟨w0, w, os, G.map Cell.kv, e0, e, m, ?_, key⟩
  rw [Keys, key]
  have : ∀ (L : List (K × V)) (acc : List K), visitAll (fun (s : List K) k _ => (s ++ [k], true)) L acc = acc ++ L.map Prod.fst := by
    intro L
    induction L with
    | nil => simp [visitAll]
    | cons x L ih =>
      obtain ⟨k, v⟩ := x
      intro acc
      simp [visitAll, ih]
  exact congrArg Res.ok ((this _ []).trans (List.nil_append _))

/-- With a comparator that always says "before": the same key is inserted twice, never found, never removed. -/
example : (do
    let w ← New 3
    let (os, w) ← run (fun _ _ : Int => -1) [.insert 5 50 0, .insert 1 10 6, .insert 5 30 2, .get 1, .remove 5, .len] w
    let ks ← Keys w
    Res.ok (os, ks)) = (.ok ([.unit, .unit, .unit, .val none, .bool false, .int 3], [5, 1, 5]) : Res (List (Out Int) × List Int)) := rfl

/-- `C71_skiplist` for that program. -/
example := C71_skiplist (fun _ _ : Int => -1) 3 (by decide) (by decide) [.insert 5 (50 : Int) 0, .insert 1 10 6, .insert 5 30 2, .get 1, .remove 5, .len]

end GoSTL.Skiplist
