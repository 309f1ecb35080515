import Verif.Skiplist.Proofs
/-!
# C51–C53: skip lists
-/
namespace GoSTL.Skiplist
variable {K V : Type} {cmp : K → K → Int}

/-! ## Specification -/

/-- One call on a finite map, kept as a list of pairs in no particular order; keys count as equal when they compare equal. -/
def specStep (cmp : K → K → Int) (op : Op K V) (m : List (K × V)) : Out V × List (K × V) :=
  match op with
  | .insert k v _ =>
    (.unit, if m.any (fun x => cmp x.1 k = 0) then m.map (fun x => if cmp x.1 k = 0 then (x.1, v) else x) else (k, v) :: m)
  | .get k => (.val ((m.find? (fun x => cmp x.1 k = 0)).map Prod.snd), m)
  | .remove k => (.bool (m.any (fun x => cmp x.1 k = 0)), m.filter (fun x => ¬ cmp x.1 k = 0))
  | .len => (.int m.length, m)

/-- A history on a finite map. -/
def specRun (cmp : K → K → Int) : List (Op K V) → List (K × V) → List (Out V) × List (K × V)
  | [], m => ([], m)
  | op :: ops, m =>
    let (o, m) := specStep cmp op m
    let (os, m) := specRun cmp ops m
    (o :: os, m)

/-- What a visitor that may stop sees of a list, starting in a state. -/
def visitAll {σ : Type} (visit : σ → K → V → σ × Bool) : List (K × V) → σ → σ
  | [], s => s
  | (k, v) :: l, s => if (visit s k v).2 then visitAll visit l (visit s k v).1 else (visit s k v).1

/-! ## The skip list agrees with the map -/

/-- The pair in a cell. -/
def Cell.kv (c : Cell K V) : K × V := (c.key, c.val)

/-- The list is well formed and holds the pairs of the map. -/
def Agree (cmp : K → K → Int) (w : SL K V) (m : List (K × V)) : Prop := ∃ G : List (Cell K V), Inv cmp w G ∧ (G.map Cell.kv).Perm m

theorem Inv.cases (hc : LawfulCmp cmp) {w : SL K V} {G : List (Cell K V)} (hi : Inv cmp w G) (k : K) :
    (∃ A b B, G = A ++ b :: B ∧ (∀ c ∈ A, cmp c.key k < 0) ∧ cmp b.key k = 0 ∧ (∀ c ∈ B, 0 < cmp c.key k)) ∨
    (∃ A B, G = A ++ B ∧ (∀ c ∈ A, cmp c.key k < 0) ∧ (∀ c ∈ B, 0 < cmp c.key k)) := by
  obtain ⟨A, B, h1, h2, h3, h4⟩ := hi.split hc k
  cases B with
  | nil => exact .inr ⟨A, [], h1, h2, by simp⟩
  | cons b B =>
    have := h3 b (by simp)
    by_cases c : cmp b.key k = 0
    · exact .inl ⟨A, b, B, h1, h2, c, h4 b B rfl⟩
    · refine .inr ⟨A, b :: B, h1, h2, ?_⟩
      intro x hx
      rcases List.mem_cons.1 hx with rfl | hx
      · omega
      · exact h4 b B rfl x hx

theorem Sg.replace {w : SL K V} {i : Nat} {A B : List (Cell K V)} {b b' : Cell K V} (h : b'.id = b.id) {r : Ref} {q : Option Nat}
    (hs : Sg w i r (A ++ b :: B) q) : Sg w i r (A ++ b' :: B) q := by
  rw [Sg.append] at hs ⊢
  simp only [Sg, firstOr, h]
  exact hs

theorem findPrevs_all {w : SL K V} {G : List (Cell K V)} (hi : Inv cmp w G) {k : K} {A B : List (Cell K V)} (hG : G = A ++ B) (hA : ∀ c ∈ A, cmp c.key k < 0) (hB : ∀ c ∈ B, 0 ≤ cmp c.key k) :
    findPrevs cmp w k w.maxLevel .head [] = .ok (prevsOf w.maxLevel A) := by
  have := findPrevs_spec hi hG hA hB w.maxLevel [] [] (lvl (w.maxLevel - 1) A) (Nat.le_refl _) (by
    intro j hj
    have : w.maxLevel - 1 = j := by omega
    rw [this]; rfl)
  rw [List.append_nil] at this
  exact this

theorem first0 {w : SL K V} {G : List (Cell K V)} (hi : Inv cmp w G) {A B : List (Cell K V)} (hG : G = A ++ B) :
    nextAt w (lastRef .head (lvl 0 A)) 0 = .ok (firstOr none B) := by
  have hs := hi.seg 0 hi.max1
  rw [hG, lvl_app] at hs
  have h := (Sg.append.1 hs).2.first
  rw [h]
  cases B with
  | nil => rfl
  | cons b B =>
    have := (hi.height b (by rw [hG]; simp)).1
    rw [lvl_cons_pos (by omega)]
    rfl

theorem stored_set {w : SL K V} {c : Cell K V} {a : Nat} {e e' : Elem K V} (he : w.elems[a]? = some e) (hne : c.id ≠ a) (h : Stored w c) :
    Stored { w with elems := w.elems.set a e' } c := by
  simp only [Stored, shape, List.getElem?_map] at h ⊢
  rw [List.getElem?_set_ne (fun c => hne c.symm)]; exact h

theorem ids_ne {A B : List (Cell K V)} {b : Cell K V} (h : ((A ++ b :: B).map Cell.id).Nodup) : ∀ c, c ∈ A ∨ c ∈ B → c.id ≠ b.id := by
  intro c hc e
  rw [List.map_append, List.nodup_append] at h
  rcases hc with hc | hc
  · exact h.2.2 c.id (List.mem_map.2 ⟨c, hc, rfl⟩) b.id (by simp) e
  · have := h.2.1
    rw [List.map_cons, List.nodup_cons] at this
    exact this.1 (List.mem_map.2 ⟨c, hc, e⟩)

/-- Overwriting the value of a present key. -/
theorem insert_present {w : SL K V} {A B : List (Cell K V)} {b : Cell K V} (hi : Inv cmp w (A ++ b :: B)) {k : K} (v : V) (d : BitVec 64)
    (hA : ∀ c ∈ A, cmp c.key k < 0) (hb : cmp b.key k = 0) (hB : ∀ c ∈ B, 0 < cmp c.key k) :
    ∃ w', Insert cmp k v d w = .ok w' ∧ Inv cmp w' (A ++ { b with val := v } :: B) := by
  have hB' : ∀ c ∈ b :: B, 0 ≤ cmp c.key k := by
    intro c hc
    rcases List.mem_cons.1 hc with rfl | hc
    · omega
    · have := hB c hc; omega
  obtain ⟨e, h1, h2, h3, h4⟩ := (hi.stored b (by simp)).elem
  have hlt := (hi.stored b (by simp)).lt
  refine ⟨{ w with elems := w.elems.set b.id { e with value := v } }, ?_, ?_⟩
  · simp only [Insert, findPrevs_all hi rfl hA hB', Res.ok_bind, prevsOf_get hi.max1, Res.ofOption_some, first0 hi rfl, firstOr, h1, h2, if_pos hb]
  · have hnx : ∀ r i, nextAt { w with elems := w.elems.set b.id { e with value := v } } r i = nextAt w r i := by
      intro r i
      cases r with
      | head => rfl
      | elem a =>
        by_cases c : b.id = a
        · subst c
          simp only [nextAt, List.getElem?_set_self hlt, h1, Res.ofOption_some, Res.ok_bind]
        · simp only [nextAt, List.getElem?_set_ne c]
    have hne := ids_ne hi.ids
    constructor
    · exact hi.max1
    · exact hi.max2
    · exact hi.headLen
    · intro c hc
      rcases List.mem_append.1 hc with hc | hc
      · exact stored_set h1 (hne c (.inl hc)) (hi.stored c (by simp [hc]))
      · rcases List.mem_cons.1 hc with rfl | hc
        · simp [Stored, shape, hlt, h2, h4]
        · exact stored_set h1 (hne c (.inr hc)) (hi.stored c (by simp [hc]))
    · intro c hc
      rcases List.mem_append.1 hc with hc | hc
      · exact hi.height c (by simp [hc])
      · rcases List.mem_cons.1 hc with rfl | hc
        · exact hi.height b (by simp)
        · exact hi.height c (by simp [hc])
    · have := hi.sorted
      rw [List.pairwise_append, List.pairwise_cons] at this ⊢
      refine ⟨this.1, this.2.1, ?_⟩
      intro x hx y hy
      rcases List.mem_cons.1 hy with rfl | hy
      · exact this.2.2 x hx b (by simp)
      · exact this.2.2 x hx y (by simp [hy])
    · simpa using hi.ids
    · intro i hl
      have hs := hi.seg i hl
      rw [lvl_app] at hs ⊢
      by_cases c : i < b.h
      · rw [lvl_cons_pos c] at hs
        rw [lvl_cons_pos (c := { b with val := v }) c]
        exact (Sg.replace (b := b) (b' := { b with val := v }) rfl hs).frame (hnx _ _) (fun _ _ => hnx _ _)
      · rw [lvl_cons_neg c] at hs
        rw [lvl_cons_neg (c := { b with val := v }) c]
        exact hs.frame (hnx _ _) (fun _ _ => hnx _ _)
    · simpa using hi.count

/-- Inserting a new key. -/
theorem insert_absent (hc : LawfulCmp cmp) {w : SL K V} {A B : List (Cell K V)} (hi : Inv cmp w (A ++ B)) {k : K} (v : V) (d : BitVec 64)
    (hA : ∀ c ∈ A, cmp c.key k < 0) (hB : ∀ c ∈ B, 0 < cmp c.key k) :
    ∃ w' ce, Insert cmp k v d w = .ok w' ∧ ce.key = k ∧ ce.val = v ∧ randomLevel 65 w.maxLevel d = .ok ce.h ∧ Inv cmp w' (A ++ ce :: B) := by
  have hB' : ∀ c ∈ B, 0 ≤ cmp c.key k := fun c hc => by have := hB c hc; omega
  obtain ⟨r, hr, hr1, hr2⟩ := randomLevel_spec hi.max1 hi.max2 d
  have hfresh : ∀ c ∈ A ++ B, c.id ≠ w.elems.length := fun c hc => by have := (hi.stored c hc).lt; omega
  have hids : ((A ++ (⟨w.elems.length, k, v, r⟩ : Cell K V) :: B).map Cell.id).Nodup := by
    have := hi.ids
    rw [List.map_append, List.nodup_append] at this ⊢
    refine ⟨this.1, ?_, ?_⟩
    · rw [List.map_cons, List.nodup_cons]
      refine ⟨?_, this.2.1⟩
      intro hm
      obtain ⟨c, hc, e⟩ := List.mem_map.1 hm
      exact hfresh c (by simp [hc]) e
    · intro x hx y hy
      rw [List.map_cons, List.mem_cons] at hy
      rcases hy with rfl | hy
      · obtain ⟨c, hc, e⟩ := List.mem_map.1 hx
        rw [← e]; exact hfresh c (by simp [hc])
      · exact this.2.2 x hx y hy
  have hst : ∀ c ∈ A ++ B, Stored { w with elems := w.elems ++ [⟨k, v, List.replicate r none⟩] } c := by
    intro c hc
    have h := hi.stored c hc
    simp only [Stored, shape, List.map_append] at h ⊢
    rw [List.getElem?_append_left (by simpa using (hi.stored c hc).lt)]; exact h
  have hnx : ∀ r', r' ≠ Ref.elem w.elems.length → ∀ i, nextAt { w with elems := w.elems ++ [⟨k, v, List.replicate r none⟩] } r' i = nextAt w r' i := by
    intro r' hr' i
    cases r' with
    | head => rfl
    | elem a =>
      have ha : a ≠ w.elems.length := fun e => hr' (by rw [e])
      simp only [nextAt]
      by_cases c : a < w.elems.length
      · rw [List.getElem?_append_left c]
      · rw [List.getElem?_eq_none (by simp; omega), List.getElem?_eq_none (by omega)]
  have hnew : Stored { w with elems := w.elems ++ [⟨k, v, List.replicate r none⟩] } (⟨w.elems.length, k, v, r⟩ : Cell K V) := by
    simp [Stored, shape]
  obtain ⟨w', e1, s1, h1⟩ := link_spec (ce := (⟨w.elems.length, k, v, r⟩ : Cell K V)) hr2 hids r 0 { w with elems := w.elems ++ [⟨k, v, List.replicate r none⟩] } (by simp) hnew (by simp) (by
    intro j _ hj
    apply (hi.seg j hj).frame
    · exact hnx _ (fun c => Ref.noConfusion c) _
    · intro c hc
      exact hnx _ (fun e => hfresh c (mem_lvl hc).1 (Ref.elem.inj e)) _)
  refine ⟨{ w' with len := w'.len + 1 }, ⟨w.elems.length, k, v, r⟩, ?_, rfl, rfl, hr, ?_⟩
  · have hgt : ∀ (a : Nat) , firstOr none B = some a → ∃ e, w.elems[a]? = some e ∧ ¬ cmp e.key k = 0 := by
      intro a ha
      cases B with
      | nil => cases ha
      | cons b B =>
        cases ha
        obtain ⟨e, h1, h2, _⟩ := (hi.stored b (by simp)).elem
        refine ⟨e, h1, ?_⟩
        have := hB b (by simp)
        rw [h2]; omega
    simp only [Insert, findPrevs_all hi rfl hA hB', Res.ok_bind, prevsOf_get hi.max1, Res.ofOption_some, first0 hi rfl]
    cases hf : firstOr none B with
    | none => simp only [hr, Res.ok_bind, e1]
    | some a =>
      obtain ⟨e, g1, g2⟩ := hgt a hf
      simp only [g1, Res.ofOption_some, Res.ok_bind, if_neg g2, hr, e1]
  · have hmem : ∀ c ∈ A ++ (⟨w.elems.length, k, v, r⟩ : Cell K V) :: B, c = ⟨w.elems.length, k, v, r⟩ ∨ c ∈ A ++ B := by
      intro c hc
      rcases List.mem_append.1 hc with hc | hc
      · exact .inr (by simp [hc])
      · rcases List.mem_cons.1 hc with rfl | hc
        · exact .inl rfl
        · exact .inr (by simp [hc])
    constructor
    · rw [show w'.maxLevel = w.maxLevel from s1.maxLevel]; exact hi.max1
    · rw [show w'.maxLevel = w.maxLevel from s1.maxLevel]; exact hi.max2
    · show w'.head.length = w'.maxLevel
      rw [s1.headLen, s1.maxLevel]; exact hi.headLen
    · intro c hc
      show Stored w' c
      rcases hmem c hc with rfl | hc
      · exact s1.stored hnew
      · exact s1.stored (hst c hc)
    · intro c hc
      show 1 ≤ c.h ∧ c.h ≤ w'.maxLevel
      rw [s1.maxLevel]
      rcases hmem c hc with rfl | hc
      · exact ⟨hr1, hr2⟩
      · exact hi.height c hc
    · have := hi.sorted
      rw [List.pairwise_append] at this ⊢
      refine ⟨this.1, ?_, ?_⟩
      · rw [List.pairwise_cons]
        refine ⟨?_, this.2.1⟩
        intro c hcB
        exact (hc.swap _ _).2 (hB c hcB)
      · intro x hx y hy
        rcases List.mem_cons.1 hy with rfl | hy
        · exact hA x hx
        · exact this.2.2 x hx y hy
    · exact hids
    · intro i hl
      have hl : i < w'.maxLevel := hl
      rw [s1.maxLevel] at hl
      exact (h1 i hl).frame rfl (fun _ _ => rfl)
    · show w'.len + 1 = _
      rw [s1.len]
      show w.len + 1 = _
      rw [hi.count]
      simp; omega

/-- Removing a present key. -/
theorem remove_present {w : SL K V} {A B : List (Cell K V)} {b : Cell K V} (hi : Inv cmp w (A ++ b :: B)) {k : K}
    (hA : ∀ c ∈ A, cmp c.key k < 0) (hb : cmp b.key k = 0) (hB : ∀ c ∈ B, 0 < cmp c.key k) :
    ∃ w', Remove cmp k w = .ok (true, w') ∧ Inv cmp w' (A ++ B) := by
  have hB' : ∀ c ∈ b :: B, 0 ≤ cmp c.key k := by
    intro c hc
    rcases List.mem_cons.1 hc with rfl | hc
    · omega
    · have := hB c hc; omega
  have hst := hi.stored b (by simp)
  obtain ⟨e, h1, h2, h3, h4⟩ := hst.elem
  obtain ⟨w', e1, s1, g1⟩ := unlink_spec (hi.height b (by simp)).2 hi.ids b.h 0 w (by simp) hst (by simp) (fun j _ hj => hi.seg j hj)
  have hsub : (A ++ B).Sublist (A ++ b :: B) := (List.Sublist.refl A).append (List.sublist_cons_self _ _)
  refine ⟨{ w' with len := w'.len - 1 }, ?_, ?_⟩
  · simp only [Remove, findPrevs_all hi rfl hA hB', Res.ok_bind, prevsOf_get hi.max1, Res.ofOption_some, first0 hi rfl, firstOr, h1, h2, h4]
    rw [if_neg (by simpa using hb), e1]; rfl
  · constructor
    · rw [show w'.maxLevel = w.maxLevel from s1.maxLevel]; exact hi.max1
    · rw [show w'.maxLevel = w.maxLevel from s1.maxLevel]; exact hi.max2
    · show w'.head.length = w'.maxLevel
      rw [s1.headLen, s1.maxLevel]; exact hi.headLen
    · intro c hc
      show Stored w' c
      exact s1.stored (hi.stored c (hsub.subset hc))
    · intro c hc
      show 1 ≤ c.h ∧ c.h ≤ w'.maxLevel
      rw [s1.maxLevel]
      exact hi.height c (hsub.subset hc)
    · exact hi.sorted.sublist hsub
    · exact hi.ids.sublist (hsub.map _)
    · intro i hl
      have hl : i < w'.maxLevel := hl
      rw [s1.maxLevel] at hl
      exact (g1 i hl).frame rfl (fun _ _ => rfl)
    · show w'.len - 1 = _
      rw [s1.len, hi.count]
      simp; omega

/-- Removing an absent key. -/
theorem remove_absent {w : SL K V} {A B : List (Cell K V)} (hi : Inv cmp w (A ++ B)) {k : K}
    (hA : ∀ c ∈ A, cmp c.key k < 0) (hB : ∀ c ∈ B, 0 < cmp c.key k) : Remove cmp k w = .ok (false, w) := by
  have hB' : ∀ c ∈ B, 0 ≤ cmp c.key k := fun c hc => by have := hB c hc; omega
  simp only [Remove, findPrevs_all hi rfl hA hB', Res.ok_bind, prevsOf_get hi.max1, Res.ofOption_some, first0 hi rfl]
  cases B with
  | nil => rfl
  | cons b B =>
    obtain ⟨e, h1, h2, _⟩ := (hi.stored b (by simp)).elem
    have := hB b (by simp)
    simp only [firstOr, h1, Res.ofOption_some, Res.ok_bind, h2]
    rw [if_pos (by omega)]

theorem get_spec (hc : LawfulCmp cmp) {w : SL K V} {G : List (Cell K V)} (hi : Inv cmp w G) (k : K) :
    ∃ A B, G = A ++ B ∧ (∀ c ∈ A, cmp c.key k < 0) ∧ (∀ b B', B = b :: B' → ∀ c ∈ B', 0 < cmp c.key k) ∧ (∀ c ∈ B, 0 ≤ cmp c.key k) ∧ Get cmp k w = .ok (hit cmp k B) := by
  obtain ⟨A, B, h1, h2, h3, h4⟩ := hi.split hc k
  refine ⟨A, B, h1, h2, h4, h3, ?_⟩
  have := getLoop_spec hi h1 h2 h3 h4 w.maxLevel [] (lvl (w.maxLevel - 1) A) (Nat.le_refl _) (by
    intro j hj
    have : w.maxLevel - 1 = j := by omega
    rw [this]; rfl)
  rw [if_neg (by have := hi.max1; omega)] at this
  exact this

theorem find_only {α : Type} {l : List α} {p : α → Bool} {y : α} (hy : y ∈ l) (hp : ∀ x ∈ l, p x = true ↔ x = y) : l.find? p = some y := by
  cases h : l.find? p with
  | none =>
    rw [List.find?_eq_none] at h
    exact absurd ((hp y hy).2 rfl) (h y hy)
  | some x =>
    have h1 := List.find?_some h
    have h2 := List.mem_of_find?_eq_some h
    rw [(hp x h2).1 h1]

theorem step_agree (hc : LawfulCmp cmp) {w : SL K V} {m : List (K × V)} (ha : Agree cmp w m) (op : Op K V) :
    ∃ w', step cmp op w = .ok ((specStep cmp op m).1, w') ∧ Agree cmp w' (specStep cmp op m).2 := by
  obtain ⟨G, hi, hp⟩ := ha
  -- what the map says about a key that is present, or absent
  have present : ∀ {A b B k}, G = A ++ b :: B → (∀ c ∈ A, cmp c.key k < 0) → cmp b.key k = 0 → (∀ c ∈ B, 0 < cmp c.key k) →
      Cell.kv b ∈ m ∧ m.any (fun x => cmp x.1 k = 0) = true ∧ ((A ++ B).map Cell.kv).Perm (m.filter (fun x => ¬ cmp x.1 k = 0)) ∧
      ∀ v, ((A ++ { b with val := v } :: B).map Cell.kv).Perm (m.map (fun x => if cmp x.1 k = 0 then (x.1, v) else x)) := by
    intro A b B k hG hA hb hB
    have hbm : Cell.kv b ∈ m := hp.subset (List.mem_map.2 ⟨b, by rw [hG]; simp, rfl⟩)
    have hfA : ∀ x ∈ A.map Cell.kv, ¬ cmp x.1 k = 0 := by
      intro x hx
      obtain ⟨c, hc, rfl⟩ := List.mem_map.1 hx
      have := hA c hc
      show ¬ cmp c.key k = 0
      omega
    have hfB : ∀ x ∈ B.map Cell.kv, ¬ cmp x.1 k = 0 := by
      intro x hx
      obtain ⟨c, hc, rfl⟩ := List.mem_map.1 hx
      have := hB c hc
      show ¬ cmp c.key k = 0
      omega
    have hb' : cmp (Cell.kv b).1 k = 0 := hb
    refine ⟨hbm, ?_, ?_, ?_⟩
    · rw [List.any_eq_true]; exact ⟨_, hbm, by simpa using hb'⟩
    · refine List.Perm.trans ?_ (hp.filter _)
      rw [hG]
      simp only [List.map_append, List.map_cons, List.filter_append]
      rw [List.filter_cons_of_neg (by simpa using hb'), List.filter_eq_self.2 (by simpa using hfA), List.filter_eq_self.2 (by simpa using hfB)]
    · intro v
      refine List.Perm.trans ?_ (hp.map _)
      rw [hG]
      simp only [List.map_append, List.map_cons]
      rw [if_pos hb']
      have idA : ∀ (L : List (Cell K V)), (∀ x ∈ L.map Cell.kv, ¬ cmp x.1 k = 0) → (L.map Cell.kv).map (fun x => if cmp x.1 k = 0 then (x.1, v) else x) = L.map Cell.kv := by
        intro L hL
        conv_rhs => rw [← List.map_id (L.map Cell.kv)]
        apply List.map_congr_left
        intro x hx
        rw [if_neg (hL x hx)]; rfl
      rw [idA A hfA, idA B hfB]
      exact .refl _
  have absent : ∀ {A B k}, G = A ++ B → (∀ c ∈ A, cmp c.key k < 0) → (∀ c ∈ B, 0 < cmp c.key k) →
      (∀ x ∈ m, ¬ cmp x.1 k = 0) := by
    intro A B k hG hA hB x hx
    obtain ⟨c, hcG, rfl⟩ := List.mem_map.1 (hp.symm.subset hx)
    rw [hG] at hcG
    show ¬ cmp c.key k = 0
    rcases List.mem_append.1 hcG with h | h
    · have := hA c h; omega
    · have := hB c h; omega
  cases op with
  | insert k v d =>
    rcases hi.cases hc k with ⟨A, b, B, hG, hA, hb, hB⟩ | ⟨A, B, hG, hA, hB⟩
    · obtain ⟨_, h2, _, h4⟩ := present hG hA hb hB
      rw [hG] at hi
      obtain ⟨w', e, i⟩ := insert_present hi v d hA hb hB
      refine ⟨w', by simp only [step, e, Res.ok_bind]; rfl, _, i, ?_⟩
      simp only [specStep]
      rw [if_pos h2]; exact h4 v
    · have h2 := absent hG hA hB
      rw [hG] at hi
      obtain ⟨w', ce, e, ek, ev, _, i⟩ := insert_absent hc hi v d hA hB
      refine ⟨w', by simp only [step, e, Res.ok_bind]; rfl, _, i, ?_⟩
      simp only [specStep]
      rw [if_neg (by simpa using h2)]
      have : Cell.kv ce = (k, v) := by rw [Cell.kv, ek, ev]
      rw [List.map_append, List.map_cons, this]
      refine List.perm_middle.trans (List.Perm.cons _ ?_)
      rw [← List.map_append, ← hG]; exact hp
  | get k =>
    obtain ⟨A, B, hG, hA, hB2, hB, e⟩ := get_spec hc hi k
    refine ⟨w, ?_, G, hi, hp⟩
    have : hit cmp k B = (m.find? (fun x => cmp x.1 k = 0)).map Prod.snd := by
      cases B with
      | nil =>
        have := absent (k := k) hG hA (by simp)
        rw [List.find?_eq_none.2 (by simpa using this)]; rfl
      | cons b B =>
        by_cases c : cmp b.key k = 0
        · obtain ⟨h1, _⟩ := present hG hA c (hB2 b B rfl)
          rw [find_only (y := Cell.kv b) h1]
          · simp only [hit, if_pos c]; rfl
          · intro x hx
            obtain ⟨d, hd, rfl⟩ := List.mem_map.1 (hp.symm.subset hx)
            rw [hG] at hd
            simp only [decide_eq_true_eq]
            constructor
            · intro h0
              have h0 : cmp d.key k = 0 := h0
              rcases List.mem_append.1 hd with h | h
              · have := hA d h; omega
              · rcases List.mem_cons.1 h with rfl | h
                · rfl
                · have := hB2 b B rfl d h; omega
            · intro h
              rw [h]; exact c
        · have := absent (k := k) hG hA (by
            intro d hd
            rcases List.mem_cons.1 hd with rfl | h
            · have := hB d (by simp); omega
            · exact hB2 b B rfl d h)
          rw [List.find?_eq_none.2 (by simpa using this)]
          simp only [hit, if_neg c]; rfl
    simp only [step, e, Res.ok_bind, this]
    rfl
  | remove k =>
    rcases hi.cases hc k with ⟨A, b, B, hG, hA, hb, hB⟩ | ⟨A, B, hG, hA, hB⟩
    · obtain ⟨_, h2, h3, _⟩ := present hG hA hb hB
      rw [hG] at hi
      obtain ⟨w', e, i⟩ := remove_present hi hA hb hB
      refine ⟨w', ?_, _, i, h3⟩
      simp only [step, e, Res.ok_bind, specStep, h2]
    · have h2 := absent hG hA hB
      rw [hG] at hi
      have e := remove_absent hi hA hB
      refine ⟨w, ?_, G, by rw [hG]; exact hi, ?_⟩
      · simp only [step, e, Res.ok_bind, specStep]
        rw [List.any_eq_false.2 (by simpa using h2)]
      · simp only [specStep]
        rw [List.filter_eq_self.2 (by simpa using h2)]; exact hp
  | len =>
    refine ⟨w, ?_, G, hi, hp⟩
    simp only [step, Len, specStep, hi.count]
    rw [← hp.length_eq]; simp

theorem run_agree (hc : LawfulCmp cmp) : ∀ (ops : List (Op K V)) {w : SL K V} {m : List (K × V)}, Agree cmp w m →
    ∃ w', run cmp ops w = .ok ((specRun cmp ops m).1, w') ∧ Agree cmp w' (specRun cmp ops m).2 := by
  intro ops
  induction ops with
  | nil => intro w m ha; exact ⟨w, rfl, ha⟩
  | cons op ops ih =>
    intro w m ha
    obtain ⟨w1, e1, a1⟩ := step_agree hc ha op
    obtain ⟨w2, e2, a2⟩ := ih a1
    refine ⟨w2, ?_, a2⟩
    simp only [run, e1, Res.ok_bind, e2]
    rfl

theorem agree_new {n : Nat} (h1 : 1 ≤ n) (h2 : n ≤ 64) : ∃ w, (New n : Res (SL K V)) = .ok w ∧ Agree cmp w [] := by
  refine ⟨⟨[], List.replicate n none, n, 0⟩, ?_, [], ?_, .refl _⟩
  · simp only [New]
    rw [if_neg (by omega)]; rfl
  · constructor
    · exact h1
    · exact h2
    · simp
    · simp
    · simp
    · exact .nil
    · simp
    · intro i hi
      have hi : i < n := hi
      simp [lvl, Sg, nextAt, hi]
    · rfl

/-! ## C51 -/

/-- C51: for every consistent comparator, every maximum level from 1 to 64, every history and all random draws in it, each call returns
what a finite map returns; no call panics or loops. -/
theorem C51_skiplist_is_a_map (hc : LawfulCmp cmp) (n : Nat) (h1 : 1 ≤ n) (h2 : n ≤ 64) (ops : List (Op K V)) :
    ∃ w0 w, New n = .ok w0 ∧ run cmp ops w0 = .ok ((specRun cmp ops []).1, w) := by
  obtain ⟨w0, e0, a0⟩ := agree_new (K := K) (V := V) (cmp := cmp) h1 h2
  obtain ⟨w, e, _⟩ := run_agree hc ops a0
  exact ⟨w0, w, e0, e⟩

/-! ## C52 -/

theorem travLoop_spec {σ : Type} (visit : σ → K → V → σ × Bool) {w : SL K V} : ∀ (L : List (Cell K V)) (f : Nat) (r : Ref) (s : σ), L.length < f →
    (∀ c ∈ L, Stored w c) → Sg w 0 r L none → travLoop visit w f (firstOr none L) s = .ok (visitAll visit (L.map Cell.kv) s) := by
  intro L
  induction L with
  | nil =>
    intro f r s hf _ _
    obtain ⟨f, rfl⟩ : ∃ f', f = f' + 1 := ⟨f - 1, by simp at hf; omega⟩
    rfl
  | cons c L ih =>
    intro f r s hf hst hs
    obtain ⟨f, rfl⟩ : ∃ f', f = f' + 1 := ⟨f - 1, by simp at hf; omega⟩
    obtain ⟨e, h1, h2, h3, _⟩ := (hst c (by simp)).elem
    have hs2 : Sg w 0 (.elem c.id) L none := hs.2
    simp only [firstOr, travLoop, h1, Res.ofOption_some, Res.ok_bind, h2, h3, hs2.first, List.map_cons, Cell.kv, visitAll]
    split
    · exact ih f _ _ (by simp at hf; omega) (fun d hd => hst d (by simp [hd])) hs2
    · rfl

theorem traversal_agree {w : SL K V} {m : List (K × V)} (ha : Agree cmp w m) :
    ∃ L : List (K × V), L.Perm m ∧ L.Pairwise (fun x y => cmp x.1 y.1 < 0) ∧ Keys w = .ok (L.map Prod.fst) ∧
      ∀ (σ : Type) (visit : σ → K → V → σ × Bool) (s : σ), Traversal visit w s = .ok (visitAll visit L s) := by
  obtain ⟨G, hi, hp⟩ := ha
  have hall : lvl 0 G = G := by
    apply List.filter_eq_self.2
    intro c hcG
    have := (hi.height c hcG).1
    simp; omega
  have hs := hi.seg 0 hi.max1
  rw [hall] at hs
  have key : ∀ (σ : Type) (visit : σ → K → V → σ × Bool) (s : σ), Traversal visit w s = .ok (visitAll visit (G.map Cell.kv) s) := by
    intro σ visit s
    simp only [Traversal, hs.first, Res.ok_bind]
    exact travLoop_spec visit G _ .head s (hi.fuel (.refl _)) hi.stored hs
  refine ⟨G.map Cell.kv, hp, ?_, ?_, key⟩
  · rw [List.pairwise_map]; exact hi.sorted
  · rw [Keys, key]
    have : ∀ (L : List (K × V)) (acc : List K), visitAll (fun (s : List K) k _ => (s ++ [k], true)) L acc = acc ++ L.map Prod.fst := by
      intro L
      induction L with
      | nil => simp [visitAll]
      | cons x L ih =>
        obtain ⟨k, v⟩ := x
        intro acc
        simp [visitAll, ih]
    exact congrArg Res.ok ((this _ []).trans (List.nil_append _))

/-- C52: after every history there is one listing of the map in strictly increasing key order, and every traversal takes the visitor through it
until the visitor says stop; `Keys` returns the keys of that listing. -/
theorem C52_traversal_in_order (hc : LawfulCmp cmp) (n : Nat) (h1 : 1 ≤ n) (h2 : n ≤ 64) (ops : List (Op K V)) (w0 w : SL K V) (os : List (Out V))
    (hn : New n = .ok w0) (hr : run cmp ops w0 = .ok (os, w)) :
    ∃ L : List (K × V), L.Perm (specRun cmp ops []).2 ∧ L.Pairwise (fun x y => cmp x.1 y.1 < 0) ∧ Keys w = .ok (L.map Prod.fst) ∧
      ∀ (σ : Type) (visit : σ → K → V → σ × Bool) (s : σ), Traversal visit w s = .ok (visitAll visit L s) := by
  obtain ⟨w0', e0, a0⟩ := agree_new (K := K) (V := V) (cmp := cmp) h1 h2
  rw [e0] at hn; cases hn
  obtain ⟨w', e, ha⟩ := run_agree hc ops a0
  rw [e] at hr; cases hr
  exact traversal_agree ha

/-- Levels 3, 1 and 2 in a list of at most 3 levels; the middle key is removed and the first key's value replaced. -/
example : (do
    let w ← New 3
    let (os, w) ← run (fun a b : Int => a - b) [.insert 5 50 0, .insert 1 10 6, .insert 3 30 2, .insert 1 11 0, .get 1, .remove 3, .remove 3, .get 3, .len] w
    let ks ← Keys w
    Res.ok (os, ks)) = (.ok ([.unit, .unit, .unit, .unit, .val (some 11), .bool true, .bool false, .val none, .int 2], [1, 5]) : Res (List (Out Int) × List Int)) := rfl

/-! ## C53 -/

/-- C53, for maximum levels 1 to 64: `randomLevel` ends with a level from 1 to the maximum, whatever is drawn. Missing: larger maximum levels and 0. -/
theorem C53_randomLevel_partial (n : Nat) (h1 : 1 ≤ n) (h2 : n ≤ 64) (draw : BitVec 64) : ∃ r, randomLevel 65 n draw = .ok r ∧ 1 ≤ r ∧ r ≤ n :=
  randomLevel_spec h1 h2 draw

/-- C53 is false of the code: with a maximum level above 64, which `New` accepts, `randomLevel` never ends, whatever is drawn. -/
theorem C53_violated (n : Nat) (h : 65 ≤ n) (draw : BitVec 64) : (∃ w : SL K V, New n = .ok w) ∧ ∀ f, randomLevel f n draw = .outOfFuel := by
  refine ⟨⟨_, by simp only [New]; rw [if_neg (by omega)]⟩, ?_⟩
  intro f
  have z : ∀ m, 64 ≤ m → (1 : BitVec 64) <<< m = 0 := by
    intro m hm
    apply BitVec.eq_of_getLsbD_eq
    intro i hi
    rw [BitVec.getLsbD_shiftLeft]
    have : i < m := by omega
    simp [this]
  simp only [randomLevel]
  rw [z n (by omega), if_neg (by decide), if_neg (by omega), z (n - 1) (by omega)]
  apply levelLoop_forever
  have e : (0 - 1 - 0 : BitVec 64) = 0 - 1 := by decide
  rw [e]
  show (draw % (0 - 1)).toNat < (0 - 1 : BitVec 64).toNat
  rw [BitVec.toNat_umod]
  exact Nat.mod_lt _ (by decide)

/-- C53 is false of the code: `New` accepts the maximum level 0, but then every `Insert`, `Remove` and `Traversal` panics, and so does `randomLevel`
itself (division by zero). A negative maximum level makes `New` panic. -/
theorem C53_zero : (∃ w : SL K V, New 0 = .ok w ∧ (∀ k v draw, Insert cmp k v draw w = .panic) ∧ (∀ k, Remove cmp k w = .panic) ∧ (∀ k, Get cmp k w = .ok none) ∧
      Keys w = .panic ∧ ∀ (σ : Type) (visit : σ → K → V → σ × Bool) s, Traversal visit w s = .panic) ∧
    (∀ n : Int, n < 0 → (New n : Res (SL K V)) = .panic) ∧ ∀ draw f, randomLevel f 0 draw = .panic :=
  ⟨⟨_, rfl, fun _ _ _ => rfl, fun _ => rfl, fun _ => rfl, rfl, fun _ _ _ => rfl⟩, fun _ h => if_pos h, fun _ _ => rfl⟩

/-- Both ends are drawn: with maximum level 4, a draw of 0 gives level 4 and a draw of 14 gives level 1. -/
example : randomLevel 65 4 0 = .ok 4 ∧ randomLevel 65 4 14 = .ok 1 := ⟨rfl, rfl⟩

/-! ### The theorems on a concrete history -/

theorem subCmp_lawful : LawfulCmp (fun a b : Int => a - b) := ⟨fun a b => by omega, fun a b c => by omega⟩
/-- Insertions at several levels, a replacement and removals. -/
def demoOps : List (Op Int Int) := [.insert 5 50 0, .insert 1 10 6, .insert 3 30 2, .insert 1 11 0, .get 1, .remove 3, .remove 3, .get 3, .len]

example : ∃ w0 w, New 3 = .ok w0 ∧ run (fun a b : Int => a - b) demoOps w0 = .ok ((specRun (fun a b : Int => a - b) demoOps []).1, w) :=
  C51_skiplist_is_a_map subCmp_lawful 3 (by decide) (by decide) demoOps
/-- `C52_traversal_in_order`: a visitor that stops at the first key. -/
example : ∃ w0 w : SL Int Int, New 3 = .ok w0 ∧ (∃ os, run (fun a b : Int => a - b) demoOps w0 = .ok (os, w)) ∧ Traversal (fun (s : List Int) k _ => (s ++ [k], false)) w [] = .ok [1] := by
  obtain ⟨w0, w, e1, e2⟩ := C51_skiplist_is_a_map subCmp_lawful 3 (by decide) (by decide) demoOps
  obtain ⟨L, hp, hs, -, ht⟩ := C52_traversal_in_order subCmp_lawful 3 (by decide) (by decide) demoOps w0 w _ e1 e2
  have hp' : L.Perm [(1, 11), (5, 50)] := hp.trans (by decide)
  have hL : L = [(1, 11), (5, 50)] := hp'.eq_of_pairwise (fun a b _ _ h1 h2 => by omega) hs (by decide)
  refine ⟨w0, w, e1, ⟨_, e2⟩, (ht _ _ _).trans ?_⟩
  rw [hL]; rfl
example : ∃ r, randomLevel 65 10 0x3ff = .ok r ∧ 1 ≤ r ∧ r ≤ 10 := C53_randomLevel_partial 10 (by decide) (by decide) _
example : (∃ w : SL Int Int, New 65 = .ok w) ∧ ∀ f, randomLevel f 65 7 = .outOfFuel := C53_violated 65 (by decide) 7

end GoSTL.Skiplist
