import Verif.Hamt.ArraysSteps
/-!
# Arrays of children as objects: `insert`, `find` and `erase` keep the invariant
-/
namespace GoSTL.Hamt.Arr
variable {T : Type} {H : Key → Hash} {K V : Key → Prop} {F : Nat → Prop} {L L' : Lab} {m m' : Mem T}

theorem Evo.refl (hw : WF H L m) : Evo H K V F L m L m where
  label _ _ := rfl
  node a bm p ar ho := ⟨bm, ar, ho, rfl⟩
  kv a h l ho := ⟨l, ho⟩
  pair a k v n ho := ⟨v, n, ho, fun _ => rfl⟩
  chain a _ := .same fun C hC => hC
  keep e x hx _ := hx
  upper e x _ hx := .inl hx
  arr ar cs ha := ⟨cs, ha, slots_same (fun c hc x hx _ => hx) (fun c hc x hx => .inl hx)⟩

theorem Shallow.refl (d : Nat) : Shallow d L m m := ⟨fun _ _ _ _ h _ => h, fun _ _ h _ => h⟩

/-! ## Reading -/

theorem asNode_of {a : Nat} {bm : Hash} {p ar : Nat} {cs : List (Option Nat)} (ho : m.objs[a]? = some (.node bm p ar)) (ha : m.arrs[ar]? = some cs) :
    asNode m a = .ok (bm, p, ar, cs) := by
  simp only [asNode, ho, ha, Res.ofOption_some, Res.ok_bind]

theorem asPair_of {a : Nat} {k : Key} {v : T} {n : Option Nat} (ho : m.objs[a]? = some (.pair k v n)) : asPair m a = .ok (k, v, n) := by
  simp only [asPair, ho]

/-- The slot of a bit that is set. -/
theorem WF.slot (hw : WF H L m) {a : Nat} {bm : Hash} {p0 ar : Nat} {cs : List (Option Nat)} (ho : m.objs[a]? = some (.node bm p0 ar)) (ha : m.arrs[ar]? = some cs)
    {p : Nat} (hp : p ∈ bits bm) :
    ∃ e, cs[index bm (bitPos p)]? = some (some e) ∧ (L ar).2[index bm (bitPos p)]? = some p ∧ EntAt L m ((L ar).1 ++ [p]) e := by
  obtain ⟨h1, cs', h2, h3⟩ := hw.node _ _ _ _ ho
  rw [ha] at h2
  cases h2
  have h4 := get_index hp
  rw [← h1] at h4
  have hok := hw.arr _ _ ha
  have hl : index bm (bitPos p) < cs.length := by rw [← hok.size]; exact (List.getElem?_eq_some_iff.1 h4).1
  rcases hs : cs[index bm (bitPos p)]? with _ | _ | e
  · rw [List.getElem?_eq_none_iff] at hs; omega
  · exact absurd (List.mem_of_getElem? hs) h3
  · exact ⟨e, rfl, h4, hok.ent _ _ _ h4 hs⟩

/-- A key below a node is below the slot of its hash. -/
theorem WF.has_key (hw : WF H L m) {a : Nat} {bm : Hash} {p0 ar : Nat} {cs : List (Option Nat)} (ho : m.objs[a]? = some (.node bm p0 ar)) (ha : m.arrs[ar]? = some cs)
    {x : Nat × Key} (hx : EntHas m a x) :
    pos (H x.2) (L ar).1.length ∈ bits bm ∧ ∀ e, cs[index bm (bitPos (pos (H x.2) (L ar).1.length))]? = some (some e) → EntHas m e x := by
  obtain ⟨c, hc, hx⟩ := (entHas_node ho ha).1 hx
  obtain ⟨i, p, h1, h2, h3⟩ := hw.child ha hc
  have h4 := (OnPath.snoc.1 (hx.onPath hw h3)).2
  obtain ⟨h5, -⟩ := hw.node _ _ _ _ ho
  rw [h5] at h1
  rw [h4]
  refine ⟨List.mem_of_getElem? h1, fun e he => ?_⟩
  rw [index_get h1, h2] at he
  cases he
  exact hx

theorem findPair_spec (key : Key) : ∀ (C : List (Nat × Key)) (f : Nat) (l : Option Nat), Chain m l C → C.length < f →
    ∃ r, findPair m key f l = .ok r ∧ ((r = none ∧ key ∉ C.map Prod.snd) ∨ ∃ y, r = some y ∧ (y, key) ∈ C) := by
  intro C
  induction C with
  | nil =>
    intro f l hC hf
    obtain ⟨f, rfl⟩ : ∃ g, f = g + 1 := ⟨f - 1, by simp at hf; omega⟩
    cases hC
    exact ⟨none, rfl, .inl ⟨rfl, by simp⟩⟩
  | cons x C ih =>
    intro f l hC hf
    obtain ⟨f, rfl⟩ : ∃ g, f = g + 1 := ⟨f - 1, by simp at hf; omega⟩
    cases hC with
    | @cons a k v n _ e t =>
      simp only [findPair, asPair_of e, Res.ok_bind]
      by_cases hk : k = key
      · rw [if_pos hk]
        subst hk
        exact ⟨_, rfl, .inr ⟨a, rfl, by simp⟩⟩
      · rw [if_neg hk]
        obtain ⟨r, h1, h2⟩ := ih f n t (by simpa using hf)
        refine ⟨r, h1, ?_⟩
        rcases h2 with ⟨h2, h3⟩ | ⟨y, h2, h3⟩
        · exact .inl ⟨h2, by simp [Ne.symm hk]; simpa using h3⟩
        · exact .inr ⟨y, h2, by simp [h3]⟩

/-- The pair before the end of a list of pairs. -/
def lastOr (pre : Option Nat) (A : List (Nat × Key)) : Option Nat := (A.getLast?.map Prod.fst).or pre

theorem lastOr_cons (pre : Option Nat) (x : Nat × Key) (A : List (Nat × Key)) : lastOr pre (x :: A) = lastOr (some x.1) A := by
  cases A with
  | nil => rfl
  | cons y A => simp only [lastOr, List.getLast?_cons_cons, List.getLast?_cons, Option.map_some, Option.some_or, Option.getD_some]

theorem findPrev_spec (key : Key) : ∀ (C : List (Nat × Key)) (f : Nat) (pre l : Option Nat), Chain m l C → C.length < f →
    ∃ r, findPrev m key f pre l = .ok r ∧
      ((r = none ∧ key ∉ C.map Prod.snd) ∨ ∃ A y B, C = A ++ (y, key) :: B ∧ r = some (lastOr pre A, y)) := by
  intro C
  induction C with
  | nil =>
    intro f pre l hC hf
    obtain ⟨f, rfl⟩ : ∃ g, f = g + 1 := ⟨f - 1, by simp at hf; omega⟩
    cases hC
    exact ⟨none, rfl, .inl ⟨rfl, by simp⟩⟩
  | cons x C ih =>
    intro f pre l hC hf
    obtain ⟨f, rfl⟩ : ∃ g, f = g + 1 := ⟨f - 1, by simp at hf; omega⟩
    cases hC with
    | @cons a k v n _ e t =>
      simp only [findPrev, asPair_of e, Res.ok_bind]
      by_cases hk : k = key
      · rw [if_pos hk]
        subst hk
        exact ⟨_, rfl, .inr ⟨[], a, C, rfl, rfl⟩⟩
      · rw [if_neg hk]
        obtain ⟨r, h1, h2⟩ := ih f (some a) n t (by simpa using hf)
        refine ⟨r, h1, ?_⟩
        rcases h2 with ⟨h2, h3⟩ | ⟨A, y, B, h2, h3⟩
        · exact .inl ⟨h2, by simp [Ne.symm hk]; simpa using h3⟩
        · exact .inr ⟨(a, k) :: A, y, B, by rw [h2]; rfl, by rw [lastOr_cons]; exact h3⟩

theorem mem_keys {C : List (Nat × Key)} {y : Nat} {k : Key} (h : (y, k) ∈ C) : k ∈ C.map Prod.snd := List.mem_map.2 ⟨_, h, rfl⟩

theorem Chain.split {A B : List (Nat × Key)} {a : Nat} {k : Key} : ∀ {l : Option Nat}, Chain m l (A ++ (a, k) :: B) → ∃ v n, m.objs[a]? = some (.pair k v n) ∧ Chain m n B := by
  induction A with
  | nil => intro l h; cases h with | cons e t => exact ⟨_, _, e, t⟩
  | cons x A ih => intro l h; cases h with | cons e t => exact ih t

theorem Chain.head {A : List (Nat × Key)} {a : Nat} {k : Key} {l : Option Nat} (h : Chain m l ((a, k) :: A)) : l = some a := by
  cases h; rfl

/-- A chain without one of its pairs. -/
theorem Chain.unlink {c : Nat} {kc : Key} {y : Nat} {k : Key} {B : List (Nat × Key)} {vc vy : T} {n : Option Nat} (hy : m.objs[y]? = some (.pair k vy n))
    (hc : m'.objs[c]? = some (.pair kc vc n)) (hne : ∀ b, b ≠ c → m'.objs[b]? = m.objs[b]?) : ∀ {A : List (Nat × Key)} {l : Option Nat},
    Chain m l (A ++ (c, kc) :: (y, k) :: B) → ((A ++ (c, kc) :: (y, k) :: B).map Prod.snd).Nodup → Chain m' l (A ++ (c, kc) :: B) := by
  intro A
  induction A with
  | nil =>
    intro l h hn
    cases h with
    | @cons _ _ v0 _ _ e t =>
      cases t with
      | cons e2 t2 =>
        rw [hy] at e2
        cases e2
        refine .cons hc (t2.congr fun b kb vb nb hm e3 => ⟨vb, ?_⟩)
        rw [hne b ?_]; exact e3
        rintro rfl
        rw [e] at e3
        cases e3
        simp only [List.nil_append, List.map_cons, List.nodup_cons] at hn
        exact hn.1 (List.mem_cons_of_mem _ (mem_keys hm))
  | cons x A ih =>
    intro l h hn
    cases h with
    | @cons a ka va na _ e t =>
      simp only [List.cons_append, List.map_cons, List.nodup_cons] at hn
      refine .cons (v := va) ?_ (ih t hn.2)
      rw [hne a ?_]; exact e
      rintro rfl
      obtain ⟨v, n, e2, -⟩ := Chain.split t
      rw [e] at e2
      cases e2
      exact hn.1 (by simp)

/-! ## Placing -/

/-- The bit position of an entry. -/
def posOf (m : Mem T) (depth c : Nat) : Nat :=
  match m.objs[c]? with
  | some (.node _ p _) => p
  | some (.kv h _) => pos h depth
  | _ => 0

theorem EntAt.bitPosNum {q : List Nat} {p c : Nat} (h : EntAt L m (q ++ [p]) c) : bitPosNum m q.length c = .ok (bitPos p) ∧ posOf m q.length c = p := by
  rcases h with ⟨hh, l, h1, h2⟩ | ⟨bm, p', ar, h1, -, h3⟩
  · simp only [Arr.bitPosNum, h1, posOf, (OnPath.snoc.1 h2).2, bitPos, and_self]
  · rw [List.getLast?_concat] at h3
    cases h3
    simp only [Arr.bitPosNum, h1, posOf, bitPos, and_self]

theorem placeLoop_ok (depth : Nat) (bm : Hash) (skip : Bool) (P : Nat → Nat) : ∀ (es arr : List (Option Nat)),
    (∀ c, some c ∈ es → bitPosNum m depth c = .ok (bitPos (P c))) → (skip = true ∨ none ∉ es) → (∀ c, some c ∈ es → index bm (bitPos (P c)) < arr.length) →
    (∀ c c', some c ∈ es → some c' ∈ es → index bm (bitPos (P c)) = index bm (bitPos (P c')) → c = c') →
    ∃ arr', placeLoop m depth bm skip es arr = .ok arr' ∧ arr'.length = arr.length ∧ (∀ c, some c ∈ es → arr'[index bm (bitPos (P c))]? = some (some c)) ∧
      ∀ j, (∀ c, some c ∈ es → index bm (bitPos (P c)) ≠ j) → arr'[j]? = arr[j]? := by
  intro es
  induction es with
  | nil => intro arr _ _ _ _; exact ⟨arr, rfl, rfl, by simp, fun _ _ => rfl⟩
  | cons s es ih =>
    intro arr h1 h2 h3 h4
    cases s with
    | none =>
      have hs : skip = true := h2.resolve_right (by simp)
      subst hs
      obtain ⟨arr', a1, a2, a3, a4⟩ := ih arr (fun c hc => h1 c (by simp [hc])) (.inl rfl) (fun c hc => h3 c (by simp [hc]))
        (fun c c' hc hc' => h4 c c' (by simp [hc]) (by simp [hc']))
      exact ⟨arr', by simpa [placeLoop] using a1, a2, fun c hc => a3 c (by simpa using hc), fun j hj => a4 j fun c hc => hj c (by simp [hc])⟩
    | some a =>
      have hl := h3 a (by simp)
      obtain ⟨arr', a1, a2, a3, a4⟩ := ih (arr.set (index bm (bitPos (P a))) (some a)) (fun c hc => h1 c (by simp [hc]))
        (h2.imp id fun h c => h (by simp [c])) (fun c hc => by simpa using h3 c (by simp [hc]))
        (fun c c' hc hc' => h4 c c' (by simp [hc]) (by simp [hc']))
      refine ⟨arr', ?_, by simpa using a2, ?_, ?_⟩
      · simp only [placeLoop, h1 a (by simp), Res.ok_bind, Heap.setSlot, if_pos hl]
        exact a1
      · intro c hc
        rcases List.mem_cons.1 hc with h | h
        · cases h
          by_cases hm : some a ∈ es
          · exact a3 a hm
          · rw [a4]
            · simp [hl]
            · intro c' hc' e
              rw [h4 c' a (by simp [hc']) (by simp) e] at hc'
              exact hm hc'
        · exact a3 c h
      · intro j hj
        rw [a4 j fun c hc => hj c (by simp [hc])]
        exact getElem?_set_ne (hj a (by simp)) _

/-- The children of a node are where their bit positions say. -/
theorem WF.children (hw : WF H L m) {a : Nat} {bm : Hash} {p0 ar : Nat} {cs : List (Option Nat)} (ho : m.objs[a]? = some (.node bm p0 ar)) (ha : m.arrs[ar]? = some cs)
    {c : Nat} (hc : some c ∈ cs) : ∃ (i p : Nat), (bits bm)[i]? = some p ∧ cs[i]? = some (some c) ∧ EntAt L m ((L ar).1 ++ [p]) c ∧
      bitPosNum m (L ar).1.length c = .ok (bitPos (posOf m (L ar).1.length c)) ∧ posOf m (L ar).1.length c = p := by
  obtain ⟨i, p, h1, h2, h3⟩ := hw.child ha hc
  rw [(hw.node _ _ _ _ ho).1] at h1
  obtain ⟨h4, h5⟩ := h3.bitPosNum
  exact ⟨i, p, h1, h2, h3, by rw [h5]; exact h4, h5⟩

theorem index_inj {bm : Hash} {p q : Nat} (hp : p ∈ bits bm) (hq : q ∈ bits bm) (h : index bm (bitPos p) = index bm (bitPos q)) : p = q := by
  have h1 := get_index hp
  rw [h, get_index hq] at h1
  exact (Option.some.inj h1).symm

theorem bits_get_inj {bm : Hash} {i j p : Nat} (hi : (bits bm)[i]? = some p) (hj : (bits bm)[j]? = some p) : i = j := by
  rw [← index_get hi, ← index_get hj]

theorem WF.children_inj (hw : WF H L m) {a : Nat} {bm : Hash} {p0 ar : Nat} {cs : List (Option Nat)} (ho : m.objs[a]? = some (.node bm p0 ar)) (ha : m.arrs[ar]? = some cs)
    {c c' : Nat} (hc : some c ∈ cs) (hc' : some c' ∈ cs) (h : posOf m (L ar).1.length c = posOf m (L ar).1.length c') : c = c' := by
  obtain ⟨i, p, h1, h2, -, -, h3⟩ := hw.children ho ha hc
  obtain ⟨i', p', h1', h2', -, -, h3'⟩ := hw.children ho ha hc'
  rw [h3, h3'] at h
  subst h
  rw [bits_get_inj h1 h1', h2'] at h2
  cases h2
  rfl

theorem bits_or_perm {bm : Hash} {p : Nat} (hp : p < 64) (hn : p ∉ bits bm) : (bits (bm ||| bitPos p)).Perm (p :: bits bm) := by
  refine (List.perm_ext_iff_of_nodup (bits_nodup _) (List.nodup_cons.2 ⟨hn, bits_nodup _⟩)).2 fun q => ?_
  rw [mem_bits_or hp, List.mem_cons]

theorem bits_andnot_perm {bm : Hash} {p : Nat} (hp : p ∈ bits bm) : (bits bm).Perm (p :: bits (bm &&& ~~~ bitPos p)) := by
  refine (List.perm_ext_iff_of_nodup (bits_nodup _) (List.nodup_cons.2 ⟨by simp [mem_bits_andnot], bits_nodup _⟩)).2 fun q => ?_
  rw [List.mem_cons, mem_bits_andnot]
  constructor
  · intro h
    by_cases e : q = p
    · exact .inl e
    · exact .inr ⟨e, h⟩
  · rintro (rfl | ⟨-, h⟩)
    · exact hp
    · exact h

theorem not_none_mem {bm : Hash} {arr : List (Option Nat)} (hsize : (bits bm).length = arr.length)
    (h : ∀ (j q : Nat), (bits bm)[j]? = some q → ∃ c, arr[j]? = some (some c)) : none ∉ arr := by
  intro hn
  obtain ⟨j, hj⟩ := List.mem_iff_getElem?.1 hn
  have hl : j < (bits bm).length := by rw [hsize]; exact (List.getElem?_eq_some_iff.1 hj).1
  obtain ⟨c, hc⟩ := h j (bits bm)[j] (by simp [hl])
  rw [hj] at hc
  cases hc

theorem set_self {α : Type} {l : List α} {i : Nat} {x : α} (h : l[i]? = some x) : l.set i x = l := by
  apply List.ext_getElem?
  intro j
  by_cases hij : i = j
  · subst hij; rw [getElem?_set_eq h, h]
  · rw [getElem?_set_ne hij]

/-- hamt.go:97-109: an entry is added. -/
theorem addChild_spec (hw : WF H L m) {a : Nat} {bm : Hash} {p0 ar : Nat} {cs : List (Option Nat)} (ho : m.objs[a]? = some (.node bm p0 ar)) (ha : m.arrs[ar]? = some cs)
    {p c : Nat} {h : Hash} {l : Option Nat} {C : List (Nat × Key)} (hp : p < 64) (hn : p ∉ bits bm) (hc : m.objs[c]? = some (.kv h l)) (hpath : OnPath h ((L ar).1 ++ [p]))
    (hC : Chain m l C) (hF : ∀ x ∈ C, F x.1) :
    ∃ L' m', addChild m (L ar).1.length a (bm ||| bitPos p) p0 cs (bitPos p) c = .ok m' ∧ WF H L' m' ∧ Evo H K V F L m L' m' ∧
      (∀ d, d ≤ (L ar).1.length → Shallow d L m m') ∧ (∀ x ∈ C, EntHas m' a x) ∧ ∀ b, b ≠ a → m'.objs[b]? = m.objs[b]? := by
  obtain ⟨hlab, cs', hcs', hnone⟩ := hw.node _ _ _ _ ho
  rw [ha] at hcs'
  cases hcs'
  have hlen : cs.length = (bits bm).length := by rw [← (hw.arr _ _ ha).size, hlab]
  have hperm := bits_or_perm hp hn
  have hsz : (bits (bm ||| bitPos p)).length = cs.length + 1 := by rw [hperm.length_eq, hlen]; rfl
  have hpm : p ∈ bits (bm ||| bitPos p) := hperm.symm.subset (by simp)
  have hsub : ∀ {q}, q ∈ bits bm → q ∈ bits (bm ||| bitPos p) := fun h => hperm.symm.subset (by simp [h])
  have hidx : ∀ {q}, q ∈ bits (bm ||| bitPos p) → index (bm ||| bitPos p) (bitPos q) < cs.length + 1 := by
    intro q hq
    rw [← hsz]
    exact (List.getElem?_eq_some_iff.1 (get_index hq)).1
  have hch : ∀ {d}, some d ∈ cs → posOf m (L ar).1.length d ∈ bits bm := by
    intro d hd
    obtain ⟨i, q, h1, -, -, -, h2⟩ := hw.children ho ha hd
    rw [h2]; exact List.mem_of_getElem? h1
  obtain ⟨arr, a1, a2, a3, a4⟩ := placeLoop_ok (m := m) (L ar).1.length (bm ||| bitPos p) false (posOf m (L ar).1.length) cs
    ((List.replicate (cs.length + 1) none).set (index (bm ||| bitPos p) (bitPos p)) (some c))
    (fun d hd => by obtain ⟨_, _, _, _, _, h, _⟩ := hw.children ho ha hd; exact h) (.inr hnone)
    (fun d hd => by simpa using hidx (hsub (hch hd)))
    (fun d d' hd hd' e => hw.children_inj ho ha hd hd' (index_inj (hsub (hch hd)) (hsub (hch hd')) e))
  have hc' : arr[index (bm ||| bitPos p) (bitPos p)]? = some (some c) := by
    rw [a4]
    · simp [hidx hpm]
    · intro d hd e
      have := index_inj (hsub (hch hd)) hpm e
      exact hn (this ▸ hch hd)
  have hall : ∀ (j q : Nat), (bits (bm ||| bitPos p))[j]? = some q → ∃ d, arr[j]? = some (some d) ∧ ((q = p ∧ d = c) ∨ (some d ∈ cs ∧ EntAt L m ((L ar).1 ++ [q]) d)) := by
    intro j q hj
    have hq := List.mem_of_getElem? hj
    rcases List.mem_cons.1 (hperm.subset hq) with rfl | hq'
    · rw [index_get hj] at hc'
      exact ⟨c, hc', .inl ⟨rfl, rfl⟩⟩
    · obtain ⟨d, h1, -, h3⟩ := hw.slot ho ha hq'
      have hd := List.mem_of_getElem? h1
      have := a3 d hd
      rw [h3.bitPosNum.2, index_get hj] at this
      exact ⟨d, this, .inr ⟨hd, h3⟩⟩
  have hsize : (bits (bm ||| bitPos p)).length = arr.length := by rw [a2, hsz]; simp
  have hnone' : none ∉ arr := not_none_mem hsize fun j q hj => by obtain ⟨d, h, -⟩ := hall j q hj; exact ⟨d, h⟩
  have hst := setArr_step (K := K) (V := V) (F := F) (bm' := bm ||| bitPos p) (cs1 := cs) (arr := arr) hw ho ha hsize hnone'
    (by
      intro j q d hj hd
      obtain ⟨d', h1, h2⟩ := hall j q hj
      rw [hd] at h1
      cases h1
      rcases h2 with ⟨rfl, rfl⟩ | ⟨-, h2⟩
      · exact .inl ⟨h, l, hc, hpath⟩
      · exact h2)
    (fun d hd => .inl (List.mem_of_getElem? (a3 d hd)))
    (by
      intro d hd
      obtain ⟨j, hj⟩ := List.mem_iff_getElem?.1 hd
      have hl : j < (bits (bm ||| bitPos p)).length := by rw [hsize]; exact (List.getElem?_eq_some_iff.1 hj).1
      obtain ⟨d', h1, h2⟩ := hall j (bits (bm ||| bitPos p))[j] (by simp [hl])
      rw [hj] at h1
      cases h1
      rcases h2 with ⟨-, rfl⟩ | ⟨h2, -⟩
      · exact .inr ⟨h, l, C, hc, hC, hF⟩
      · exact .inl h2)
    rfl (fun j => .inl rfl)
  rw [set_self ha] at hst
  refine ⟨_, _, ?_, hst.1, hst.2.1, hst.2.2, ?_, ?_⟩
  · simp only [addChild, Heap.setSlot]
    rw [if_pos (by simpa using hidx hpm)]
    simp only [Res.ok_bind, a1]
  · intro x hx
    have hca : c ≠ a := by rintro rfl; rw [ho] at hc; cases hc
    refine .node (getElem?_set_eq ho _) (cs := arr) (by simp) (List.mem_of_getElem? hc') (.kv (h := h) (l := l) (C := C) ?_ (hC.congr ?_) hx)
    · exact (getElem?_set_ne hca.symm _).trans hc
    · intro b k v n _ e
      refine ⟨v, (getElem?_set_ne ?_ _).trans e⟩
      rintro rfl; rw [ho] at e; cases e
  · exact fun b hb => getElem?_set_ne hb.symm _

/-- hamt.go:213-224: an entry below which there is nothing is removed. -/
theorem dropChild_spec (hw : WF H L m) {a : Nat} {bm : Hash} {p0 ar : Nat} {cs : List (Option Nat)} (ho : m.objs[a]? = some (.node bm p0 ar)) (ha : m.arrs[ar]? = some cs)
    {p e : Nat} {k : Key} (hp : p ∈ bits bm) (he : cs[index bm (bitPos p)]? = some (some e)) (hempty : ∀ x, ¬ EntHas m e x) (hk : K k)
    (hpath : OnPath (H k) ((L ar).1 ++ [p])) :
    ∃ L' m', dropChild m (L ar).1.length a (bm &&& ~~~ bitPos p) p0 ar (index bm (bitPos p)) = .ok m' ∧ WF H L' m' ∧ Evo H K V F L m L' m' ∧
      ∀ d, d ≤ (L ar).1.length → Shallow d L m m' := by
  obtain ⟨hlab, cs', hcs', hnone⟩ := hw.node _ _ _ _ ho
  rw [ha] at hcs'
  cases hcs'
  have hlen : cs.length = (bits bm).length := by rw [← (hw.arr _ _ ha).size, hlab]
  have hperm := bits_andnot_perm hp
  have hsz : (bits (bm &&& ~~~ bitPos p)).length = cs.length - 1 := by have := hperm.length_eq; simp at this; omega
  have hidx : ∀ {q}, q ∈ bits (bm &&& ~~~ bitPos p) → index (bm &&& ~~~ bitPos p) (bitPos q) < cs.length - 1 := by
    intro q hq
    rw [← hsz]
    exact (List.getElem?_eq_some_iff.1 (get_index hq)).1
  have hil := (List.getElem?_eq_some_iff.1 he).1
  have hip := get_index hp
  -- the entries that stay
  have hst : ∀ {d}, some d ∈ cs.set (index bm (bitPos p)) none → some d ∈ cs ∧ d ≠ e ∧ posOf m (L ar).1.length d ∈ bits (bm &&& ~~~ bitPos p) := by
    intro d hd
    obtain ⟨j, hj⟩ := List.mem_iff_getElem?.1 hd
    have hij : index bm (bitPos p) ≠ j := by
      rintro rfl
      rw [getElem?_set_eq he] at hj
      cases hj
    rw [getElem?_set_ne hij] at hj
    have hd := List.mem_of_getElem? hj
    obtain ⟨i, q, h1, h2, h3, -, h4⟩ := hw.children ho ha hd
    have hle : j < (bits bm).length := by rw [← hlen]; exact (List.getElem?_eq_some_iff.1 hj).1
    have hent := (hw.arr _ _ ha).ent j (bits bm)[j] d (by rw [hlab]; simp [hle]) hj
    have hq := hent.bitPosNum.2
    have hjq : (bits bm)[j]? = some (bits bm)[j] := by simp [hle]
    rw [hq.symm] at hjq
    have hne : posOf m (L ar).1.length d ≠ p := by
      intro c
      rw [c] at hjq
      exact hij (bits_get_inj hip hjq)
    refine ⟨hd, ?_, mem_bits_andnot.2 ⟨hne, List.mem_of_getElem? hjq⟩⟩
    rintro rfl
    obtain ⟨e', h5, -, h6⟩ := hw.slot ho ha hp
    rw [he] at h5
    cases h5
    exact hne h6.bitPosNum.2
  have hst' : ∀ {d}, some d ∈ cs → d ≠ e → some d ∈ cs.set (index bm (bitPos p)) none := by
    intro d hd hne
    obtain ⟨j, hj⟩ := List.mem_iff_getElem?.1 hd
    have hij : index bm (bitPos p) ≠ j := by
      rintro rfl
      rw [he] at hj
      cases hj
      exact hne rfl
    exact List.mem_of_getElem? ((getElem?_set_ne hij _).trans hj)
  have hbit : ∀ {m1 : Mem T}, m1.objs = m.objs → ∀ d, bitPosNum m1 (L ar).1.length d = bitPosNum m (L ar).1.length d := by
    intro m1 h d
    simp only [bitPosNum, h]
  obtain ⟨arr, a1, a2, a3, -⟩ := placeLoop_ok (m := { m with arrs := m.arrs.set ar (cs.set (index bm (bitPos p)) none) }) (L ar).1.length (bm &&& ~~~ bitPos p) true
    (posOf m (L ar).1.length) (cs.set (index bm (bitPos p)) none) (List.replicate (cs.length - 1) none)
    (fun d hd => by
      obtain ⟨_, _, _, _, _, h, _⟩ := hw.children ho ha (hst hd).1
      exact (hbit rfl d).trans h) (.inl rfl)
    (fun d hd => by simpa using hidx (hst hd).2.2)
    (fun d d' hd hd' c => hw.children_inj ho ha (hst hd).1 (hst hd').1 (index_inj (hst hd).2.2 (hst hd').2.2 c))
  have hall : ∀ (j q : Nat), (bits (bm &&& ~~~ bitPos p))[j]? = some q → ∃ d, arr[j]? = some (some d) ∧ some d ∈ cs ∧ EntAt L m ((L ar).1 ++ [q]) d := by
    intro j q hj
    have hq := List.mem_of_getElem? hj
    obtain ⟨hqp, hqb⟩ := mem_bits_andnot.1 hq
    obtain ⟨d, h1, -, h3⟩ := hw.slot ho ha hqb
    have hd := List.mem_of_getElem? h1
    have hne : d ≠ e := by
      rintro rfl
      obtain ⟨e', h5, -, h6⟩ := hw.slot ho ha hp
      rw [he] at h5
      cases h5
      exact hqp (h3.bitPosNum.2.symm.trans h6.bitPosNum.2)
    have := a3 d (hst' hd hne)
    rw [h3.bitPosNum.2, index_get hj] at this
    exact ⟨d, this, hd, h3⟩
  have hsize : (bits (bm &&& ~~~ bitPos p)).length = arr.length := by rw [a2, hsz]; simp
  have hnone' : none ∉ arr := not_none_mem hsize fun j q hj => by obtain ⟨d, h, -⟩ := hall j q hj; exact ⟨d, h⟩
  have hfin := setArr_step (K := K) (V := V) (F := F) (bm' := bm &&& ~~~ bitPos p) (cs1 := cs.set (index bm (bitPos p)) none) (arr := arr) hw ho ha hsize hnone'
    (by
      intro j q d hj hd
      obtain ⟨d', h1, -, h2⟩ := hall j q hj
      rw [hd] at h1
      cases h1
      exact h2)
    (by
      intro d hd
      by_cases hde : d = e
      · subst hde; exact .inr hempty
      · exact .inl (List.mem_of_getElem? (a3 d (hst' hd hde))))
    (by
      intro d hd
      obtain ⟨j, hj⟩ := List.mem_iff_getElem?.1 hd
      have hl : j < (bits (bm &&& ~~~ bitPos p)).length := by rw [hsize]; exact (List.getElem?_eq_some_iff.1 hj).1
      obtain ⟨d', h1, h2, -⟩ := hall j (bits (bm &&& ~~~ bitPos p))[j] (by simp [hl])
      rw [hj] at h1
      cases h1
      exact .inl h2)
    (by simp)
    (by
      intro j
      by_cases hij : index bm (bitPos p) = j
      · subst hij
        refine .inr ⟨getElem?_set_eq he _, k, hk, fun q hq => ?_⟩
        rw [hlab, hip] at hq
        cases hq
        exact hpath
      · exact .inl (getElem?_set_ne hij _))
  refine ⟨_, _, ?_, hfin⟩
  simp only [dropChild, write, ha, Res.ofOption_some, Res.ok_bind, if_pos hil, getElem?_set_eq ha, List.length_set, a1]

end GoSTL.Hamt.Arr
