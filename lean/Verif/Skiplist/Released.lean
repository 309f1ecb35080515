import Verif.Skiplist.Props
import Verif.Basic.Reach
/-!
# C93 for skip lists: a skip list keeps alive exactly the elements it holds

Here `prevNodesCache` matters, which the model of the calls treats as a local variable: it keeps pointers to nodes from one call to the next.
-/
namespace GoSTL.Skiplist
variable {K V : Type} {cmp : K → K → Int}

/-- What a call leaves in `prevNodesCache`: `Insert` and `Remove` fill it (skiplist.go:89, 142, 178-193), the other calls do not touch it. -/
def cacheStep (cmp : K → K → Int) (op : Op K V) (w : SL K V) (cache : List Ref) : Res (List Ref) :=
  match op with
  | .insert k _ _ => findPrevs cmp w k w.maxLevel .head []
  | .remove k => findPrevs cmp w k w.maxLevel .head []
  | .get _ => .ok cache
  | .len => .ok cache

/-- A history of calls, with the cache; nil pointers in the cache are left out. -/
def runCache (cmp : K → K → Int) : List (Op K V) → SL K V → List Ref → Res (SL K V × List Ref)
  | [], w, cache => .ok (w, cache)
  | op :: ops, w, cache => do
    let cache' ← cacheStep cmp op w cache
    let (_, w') ← step cmp op w
    runCache cmp ops w' cache'

/-- The objects on the heap: the skip list and the elements. -/
inductive Obj
  | list
  | elem (a : Nat)

/-- The pointers between them: skiplist.go:43-45 (`next` of the head and of the elements), 60 (`prevNodesCache`). -/
def Points (w : SL K V) (cache : List Ref) : Obj → Obj → Prop
  | .list, .elem a => some a ∈ w.head ∨ Ref.elem a ∈ cache
  | .elem a, .elem b => ∃ e, w.elems[a]? = some e ∧ some b ∈ e.next
  | _, .list => False

/-- The cache holds elements of the list. -/
def CacheOk (G : List (Cell K V)) (cache : List Ref) : Prop := ∀ a, Ref.elem a ∈ cache → a ∈ G.map Cell.id

theorem prevsOf_mem {n : Nat} {A : List (Cell K V)} {a : Nat} (h : Ref.elem a ∈ prevsOf n A) : a ∈ A.map Cell.id := by
  obtain ⟨i, -, e⟩ := List.mem_map.1 h
  rcases lastRef_mem .head (lvl i A) with ⟨-, h2⟩ | ⟨c, hc, h2⟩
  · rw [h2] at e; cases e
  · rw [h2] at e; cases e
    exact List.mem_map.2 ⟨c, (mem_lvl hc).1, rfl⟩

theorem firstOr_mem {L : List (Cell K V)} {b : Nat} (h : firstOr none L = some b) : b ∈ L.map Cell.id := by
  cases L with
  | nil => cases h
  | cons c L => cases h; simp

/-- The elements of the list are alive, and nothing else. -/
theorem Inv.alive {w : SL K V} {G : List (Cell K V)} (hi : Inv cmp w G) {cache : List Ref} (hk : CacheOk G cache) (a : Nat) :
    Alive (Points w cache) .list (.elem a) ↔ a ∈ G.map Cell.id := by
  constructor
  · intro ha
    have : (fun o : Obj => match o with | .list => True | .elem n => n ∈ G.map Cell.id) (.elem a) := by
      refine Alive.closed (P := fun o : Obj => match o with | .list => True | .elem n => n ∈ G.map Cell.id) trivial ?_ ha
      intro x y hx hp
      cases y with
      | list => cases x <;> exact hp.elim
      | elem b =>
        cases x with
        | list =>
          rcases hp with hp | hp
          · obtain ⟨i, hlt, e⟩ := List.getElem_of_mem hp
            have hs := (hi.seg i (by rw [← hi.headLen]; exact hlt)).first
            simp only [nextAt, List.getElem?_eq_getElem hlt, Res.ofOption_some, Res.ok.injEq, e] at hs
            obtain ⟨c, hc, rfl⟩ := List.mem_map.1 (firstOr_mem hs.symm)
            exact List.mem_map.2 ⟨c, (mem_lvl hc).1, rfl⟩
          · exact hk _ hp
        | elem x =>
          obtain ⟨c, hc, rfl⟩ := List.mem_map.1 hx
          obtain ⟨e, e1, hb⟩ := hp
          obtain ⟨e', f1, -, -, f2⟩ := (hi.stored c hc).elem
          rw [e1] at f1; cases f1
          obtain ⟨i, hlt, eb⟩ := List.getElem_of_mem hb
          have hl : c ∈ lvl i G := List.mem_filter.2 ⟨hc, by simp; omega⟩
          obtain ⟨P, Q, eq⟩ := List.append_of_mem hl
          have hs := hi.seg i (by have := (hi.height c hc).2; omega)
          rw [eq] at hs
          have hs := (Sg.append.1 hs).2.2.first
          simp only [nextAt, e1, Res.ofOption_some, Res.ok_bind, List.getElem?_eq_getElem hlt, Res.ok.injEq, eb] at hs
          obtain ⟨d, hd, rfl⟩ := List.mem_map.1 (firstOr_mem hs.symm)
          refine List.mem_map.2 ⟨d, (mem_lvl (i := i) ?_).1, rfl⟩
          rw [eq]; simp [hd]
    exact this
  · intro ha
    have h0 : lvl 0 G = G := List.filter_eq_self.2 fun c hc => by have := (hi.height c hc).1; simp; omega
    have hs := hi.seg 0 hi.max1
    rw [h0] at hs
    have key : ∀ (r : Ref) (L : List (Cell K V)), Sg w 0 r L none → (∀ b, nextAt w r 0 = .ok (some b) → Alive (Points w cache) .list (.elem b)) →
        ∀ c ∈ L, Alive (Points w cache) .list (.elem c.id) := by
      intro r L
      induction L generalizing r with
      | nil => intro _ _ c hc; cases hc
      | cons d L ih =>
        intro hs hr c hc
        have hd := hr _ hs.1
        rcases List.mem_cons.1 hc with rfl | hc
        · exact hd
        · refine ih _ hs.2 (fun b hb => .step hd ?_) c hc
          simp only [nextAt] at hb
          cases e : w.elems[d.id]? with
          | none => rw [e] at hb; cases hb
          | some el =>
            rw [e] at hb
            simp only [Res.ofOption_some, Res.ok_bind] at hb
            cases e2 : el.next[0]? with
            | none => rw [e2] at hb; cases hb
            | some o =>
              rw [e2] at hb; cases hb
              exact ⟨el, e, List.mem_of_getElem? e2⟩
    obtain ⟨c, hc, rfl⟩ := List.mem_map.1 ha
    refine key _ G hs (fun b hb => ?_) c hc
    refine .step .root (.inl ?_)
    simp only [nextAt] at hb
    cases e2 : w.head[0]? with
    | none => rw [e2] at hb; cases hb
    | some o => rw [e2] at hb; cases hb; exact List.mem_of_getElem? e2

/-- One call keeps the cache good. -/
theorem cache_step (hc : LawfulCmp cmp) {w : SL K V} {G : List (Cell K V)} (hi : Inv cmp w G) {cache : List Ref} (hk : CacheOk G cache) (op : Op K V) :
    ∃ cache' w' G', cacheStep cmp op w cache = .ok cache' ∧ (∃ o, step cmp op w = .ok (o, w')) ∧ Inv cmp w' G' ∧ CacheOk G' cache' := by
  cases op with
  | get k =>
    obtain ⟨A, B, -, -, -, -, e⟩ := get_spec hc hi k
    exact ⟨cache, w, G, rfl, ⟨_, by simp only [step, e, Res.ok_bind]; rfl⟩, hi, hk⟩
  | len => exact ⟨cache, w, G, rfl, ⟨_, rfl⟩, hi, hk⟩
  | insert k v d =>
    rcases hi.cases hc k with ⟨A, b, B, rfl, hA, hb, hB⟩ | ⟨A, B, rfl, hA, hB⟩
    · have e := findPrevs_all hi rfl hA (by intro c hc'; rcases List.mem_cons.1 hc' with rfl | h; omega; exact Int.le_of_lt (hB c h))
      obtain ⟨w', e1, h1⟩ := insert_present hi v d hA hb hB
      refine ⟨_, w', _, e, ⟨.unit, by simp only [step, e1, Res.ok_bind]⟩, h1, fun a ha => ?_⟩
      have := prevsOf_mem ha
      rw [List.map_append]
      exact List.mem_append_left _ this
    · have e := findPrevs_all hi rfl hA (fun c h => Int.le_of_lt (hB c h))
      obtain ⟨w', ce, e1, -, -, -, h1⟩ := insert_absent hc hi v d hA hB
      refine ⟨_, w', _, e, ⟨.unit, by simp only [step, e1, Res.ok_bind]⟩, h1, fun a ha => ?_⟩
      have := prevsOf_mem ha
      rw [List.map_append]
      exact List.mem_append_left _ this
  | remove k =>
    rcases hi.cases hc k with ⟨A, b, B, rfl, hA, hb, hB⟩ | ⟨A, B, rfl, hA, hB⟩
    · have e := findPrevs_all hi rfl hA (by intro c hc'; rcases List.mem_cons.1 hc' with rfl | h; omega; exact Int.le_of_lt (hB c h))
      obtain ⟨w', e1, h1⟩ := remove_present hi hA hb hB
      refine ⟨_, w', _, e, ⟨.bool true, by simp only [step, e1, Res.ok_bind]⟩, h1, fun a ha => ?_⟩
      have := prevsOf_mem ha
      rw [List.map_append]
      exact List.mem_append_left _ this
    · have e := findPrevs_all hi rfl hA (fun c h => Int.le_of_lt (hB c h))
      have e1 := remove_absent hi hA hB
      refine ⟨_, w, _, e, ⟨.bool false, by simp only [step, e1, Res.ok_bind]⟩, hi, fun a ha => ?_⟩
      have := prevsOf_mem ha
      rw [List.map_append]
      exact List.mem_append_left _ this

theorem runCache_inv (hc : LawfulCmp cmp) : ∀ (ops : List (Op K V)) {w : SL K V} {G : List (Cell K V)} {cache : List Ref}, Inv cmp w G → CacheOk G cache →
    ∃ w' cache' G', runCache cmp ops w cache = .ok (w', cache') ∧ (∃ os, run cmp ops w = .ok (os, w')) ∧ Inv cmp w' G' ∧ CacheOk G' cache' := by
  intro ops
  induction ops with
  | nil => intro w G cache hi hk; exact ⟨w, cache, G, rfl, ⟨_, rfl⟩, hi, hk⟩
  | cons op ops ih =>
    intro w G cache hi hk
    obtain ⟨cache1, w1, G1, e1, ⟨o, e2⟩, hi1, hk1⟩ := cache_step hc hi hk op
    obtain ⟨w', cache', G', e3, ⟨os, e4⟩, hi', hk'⟩ := ih hi1 hk1
    exact ⟨w', cache', G', by simp only [runCache, e1, e2, Res.ok_bind, e3], ⟨o :: os, by simp only [run, e2, e4, Res.ok_bind]⟩, hi', hk'⟩

/-- **C93**, skip lists: after any history, the elements the skip list keeps alive (through `prevNodesCache`, too) are those `Traversal` shows, one for each pair,
and nothing else. -/
theorem C93_skiplist (hc : LawfulCmp cmp) (n : Nat) (h1 : 1 ≤ n) (h2 : n ≤ 64) (ops : List (Op K V)) (w0 : SL K V) (hn : New n = .ok w0) :
    ∃ w cache, runCache cmp ops w0 [] = .ok (w, cache) ∧ (∃ os, run cmp ops w0 = .ok (os, w)) ∧
      ∃ es : List (Nat × K × V), (∀ (σ : Type) (visit : σ → K → V → σ × Bool) (s : σ), Traversal visit w s = .ok (visitAll visit (es.map (·.2)) s)) ∧
        (es.map (·.1)).Nodup ∧ (∀ a, Alive (Points w cache) .list (.elem a) ↔ a ∈ es.map (·.1)) ∧
        ∀ x ∈ es, ∃ e, w.elems[x.1]? = some e ∧ e.key = x.2.1 ∧ e.value = x.2.2 := by
  obtain ⟨w0', e0, G0, hi0, hp0⟩ := agree_new (K := K) (V := V) (cmp := cmp) h1 h2
  rw [e0] at hn; cases hn
  obtain ⟨w, cache, G, e1, e2, hi, hk⟩ := runCache_inv hc ops hi0 (cache := []) (by intro a ha; cases ha)
  obtain ⟨L, hp, hs, -, ht⟩ := traversal_agree (m := G.map Cell.kv) ⟨G, hi, .refl _⟩
  have hL : L = G.map Cell.kv := hp.eq_of_pairwise
    (fun a b _ _ ha hb => by have := (hc.swap a.1 b.1).1 ha; omega) hs (List.pairwise_map.2 hi.sorted)
  refine ⟨w, cache, e1, e2, G.map fun c => (c.id, c.key, c.val), ?_, ?_, ?_, ?_⟩
  · intro σ visit s
    rw [ht, hL, List.map_map]; rfl
  · rw [List.map_map]; exact hi.ids
  · intro a
    rw [hi.alive hk, List.map_map]; rfl
  · intro x hx
    obtain ⟨c, hc', rfl⟩ := List.mem_map.1 hx
    obtain ⟨e, f1, f2, f3, -⟩ := (hi.stored c hc').elem
    exact ⟨e, f1, f2, f3⟩

/-- Three pairs were inserted and one removed: two elements are alive; the removed one (number 2) is not, although the cache was used to remove it. -/
example : ∃ (w0 w : SL Int Int) (cache : List Ref), New 3 = .ok w0 ∧ runCache (fun a b : Int => a - b) demoOps w0 [] = .ok (w, cache) ∧
    ¬ Alive (Points w cache) .list (.elem 2) ∧ Alive (Points w cache) .list (.elem 0) := by
  have h0 : ∃ (w0 w : SL Int Int) (cache : List Ref), New 3 = .ok w0 ∧ runCache (fun a b : Int => a - b) demoOps w0 [] = .ok (w, cache) ∧
      Traversal (fun s k v => (s ++ [(k, v)], true)) w [] = .ok [(1, 11), (5, 50)] ∧ w.head[2]? = some (some 0) ∧
      (w.elems[2]?.map fun e => (e.key, e.value)) = some (3, 30) := ⟨_, _, _, rfl, rfl, rfl, rfl, rfl⟩
  obtain ⟨w0, w, cache, e0, e1, e2, e3, e4⟩ := h0
  obtain ⟨w', cache', f1, -, es, ht, hn, ha, hv⟩ := C93_skiplist subCmp_lawful 3 (by decide) (by decide) demoOps w0 e0
  rw [e1] at f1; cases f1
  have hl : ∀ (l acc : List (Int × Int)), visitAll (fun s k v => (s ++ [(k, v)], true)) l acc = acc ++ l := by
    intro l
    induction l with
    | nil => intro acc; simp [visitAll]
    | cons x l ih => intro acc; simp [visitAll, ih]
  rw [ht, hl, List.nil_append] at e2
  have e2 := Res.ok.inj e2
  have hx : ∀ x ∈ es, x.2 = (1, 11) ∨ x.2 = (5, 50) := by
    intro x hx
    have : x.2 ∈ es.map (·.2) := List.mem_map.2 ⟨x, hx, rfl⟩
    rw [e2] at this
    simpa using this
  refine ⟨w0, w, cache, e0, e1, ?_, ?_⟩
  · rw [ha]
    intro hm
    obtain ⟨x, hx1, hx2⟩ := List.mem_map.1 hm
    obtain ⟨e, g1, g2, g3⟩ := hv x hx1
    rw [hx2] at g1
    rw [g1] at e4
    simp only [Option.map_some, Option.some.injEq, Prod.mk.injEq] at e4
    rcases hx x hx1 with h | h <;> rw [h] at g2 <;> simp at g2 <;> omega
  · exact .step .root (.inl (List.mem_of_getElem? e3))

end GoSTL.Skiplist
