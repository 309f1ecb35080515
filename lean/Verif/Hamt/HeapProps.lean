import Verif.Hamt.HeapErase
import Verif.Hamt.Props
import Verif.Basic.Reach
import Mathlib.Data.List.Nodup
/-!
# The hash trie with pointers: C47, C48, C49 and C93
-/
namespace GoSTL.Hamt.Heap
open GoSTL.Store
variable {T : Type} {σ : Type}

/-! ## Traversal -/

theorem visitPairs_agree (visit : σ → Key → T → σ × Bool) (m : Mem T) : ∀ (l : List (Nat × Key × T)) (f : Nat) (s : σ), l.length < f →
    (∀ x ∈ seg l none, m[x.1]? = some x.2) → visitPairs visit m f (hd l none) s = .ok (visitKvs visit (plain l) s) := by
  intro l
  induction l with
  | nil =>
    intro f s hf _
    obtain ⟨f, rfl⟩ : ∃ f', f = f' + 1 := ⟨f - 1, by simp at hf; omega⟩
    rfl
  | cons x l ih =>
    obtain ⟨a, k, v⟩ := x
    intro f s hf ho
    obtain ⟨f, rfl⟩ : ∃ f', f = f' + 1 := ⟨f - 1, by simp at hf; omega⟩
    have h1 : m[a]? = some (.pair k v (hd l none)) := ho (a, _) (by simp [seg])
    have := fun s => ih f s (by simpa using hf) (fun y hy => ho y (by simp [seg, hy]))
    simp only [hd_cons, visitPairs, asPair_of h1, Res.ok_bind, plain, List.map_cons, visitKvs]
    rcases visit s k v with ⟨s', _ | _⟩
    · rfl
    · exact this s'

theorem Owns.child {m : Mem T} {cs : List (D T)} (h : Owns m (cs.flatMap objs)) {d : D T} (hd : d ∈ cs) : Owns m (objs d) := by
  obtain ⟨A, B, rfl⟩ := List.append_of_mem hd
  rw [List.flatMap_append, List.flatMap_cons] at h
  exact h.right.left

theorem traversal_heap (visit : σ → Key → T → σ × Bool) (m : Mem T) : ∀ (f a : Nat) (bm : Hash) (p : Nat) (cs : List (D T)) (s r : σ),
    Owns m (objs (.node a bm p cs)) → Hamt.traversal visit f (cs.map strip) s = .ok r → traversal visit m f a s = .ok r := by
  intro f
  induction f with
  | zero => intro a bm p cs s r _ hv; cases hv
  | succ f ih =>
    intro a bm p cs s r ho hv
    have hnode := Owns.nodeHead (R := []) (by simpa using ho)
    simp only [Hamt.traversal] at hv
    simp only [traversal, asNode_of hnode, Res.ok_bind]
    rw [objs_node] at ho
    replace ho : Owns m (cs.flatMap objs) := Owns.right (S := [_]) ho
    clear hnode
    induction cs generalizing s with
    | nil => exact hv
    | cons d cs ihc =>
      rw [List.flatMap_cons] at ho
      cases d with
      | kv e h l =>
        have he := Owns.kvHead ho
        have hseg : Owns m (seg l none) := by
          have h1 := ho.left
          rw [objs_kv] at h1
          exact Owns.right (S := [(e, Obj.kv h (hd l none))]) h1
        have hlen := Owns.seg_lt hseg
        simp only [List.map_cons, strip_kv, Hamt.travLoop] at hv
        simp only [List.map_cons, addr_kv, travLoop, he, visitPairs_agree visit m l (budget m) s (by unfold budget; omega) hseg.1, Res.ok_bind]
        revert hv
        rcases visitKvs visit (plain l) s with ⟨s', _ | _⟩
        · exact fun hv => hv
        · exact fun hv => ihc s' hv ho.right
      | node e bm' p' ds =>
        have he := Owns.nodeHead ho
        simp only [List.map_cons, strip_node, Hamt.travLoop] at hv
        rw [Res.bind_eq_ok] at hv
        obtain ⟨s', h1, hv⟩ := hv
        simp only [List.map_cons, addr_node, travLoop, he, ih e bm' p' ds s s' ho.left h1, Res.ok_bind]
        exact ihc s' hv ho.right

/-! ## Histories -/

/-- The heap holds the trie `h`; the root is the object 0. -/
def Rep (m : Mem T) (h : Node T) : Prop := ∃ cs : List (D T), h.children = cs.map strip ∧ Owns m (objs (.node 0 h.bitmap 0 cs))

theorem rep_new : Rep (new : Mem T) Hamt.new := by
  refine ⟨[], rfl, ?_⟩
  rw [objs_node]
  exact ⟨by intro x hx; simp at hx; subst hx; rfl, by simp⟩

theorem step_rep {hashOf : Key → Hash} {m : Mem T} {h h' : Node T} {op : Op T} {o : Out T} (hr : Rep m h) (e : Hamt.step hashOf op h = .ok (o, h')) :
    ∃ m', step hashOf op m = .ok (o, m') ∧ Rep m' h' := by
  obtain ⟨cs, h1, ho⟩ := hr
  obtain ⟨bm, ch⟩ := h
  simp only at h1 ho
  subst h1
  cases op with
  | insert k v =>
    simp only [Hamt.step, Hamt.Insert] at e
    rw [Res.bind_eq_ok] at e
    obtain ⟨n', e1, e⟩ := e
    obtain ⟨rfl, rfl⟩ : Out.unit = o ∧ n' = h' := by injection e with e; injection e with e1 e2; exact ⟨e1, e2⟩
    have s0 := Step.allocIn ho (.pair k v none)
    have s1 := s0.perm (.refl _) (T' := objs (.node 0 bm 0 cs) ++ seg [(m.length, k, v)] none) (by
      simp only [seg, hd]; exact List.perm_append_comm (l₁ := [_]))
    obtain ⟨m', cs', e2, e3, s2⟩ := insert_agree levels 0 0 bm 0 cs [(m.length, k, v)] (hashOf k) _ n' s1.owns (.inl ⟨_, rfl⟩) e1
    refine ⟨m', ?_, cs', e3, s2.owns⟩
    simp only [step, Insert]
    rw [hd_cons] at e2
    rw [e2]; rfl
  | get k =>
    simp only [Hamt.step, Hamt.Get] at e
    rw [Res.bind_eq_ok] at e
    obtain ⟨v, e1, e⟩ := e
    cases e
    refine ⟨m, ?_, cs, rfl, ho⟩
    simp only [step, Get, find_agree _ _ _ _ _ _ _ _ _ _ ho e1, Res.ok_bind]
  | erase k =>
    simp only [Hamt.step, Hamt.Erase] at e
    rw [Res.bind_eq_ok] at e
    obtain ⟨⟨b, n'⟩, e1, e⟩ := e
    cases e
    obtain ⟨m', cs', e2, e3, s2⟩ := erase_agree _ _ _ _ _ _ _ _ _ _ _ ho e1
    refine ⟨m', ?_, cs', e3, s2.owns⟩
    simp only [step, Erase, e2, Res.ok_bind]

theorem run_rep {hashOf : Key → Hash} : ∀ (ops : List (Op T)) {m : Mem T} {h h' : Node T} {os : List (Out T)}, Rep m h →
    Hamt.run hashOf ops h = .ok (os, h') → ∃ m', run hashOf ops m = .ok (os, m') ∧ Rep m' h' := by
  intro ops
  induction ops with
  | nil => intro m h h' os hr e; cases e; exact ⟨m, rfl, hr⟩
  | cons op ops ih =>
    intro m h h' os hr e
    simp only [Hamt.run] at e
    rw [Res.bind_eq_ok] at e; obtain ⟨⟨o, h1⟩, e1, e⟩ := e
    rw [Res.bind_eq_ok] at e; obtain ⟨⟨os', h2⟩, e2, e⟩ := e
    cases e
    obtain ⟨m1, s1, r1⟩ := step_rep hr e1
    obtain ⟨m2, s2, r2⟩ := ih r1 e2
    exact ⟨m2, by simp only [run, s1, Res.ok_bind, s2], r2⟩

/-- Every history of the heap model runs and holds what the value model holds. -/
theorem reach_rep (hashOf : Key → Hash) (ops : List (Op T)) : ∃ (m : Mem T) (h : Node T), run hashOf ops new = .ok ((specRun ops emptyMap).1, m) ∧ Rep m h ∧
    Hamt.run hashOf ops Hamt.new = .ok ((specRun ops emptyMap).1, h) ∧ Agree hashOf h (specRun ops emptyMap).2 := by
  obtain ⟨h, e, ha⟩ := run_agree ops (agree_new (T := T) hashOf)
  obtain ⟨m, e1, hr⟩ := run_rep ops rep_new e
  exact ⟨m, h, e1, hr, e, ha⟩

/-- **C47**, pointers included: for every hash function and every history the calls answer like a finite map; nothing panics and no loop along a chain or down the levels
runs on. -/
theorem C47_hamt_heap (hashOf : Key → Hash) (ops : List (Op T)) : ∃ m, run hashOf ops (new : Mem T) = .ok ((specRun ops emptyMap).1, m) :=
  let ⟨m, _, e, _⟩ := reach_rep hashOf ops
  ⟨m, e⟩

theorem traversal_rep {m : Mem T} {h : Node T} (hr : Rep m h) {visit : σ → Key → T → σ × Bool} {s r : σ} (e : Hamt.Traversal visit h s = .ok r) :
    Traversal visit m s = .ok r := by
  obtain ⟨cs, h1, ho⟩ := hr
  simp only [Hamt.Traversal, h1] at e
  exact traversal_heap visit m _ _ _ _ _ _ _ ho e

/-- **C48**, **C49**, pointers included: after every history a traversal with a visitor that never stops shows every entry of the map once; with other visitors it
shows what the value model shows. -/
theorem C48_traversal_heap (hashOf : Key → Hash) (ops : List (Op T)) (m : Mem T) (os : List (Out T)) (hr : run hashOf ops (new : Mem T) = .ok (os, m)) :
    ∃ L : List (Key × T), (L.map Prod.fst).Nodup ∧ (∀ k v, (k, v) ∈ L ↔ (specRun ops emptyMap).2 k = some v) ∧
      (∀ (σ : Type) (visit : σ → Key → T → σ × Bool) (s : σ), (∀ s k v, (visit s k v).2 = true) →
        Traversal visit m s = .ok (L.foldl (fun s x => (visit s x.1 x.2).1) s)) ∧
      (∀ (σ : Type) (visit : σ → Key → T → σ × Bool) (s : σ), ∃ V, Traversal visit m s = .ok (visits visit s V) ∧ Visited visit s L V) ∧
      Keys m = .ok (L.map Prod.fst) := by
  obtain ⟨m', h, e, hrep, e', ha⟩ := reach_rep hashOf ops
  rw [e] at hr; cases hr
  obtain ⟨w, hm⟩ := ha
  obtain ⟨f1, f2⟩ := flatL_has w
  have hall : ∀ (σ : Type) (visit : σ → Key → T → σ × Bool) (s : σ), ∃ V, Traversal visit m s = .ok (visits visit s V) ∧ Visited visit s (flatL h.children) V := by
    intro σ visit s
    obtain ⟨V, e1, e2⟩ := traversal_spec visit levels [] h.children s (by simp) w.sub (by simp [levels])
    exact ⟨V, traversal_rep hrep e1, e2⟩
  have hgo : ∀ (σ : Type) (visit : σ → Key → T → σ × Bool) (s : σ), (∀ s k v, (visit s k v).2 = true) →
      Traversal visit m s = .ok ((flatL h.children).foldl (fun s x => (visit s x.1 x.2).1) s) := by
    intro σ visit s hv
    obtain ⟨V, e1, e2⟩ := hall σ visit s
    rw [e1]
    cases e2 with
    | all e _ => rw [e]; rfl
    | stopped A B V' x _ _ h3 _ _ => rw [hv] at h3; cases h3
  refine ⟨flatL h.children, f2, fun k v => by rw [f1, hm], hgo, hall, ?_⟩
  rw [Keys, hgo _ _ _ (by intros; rfl)]
  have : ∀ (L : List (Key × T)) (s : List Key), L.foldl (fun s x => s ++ [x.1]) s = s ++ L.map Prod.fst := by
    intro L
    induction L with
    | nil => simp
    | cons x L ih => intro s; simp [ih]
  rw [this]; rfl

/-! ## What the trie keeps alive -/

/-- The pointers in an object. -/
def succs : Obj T → List Nat
  | .node _ _ cs => cs.filterMap id
  | .kv _ l => l.toList
  | .pair _ _ n => n.toList

theorem points_iff {m : Mem T} {a b : Nat} : Points m a b ↔ ∃ o, m[a]? = some o ∧ b ∈ succs o := by
  unfold Points
  cases h : m[a]? with
  | none => simp
  | some o => cases o <;> simp [succs]

theorem hd_mem {l : List (Nat × Key × T)} {b : Nat} (h : hd l none = some b) : b ∈ (seg l none).map Prod.fst := by
  cases l with
  | nil => cases h
  | cons x l => obtain ⟨a, k, v⟩ := x; cases h; simp [seg]

theorem seg_closed : ∀ (l : List (Nat × Key × T)), ∀ x ∈ seg l none, ∀ b ∈ succs x.2, b ∈ (seg l none).map Prod.fst := by
  intro l
  induction l with
  | nil => intro x hx; cases hx
  | cons y l ih =>
    obtain ⟨a, k, v⟩ := y
    intro x hx b hb
    rw [seg] at hx ⊢
    rw [List.map_cons]
    rcases List.mem_cons.1 hx with rfl | hx
    · exact List.mem_cons_of_mem _ (hd_mem (by simpa [succs] using hb))
    · exact List.mem_cons_of_mem _ (ih x hx b hb)

theorem addr_mem (d : D T) : d.addr ∈ (objs d).map Prod.fst := by
  cases d with
  | kv a h l => simp [objs_kv, addr_kv]
  | node a bm p cs => simp [objs_node, addr_node]

/-- Induction on tries with addresses. -/
theorem D.ind {P : D T → Prop} (hk : ∀ a h l, P (.kv a h l)) (hn : ∀ a bm p cs, (∀ c ∈ cs, P c) → P (.node a bm p cs)) (d : D T) : P d :=
  D.rec (motive_1 := P) (motive_2 := fun cs => ∀ c ∈ cs, P c) hk hn (by simp) (fun d ds h1 h2 c hc => by
    rcases List.mem_cons.1 hc with rfl | hc
    · exact h1
    · exact h2 c hc) d

theorem objs_closed (d : D T) : ∀ x ∈ objs d, ∀ b ∈ succs x.2, b ∈ (objs d).map Prod.fst := by
  induction d using D.ind with
  | hk a h l =>
    intro x hx b hb
    rw [objs_kv] at hx ⊢
    rw [List.map_cons]
    rcases List.mem_cons.1 hx with rfl | hx
    · exact List.mem_cons_of_mem _ (hd_mem (by simpa [succs] using hb))
    · exact List.mem_cons_of_mem _ (seg_closed l x hx b hb)
  | hn a bm p cs ih =>
    intro x hx b hb
    rw [objs_node] at hx ⊢
    rw [List.map_cons]
    have sub : ∀ c ∈ cs, ∀ b ∈ (objs c).map Prod.fst, b ∈ (cs.flatMap objs).map Prod.fst := by
      intro c hc b hb
      obtain ⟨y, hy, rfl⟩ := List.mem_map.1 hb
      exact List.mem_map_of_mem (List.mem_flatMap.2 ⟨c, hc, hy⟩)
    refine List.mem_cons_of_mem _ ?_
    rcases List.mem_cons.1 hx with rfl | hx
    · simp only [succs, List.mem_filterMap, List.mem_map, id] at hb
      obtain ⟨_, ⟨c, hc, rfl⟩, hb⟩ := hb
      cases hb
      exact sub c hc _ (addr_mem c)
    · obtain ⟨c, hc, hx⟩ := List.mem_flatMap.1 hx
      exact sub c hc _ (ih c hc x hx b hb)

theorem seg_alive {m : Mem T} : ∀ (l : List (Nat × Key × T)), (∀ x ∈ seg l none, m[x.1]? = some x.2) → ∀ r, hd l none = some r → ∀ x ∈ seg l none, Alive (Points m) r x.1 := by
  intro l
  induction l with
  | nil => intro _ r h; cases h
  | cons y l ih =>
    obtain ⟨a, k, v⟩ := y
    intro ho r hr x hx
    cases hr
    rw [seg] at hx
    rcases List.mem_cons.1 hx with rfl | hx
    · exact .root
    · cases l with
      | nil => cases hx
      | cons z l =>
        obtain ⟨b, k', v'⟩ := z
        have h1 := ih (fun y hy => ho y (by rw [seg]; exact List.mem_cons_of_mem _ hy)) b rfl x hx
        refine Alive.trans (.step .root ?_) h1
        rw [points_iff]
        exact ⟨_, ho (a, _) (by rw [seg]; exact List.mem_cons_self), by simp [succs, hd]⟩

theorem objs_alive {m : Mem T} (d : D T) : (∀ x ∈ objs d, m[x.1]? = some x.2) → ∀ x ∈ objs d, Alive (Points m) d.addr x.1 := by
  induction d using D.ind with
  | hk a h l =>
    intro ho x hx
    rw [objs_kv] at hx ho
    rcases List.mem_cons.1 hx with rfl | hx
    · exact .root
    · cases l with
      | nil => cases hx
      | cons z l =>
        obtain ⟨b, k', v'⟩ := z
        refine Alive.trans (.step .root ?_) (seg_alive _ (fun y hy => ho y (List.mem_cons_of_mem _ hy)) b rfl x hx)
        rw [points_iff, addr_kv]
        exact ⟨_, ho (a, _) List.mem_cons_self, by simp [succs, hd]⟩
  | hn a bm p cs ih =>
    intro ho x hx
    rw [objs_node] at hx ho
    rcases List.mem_cons.1 hx with rfl | hx
    · exact .root
    · obtain ⟨c, hc, hx⟩ := List.mem_flatMap.1 hx
      refine Alive.trans (.step .root ?_) (ih c hc (fun y hy => ho y (List.mem_cons_of_mem _ (List.mem_flatMap.2 ⟨c, hc, hy⟩))) x hx)
      rw [points_iff, addr_node]
      refine ⟨_, ho (a, _) List.mem_cons_self, ?_⟩
      simp only [succs, List.mem_filterMap, List.mem_map, id]
      exact ⟨_, ⟨c, hc, rfl⟩, rfl⟩

/-- What is alive from the root of a trie are its objects. -/
theorem alive_iff {m : Mem T} {d : D T} (ho : Owns m (objs d)) (a : Nat) : Alive (Points m) d.addr a ↔ a ∈ (objs d).map Prod.fst := by
  constructor
  · intro h
    refine Alive.closed (P := fun a => a ∈ (objs d).map Prod.fst) (addr_mem d) ?_ h
    intro x y hx hp
    obtain ⟨z, hz, rfl⟩ := List.mem_map.1 hx
    rw [points_iff] at hp
    obtain ⟨o, h1, h2⟩ := hp
    rw [ho.1 z hz] at h1
    cases h1
    exact objs_closed d z hz y h2
  · intro h
    obtain ⟨z, hz, rfl⟩ := List.mem_map.1 h
    exact objs_alive d ho.1 z hz

mutual
/-- The pairs of a trie with their addresses. -/
def pairs : D T → List (Nat × Key × T)
  | .kv _ _ l => l
  | .node _ _ _ cs => pairsL cs
/-- The pairs of several entries. -/
def pairsL : List (D T) → List (Nat × Key × T)
  | [] => []
  | d :: ds => pairs d ++ pairsL ds
end

theorem pairsL_flatMap (ds : List (D T)) : pairsL ds = ds.flatMap pairs := by
  induction ds with
  | nil => simp only [pairsL, List.flatMap_nil]
  | cons d ds ih => simp only [pairsL, List.flatMap_cons, ih]

theorem pairs_kv (a : Nat) (h : Hash) (l : List (Nat × Key × T)) : pairs (D.kv a h l) = l := by simp only [pairs]
theorem pairs_node (a : Nat) (bm : Hash) (p : Nat) (cs : List (D T)) : pairs (D.node a bm p cs) = cs.flatMap pairs := by simp only [pairs, pairsL_flatMap]

theorem flat_strip (d : D T) : flat (strip d) = (pairs d).map Prod.snd := by
  induction d using D.ind with
  | hk a h l => rw [strip_kv, pairs_kv, flat]
  | hn a bm p cs ih =>
    rw [strip_node, pairs_node, flat]
    induction cs with
    | nil => simp [flatL]
    | cons c cs ihc =>
      rw [List.map_cons, flatL, List.flatMap_cons, List.map_append, ih c (by simp), ihc fun d hd => ih d (by simp [hd])]

theorem seg_pair {a : Nat} {k : Key} {v : T} : ∀ (l : List (Nat × Key × T)), (a, k, v) ∈ l ↔ ∃ n, (a, Obj.pair k v n) ∈ seg l none := by
  intro l
  induction l with
  | nil => simp [seg]
  | cons y l ih =>
    obtain ⟨b, k', v'⟩ := y
    rw [seg]
    simp only [List.mem_cons, Prod.mk.injEq, Obj.pair.injEq, ih]
    constructor
    · rintro (⟨rfl, rfl, rfl⟩ | ⟨n, h⟩)
      · exact ⟨_, .inl ⟨rfl, rfl, rfl, rfl⟩⟩
      · exact ⟨n, .inr h⟩
    · rintro ⟨n, ⟨rfl, rfl, rfl, rfl⟩ | h⟩
      · exact .inl ⟨rfl, rfl, rfl⟩
      · exact .inr ⟨n, h⟩

theorem pair_objs {a : Nat} {k : Key} {v : T} (d : D T) : (a, k, v) ∈ pairs d ↔ ∃ n, (a, Obj.pair k v n) ∈ objs d := by
  induction d using D.ind with
  | hk b h l => rw [pairs_kv, objs_kv, seg_pair]; simp
  | hn b bm p cs ih =>
    rw [pairs_node, objs_node]
    simp only [List.mem_flatMap, List.mem_cons, Prod.mk.injEq, reduceCtorEq, and_false, false_or]
    constructor
    · rintro ⟨c, hc, h⟩
      obtain ⟨n, h⟩ := (ih c hc).1 h
      exact ⟨n, c, hc, h⟩
    · rintro ⟨n, c, hc, h⟩
      exact ⟨c, hc, (ih c hc).2 ⟨n, h⟩⟩

theorem seg_fst (l : List (Nat × Key × T)) (e : Option Nat) : (seg l e).map Prod.fst = l.map Prod.fst := by
  induction l with
  | nil => rfl
  | cons x l ih => obtain ⟨a, k, v⟩ := x; simp [seg, ih]

theorem pairs_sub (d : D T) : ((pairs d).map Prod.fst).Sublist ((objs d).map Prod.fst) := by
  induction d using D.ind with
  | hk a h l => rw [pairs_kv, objs_kv, List.map_cons, seg_fst]; exact List.sublist_cons_self _ _
  | hn a bm p cs ih =>
    rw [pairs_node, objs_node, List.map_cons]
    refine .cons _ ?_
    induction cs with
    | nil => exact .refl _
    | cons c cs ihc =>
      simp only [List.flatMap_cons, List.map_append]
      exact (ih c (by simp)).append (ihc fun d hd => ih d (by simp [hd]))

/-- The objects of a well-formed trie are few. -/
theorem objs_length {hashOf : Key → Hash} (d : D T) : ∀ {path : List Nat}, WF hashOf path (strip d) → path.length ≤ 11 →
    0 < (pairs d).length ∧ (objs d).length ≤ (13 - path.length) * (pairs d).length := by
  induction d using D.ind with
  | hk a h l =>
    intro path hw hl
    rw [strip_kv] at hw
    cases hw with
    | kv h1 h2 h3 h4 =>
      rw [pairs_kv, objs_kv, List.length_cons, seg_length]
      have : 0 < l.length := by
        rcases l with _ | ⟨x, l⟩
        · exact absurd rfl h1
        · simp
      refine ⟨this, ?_⟩
      have : 2 * l.length ≤ (13 - path.length) * l.length := Nat.mul_le_mul_right _ (by omega)
      omega
  | hn a bm p cs ih =>
    intro path hw hl
    rw [strip_node] at hw
    have hne := hw.nonempty
    cases hw with
    | node h1 h2 h3 h4 =>
      have key : ∀ cs : List (D T), (∀ c ∈ cs, 0 < (pairs c).length ∧ (objs c).length ≤ (12 - path.length) * (pairs c).length) →
          (cs.flatMap objs).length ≤ (12 - path.length) * (cs.flatMap pairs).length ∧ (cs ≠ [] → 0 < (cs.flatMap pairs).length) := by
        intro cs
        induction cs with
        | nil => simp
        | cons c cs ihc =>
          intro h
          obtain ⟨b1, b2⟩ := h c (by simp)
          obtain ⟨b3, -⟩ := ihc fun d hd => h d (by simp [hd])
          simp only [List.flatMap_cons, List.length_append, Nat.mul_add]
          exact ⟨by omega, fun _ => by omega⟩
      obtain ⟨b1, b2⟩ := key cs fun c hc => by
        have := ih c hc (h3 (strip c) (List.mem_map_of_mem hc)) (by simp; omega)
        simp only [List.length_append, List.length_cons, List.length_nil, Nat.zero_add] at this
        rwa [show 13 - (path.length + 1) = 12 - path.length by omega] at this
      have hcs : cs ≠ [] := by
        rintro rfl
        obtain ⟨k, v, hh⟩ := hne
        obtain ⟨c, hc, -⟩ := has_node.1 hh
        simp at hc
      have b2 := b2 hcs
      rw [pairs_node, objs_node, List.length_cons]
      refine ⟨b2, ?_⟩
      rw [show 13 - path.length = (12 - path.length) + 1 by omega, Nat.add_mul]
      omega

/-- **C93**, HAMT: after every history there is one list `es` of pair objects, one for each entry of the map, and the pair objects that the trie keeps alive are
those: erased entries, overwritten values and the pair that `Insert` made for a key that was there already are not among them. All objects kept alive
(nodes included) are at most 12 for each entry, and the root. -/
theorem C93_hamt (hashOf : Key → Hash) (ops : List (Op T)) (m : Mem T) (os : List (Out T)) (hr : run hashOf ops (new : Mem T) = .ok (os, m)) :
    ∃ es : List (Nat × Key × T), (es.map (·.1)).Nodup ∧ (es.map (·.2.1)).Nodup ∧ (∀ k v, (k, v) ∈ es.map (·.2) ↔ (specRun ops emptyMap).2 k = some v) ∧
      (∀ a k v, (Alive (Points m) 0 a ∧ ∃ next, m[a]? = some (.pair k v next)) ↔ (a, k, v) ∈ es) ∧
      ∃ kept : List Nat, kept.Nodup ∧ (∀ a, Alive (Points m) 0 a ↔ a ∈ kept) ∧ kept.length ≤ 12 * es.length + 1 := by
  obtain ⟨m', h, e, hrep, e', ha⟩ := reach_rep hashOf ops
  rw [e] at hr; cases hr
  obtain ⟨cs, h1, ho⟩ := hrep
  obtain ⟨w, hm⟩ := ha
  obtain ⟨f1, f2⟩ := flatL_has w
  have hfl : flatL h.children = (cs.flatMap pairs).map Prod.snd := by
    have := flat_strip (D.node 0 h.bitmap 0 cs)
    rwa [strip_node, pairs_node, flat, ← h1] at this
  have hal := alive_iff ho
  simp only [addr_node] at hal
  refine ⟨cs.flatMap pairs, ?_, ?_, ?_, ?_, (objs (.node 0 h.bitmap 0 cs)).map Prod.fst, ho.2, hal, ?_⟩
  · have := pairs_sub (D.node 0 h.bitmap 0 cs)
    rw [pairs_node] at this
    exact this.nodup ho.2
  · rw [hfl, List.map_map] at f2; exact f2
  · intro k v
    have := f1 k v
    rw [hfl, hm] at this
    exact this
  · intro a k v
    rw [hal]
    have hp := pair_objs (a := a) (k := k) (v := v) (D.node 0 h.bitmap 0 cs)
    rw [pairs_node] at hp
    rw [hp]
    constructor
    · rintro ⟨ha, n, hn⟩
      obtain ⟨⟨b, o⟩, hz, rfl⟩ := List.mem_map.1 ha
      rw [ho.1 _ hz] at hn
      cases hn
      exact ⟨n, hz⟩
    · rintro ⟨n, hn⟩
      exact ⟨List.mem_map.2 ⟨_, hn, rfl⟩, n, ho.1 _ hn⟩
  · have key : ∀ ds : List (D T), (∀ c ∈ ds, c ∈ cs) → (ds.flatMap objs).length ≤ 12 * (ds.flatMap pairs).length := by
      intro ds
      induction ds with
      | nil => simp
      | cons c ds ih =>
        intro hds
        have b1 := ih fun d hd => hds d (by simp [hd])
        have hw := w.sub (strip c) (by rw [h1]; exact List.mem_map_of_mem (hds c (by simp)))
        obtain ⟨-, b2⟩ := objs_length c hw (by simp)
        simp only [List.flatMap_cons, List.length_append, Nat.mul_add]
        simp only [List.length_append, List.length_nil, List.length_cons] at b2
        omega
    rw [objs_node, List.map_cons, List.length_cons, List.length_map]
    have := key cs fun _ h => h
    omega

/-! ### The history of `demoOps` on the heap -/

/-- The heap after `demoOps`: object 8 is the pair made for the second insertion of `[1]`, objects 2 and 3 are the old collision node and the erased pair `[2]`, which still points into the trie. -/
def demoHeap : Mem Nat :=
  [.node 3 0 [some 10, some 5], .pair [1] 11 none, .kv 1 (some 3), .pair [2] 20 (some 1), .pair (List.replicate 65 0) 30 none, .node 3 1 [some 6, some 7], .kv 1 (some 1),
    .kv 65 (some 4), .pair [1] 11 none, .pair [] 5 none, .kv 0 (some 9)]

theorem demo_heap : run demoHash demoOps (new : Mem Nat) = .ok ([.unit, .unit, .unit, .unit, .unit, .bool true], demoHeap) := rfl

example : ∃ m, run demoHash demoOps (new : Mem Nat) = .ok ((specRun demoOps emptyMap).1, m) := C47_hamt_heap demoHash demoOps
/-- `C48_traversal_heap`: three keys. -/
example : ∃ L : List (Key × Nat), (L.map Prod.fst).Nodup ∧ (∀ k v, (k, v) ∈ L ↔ (specRun demoOps emptyMap).2 k = some v) ∧ Keys demoHeap = .ok (L.map Prod.fst) :=
  let ⟨L, h1, h2, _, _, h3⟩ := C48_traversal_heap demoHash demoOps demoHeap _ demo_heap
  ⟨L, h1, h2, h3⟩
example : Keys demoHeap = .ok [[], [1], List.replicate 65 0] := rfl
/-- `C93_hamt`: neither the erased pair nor the pair of the second insertion is alive, the pair with the new value is. -/
example : ¬ Alive (Points demoHeap) 0 3 ∧ ¬ Alive (Points demoHeap) 0 8 ∧ Alive (Points demoHeap) 0 1 := by
  obtain ⟨es, h1, h2, h3, h4, -⟩ := C93_hamt demoHash demoOps demoHeap _ demo_heap
  have a1 : Alive (Points demoHeap) 0 1 := by
    refine .step (x := 6) (.step (x := 5) (.step (x := 0) .root ?_) ?_) ?_
    · show some 5 ∈ [some 10, some 5]; simp
    · show some 6 ∈ [some 6, some 7]; simp
    · show some 1 = some 1; rfl
  have m1 := (h4 1 [1] 11).1 ⟨a1, none, rfl⟩
  refine ⟨fun h => ?_, fun h => ?_, a1⟩
  · have := (h4 3 [2] 20).1 ⟨h, some 1, rfl⟩
    have := (h3 [2] 20).1 (List.mem_map.2 ⟨_, this, rfl⟩)
    exact absurd this (by decide)
  · have m8 := (h4 8 [1] 11).1 ⟨h, none, rfl⟩
    have : (1, ([1] : Key), 11) = (8, ([1] : Key), 11) := List.inj_on_of_nodup_map h2 m1 m8 rfl
    exact absurd this (by decide)

end GoSTL.Hamt.Heap
