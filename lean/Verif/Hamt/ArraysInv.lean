import Verif.Hamt.Arrays
/-!
# Arrays of children as objects: what the heap looks like, and how a call may change it

Every array has a path and the bit positions of its slots; both are chosen when it is made and never change. Old arrays stay in the heap.
-/
namespace GoSTL.Hamt.Arr
variable {T : Type}

/-- The pairs of a chain, with their keys. -/
inductive Chain (m : Mem T) : Option Nat → List (Nat × Key) → Prop
  | nil : Chain m none []
  | cons {a : Nat} {k : Key} {v : T} {n : Option Nat} {C : List (Nat × Key)} : m.objs[a]? = some (.pair k v n) → Chain m n C → Chain m (some a) ((a, k) :: C)

/-- A pair is below an entry. -/
inductive EntHas (m : Mem T) : Nat → Nat × Key → Prop
  | kv {e : Nat} {h : Hash} {l : Option Nat} {C : List (Nat × Key)} {x : Nat × Key} : m.objs[e]? = some (.kv h l) → Chain m l C → x ∈ C → EntHas m e x
  | node {e : Nat} {bm : Hash} {p ar : Nat} {cs : List (Option Nat)} {c : Nat} {x : Nat × Key} : m.objs[e]? = some (.node bm p ar) → m.arrs[ar]? = some cs →
      some c ∈ cs → EntHas m c x → EntHas m e x

/-- The path of an array and the bit positions of its slots. -/
abbrev Lab := Nat → List Nat × List Nat

/-- The entry belongs at the end of the path. -/
def EntAt (L : Lab) (m : Mem T) (q : List Nat) (e : Nat) : Prop :=
  (∃ h l, m.objs[e]? = some (.kv h l) ∧ OnPath h q) ∨ ∃ bm p ar, m.objs[e]? = some (.node bm p ar) ∧ (L ar).1 = q ∧ q.getLast? = some p

/-- What holds of an array. -/
structure ArrOk (L : Lab) (m : Mem T) (ar : Nat) (cs : List (Option Nat)) : Prop where
  len : (L ar).1.length ≤ 10
  sorted : (L ar).2.Pairwise (· < ·)
  size : (L ar).2.length = cs.length
  ent : ∀ (i p e : Nat), (L ar).2[i]? = some p → cs[i]? = some (some e) → EntAt L m ((L ar).1 ++ [p]) e

/-- The chain of a pair. -/
def PairOk (H : Key → Hash) (m : Mem T) (k : Key) (n : Option Nat) : Prop := ∃ C, Chain m n C ∧ (k :: C.map Prod.snd).Nodup ∧ ∀ x ∈ C, H x.2 = H k

/-- The chain of a `KvNode`. -/
def KvOk (H : Key → Hash) (m : Mem T) (h : Hash) (l : Option Nat) : Prop := ∃ C, Chain m l C ∧ ∀ x ∈ C, H x.2 = h

/-- The invariant. -/
structure WF (H : Key → Hash) (L : Lab) (m : Mem T) : Prop where
  arr : ∀ (ar : Nat) (cs : List (Option Nat)), m.arrs[ar]? = some cs → ArrOk L m ar cs
  node : ∀ (a : Nat) (bm : Hash) (p ar : Nat), m.objs[a]? = some (.node bm p ar) → (L ar).2 = bits bm ∧ ∃ cs, m.arrs[ar]? = some cs ∧ none ∉ cs
  own : ∀ (a b : Nat) (bm : Hash) (p : Nat) (bm' : Hash) (p' ar : Nat), m.objs[a]? = some (.node bm p ar) → m.objs[b]? = some (.node bm' p' ar) → a = b
  kv : ∀ (a : Nat) (h : Hash) (l : Option Nat), m.objs[a]? = some (.kv h l) → KvOk H m h l
  pair : ∀ (a : Nat) (k : Key) (v : T) (n : Option Nat), m.objs[a]? = some (.pair k v n) → PairOk H m k n

/-- How a slot may change: the keys in `K` may go, the pairs in `F` may come. -/
def SlotTo (H : Key → Hash) (K : Key → Prop) (F : Nat → Prop) (L : Lab) (m m' : Mem T) (ar i : Nat) (s : Option (Option Nat)) (s' : Option (Option Nat)) : Prop :=
  match s with
  | none => s' = none
  | some none => s' = some none
  | some (some e) =>
    (s' = some none ∧ ∃ k, K k ∧ ∀ p, (L ar).2[i]? = some p → OnPath (H k) ((L ar).1 ++ [p])) ∨
    ∃ e', s' = some (some e') ∧ (∀ x, EntHas m e x → ¬ K x.2 → EntHas m' e' x) ∧ ∀ x, EntHas m' e' x → EntHas m e x ∨ F x.1

/-- How a chain may change. -/
def ChainTo (K : Key → Prop) (m m' : Mem T) (l : Option Nat) : Prop :=
  ∀ C, Chain m l C → ∃ C', Chain m' l C' ∧ C'.Sublist C ∧ ∀ x ∈ C, ¬ K x.2 → x ∈ C'

/-- How the heap may change: the keys in `K` may be erased, the values of the keys in `V` may change, and the pairs in `F` may be linked. -/
structure Evo (H : Key → Hash) (K V : Key → Prop) (F : Nat → Prop) (L : Lab) (m : Mem T) (L' : Lab) (m' : Mem T) : Prop where
  label : ∀ ar, ar < m.arrs.length → L' ar = L ar
  node : ∀ (a : Nat) (bm : Hash) (p ar : Nat), m.objs[a]? = some (.node bm p ar) → ∃ bm' ar', m'.objs[a]? = some (.node bm' p ar') ∧ (L' ar').1 = (L ar).1
  kv : ∀ (a : Nat) (h : Hash) (l : Option Nat), m.objs[a]? = some (.kv h l) → ∃ l', m'.objs[a]? = some (.kv h l')
  pair : ∀ (a : Nat) (k : Key) (v : T) (n : Option Nat), m.objs[a]? = some (.pair k v n) → ∃ v' n', m'.objs[a]? = some (.pair k v' n') ∧ (¬ V k → v' = v)
  chain : ∀ a, ¬ F a → ChainTo K m m' (some a)
  keep : ∀ e x, EntHas m e x → ¬ K x.2 → EntHas m' e x
  upper : ∀ e x, e < m.objs.length → EntHas m' e x → EntHas m e x ∨ F x.1
  arr : ∀ (ar : Nat) (cs : List (Option Nat)), m.arrs[ar]? = some cs → ∃ cs', m'.arrs[ar]? = some cs' ∧ ∀ i, SlotTo H K F L m m' ar i cs[i]? cs'[i]?

/-- What is less deep than `d` stays as it is. -/
structure Shallow (d : Nat) (L : Lab) (m m' : Mem T) : Prop where
  node : ∀ (a : Nat) (bm : Hash) (p ar : Nat), m.objs[a]? = some (.node bm p ar) → (L ar).1.length < d → m'.objs[a]? = some (.node bm p ar)
  arr : ∀ (ar : Nat) (cs : List (Option Nat)), m.arrs[ar]? = some cs → (L ar).1.length < d → m'.arrs[ar]? = some cs

/-! ## Chains -/

theorem Chain.det {m : Mem T} {l : Option Nat} {C C' : List (Nat × Key)} (h : Chain m l C) (h' : Chain m l C') : C = C' := by
  induction h generalizing C' with
  | nil => cases h'; rfl
  | cons e _ ih =>
    cases h' with
    | cons e' t' =>
      rw [e] at e'
      cases e'
      rw [ih t']

/-- The pairs of the chain are pairs. -/
theorem Chain.mem {m : Mem T} {l : Option Nat} {C : List (Nat × Key)} (h : Chain m l C) : ∀ x ∈ C, ∃ v n, m.objs[x.1]? = some (.pair x.2 v n) := by
  induction h with
  | nil => simp
  | cons e _ ih =>
    intro x hx
    rcases List.mem_cons.1 hx with rfl | hx
    · exact ⟨_, _, e⟩
    · exact ih x hx

/-- Chains depend on keys and links of their pairs only. -/
theorem Chain.congr {m m' : Mem T} {l : Option Nat} {C : List (Nat × Key)} (h : Chain m l C)
    (hp : ∀ a k v n, (a, k) ∈ C → m.objs[a]? = some (.pair k v n) → ∃ v', m'.objs[a]? = some (.pair k v' n)) : Chain m' l C := by
  induction h with
  | nil => exact .nil
  | cons e _ ih =>
    obtain ⟨v', e'⟩ := hp _ _ _ _ (by simp) e
    exact .cons e' (ih fun a k v n hm => hp a k v n (by simp [hm]))

theorem ChainTo.same {K : Key → Prop} {m m' : Mem T} {l : Option Nat} (h : ∀ C, Chain m l C → Chain m' l C) : ChainTo K m m' l :=
  fun C hC => ⟨C, h C hC, .refl _, fun x hx _ => hx⟩

theorem ChainTo.none (K : Key → Prop) (m m' : Mem T) : ChainTo K m m' none := by
  intro C hC
  cases hC
  exact ⟨[], .nil, .refl _, by simp⟩

/-- The chain from a pair that the invariant knows. -/
theorem WF.chain {H : Key → Hash} {L : Lab} {m : Mem T} (hw : WF H L m) {a : Nat} {k : Key} {v : T} {n : Option Nat} (e : m.objs[a]? = some (.pair k v n)) :
    ∃ C, Chain m (some a) ((a, k) :: C) ∧ Chain m n C ∧ (k :: C.map Prod.snd).Nodup ∧ ∀ x ∈ C, H x.2 = H k := by
  obtain ⟨C, h1, h2, h3⟩ := hw.pair _ _ _ _ e
  exact ⟨C, .cons e h1, h1, h2, h3⟩

theorem Chain.nodup {H : Key → Hash} {L : Lab} {m : Mem T} (hw : WF H L m) {l : Option Nat} {C : List (Nat × Key)} (h : Chain m l C) : (C.map Prod.snd).Nodup := by
  cases h with
  | nil => simp
  | cons e t =>
    obtain ⟨C', h1, h2⟩ := hw.pair _ _ _ _ e
    rw [Chain.det h1 t] at h2
    exact h2.1

/-- Chains are no longer than the heap. -/
theorem Chain.length_lt {H : Key → Hash} {L : Lab} {m : Mem T} (hw : WF H L m) {l : Option Nat} {C : List (Nat × Key)} (h : Chain m l C) : C.length < budget m := by
  have h1 := Chain.nodup hw h
  have h2 : (C.map Prod.fst).Nodup := by
    refine List.Nodup.map_on ?_ (List.Nodup.of_map _ h1)
    intro x hx y hy e
    obtain ⟨v, n, e1⟩ := h.mem x hx
    obtain ⟨v', n', e2⟩ := h.mem y hy
    rw [e, e2] at e1
    injection e1 with e1
    injection e1 with e1
    exact Prod.ext e e1.symm
  have h3 : (C.map Prod.fst) ⊆ List.range m.objs.length := by
    intro a ha
    obtain ⟨x, hx, rfl⟩ := List.mem_map.1 ha
    obtain ⟨v, n, e1⟩ := h.mem x hx
    exact List.mem_range.2 (List.getElem?_eq_some_iff.1 e1).1
  have := (List.subperm_of_subset h2 h3).length_le
  simp at this
  simp only [budget]
  omega

/-! ## Entries -/

theorem entHas_kv {m : Mem T} {e : Nat} {h : Hash} {l : Option Nat} {C : List (Nat × Key)} (ho : m.objs[e]? = some (.kv h l)) (hC : Chain m l C) {x : Nat × Key} :
    EntHas m e x ↔ x ∈ C := by
  refine ⟨?_, fun hx => .kv ho hC hx⟩
  intro hx
  cases hx with
  | kv ho' hC' hx =>
    rw [ho] at ho'
    cases ho'
    rwa [Chain.det hC hC']
  | node ho' => rw [ho] at ho'; cases ho'

theorem entHas_node {m : Mem T} {e : Nat} {bm : Hash} {p ar : Nat} {cs : List (Option Nat)} (ho : m.objs[e]? = some (.node bm p ar)) (ha : m.arrs[ar]? = some cs)
    {x : Nat × Key} : EntHas m e x ↔ ∃ c, some c ∈ cs ∧ EntHas m c x := by
  refine ⟨?_, fun ⟨c, hc, hx⟩ => .node ho ha hc hx⟩
  intro hx
  cases hx with
  | kv ho' => rw [ho] at ho'; cases ho'
  | node ho' ha' hc hx =>
    rw [ho] at ho'
    cases ho'
    rw [ha] at ha'
    cases ha'
    exact ⟨_, hc, hx⟩

theorem EntHas.pair {m : Mem T} {e : Nat} {x : Nat × Key} (h : EntHas m e x) : ∃ v n, m.objs[x.1]? = some (.pair x.2 v n) := by
  induction h with
  | kv _ hC hx => exact hC.mem _ hx
  | node _ _ _ _ ih => exact ih

/-- A child of a node, and where it is. -/
theorem WF.child {H : Key → Hash} {L : Lab} {m : Mem T} (hw : WF H L m) {ar : Nat} {cs : List (Option Nat)} (ha : m.arrs[ar]? = some cs) {c : Nat} (hc : some c ∈ cs) :
    ∃ (i p : Nat), (L ar).2[i]? = some p ∧ cs[i]? = some (some c) ∧ EntAt L m ((L ar).1 ++ [p]) c := by
  obtain ⟨i, hi⟩ := List.mem_iff_getElem?.1 hc
  have ho := hw.arr _ _ ha
  have hl : i < (L ar).2.length := by rw [ho.size]; exact (List.getElem?_eq_some_iff.1 hi).1
  exact ⟨i, (L ar).2[i], by simp [hl], hi, ho.ent _ _ _ (by simp [hl]) hi⟩

theorem EntAt.lt {L : Lab} {m : Mem T} {q : List Nat} {e : Nat} (h : EntAt L m q e) : e < m.objs.length := by
  rcases h with ⟨h, l, h1, -⟩ | ⟨bm, p, ar, h1, -⟩ <;> exact (List.getElem?_eq_some_iff.1 h1).1

theorem WF.arr_lt {H : Key → Hash} {L : Lab} {m : Mem T} (hw : WF H L m) {a : Nat} {bm : Hash} {p ar : Nat} (ho : m.objs[a]? = some (.node bm p ar)) : ar < m.arrs.length := by
  obtain ⟨-, cs, h, -⟩ := hw.node _ _ _ _ ho
  exact (List.getElem?_eq_some_iff.1 h).1

/-- The pairs below an entry have the path of the entry. -/
theorem EntHas.onPath {H : Key → Hash} {L : Lab} {m : Mem T} (hw : WF H L m) {e : Nat} {x : Nat × Key} (h : EntHas m e x) :
    ∀ {q : List Nat}, EntAt L m q e → OnPath (H x.2) q := by
  induction h with
  | kv ho hC hx =>
    intro q hq
    obtain ⟨C', h1, h2⟩ := hw.kv _ _ _ ho
    rw [Chain.det hC h1] at hx
    rw [h2 _ hx]
    rcases hq with ⟨h, l, h1, h2⟩ | ⟨bm, p, ar, h1, -⟩
    · rw [ho] at h1; cases h1; exact h2
    · rw [ho] at h1; cases h1
  | node ho ha hc hx ih =>
    intro q hq
    obtain ⟨i, p, -, -, h3⟩ := hw.child ha hc
    rcases hq with ⟨h, l, h1, h2⟩ | ⟨bm, p, ar, h1, h2, -⟩
    · rw [ho] at h1; cases h1
    · rw [ho] at h1
      cases h1
      rw [h2] at h3
      exact (OnPath.snoc.1 (ih h3)).1

/-! ## Going on -/

theorem Evo.entAt {H : Key → Hash} {K V : Key → Prop} {F : Nat → Prop} {L L' : Lab} {m m' : Mem T} (h : Evo H K V F L m L' m') {q : List Nat} {e : Nat}
    (he : EntAt L m q e) : EntAt L' m' q e := by
  rcases he with ⟨hh, l, h1, h2⟩ | ⟨bm, p, ar, h1, h2, h3⟩
  · obtain ⟨l', h4⟩ := h.kv _ _ _ h1
    exact .inl ⟨hh, l', h4, h2⟩
  · obtain ⟨bm', ar', h4, h5⟩ := h.node _ _ _ _ h1
    exact .inr ⟨bm', p, ar', h4, h5.trans h2, h3⟩

theorem Evo.objs_le {H : Key → Hash} {K V : Key → Prop} {F : Nat → Prop} {L L' : Lab} {m m' : Mem T} (h : Evo H K V F L m L' m') {a : Nat} (ha : a < m.objs.length) :
    a < m'.objs.length := by
  have e : m.objs[a]? = some m.objs[a] := by simp [ha]
  cases ho : m.objs[a] with
  | node bm p ar => rw [ho] at e; obtain ⟨_, _, h1, -⟩ := h.node _ _ _ _ e; exact (List.getElem?_eq_some_iff.1 h1).1
  | kv hh l => rw [ho] at e; obtain ⟨_, h1⟩ := h.kv _ _ _ e; exact (List.getElem?_eq_some_iff.1 h1).1
  | pair k v n => rw [ho] at e; obtain ⟨_, _, h1, -⟩ := h.pair _ _ _ _ e; exact (List.getElem?_eq_some_iff.1 h1).1

theorem Evo.arrs_le {H : Key → Hash} {K V : Key → Prop} {F : Nat → Prop} {L L' : Lab} {m m' : Mem T} (h : Evo H K V F L m L' m') {a : Nat} (ha : a < m.arrs.length) :
    a < m'.arrs.length := by
  have e : m.arrs[a]? = some m.arrs[a] := by simp [ha]
  obtain ⟨cs', h1, -⟩ := h.arr _ _ e
  exact (List.getElem?_eq_some_iff.1 h1).1

theorem ChainTo.trans {K : Key → Prop} {m m' m'' : Mem T} {l : Option Nat} (h1 : ChainTo K m m' l) (h2 : ChainTo K m' m'' l) : ChainTo K m m'' l := by
  intro C hC
  obtain ⟨C', a1, a2, a3⟩ := h1 C hC
  obtain ⟨C'', b1, b2, b3⟩ := h2 C' a1
  exact ⟨C'', b1, b2.trans a2, fun x hx hk => b3 x (a3 x hx hk) hk⟩

theorem Evo.trans {H : Key → Hash} {K V : Key → Prop} {F : Nat → Prop} {L L' L'' : Lab} {m m' m'' : Mem T} (h1 : Evo H K V F L m L' m') (h2 : Evo H K V F L' m' L'' m'') :
    Evo H K V F L m L'' m'' where
  label ar ha := (h2.label ar (h1.arrs_le ha)).trans (h1.label ar ha)
  node a bm p ar ho := by
    obtain ⟨bm', ar', e1, e2⟩ := h1.node _ _ _ _ ho
    obtain ⟨bm'', ar'', e3, e4⟩ := h2.node _ _ _ _ e1
    exact ⟨bm'', ar'', e3, e4.trans e2⟩
  kv a h l ho := by
    obtain ⟨l', e1⟩ := h1.kv _ _ _ ho
    exact h2.kv _ _ _ e1
  pair a k v n ho := by
    obtain ⟨v', n', e1, e2⟩ := h1.pair _ _ _ _ ho
    obtain ⟨v'', n'', e3, e4⟩ := h2.pair _ _ _ _ e1
    exact ⟨v'', n'', e3, fun hv => (e4 hv).trans (e2 hv)⟩
  chain a ha := (h1.chain a ha).trans (h2.chain a ha)
  keep e x hx hk := h2.keep e x (h1.keep e x hx hk) hk
  upper e x he hx := by
    rcases h2.upper e x (h1.objs_le he) hx with h | h
    · exact h1.upper e x he h
    · exact .inr h
  arr ar cs ha := by
    obtain ⟨cs', a1, a2⟩ := h1.arr _ _ ha
    obtain ⟨cs'', b1, b2⟩ := h2.arr _ _ a1
    refine ⟨cs'', b1, fun i => ?_⟩
    have a3 := a2 i
    have b3 := b2 i
    rcases hs : cs[i]? with _ | _ | e
    · rw [hs] at a3
      have a3 : cs'[i]? = none := a3
      rw [a3] at b3
      exact b3
    · rw [hs] at a3
      have a3 : cs'[i]? = some none := a3
      rw [a3] at b3
      exact b3
    · rw [hs] at a3
      have hlab := h1.label ar (List.getElem?_eq_some_iff.1 ha).1
      rcases a3 with ⟨a3, a4⟩ | ⟨e', a3, a4, a5⟩
      · rw [a3] at b3
        exact .inl ⟨b3, a4⟩
      · rw [a3] at b3
        rcases b3 with ⟨b3, b4⟩ | ⟨e'', b3, b4, b5⟩
        · rw [hlab] at b4
          exact .inl ⟨b3, b4⟩
        · refine .inr ⟨e'', b3, fun x hx hk => b4 x (a4 x hx hk) hk, fun x hx => ?_⟩
          rcases b5 x hx with h | h
          · exact a5 x h
          · exact .inr h

theorem Evo.mono {H : Key → Hash} {K V K' V' : Key → Prop} {F F' : Nat → Prop} {L L' : Lab} {m m' : Mem T} (h : Evo H K V F L m L' m') (hK : ∀ k, K k → K' k)
    (hV : ∀ k, V k → V' k) (hF : ∀ a, F a → F' a) : Evo H K' V' F' L m L' m' where
  label := h.label
  node := h.node
  kv := h.kv
  pair a k v n ho := by
    obtain ⟨v', n', e1, e2⟩ := h.pair _ _ _ _ ho
    exact ⟨v', n', e1, fun hv => e2 fun c => hv (hV _ c)⟩
  chain a ha C hC := by
    obtain ⟨C', b1, b2, b3⟩ := h.chain a (fun c => ha (hF _ c)) C hC
    exact ⟨C', b1, b2, fun x hx hk => b3 x hx fun c => hk (hK _ c)⟩
  keep e x hx hk := h.keep e x hx fun c => hk (hK _ c)
  upper e x he hx := (h.upper e x he hx).imp id (hF _)
  arr ar cs ha := by
    obtain ⟨cs', a1, a2⟩ := h.arr _ _ ha
    refine ⟨cs', a1, fun i => ?_⟩
    have a3 := a2 i
    rcases hs : cs[i]? with _ | _ | e
    · rw [hs] at a3; exact a3
    · rw [hs] at a3; exact a3
    · rw [hs] at a3
      rcases a3 with ⟨a3, k, a4, a5⟩ | ⟨e', a3, a4, a5⟩
      · exact .inl ⟨a3, k, hK _ a4, a5⟩
      · exact .inr ⟨e', a3, fun x hx hk => a4 x hx fun c => hk (hK _ c), fun x hx => (a5 x hx).imp id (hF _)⟩

theorem Shallow.trans {H : Key → Hash} {K V : Key → Prop} {F : Nat → Prop} {L L' : Lab} {m m' m'' : Mem T} {d : Nat} (hw : WF H L m) (h : Evo H K V F L m L' m')
    (h1 : Shallow d L m m') (h2 : Shallow d L' m' m'') : Shallow d L m m'' where
  node a bm p ar ho hd := h2.node _ _ _ _ (h1.node _ _ _ _ ho hd) (by rw [h.label ar (hw.arr_lt ho)]; exact hd)
  arr ar cs ha hd := h2.arr _ _ (h1.arr _ _ ha hd) (by rw [h.label ar (List.getElem?_eq_some_iff.1 ha).1]; exact hd)

theorem Shallow.mono {L : Lab} {m m' : Mem T} {d d' : Nat} (h : Shallow d L m m') (hd : d' ≤ d) : Shallow d' L m m' where
  node a bm p ar ho hl := h.node _ _ _ _ ho (by omega)
  arr ar cs ha hl := h.arr _ _ ha (by omega)

/-- The slots, when the entries stay. -/
theorem slots_same {H : Key → Hash} {K : Key → Prop} {F : Nat → Prop} {L : Lab} {m m' : Mem T} {ar : Nat} {cs : List (Option Nat)}
    (hk : ∀ c, some c ∈ cs → ∀ x, EntHas m c x → ¬ K x.2 → EntHas m' c x) (hu : ∀ c, some c ∈ cs → ∀ x, EntHas m' c x → EntHas m c x ∨ F x.1) (i : Nat) :
    SlotTo H K F L m m' ar i cs[i]? cs[i]? := by
  rcases hs : cs[i]? with _ | _ | e
  · rfl
  · rfl
  · exact .inr ⟨e, rfl, hk e (List.mem_of_getElem? hs), hu e (List.mem_of_getElem? hs)⟩

end GoSTL.Hamt.Arr
