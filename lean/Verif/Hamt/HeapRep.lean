import Verif.Hamt.Heap
/-!
# The pointer structure of a hash trie, as a tree with addresses
-/
namespace GoSTL.Hamt.Heap
open GoSTL.Store
variable {T : Type}

/-- A trie together with the addresses of its objects. -/
inductive D (T : Type) where
  | kv (a : Nat) (hash : Hash) (l : List (Nat × Key × T))
  | node (a : Nat) (bitmap : Hash) (pos : Nat) (children : List (D T))

/-- The address of an entry. -/
def D.addr : D T → Nat
  | .kv a _ _ => a
  | .node a _ _ _ => a

theorem addr_kv (a : Nat) (h : Hash) (l : List (Nat × Key × T)) : (D.kv a h l).addr = a := rfl
theorem addr_node (a : Nat) (bm : Hash) (p : Nat) (cs : List (D T)) : (D.node a bm p cs).addr = a := rfl

/-- The chain without addresses. -/
abbrev plain (l : List (Nat × Key × T)) : List (Key × T) := l.map Prod.snd

mutual
/-- The trie without addresses. -/
def strip : D T → Entry T
  | .kv _ h l => .kv h (plain l)
  | .node _ bm p cs => .node bm p (stripL cs)
/-- The entries without addresses. -/
def stripL : List (D T) → List (Entry T)
  | [] => []
  | d :: ds => strip d :: stripL ds
end

theorem stripL_map (ds : List (D T)) : stripL ds = ds.map strip := by
  induction ds with
  | nil => simp only [stripL, List.map_nil]
  | cons d ds ih => simp only [stripL, List.map_cons, ih]

theorem strip_kv (a : Nat) (h : Hash) (l : List (Nat × Key × T)) : strip (D.kv a h l) = .kv h (plain l) := by simp only [strip]
theorem strip_node (a : Nat) (bm : Hash) (p : Nat) (cs : List (D T)) : strip (D.node a bm p cs) = .node bm p (cs.map strip) := by
  simp only [strip, stripL_map]

/-- The first address of a chain that goes on with `e`. -/
def hd : List (Nat × Key × T) → Option Nat → Option Nat
  | [], e => e
  | (a, _, _) :: _, _ => some a

/-- The pairs of a chain that goes on with `e`. -/
def seg : List (Nat × Key × T) → Option Nat → List (Nat × Obj T)
  | [], _ => []
  | (a, k, v) :: l, e => (a, .pair k v (hd l e)) :: seg l e

theorem hd_append (A B : List (Nat × Key × T)) (e : Option Nat) : hd (A ++ B) e = hd A (hd B e) := by
  cases A with
  | nil => rfl
  | cons x A => rfl

theorem seg_append (A B : List (Nat × Key × T)) (e : Option Nat) : seg (A ++ B) e = seg A (hd B e) ++ seg B e := by
  induction A with
  | nil => rfl
  | cons x A ih =>
    obtain ⟨a, k, v⟩ := x
    simp only [List.cons_append, seg, ih, hd_append]

theorem seg_length (l : List (Nat × Key × T)) (e : Option Nat) : (seg l e).length = l.length := by
  induction l with
  | nil => rfl
  | cons x l ih => obtain ⟨a, k, v⟩ := x; simp [seg, ih]

mutual
/-- The objects of a trie. -/
def objs : D T → List (Nat × Obj T)
  | .kv a h l => (a, .kv h (hd l none)) :: seg l none
  | .node a bm p cs => (a, .node bm p (cs.map fun d => some d.addr)) :: objsL cs
/-- The objects of several entries. -/
def objsL : List (D T) → List (Nat × Obj T)
  | [] => []
  | d :: ds => objs d ++ objsL ds
end

theorem objsL_flatMap (ds : List (D T)) : objsL ds = ds.flatMap objs := by
  induction ds with
  | nil => simp only [objsL, List.flatMap_nil]
  | cons d ds ih => simp only [objsL, List.flatMap_cons, ih]

theorem objs_kv (a : Nat) (h : Hash) (l : List (Nat × Key × T)) : objs (D.kv a h l) = (a, .kv h (hd l none)) :: seg l none := by simp only [objs]
theorem objs_node (a : Nat) (bm : Hash) (p : Nat) (cs : List (D T)) :
    objs (D.node a bm p cs) = (a, .node bm p (cs.map fun d => some d.addr)) :: cs.flatMap objs := by simp only [objs, objsL_flatMap]

/-! ## Chains -/

theorem asPair_of {m : Mem T} {a : Nat} {k : Key} {v : T} {n : Option Nat} (h : m[a]? = some (.pair k v n)) : asPair m a = .ok (k, v, n) := by
  simp only [asPair, h]

theorem asNode_of {m : Mem T} {a : Nat} {bm : Hash} {p : Nat} {cs : List (Option Nat)} (h : m[a]? = some (.node bm p cs)) : asNode m a = .ok (bm, p, cs) := by
  simp only [asNode, h]

/-- The key is not in the chain. -/
abbrev NoKey (k : Key) (l : List (Nat × Key × T)) : Prop := ∀ x ∈ l, x.2.1 ≠ k

/-- Splitting a chain at a key. -/
theorem split_key (k : Key) : ∀ l : List (Nat × Key × T), NoKey k l ∨ ∃ A a v B, l = A ++ (a, k, v) :: B ∧ NoKey k A := by
  intro l
  induction l with
  | nil => left; intro x hx; cases hx
  | cons x l ih =>
    obtain ⟨a, k', v⟩ := x
    by_cases h : k' = k
    · subst h; exact .inr ⟨[], a, v, l, rfl, by intro x hx; cases hx⟩
    · rcases ih with h1 | ⟨A, b, w, B, rfl, h1⟩
      · left
        intro x hx
        rcases List.mem_cons.1 hx with rfl | hx
        · exact h
        · exact h1 x hx
      · refine .inr ⟨(a, k', v) :: A, b, w, B, rfl, ?_⟩
        intro x hx
        rcases List.mem_cons.1 hx with rfl | hx
        · exact h
        · exact h1 x hx

theorem findPair_none (m : Mem T) (key : Key) : ∀ (l : List (Nat × Key × T)) (f : Nat), l.length < f → (∀ x ∈ seg l none, m[x.1]? = some x.2) → NoKey key l →
    findPair m key f (hd l none) = .ok none := by
  intro l
  induction l with
  | nil =>
    intro f hf _ _
    obtain ⟨f, rfl⟩ : ∃ f', f = f' + 1 := ⟨f - 1, by simp at hf; omega⟩
    rfl
  | cons x l ih =>
    obtain ⟨a, k, v⟩ := x
    intro f hf ho hk
    obtain ⟨f, rfl⟩ : ∃ f', f = f' + 1 := ⟨f - 1, by simp at hf; omega⟩
    have h1 : m[a]? = some (.pair k v (hd l none)) := ho (a, _) (by simp [seg])
    have h2 : k ≠ key := hk (a, k, v) (by simp)
    simp only [hd, findPair, asPair_of h1, Res.ok_bind, if_neg h2]
    exact ih f (by simpa using hf) (fun y hy => ho y (by simp [seg, hy])) (fun y hy => hk y (by simp [hy]))

theorem findPair_some (m : Mem T) (key : Key) (a : Nat) (v : T) (B : List (Nat × Key × T)) : ∀ (A : List (Nat × Key × T)) (f : Nat), A.length + 1 < f →
    (∀ x ∈ seg (A ++ (a, key, v) :: B) none, m[x.1]? = some x.2) → NoKey key A →
    findPair m key f (hd (A ++ (a, key, v) :: B) none) = .ok (some a) := by
  intro A
  induction A with
  | nil =>
    intro f hf ho _
    obtain ⟨f, rfl⟩ : ∃ f', f = f' + 1 := ⟨f - 1, by simp at hf; omega⟩
    have h1 : m[a]? = some (.pair key v (hd B none)) := ho (a, _) (by simp [seg])
    simp only [List.nil_append, hd, findPair, asPair_of h1, Res.ok_bind, if_true]
  | cons x A ih =>
    obtain ⟨b, k, w⟩ := x
    intro f hf ho hk
    obtain ⟨f, rfl⟩ : ∃ f', f = f' + 1 := ⟨f - 1, by simp at hf; omega⟩
    have h1 : m[b]? = some (.pair k w (hd (A ++ (a, key, v) :: B) none)) := ho (b, _) (by simp [seg])
    have h2 : k ≠ key := hk (b, k, w) (by simp)
    simp only [List.cons_append, hd, findPair, asPair_of h1, Res.ok_bind, if_neg h2]
    exact ih f (by simp at hf; omega) (fun y hy => ho y (by simp [seg, hy])) (fun y hy => hk y (by simp [hy]))

theorem findPrev_none (m : Mem T) (key : Key) : ∀ (l : List (Nat × Key × T)) (f : Nat) (pre : Option Nat), l.length < f →
    (∀ x ∈ seg l none, m[x.1]? = some x.2) → NoKey key l → findPrev m key f pre (hd l none) = .ok none := by
  intro l
  induction l with
  | nil =>
    intro f _ hf _ _
    obtain ⟨f, rfl⟩ : ∃ f', f = f' + 1 := ⟨f - 1, by simp at hf; omega⟩
    rfl
  | cons x l ih =>
    obtain ⟨a, k, v⟩ := x
    intro f pre hf ho hk
    obtain ⟨f, rfl⟩ : ∃ f', f = f' + 1 := ⟨f - 1, by simp at hf; omega⟩
    have h1 : m[a]? = some (.pair k v (hd l none)) := ho (a, _) (by simp [seg])
    have h2 : k ≠ key := hk (a, k, v) (by simp)
    simp only [hd, findPrev, asPair_of h1, Res.ok_bind, if_neg h2]
    exact ih f _ (by simpa using hf) (fun y hy => ho y (by simp [seg, hy])) (fun y hy => hk y (by simp [hy]))

/-- The last address of a chain. -/
def lastAddr (pre : Option Nat) : List (Nat × Key × T) → Option Nat
  | [] => pre
  | (a, _, _) :: l => lastAddr (some a) l

theorem lastAddr_append (pre : Option Nat) (A : List (Nat × Key × T)) (a : Nat) (k : Key) (v : T) : lastAddr pre (A ++ [(a, k, v)]) = some a := by
  induction A generalizing pre with
  | nil => rfl
  | cons x A ih => obtain ⟨b, k', v'⟩ := x; exact ih (some b)

theorem findPrev_some (m : Mem T) (key : Key) (a : Nat) (v : T) (B : List (Nat × Key × T)) : ∀ (A : List (Nat × Key × T)) (f : Nat) (pre : Option Nat),
    A.length + 1 < f → (∀ x ∈ seg (A ++ (a, key, v) :: B) none, m[x.1]? = some x.2) → NoKey key A →
    findPrev m key f pre (hd (A ++ (a, key, v) :: B) none) = .ok (some (lastAddr pre A, a)) := by
  intro A
  induction A with
  | nil =>
    intro f pre hf ho _
    obtain ⟨f, rfl⟩ : ∃ f', f = f' + 1 := ⟨f - 1, by simp at hf; omega⟩
    have h1 : m[a]? = some (.pair key v (hd B none)) := ho (a, _) (by simp [seg])
    simp only [List.nil_append, hd, findPrev, asPair_of h1, Res.ok_bind, if_true, lastAddr]
  | cons x A ih =>
    obtain ⟨b, k, w⟩ := x
    intro f pre hf ho hk
    obtain ⟨f, rfl⟩ : ∃ f', f = f' + 1 := ⟨f - 1, by simp at hf; omega⟩
    have h1 : m[b]? = some (.pair k w (hd (A ++ (a, key, v) :: B) none)) := ho (b, _) (by simp [seg])
    have h2 : k ≠ key := hk (b, k, w) (by simp)
    simp only [List.cons_append, hd, findPrev, asPair_of h1, Res.ok_bind, if_neg h2, lastAddr]
    exact ih f _ (by simp at hf; omega) (fun y hy => ho y (by simp [seg, hy])) (fun y hy => hk y (by simp [hy]))

/-! ## The value model on chains -/

theorem updKv_none {k : Key} {v : T} {l : List (Nat × Key × T)} (h : NoKey k l) : updKv k v (plain l) = none := by
  induction l with
  | nil => rfl
  | cons x l ih =>
    have h1 : x.2.1 ≠ k := h x (by simp)
    simp only [plain, List.map_cons, updKv, if_neg h1]
    rw [show List.map Prod.snd l = plain l from rfl, ih fun y hy => h y (by simp [hy])]
    rfl

theorem updKv_some {k : Key} (v : T) {A B : List (Nat × Key × T)} {a : Nat} {v0 : T} (h : NoKey k A) :
    updKv k v (plain (A ++ (a, k, v0) :: B)) = some (plain (A ++ (a, k, v) :: B)) := by
  induction A with
  | nil => simp [plain, updKv]
  | cons x A ih =>
    have h1 : x.2.1 ≠ k := h x (by simp)
    have := ih fun y hy => h y (by simp [hy])
    simp only [plain, List.cons_append, List.map_cons, updKv, if_neg h1] at this ⊢
    rw [this]
    rfl

theorem setKv_none {k : Key} {v : T} {l : List (Nat × Key × T)} (h : NoKey k l) : setKv k v (plain l) = (k, v) :: plain l := by
  rw [setKv, updKv_none h]; rfl

theorem setKv_some {k : Key} (v : T) {A B : List (Nat × Key × T)} {a : Nat} {v0 : T} (h : NoKey k A) :
    setKv k v (plain (A ++ (a, k, v0) :: B)) = plain (A ++ (a, k, v) :: B) := by
  rw [setKv, updKv_some v h]; rfl

theorem any_none {k : Key} {l : List (Nat × Key × T)} (h : NoKey k l) : (plain l).any (fun x => x.1 == k) = false := by
  simp only [plain, List.any_map, List.any_eq_false, Function.comp_apply, beq_iff_eq]
  exact fun x hx => h x hx

theorem any_some {k : Key} {A B : List (Nat × Key × T)} {a : Nat} {v : T} : (plain (A ++ (a, k, v) :: B)).any (fun x => x.1 == k) = true := by
  simp [plain]

theorem eraseP_some {k : Key} {A B : List (Nat × Key × T)} {a : Nat} {v : T} (h : NoKey k A) :
    (plain (A ++ (a, k, v) :: B)).eraseP (fun x => x.1 == k) = plain (A ++ B) := by
  induction A with
  | nil => simp [plain]
  | cons x A ih =>
    have h1 : x.2.1 ≠ k := h x (by simp)
    have := ih fun y hy => h y (by simp [hy])
    simp only [plain, List.cons_append, List.map_cons] at this ⊢
    rw [List.eraseP_cons_of_neg (by simpa using h1), this]

/-! ## Placing children -/

/-- The placement loops, for things of any kind. -/
def placeG {α : Type} (key : α → Hash) (bm : Hash) : List α → List (Option α) → Res (List (Option α))
  | [], a => .ok a
  | e :: es, a => if index bm (key e) < a.length then placeG key bm es (a.set (index bm (key e)) (some e)) else .panic

theorem placeG_value (depth : Nat) (bm : Hash) : ∀ (es : List (Entry T)) (a : List (Option (Entry T))),
    Hamt.placeLoop depth bm es a = placeG (Hamt.bitPosNum depth) bm es a := by
  intro es
  induction es with
  | nil => intro a; rfl
  | cons e es ih => intro a; simp only [Hamt.placeLoop, placeG, ih]

theorem placeG_map {α β : Type} (f : α → β) (key : β → Hash) (bm : Hash) : ∀ (es : List α) (a : List (Option α)),
    placeG key bm (es.map f) (a.map (Option.map f)) = (placeG (fun x => key (f x)) bm es a).bind fun r => .ok (r.map (Option.map f)) := by
  intro es
  induction es with
  | nil => intro a; rfl
  | cons e es ih =>
    intro a
    simp only [List.map_cons, placeG, List.length_map]
    split
    · rw [← ih, List.map_set]; rfl
    · rfl

/-- The address slots that belong to slots with tries. -/
abbrev ptrs (a : List (Option (D T))) : List (Option Nat) := a.map (Option.map D.addr)

theorem bitPosNum_objs {m : Mem T} {d : D T} (h : ∀ x ∈ objs d, m[x.1]? = some x.2) (depth : Nat) :
    bitPosNum m depth d.addr = .ok (Hamt.bitPosNum depth (strip d)) := by
  cases d with
  | kv a hs l =>
    have := h (a, _) (by rw [objs_kv]; exact List.mem_cons_self)
    simp only [addr_kv, bitPosNum, this, strip_kv, Hamt.bitPosNum]
  | node a bm p cs =>
    have := h (a, _) (by rw [objs_node]; exact List.mem_cons_self)
    simp only [addr_node, bitPosNum, this, strip_node, Hamt.bitPosNum]

theorem placeLoop_spec (m : Mem T) (depth : Nat) (bm : Hash) (skip : Bool) : ∀ (ds : List (D T)) (a : List (Option (D T))),
    (∀ x ∈ ds.flatMap objs, m[x.1]? = some x.2) →
    placeLoop m depth bm skip (ds.map fun d => some d.addr) (ptrs a) =
      (placeG (fun d => Hamt.bitPosNum depth (strip d)) bm ds a).bind fun r => .ok (ptrs r) := by
  intro ds
  induction ds with
  | nil => intro a _; rfl
  | cons d ds ih =>
    intro a h
    have h1 := bitPosNum_objs (m := m) (d := d) (fun x hx => h x (by simp [hx])) depth
    simp only [List.map_cons, placeLoop, h1, Res.ok_bind, setSlot, placeG, List.length_map]
    split
    · rw [Res.ok_bind, ← ih _ (fun x hx => h x (by rw [List.flatMap_cons]; exact List.mem_append_right _ hx)), ptrs, ptrs, List.map_set]
      rfl
    · rfl

theorem placeLoop_skip (m : Mem T) (depth : Nat) (bm : Hash) : ∀ (cs : List (Option Nat)) (i : Nat) (a : List (Option Nat)), i < cs.length →
    placeLoop m depth bm true (cs.set i none) a = placeLoop m depth bm true (cs.eraseIdx i) a := by
  intro cs
  induction cs with
  | nil => intro i a hi; simp at hi
  | cons c cs ih =>
    intro i a hi
    cases i with
    | zero => simp [placeLoop]
    | succ i =>
      have hi' : i < cs.length := by simpa using hi
      cases c with
      | none => simpa [placeLoop] using ih i a hi'
      | some c =>
        simp only [List.set_cons_succ, List.eraseIdx_cons_succ, placeLoop]
        congr 1; funext b
        congr 1; funext arr
        exact ih i arr hi'

theorem filterMap_set_none {α : Type} (e : α) : ∀ (a : List (Option α)) (i : Nat), a[i]? = some none →
    ((a.set i (some e)).filterMap id).Perm (e :: a.filterMap id) := by
  intro a
  induction a with
  | nil => intro i h; simp at h
  | cons x a ih =>
    intro i h
    cases i with
    | zero => simp at h; subst h; simp
    | succ i =>
      have h : a[i]? = some none := by simpa using h
      cases x with
      | none => simpa using ih i h
      | some x => simpa using (List.Perm.cons x (ih i h)).trans (.swap _ _ _)

theorem filterMap_set_length {α : Type} (e e' : α) : ∀ (a : List (Option α)) (i : Nat), a[i]? = some (some e') →
    ((a.set i (some e)).filterMap id).length = (a.filterMap id).length := by
  intro a
  induction a with
  | nil => intro i h; simp at h
  | cons x a ih =>
    intro i h
    cases i with
    | zero => simp at h; subst h; simp
    | succ i =>
      have h : a[i]? = some (some e') := by simpa using h
      cases x with
      | none => simpa using ih i h
      | some x => simpa using ih i h

/-- As many writes as slots, and every slot written: every thing is in one slot. -/
theorem placeG_perm {α : Type} (key : α → Hash) (bm : Hash) : ∀ (es : List α) (a r : List (Option α)), placeG key bm es a = .ok r →
    (r.filterMap id).length ≤ (a.filterMap id).length + es.length ∧
    ((r.filterMap id).length = (a.filterMap id).length + es.length → (r.filterMap id).Perm (es ++ a.filterMap id)) := by
  intro es
  induction es with
  | nil => intro a r h; cases h; exact ⟨by simp, fun _ => by simp⟩
  | cons e es ih =>
    intro a r h
    simp only [placeG] at h
    split at h
    next hi =>
      obtain ⟨h1, h2⟩ := ih _ _ h
      rcases hx : a[index bm (key e)]? with _ | x
      · rw [List.getElem?_eq_none_iff] at hx; omega
      · cases x with
        | none =>
          have hp := filterMap_set_none e a _ hx
          have hl := hp.length_eq
          simp only [List.length_cons] at hl ⊢
          refine ⟨by omega, fun hq => ?_⟩
          have := h2 (by omega)
          refine this.trans ((hp.append_left es).trans ?_)
          simpa using List.perm_middle
        | some y =>
          have hl := filterMap_set_length e y a _ hx
          simp only [List.length_cons]
          exact ⟨by omega, fun hq => by omega⟩
    · cases h

theorem allSome_inv : ∀ (a : List (Option (Entry T))) (L : List (Entry T)), allSome a = .ok L → a = L.map some := by
  intro a
  induction a with
  | nil => intro L h; cases h; rfl
  | cons x a ih =>
    intro L h
    cases x with
    | none => cases h
    | some e =>
      simp only [allSome, Res.bind_eq_ok] at h
      obtain ⟨L', h1, h2⟩ := h
      cases h2
      rw [ih L' h1]; rfl

/-- The placement of tries in a new array: the value model and the pointer model do the same. -/
theorem place_agree (depth : Nat) (bm : Hash) (ds : List (D T)) (L : List (Entry T)) (h : place depth bm ds.length (ds.map strip) = .ok L) :
    ∃ ds' : List (D T), ds'.Perm ds ∧ ds'.map strip = L ∧
      placeG (fun d => Hamt.bitPosNum depth (strip d)) bm ds (List.replicate ds.length none) = .ok (ds'.map some) := by
  simp only [place, Res.bind_eq_ok] at h
  obtain ⟨a, h1, h2⟩ := h
  have ha := allSome_inv a L h2
  rw [placeG_value] at h1
  have hm := placeG_map strip (Hamt.bitPosNum depth) bm ds (List.replicate ds.length none)
  rw [List.map_replicate, Option.map_none, h1] at hm
  cases hr : placeG (fun d => Hamt.bitPosNum depth (strip d)) bm ds (List.replicate ds.length none) with
  | panic => rw [hr] at hm; cases hm
  | outOfFuel => rw [hr] at hm; cases hm
  | ok r =>
    rw [hr] at hm
    have hm : a = r.map (Option.map strip) := Res.ok.inj hm
    rw [ha] at hm
    have hall : ∀ x ∈ r, ∃ d, x = some d := by
      intro x hx
      have : Option.map strip x ∈ L.map some := by rw [hm]; exact List.mem_map_of_mem hx
      obtain ⟨e, -, he⟩ := List.mem_map.1 this
      cases x with
      | none => cases he
      | some d => exact ⟨d, rfl⟩
    have hr2 : ∀ r : List (Option (D T)), (∀ x ∈ r, ∃ d, x = some d) → r = (r.filterMap id).map some := by
      intro r
      induction r with
      | nil => intro _; rfl
      | cons x r ih =>
        intro h
        obtain ⟨d, rfl⟩ := h x (by simp)
        have := ih fun y hy => h y (by simp [hy])
        exact congrArg (some d :: ·) this
    have hr3 := hr2 r hall
    have hlen : r.length = ds.length := by
      have : ∀ (es : List (D T)) (a r : List (Option (D T))), placeG (fun d => Hamt.bitPosNum depth (strip d)) bm es a = .ok r → r.length = a.length := by
        intro es
        induction es with
        | nil => intro a r h; cases h; rfl
        | cons e es ih =>
          intro a r h
          simp only [placeG] at h
          split at h
          · simpa using ih _ _ h
          · cases h
      simpa using this _ _ _ hr
    have hp := (placeG_perm _ bm ds _ r hr).2 (by
      have : (r.filterMap id).length = r.length := by
        conv_rhs => rw [hr3]
        simp
      rw [this, hlen]
      have hz : ∀ n, ((List.replicate n (none : Option (D T))).filterMap id).length = 0 := by intro n; simp [List.filterMap_replicate]
      rw [hz]; omega)
    have hz : (List.replicate ds.length (none : Option (D T))).filterMap id = [] := by simp [List.filterMap_replicate]
    rw [hz, List.append_nil] at hp
    refine ⟨r.filterMap id, hp, ?_, by rw [← hr3]⟩
    rw [hr3, List.map_map] at hm
    have hinj : (L.map some) = ((r.filterMap id).map strip).map some := by
      rw [hm, List.map_map]; rfl
    exact (List.map_injective_iff.2 (fun _ _ h => Option.some.inj h) hinj).symm

end GoSTL.Hamt.Heap
