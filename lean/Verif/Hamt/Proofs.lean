import Verif.Hamt.Bits
/-!
# The trie invariant and what the operations do
-/
namespace GoSTL.Hamt
variable {T : Type}

/-- `h` takes the given slots on the way down. -/
def OnPath (h : Hash) (path : List Nat) : Prop := ∀ i p, path[i]? = some p → pos h i = p

theorem OnPath.nil (h : Hash) : OnPath h [] := by intro i p e; simp at e

theorem OnPath.snoc {h : Hash} {path : List Nat} {q : Nat} : OnPath h (path ++ [q]) ↔ OnPath h path ∧ pos h path.length = q := by
  constructor
  · intro H
    refine ⟨?_, H path.length q (by simp)⟩
    intro i p e
    apply H i p
    rw [List.getElem?_append_left]; exact e
    exact (List.getElem?_eq_some_iff.1 e).1
  · rintro ⟨H, rfl⟩ i p e
    by_cases c : i < path.length
    · rw [List.getElem?_append_left c] at e; exact H i p e
    · rw [List.getElem?_append_right (by omega)] at e
      have : i - path.length = 0 := by
        by_contra hh
        rw [List.getElem?_eq_none (by simp; omega)] at e; cases e
      rw [this] at e; simp at e; subst e
      congr 1; omega

theorem pos_bit (h : Hash) (d i : Nat) (hi : i < 6) : (pos h d).testBit i = h.getLsbD (d * 6 + i) := by
  have h0 : pos h d = (h >>> (d * 6)).toNat % 2 ^ 6 := by
    simp only [pos, BitVec.toNat_and]
    exact Nat.and_two_pow_sub_one_eq_mod _ 6
  rw [h0, Nat.testBit_mod_two_pow, ← BitVec.getLsbD, BitVec.getLsbD_ushiftRight]
  simp [hi]

/-- Hashes that take the same slot on 11 levels are equal. -/
theorem OnPath.eq {h h' : Hash} {path : List Nat} (hp : OnPath h path) (hp' : OnPath h' path) (hl : 11 ≤ path.length) : h = h' := by
  apply BitVec.eq_of_getLsbD_eq
  intro i hi
  have hd : i / 6 < path.length := by omega
  have e : path[i / 6]? = some path[i / 6] := by simp [hd]
  have h1 := hp _ _ e
  have h2 := hp' _ _ e
  have a1 := pos_bit h (i / 6) (i % 6) (by omega)
  have a2 := pos_bit h' (i / 6) (i % 6) (by omega)
  have e2 : i / 6 * 6 + i % 6 = i := by omega
  rw [e2] at a1 a2
  rw [← a1, ← a2, h1, h2]

/-! ## Contents -/

/-- The pair is in the subtrie. -/
inductive Has : Entry T → Key → T → Prop
  | kv {h l k v} : (k, v) ∈ l → Has (.kv h l) k v
  | node {bm p cs c k v} : c ∈ cs → Has c k v → Has (.node bm p cs) k v

/-- The pair is below one of the entries. -/
def HasL (cs : List (Entry T)) (k : Key) (v : T) : Prop := ∃ c ∈ cs, Has c k v

theorem has_kv {h : Hash} {l : List (Key × T)} {k : Key} {v : T} : Has (.kv h l) k v ↔ (k, v) ∈ l :=
  ⟨fun h => by cases h; assumption, .kv⟩

theorem has_node {bm : Hash} {p : Nat} {cs : List (Entry T)} {k : Key} {v : T} : Has (.node bm p cs) k v ↔ HasL cs k v :=
  ⟨fun h => by cases h with | node h1 h2 => exact ⟨_, h1, h2⟩, fun ⟨_, h1, h2⟩ => .node h1 h2⟩

theorem HasL.perm {cs cs' : List (Entry T)} (h : cs.Perm cs') (k : Key) (v : T) : HasL cs k v ↔ HasL cs' k v := by
  simp only [HasL]
  constructor
  · rintro ⟨c, h1, h2⟩; exact ⟨c, h.subset h1, h2⟩
  · rintro ⟨c, h1, h2⟩; exact ⟨c, h.symm.subset h1, h2⟩

theorem HasL.cons {e : Entry T} {cs : List (Entry T)} {k : Key} {v : T} : HasL (e :: cs) k v ↔ Has e k v ∨ HasL cs k v := by
  simp [HasL]

/-- Two different hashes are present. -/
def TwoHashes (hashOf : Key → Hash) (cs : List (Entry T)) : Prop :=
  ∃ k v k' v', HasL cs k v ∧ HasL cs k' v' ∧ hashOf k ≠ hashOf k'

/-- The trie invariant for the entry reached by `path`. -/
inductive WF (hashOf : Key → Hash) : List Nat → Entry T → Prop
  | kv {path : List Nat} {h : Hash} {l : List (Key × T)} : l ≠ [] → (l.map Prod.fst).Nodup → (∀ x ∈ l, hashOf x.1 = h) → OnPath h path → WF hashOf path (.kv h l)
  | node {path : List Nat} {bm : Hash} {p : Nat} {cs : List (Entry T)} : path.length ≤ 10 → cs.map (posAt path.length) = bits bm →
      (∀ c ∈ cs, WF hashOf (path ++ [posAt path.length c]) c) → TwoHashes hashOf cs → WF hashOf path (.node bm p cs)

/-- The invariant of a bitmap node's bitmap and children. -/
structure WFN (hashOf : Key → Hash) (path : List Nat) (n : Node T) : Prop where
  len : path.length ≤ 10
  slots : n.children.map (posAt path.length) = bits n.bitmap
  sub : ∀ c ∈ n.children, WF hashOf (path ++ [posAt path.length c]) c

theorem WF.wfn {hashOf : Key → Hash} {path : List Nat} {bm : Hash} {p : Nat} {cs : List (Entry T)} (h : WF hashOf path (.node bm p cs)) :
    WFN hashOf path ⟨bm, cs⟩ ∧ TwoHashes hashOf cs := by
  cases h with | node h1 h2 h3 h4 => exact ⟨⟨h1, h2, h3⟩, h4⟩

theorem WF.onPath {hashOf : Key → Hash} {path : List Nat} {e : Entry T} (h : WF hashOf path e) : ∀ k v, Has e k v → OnPath (hashOf k) path := by
  induction h with
  | kv h1 h2 h3 h4 =>
    intro k v hh
    rw [h3 _ (has_kv.1 hh)]; exact h4
  | node h1 h2 h3 h4 ih =>
    intro k v hh
    obtain ⟨c, hc, h⟩ := has_node.1 hh
    exact (OnPath.snoc.1 (ih c hc k v h)).1

theorem WF.nonempty {hashOf : Key → Hash} {path : List Nat} {e : Entry T} (h : WF hashOf path e) : ∃ k v, Has e k v := by
  cases h with
  | @kv _ _ l h1 h2 h3 h4 =>
    obtain ⟨x, hx⟩ := List.exists_mem_of_ne_nil l h1
    exact ⟨x.1, x.2, .kv hx⟩
  | node h1 h2 h3 h4 =>
    obtain ⟨k, v, _, _, h, _⟩ := h4
    exact ⟨k, v, has_node.2 h⟩

section node
variable {hashOf : Key → Hash} {path : List Nat} {n : Node T}

theorem WFN.pos_of (hn : WFN hashOf path n) {c : Entry T} (hc : c ∈ n.children) {k : Key} {v : T} (h : Has c k v) :
    pos (hashOf k) path.length = posAt path.length c := (OnPath.snoc.1 ((hn.sub c hc).onPath k v h)).2

theorem WFN.onPath (hn : WFN hashOf path n) {k : Key} {v : T} (h : HasL n.children k v) : OnPath (hashOf k) path := by
  obtain ⟨c, hc, h⟩ := h
  exact (OnPath.snoc.1 ((hn.sub c hc).onPath k v h)).1

/-- An empty slot: nothing with such a hash. -/
theorem WFN.absent (hn : WFN hashOf path n) {k : Key} (hp : pos (hashOf k) path.length ∉ bits n.bitmap) (v : T) : ¬ HasL n.children k v := by
  rintro ⟨c, hc, h⟩
  apply hp
  rw [hn.pos_of hc h, ← hn.slots]
  exact List.mem_map.2 ⟨c, hc, rfl⟩

theorem WFN.idx_eq (hn : WFN hashOf path n) {i j : Nat} {c c' : Entry T} (h1 : n.children[i]? = some c) (h2 : n.children[j]? = some c') (h : posAt path.length c = posAt path.length c') : i = j := by
  have e1 : (bits n.bitmap)[i]? = some (posAt path.length c) := by rw [← hn.slots, List.getElem?_map, h1]; rfl
  have e2 : (bits n.bitmap)[j]? = some (posAt path.length c') := by rw [← hn.slots, List.getElem?_map, h2]; rfl
  rw [← h] at e2
  rw [← index_get e1, index_get e2]

/-- A taken slot. -/
theorem WFN.slot (hn : WFN hashOf path n) {q : Nat} (hq : q ∈ bits n.bitmap) :
    ∃ c, n.children[index n.bitmap (bitPos q)]? = some c ∧ posAt path.length c = q ∧ c ∈ n.children ∧
      ∀ k v, pos (hashOf k) path.length = q → (HasL n.children k v ↔ Has c k v) := by
  have h := get_index hq
  rw [← hn.slots, List.getElem?_map] at h
  cases hc : n.children[index n.bitmap (bitPos q)]? with
  | none => rw [hc] at h; cases h
  | some c =>
    rw [hc] at h
    have hq : posAt path.length c = q := by simpa using h
    refine ⟨c, rfl, hq, List.mem_of_getElem? hc, ?_⟩
    intro k v hk
    constructor
    · rintro ⟨c', hc', h'⟩
      have e := hn.pos_of hc' h'
      obtain ⟨j, hj⟩ := List.mem_iff_getElem?.1 hc'
      have := hn.idx_eq hc hj (by rw [hq, ← e, hk])
      rw [← this, hc] at hj
      cases hj; exact h'
    · intro h'; exact ⟨c, List.mem_of_getElem? hc, h'⟩

/-- Replacing the entry of a slot. -/
theorem WFN.set (hn : WFN hashOf path n) {i : Nat} {c c' : Entry T} (hi : n.children[i]? = some c) (hp : posAt path.length c' = posAt path.length c)
    (hc' : WF hashOf (path ++ [posAt path.length c]) c') :
    WFN hashOf path { n with children := n.children.set i c' } ∧
    ∀ k v, HasL (n.children.set i c') k v ↔ if pos (hashOf k) path.length = posAt path.length c then Has c' k v else HasL n.children k v := by
  have hil := (List.getElem?_eq_some_iff.1 hi).1
  have hci : n.children[i] = c := (List.getElem?_eq_some_iff.1 hi).2
  refine ⟨⟨hn.len, ?_, ?_⟩, ?_⟩
  · show (n.children.set i c').map _ = _
    rw [← hn.slots, List.map_set, hp, ← hci]
    apply List.ext_getElem?
    intro j
    rw [List.getElem?_set]
    split
    · subst i; simp [hil]
    · rfl
  · intro x hx
    rcases List.mem_or_eq_of_mem_set hx with h | rfl
    · exact hn.sub x h
    · rw [hp]; exact hc'
  · intro k v
    constructor
    · rintro ⟨x, hx, h⟩
      obtain ⟨j, hj⟩ := List.mem_iff_getElem?.1 hx
      rw [List.getElem?_set] at hj
      split at hj
      · simp [hil] at hj
        subst hj
        rw [if_pos]; exact h
        exact (OnPath.snoc.1 (hc'.onPath k v h)).2
      · rename_i hne
        have hxm := List.mem_of_getElem? hj
        rw [if_neg]; exact ⟨x, hxm, h⟩
        intro e
        exact hne (hn.idx_eq hi hj (by rw [← e, hn.pos_of hxm h]))
    · intro h
      split at h
      · exact ⟨c', List.mem_set hil _, h⟩
      · rename_i hne
        obtain ⟨x, hx, h⟩ := h
        obtain ⟨j, hj⟩ := List.mem_iff_getElem?.1 hx
        refine ⟨x, ?_, h⟩
        apply List.mem_of_getElem? (i := j)
        rw [List.getElem?_set, if_neg]; exact hj
        rintro rfl
        rw [hi] at hj; cases hj
        exact hne (hn.pos_of hx h)

end node

/-! ## find -/

theorem find_chain {l : List (Key × T)} (hn : (l.map Prod.fst).Nodup) (k : Key) (v : T) :
    (l.find? (fun x => x.1 == k)).map Prod.snd = some v ↔ (k, v) ∈ l := by
  induction l with
  | nil => simp
  | cons x l ih =>
    rw [List.map_cons, List.nodup_cons] at hn
    by_cases c : x.1 = k
    · rw [List.find?_cons_of_pos (by simp [c])]
      simp only [Option.map_some, Option.some.injEq, List.mem_cons]
      constructor
      · rintro rfl; left; rw [← c]
      · rintro (h | h)
        · rw [← h]
        · exact absurd (List.mem_map.2 ⟨_, h, rfl⟩) (c ▸ hn.1)
    · rw [List.find?_cons_of_neg (by simp [c]), ih hn.2]
      simp only [List.mem_cons]
      constructor
      · exact .inr
      · rintro (h | h)
        · exact absurd (by rw [← h]) c
        · exact h

theorem find_spec {hashOf : Key → Hash} (k : Key) : ∀ (f : Nat) (path : List Nat) (n : Node T), WFN hashOf path n → 11 ≤ f + path.length → OnPath (hashOf k) path →
    ∃ r, find f path.length n (hashOf k) k = .ok r ∧ ∀ v, r = some v ↔ HasL n.children k v := by
  intro f
  induction f with
  | zero => intro path n hn hf; have := hn.len; omega
  | succ f ih =>
    intro path n hn hf hp
    have hlt := pos_lt (hashOf k) path.length
    simp only [find]
    by_cases hb : pos (hashOf k) path.length ∈ bits n.bitmap
    · rw [if_neg (by rw [test_zero hlt]; simpa using hb)]
      obtain ⟨c, h1, h2, h3, h4⟩ := hn.slot hb
      rw [h1]
      simp only [Res.ofOption_some, Res.ok_bind]
      have hw := hn.sub c h3
      simp only [h4 k _ rfl]
      cases c with
      | kv h' l =>
        dsimp only
        cases hw with
        | kv w1 w2 w3 w4 =>
        by_cases c : h' = hashOf k
        · refine ⟨_, by rw [if_neg (by simpa using c)], fun v => ?_⟩
          rw [find_chain w2, has_kv]
        · refine ⟨none, by rw [if_pos c], fun v => ?_⟩
          simp only [has_kv, false_iff, reduceCtorEq]
          intro hm
          exact c (w3 _ hm).symm
      | node bm p cs =>
        have hw' := hw.wfn.1
        rw [h2] at hw'
        have := ih _ _ hw' (by simp; omega) (OnPath.snoc.2 ⟨hp, rfl⟩)
        simp only [List.length_append, List.length_cons, List.length_nil, Nat.zero_add] at this
        obtain ⟨r, e1, e2⟩ := this
        exact ⟨r, e1, fun v => by rw [e2, has_node]⟩
    · rw [if_pos ((test_zero hlt).2 hb)]
      exact ⟨none, rfl, fun v => by simpa using hn.absent hb v⟩

theorem WFN.unique {hashOf : Key → Hash} {path : List Nat} {n : Node T} (hn : WFN hashOf path n) {k : Key} {v v' : T} (h : HasL n.children k v) (h' : HasL n.children k v') : v = v' := by
  obtain ⟨r, _, h2⟩ := find_spec k 11 path n hn (by omega) (hn.onPath h)
  have := (h2 v).2 h
  rw [(h2 v').2 h'] at this
  exact (Option.some.inj this).symm

/-! ## insert -/

theorem updKv_spec (k : Key) (v : T) : ∀ l : List (Key × T), (k ∉ l.map Prod.fst → updKv k v l = none) ∧
    (k ∈ l.map Prod.fst → (l.map Prod.fst).Nodup → ∃ l', updKv k v l = some l' ∧ l'.map Prod.fst = l.map Prod.fst ∧
      ∀ k' v', (k', v') ∈ l' ↔ (k' = k ∧ v' = v) ∨ (k' ≠ k ∧ (k', v') ∈ l)) := by
  intro l
  induction l with
  | nil => exact ⟨fun _ => rfl, fun h => by simp at h⟩
  | cons x l ih =>
    constructor
    · intro h
      rw [List.map_cons, List.mem_cons, not_or] at h
      rw [updKv, if_neg (fun c => h.1 c.symm), ih.1 h.2]; rfl
    · intro h hn
      rw [List.map_cons, List.nodup_cons] at hn
      by_cases c : x.1 = k
      · refine ⟨_, by rw [updKv, if_pos c], by simp, ?_⟩
        intro k' v'
        simp only [List.mem_cons, Prod.mk.injEq]
        subst c
        constructor
        · rintro (⟨rfl, rfl⟩ | h)
          · exact .inl ⟨rfl, rfl⟩
          · refine .inr ⟨?_, .inr h⟩
            rintro rfl
            exact hn.1 (List.mem_map.2 ⟨_, h, rfl⟩)
        · rintro (⟨rfl, rfl⟩ | ⟨h1, h | h⟩)
          · exact .inl ⟨rfl, rfl⟩
          · exact absurd (by rw [← h]) h1
          · exact .inr h
      · have hm : k ∈ l.map Prod.fst := by
          rw [List.map_cons, List.mem_cons] at h
          exact h.resolve_left (fun e => c e.symm)
        obtain ⟨l', h1, h2, h3⟩ := ih.2 hm hn.2
        refine ⟨x :: l', by rw [updKv, if_neg c, h1]; rfl, by simp [h2], ?_⟩
        intro k' v'
        simp only [List.mem_cons, h3]
        constructor
        · rintro (h | h | ⟨ha, hb⟩)
          · refine .inr ⟨?_, .inl h⟩
            intro e
            exact c (by rw [← e, ← h])
          · exact .inl h
          · exact .inr ⟨ha, .inr hb⟩
        · rintro (h | ⟨h1, h | h⟩)
          · exact .inr (.inl h)
          · exact .inl h
          · exact .inr (.inr ⟨h1, h⟩)

theorem setKv_spec (k : Key) (v : T) (l : List (Key × T)) (hn : (l.map Prod.fst).Nodup) :
    setKv k v l ≠ [] ∧ ((setKv k v l).map Prod.fst).Nodup ∧ ∀ k' v', (k', v') ∈ setKv k v l ↔ (k' = k ∧ v' = v) ∨ (k' ≠ k ∧ (k', v') ∈ l) := by
  have H := updKv_spec k v l
  by_cases c : k ∈ l.map Prod.fst
  · obtain ⟨l', h1, h2, h3⟩ := H.2 c hn
    simp only [setKv, h1, Option.getD_some]
    refine ⟨?_, by rw [h2]; exact hn, h3⟩
    rintro rfl
    simp at h2; rw [h2] at c; simp at c
  · simp only [setKv, H.1 c, Option.getD_none]
    refine ⟨by simp, by rw [List.map_cons, List.nodup_cons]; exact ⟨c, hn⟩, ?_⟩
    intro k' v'
    simp only [List.mem_cons, Prod.mk.injEq]
    constructor
    · rintro (h | h)
      · exact .inl h
      · refine .inr ⟨?_, h⟩
        rintro rfl
        exact c (List.mem_map.2 ⟨_, h, rfl⟩)
    · rintro (h | ⟨_, h⟩)
      · exact .inl h
      · exact .inr h

theorem insert_spec {hashOf : Key → Hash} : ∀ (f : Nat) (path : List Nat) (n : Node T) (hash : Hash) (kvs : List (Key × T)),
    WFN hashOf path n → 11 ≤ f + path.length → OnPath hash path → kvs ≠ [] → (kvs.map Prod.fst).Nodup → (∀ x ∈ kvs, hashOf x.1 = hash) →
    (kvs.length = 1 ∨ ∀ k v, HasL n.children k v → hashOf k ≠ hash) →
    ∃ n', insert f path.length n hash kvs = .ok n' ∧ WFN hashOf path n' ∧
      ∀ k v, HasL n'.children k v ↔ (k, v) ∈ kvs ∨ (k ∉ kvs.map Prod.fst ∧ HasL n.children k v) := by
  intro f
  induction f with
  | zero => intro path n hash kvs hn hf; have := hn.len; omega
  | succ f ih =>
    intro path n hash kvs hn hf hp hne hnd hh hone
    have hlt := pos_lt hash path.length
    have hkey : ∀ k, k ∈ kvs.map Prod.fst → hashOf k = hash := by
      intro k hk
      obtain ⟨x, hx, rfl⟩ := List.mem_map.1 hk
      exact hh x hx
    simp only [insert]
    by_cases hb : pos hash path.length ∈ bits n.bitmap
    · rw [if_neg (by rw [test_zero hlt]; simpa using hb)]
      obtain ⟨c, h1, h2, h3, h4⟩ := hn.slot hb
      rw [h1]
      simp only [Res.ofOption_some, Res.ok_bind]
      have hw := hn.sub c h3
      -- what a replacement of the slot has to satisfy
      have key : ∀ c' : Entry T, posAt path.length c' = pos hash path.length → WF hashOf (path ++ [pos hash path.length]) c' →
          (∀ k v, Has c' k v ↔ (k, v) ∈ kvs ∨ (k ∉ kvs.map Prod.fst ∧ Has c k v)) →
          WFN hashOf path { n with children := n.children.set (index n.bitmap (bitPos (pos hash path.length))) c' } ∧
          ∀ k v, HasL (n.children.set (index n.bitmap (bitPos (pos hash path.length))) c') k v ↔ (k, v) ∈ kvs ∨ (k ∉ kvs.map Prod.fst ∧ HasL n.children k v) := by
        intro c' hp' hw' hc'
        obtain ⟨r1, r2⟩ := hn.set h1 (by rw [hp', h2]) (by rw [h2]; exact hw')
        refine ⟨r1, fun k v => ?_⟩
        rw [r2, h2]
        split
        · rename_i e
          rw [hc', h4 k v e]
        · rename_i e
          have : k ∉ kvs.map Prod.fst := fun hm => e (by rw [hkey k hm])
          constructor
          · intro h; exact .inr ⟨this, h⟩
          · rintro (h | h)
            · exact absurd (List.mem_map.2 ⟨_, h, rfl⟩) this
            · exact h.2
      cases c with
      | kv h' l =>
        dsimp only
        cases hw with
        | kv w1 w2 w3 w4 =>
        rw [h2] at w4
        by_cases c : h' = hash
        · subst c
          rw [if_pos rfl]
          have hl1 : kvs.length = 1 := by
            rcases hone with h | h
            · exact h
            · exfalso
              obtain ⟨x, hx⟩ := List.exists_mem_of_ne_nil l w1
              exact h x.1 x.2 ⟨_, h3, .kv hx⟩ (w3 x hx)
          obtain ⟨⟨k, v⟩, rfl⟩ := List.length_eq_one_iff.1 hl1
          obtain ⟨s1, s2, s3⟩ := setKv_spec k v l w2
          have hk : hashOf k = h' := hh (k, v) (by simp)
          refine ⟨_, rfl, ?_⟩
          apply key
          · rfl
          · refine .kv s1 s2 ?_ w4
            rintro ⟨k', v'⟩ hx
            rcases (s3 k' v').1 hx with ⟨rfl, _⟩ | ⟨_, h⟩
            · exact hk
            · exact w3 _ h
          · intro k' v'
            rw [has_kv, has_kv, s3]
            simp
        · rw [if_neg c]
          have hlen : path.length + 1 ≤ 10 := by
            by_contra hcon
            exact c (OnPath.eq w4 (OnPath.snoc.2 ⟨hp, rfl⟩) (by simp; omega))
          have e0 : WFN hashOf (path ++ [pos hash path.length]) (⟨0, []⟩ : Node T) := ⟨by simpa using hlen, bits_zero.symm, by simp⟩
          have i1 := ih (path ++ [pos hash path.length]) ⟨0, []⟩ h' l e0 (by simp; omega) w4 w1 w2 w3 (.inr (by rintro k v ⟨_, h, _⟩; simp at h))
          simp only [List.length_append, List.length_cons, List.length_nil, Nat.zero_add] at i1
          obtain ⟨n1, a1, a2, a3⟩ := i1
          have i2 := ih (path ++ [pos hash path.length]) n1 hash kvs a2 (by simp; omega) (OnPath.snoc.2 ⟨hp, rfl⟩) hne hnd hh (.inr (by
            intro k v h e
            rcases (a3 k v).1 h with h | ⟨_, _, h, _⟩
            · exact c ((w3 _ h).symm.trans e)
            · simp at h))
          simp only [List.length_append, List.length_cons, List.length_nil, Nat.zero_add] at i2
          obtain ⟨n2, b1, b2, b3⟩ := i2
          rw [a1]; simp only [Res.ok_bind]; rw [b1]; simp only [Res.ok_bind]
          refine ⟨_, rfl, ?_⟩
          have a4 : ∀ k v, HasL n1.children k v ↔ (k, v) ∈ l := by
            intro k v; rw [a3]
            constructor
            · rintro (h | ⟨_, _, h, _⟩)
              · exact h
              · simp at h
            · exact .inl
          apply key
          · rfl
          · refine .node b2.len b2.slots b2.sub ?_
            obtain ⟨x, hx⟩ := List.exists_mem_of_ne_nil l w1
            obtain ⟨y, hy⟩ := List.exists_mem_of_ne_nil kvs hne
            refine ⟨x.1, x.2, y.1, y.2, (b3 _ _).2 (.inr ⟨?_, (a4 _ _).2 hx⟩), (b3 _ _).2 (.inl hy), ?_⟩
            · intro hm
              exact c ((w3 x hx).symm.trans (hkey _ hm))
            · rw [w3 x hx, hh y hy]; exact c
          · intro k v
            rw [has_node, b3, a4, has_kv]
      | node bm p cs =>
        obtain ⟨hw', htwo⟩ := hw.wfn
        rw [h2] at hw'
        have i1 := ih _ ⟨bm, cs⟩ hash kvs hw' (by simp; omega) (OnPath.snoc.2 ⟨hp, rfl⟩) hne hnd hh (by
          rcases hone with h | h
          · exact .inl h
          · exact .inr (fun k v hm => h k v ⟨_, h3, has_node.2 hm⟩))
        simp only [List.length_append, List.length_cons, List.length_nil, Nat.zero_add] at i1
        obtain ⟨n1, a1, a2, a3⟩ := i1
        dsimp only
        rw [a1]; simp only [Res.ok_bind]
        refine ⟨_, rfl, ?_⟩
        apply key
        · exact h2
        · refine .node a2.len a2.slots a2.sub ?_
          have keep : ∀ k v, HasL cs k v → ∃ v', HasL n1.children k v' := by
            intro k v h
            by_cases hk : k ∈ kvs.map Prod.fst
            · obtain ⟨x, hx, rfl⟩ := List.mem_map.1 hk
              exact ⟨x.2, (a3 _ _).2 (.inl hx)⟩
            · exact ⟨v, (a3 _ _).2 (.inr ⟨hk, h⟩)⟩
          obtain ⟨k, v, k', v', t1, t2, t3⟩ := htwo
          obtain ⟨_, u1⟩ := keep k v t1
          obtain ⟨_, u2⟩ := keep k' v' t2
          exact ⟨k, _, k', _, u1, u2, t3⟩
        · intro k v
          rw [has_node, a3, has_node]
    · rw [if_pos ((test_zero hlt).2 hb)]
      have hperm : ((Entry.kv hash kvs :: n.children).map (posAt path.length)).Perm (bits (n.bitmap ||| bitPos (pos hash path.length))) := by
        rw [List.map_cons, hn.slots]
        show (pos hash path.length :: bits n.bitmap).Perm _
        rw [List.perm_ext_iff_of_nodup (List.nodup_cons.2 ⟨hb, bits_nodup _⟩) (bits_nodup _)]
        intro a
        rw [mem_bits_or hlt, List.mem_cons]
      obtain ⟨L, l1, l2, l3⟩ := place_spec path.length _ (Entry.kv hash kvs :: n.children) (n.children.length + 1) (by simp) hperm
      rw [l1]; simp only [Res.ok_bind]
      refine ⟨_, rfl, ⟨hn.len, l3, ?_⟩, ?_⟩
      · intro c hc
        rcases List.mem_cons.1 (l2.subset hc) with rfl | h
        · exact .kv hne hnd hh (OnPath.snoc.2 ⟨hp, rfl⟩)
        · exact hn.sub c h
      · intro k v
        show HasL L k v ↔ _
        rw [HasL.perm l2, HasL.cons, has_kv]
        constructor
        · rintro (h | h)
          · exact .inl h
          · refine .inr ⟨fun hm => ?_, h⟩
            exact hn.absent (by rw [hkey k hm]; exact hb) v h
        · rintro (h | h)
          · exact .inl h
          · exact .inr h.2

/-! ## erase -/

theorem eraseP_key {l : List (Key × T)} (k : Key) (hn : (l.map Prod.fst).Nodup) :
    ((l.eraseP (fun x => x.1 == k)).map Prod.fst).Nodup ∧ ∀ k' v', (k', v') ∈ l.eraseP (fun x => x.1 == k) ↔ k' ≠ k ∧ (k', v') ∈ l := by
  refine ⟨hn.sublist (List.Sublist.map _ List.eraseP_sublist), ?_⟩
  induction l with
  | nil => simp
  | cons x l ih =>
    rw [List.map_cons, List.nodup_cons] at hn
    intro k' v'
    by_cases c : x.1 = k
    · rw [List.eraseP_cons_of_pos (by simp [c])]
      simp only [List.mem_cons]
      constructor
      · intro h
        refine ⟨?_, .inr h⟩
        rintro rfl
        exact hn.1 (c ▸ List.mem_map.2 ⟨_, h, rfl⟩)
      · rintro ⟨h1, h | h⟩
        · exact absurd (by rw [← c, ← h]) h1
        · exact h
    · rw [List.eraseP_cons_of_neg (by simp [c])]
      simp only [List.mem_cons, ih hn.2]
      constructor
      · rintro (h | h)
        · refine ⟨?_, .inl h⟩
          rintro rfl
          exact c (by rw [← h])
        · exact ⟨h.1, .inr h.2⟩
      · rintro ⟨h1, h | h⟩
        · exact .inl h
        · exact .inr ⟨h1, h⟩

theorem perm_eraseIdx {α : Type} {l : List α} {i : Nat} {a : α} (h : l[i]? = some a) : l.Perm (a :: l.eraseIdx i) := by
  induction l generalizing i with
  | nil => simp at h
  | cons x l ih =>
    cases i with
    | zero => simp at h; subst h; simp
    | succ i =>
      simp at h
      rw [List.eraseIdx_cons_succ]
      exact ((ih h).cons x).trans (.swap _ _ _)

/-- A node is empty, has one key-value node only, or holds two hashes. -/
theorem WFN.shape {hashOf : Key → Hash} {path : List Nat} {n : Node T} (hn : WFN hashOf path n) :
    (∃ h l, n.children = [.kv h l]) ∨ n.children = [] ∨ TwoHashes hashOf n.children := by
  match hc : n.children with
  | [] => exact .inr (.inl rfl)
  | [.kv h l] => exact .inl ⟨h, l, rfl⟩
  | [.node bm p cs] =>
    right; right
    have := (hn.sub (.node bm p cs) (by rw [hc]; simp)).wfn.2
    obtain ⟨k, v, k', v', h1, h2, h3⟩ := this
    exact ⟨k, v, k', v', ⟨_, List.mem_singleton.2 rfl, has_node.2 h1⟩, ⟨_, List.mem_singleton.2 rfl, has_node.2 h2⟩, h3⟩
  | c :: c' :: cs =>
    right; right
    have m1 : c ∈ n.children := by rw [hc]; simp
    have m2 : c' ∈ n.children := by rw [hc]; simp
    obtain ⟨k, v, h1⟩ := (hn.sub c m1).nonempty
    obtain ⟨k', v', h2⟩ := (hn.sub c' m2).nonempty
    refine ⟨k, v, k', v', ⟨c, by simp, h1⟩, ⟨c', by simp, h2⟩, ?_⟩
    intro e
    have := hn.idx_eq (i := 0) (j := 1) (c := c) (c' := c') (by rw [hc]; rfl) (by rw [hc]; rfl) (by rw [← hn.pos_of m1 h1, ← hn.pos_of m2 h2, e])
    omega

/-- Erasing a pair leaves the rest. -/
theorem erase_spec {hashOf : Key → Hash} (k : Key) : ∀ (f : Nat) (path : List Nat) (n : Node T), WFN hashOf path n → 11 ≤ f + path.length → OnPath (hashOf k) path →
    ∃ b n', erase f path.length n (hashOf k) k = .ok (b, n') ∧ WFN hashOf path n' ∧ (b = true ↔ ∃ v, HasL n.children k v) ∧
      (∀ k' v', HasL n'.children k' v' ↔ k' ≠ k ∧ HasL n.children k' v') := by
  intro f
  induction f with
  | zero => intro path n hn hf; have := hn.len; omega
  | succ f ih =>
    intro path n hn hf hp
    have hlt := pos_lt (hashOf k) path.length
    have same : (∀ v, ¬ HasL n.children k v) → ∀ k' v', HasL n.children k' v' ↔ k' ≠ k ∧ HasL n.children k' v' := by
      intro h k' v'
      constructor
      · intro h'
        refine ⟨?_, h'⟩
        rintro rfl
        exact h v' h'
      · exact And.right
    simp only [erase]
    by_cases hb : pos (hashOf k) path.length ∈ bits n.bitmap
    · rw [if_neg (by rw [test_zero hlt]; simpa using hb)]
      obtain ⟨c, h1, h2, h3, h4⟩ := hn.slot hb
      rw [h1]
      simp only [Res.ofOption_some, Res.ok_bind]
      have hw := hn.sub c h3
      have hk4 := fun v => h4 k v rfl
      have key : ∀ c' : Entry T, posAt path.length c' = pos (hashOf k) path.length → WF hashOf (path ++ [pos (hashOf k) path.length]) c' →
          (∀ k' v, Has c' k' v ↔ k' ≠ k ∧ Has c k' v) →
          WFN hashOf path { n with children := n.children.set (index n.bitmap (bitPos (pos (hashOf k) path.length))) c' } ∧
          ∀ k' v, HasL (n.children.set (index n.bitmap (bitPos (pos (hashOf k) path.length))) c') k' v ↔ k' ≠ k ∧ HasL n.children k' v := by
        intro c' hp' hw' hc'
        obtain ⟨r1, r2⟩ := hn.set h1 (by rw [hp', h2]) (by rw [h2]; exact hw')
        refine ⟨r1, fun k' v => ?_⟩
        rw [r2, h2]
        split
        · rename_i e
          rw [hc', h4 k' v e]
        · rename_i e
          constructor
          · intro h
            refine ⟨?_, h⟩
            rintro rfl; exact e rfl
          · exact And.right
      cases c with
      | kv h' l =>
        dsimp only
        cases hw with
        | kv w1 w2 w3 w4 =>
        rw [h2] at w4
        by_cases c : h' = hashOf k
        · rw [if_neg (by simpa using c)]
          obtain ⟨d1, d2⟩ := eraseP_key k w2
          by_cases ca : l.any (fun x => x.1 == k) = true
          · rw [if_pos ca]
            have hin : ∃ v, HasL n.children k v := by
              rw [List.any_eq_true] at ca
              obtain ⟨x, hx, e⟩ := ca
              have e : x.1 = k := by simpa using e
              exact ⟨x.2, (hk4 _).2 (has_kv.2 (e ▸ hx))⟩
            cases he : l.eraseP (fun x => x.1 == k) with
            | nil =>
              dsimp only
              have hpe := perm_eraseIdx h1
              have hil := (List.getElem?_eq_some_iff.1 h1).1
              have hperm : ((n.children.eraseIdx (index n.bitmap (bitPos (pos (hashOf k) path.length)))).map (posAt path.length)).Perm
                  (bits (n.bitmap &&& ~~~ bitPos (pos (hashOf k) path.length))) := by
                have p1 := hpe.map (posAt path.length)
                rw [hn.slots, List.map_cons, h2] at p1
                have nd := p1.nodup_iff.1 (bits_nodup _)
                rw [List.nodup_cons] at nd
                rw [List.perm_ext_iff_of_nodup nd.2 (bits_nodup _)]
                intro a
                rw [mem_bits_andnot, p1.mem_iff, List.mem_cons]
                constructor
                · intro h
                  refine ⟨?_, .inr h⟩
                  rintro rfl; exact nd.1 h
                · rintro ⟨e1, e2 | e2⟩
                  · exact absurd e2 e1
                  · exact e2
              obtain ⟨L, l1, l2, l3⟩ := place_spec path.length _ _ (n.children.length - 1) (by rw [List.length_eraseIdx]; simp [hil]) hperm
              rw [l1]; simp only [Res.ok_bind]
              refine ⟨_, _, rfl, ⟨hn.len, l3, ?_⟩, by simpa using hin, ?_⟩
              · intro x hx
                exact hn.sub x (hpe.symm.subset (List.mem_cons_of_mem _ (l2.subset hx)))
              · intro k' v'
                show HasL L k' v' ↔ _
                rw [HasL.perm l2, HasL.perm hpe, HasL.cons, has_kv]
                constructor
                · intro h
                  refine ⟨?_, .inr h⟩
                  rintro rfl
                  obtain ⟨x, hx, h⟩ := h
                  have hxm := hpe.symm.subset (List.mem_cons_of_mem _ hx)
                  have e := hn.pos_of hxm h
                  have p1 := hpe.map (posAt path.length)
                  rw [hn.slots, List.map_cons, h2] at p1
                  have nd := p1.nodup_iff.1 (bits_nodup _)
                  rw [List.nodup_cons] at nd
                  exact nd.1 (List.mem_map.2 ⟨x, hx, e.symm⟩)
                · rintro ⟨e1, h | h⟩
                  · have := (d2 k' v').2 ⟨e1, h⟩
                    rw [he] at this; simp at this
                  · exact h
            | cons x l' =>
              dsimp only
              refine ⟨_, _, rfl, ?_⟩
              have hres := key (.kv h' (x :: l')) h2 (.kv (by simp) (he ▸ d1) (by
                  rintro ⟨k', v'⟩ hx
                  rw [← he] at hx
                  exact w3 _ ((d2 k' v').1 hx).2) w4) (by
                  intro k' v'
                  rw [has_kv, has_kv, ← he, d2])
              exact ⟨hres.1, by simpa using hin, hres.2⟩
          · rw [if_neg ca]
            have hno : ∀ v, ¬ HasL n.children k v := by
              intro v hv
              apply ca
              rw [List.any_eq_true]
              exact ⟨_, has_kv.1 ((hk4 v).1 hv), by simp⟩
            exact ⟨_, _, rfl, hn, by simpa using hno, same hno⟩
        · rw [if_pos c]
          have hno : ∀ v, ¬ HasL n.children k v := by
            intro v hv
            exact c (w3 _ (has_kv.1 ((hk4 v).1 hv))).symm
          exact ⟨_, _, rfl, hn, by simpa using hno, same hno⟩
      | node bm p cs =>
        dsimp only
        obtain ⟨hw', htwo⟩ := hw.wfn
        rw [h2] at hw'
        have i1 := ih _ ⟨bm, cs⟩ hw' (by simp; omega) (OnPath.snoc.2 ⟨hp, rfl⟩)
        simp only [List.length_append, List.length_cons, List.length_nil, Nat.zero_add] at i1
        obtain ⟨b, n1, a1, a2, a3, a4⟩ := i1
        rw [a1]; simp only [Res.ok_bind]
        have hb' : b = true ↔ ∃ v, HasL n.children k v := by
          rw [a3]
          constructor
          · rintro ⟨v, h⟩; exact ⟨v, (hk4 v).2 (has_node.2 h)⟩
          · rintro ⟨v, h⟩; exact ⟨v, has_node.1 ((hk4 v).1 h)⟩
        have hcont : ∀ k' v, HasL n1.children k' v ↔ k' ≠ k ∧ Has (.node bm p cs) k' v := by
          intro k' v
          rw [a4, has_node]
        split
        · rename_i hc
          rename_i h' l
          have hsub := a2.sub (.kv h' l) (by rw [hc]; simp)
          cases hsub with
          | kv u1 u2 u3 u4 =>
          have u5 := (OnPath.snoc.1 u4).1
          have hres := key (.kv h' l) ((OnPath.snoc.1 u5).2) (.kv u1 u2 u3 u5) (by
            intro k' v
            rw [← hcont, hc, HasL.cons]
            constructor
            · exact .inl
            · rintro (h | ⟨_, h, _⟩)
              · exact h
              · simp at h)
          exact ⟨_, _, rfl, hres.1, hb', hres.2⟩
        · rename_i b _ _ hnot
          have htwo' : TwoHashes hashOf n1.children := by
            by_cases cb : b = true
            · rcases a2.shape with ⟨h, l, e⟩ | e | e
              · exact (hnot h l cb e).elim
              · exfalso
                obtain ⟨k1, v1, k2, v2, t1, t2, t3⟩ := htwo
                have z : ∀ k' v, HasL cs k' v → k' = k := by
                  intro k' v h
                  by_contra hh
                  have := (hcont k' v).2 ⟨hh, has_node.2 h⟩
                  rw [e] at this
                  obtain ⟨_, hm, _⟩ := this
                  simp at hm
                exact t3 (by rw [z _ _ t1, z _ _ t2])
              · exact e
            · obtain ⟨k1, v1, k2, v2, t1, t2, t3⟩ := htwo
              have z : ∀ k' v, HasL cs k' v → HasL n1.children k' v := by
                intro k' v h
                refine (hcont k' v).2 ⟨?_, has_node.2 h⟩
                rintro rfl
                exact cb (a3.2 ⟨v, h⟩)
              exact ⟨k1, v1, k2, v2, z _ _ t1, z _ _ t2, t3⟩
          have hres := key (.node n1.bitmap p n1.children) h2 (.node a2.len a2.slots a2.sub htwo') (by
            intro k' v
            rw [has_node, hcont])
          exact ⟨_, _, rfl, hres.1, hb', hres.2⟩
    · rw [if_pos ((test_zero hlt).2 hb)]
      have hno := fun v => hn.absent (k := k) hb v
      exact ⟨_, _, rfl, hn, by simpa using hno, same hno⟩

end GoSTL.Hamt
