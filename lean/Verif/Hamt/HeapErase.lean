import Verif.Hamt.HeapInsert
/-!
# `find`, `erase` and `traversal` with pointers do what the value model does
-/
namespace GoSTL.Hamt.Heap
open GoSTL.Store
variable {T : Type}

theorem find_chain_none {k : Key} {l : List (Nat × Key × T)} (h : NoKey k l) : (plain l).find? (fun x => x.1 == k) = none := by
  rw [List.find?_eq_none]
  intro x hx
  obtain ⟨y, hy, rfl⟩ := List.mem_map.1 hx
  simpa using h y hy

theorem find_chain_some {k : Key} {A B : List (Nat × Key × T)} {a : Nat} {v : T} (h : NoKey k A) :
    (plain (A ++ (a, k, v) :: B)).find? (fun x => x.1 == k) = some (k, v) := by
  induction A with
  | nil => simp [plain]
  | cons x A ih =>
    have h1 : x.2.1 ≠ k := h x (by simp)
    have := ih fun y hy => h y (by simp [hy])
    simp only [plain, List.cons_append, List.map_cons] at this ⊢
    rw [List.find?_cons_of_neg (by simpa using h1), this]

theorem find_agree : ∀ (f depth a : Nat) (bm : Hash) (p : Nat) (cs : List (D T)) (hash : Hash) (key : Key) (m : Mem T) (r : Option T),
    Owns m (objs (.node a bm p cs)) → Hamt.find f depth ⟨bm, cs.map strip⟩ hash key = .ok r → find f depth a hash key m = .ok r := by
  intro f
  induction f with
  | zero => intro depth a bm p cs hash key m r _ hv; cases hv
  | succ f ih =>
    intro depth a bm p cs hash key m r ho hv
    have hnode := Owns.nodeHead (R := []) (by simpa using ho)
    simp only [Hamt.find] at hv
    simp only [find, asNode_of hnode, Res.ok_bind]
    by_cases hb : bitPos (pos hash depth) &&& bm = 0
    · rw [if_pos hb] at hv ⊢; exact hv
    · rw [if_neg hb] at hv ⊢
      rw [Res.bind_eq_ok] at hv
      obtain ⟨e, h1, hv⟩ := hv
      have h1 := ofOption_ok h1
      obtain ⟨A, d, B, rfl, hi, rfl⟩ := slot_split h1
      have hslot : ((A ++ d :: B).map fun d : D T => some d.addr)[index bm (bitPos (pos hash depth))]? = some (some d.addr) := by
        rw [← hi]; simp
      rw [hslot]
      simp only [Res.ofOption, Res.ok_bind]
      rw [objs_node] at ho
      have ho' := ho.perm (focus a bm p A B d _)
      cases d with
      | kv e hash' l =>
        have he := Owns.kvHead ho'
        rw [strip_kv] at hv
        simp only [addr_kv, he] at hv ⊢
        by_cases hh : hash' = hash
        · subst hh
          simp only [ne_eq, not_true, if_false, Res.ok.injEq] at hv ⊢
          have hseg : Owns m (seg l none) := by
            have h1 := ho'.left
            rw [objs_kv] at h1
            exact Owns.right (S := [(e, Obj.kv hash' (hd l none))]) h1
          have hlen := Owns.seg_lt hseg
          rcases split_key key l with hk | ⟨A1, a1, v0, B1, rfl, hk⟩
          · rw [find_chain_none hk] at hv
            simp only [findPair_none m key l (budget m) (by unfold budget; omega) hseg.1 hk, Res.ok_bind]
            rw [← hv]; rfl
          · rw [find_chain_some hk] at hv
            have ha : m[a1]? = some (.pair key v0 (hd B1 none)) := hseg.get (by simp [seg_append, seg])
            simp only [findPair_some m key a1 v0 B1 A1 (budget m) (by simp at hlen; unfold budget; omega) hseg.1 hk, Res.ok_bind, asPair_of ha]
            rw [← hv]; rfl
        · rw [if_pos hh] at hv ⊢; exact hv
      | node e bm' p' ds =>
        have he := Owns.nodeHead ho'
        rw [strip_node] at hv
        simp only [addr_node, he] at hv ⊢
        exact ih (depth + 1) e bm' p' ds hash key m r ho'.left hv

theorem hd_cons (a : Nat) (k : Key) (v : T) (l : List (Nat × Key × T)) (e : Option Nat) : hd ((a, k, v) :: l) e = some a := rfl

/-- hamt.go:207-212: the pair is unlinked. -/
theorem unlink_agree (m : Mem T) (e : Nat) (hash : Hash) (A B : List (Nat × Key × T)) (a : Nat) (k : Key) (v : T) (R : List (Nat × Obj T))
    (ho : Owns m (objs (.kv e hash (A ++ (a, k, v) :: B)) ++ R)) :
    ∃ m', unlink m e a (lastAddr none A) = .ok m' ∧
      Step m (objs (.kv e hash (A ++ (a, k, v) :: B)) ++ R) m' (objs (.kv e hash (A ++ B)) ++ R) := by
  have he := Owns.kvHead ho
  have ha : m[a]? = some (.pair k v (hd B none)) := ho.get (by simp [objs_kv, seg_append, seg])
  have hq : ∀ (x : Nat × Obj T) (L : List (Nat × Obj T)), (x :: L).Perm (L ++ [x]) := fun x L => List.perm_append_comm (l₁ := [x])
  rcases List.eq_nil_or_concat A with rfl | ⟨A', ⟨c, k', v'⟩, rfl⟩
  · simp only [unlink, asPair_of ha, Res.ok_bind, lastAddr, he]
    refine ⟨_, rfl, ?_⟩
    have hp : (objs (.kv e hash ([] ++ (a, k, v) :: B)) ++ R).Perm ((e, .kv hash (some a)) :: (seg B none ++ R ++ [(a, Obj.pair k v (hd B none))])) := by
      rw [objs_kv]
      simp only [List.nil_append, seg, hd, List.cons_append]
      exact (hq _ _).cons _
    have s1 := Step.writeIn (ho.perm hp) (.kv hash (hd B none))
    refine (Step.drop (S' := (e, .kv hash (hd B none)) :: (seg B none ++ R)) (s1.perm hp (.refl _))).perm (.refl _) ?_
    rw [objs_kv]
    exact .refl _
  · rw [List.concat_eq_append] at *
    have hc : m[c]? = some (.pair k' v' (some a)) := ho.get (by simp [objs_kv, seg_append, seg, hd])
    rw [lastAddr_append]
    simp only [unlink, asPair_of ha, Res.ok_bind, asPair_of hc]
    refine ⟨_, rfl, ?_⟩
    have hp : (objs (.kv e hash (A' ++ [(c, k', v')] ++ (a, k, v) :: B)) ++ R).Perm ((c, .pair k' v' (some a)) ::
        ((e, .kv hash (hd (A' ++ [(c, k', v')]) none)) :: (seg A' (some c) ++ seg B none ++ R)) ++ [(a, Obj.pair k v (hd B none))]) := by
      rw [objs_kv, seg_append, seg_append]
      simp only [seg, hd_append, hd_cons, List.append_assoc, List.cons_append, List.nil_append]
      refine (List.Perm.cons _ (List.perm_middle.trans (.cons _ ?_))).trans (.swap _ _ _)
      refine List.perm_middle.trans ((hq _ _).trans ?_)
      simp
    have s1 := Step.writeIn (c' := .pair k' v' (hd B none)) (ho.perm hp)
    refine (Step.drop (S' := (c, .pair k' v' (hd B none)) ::
        ((e, .kv hash (hd (A' ++ [(c, k', v')]) none)) :: (seg A' (some c) ++ seg B none ++ R))) (s1.perm hp (.refl _))).perm (.refl _) ?_
    rw [objs_kv, seg_append, seg_append]
    simp only [seg, hd_append, hd_cons, List.append_assoc, List.cons_append, List.nil_append]
    exact (List.Perm.swap _ _ _).trans (.cons _ List.perm_middle.symm)

theorem hd_eq_none {l : List (Nat × Key × T)} (h : l ≠ []) : ∃ a, hd l none = some a := by
  cases l with
  | nil => exact absurd rfl h
  | cons x l => obtain ⟨a, k, v⟩ := x; exact ⟨a, rfl⟩

theorem erase_agree : ∀ (f depth a : Nat) (bm : Hash) (p : Nat) (cs : List (D T)) (hash : Hash) (key : Key) (m : Mem T) (b : Bool) (n' : Node T),
    Owns m (objs (.node a bm p cs)) → Hamt.erase f depth ⟨bm, cs.map strip⟩ hash key = .ok (b, n') →
    ∃ (m' : Mem T) (cs' : List (D T)), erase f depth a hash key m = .ok (b, m') ∧ n'.children = cs'.map strip ∧
      Step m (objs (.node a bm p cs)) m' (objs (.node a n'.bitmap p cs')) := by
  intro f
  induction f with
  | zero => intro depth a bm p cs hash key m b n' _ hv; cases hv
  | succ f ih =>
    intro depth a bm p cs hash key m b n' ho hv
    have hnode := Owns.nodeHead (R := []) (by simpa using ho)
    simp only [Hamt.erase] at hv
    simp only [erase, asNode_of hnode, Res.ok_bind]
    by_cases hb : bitPos (pos hash depth) &&& bm = 0
    · rw [if_pos hb] at hv ⊢
      cases hv
      exact ⟨m, cs, rfl, rfl, Step.refl ho⟩
    · rw [if_neg hb] at hv ⊢
      rw [Res.bind_eq_ok] at hv
      obtain ⟨e, h1, hv⟩ := hv
      have h1 := ofOption_ok h1
      obtain ⟨A, d, B, rfl, hi, rfl⟩ := slot_split h1
      have hslot : ((A ++ d :: B).map fun d : D T => some d.addr)[index bm (bitPos (pos hash depth))]? = some (some d.addr) := by
        rw [← hi]; simp
      rw [hslot]
      simp only [Res.ofOption, Res.ok_bind]
      have hfoc := focus a bm p A B d (.node bm p ((A ++ d :: B).map fun d : D T => some d.addr))
      rw [← objs_node] at hfoc
      have ho' := ho.perm hfoc
      rw [← hi] at hv ⊢
      cases d with
      | kv e hash' l =>
        have he := Owns.kvHead ho'
        rw [strip_kv] at hv
        simp only [addr_kv, he] at hv ⊢
        by_cases hh : hash' = hash
        · subst hh
          simp only [ne_eq, not_true, if_false] at hv ⊢
          have hseg : Owns m (seg l none) := by
            have h1 := ho'.left
            rw [objs_kv] at h1
            exact Owns.right (S := [(e, Obj.kv hash' (hd l none))]) h1
          have hlen := Owns.seg_lt hseg
          rcases split_key key l with hk | ⟨A1, a1, v0, B1, rfl, hk⟩
          · rw [any_none hk] at hv
            simp only [Bool.false_eq_true, if_false] at hv
            cases hv
            simp only [findPrev_none m key l (budget m) none (by unfold budget; omega) hseg.1 hk, Res.ok_bind]
            exact ⟨m, _, rfl, rfl, Step.refl ho⟩
          · rw [any_some, if_pos rfl, eraseP_some hk] at hv
            simp only [findPrev_some m key a1 v0 B1 A1 (budget m) none (by simp at hlen; unfold budget; omega) hseg.1 hk, Res.ok_bind]
            obtain ⟨m1, u1, s1⟩ := unlink_agree m e hash' A1 B1 a1 key v0 _ ho'
            have he1 := Owns.kvHead s1.owns
            simp only [u1, Res.ok_bind]
            by_cases hnil : A1 ++ B1 = []
            · rw [hnil] at hv he1 s1
              simp only [plain, List.map_nil, Res.bind_eq_ok] at hv
              obtain ⟨L, hpl, hv⟩ := hv
              cases hv
              simp only [he1, hd]
              have hlen1 : ((A ++ D.kv e hash' (A1 ++ (a1, key, v0) :: B1) :: B).map strip).length - 1 = (A ++ B).length := by simp
              have hers : ((A ++ D.kv e hash' (A1 ++ (a1, key, v0) :: B1) :: B).map strip).eraseIdx A.length = (A ++ B).map strip := by
                rw [List.eraseIdx_map, List.eraseIdx_append_of_length_le (Nat.le_refl _)]; simp
              rw [hlen1, hers] at hpl
              obtain ⟨cs', q1, q2, q3⟩ := place_agree depth _ _ L hpl
              have s2 := s1.perm (T' := (a, .node bm p ((A ++ D.kv e hash' (A1 ++ (a1, key, v0) :: B1) :: B).map fun d : D T => some d.addr)) ::
                (A ++ B).flatMap objs ++ [(e, .kv hash' none)]) (.refl _) (by
                  rw [objs_kv]
                  exact List.perm_append_comm (l₁ := [_]))
              have s3 := s2.drop
              have hers2 : ((A ++ D.kv e hash' (A1 ++ (a1, key, v0) :: B1) :: B).map fun d : D T => some d.addr).eraseIdx A.length =
                  (A ++ B).map fun d : D T => some d.addr := by
                rw [List.eraseIdx_map, List.eraseIdx_append_of_length_le (Nat.le_refl _)]; simp
              have hsp := placeLoop_spec m1 depth (bm &&& ~~~ bitPos (pos hash' depth)) true (A ++ B) (List.replicate (A ++ B).length none)
                (fun x hx => s3.owns.1 x (List.mem_cons_of_mem _ hx))
              rw [q3] at hsp
              have e0 : ptrs (List.replicate (A ++ B).length (none : Option (D T))) = List.replicate (A ++ B).length none := by simp [ptrs]
              have e1 : ptrs (cs'.map some) = cs'.map fun d : D T => some d.addr := by simp [ptrs]
              simp only [e0, Res.bind, e1] at hsp
              refine ⟨m1.set a (.node (bm &&& ~~~ bitPos (pos hash' depth)) p (cs'.map fun d : D T => some d.addr)), cs', ?_, q2.symm, ?_⟩
              · rw [placeLoop_skip _ _ _ _ _ _ (by simp), hers2]
                have hlen2 : ((A ++ D.kv e hash' (A1 ++ (a1, key, v0) :: B1) :: B).map fun d : D T => some d.addr).length - 1 = (A ++ B).length := by simp
                rw [hlen2, hsp, Res.ok_bind]
              · refine (s3.trans (Step.writeIn s3.owns _)).perm hfoc ?_
                rw [objs_node]
                exact (q1.symm.flatMap_right objs).cons _
            · obtain ⟨z, hz⟩ := hd_eq_none hnil
              rw [hz] at he1
              simp only [he1]
              have hv' : (Res.ok (true, (⟨bm, ((A ++ D.kv e hash' (A1 ++ (a1, key, v0) :: B1) :: B).map strip).set A.length (.kv hash' (plain (A1 ++ B1)))⟩ : Node T))) =
                  .ok (b, n') := by
                rw [← hv]
                cases hc : plain (A1 ++ B1) with
                | nil => exact absurd (List.map_eq_nil_iff.1 hc) hnil
                | cons x l' => rfl
              cases hv'
              refine ⟨m1, A ++ .kv e hash' (A1 ++ B1) :: B, rfl, ?_, ?_⟩
              · simp [strip_kv]
              · refine s1.perm hfoc ?_
                have hmap : ((A ++ D.kv e hash' (A1 ++ (a1, key, v0) :: B1) :: B).map fun d : D T => some d.addr) =
                    ((A ++ D.kv e hash' (A1 ++ B1) :: B).map fun d : D T => some d.addr) := by simp [addr_kv]
                rw [objs_node, hmap]
                exact (focus a bm p A B _ _).symm
        · rw [if_pos hh] at hv ⊢
          cases hv
          exact ⟨m, _, rfl, rfl, Step.refl ho⟩
      | node e bm' p' ds =>
        have he := Owns.nodeHead ho'
        rw [strip_node] at hv
        simp only [addr_node, he] at hv ⊢
        rw [Res.bind_eq_ok] at hv
        obtain ⟨⟨ok, n1⟩, hv1, hv⟩ := hv
        obtain ⟨m1, cs1, t1, t2, t3⟩ := ih (depth + 1) e bm' p' ds hash key m ok n1 ho'.left hv1
        have s1 := t3.with ho'
        have he1 := Owns.nodeHead s1.owns
        simp only [t1, Res.ok_bind, asNode_of he1]
        -- the child stays a node
        have stay : ∃ cs' : List (D T), ((A ++ D.node e bm' p' ds :: B).map strip).set A.length (.node n1.bitmap p' n1.children) = cs'.map strip ∧
            Step m (objs (.node a bm p (A ++ D.node e bm' p' ds :: B))) m1 (objs (.node a bm p cs')) := by
          refine ⟨A ++ .node e n1.bitmap p' cs1 :: B, ?_, ?_⟩
          · simp [strip_node, t2]
          · refine s1.perm hfoc ?_
            have hmap : ((A ++ D.node e bm' p' ds :: B).map fun d : D T => some d.addr) = ((A ++ D.node e n1.bitmap p' cs1 :: B).map fun d : D T => some d.addr) := by
              simp [addr_node]
            rw [objs_node a, hmap]
            exact (focus a bm p A B _ _).symm
        obtain ⟨cs', w1, w2⟩ := stay
        rw [t2] at hv
        cases ok with
        | false =>
          simp only [Res.ok.injEq, Prod.mk.injEq] at hv
          obtain ⟨rfl, rfl⟩ := hv
          exact ⟨m1, cs', rfl, by rw [← w1, t2], w2⟩
        | true =>
          rcases cs1 with _ | ⟨d, _ | ⟨d', rest⟩⟩
          · simp only [List.map_nil, Res.ok.injEq, Prod.mk.injEq] at hv
            obtain ⟨rfl, rfl⟩ := hv
            exact ⟨m1, cs', rfl, by rw [← w1, t2]; rfl, w2⟩
          · cases d with
            | node c bm2 p2 ds2 =>
              have hc : m1[c]? = some (.node bm2 p2 (ds2.map fun d : D T => some d.addr)) := s1.owns.get (by simp [objs_node])
              simp only [List.map_cons, List.map_nil, strip_node, Res.ok.injEq, Prod.mk.injEq] at hv
              obtain ⟨rfl, rfl⟩ := hv
              simp only [List.map_cons, List.map_nil, addr_node, hc]
              exact ⟨m1, cs', rfl, by rw [← w1, t2]; simp [strip_node], w2⟩
            | kv c hash2 l2 =>
              have hc : m1[c]? = some (.kv hash2 (hd l2 none)) := s1.owns.get (by simp [objs_node, objs_kv])
              simp only [List.map_cons, List.map_nil, strip_kv, Res.ok.injEq, Prod.mk.injEq] at hv
              obtain ⟨rfl, rfl⟩ := hv
              simp only [List.map_cons, List.map_nil, addr_kv, hc]
              have hn1 : m1[a]? = some (.node bm p ((A ++ D.node e bm' p' ds :: B).map fun d : D T => some d.addr)) := s1.owns.get (by simp)
              have hset : ((A ++ D.node e bm' p' ds :: B).map fun d : D T => some d.addr).set A.length (some c) =
                  (A ++ D.kv c hash2 l2 :: B).map fun d : D T => some d.addr := by simp [addr_kv]
              refine ⟨m1.set a (.node bm p ((A ++ D.kv c hash2 l2 :: B).map fun d : D T => some d.addr)), A ++ D.kv c hash2 l2 :: B, ?_, ?_, ?_⟩
              · simp only [asNode_of hn1, Res.ok_bind, hset]
              · simp [strip_kv]
              · have s2 := (s1.perm (.refl _) (T' := (a, .node bm p ((A ++ D.node e bm' p' ds :: B).map fun d : D T => some d.addr)) ::
                    (A ++ D.kv c hash2 l2 :: B).flatMap objs ++ [(e, .node n1.bitmap p' [some c])]) (by
                      rw [objs_node]
                      simp only [List.map_cons, List.map_nil, addr_kv, List.flatMap_cons, List.flatMap_nil, List.append_nil, List.cons_append]
                      refine (List.perm_append_comm (l₁ := [_])).trans ?_
                      exact (focus a bm p A B (D.kv c hash2 l2) _).symm.append_right _)).drop
                refine (s2.trans (Step.writeIn s2.owns _)).perm hfoc ?_
                rw [objs_node]
          · have hv' : (Res.ok (true, (⟨bm, ((A ++ D.node e bm' p' ds :: B).map strip).set A.length (.node n1.bitmap p' (strip d :: strip d' :: rest.map strip))⟩ : Node T))) =
                .ok (b, n') := by
              rw [← hv]
              simp only [List.map_cons]
              cases strip d <;> rfl
            cases hv'
            simp only [List.map_cons]
            exact ⟨m1, cs', rfl, by rw [← w1, t2]; rfl, w2⟩

end GoSTL.Hamt.Heap
