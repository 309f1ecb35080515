import Verif.Hamt.HeapRep
/-!
# `insert` with pointers does what the value model does
-/
namespace GoSTL.Hamt.Heap
open GoSTL.Store
variable {T : Type}

theorem Step.writeIn {m : Mem T} {a : Nat} {c : Obj T} {R : List (Nat × Obj T)} (h : Owns m ((a, c) :: R)) (c' : Obj T) :
    Step m ((a, c) :: R) (m.set a c') ((a, c') :: R) :=
  Step.with (S := [(a, c)]) (S' := [(a, c')]) (Step.write (Owns.left (S := [(a, c)]) h) c') h

theorem Step.allocIn {m : Mem T} {R : List (Nat × Obj T)} (h : Owns m R) (c : Obj T) : Step m R (m ++ [c]) ((m.length, c) :: R) :=
  Step.with (S := []) (S' := [(m.length, c)]) (Step.alloc m c) h

/-- The objects of a node, with one child in front. -/
theorem focus (a : Nat) (bm : Hash) (p : Nat) (A B : List (D T)) (d : D T) (c : Obj T) :
    ((a, c) :: (A ++ d :: B).flatMap objs).Perm (objs d ++ (a, c) :: (A ++ B).flatMap objs) := by
  have h1 : ((A ++ d :: B).flatMap objs).Perm (objs d ++ (A ++ B).flatMap objs) := by
    simp only [List.flatMap_append, List.flatMap_cons]
    exact List.perm_append_comm_assoc _ _ _
  exact (h1.cons _).trans List.perm_middle.symm

theorem slot_split {cs : List (D T)} {i : Nat} {e : Entry T} (h : (cs.map strip)[i]? = some e) : ∃ A d B, cs = A ++ d :: B ∧ A.length = i ∧ strip d = e := by
  rw [List.getElem?_map, Option.map_eq_some_iff] at h
  obtain ⟨d, h1, h2⟩ := h
  obtain ⟨hi, rfl⟩ := List.getElem?_eq_some_iff.1 h1
  refine ⟨cs.take i, cs[i], cs.drop (i + 1), ?_, by simp; omega, h2⟩
  simp

theorem strip_eq_kv {d : D T} {h : Hash} {l : List (Key × T)} (e : strip d = .kv h l) : ∃ a l', d = .kv a h l' ∧ plain l' = l := by
  cases d with
  | kv a h' l' => rw [strip_kv] at e; injection e with e1 e2; subst e1; exact ⟨a, l', rfl, e2⟩
  | node a bm p cs => rw [strip_node] at e; cases e

theorem strip_eq_node {d : D T} {bm : Hash} {p : Nat} {L : List (Entry T)} (e : strip d = .node bm p L) : ∃ a cs, d = .node a bm p cs ∧ cs.map strip = L := by
  cases d with
  | kv a h' l' => rw [strip_kv] at e; cases e
  | node a bm' p' cs => rw [strip_node] at e; injection e with e1 e2 e3; subst e1; subst e2; exact ⟨a, cs, rfl, e3⟩

theorem set_mid {α : Type} (A B : List α) (x y : α) : (A ++ x :: B).set A.length y = A ++ y :: B := by simp

/-- hamt.go:97-110: a child for a new position. -/
theorem insert_slot (m : Mem T) (depth a : Nat) (bm0 : Hash) (p : Nat) (cs : List (D T)) (chain : List (Nat × Key × T)) (hash bm : Hash) (L : List (Entry T))
    (ho : Owns m (objs (.node a bm0 p cs) ++ seg chain none))
    (hv : place depth bm (cs.length + 1) (.kv hash (plain chain) :: cs.map strip) = .ok L) :
    ∃ cs' : List (D T), L = cs'.map strip ∧
      (do
        let arr ← setSlot (List.replicate (cs.length + 1) none) (index bm (bitPos (pos hash depth))) m.length
        let arr ← placeLoop (m ++ [Obj.kv hash (hd chain none)]) depth bm false (cs.map fun d : D T => some d.addr) arr
        .ok ((m ++ [Obj.kv hash (hd chain none)]).set a (.node bm p arr))) =
        .ok ((m ++ [Obj.kv hash (hd chain none)]).set a (.node bm p (cs'.map fun d : D T => some d.addr))) ∧
      Step m (objs (.node a bm0 p cs) ++ seg chain none) ((m ++ [Obj.kv hash (hd chain none)]).set a (.node bm p (cs'.map fun d : D T => some d.addr)))
        (objs (.node a bm p cs')) := by
  have hv' : place depth bm (D.kv m.length hash chain :: cs).length ((D.kv m.length hash chain :: cs).map strip) = .ok L := by
    simpa [strip_kv] using hv
  obtain ⟨cs', hp, hs, hg⟩ := place_agree depth bm _ L hv'
  have st1 := Step.allocIn ho (.kv hash (hd chain none))
  have hperm : ((m.length, (.kv hash (hd chain none) : Obj T)) :: (objs (.node a bm0 p cs) ++ seg chain none)).Perm
      ((a, .node bm0 p (cs.map fun d : D T => some d.addr)) :: (D.kv m.length hash chain :: cs).flatMap objs) := by
    rw [objs_node, List.flatMap_cons, objs_kv, List.cons_append, List.cons_append]
    exact (List.Perm.swap _ _ _).trans (((List.perm_append_comm (l₁ := cs.flatMap objs) (l₂ := seg chain none)).cons _).cons _)
  have st2 := st1.perm (List.Perm.refl _) hperm
  have hobj : ∀ x ∈ (D.kv m.length hash chain :: cs).flatMap objs, (m ++ [Obj.kv hash (hd chain none)])[x.1]? = some x.2 :=
    fun x hx => st2.owns.1 x (List.mem_cons_of_mem _ hx)
  have hpl := placeLoop_spec (m ++ [Obj.kv hash (hd chain none)]) depth bm false _ (List.replicate (D.kv m.length hash chain :: cs).length none) hobj
  rw [hg] at hpl
  have hb := bitPosNum_objs (m := m ++ [Obj.kv hash (hd chain none)]) (d := D.kv m.length hash chain) (fun x hx => hobj x (by simp [hx])) depth
  rw [List.map_cons, placeLoop, addr_kv] at hpl
  rw [addr_kv] at hb
  rw [hb, Res.ok_bind, strip_kv, Hamt.bitPosNum] at hpl
  have hpp : ∀ x : List (D T), ptrs (x.map some) = x.map fun d : D T => some d.addr := by intro x; simp [ptrs]
  refine ⟨cs', hs.symm, ?_, ?_⟩
  · have e0 : ptrs (List.replicate (D.kv m.length hash chain :: cs).length (none : Option (D T))) = List.replicate (cs.length + 1) none := by simp [ptrs]
    rw [e0] at hpl
    simp only [Res.bind, hpp] at hpl
    rw [Res.bind_eq_ok] at hpl
    obtain ⟨arr, h1, h2⟩ := hpl
    have h1' : setSlot (List.replicate (cs.length + 1) none) (index bm (bitPos (pos hash depth))) m.length = .ok arr := h1
    rw [h1', Res.ok_bind, h2, Res.ok_bind]
  · refine st2.trans ((Step.writeIn st2.owns _).perm (List.Perm.refl _) ?_)
    rw [objs_node]
    exact (hp.symm.flatMap_right objs).cons _

theorem ofOption_ok {α : Type} {o : Option α} {x : α} (h : Res.ofOption o = .ok x) : o = some x := by
  cases o with
  | none => cases h
  | some y => cases h; rfl

/-- The first object of a trie is in the store. -/
theorem Owns.kvHead {m : Mem T} {R : List (Nat × Obj T)} {a : Nat} {h : Hash} {l : List (Nat × Key × T)} (ho : Owns m (objs (.kv a h l) ++ R)) :
    m[a]? = some (.kv h (hd l none)) := ho.get (by rw [objs_kv]; simp)

theorem Owns.nodeHead {m : Mem T} {R : List (Nat × Obj T)} {a : Nat} {bm : Hash} {p : Nat} {cs : List (D T)} (ho : Owns m (objs (.node a bm p cs) ++ R)) :
    m[a]? = some (.node bm p (cs.map fun d : D T => some d.addr)) := ho.get (by rw [objs_node]; simp)

theorem Owns.seg_lt {m : Mem T} {l : List (Nat × Key × T)} {e : Option Nat} (h : Owns m (seg l e)) : l.length ≤ m.length := by
  have := h.length_le
  rwa [seg_length] at this

/-- hamt.go:113-123: the hash is there already. -/
theorem insert_chain (m : Mem T) (e kv : Nat) (hash : Hash) (l : List (Nat × Key × T)) (k : Key) (v : T) (R : List (Nat × Obj T))
    (ho : Owns m (objs (.kv e hash l) ++ seg [(kv, k, v)] none ++ R)) :
    ∃ (m' : Mem T) (l' : List (Nat × Key × T)), plain l' = setKv k v (plain l) ∧
      (do
        let (key, value, _) ← asPair m kv
        let found ← findPair m key (budget m) (hd l none)
        match found with
        | some a => do
          let (k, _, n) ← asPair m a
          .ok (m.set a (.pair k value n))
        | none => .ok ((m.set kv (.pair key value (hd l none))).set e (.kv hash (some kv)))) = .ok m' ∧
      Step m (objs (.kv e hash l) ++ seg [(kv, k, v)] none ++ R) m' (objs (.kv e hash l') ++ R) := by
  have hkv : m[kv]? = some (.pair k v none) := ho.get (by simp [seg, hd])
  have hseg : Owns m (seg l none) := by
    have h1 := ho.left.left
    rw [objs_kv] at h1
    exact Owns.right (S := [(e, Obj.kv hash (hd l none))]) h1
  have hlen := Owns.seg_lt hseg
  rw [asPair_of hkv, Res.ok_bind]
  rcases split_key k l with hk | ⟨A, a, v0, B, rfl, hk⟩
  · refine ⟨(m.set kv (.pair k v (hd l none))).set e (.kv hash (some kv)), (kv, k, v) :: l, (setKv_none hk).symm, ?_, ?_⟩
    · simp only [findPair_none m k l (budget m) (by unfold budget; omega) hseg.1 hk, Res.ok_bind]
    · have hp1 : (objs (.kv e hash l) ++ seg [(kv, k, v)] none ++ R).Perm
          ((kv, .pair k v none) :: ((e, .kv hash (hd l none)) :: (seg l none ++ R))) := by
        rw [objs_kv]
        simp only [seg, hd, List.cons_append, List.append_assoc, List.nil_append]
        exact (List.perm_middle.cons _).trans (.swap _ _ _)
      have s1 := Step.writeIn (ho.perm hp1) (.pair k v (hd l none))
      have s2 := Step.writeIn (s1.owns.perm (.swap _ _ _)) (.kv hash (some kv))
      refine (s1.trans (s2.perm (.swap _ _ _) (.refl _))).perm hp1 ?_
      rw [objs_kv]
      simp only [seg, hd, List.cons_append]
      exact .refl _
  · have ha : m[a]? = some (.pair k v0 (hd B none)) := hseg.get (by simp [seg_append, seg])
    refine ⟨m.set a (.pair k v (hd B none)), A ++ (a, k, v) :: B, (setKv_some v hk).symm, ?_, ?_⟩
    · simp only [findPair_some m k a v0 B A (budget m) (by simp at hlen; unfold budget; omega) hseg.1 hk, Res.ok_bind, asPair_of ha]
    · have hp1 : (objs (.kv e hash (A ++ (a, k, v0) :: B)) ++ seg [(kv, k, v)] none ++ R).Perm
          ((a, .pair k v0 (hd B none)) :: ((e, .kv hash (hd (A ++ (a, k, v0) :: B) none)) ::
            (seg A (some a) ++ seg B none ++ R) ++ seg [(kv, k, v)] none)) := by
        rw [objs_kv, seg_append]
        simp only [seg, hd, List.cons_append, List.append_assoc, List.nil_append]
        refine (List.Perm.cons _ ?_).trans (.swap _ _ _)
        refine List.perm_middle.trans (.cons _ ?_)
        refine .append_left _ (.append_left _ ?_)
        exact (List.perm_append_comm (l₁ := [_]))
      have s1 := Step.writeIn (ho.perm hp1) (.pair k v (hd B none))
      refine (Step.drop (S' := (a, .pair k v (hd B none)) :: ((e, .kv hash (hd (A ++ (a, k, v0) :: B) none)) ::
            (seg A (some a) ++ seg B none ++ R))) (s1.perm hp1 (.refl _))).perm (.refl _) ?_
      rw [objs_kv, seg_append]
      have hh : hd (A ++ (a, k, v0) :: B) none = hd (A ++ (a, k, v) :: B) none := by rw [hd_append, hd_append]; rfl
      rw [hh]
      simp only [seg, hd, List.cons_append, List.append_assoc, List.nil_append]
      exact (List.Perm.swap _ _ _).trans (.cons _ List.perm_middle.symm)

theorem insert_agree : ∀ (f depth a : Nat) (bm : Hash) (p : Nat) (cs : List (D T)) (chain : List (Nat × Key × T)) (hash : Hash) (m : Mem T) (n' : Node T),
    Owns m (objs (.node a bm p cs) ++ seg chain none) → ((∃ x, chain = [x]) ∨ (bm = 0 ∧ cs = [])) →
    Hamt.insert f depth ⟨bm, cs.map strip⟩ hash (plain chain) = .ok n' →
    ∃ (m' : Mem T) (cs' : List (D T)), insert f depth a hash (hd chain none) m = .ok m' ∧ n'.children = cs'.map strip ∧
      Step m (objs (.node a bm p cs) ++ seg chain none) m' (objs (.node a n'.bitmap p cs')) := by
  intro f
  induction f with
  | zero => intro depth a bm p cs chain hash m n' _ _ hv; cases hv
  | succ f ih =>
    intro depth a bm p cs chain hash m n' ho hc hv
    have hnode := Owns.nodeHead ho
    simp only [Hamt.insert] at hv
    simp only [insert, asNode_of hnode, Res.ok_bind]
    by_cases hb : bitPos (pos hash depth) &&& bm = 0
    · rw [if_pos hb] at hv ⊢
      rw [Res.bind_eq_ok] at hv
      obtain ⟨L, hv, e⟩ := hv
      cases e
      obtain ⟨cs', h1, h2, h3⟩ := insert_slot m depth a bm p cs chain hash (bm ||| bitPos (pos hash depth)) L ho (by simpa using hv)
      refine ⟨_, cs', ?_, h1, h3⟩
      rw [List.length_map]
      exact h2
    · rw [if_neg hb] at hv ⊢
      have hone : ∃ x, chain = [x] := by
        rcases hc with h | ⟨h, -⟩
        · exact h
        · subst h; simp at hb
      obtain ⟨⟨kv, k, v⟩, rfl⟩ := hone
      rw [Res.bind_eq_ok] at hv
      obtain ⟨e, h1, hv⟩ := hv
      have h1 := ofOption_ok h1
      obtain ⟨A, d, B, rfl, hi, rfl⟩ := slot_split h1
      have hslot : ((A ++ d :: B).map fun d : D T => some d.addr)[index bm (bitPos (pos hash depth))]? = some (some d.addr) := by
        rw [← hi]; simp
      rw [hslot]
      simp only [Res.ofOption, Res.ok_bind]
      have hfoc : (objs (.node a bm p (A ++ d :: B)) ++ seg [(kv, k, v)] none).Perm (objs d ++ seg [(kv, k, v)] none ++
          (a, .node bm p ((A ++ d :: B).map fun d : D T => some d.addr)) :: (A ++ B).flatMap objs) := by
        rw [objs_node]
        refine ((focus a bm p A B d _).append_right _).trans ?_
        rw [List.append_assoc, List.append_assoc]
        exact List.perm_append_comm.append_left _
      have ho' := ho.perm hfoc
      rw [← hi] at hv ⊢
      cases d with
      | kv e hash' l =>
        have he : m[e]? = some (.kv hash' (hd l none)) := by
          rw [List.append_assoc] at ho'; exact Owns.kvHead ho'
        rw [strip_kv] at hv
        simp only [addr_kv, he] at hv ⊢
        by_cases hh : hash' = hash
        · subst hh
          simp only [if_true, plain, List.map_cons, List.map_nil, Res.ok.injEq] at hv
          subst hv
          simp only [if_true, hd, Res.ok_bind]
          obtain ⟨m', l', q1, q2, q3⟩ := insert_chain m e kv hash' l k v _ ho'
          refine ⟨m', A ++ .kv e hash' l' :: B, q2, ?_, ?_⟩
          · simp only [List.map_append, List.map_cons, strip_kv]
            rw [q1]
            have := set_mid (A.map strip) (B.map strip) (Entry.kv hash' (plain l)) (Entry.kv hash' (setKv k v (plain l)))
            rw [List.length_map] at this
            exact this
          · refine q3.perm hfoc ?_
            have hmap : ((A ++ D.kv e hash' l :: B).map fun d : D T => some d.addr) = ((A ++ D.kv e hash' l' :: B).map fun d : D T => some d.addr) := by
              simp [addr_kv]
            rw [objs_node, hmap]
            exact (focus a bm p A B _ _).symm
        · rw [if_neg hh] at hv ⊢
          rw [Res.bind_eq_ok] at hv
          obtain ⟨n1, hv1, hv⟩ := hv
          rw [Res.bind_eq_ok] at hv
          obtain ⟨n2, hv2, hv⟩ := hv
          cases hv
          -- the fresh node
          have s0 := Step.allocIn ho' (.node 0 (pos hash depth) [])
          have hp0 : ((m.length, Obj.node 0 (pos hash depth) []) :: (objs (.kv e hash' l) ++ seg [(kv, k, v)] none ++
              (a, .node bm p ((A ++ D.kv e hash' l :: B).map fun d : D T => some d.addr)) :: (A ++ B).flatMap objs)).Perm
              (objs (.node m.length 0 (pos hash depth) []) ++ seg l none ++ (seg [(kv, k, v)] none ++
                (a, .node bm p ((A ++ D.kv e hash' l :: B).map fun d : D T => some d.addr)) :: (A ++ B).flatMap objs ++ [(e, .kv hash' (hd l none))])) := by
            rw [objs_node, objs_kv]
            simp only [List.map_nil, List.flatMap_nil, List.cons_append, List.append_assoc, List.nil_append]
            refine .cons _ ?_
            have hq : ∀ (x : Nat × Obj T) (L : List (Nat × Obj T)), (x :: L).Perm (L ++ [x]) := fun x L => List.perm_append_comm (l₁ := [x])
            refine (hq _ _).trans (.of_eq ?_)
            simp
          have s1 := s0.perm (.refl _) hp0
          obtain ⟨m1, cs1, t1, t2, t3⟩ := ih (depth + 1) m.length 0 (pos hash depth) [] l hash' _ n1 s1.owns.left (.inr ⟨rfl, rfl⟩) (by simpa using hv1)
          have s2 := s1.trans (t3.with s1.owns)
          have hn1 : n1 = ⟨n1.bitmap, cs1.map strip⟩ := by rw [← t2]
          rw [hn1] at hv2
          have s3 : Step m _ m1 _ := s2.perm (.refl _) (T' := objs (.node m.length n1.bitmap (pos hash depth) cs1) ++ seg [(kv, k, v)] none ++
            ((a, .node bm p ((A ++ D.kv e hash' l :: B).map fun d : D T => some d.addr)) :: (A ++ B).flatMap objs ++ [(e, .kv hash' (hd l none))])) (by simp)
          obtain ⟨m2, cs2, u1, u2, u3⟩ := ih (depth + 1) m.length n1.bitmap (pos hash depth) cs1 [(kv, k, v)] hash _ n2 s3.owns.left (.inl ⟨_, rfl⟩) hv2
          have s4 := s3.trans (u3.with s3.owns)
          have s5 := (s4.perm (.refl _) (T' := (a, .node bm p ((A ++ D.kv e hash' l :: B).map fun d : D T => some d.addr)) ::
            (A ++ .node m.length n2.bitmap (pos hash depth) cs2 :: B).flatMap objs ++ [(e, .kv hash' (hd l none))]) (by
              rw [← List.append_assoc]
              exact (focus a bm p A B _ _).symm.append_right _)).drop
          have hnode2 : m2[a]? = some (.node bm p ((A ++ D.kv e hash' l :: B).map fun d : D T => some d.addr)) := s5.owns.get (by simp)
          have hset : ((A ++ D.kv e hash' l :: B).map fun d : D T => some d.addr).set A.length (some m.length) =
              (A ++ D.node m.length n2.bitmap (pos hash depth) cs2 :: B).map fun d : D T => some d.addr := by
            simp [addr_node]
          refine ⟨m2.set a (.node bm p ((A ++ D.node m.length n2.bitmap (pos hash depth) cs2 :: B).map fun d : D T => some d.addr)),
            A ++ D.node m.length n2.bitmap (pos hash depth) cs2 :: B, ?_, ?_, ?_⟩
          · rw [t1, Res.ok_bind]
            rw [u1, Res.ok_bind]
            simp only [asNode_of hnode2, Res.ok_bind, hset]
          · simp [strip_node, strip_kv, u2]
          · refine (s5.trans (Step.writeIn s5.owns _)).perm hfoc ?_
            rw [objs_node]
      | node e bm' p' ds =>
        have he : m[e]? = some (.node bm' p' (ds.map fun d : D T => some d.addr)) := by
          rw [List.append_assoc] at ho'; exact Owns.nodeHead ho'
        rw [strip_node] at hv
        simp only [addr_node, he] at hv ⊢
        rw [Res.bind_eq_ok] at hv
        obtain ⟨n1, hv1, hv⟩ := hv
        cases hv
        obtain ⟨m', cs1, t1, t2, t3⟩ := ih (depth + 1) e bm' p' ds [(kv, k, v)] hash m n1 ho'.left (.inl ⟨_, rfl⟩) hv1
        refine ⟨m', A ++ .node e n1.bitmap p' cs1 :: B, t1, ?_, ?_⟩
        · simp [strip_node, t2]
        · refine (t3.with ho').perm hfoc ?_
          have hmap : ((A ++ D.node e bm' p' ds :: B).map fun d : D T => some d.addr) = ((A ++ D.node e n1.bitmap p' cs1 :: B).map fun d : D T => some d.addr) := by
            simp [addr_node]
          rw [objs_node a, hmap]
          exact (focus a bm p A B _ _).symm

end GoSTL.Hamt.Heap
