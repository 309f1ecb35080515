import Verif.RBTree.Inv
/-!
# `Insert` and its fix-up
-/
namespace GoSTL.RB
open T
variable {K V : Type}

theorem insertFixupLoop_black {s : Tree K V} {f : Frame K V} {c : Ctx K V} {l r : T K V} {z b k v} {n : Nat}
    (hf : f.isBlack = true) (hs : Reps s (plug (f :: c) (.node l z b k v r))) :
    Tree.insertFixupLoop (n + 1) s z = .ok s := by
  rw [Tree.insertFixupLoop, hs.node_eq]
  have hp : ∃ pn : Node K V, s.node f.id = .ok pn ∧ pn.black = true := by
    cases f with
    | L i b k v r' => exact ⟨_, Reps.node_eq (c := c) hs, hf⟩
    | R l' i b k v => exact ⟨_, Reps.node_eq (c := c) hs, hf⟩
  obtain ⟨pn, h1, h2⟩ := hp
  simp [h1, h2]

/-- What the fix-up establishes. -/
def FixGoal (fuel : Nat) (s : Tree K V) (z : Id) (t : T K V) : Prop :=
  ∃ s' t', Tree.insertFixupLoop fuel s z = .ok s' ∧ Reps s' t' ∧ t'.entries = t.entries ∧
    t'.rootId ≠ none ∧ NoRR t' ∧ (∃ m, BH t' m) ∧ s'.size = s.size ∧ s'.next = s.next

theorem plug_ne_leaf {c : Ctx K V} {t : T K V} (h : t.rootId ≠ none) : (plug c t).rootId ≠ none := by
  rcases plug_rootId_cases c t with ⟨_, h1⟩ | ⟨_, i, _, h1⟩
  · rw [h1]; exact h
  · simp [h1]

theorem insert_outer_L {s : Tree K V} {c : Ctx K V} {l r pr u : T K V} {z p g k v pk pv gk gv} {n fuel : Nat}
    (hs : Reps s (plug c (.node (.node (.node l z false k v r) p false pk pv pr) g true gk gv u)))
    (hc : CtxOK c (n + 1)) (hl : BH l n) (hr : BH r n) (hpr : BH pr n) (hu : BH u n)
    (nl : NoRR l) (nr : NoRR r) (npr : NoRR pr) (nu : NoRR u)
    (bl : l.isBlack = true) (br : r.isBlack = true) (bpr : pr.isBlack = true) (bu : u.isBlack = true) :
    ∃ s' t', (do
        let p ← s.parentOf z
        let t := s.setBlack p true
        let g ← t.parentOf p
        let t := t.setBlack g false
        let t ← t.rightRotate g
        Tree.insertFixupLoop (fuel + 1) t z) = .ok s' ∧ Reps s' t' ∧
      t'.entries = (plug c (.node (.node (.node l z false k v r) p false pk pv pr) g true gk gv u)).entries ∧
      t'.rootId ≠ none ∧ NoRR t' ∧ (∃ m, BH t' m) ∧ s'.size = s.size ∧ s'.next = s.next := by
  have hs0 : Reps s (plug (.L p false pk pv pr :: .L g true gk gv u :: c) (.node l z false k v r)) := hs
  have hs1 : Reps s (plug (.L g true gk gv u :: c) (.node (.node l z false k v r) p false pk pv pr)) := hs
  have hs2 := hs1.setBlack true
  have hs3 := Reps.setBlack (c := c) hs2 false
  obtain ⟨s', e, hs4, h5, h6⟩ := rightRotate_spec hs3
  have hs5 : Reps s' (plug (.L p true pk pv (.node pr g false gk gv u) :: c) (.node l z false k v r)) := hs4
  refine ⟨s', _, ?_, hs4, ?_, plug_ne_leaf (by simp), ?_⟩
  · simp only [Tree.parentOf, hs0.node_eq, Res.ok_bind, parentId_cons, Res.ofOption_some, Frame.id_L, hs2.node_eq, e]
    exact insertFixupLoop_black rfl hs5
  · simp [plug_entries]
  · have := plug_ok (t := .node (.node l z false k v r) p true pk pv (.node pr g false gk gv u)) hc
      ⟨n, ⟨n, hl, hr, rfl⟩, ⟨n, hpr, hu, rfl⟩, rfl⟩
      ⟨by simp, ⟨fun _ => ⟨bl, br⟩, nl, nr⟩, ⟨fun _ => ⟨bpr, bu⟩, npr, nu⟩⟩ (.inl rfl)
    exact ⟨this.1, this.2.1, h5, h6⟩

theorem insert_outer_R {s : Tree K V} {c : Ctx K V} {l r pr u : T K V} {z p g k v pk pv gk gv} {n fuel : Nat}
    (hs : Reps s (plug c (.node u g true gk gv (.node pr p false pk pv (.node l z false k v r)))))
    (hc : CtxOK c (n + 1)) (hl : BH l n) (hr : BH r n) (hpr : BH pr n) (hu : BH u n)
    (nl : NoRR l) (nr : NoRR r) (npr : NoRR pr) (nu : NoRR u)
    (bl : l.isBlack = true) (br : r.isBlack = true) (bpr : pr.isBlack = true) (bu : u.isBlack = true) :
    ∃ s' t', (do
        let p ← s.parentOf z
        let t := s.setBlack p true
        let g ← t.parentOf p
        let t := t.setBlack g false
        let t ← t.leftRotate g
        Tree.insertFixupLoop (fuel + 1) t z) = .ok s' ∧ Reps s' t' ∧
      t'.entries = (plug c (.node u g true gk gv (.node pr p false pk pv (.node l z false k v r)))).entries ∧
      t'.rootId ≠ none ∧ NoRR t' ∧ (∃ m, BH t' m) ∧ s'.size = s.size ∧ s'.next = s.next := by
  have hs0 : Reps s (plug (.R pr p false pk pv :: .R u g true gk gv :: c) (.node l z false k v r)) := hs
  have hs1 : Reps s (plug (.R u g true gk gv :: c) (.node pr p false pk pv (.node l z false k v r))) := hs
  have hs2 := hs1.setBlack true
  have hs3 := Reps.setBlack (c := c) hs2 false
  obtain ⟨s', e, hs4, h5, h6⟩ := leftRotate_spec hs3
  have hs5 : Reps s' (plug (.R (.node u g false gk gv pr) p true pk pv :: c) (.node l z false k v r)) := hs4
  refine ⟨s', _, ?_, hs4, ?_, plug_ne_leaf (by simp), ?_⟩
  · simp only [Tree.parentOf, hs0.node_eq, Res.ok_bind, parentId_cons, Res.ofOption_some, Frame.id_R, hs2.node_eq, e]
    exact insertFixupLoop_black rfl hs5
  · simp [plug_entries]
  · have := plug_ok (t := .node (.node u g false gk gv pr) p true pk pv (.node l z false k v r)) hc
      ⟨n, ⟨n, hu, hpr, rfl⟩, ⟨n, hl, hr, rfl⟩, rfl⟩
      ⟨by simp, ⟨fun _ => ⟨bu, bpr⟩, nu, npr⟩, ⟨fun _ => ⟨bl, br⟩, nl, nr⟩⟩ (.inl rfl)
    exact ⟨this.1, this.2.1, h5, h6⟩

set_option maxHeartbeats 2000000 in
theorem insertFixupLoop_spec (fuel : Nat) : ∀ (c : Ctx K V) (s : Tree K V) (l r : T K V) (z : Id) (k : K) (v : V) (n : Nat),
    c.length < fuel → Reps s (plug c (.node l z false k v r)) → CtxOK c n → BH l n → BH r n → NoRR l → NoRR r →
    l.isBlack = true → r.isBlack = true → FixGoal fuel s z (plug c (.node l z false k v r)) := by
  induction fuel with
  | zero => intro c _ _ _ _ _ _ _ h; omega
  | succ fuel ih =>
    intro c s l r z k v n hlen hs hc hl hr nl nr bl br
    rcases c with _ | ⟨f, c⟩
    · refine ⟨s, _, by rw [Tree.insertFixupLoop, hs.node_eq]; simp, hs, rfl, by simp,
        ⟨fun _ => ⟨bl, br⟩, nl, nr⟩, ⟨n, n, hl, hr, rfl⟩, rfl, rfl⟩
    by_cases hfb : f.isBlack = true
    · have := plug_ok (t := .node l z false k v r) hc ⟨n, hl, hr, rfl⟩ ⟨fun _ => ⟨bl, br⟩, nl, nr⟩ (.inr (.inl hfb))
      exact ⟨s, _, insertFixupLoop_black hfb hs, hs, rfl, plug_ne_leaf (by simp), this.1, this.2.1, rfl, rfl⟩
    simp only [Bool.not_eq_true] at hfb
    have zn := hs.node_eq
    cases f with
    | L p pb pk pv pr =>
      subst hfb
      obtain ⟨c1, c2, c3, c4⟩ := hc
      have c5 := (c3 rfl).2
      replace c3 := (c3 rfl).1
      simp only [Frame.isBlack_L, Bool.false_eq_true, if_false] at c4
      have hs1 : Reps s (plug c (.node (.node l z false k v r) p false pk pv pr)) := hs
      have pn := hs1.node_eq
      rcases c with _ | ⟨g, c⟩
      · simp at c5
      cases g with
      | L g gb gk gv u =>
        simp only [headBlack_cons, Frame.isBlack_L] at c5
        subst c5
        obtain ⟨d1, d2, -, d4⟩ := c4
        simp only [if_true] at d4
        have hs2 : Reps s (plug c (.node (.node (.node l z false k v r) p false pk pv pr) g true gk gv u)) := hs
        have gn := hs2.node_eq
        have un := (hs2.split.1.2.2).getColor
        cases hu : u.isBlack with
        | false =>
          cases u with
          | leaf => simp at hu
          | node ul ui ub uk uv ur =>
            simp only [isBlack_node] at hu
            subst hu
            have hs3 := hs1.setBlack true
            have hs4 := Reps.setBlack (c := .R _ g true gk gv :: c) hs3 true
            have hs5 := Reps.setBlack (c := c) hs4 false
            obtain ⟨m, d1a, d1b, d1c⟩ := d1
            have := ih c _ _ _ _ _ _ (n+1) (by simp at hlen; omega) hs5 d4 ⟨n, ⟨n, hl, hr, rfl⟩, c1, rfl⟩
              ⟨m, d1a, d1b, by simp at d1c; simp [d1c]⟩ ⟨by simp, ⟨fun _ => ⟨bl, br⟩, nl, nr⟩, c2⟩ 
              ⟨by simp, d2.2⟩ rfl rfl
            obtain ⟨s', t', e, h1, h2, h3⟩ := this
            refine ⟨s', t', ?_, h1, ?_, h3⟩
            · rw [Tree.insertFixupLoop, zn]
              simp [pn, gn, Tree.getColor, Reps.node_eq (c := .R _ g true gk gv :: c) hs2]
              exact e
            · rw [h2]; simp [plug_entries]
        | true =>
          obtain ⟨fuel, rfl⟩ : ∃ k, fuel = k + 1 := ⟨fuel - 1, by simp at hlen; omega⟩
          have hne : pr.rootId ≠ some z := by
            intro h; have := rootId_mem h; have := hs1.split.2.2.1
            simp only [T.ids, List.nodup_append, List.nodup_cons, List.mem_append, List.mem_cons] at this; grind
          obtain ⟨s', t', e, h⟩ := insert_outer_L (fuel := fuel) hs2 d4 hl hr c1 d1 nl nr c2 d2 bl br c3 hu
          refine ⟨s', t', ?_, h⟩
          rw [Tree.insertFixupLoop, zn]
          cases u <;> simp at hu <;> simp [pn, gn, hne, un]
          · exact e
          · simp [hu] at un
            simp [hu, un]; exact e
      | R u g gb gk gv =>
        simp only [headBlack_cons, Frame.isBlack_R] at c5
        subst c5
        obtain ⟨d1, d2, -, d4⟩ := c4
        simp only [if_true] at d4
        have hs2 : Reps s (plug c (.node u g true gk gv (.node (.node l z false k v r) p false pk pv pr))) := hs
        have gn := hs2.node_eq
        have un := (hs2.split.1.2.1).getColor
        have hup : u.rootId ≠ some p := by
            intro h; have := rootId_mem h; have := hs2.split.2.2.1
            simp only [T.ids, List.nodup_append, List.nodup_cons, List.mem_append, List.mem_cons] at this; grind
        cases hu : u.isBlack with
        | false =>
          cases u with
          | leaf => simp at hu
          | node ul ui ub uk uv ur =>
            simp only [isBlack_node] at hu
            subst hu
            have hs3 := hs1.setBlack true
            have hs4 := Reps.setBlack (c := .L g true gk gv _ :: c) hs3 true
            have hs5 := Reps.setBlack (c := c) hs4 false
            obtain ⟨m, d1a, d1b, d1c⟩ := d1
            have := ih c _ _ _ _ _ _ (n+1) (by simp at hlen; omega) hs5 d4 
              ⟨m, d1a, d1b, by simp at d1c; simp [d1c]⟩ ⟨n, ⟨n, hl, hr, rfl⟩, c1, rfl⟩ ⟨by simp, d2.2⟩
              ⟨by simp, ⟨fun _ => ⟨bl, br⟩, nl, nr⟩, c2⟩ rfl rfl
            obtain ⟨s', t', e, h1, h2, h3⟩ := this
            refine ⟨s', t', ?_, h1, ?_, h3⟩
            · rw [Tree.insertFixupLoop, zn]
              simp at hup
              simp [pn, gn, Tree.getColor, hup, Reps.node_eq (c := .L g true gk gv _ :: c) hs2]
              exact e
            · rw [h2]; simp [plug_entries]
        | true =>
          obtain ⟨fuel, rfl⟩ : ∃ k, fuel = k + 1 := ⟨fuel - 1, by simp at hlen; omega⟩
          have hs3 : Reps s (plug (.R u g true gk gv :: c) (.node (.node l z false k v r) p false pk pv pr)) := hs
          obtain ⟨s3, e3, hs4, z1, z2⟩ := rightRotate_spec hs3
          obtain ⟨s', t', e, h1, h2, h3, h4, h5, h6, h7⟩ := insert_outer_R (fuel := fuel) (z := p) (p := z) hs4 d4 hr c1 hl d1 nr c2 nl d2 br c3 bl hu
          refine ⟨s', t', ?_, h1, ?_, h3, h4, h5, h6.trans z1, h7.trans z2⟩
          · rw [Tree.insertFixupLoop, zn]
            cases u <;> simp at hu hup <;> simp [pn, gn, un, e3]
            · exact e
            · simp [hu] at un
              simp [hu, hup, un]; exact e
          · rw [h2]; simp [plug_entries]
    | R pr p pb pk pv =>
      subst hfb
      obtain ⟨c1, c2, c3, c4⟩ := hc
      have c5 := (c3 rfl).2
      replace c3 := (c3 rfl).1
      simp only [Frame.isBlack_R, Bool.false_eq_true, if_false] at c4
      have hs1 : Reps s (plug c (.node pr p false pk pv (.node l z false k v r))) := hs
      have pn := hs1.node_eq
      rcases c with _ | ⟨g, c⟩
      · simp at c5
      cases g with
      | L g gb gk gv u =>
        simp only [headBlack_cons, Frame.isBlack_L] at c5
        subst c5
        obtain ⟨d1, d2, -, d4⟩ := c4
        simp only [if_true] at d4
        have hs2 : Reps s (plug c (.node (.node pr p false pk pv (.node l z false k v r)) g true gk gv u)) := hs
        have gn := hs2.node_eq
        have un := (hs2.split.1.2.2).getColor
        have hup : u.rootId ≠ some p := by
            intro h; have := rootId_mem h; have := hs2.split.2.2.1
            simp only [T.ids, List.nodup_append, List.nodup_cons, List.mem_append, List.mem_cons] at this; grind
        cases hu : u.isBlack with
        | false =>
          cases u with
          | leaf => simp at hu
          | node ul ui ub uk uv ur =>
            simp only [isBlack_node] at hu
            subst hu
            have hs3 := hs1.setBlack true
            have hs4 := Reps.setBlack (c := .R _ g true gk gv :: c) hs3 true
            have hs5 := Reps.setBlack (c := c) hs4 false
            obtain ⟨m, d1a, d1b, d1c⟩ := d1
            have := ih c _ _ _ _ _ _ (n+1) (by simp at hlen; omega) hs5 d4 
              ⟨n, c1, ⟨n, hl, hr, rfl⟩, rfl⟩ ⟨m, d1a, d1b, by simp at d1c; simp [d1c]⟩ 
              ⟨by simp, c2, ⟨fun _ => ⟨bl, br⟩, nl, nr⟩⟩ ⟨by simp, d2.2⟩ rfl rfl
            obtain ⟨s', t', e, h1, h2, h3⟩ := this
            refine ⟨s', t', ?_, h1, ?_, h3⟩
            · rw [Tree.insertFixupLoop, zn]
              simp at hup
              simp [pn, gn, Tree.getColor, hup, Reps.node_eq (c := .R _ g true gk gv :: c) hs2]
              exact e
            · rw [h2]; simp [plug_entries]
        | true =>
          obtain ⟨fuel, rfl⟩ : ∃ k, fuel = k + 1 := ⟨fuel - 1, by simp at hlen; omega⟩
          have hs3 : Reps s (plug (.L g true gk gv u :: c) (.node pr p false pk pv (.node l z false k v r))) := hs
          obtain ⟨s3, e3, hs4, z1, z2⟩ := leftRotate_spec hs3
          obtain ⟨s', t', e, h1, h2, h3, h4, h5, h6, h7⟩ := insert_outer_L (fuel := fuel) (z := p) (p := z) hs4 d4 c1 hl hr d1 c2 nl nr d2 c3 bl br hu
          refine ⟨s', t', ?_, h1, ?_, h3, h4, h5, h6.trans z1, h7.trans z2⟩
          · rw [Tree.insertFixupLoop, zn]
            cases u <;> simp at hu hup <;> simp [pn, gn, un, e3]
            · exact e
            · simp [hu] at un
              simp [hu, hup, un]; exact e
          · rw [h2]; simp [plug_entries]
      | R u g gb gk gv =>
        simp only [headBlack_cons, Frame.isBlack_R] at c5
        subst c5
        obtain ⟨d1, d2, -, d4⟩ := c4
        simp only [if_true] at d4
        have hs2 : Reps s (plug c (.node u g true gk gv (.node pr p false pk pv (.node l z false k v r)))) := hs
        have gn := hs2.node_eq
        have un := (hs2.split.1.2.1).getColor
        have hup : u.rootId ≠ some p := by
            intro h; have := rootId_mem h; have := hs2.split.2.2.1
            simp only [T.ids, List.nodup_append, List.nodup_cons, List.mem_append, List.mem_cons] at this; grind
        cases hu : u.isBlack with
        | false =>
          cases u with
          | leaf => simp at hu
          | node ul ui ub uk uv ur =>
            simp only [isBlack_node] at hu
            subst hu
            have hs3 := hs1.setBlack true
            have hs4 := Reps.setBlack (c := .L g true gk gv _ :: c) hs3 true
            have hs5 := Reps.setBlack (c := c) hs4 false
            obtain ⟨m, d1a, d1b, d1c⟩ := d1
            have := ih c _ _ _ _ _ _ (n+1) (by simp at hlen; omega) hs5 d4 
              ⟨m, d1a, d1b, by simp at d1c; simp [d1c]⟩ ⟨n, c1, ⟨n, hl, hr, rfl⟩, rfl⟩
              ⟨by simp, d2.2⟩ ⟨by simp, c2, ⟨fun _ => ⟨bl, br⟩, nl, nr⟩⟩ rfl rfl
            obtain ⟨s', t', e, h1, h2, h3⟩ := this
            refine ⟨s', t', ?_, h1, ?_, h3⟩
            · rw [Tree.insertFixupLoop, zn]
              simp at hup
              simp [pn, gn, Tree.getColor, hup, Reps.node_eq (c := .L g true gk gv _ :: c) hs2]
              exact e
            · rw [h2]; simp [plug_entries]
        | true =>
          obtain ⟨fuel, rfl⟩ : ∃ k, fuel = k + 1 := ⟨fuel - 1, by simp at hlen; omega⟩
          have hne : pr.rootId ≠ some z := by
            intro h; have := rootId_mem h; have := hs1.split.2.2.1
            simp only [T.ids, List.nodup_append, List.nodup_cons, List.mem_append, List.mem_cons] at this; grind
          obtain ⟨s', t', e, h⟩ := insert_outer_R (fuel := fuel) hs2 d4 hl hr c1 d1 nl nr c2 d2 bl br c3 hu
          refine ⟨s', t', ?_, h⟩
          rw [Tree.insertFixupLoop, zn]
          cases u <;> simp at hu hup <;> simp [pn, gn, hne, un]
          · exact e
          · simp [hu] at un
            simp [hu, hup, un]; exact e

theorem plug_height (c : Ctx K V) (t : T K V) : c.length + t.height ≤ (plug c t).height := by
  induction c generalizing t with
  | nil => simp [plug]
  | cons f c ih =>
    cases f with
    | L i b k v r => have := ih (.node t i b k v r); simp [plug] at this ⊢; omega
    | R l i b k v => have := ih (.node l i b k v t); simp [plug] at this ⊢; omega

theorem Reps.height_lt {s : Tree K V} {t : T K V} (hs : Reps s t) : t.height < s.fuel := by
  have := hs.length_le; have := t.height_le; simp [Tree.fuel]; omega

theorem insertFixup_spec {B : Nat} {c : Ctx K V} {s : Tree K V} {l r : T K V} {z : Id} {k : K} {v : V} {n : Nat}
    (hs : Reps s (plug c (.node l z false k v r))) (hc : CtxOK c n) (hl : BH l n) (hr : BH r n) (nl : NoRR l)
    (nr : NoRR r) (bl : l.isBlack = true) (br : r.isBlack = true) (hB : c.length < B) :
    ∃ s' t', Tree.insertFixup B s z = .ok s' ∧ Reps s' t' ∧ t'.entries = (plug c (.node l z false k v r)).entries ∧
      RBT t' ∧ s'.size = s.size ∧ s'.next = s.next := by
  obtain ⟨s1, t1, e, h1, h2, h3, h4, h5, h6, h7⟩ :=
    insertFixupLoop_spec B c s l r z k v n hB hs hc hl hr nl nr bl br
  cases t1 with
  | leaf => simp at h3
  | node tl ti tb tk tv tr =>
    have hb := Reps.setBlack (c := []) h1 true
    refine ⟨_, _, ?_, hb, ?_, ⟨rfl, ⟨by simp, h4.2⟩, ?_⟩, h6, h7⟩
    · simp [Tree.insertFixup, e, h1.root]
    · simpa using h2
    · obtain ⟨m, q, h8, h9, -⟩ := h5
      exact ⟨_, q, h8, h9, rfl⟩

/-- Entries in key order (equal keys allowed). -/
def SortedE (cmp : K → K → Int) (es : List (Id × K × V)) : Prop := es.Pairwise fun a b => cmp a.2.1 b.2.1 ≤ 0

/-- The direction of the innermost frame agrees with the comparison with `key`. -/
def HeadOK (cmp : K → K → Int) (key : K) : Ctx K V → Prop
  | [] => True
  | .L _ _ k _ _ :: _ => cmp key k < 0
  | .R _ _ _ k _ :: _ => ¬ cmp key k < 0

/-- Where `Insert` puts the new key: behind all entries that are not greater. -/
theorem insertDescend_spec (cmp : K → K → Int) (s : Tree K V) (key : K) (fuel : Nat) :
    ∀ (c : Ctx K V) (t : T K V), t.height < fuel → Reps s (plug c t) → HeadOK cmp key c →
    ∃ c', plug c' .leaf = plug c t ∧ s.insertDescend cmp key fuel t.rootId (parentId c) = .ok (parentId c') ∧
      HeadOK cmp key c' ∧
      (∃ A B, t.entries = A ++ B ∧ leftEntries c' = leftEntries c ++ A ∧ rightEntries c' = B ++ rightEntries c ∧
        (LawfulCmp cmp → SortedE cmp t.entries → (∀ e ∈ A, 0 ≤ cmp key e.2.1) ∧ ∀ e ∈ B, cmp key e.2.1 < 0)) := by
  induction fuel with
  | zero => intro c t h; omega
  | succ fuel ih =>
    intro c t hh hs hd
    cases t with
    | leaf => exact ⟨c, rfl, by simp [Tree.insertDescend], hd, [], [], by simp, by simp, by simp, by simp⟩
    | node l i b k v r =>
      simp only [T.height] at hh
      by_cases hlt : cmp key k < 0
      · obtain ⟨c', h1, h2, h3, A, B, h4, h5, h6, h7⟩ := ih (.L i b k v r :: c) l (by omega) hs hlt
        refine ⟨c', h1, ?_, h3, A, B ++ (i, k, v) :: r.entries, by simp [h4], by simpa using h5, by simp [h6], ?_⟩
        · rw [← h2]; simp [Tree.insertDescend, hs.node_eq, hlt]
        · intro hc hso
          simp only [SortedE, T.entries, List.pairwise_append, List.pairwise_cons] at hso
          obtain ⟨h8, h9⟩ := h7 hc hso.1
          refine ⟨h8, fun e he => ?_⟩
          simp at he
          rcases he with he | rfl | he
          · exact h9 e he
          · exact hlt
          · exact hc.lt_of_lt_of_le hlt (hso.2.1.1 e he)
      · obtain ⟨c', h1, h2, h3, A, B, h4, h5, h6, h7⟩ := ih (.R l i b k v :: c) r (by omega) hs hlt
        refine ⟨c', h1, ?_, h3, l.entries ++ (i, k, v) :: A, B, by simp [h4], by simp [h5], by simp [h6], ?_⟩
        · rw [← h2]; simp [Tree.insertDescend, hs.node_eq, hlt]
        · intro hc hso
          simp only [SortedE, T.entries, List.pairwise_append, List.pairwise_cons] at hso
          obtain ⟨h8, h9⟩ := h7 hc hso.2.1.2
          refine ⟨fun e he => ?_, h9⟩
          simp at he
          rcases he with he | rfl | he
          · have := hso.2.2 e he _ (List.mem_cons_self ..)
            have h10 := (hc.le_iff_ge (a := k) (b := key)).2 (by omega)
            exact hc.le_iff_ge.1 (hc.trans _ _ _ this h10)
          · simp; omega
          · exact h8 e he

theorem attach_L {s : Tree K V} {c : Ctx K V} {i b k v} {r : T K V} (hs : Reps s (plug (.L i b k v r :: c) .leaf))
    (key : K) (value : V) :
    Reps ((s.alloc (some i) key value).setLeft i (some s.next))
      (plug (.L i b k v r :: c) (.node .leaf s.next false key value .leaf)) := by
  obtain ⟨h1, ⟨h2, h2', h2''⟩, h3, h4, h5⟩ := hs.split
  have hfr : ∀ j ∈ ctxIds (.L i b k v r :: c), j < s.next := fun j hj => hs.fresh j (mem_plug_ids.2 (.inr hj))
  have hi : i < s.next := hfr i (by simp)
  simp only [ctxIds, Frame.ids_L, List.nodup_append, List.nodup_cons, List.mem_append, List.mem_cons] at h4 hfr
  constructor
  · simp only [Tree.setLeft, Tree.modify_root, Tree.alloc]
    rw [hs.root]; exact plug_rootId_congr (by simp) _ _
  · rw [rep_plug]
    refine ⟨⟨?_, trivial, trivial⟩, ?_, ?_, ?_⟩
    · simp [Tree.setLeft, Tree.alloc, (Nat.ne_of_lt hi).symm]
    · simp [Tree.setLeft, Tree.alloc, h2, Nat.ne_of_lt hi]
    · exact h2'.frame fun j hj => by simp [Tree.setLeft, Tree.alloc]; grind
    · exact h2''.frame fun j hj => by simp [Tree.setLeft, Tree.alloc]; grind
  · rw [nodup_plug]
    refine ⟨by simp, hs.split.2.2.2.1, ?_⟩
    simp only [ctxIds, Frame.ids_L, List.mem_append, List.mem_cons]; simp; grind
  · intro j hj
    rw [mem_plug_ids] at hj
    simp only [ctxIds, Frame.ids_L, List.mem_append, List.mem_cons] at hj
    simp [Tree.setLeft, Tree.alloc] at *; grind

theorem attach_R {s : Tree K V} {c : Ctx K V} {i b k v} {l : T K V} (hs : Reps s (plug (.R l i b k v :: c) .leaf))
    (key : K) (value : V) :
    Reps ((s.alloc (some i) key value).setRight i (some s.next))
      (plug (.R l i b k v :: c) (.node .leaf s.next false key value .leaf)) := by
  obtain ⟨h1, ⟨h2, h2', h2''⟩, h3, h4, h5⟩ := hs.split
  have hfr : ∀ j ∈ ctxIds (.R l i b k v :: c), j < s.next := fun j hj => hs.fresh j (mem_plug_ids.2 (.inr hj))
  have hi : i < s.next := hfr i (by simp)
  simp only [ctxIds, Frame.ids_R, List.nodup_append, List.nodup_cons, List.mem_append, List.mem_cons] at h4 hfr
  constructor
  · simp only [Tree.setRight, Tree.modify_root, Tree.alloc]
    rw [hs.root]; exact plug_rootId_congr (by simp) _ _
  · rw [rep_plug]
    refine ⟨⟨?_, trivial, trivial⟩, ?_, ?_, ?_⟩
    · simp [Tree.setRight, Tree.alloc, (Nat.ne_of_lt hi).symm]
    · simp [Tree.setRight, Tree.alloc, h2, Nat.ne_of_lt hi]
    · exact h2'.frame fun j hj => by simp [Tree.setRight, Tree.alloc]; grind
    · exact h2''.frame fun j hj => by simp [Tree.setRight, Tree.alloc]; grind
  · rw [nodup_plug]
    refine ⟨by simp, hs.split.2.2.2.1, ?_⟩
    simp only [ctxIds, Frame.ids_R, List.mem_append, List.mem_cons]; simp; grind
  · intro j hj
    rw [mem_plug_ids] at hj
    simp only [ctxIds, Frame.ids_R, List.mem_append, List.mem_cons] at hj
    simp [Tree.setRight, Tree.alloc] at *; grind

theorem insertB_spec (cmp : K → K → Int) {s : Tree K V} {t : T K V} (hs : Reps s t) (hrb : RBT t) (key : K) (value : V) {N : Nat} (hh : t.height < N) :
    ∃ s' t' A B, Tree.insertB N cmp s key value = .ok s' ∧ Reps s' t' ∧ RBT t' ∧ t.entries = A ++ B ∧
      t'.entries = A ++ (s.next, key, value) :: B ∧ s'.size = s.size + 1 ∧ s'.next = s.next + 1 ∧
      (LawfulCmp cmp → SortedE cmp t.entries → (∀ e ∈ A, 0 ≤ cmp key e.2.1) ∧ ∀ e ∈ B, cmp key e.2.1 < 0) := by
  obtain ⟨c', h1, h2, h3, A, B, h4, h5, h6, h7⟩ := insertDescend_spec cmp s key N [] t hh hs trivial
  have hcl : c'.length < N := by
    have := plug_height c' (.leaf : T K V)
    rw [h1] at this
    simp only [plug] at this
    omega
  simp only [plug, leftEntries, rightEntries, List.nil_append, List.append_nil, parentId_nil] at h1 h2 h5 h6
  have hs' : Reps s (plug c' .leaf) := by rw [h1]; exact hs
  rw [← h1] at hrb
  obtain ⟨n, z1, z2, z3, z4⟩ := hrb.zip
  have hn : n = 0 := z2
  subst hn
  rcases c' with _ | ⟨f, c⟩
  · simp only [plug] at h1
    subst h1
    simp at h4
    obtain ⟨rfl, rfl⟩ := h4
    refine ⟨{ (s.alloc none key value).setBlack s.next true with root := some s.next },
      .node .leaf s.next true key value .leaf, [], [], ?_, ?_, ?_, rfl, rfl, rfl, rfl, by simp⟩
    · simp only [Tree.insertB, hs.root, h2]
      simp only [Res.ok_bind, parentId_nil, Res.pure_eq]
    · constructor <;> simp [Tree.setBlack, Tree.alloc, Rep]
    · exact ⟨rfl, ⟨by simp, trivial, trivial⟩, 1, 0, rfl, rfl, rfl⟩
  · cases f with
    | L i b k v r =>
      have ha := attach_L hs' key value
      obtain ⟨s', t', e, g1, g2, g3, g4, g5⟩ := insertFixup_spec ha z1 rfl rfl trivial trivial rfl rfl hcl
      refine ⟨s', t', A, B, ?_, g1, g3, h4, ?_, g4, g5, h7⟩
      · have hi : i < s.next := hs'.fresh i (mem_plug_ids.2 (.inr (by simp)))
        have hl := hs'.split.2.1.1
        have hni : ¬ i = s.next := Nat.ne_of_lt hi
        have h3 : cmp key k < 0 := h3
        simp [Tree.insertB, hs.root, h2, Tree.node, Tree.alloc, hni, hl, h3]
        simpa [Tree.alloc, hs.root] using e
      · rw [g2, plug_entries, h5, h6]; simp
    | R l i b k v =>
      have ha := attach_R hs' key value
      obtain ⟨s', t', e, g1, g2, g3, g4, g5⟩ := insertFixup_spec ha z1 rfl rfl trivial trivial rfl rfl hcl
      refine ⟨s', t', A, B, ?_, g1, g3, h4, ?_, g4, g5, h7⟩
      · have hi : i < s.next := hs'.fresh i (mem_plug_ids.2 (.inr (by simp)))
        have hl := hs'.split.2.1.1
        have hni : ¬ i = s.next := Nat.ne_of_lt hi
        have h3 : ¬ cmp key k < 0 := h3
        simp [Tree.insertB, hs.root, h2, Tree.node, Tree.alloc, hni, hl, h3]
        simpa [Tree.alloc, hs.root] using e
      · rw [g2, plug_entries, h5, h6]; simp

theorem insert_spec (cmp : K → K → Int) {s : Tree K V} {t : T K V} (hs : Reps s t) (hrb : RBT t) (key : K) (value : V) :
    ∃ s' t' A B, s.insert cmp key value = .ok s' ∧ Reps s' t' ∧ RBT t' ∧ t.entries = A ++ B ∧
      t'.entries = A ++ (s.next, key, value) :: B ∧ s'.size = s.size + 1 ∧ s'.next = s.next + 1 ∧
      (LawfulCmp cmp → SortedE cmp t.entries → (∀ e ∈ A, 0 ≤ cmp key e.2.1) ∧ ∀ e ∈ B, cmp key e.2.1 < 0) :=
  insertB_spec cmp hs hrb key value hs.height_lt

end GoSTL.RB
