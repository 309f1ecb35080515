import Verif.Hamt.ArraysState
/-!
# C98: a traversal whose visitor changes the trie
-/
namespace GoSTL.Hamt.Arr
variable {σ T : Type} {H : Key → Hash} {L L' L'' : Lab} {m m' : Mem T} {visit : Visitor σ T} {w w' w'' : Walk σ T}

/-! ## Specification -/

/-- The keys the visitor was called with. -/
def visited : List (Event T) → List Key
  | [] => []
  | .visit k _ :: t => k :: visited t
  | .call _ :: t => visited t

/-- The calls the visitor made. -/
def made : List (Event T) → List (Call T)
  | [] => []
  | .visit _ _ :: t => made t
  | .call c :: t => c :: made t

/-- The keys erased by calls. -/
def gone : List (Call T) → List Key
  | [] => []
  | .insert _ _ :: cs => gone cs
  | .erase k :: cs => k :: gone cs

/-- A call as an operation on a map. -/
def Call.op : Call T → Op T
  | .insert k v => .insert k v
  | .erase k => .erase k

/-- The map after the calls. -/
def mapAfter (cs : List (Call T)) (M : Key → Option T) : Key → Option T := (specRun (cs.map Call.op) M).2

/-- Every visit shows a key that is in the map at that moment, with its value. -/
def Shown : List (Event T) → (Key → Option T) → Prop
  | [], _ => True
  | .visit k v :: t, M => M k = some v ∧ Shown t M
  | .call c :: t, M => Shown t (mapAfter [c] M)

/-- The visitor erases only keys it has been called with. -/
def OnlyShown (visit : Visitor σ T) : Prop := ∀ w k v k', Call.erase k' ∈ (visit w k v).calls → k' = k ∨ k' ∈ visited w.trace

/-- The visitor always goes on. -/
def Steady (visit : Visitor σ T) : Prop := ∀ w k v, (visit w k v).go = true

/-- What happened is what the visitor asked for: the calls after a visit are those of its answer, and after a "stop" no key with the same hash comes next (that the
traversal as a whole goes on after a "stop" is C49). -/
inductive Follows (H : Key → Hash) (visit : Visitor σ T) : Walk σ T → List (Event T) → Walk σ T → Prop
  | nil {w : Walk σ T} : Follows H visit w [] w
  | visit {w w' : Walk σ T} {k : Key} {v : T} {m : Mem T} {t : List (Event T)} : calls H (visit w k v).calls w.mem = .ok m →
      (∀ k' v' t', t = .visit k' v' :: t' → H k' = H k → (visit w k v).go = true) → Follows H visit (after w k v (visit w k v) m) t w' → Follows H visit w (.visit k v :: ((visit w k v).calls.map .call ++ t)) w'

/-! ## Traces -/

theorem visited_append (s t : List (Event T)) : visited (s ++ t) = visited s ++ visited t := by
  induction s with
  | nil => rfl
  | cons e s ih => cases e <;> simp [visited, ih]

theorem visited_calls (cs : List (Call T)) : visited (cs.map .call) = [] := by
  induction cs with
  | nil => rfl
  | cons c cs ih => exact ih

theorem made_append (s t : List (Event T)) : made (s ++ t) = made s ++ made t := by
  induction s with
  | nil => rfl
  | cons e s ih => cases e <;> simp [made, ih]

theorem made_calls (cs : List (Call T)) : made (cs.map .call) = cs := by
  induction cs with
  | nil => rfl
  | cons c cs ih => simp only [List.map_cons, made, ih]

theorem gone_append (s t : List (Call T)) : gone (s ++ t) = gone s ++ gone t := by
  induction s with
  | nil => rfl
  | cons e s ih => cases e <;> simp [gone, ih]

theorem mem_gone {cs : List (Call T)} {k : Key} : k ∈ gone cs ↔ Call.erase k ∈ cs := by
  induction cs with
  | nil => simp [gone]
  | cons c cs ih => cases c <;> simp [gone, ih]

theorem specRun_append (M : Key → Option T) (a b : List (Op T)) : (specRun (a ++ b) M).2 = (specRun b (specRun a M).2).2 := by
  induction a generalizing M with
  | nil => rfl
  | cons x a ih => exact ih _

theorem mapAfter_append (a b : List (Call T)) (M : Key → Option T) : mapAfter (a ++ b) M = mapAfter b (mapAfter a M) := by
  simp only [mapAfter, List.map_append, specRun_append]

theorem mapAfter_cons (c : Call T) (b : List (Call T)) (M : Key → Option T) : mapAfter (c :: b) M = mapAfter b (mapAfter [c] M) := mapAfter_append [c] b M

theorem shown_append (s t : List (Event T)) (M : Key → Option T) : Shown (s ++ t) M ↔ Shown s M ∧ Shown t (mapAfter (made s) M) := by
  induction s generalizing M with
  | nil => simp [Shown, made, mapAfter, specRun]
  | cons e s ih =>
    cases e with
    | visit k v => simp only [List.cons_append, Shown, made, ih, and_assoc]
    | call c =>
      have := ih (mapAfter [c] M)
      rw [← mapAfter_cons c] at this
      exact this

theorem shown_calls (cs : List (Call T)) (M : Key → Option T) : Shown (cs.map .call) M := by
  induction cs generalizing M with
  | nil => trivial
  | cons c cs ih => exact ih _

theorem Follows.trans {s t : List (Event T)} (h : Follows H visit w s w') (h' : Follows H visit w' t w'') (hne : ∀ k ∈ visited s, ∀ k' ∈ visited t, H k ≠ H k') :
    Follows H visit w (s ++ t) w'' := by
  induction h with
  | nil => exact h'
  | @visit w w' k v m t0 e hs _ ih =>
    rw [List.cons_append, List.append_assoc]
    refine .visit e ?_ (ih h' fun k hk => hne k ?_)
    · intro k' v' t' ht hh
      cases t0 with
      | nil =>
        have ht : t = _ := ht
        exact absurd hh.symm (hne k (by simp [visited]) k' (by rw [ht]; simp [visited]))
      | cons e t0 =>
        rw [List.cons_append] at ht
        injection ht with h1 h2
        exact hs k' v' t0 (by rw [h1]) hh
    · simp only [visited, visited_append, List.mem_cons, List.mem_append]
      exact .inr (.inr hk)

/-! ## Calls -/

theorem calls_append (a b : List (Call T)) (m : Mem T) : calls H (a ++ b) m = calls H a m >>= calls H b := by
  induction a generalizing m with
  | nil => rfl
  | cons c a ih =>
    simp only [List.cons_append, calls]
    cases call H m c <;> simp [ih]

theorem calls_spec : ∀ (cs : List (Call T)) {L : Lab} {m : Mem T}, Good H L m → ∃ L' m', calls H cs m = .ok m' ∧ Good H L' m' ∧ Mv H (· ∈ gone cs) L m L' m' ∧
    ∀ M, Is m M → Is m' (mapAfter cs M) := by
  intro cs
  induction cs with
  | nil => intro L m hg; exact ⟨L, m, rfl, hg, .refl, fun M h => h⟩
  | cons c cs ih =>
    intro L m hg
    have h1 : ∃ L' m', call H m c = .ok m' ∧ Good H L' m' ∧ Mv H (· ∈ gone [c]) L m L' m' ∧ ∀ M, Is m M → Is m' (mapAfter [c] M) := by
      cases c with
      | insert k v =>
        obtain ⟨L', m', h1, h2, h3, h4⟩ := insert_good hg k v
        exact ⟨L', m', h1, h2, h3.mono fun _ c => c.elim, h4⟩
      | erase k =>
        obtain ⟨b, L', m', h1, h2, h3, h4⟩ := erase_good hg k
        exact ⟨L', m', by simp only [call, h1, Res.ok_bind], h2, h3.mono (by rintro _ rfl; simp [gone]), fun M hM => (h4 M hM).2⟩
    obtain ⟨L1, m1, a1, a2, a3, a4⟩ := h1
    obtain ⟨L2, m2, b1, b2, b3, b4⟩ := ih a2
    have hgone : gone (c :: cs) = gone [c] ++ gone cs := gone_append [c] cs
    refine ⟨L2, m2, by simp only [calls, a1, b1, Res.ok_bind], b2, ?_, fun M hM => ?_⟩
    · refine (a3.mono ?_).trans (b3.mono ?_) <;> intro k hk <;> rw [hgone] <;> simp [hk]
    · rw [mapAfter_cons]
      exact b4 _ (a4 M hM)

/-! ## What a part of the traversal has done -/

/-- A part of the traversal has made the events `t`. -/
structure Done (H : Key → Hash) (visit : Visitor σ T) (L : Lab) (w : Walk σ T) (t : List (Event T)) (L' : Lab) (w' : Walk σ T) : Prop where
  follows : Follows H visit w t w'
  trace : w'.trace = w.trace ++ t
  good : Good H L' w'.mem
  mv : Mv H (· ∈ gone (made t)) L w.mem L' w'.mem
  hist : calls H (made t) w.mem = .ok w'.mem
  map : ∀ M, Is w.mem M → Is w'.mem (mapAfter (made t) M)
  only : OnlyShown visit → ∀ k ∈ gone (made t), k ∈ visited (w.trace ++ t)
  shown : OnlyShown visit → ∀ M, Is w.mem M → Shown t M

theorem Done.refl (hg : Good H L w.mem) : Done H visit L w [] L w :=
  ⟨.nil, by simp, hg, .refl, rfl, fun M h => h, fun _ k hk => by simp [made, gone] at hk, fun _ _ _ => trivial⟩

theorem Done.trans {s t : List (Event T)} (h : Done H visit L w s L' w') (h' : Done H visit L' w' t L'' w'')
    (hf : Follows H visit w (s ++ t) w'') : Done H visit L w (s ++ t) L'' w'' where
  follows := hf
  trace := by rw [h'.trace, h.trace, List.append_assoc]
  good := h'.good
  mv := by
    have e : gone (made (s ++ t)) = gone (made s) ++ gone (made t) := by rw [made_append, gone_append]
    refine (h.mv.mono ?_).trans (h'.mv.mono ?_) <;> intro k hk <;> rw [e] <;> simp [hk]
  hist := by rw [made_append, calls_append, h.hist]; exact h'.hist
  map M hM := by rw [made_append, mapAfter_append]; exact h'.map _ (h.map M hM)
  only hv k hk := by
    rw [made_append, gone_append, List.mem_append] at hk
    rw [← List.append_assoc, visited_append]
    rcases hk with hk | hk
    · simp [h.only hv k hk]
    · have := h'.only hv k hk
      rw [h.trace, visited_append] at this
      exact this
  shown hv M hM := (shown_append _ _ _).2 ⟨h.shown hv M hM, h'.shown hv _ (h.map M hM)⟩

/-- One visit. -/
theorem visit_done (hg : Good H L w.mem) {a : Nat} {k : Key} {v : T} {n : Option Nat} (ho : w.mem.objs[a]? = some (.pair k v n)) (hl : OnlyShown visit → EntHas w.mem 0 (a, k)) :
    ∃ L' m', calls H (visit w k v).calls w.mem = .ok m' ∧ Done H visit L w (.visit k v :: (visit w k v).calls.map .call) L' (after w k v (visit w k v) m') := by
  obtain ⟨L', m', h1, h2, h3, h4⟩ := calls_spec (H := H) (visit w k v).calls hg
  have hmade : made (.visit k v :: (visit w k v).calls.map .call) = (visit w k v).calls := made_calls _
  refine ⟨L', m', h1, ⟨?_, rfl, h2, by rw [hmade]; exact h3, by rw [hmade]; exact h1, by rw [hmade]; exact h4, ?_, ?_⟩⟩
  · have := Follows.visit h1 (by simp) (.nil (H := H) (visit := visit))
    rwa [List.append_nil] at this
  · intro hv k' hk'
    rw [hmade, mem_gone] at hk'
    rw [visited_append]
    rcases hv _ _ _ _ hk' with rfl | h
    · simp [visited]
    · simp [h]
  · intro hv M hM
    exact ⟨(hM k v).2 ⟨a, n, hl hv, ho⟩, shown_calls _ _⟩

/-- The rest of a chain after calls. -/
theorem chain_tail {K : Key → Prop} (hw : WF H L m) {a : Nat} {k : Key} {D : List (Nat × Key)} (hC : Chain m (some a) ((a, k) :: D)) (hK : ChainTo K m m' (some a)) :
    ∃ v n D', m'.objs[a]? = some (.pair k v n) ∧ Chain m' n D' ∧ D'.Sublist D ∧ ∀ x ∈ D, ¬ K x.2 → x ∈ D' := by
  obtain ⟨C', h1, h2, h3⟩ := hK _ hC
  have hnd := Chain.nodup hw hC
  rw [List.map_cons, List.nodup_cons] at hnd
  have hself : ∀ k', (a, k') ∉ D := by
    intro k' c
    obtain ⟨v, n, e⟩ := hC.mem (a, k') (by simp [c])
    obtain ⟨v', n', e'⟩ := hC.mem (a, k) (by simp)
    have e : m.objs[a]? = some (.pair k' v n) := e
    have e' : m.objs[a]? = some (.pair k v' n') := e'
    rw [e] at e'
    cases e'
    exact hnd.1 (mem_keys c)
  cases h1 with
  | @cons _ k' v n D' e t =>
    cases h2 with
    | cons _ h => exact absurd (h.subset (by simp)) (hself k')
    | cons_cons _ h =>
      refine ⟨v, n, D', e, t, h, fun x hx hk => ?_⟩
      rcases List.mem_cons.1 (h3 x (by simp [hx]) hk) with rfl | h
      · exact absurd hx (hself _)
      · exact h

theorem pairLoop_spec {h : Hash} : ∀ (f : Nat) (l : Option Nat) (C : List (Nat × Key)) (L : Lab) (w : Walk σ T), Good H L w.mem → Chain w.mem l C → C.length < f →
    (∀ x ∈ C, H x.2 = h) → (OnlyShown visit → ∀ x ∈ C, EntHas w.mem 0 x ∧ x.2 ∉ visited w.trace) →
    ∃ w' L' t go, pairLoop H visit f l w = .ok (w', go) ∧ Done H visit L w t L' w' ∧ (visited t).Sublist (C.map Prod.snd) ∧
      (Steady visit → go = true ∧ ∀ x ∈ C, x.2 ∈ visited t ∨ x.2 ∈ gone (made t)) := by
  intro f
  induction f with
  | zero => intro l C L w _ _ hf; omega
  | succ f ih =>
    intro l C L w hg hC hf hh hs
    cases hC with
    | nil => exact ⟨w, L, [], true, rfl, .refl hg, by simp [visited], fun _ => ⟨rfl, by simp⟩⟩
    | @cons a k v n D ho hD =>
      have hC : Chain w.mem (some a) ((a, k) :: D) := .cons ho hD
      obtain ⟨L1, m1, h1, h2⟩ := visit_done (visit := visit) hg ho (fun hv => (hs hv _ (by simp)).1)
      obtain ⟨v1, n1, D', d1, d2, d3, d4⟩ := chain_tail hg.wf hC (h2.mv.chain a (List.getElem?_eq_some_iff.1 ho).1)
      have hvis : visited (Event.visit k v :: (visit w k v).calls.map Event.call) = [k] := by simp [visited, visited_calls]
      have hmade : made (.visit k v :: (visit w k v).calls.map .call) = (visit w k v).calls := made_calls _
      have hnd := Chain.nodup hg.wf hC
      rw [List.map_cons, List.nodup_cons] at hnd
      simp only [pairLoop, asPair_of ho, Res.ok_bind, h1]
      by_cases hgo : (visit w k v).go = true
      · rw [if_pos hgo]
        have d1' : m1.objs[a]? = some (.pair k v1 n1) := d1
        simp only [asPair_of d1', Res.ok_bind]
        obtain ⟨w', L', t, go, i1, i2, i3, i4⟩ := ih n1 D' L1 (after w k v (visit w k v) m1) h2.good d2
          (by have := d3.length_le; simp at hf; omega) (fun x hx => hh x (by simp [d3.subset hx])) (by
            intro hv x hx
            have hxD := d3.subset hx
            have hno : x.2 ∉ visited (w.trace ++ Event.visit k v :: (visit w k v).calls.map Event.call) := by
              rw [visited_append, hvis]
              intro c
              rcases List.mem_append.1 c with c | c
              · exact (hs hv x (by simp [hxD])).2 c
              · rw [List.mem_singleton] at c
                exact hnd.1 (c ▸ mem_keys (y := x.1) (k := x.2) hxD)
            exact ⟨h2.mv.keep x (hs hv x (by simp [hxD])).1 fun c => hno (h2.only hv _ c), hno⟩)
        refine ⟨w', L', _, go, i1, h2.trans i2 ?_, ?_, fun hst => ⟨(i4 hst).1, fun x hx => ?_⟩⟩
        · rw [List.cons_append]
          exact .visit h1 (fun _ _ _ _ _ => hgo) i2.follows
        · rw [visited_append, hvis]
          exact (i3.trans (d3.map _)).cons_cons k
        · rw [visited_append, hvis, made_append, gone_append, List.mem_append, List.mem_append]
          rcases List.mem_cons.1 hx with rfl | hx
          · simp
          · by_cases hk : x.2 ∈ gone (made (Event.visit k v :: (visit w k v).calls.map Event.call))
            · exact .inr (.inl hk)
            · exact ((i4 hst).2 x (d4 x hx hk)).imp .inr .inr
      · rw [if_neg hgo]
        refine ⟨_, L1, _, false, rfl, h2, ?_, fun hst => absurd (hst _ _ _) hgo⟩
        rw [hvis]
        simp

/-- What a part of the traversal ends with; `R` are the keys it may visit, `A` the pairs it has to. -/
def Ends (H : Key → Hash) (visit : Visitor σ T) (L : Lab) (w : Walk σ T) (R : Key → Prop) (A : List (Event T) → Prop) (r : Res (Walk σ T)) : Prop :=
  (r = .panic ∧ ¬ OnlyShown visit) ∨
  ∃ w' L' t, r = .ok w' ∧ Done H visit L w t L' w' ∧ (visited t).Nodup ∧ (∀ k ∈ visited t, R k) ∧ (Steady visit → A t)

theorem pos_ne {L : Lab} {m : Mem T} (hw : WF H L m) {ar : Nat} {cs : List (Option Nat)} (ha : m.arrs[ar]? = some cs) {i j p p' : Nat} (h1 : (L ar).2[i]? = some p)
    (h2 : (L ar).2[j]? = some p') (hij : i < j) : p ≠ p' := by
  rintro rfl
  have hn : (L ar).2.Nodup := (hw.arr _ _ ha).sorted.imp (fun h => Nat.ne_of_lt h)
  obtain ⟨l1, w1⟩ := List.getElem?_eq_some_iff.1 h1
  obtain ⟨l2, w2⟩ := List.getElem?_eq_some_iff.1 h2
  have := (List.Nodup.getElem_inj_iff hn).1 (w1.trans w2.symm)
  omega

theorem slotLoop_spec {rec : Nat → Walk σ T → Res (Walk σ T)} {ar : Nat} {q ps : List Nat}
    (hrec : ∀ (e : Nat) (L : Lab) (w : Walk σ T) (bm : Hash) (p ar' : Nat), Good H L w.mem → w.mem.objs[e]? = some (.node bm p ar') → (L ar').1.length = q.length + 1 →
      (OnlyShown visit → (∀ k ∈ visited w.trace, ¬ OnPath (H k) (L ar').1) ∧ ∀ x, EntHas w.mem e x → EntHas w.mem 0 x) →
      Ends H visit L w (fun k => OnPath (H k) (L ar').1) (fun t => ∀ x, EntHas w.mem e x → x.2 ∈ visited t ∨ x.2 ∈ gone (made t)) (rec e w)) :
    ∀ (n i : Nat) (L : Lab) (w : Walk σ T) (cs : List (Option Nat)), Good H L w.mem → w.mem.arrs[ar]? = some cs → L ar = (q, ps) → i + n = ps.length →
      (OnlyShown visit → ∀ (j p : Nat), i ≤ j → ps[j]? = some p → (∀ k ∈ visited w.trace, ¬ OnPath (H k) (q ++ [p])) ∧
        ∃ e, cs[j]? = some (some e) ∧ ∀ x, EntHas w.mem e x → EntHas w.mem 0 x) →
      Ends H visit L w (fun k => ∃ (j p : Nat), i ≤ j ∧ ps[j]? = some p ∧ OnPath (H k) (q ++ [p]))
        (fun t => ∀ (j p : Nat), i ≤ j → ps[j]? = some p → ∃ e, cs[j]? = some (some e) ∧ ∀ x, EntHas w.mem e x → x.2 ∈ visited t ∨ x.2 ∈ gone (made t))
        (slotLoop H visit rec ar n i w) := by
  intro n
  induction n with
  | zero =>
    intro i L w cs hg ha hL hn hs
    refine .inr ⟨w, L, [], rfl, .refl hg, by simp [visited], by simp [visited], fun _ j p hj hp => ?_⟩
    have := (List.getElem?_eq_some_iff.1 hp).1
    omega
  | succ n ih =>
    intro i L w cs hg ha hL hn hs
    have hil : i < ps.length := by omega
    have hpi : ps[i]? = some ps[i] := by simp [hil]
    generalize ps[i] = p at hpi
    have hsize := (hg.wf.arr _ _ ha).size
    rw [hL] at hsize
    have hsize : ps.length = cs.length := hsize
    simp only [slotLoop, ha, Res.ofOption_some, Res.ok_bind]
    rcases hsl : cs[i]? with _ | _ | e
    · rw [List.getElem?_eq_none_iff] at hsl; omega
    · refine .inl ⟨rfl, fun hv => ?_⟩
      obtain ⟨-, e, c, -⟩ := hs hv i p (Nat.le_refl _) hpi
      rw [hsl] at c
      cases c
    · simp only [Res.ofOption_some, Res.ok_bind]
      have hent := (hg.wf.arr _ _ ha).ent i p e (by rw [hL]; exact hpi) hsl
      rw [hL] at hent
      have hent : EntAt L w.mem (q ++ [p]) e := hent
      have hlive : OnlyShown visit → ∀ x, EntHas w.mem e x → EntHas w.mem 0 x := by
        intro hv
        obtain ⟨-, e', c1, c2⟩ := hs hv i p (Nat.le_refl _) hpi
        rw [hsl] at c1
        cases c1
        exact c2
      have hnew : OnlyShown visit → ∀ k ∈ visited w.trace, ¬ OnPath (H k) (q ++ [p]) := fun hv => (hs hv i p (Nat.le_refl _) hpi).1
      -- the rest of the loop, after the entry `e` is done
      have rest : ∀ (w1 : Walk σ T) (L1 : Lab) (t1 : List (Event T)), Done H visit L w t1 L1 w1 → (visited t1).Nodup → (∀ k ∈ visited t1, OnPath (H k) (q ++ [p])) →
          (Steady visit → ∀ x, EntHas w.mem e x → x.2 ∈ visited t1 ∨ x.2 ∈ gone (made t1)) →
          Ends H visit L w (fun k => ∃ (j p : Nat), i ≤ j ∧ ps[j]? = some p ∧ OnPath (H k) (q ++ [p]))
            (fun t => ∀ (j p : Nat), i ≤ j → ps[j]? = some p → ∃ e, cs[j]? = some (some e) ∧ ∀ x, EntHas w.mem e x → x.2 ∈ visited t ∨ x.2 ∈ gone (made t))
            (slotLoop H visit rec ar n (i + 1) w1) := by
        intro w1 L1 t1 hd hnd hp1 hall
        have hlab : L1 ar = (q, ps) := (hd.mv.label ar (List.getElem?_eq_some_iff.1 ha).1).trans hL
        have hal : ar < w1.mem.arrs.length := Nat.lt_of_lt_of_le (List.getElem?_eq_some_iff.1 ha).1 hd.mv.arrs
        obtain ⟨cs1, ha1⟩ : ∃ cs1, w1.mem.arrs[ar]? = some cs1 := ⟨_, List.getElem?_eq_getElem hal⟩
        have hsep : ∀ (j p' : Nat), i + 1 ≤ j → ps[j]? = some p' → ∀ k ∈ visited t1, ¬ OnPath (H k) (q ++ [p']) := by
          intro j p' hj hp' k hk c
          have := pos_ne hg.wf ha (i := i) (j := j) (p := p) (p' := p') (by rw [hL]; exact hpi) (by rw [hL]; exact hp') (by omega)
          exact this ((OnPath.snoc.1 (hp1 k hk)).2.symm.trans (OnPath.snoc.1 c).2)
        have hrest := ih (i + 1) L1 w1 cs1 hd.good ha1 hlab (by omega) (by
          intro hv j p' hj hp'
          obtain ⟨h1, e', h2, h3⟩ := hs hv j p' (by omega) hp'
          have hno : ∀ k ∈ visited w1.trace, ¬ OnPath (H k) (q ++ [p']) := by
            intro k hk
            rw [hd.trace, visited_append] at hk
            rcases List.mem_append.1 hk with hk | hk
            · exact h1 k hk
            · exact hsep j p' hj hp' k hk
          have hno' : ∀ k ∈ gone (made t1), ¬ OnPath (H k) (q ++ [p']) := by
            intro k hk
            have := hd.only hv k hk
            rw [← hd.trace] at this
            exact hno k this
          refine ⟨hno, ?_⟩
          obtain ⟨cs', g1, g2⟩ := hd.mv.slot ar cs j p' e' ha (by rw [hL]; exact hp') h2
          rw [ha1] at g1
          cases g1
          rw [hL] at g2
          rcases g2 with ⟨-, k, g3, g4⟩ | ⟨e1, g3, g4, g5⟩
          · exact absurd g4 (hno' k g3)
          · exact ⟨e1, g3, g5 hno' h3⟩)
        rcases hrest with hp | ⟨w', L', t, r1, r2, r3, r4, r5⟩
        · exact .inl hp
        · refine .inr ⟨w', L', t1 ++ t, r1, hd.trans r2 (hd.follows.trans r2.follows ?_), ?_, ?_, ?_⟩
          · intro k hk k' hk' hh
            obtain ⟨j, p', hj, hp', hon⟩ := r4 k' hk'
            rw [← hh] at hon
            exact hsep j p' hj hp' k hk hon
          · rw [visited_append]
            refine List.nodup_append.2 ⟨hnd, r3, ?_⟩
            rintro k hk k' hk' rfl
            obtain ⟨j, p', hj, hp', hon⟩ := r4 k hk'
            exact hsep j p' hj hp' k hk hon
          · intro k hk
            rw [visited_append] at hk
            rcases List.mem_append.1 hk with hk | hk
            · exact ⟨i, p, Nat.le_refl _, hpi, hp1 k hk⟩
            · obtain ⟨j, p', hj, h⟩ := r4 k hk
              exact ⟨j, p', by omega, h⟩
          · intro hst j p' hj hp'
            simp only [visited_append, made_append, gone_append, List.mem_append]
            rcases Nat.lt_or_eq_of_le hj with hj | rfl
            · obtain ⟨e1, h1, h2⟩ := r5 hst j p' hj hp'
              have hjl : j < cs.length := by rw [← hsize]; exact (List.getElem?_eq_some_iff.1 hp').1
              rcases hsj : cs[j]? with _ | _ | e0
              · rw [List.getElem?_eq_none_iff] at hsj; omega
              · obtain ⟨cs', g1, g2⟩ := hd.mv.nil ar cs j ha hsj
                rw [ha1] at g1
                cases g1
                rw [h1] at g2
                cases g2
              · refine ⟨e0, rfl, fun x hx => ?_⟩
                obtain ⟨cs', g1, g2⟩ := hd.mv.slot ar cs j p' e0 ha (by rw [hL]; exact hp') hsj
                rw [ha1] at g1
                cases g1
                rw [h1] at g2
                rcases g2 with ⟨g2, -⟩ | ⟨e2, g3, g4, -⟩
                · cases g2
                · cases g3
                  by_cases hk : x.2 ∈ gone (made t1)
                  · exact .inr (.inl hk)
                  · exact (h2 x (g4 x hx hk)).imp .inr .inr
            · refine ⟨e, hsl, fun x hx => ?_⟩
              exact (hall hst x hx).imp .inl .inl
      rcases id hent with ⟨h, l, ho, hon⟩ | ⟨bm, p0, ar', ho, hq, -⟩
      · simp only [ho]
        obtain ⟨C, hC, hCh⟩ := hg.wf.kv_chain ho
        have hhas : ∀ x, EntHas w.mem e x ↔ x ∈ C := fun x => entHas_kv ho hC
        obtain ⟨w1, L1, t1, go, i1, i2, i3, i4⟩ := pairLoop_spec (visit := visit) (budget w.mem) l C L w hg hC (Chain.length_lt hg.wf hC) hCh (by
          intro hv x hx
          refine ⟨hlive hv x ((hhas x).2 hx), fun c => hnew hv _ c ?_⟩
          rw [hCh x hx]
          exact hon)
        have hnd := i3.nodup (Chain.nodup hg.wf hC)
        have hp1 : ∀ k ∈ visited t1, OnPath (H k) (q ++ [p]) := by
          intro k hk
          obtain ⟨x, hx, rfl⟩ := List.mem_map.1 (i3.subset hk)
          rw [hCh x hx]
          exact hon
        simp only [i1, Res.ok_bind]
        cases go with
        | true =>
          rw [if_pos rfl]
          exact rest w1 L1 t1 i2 hnd hp1 (fun hst x hx => (i4 hst).2 x ((hhas x).1 hx))
        | false =>
          rw [if_neg (by simp)]
          refine .inr ⟨w1, L1, t1, rfl, i2, hnd, fun k hk => ⟨i, p, Nat.le_refl _, hpi, hp1 k hk⟩, fun hst => ?_⟩
          cases (i4 hst).1
      · simp only [ho]
        have hr := hrec e L w bm p0 ar' hg ho (by rw [hq]; simp) (fun hv => ⟨by rw [hq]; exact hnew hv, hlive hv⟩)
        rw [hq] at hr
        rcases hr with ⟨hp, hv⟩ | ⟨w1, L1, t1, i1, i2, i3, i4, i5⟩
        · rw [hp]
          exact .inl ⟨rfl, hv⟩
        · rw [i1]
          exact rest w1 L1 t1 i2 i3 i4 i5

theorem traversal_spec : ∀ (f : Nat) (h : Nat) (L : Lab) (w : Walk σ T) (bm : Hash) (p ar : Nat), Good H L w.mem → w.mem.objs[h]? = some (.node bm p ar) →
    11 ≤ f + (L ar).1.length → (OnlyShown visit → (∀ k ∈ visited w.trace, ¬ OnPath (H k) (L ar).1) ∧ ∀ x, EntHas w.mem h x → EntHas w.mem 0 x) →
    Ends H visit L w (fun k => OnPath (H k) (L ar).1) (fun t => ∀ x, EntHas w.mem h x → x.2 ∈ visited t ∨ x.2 ∈ gone (made t)) (traversal H visit f h w) := by
  intro f
  induction f with
  | zero =>
    intro h L w bm p ar hg ho hf
    obtain ⟨_, cs, hcs, -⟩ := hg.wf.node _ _ _ _ ho
    have := (hg.wf.arr _ _ hcs).len
    omega
  | succ f ih =>
    intro h L w bm p ar hg ho hf hs
    obtain ⟨_, cs, hcs, hnone⟩ := hg.wf.node _ _ _ _ ho
    have hsize := (hg.wf.arr _ _ hcs).size
    simp only [traversal, asNode_of ho hcs, Res.ok_bind]
    have hl := slotLoop_spec (H := H) (visit := visit) (rec := traversal H visit f) (ar := ar) (q := (L ar).1) (ps := (L ar).2)
      (fun e L' w' bm' p' ar' h1 h2 h3 h4 => ih e L' w' bm' p' ar' h1 h2 (by omega) h4) cs.length 0 L w cs hg hcs rfl (by omega) (by
        intro hv j p' _ hp'
        have hjl : j < cs.length := by rw [← hsize]; exact (List.getElem?_eq_some_iff.1 hp').1
        refine ⟨fun k hk c => (hs hv).1 k hk (OnPath.snoc.1 c).1, ?_⟩
        rcases hsj : cs[j]? with _ | _ | e
        · rw [List.getElem?_eq_none_iff] at hsj; omega
        · exact absurd (List.mem_of_getElem? hsj) hnone
        · exact ⟨e, rfl, fun x hx => (hs hv).2 x (.node ho hcs (List.mem_of_getElem? hsj) hx)⟩)
    rcases hl with hp | ⟨w', L', t, r1, r2, r3, r4, r5⟩
    · exact .inl hp
    · refine .inr ⟨w', L', t, r1, r2, r3, fun k hk => ?_, fun hst x hx => ?_⟩
      · obtain ⟨j, p', -, -, h⟩ := r4 k hk
        exact (OnPath.snoc.1 h).1
      · obtain ⟨c, hc, hx⟩ := (entHas_node ho hcs).1 hx
        obtain ⟨i, p', h1, h2, h3⟩ := hg.wf.child hcs hc
        obtain ⟨e, g1, g2⟩ := r5 hst i p' (Nat.zero_le _) h1
        rw [h2] at g1
        cases g1
        exact g2 x hx

/-! ## Theorems -/

theorem run_append (ops ops' : List (Op T)) (m : Mem T) {os : List (Out T)} {m1 : Mem T} (h : run H ops m = .ok (os, m1)) {os' : List (Out T)} {m2 : Mem T}
    (h' : run H ops' m1 = .ok (os', m2)) : run H (ops ++ ops') m = .ok (os ++ os', m2) := by
  induction ops generalizing m os with
  | nil => cases h; exact h'
  | cons op ops ih =>
    simp only [run, Res.bind_eq_ok] at h
    obtain ⟨⟨o, ma⟩, h1, ⟨os1, mb⟩, h2, h3⟩ := h
    cases h3
    simp only [List.cons_append, run, h1, Res.ok_bind, ih ma h2]

theorem run_calls (cs : List (Call T)) : ∀ (m m' : Mem T), calls H cs m = .ok m' → ∃ os, run H (cs.map Call.op) m = .ok (os, m') := by
  induction cs with
  | nil => intro m m' h; cases h; exact ⟨[], rfl⟩
  | cons c cs ih =>
    intro m m' h
    simp only [calls, Res.bind_eq_ok] at h
    obtain ⟨m1, h1, h2⟩ := h
    obtain ⟨os, h3⟩ := ih m1 m' h2
    cases c with
    | insert k v =>
      have h1 : Insert H m k v = .ok m1 := h1
      exact ⟨.unit :: os, by simp only [List.map_cons, Call.op, run, step, h1, Res.ok_bind, h3]⟩
    | erase k =>
      simp only [call, Res.bind_eq_ok] at h1
      obtain ⟨⟨b, m2⟩, h1, h4⟩ := h1
      cases h4
      exact ⟨.bool b :: os, by simp only [List.map_cons, Call.op, run, step, h1, Res.ok_bind, h3]⟩

theorem Traversal_spec (visit : Visitor σ T) (ops : List (Op T)) (m : Mem T) (os : List (Out T)) (hr : run H ops new = .ok (os, m)) (s : σ) :
    (Traversal H visit m s = .panic ∧ ¬ OnlyShown visit) ∨
    ∃ w, Traversal H visit m s = .ok w ∧ (visited w.trace).Nodup ∧ Follows H visit ⟨[], s, m⟩ w.trace w ∧
      (∃ os', run H (ops ++ (made w.trace).map Call.op) new = .ok (os', w.mem)) ∧
      (OnlyShown visit → Shown w.trace (specRun ops emptyMap).2 ∧ ∀ k ∈ gone (made w.trace), k ∈ visited w.trace) ∧
      (Steady visit → ∀ k, (specRun ops emptyMap).2 k ≠ none → k ∈ visited w.trace ∨ k ∈ gone (made w.trace)) := by
  obtain ⟨L, m0, h1, hg, hM⟩ := run_good (H := H) ops good_new (is_new (T := T))
  rw [h1] at hr
  cases hr
  obtain ⟨bm, p, ar, ho, hq⟩ := hg.root
  have ht := traversal_spec (H := H) (visit := visit) levels 0 L ⟨[], s, m⟩ bm p ar hg ho (by simp [levels]) (fun _ => ⟨by simp [visited], fun x hx => hx⟩)
  rcases ht with h | ⟨w, L', t, r1, r2, r3, -, r5⟩
  · exact .inl h
  · have htr : w.trace = t := r2.trace
    subst htr
    refine .inr ⟨w, r1, r3, r2.follows, ?_, ?_, ?_⟩
    · obtain ⟨os', h2⟩ := run_calls _ _ _ r2.hist
      exact ⟨_, run_append _ _ _ h1 h2⟩
    · exact fun hv => ⟨r2.shown hv _ hM, fun k hk => r2.only hv k hk⟩
    · intro hst k hk
      obtain ⟨v, hv⟩ := Option.ne_none_iff_exists'.1 hk
      obtain ⟨y, n, h2, -⟩ := (hM k v).1 hv
      exact r5 hst _ h2

/-- A visitor that inserts what it likes and erases only keys it has been called with: the traversal ends, it calls the visitor with no key twice, always with a key that is
in the trie at that moment and with its value; the trie is what it is after these calls made one after the other; and if the visitor always says "go on", it is called with
every key that was in the trie when the traversal began.

Missing: keys that the visitor inserts are or are not visited, as it happens; and visitors that erase other keys, see `C98_hamt_any_partial` and `C98_hamt_violated`. -/
theorem C98_hamt_partial (H : Key → Hash) (ops : List (Op T)) (m : Mem T) (os : List (Out T)) (hr : run H ops new = .ok (os, m)) (visit : Visitor σ T) (s : σ) (hv : OnlyShown visit) :
    ∃ w, Traversal H visit m s = .ok w ∧ (visited w.trace).Nodup ∧ Follows H visit ⟨[], s, m⟩ w.trace w ∧
      (∃ os', run H (ops ++ (made w.trace).map Call.op) new = .ok (os', w.mem)) ∧
      Shown w.trace (specRun ops emptyMap).2 ∧
      (Steady visit → ∀ k, (specRun ops emptyMap).2 k ≠ none → k ∈ visited w.trace) := by
  rcases Traversal_spec visit ops m os hr s with ⟨-, h⟩ | ⟨w, h1, h2, h3, h4, h5, h6⟩
  · exact absurd hv h
  · obtain ⟨h7, h8⟩ := h5 hv
    exact ⟨w, h1, h2, h3, h4, h7, fun hst k hk => (h6 hst k hk).elim id (h8 k)⟩

/-- Any visitor: the traversal ends, if only with a panic; it calls the visitor with no key twice; and if the visitor always says "go on" and there is no panic, it is called with
every key that was in the trie when the traversal began and was not erased during it.

Missing: the panic, see `C98_hamt_violated`; a key that was erased may still be visited. -/
theorem C98_hamt_any_partial (H : Key → Hash) (ops : List (Op T)) (m : Mem T) (os : List (Out T)) (hr : run H ops new = .ok (os, m)) (visit : Visitor σ T) (s : σ) :
    Traversal H visit m s = .panic ∨
    ∃ w, Traversal H visit m s = .ok w ∧ (visited w.trace).Nodup ∧ Follows H visit ⟨[], s, m⟩ w.trace w ∧
      (∃ os', run H (ops ++ (made w.trace).map Call.op) new = .ok (os', w.mem)) ∧
      (Steady visit → ∀ k, (specRun ops emptyMap).2 k ≠ none → k ∈ visited w.trace ∨ Call.erase k ∈ made w.trace) := by
  rcases Traversal_spec visit ops m os hr s with ⟨h, -⟩ | ⟨w, h1, h2, h3, h4, -, h6⟩
  · exact .inl h
  · exact .inr ⟨w, h1, h2, h3, h4, fun hst k hk => (h6 hst k hk).imp id mem_gone.1⟩

/-! ## Examples -/

/-- A hash for the examples: the length of the key. -/
def lenHash (k : Key) : Hash := BitVec.ofNat 64 k.length

/-- At the first visit the key `[0, 0]` is erased. -/
def eraser : Visitor Unit Nat := fun w _ _ => ⟨(), if w.trace.length = 0 then [.erase [0, 0]] else [], true⟩

/-- Erasing another key: the loop meets the nil entry that `erase` leaves in the array, and panics. -/
theorem C98_hamt_violated : ∃ m os, run lenHash [.insert [0] 1, .insert [0, 0] 2, .insert [0, 0, 0] 3] new = .ok (os, m) ∧ Traversal lenHash eraser m () = .panic :=
  ⟨_, _, rfl, rfl⟩

/-- The visitor erases the key it is called with, and inserts that key with one byte and with 64 bytes more, if it is short. -/
def mover : Visitor Unit Nat := fun _ k v => ⟨(), if k.length < 3 then [.erase k, .insert (0 :: k) (v + 10), .insert (List.replicate 64 0 ++ k) (v + 20)] else [], true⟩

theorem mover_ok : OnlyShown mover ∧ Steady mover := by
  refine ⟨fun w k v k' h => .inl ?_, fun w k v => rfl⟩
  have h : Call.erase k' ∈ (if k.length < 3 then [Call.erase k, .insert (0 :: k) (v + 10), .insert (List.replicate 64 0 ++ k) (v + 20)] else []) := h
  split at h
  · simpa using h
  · simp at h

theorem mover_demo : ∃ m os w, run lenHash [.insert [0] 1, .insert [7] 5, .insert [0, 0, 0] 3] new = .ok (os, m) ∧ Traversal lenHash mover m () = .ok w ∧
    visited w.trace = [[7], [0], [0, 0, 0]] := ⟨_, _, _, rfl, rfl, rfl⟩

end GoSTL.Hamt.Arr
