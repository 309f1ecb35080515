import Verif.RBTree.Crash
import Verif.RBTree.Cost
import Verif.Algo.Calls
/-!
# C112: how often a tree, a map and a set call the comparator
-/
namespace GoSTL.RB
open GoSTL.Algo (CmpFn Out counted counted_total Within)
variable {K V σ α β : Type}

/-- If the computation returns, then with `P` of the answer, the tree and the counter. -/
def Few (o : Out (σ × Nat) (Tree K V) α) (P : α → Tree K V → Nat → Prop) : Prop :=
  match o with
  | .done a t s => P a t s.2
  | _ => True

theorem Few.mono {o : Out (σ × Nat) (Tree K V) α} {P P' : α → Tree K V → Nat → Prop} (h : Few o P) (hp : ∀ a t k, P a t k → P' a t k) : Few o P' := by
  cases o with
  | done a t s => exact hp _ _ _ h
  | crashed t => trivial
  | panicked => trivial
  | outOfFuel => trivial

theorem Few.bind {m : TM (σ × Nat) K V α} {f : α → TM (σ × Nat) K V β} {s : σ × Nat} {t : Tree K V} {P : α → Tree K V → Nat → Prop}
    {P' : β → Tree K V → Nat → Prop} (h : Few (m s t) P) (hf : ∀ a t' s', P a t' s'.2 → Few (f a s' t') P') : Few ((m >>= f) s t) P' := by
  have e : (m >>= f) s t = TM.bind m f s t := rfl
  rw [e, TM.bind]
  cases o : m s t with
  | done a t' s' => rw [o] at h; exact hf a t' s' h
  | crashed t' => trivial
  | panicked => trivial
  | outOfFuel => trivial

theorem Few.bind_read {r : Tree K V → Res α} {f : α → TM (σ × Nat) K V β} {s : σ × Nat} {t : Tree K V} {P : β → Tree K V → Nat → Prop}
    (hf : ∀ a, r t = .ok a → Few (f a s t) P) : Few ((TM.read r >>= f) s t) P := by
  have e : (TM.read r >>= f) s t = TM.bind (TM.read r) f s t := rfl
  rw [e, TM.bind, TM.read]
  cases o : r t with
  | ok a => exact hf a o
  | panic => trivial
  | outOfFuel => trivial

theorem Few.bind_read' {r : Tree K V → Res α} {f : α → TM (σ × Nat) K V β} {s : σ × Nat} {t : Tree K V} {P : β → Tree K V → Nat → Prop} {a : α}
    (h : r t = .ok a) (hf : Few (f a s t) P) : Few ((TM.read r >>= f) s t) P :=
  Few.bind_read fun b e => by cases h.symm.trans e; exact hf

theorem Few.write {w : Tree K V → Res (Tree K V)} {s : σ × Nat} {t : Tree K V} : Few ((TM.write w : TM (σ × Nat) K V Unit) s t) fun _ _ k => k = s.2 := by
  rw [TM.write]
  cases o : w t with
  | ok a => rfl
  | panic => trivial
  | outOfFuel => trivial

theorem Few.bind_cmp {ask : CmpFn σ K} {x y : K} {f : Int → TM (σ × Nat) K V β} {s : σ × Nat} {t : Tree K V} {P : β → Tree K V → Nat → Prop}
    (hf : ∀ r s', s'.2 = s.2 + 1 → Few (f r s' t) P) : Few ((TM.cmp (counted ask) x y >>= f) s t) P := by
  have e : (TM.cmp (counted ask) x y >>= f) s t = TM.bind (TM.cmp (counted ask) x y) f s t := rfl
  rw [e, TM.bind, TM.cmp, counted]
  cases o : ask s.1 x y with
  | none => trivial
  | some q => exact hf q.1 (q.2, s.2 + 1) rfl

theorem few_lowerBoundFrom (ask : CmpFn σ K) (key : K) (s : Tree K V) : ∀ (t : T K V) (par : Option Id) (n : Nat) (st : σ × Nat),
    Rep s.heap par t →
    Few (lowerBoundFromC (counted ask) key n t.rootId st s) fun _ s' k => s' = s ∧ k ≤ st.2 + 2 * t.height := by
  intro t
  induction t with
  | leaf =>
    intro par n st _
    cases n with
    | zero => trivial
    | succ n => exact ⟨rfl, Nat.le_add_right _ _⟩
  | node l i b k v r ihl ihr =>
    intro par n st hr
    cases n with
    | zero => trivial
    | succ n =>
      obtain ⟨h1, h2, h3⟩ := hr
      refine Few.bind_read' (by show s.node i = _; rw [Tree.node, h1]; rfl) ?_
      refine Few.bind_cmp fun q st1 e1 => ?_
      simp only [T.height]
      split
      · refine Few.bind (ihl _ n st1 h2) fun ret s' st2 hret => ?_
        obtain ⟨rfl, hk⟩ := hret
        cases ret with
        | none => exact ⟨rfl, by omega⟩
        | some j =>
          refine Few.bind_read fun rn _ => Few.bind_cmp fun q st3 e3 => ?_
          split
          · exact ⟨rfl, by omega⟩
          · exact ⟨rfl, by omega⟩
      · exact (ihr _ n st1 h3).mono fun _ _ k hk => ⟨hk.1, by omega⟩

theorem few_upperBoundFrom (ask : CmpFn σ K) (key : K) (s : Tree K V) : ∀ (t : T K V) (par : Option Id) (n : Nat) (st : σ × Nat),
    Rep s.heap par t →
    Few (upperBoundFromC (counted ask) key n t.rootId st s) fun _ s' k => s' = s ∧ k ≤ st.2 + 2 * t.height := by
  intro t
  induction t with
  | leaf =>
    intro par n st _
    cases n with
    | zero => trivial
    | succ n => exact ⟨rfl, Nat.le_add_right _ _⟩
  | node l i b k v r ihl ihr =>
    intro par n st hr
    cases n with
    | zero => trivial
    | succ n =>
      obtain ⟨h1, h2, h3⟩ := hr
      refine Few.bind_read' (by show s.node i = _; rw [Tree.node, h1]; rfl) ?_
      refine Few.bind_cmp fun q st1 e1 => ?_
      simp only [T.height]
      split
      · exact (ihr _ n st1 h3).mono fun _ _ k hk => ⟨hk.1, by omega⟩
      · refine Few.bind (ihl _ n st1 h2) fun ret s' st2 hret => ?_
        obtain ⟨rfl, hk⟩ := hret
        cases ret with
        | none => exact ⟨rfl, by omega⟩
        | some j =>
          refine Few.bind_read fun rn _ => Few.bind_cmp fun q st3 e3 => ?_
          split
          · exact ⟨rfl, by omega⟩
          · exact ⟨rfl, by omega⟩

theorem few_insertDescend (ask : CmpFn σ K) (key : K) (s : Tree K V) : ∀ (t : T K V) (par y : Option Id) (n : Nat) (st : σ × Nat),
    Rep s.heap par t →
    Few (insertDescendC (counted ask) key n t.rootId y st s) fun _ s' k => s' = s ∧ k ≤ st.2 + t.height := by
  intro t
  induction t with
  | leaf =>
    intro par y n st _
    cases n with
    | zero => trivial
    | succ n => exact ⟨rfl, Nat.le_add_right _ _⟩
  | node l i b k v r ihl ihr =>
    intro par y n st hr
    cases n with
    | zero => trivial
    | succ n =>
      obtain ⟨h1, h2, h3⟩ := hr
      refine Few.bind_read' (by show s.node i = _; rw [Tree.node, h1]; rfl) ?_
      refine Few.bind_cmp fun q st1 e1 => ?_
      simp only [T.height]
      split
      · exact (ihl _ (some i) n st1 h2).mono fun _ _ k hk => ⟨hk.1, by omega⟩
      · exact (ihr _ (some i) n st1 h3).mono fun _ _ k hk => ⟨hk.1, by omega⟩

section
variable (ask : CmpFn σ K) (key : K) {s : Tree K V} {t : T K V} (h : Reps s t) (st : σ × Nat)
include h

theorem few_lowerBound : Few (findLowerBoundNodeC (counted ask) key st s) fun _ s' k => s' = s ∧ k ≤ st.2 + 2 * t.height := by
  refine Few.bind_read fun q e => ?_
  cases e
  simp only
  rw [h.root]
  exact few_lowerBoundFrom ask key s t none _ st h.rep

theorem few_upperBound : Few (findUpperBoundNodeC (counted ask) key st s) fun _ s' k => s' = s ∧ k ≤ st.2 + 2 * t.height := by
  refine Few.bind_read fun q e => ?_
  cases e
  simp only
  rw [h.root]
  exact few_upperBoundFrom ask key s t none _ st h.rep

theorem few_findNode : Few (findNodeC (counted ask) key st s) fun _ s' k => s' = s ∧ k ≤ st.2 + 2 * t.height + 1 := by
  refine Few.bind (few_lowerBound ask key h st) fun ret s' st1 hret => ?_
  obtain ⟨rfl, hk⟩ := hret
  cases ret with
  | none => exact ⟨rfl, by omega⟩
  | some j =>
    refine Few.bind_read fun rn _ => Few.bind_cmp fun q st3 e3 => ?_
    split
    · exact ⟨rfl, by omega⟩
    · exact ⟨rfl, by omega⟩

theorem few_insert (value : V) : Few (insertC (counted ask) key value st s) fun _ _ k => k ≤ st.2 + t.height + 1 := by
  refine Few.bind_read fun q e => ?_
  cases e
  simp only
  have hd := few_insertDescend ask key s t none none s.fuel st h.rep
  rw [← h.root] at hd
  refine Few.bind hd fun y s1 st1 hy => ?_
  obtain ⟨rfl, hk⟩ := hy
  refine Few.bind Few.write fun _ s2 st2 e2 => ?_
  cases y with
  | none => exact Few.write.mono fun _ _ k hk' => by omega
  | some y =>
    refine Few.bind_read fun yn _ => Few.bind_read fun zn _ => Few.bind_cmp fun r st3 e3 => ?_
    exact Few.write.mono fun _ _ k hk' => by omega

theorem few_mapInsert (value : V) : Few (mapInsertC (counted ask) key value st s) fun _ _ k => k ≤ st.2 + 3 * t.height + 2 := by
  refine Few.bind (few_findNode ask key h st) fun ret s' st1 hret => ?_
  obtain ⟨rfl, hk⟩ := hret
  cases ret with
  | some j => exact Few.write.mono fun _ _ k hk' => by omega
  | none => exact (few_insert ask key h st1 value).mono fun _ _ k hk' => by omega

theorem few_erase : Few (eraseOneC (counted ask) key st s) fun _ _ k => k ≤ st.2 + 2 * t.height + 1 := by
  refine Few.bind (few_findNode ask key h st) fun ret s' st1 hret => ?_
  obtain ⟨rfl, hk⟩ := hret
  cases ret with
  | some j => exact Few.write.mono fun _ _ k hk' => by omega
  | none => exact hk

end

theorem few_setInsert (ask : CmpFn σ K) (key : K) {s : Tree K Bool} {t : T K Bool} (h : Reps s t) (st : σ × Nat) :
    Few (setInsertC (counted ask) key st s) fun _ _ k => k ≤ st.2 + 3 * t.height + 2 := by
  refine Few.bind (few_findNode ask key h st) fun ret s' st1 hret => ?_
  obtain ⟨rfl, hk⟩ := hret
  cases ret with
  | some j => show st1.2 ≤ _; omega
  | none => exact (few_insert ask key h st1 true).mono fun _ _ k hk' => by omega

/-! ## A comparator that never panics -/

/-- No comparator panic ends the computation. -/
def Quiet (m : TM σ K V α) : Prop := ∀ s t t', m s t ≠ .crashed t'

theorem Quiet.bind {m : TM σ K V α} {f : α → TM σ K V β} (h : Quiet m) (hf : ∀ a, Quiet (f a)) : Quiet (m >>= f) := by
  intro s t t' e
  rcases crashed_bind e with e | ⟨a, t1, s1, -, e⟩
  · exact h _ _ _ e
  · exact hf _ _ _ _ e

theorem Quiet.pure (a : α) : Quiet (pure a : TM σ K V α) := fun _ _ _ e => by cases e

theorem Quiet.read (r : Tree K V → Res α) : Quiet (TM.read r : TM σ K V α) := fun s t t' e => by
  rw [TM.read] at e
  cases o : r t <;> rw [o] at e <;> cases e

theorem Quiet.write (w : Tree K V → Res (Tree K V)) : Quiet (TM.write w : TM σ K V Unit) := fun _ _ _ e => not_crashed_write e

theorem Quiet.cmp {ask : CmpFn σ K} (ha : ∀ s x y, ask s x y ≠ none) (x y : K) : Quiet (TM.cmp ask x y : TM σ K V Int) := fun s t t' e => by
  rw [TM.cmp] at e
  cases o : ask s x y with
  | none => exact ha _ _ _ o
  | some q => rw [o] at e; cases e

section
variable {ask : CmpFn σ K} (ha : ∀ s x y, ask s x y ≠ none) (key : K)
include ha

theorem quiet_lowerBoundFrom : ∀ (n : Nat) (x : Option Id), Quiet (lowerBoundFromC ask key n x : TM σ K V (Option Id)) := by
  intro n
  induction n with
  | zero => intro x _ _ _ e; cases e
  | succ n ih =>
    intro x
    cases x with
    | none => exact .pure _
    | some xi =>
      refine .bind (.read _) fun xn => .bind (.cmp ha _ _) fun r => ?_
      split
      · refine .bind (ih _) fun ret => ?_
        cases ret with
        | none => exact .pure _
        | some r => exact .bind (.read _) fun rn => .bind (.cmp ha _ _) fun q => by split <;> exact .pure _
      · exact ih _

theorem quiet_upperBoundFrom : ∀ (n : Nat) (x : Option Id), Quiet (upperBoundFromC ask key n x : TM σ K V (Option Id)) := by
  intro n
  induction n with
  | zero => intro x _ _ _ e; cases e
  | succ n ih =>
    intro x
    cases x with
    | none => exact .pure _
    | some xi =>
      refine .bind (.read _) fun xn => .bind (.cmp ha _ _) fun r => ?_
      split
      · exact ih _
      · refine .bind (ih _) fun ret => ?_
        cases ret with
        | none => exact .pure _
        | some r => exact .bind (.read _) fun rn => .bind (.cmp ha _ _) fun q => by split <;> exact .pure _

theorem quiet_findNode : Quiet (findNodeC ask key : TM σ K V (Option Id)) := by
  refine .bind (.bind (.read _) fun q => quiet_lowerBoundFrom ha key _ _) fun ret => ?_
  cases ret with
  | none => exact .pure _
  | some r => exact .bind (.read _) fun rn => .bind (.cmp ha _ _) fun q => by split <;> exact .pure _

theorem quiet_insertDescend : ∀ (n : Nat) (x y : Option Id), Quiet (insertDescendC ask key n x y : TM σ K V (Option Id)) := by
  intro n
  induction n with
  | zero => intro x y _ _ _ e; cases e
  | succ n ih =>
    intro x y
    cases x with
    | none => exact .pure _
    | some xi =>
      refine .bind (.read _) fun xn => .bind (.cmp ha _ _) fun r => ?_
      split
      · exact ih _ _
      · exact ih _ _

theorem quiet_insert (value : V) : Quiet (insertC ask key value : TM σ K V Unit) := by
  refine .bind (.read _) fun q => .bind (quiet_insertDescend ha key _ _ _) fun y => .bind (.write _) fun _ => ?_
  cases y with
  | none => exact .write _
  | some y => exact .bind (.read _) fun yn => .bind (.read _) fun zn => .bind (.cmp ha _ _) fun r => .write _

theorem quiet_mapInsert (value : V) : Quiet (mapInsertC ask key value : TM σ K V Unit) := by
  refine .bind (quiet_findNode ha key) fun ret => ?_
  cases ret with
  | some r => exact .write _
  | none => exact quiet_insert ha key value

theorem quiet_setInsert : Quiet (setInsertC ask key : TM σ K Bool Unit) := by
  refine .bind (quiet_findNode ha key) fun ret => ?_
  cases ret with
  | some r => exact .pure _
  | none => exact quiet_insert ha key true

theorem quiet_erase : Quiet (eraseOneC ask key : TM σ K V Unit) := by
  refine .bind (quiet_findNode ha key) fun ret => ?_
  cases ret with
  | some r => exact .write _
  | none => exact .pure _

end

theorem Ends.done {o : Out σ (Tree K V) α} {P : α → Tree K V → Prop} {Q : Tree K V → Prop} (h : Ends o P Q) (hq : ∀ t, o ≠ .crashed t) :
    ∃ a t s, o = .done a t s ∧ P a t := by
  cases o with
  | done a t s => exact ⟨a, t, s, rfl, h⟩
  | crashed t => exact absurd rfl (hq t)
  | panicked => exact h.elim
  | outOfFuel => exact h.elim

theorem Few.within {B : Nat} {o : Out (σ × Nat) (Tree K V) α} {R : α → Tree K V → Nat → Prop} (hf : Few o R) (hd : ∃ a t s, o = .done a t s)
    (hR : ∀ a t k, R a t k → k ≤ B) : Within B o := by
  obtain ⟨a, t, s, rfl⟩ := hd
  exact ⟨a, t, s.1, s.2, rfl, hR _ _ _ hf⟩

theorem counted_answers {ask : CmpFn σ K} {f : K → K → Int} (ha : ask.Answers f) : (counted ask).Answers f := by
  intro s x y r s' e
  simp only [counted] at e
  cases o : ask s.1 x y with
  | none => rw [o] at e; cases e
  | some q => rw [o] at e; cases e; exact ha _ _ _ _ _ o

theorem insert_done {ask : CmpFn σ K} (ht : ∀ s x y, ask s x y ≠ none) {f : K → K → Int} (ha : ask.Answers f) (key : K) (value : V) (st : σ)
    {s : Tree K V} {es} (h : Holds s es) : ∃ a t s', insertC ask key value st s = .done a t s' := by
  obtain ⟨s', es', e, -⟩ := h.insert_any f key value
  have := insertC_agrees ha key value st s
  rw [e] at this
  cases o : insertC ask key value st s with
  | done a t s' => exact ⟨a, t, s', rfl⟩
  | crashed t => exact absurd o (quiet_insert ht key value _ _ _)
  | panicked => rw [o] at this; cases this
  | outOfFuel => rw [o] at this; cases this

theorem bind_done {m : TM σ K V α} {f : α → TM σ K V β} {s s' : σ} {t t' : Tree K V} {a : α} (h : m s t = .done a t' s') : (m >>= f) s t = f a s' t' := by
  show TM.bind m f s t = _
  rw [TM.bind, h]

/-- **C112** On every tree of `n` entries built by any calls, with any comparator that does not panic, `L` being `2 log2 (n + 1)`:
`FindLowerBoundNode` and `FindUpperBoundNode` call it at most `2 L` times, `FindNode` (and so `Get`, `Find`, `Contains`) and the `Erase` of maps and sets at most `2 L + 1` times; with
any comparator that is a function, `Insert` of the tree, of multimaps and of multisets calls it at most `L + 1` times, and `Map.Insert` at most `3 L + 2` times. -/
theorem C112_tree {cmp : K → K → Int} {s : Tree K V} (h : Reachable cmp s) {ask : CmpFn σ K} (ht : ∀ s x y, ask s x y ≠ none) (key : K) (st : σ) {L : Nat}
    (hL : L = 2 * Nat.log2 (s.size.toNat + 1)) :
    Within (2 * L) (findLowerBoundNodeC (counted ask) key (st, 0) s) ∧ Within (2 * L) (findUpperBoundNodeC (counted ask) key (st, 0) s) ∧
    Within (2 * L + 1) (findNodeC (counted ask) key (st, 0) s) ∧ Within (2 * L + 1) (eraseOneC (counted ask) key (st, 0) s) ∧
    (∀ f, ask.Answers f → ∀ value, Within (L + 1) (insertC (counted ask) key value (st, 0) s) ∧
      Within (3 * L + 2) (mapInsertC (counted ask) key value (st, 0) s)) := by
  obtain ⟨es, hh⟩ := reachable_holds h
  obtain ⟨t, h1, h2, h3, h4⟩ := id hh
  have hb := height_log h2 h3 h4
  have hq := counted_total ht
  have fd := (findNode_ends (counted ask) key h1 (st, 0)).done (fun _ => quiet_findNode hq key _ _ _)
  refine ⟨?_, ?_, ?_, ?_, fun f ha value => ⟨?_, ?_⟩⟩
  · obtain ⟨a, t', s', e, -⟩ := (lowerBound_ends (counted ask) key h1 (st, 0)).done
      (fun _ => Quiet.bind (.read _) (fun _ => quiet_lowerBoundFrom hq key _ _) _ _ _)
    exact (few_lowerBound ask key h1 (st, 0)).within ⟨a, t', s', e⟩ fun _ _ k hk => by have := hk.2; simp only at this; omega
  · obtain ⟨a, t', s', e, -⟩ := (upperBound_ends (counted ask) key h1 (st, 0)).done
      (fun _ => Quiet.bind (.read _) (fun _ => quiet_upperBoundFrom hq key _ _) _ _ _)
    exact (few_upperBound ask key h1 (st, 0)).within ⟨a, t', s', e⟩ fun _ _ k hk => by have := hk.2; simp only at this; omega
  · obtain ⟨a, t', s', e, -⟩ := fd
    exact (few_findNode ask key h1 (st, 0)).within ⟨a, t', s', e⟩ fun _ _ k hk => by have := hk.2; simp only at this; omega
  · obtain ⟨a, t', s', e, -⟩ := (C88_tree_erase (counted ask) key (st, 0) hh).done (fun _ => quiet_erase hq key _ _ _)
    exact (few_erase ask key h1 (st, 0)).within ⟨a, t', s', e⟩ fun _ _ k hk => by simp only at hk; omega
  · exact (few_insert ask key h1 (st, 0) value).within (insert_done hq (counted_answers ha) key value _ hh) fun _ _ k hk => by simp only at hk; omega
  · refine (few_mapInsert ask key h1 (st, 0) value).within ?_ fun _ _ k hk => by simp only at hk; omega
    obtain ⟨a, t', s', e, rfl, -⟩ := fd
    show ∃ a t s', (findNodeC (counted ask) key >>= _) (st, 0) t' = .done a t s'
    rw [bind_done e]
    cases a with
    | some i => exact ⟨_, _, _, rfl⟩
    | none => exact insert_done hq (counted_answers ha) key value _ hh

/-- **C112** The same of `Set.Insert`. -/
theorem C112_set_insert {cmp : K → K → Int} {s : Tree K Bool} (h : Reachable cmp s) {ask : CmpFn σ K} (ht : ∀ s x y, ask s x y ≠ none) (key : K) (st : σ) {L : Nat}
    (hL : L = 2 * Nat.log2 (s.size.toNat + 1)) {f : K → K → Int} (ha : ask.Answers f) : Within (3 * L + 2) (setInsertC (counted ask) key (st, 0) s) := by
  obtain ⟨es, hh⟩ := reachable_holds h
  obtain ⟨t, h1, h2, h3, h4⟩ := id hh
  have hb := height_log h2 h3 h4
  have hq := counted_total ht
  refine (few_setInsert ask key h1 (st, 0)).within ?_ fun _ _ k hk => by simp only at hk; omega
  obtain ⟨a, t', s', e, rfl, -⟩ := (findNode_ends (counted ask) key h1 (st, 0)).done (fun _ => quiet_findNode hq key _ _ _)
  show ∃ a t s', (findNodeC (counted ask) key >>= _) (st, 0) t' = .done a t s'
  rw [bind_done e]
  cases a with
  | some i => exact ⟨_, _, _, rfl⟩
  | none => exact insert_done hq (counted_answers ha) key true _ hh

/-- The comparator of integers that never panics. -/
def calm : CmpFn Unit Int := fun s x y => some (x - y, s)

set_option maxRecDepth 40000 in
/-- Inserting 4 into the tree of 1, 2, 3 takes 3 calls: two on the way down and one to choose the side. The bound is `2 log2 4 + 1 = 5`. -/
example : ∃ t t' s, three = .ok t ∧ insertC (counted calm) 4 40 ((), 0) t = .done () t' (s, 3) := ⟨_, _, _, rfl, rfl⟩

theorem three_reachable : ∃ t, three = .ok t ∧ Reachable (fun x y : Int => x - y) t := by
  have h0 := Holds.new (K := Int) (V := Nat)
  obtain ⟨t1, es1, e1, h1, -⟩ := h0.insert_any (fun x y => x - y) 2 20
  obtain ⟨t2, es2, e2, h2, -⟩ := h1.insert_any (fun x y => x - y) 1 10
  obtain ⟨t3, es3, e3, h3, -⟩ := h2.insert_any (fun x y => x - y) 3 30
  exact ⟨t3, by rw [three, e1, Res.ok_bind, e2, Res.ok_bind, e3], .insert (.insert (.insert .new e1) e2) e3⟩

example : ∃ t, three = .ok t ∧ ∀ key value, Within (2 * Nat.log2 (t.size.toNat + 1) + 1) (insertC (counted calm) key value ((), 0) t) := by
  obtain ⟨t, e, h⟩ := three_reachable
  exact ⟨t, e, fun key value => ((C112_tree h (ask := calm) (by simp [calm]) key () rfl).2.2.2.2 _ (by intro s x y r s' e; cases e; rfl) value).1⟩

end GoSTL.RB
