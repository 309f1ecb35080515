import Verif.Conc.Instances
import Verif.TreeMap.SetProps
/-!
# C91: which of several equal keys a container keeps

Keys can compare equal without being the same value (a comparator that looks at one field only). A user sees which of them is kept, through
`Begin`/`Next`, `Traversal` and `Keys`. The specifications of `mapSpec` and `setSpec` (Conc/Instances.lean) are lists of the very keys: `Insert` of a key
equal to one that is there keeps the key that is there.
-/
namespace GoSTL.TreeMap
open GoSTL.RB GoSTL.Conc

variable {K V : Type} {cmp : K → K → Int}

/-- C91 for maps: every history of calls on a new map returns what it returns on the sorted list of entries in which an entry keeps the key it was
first inserted with (`mapSpec`); `entries` shows the keys themselves. -/
theorem C91_map (hc : LawfulCmp cmp) (ops : List (MapOp K V)) :
    Adapter.outs (Adapter.runAll (mapStep cmp) ops Tree.new) = Adapter.outs (Adapter.runAll (mapSpec cmp) ops []) :=
  (Adapter.runAll_agree (R := MapRep cmp) (map_step hc) ops ⟨HoldsKV.new, List.Pairwise.nil⟩).outs_eq

/-- C91 for sets: every history of calls on a new set returns what it returns on the sorted list of elements in which the element inserted first is
kept (`setSpec`). -/
theorem C91_set (hc : LawfulCmp cmp) (ops : List (SetOp K)) :
    Adapter.outs (Adapter.runAll (setStep cmp) ops Tree.new) = Adapter.outs (Adapter.runAll (setSpec cmp) ops []) :=
  (Adapter.runAll_agree (R := SetRep cmp) (set_step hc) ops ⟨[], ⟨HoldsKV.new, List.Pairwise.nil⟩, rfl⟩).outs_eq

/-- C91: inserting a key that has an equal changes no key of the map: every entry keeps its key and its place, and the equal one gets the value. -/
theorem C91_map_insert_equal (hc : LawfulCmp cmp) {s : Tree K V} {f : K → Option V} (h : MapHist cmp s f) {k : K} (v : V) (hk : (f k).isSome = true) :
    ∃ s' kvs, iterList s = .ok kvs ∧ mapInsert cmp s k v = .ok s' ∧
      iterList s' = .ok (kvs.map fun e => if cmp k e.1 = 0 then (e.1, v) else e) := by
  obtain ⟨kvs, e, h2, -, h4, -⟩ := C41_map_order_and_bounds hc h
  obtain ⟨kvs', h5, h6, -⟩ := mapHist_inv hc h
  have := h5.iterList
  rw [e] at this; cases this
  have h7 := map_step hc (.insert k v) s kvs ⟨h5, h6⟩
  obtain ⟨v0, hv⟩ := Option.isSome_iff_exists.1 hk
  obtain ⟨k', hm, hk'⟩ := (h4 k v0).1 hv
  have ha : kvs.any (fun e => decide (cmp k e.1 = 0)) = true := by
    rw [List.any_eq_true]; exact ⟨_, hm, by simpa using hk'⟩
  simp only [mapSpec, ha, if_true] at h7
  obtain ⟨s', e1, h8⟩ := agree_inv h7
  simp only [mapStep, Res.bind_eq_ok] at e1
  obtain ⟨t, e2, e3⟩ := e1
  cases e3
  exact ⟨_, kvs, e, e2, h8.1.iterList⟩

theorem strictK_unique (hc : LawfulCmp cmp) : ∀ {l : List K}, StrictK cmp l → ∀ {a b : K}, a ∈ l → b ∈ l → cmp a b = 0 → a = b
  | [], _, _, _, h, _, _ => by simp at h
  | x :: l, hs, a, b, ha, hb, h => by
    rw [StrictK, List.pairwise_cons] at hs
    rw [List.mem_cons] at ha hb
    rcases ha with rfl | ha <;> rcases hb with rfl | hb
    · rfl
    · have := hs.1 b hb; omega
    · have := hs.1 a ha; have := hc.eq_symm.1 h; omega
    · exact strictK_unique hc hs.2 ha hb h

theorem setHist_list (hc : LawfulCmp cmp) {s : Tree K Bool} {m} (h : SetHist cmp s m) {a : List (K × Bool)} (e : iterList s = .ok a) :
    HoldsSet cmp s (a.map (·.1)) := by
  obtain ⟨ks, h0, -⟩ := setHist_inv hc h
  obtain ⟨kvs, h1, h3, rfl⟩ := h0.kv
  have := h1.iterList
  rw [e] at this; cases this
  exact h0

/-- C91 for the set algebra: let the two sets list the elements `a` and `b`. `Intersect` lists, in increasing order, the elements of `a` (not of `b`) that
have an equal in `b`; `Union` lists the elements of `a` and those elements of `b` that have no equal in `a`; `Diff` lists the elements of `a` that have no
equal in `b`. -/
theorem C91_set_algebra (hc : LawfulCmp cmp) {s o : Tree K Bool} {m n : K → Prop} (hs : SetHist cmp s m) (ho : SetHist cmp o n)
    {a b : List (K × Bool)} (ha : iterList s = .ok a) (hb : iterList o = .ok b) :
    (∃ r c, intersect cmp s o = .ok r ∧ iterList r = .ok c ∧ (c.map (·.1)).Pairwise (fun x y => cmp x y < 0) ∧
      ∀ x, x ∈ c.map (·.1) ↔ x ∈ a.map (·.1) ∧ ∃ y ∈ b.map (·.1), cmp x y = 0) ∧
    (∃ r c, union cmp s o = .ok r ∧ iterList r = .ok c ∧ (c.map (·.1)).Pairwise (fun x y => cmp x y < 0) ∧
      ∀ x, x ∈ c.map (·.1) ↔ x ∈ a.map (·.1) ∨ (x ∈ b.map (·.1) ∧ ∀ y ∈ a.map (·.1), cmp x y ≠ 0)) ∧
    (∃ r c, diff cmp s o = .ok r ∧ iterList r = .ok c ∧ (c.map (·.1)).Pairwise (fun x y => cmp x y < 0) ∧
      ∀ x, x ∈ c.map (·.1) ↔ x ∈ a.map (·.1) ∧ ∀ y ∈ b.map (·.1), cmp x y ≠ 0) := by
  have h1 := setHist_list hc hs ha
  have h2 := setHist_list hc ho hb
  have s1 : StrictK cmp (a.map (·.1)) := by obtain ⟨_, _, _, h⟩ := h1; exact h
  generalize a.map (·.1) = A at *
  generalize b.map (·.1) = B at *
  refine ⟨?_, ?_, ?_⟩
  · obtain ⟨r, ks, e, j1, j2, j3⟩ := h1.intersect hc h2
    obtain ⟨c, k1, rfl, k3⟩ := j1
    refine ⟨r, c, e, k1.iterList, k3, fun x => ⟨fun hx => ⟨j3 x hx, ((j2 x).1 ⟨x, hx, hc.refl x⟩).2⟩, ?_⟩⟩
    rintro ⟨hx, hy⟩
    obtain ⟨z, hz, hxz⟩ := (j2 x).2 ⟨⟨x, hx, hc.refl x⟩, hy⟩
    obtain rfl := strictK_unique hc s1 hx (j3 z hz) hxz
    exact hz
  · obtain ⟨r, ks, e, j1, j2, j3, j4⟩ := h1.union hc h2
    obtain ⟨c, k1, rfl, k3⟩ := j1
    refine ⟨r, c, e, k1.iterList, k3, fun x => ⟨fun hx => ?_, ?_⟩⟩
    · by_cases hxa : x ∈ A
      · exact .inl hxa
      · refine .inr ⟨(j4 x hx).resolve_left hxa, fun y hy hxy => hxa ?_⟩
        obtain rfl := strictK_unique hc k3 hx (j3 y hy) hxy
        exact hy
    · rintro (hx | ⟨hx, hn⟩)
      · exact j3 x hx
      · obtain ⟨z, hz, hxz⟩ := (j2 x).2 (.inr ⟨x, hx, hc.refl x⟩)
        rcases j4 z hz with h | h
        · exact absurd hxz (hn z h)
        · have s2 : StrictK cmp B := by obtain ⟨_, _, _, h⟩ := h2; exact h
          obtain rfl := strictK_unique hc s2 hx h hxz
          exact hz
  · obtain ⟨r, ks, e, j1, j2, j3⟩ := h1.diff hc h2
    obtain ⟨c, k1, rfl, k3⟩ := j1
    refine ⟨r, c, e, k1.iterList, k3, fun x => ⟨fun hx => ⟨j3 x hx, fun y hy hxy => ((j2 x).1 ⟨x, hx, hc.refl x⟩).2 ⟨y, hy, hxy⟩⟩, ?_⟩⟩
    rintro ⟨hx, hy⟩
    obtain ⟨z, hz, hxz⟩ := (j2 x).2 ⟨⟨x, hx, hc.refl x⟩, fun ⟨y, hy1, hy2⟩ => hy y hy1 hy2⟩
    obtain rfl := strictK_unique hc s1 hx (j3 z hz) hxz
    exact hz

/-! ## Non-vacuity: pairs compared by their first component -/

/-- Compares the first components only. -/
def fstCmp (a b : Int × Int) : Int := a.1 - b.1

theorem fstCmp_lawful : LawfulCmp fstCmp := ⟨fun x y => by simp only [fstCmp]; omega, fun x y z => by simp only [fstCmp]; omega⟩

/-- `C91_map`: the second insertion of a key with first component 1 changes the value, not the key. -/
example : Adapter.outs (Adapter.runAll (mapStep fstCmp) [.insert (2, 0) 5, .insert (1, 7) 6, .insert (1, 8) 9, .entries] Tree.new) =
    .ok [.unit, .unit, .unit, .list [((1, 7), 9), ((2, 0), 5)]] := (C91_map fstCmp_lawful _).trans rfl

/-- `C91_set`: the same for a set. -/
example : Adapter.outs (Adapter.runAll (setStep fstCmp) [.insert (2, 0), .insert (1, 7), .insert (1, 8), .elements] Tree.new) =
    .ok [.unit, .unit, .unit, .list [(1, 7), (2, 0)]] := (C91_set fstCmp_lawful _).trans rfl

/-- Two sets of pairs, (1,0), (2,0) and (2,5), (3,5). -/
theorem demo_pairs : ∃ s o m n, SetHist fstCmp s m ∧ SetHist fstCmp o n ∧ iterList s = .ok [((1, 0), true), ((2, 0), true)] ∧
    iterList o = .ok [((2, 5), true), ((3, 5), true)] := by
  have h0 : ∃ s1 s2 o1 o2, setInsert fstCmp Tree.new (1, 0) = .ok s1 ∧ setInsert fstCmp s1 (2, 0) = .ok s2 ∧
      setInsert fstCmp Tree.new (3, 5) = .ok o1 ∧ setInsert fstCmp o1 (2, 5) = .ok o2 ∧ iterList s2 = .ok [((1, 0), true), ((2, 0), true)] ∧
      iterList o2 = .ok [((2, 5), true), ((3, 5), true)] := ⟨_, _, _, _, rfl, rfl, rfl, rfl, rfl, rfl⟩
  obtain ⟨s1, s2, o1, o2, e1, e2, e3, e4, g1, g2⟩ := h0
  exact ⟨s2, o2, _, _, ((.new : SetHist fstCmp Tree.new _).insert e1).insert e2, ((.new : SetHist fstCmp Tree.new _).insert e3).insert e4, g1, g2⟩

/-- `C91_set_algebra`: the union of these contains (2,0), not (2,5), and (3,5). -/
example : ∃ s o r c, iterList s = .ok [((1, 0), true), ((2, 0), true)] ∧ union fstCmp s o = .ok r ∧ iterList r = .ok c ∧
    ((2, 0) : Int × Int) ∈ c.map (·.1) ∧ (2, 5) ∉ c.map (·.1) ∧ (3, 5) ∈ c.map (·.1) := by
  obtain ⟨s, o, m, n, hs, ho, ha, hb⟩ := demo_pairs
  obtain ⟨-, ⟨r, c, e1, e2, -, h⟩, -⟩ := C91_set_algebra fstCmp_lawful hs ho ha hb
  exact ⟨s, o, r, c, ha, e1, e2, (h _).2 (by simp), fun hn => by simpa [fstCmp] using (h _).1 hn, (h _).2 (by simp [fstCmp])⟩

/-- `C91_map_insert_equal`: its hypotheses hold for the map {(1,0) ↦ 5} and the key (1,3). -/
example : ∃ s s' : Tree (Int × Int) Int, mapInsert fstCmp s (1, 3) 6 = .ok s' ∧ iterList s' = .ok [((1, 0), 6)] := by
  have h0 : ∃ s1, mapInsert fstCmp Tree.new (1, 0) (5 : Int) = .ok s1 ∧ iterList s1 = .ok [((1, 0), 5)] := ⟨_, rfl, rfl⟩
  obtain ⟨s1, e1, e2⟩ := h0
  have hh := (.new : MapHist fstCmp Tree.new _).insert e1
  obtain ⟨s', kvs, e3, e4, e5⟩ := C91_map_insert_equal fstCmp_lawful hh (k := (1, 3)) 6 (by simp [upd, fstCmp])
  rw [e2] at e3; cases e3
  exact ⟨s1, s', e4, by simpa [fstCmp] using e5⟩

end GoSTL.TreeMap
