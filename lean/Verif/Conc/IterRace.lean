import Verif.Conc.Deadlock
import Verif.Conc.Specs
/-!
# C65: iterators of goroutine-safe containers

The methods that return iterators (`First`, `Find`, …) take `RLock`; the methods of the iterators (ds/map/iterator.go, ds/set/iterator.go) take no lock.
In the language of `Conc/Deadlock` their reads stand outside `acq`/`rel`.
-/
namespace GoSTL.Conc
open TreeMap RB
variable {ι τ S Op Out K V : Type} [DecidableEq ι] [DecidableEq τ]

/-- A data race: the next steps of two goroutines access the same object, and one of them updates it. -/
def DRace (c : DConf ι S τ) : Prop :=
  ∃ t t' i, t ≠ t' ∧ (∃ f k, c.thr t = .upd i f k) ∧ ((∃ k, c.thr t' = .read i k) ∨ ∃ f k, c.thr t' = .upd i f k)

/-- A reading body can be run alone, without changing anything. -/
theorem run_reader {α : Type} {t : τ} {i : ι} (m : Micro ι S α) (k : α → Code ι S) (hm : m.Ok (fun _ => False) i false) : ∀ (c : DConf ι S τ),
    c.thr t = m.toCode k → ∃ a, DSteps c { c with thr := Function.update c.thr t (k a) } := by
  induction m with
  | ret a =>
    intro c h
    refine ⟨a, ?_⟩
    have : Function.update c.thr t (k a) = c.thr := by rw [show k a = c.thr t from h.symm, Function.update_eq_self]
    rw [this]; exact .refl _
  | read j g ih =>
    intro c h
    obtain ⟨a, s⟩ := ih (c.obj j) (hm.2 _) { c with thr := Function.update c.thr t ((g (c.obj j)).toCode k) } (by simp)
    refine ⟨a, ?_⟩
    simp only [Function.update_idem] at s
    exact ((DSteps.refl c).step (.read h)).trans s
  | upd j f g ih => exact absurd hm.2.1 (by simp)

/-- A body that changes the object can be run up to an update of it. -/
theorem run_writer {α : Type} {t : τ} {i : ι} (m : Micro ι S α) (k : α → Code ι S) (hm : m.Ok (fun _ => False) i true) : ∀ (c : DConf ι S τ),
    c.thr t = m.toCode k → (m.run c.obj).1 i ≠ c.obj i → ∃ f k', DSteps c { c with thr := Function.update c.thr t (.upd i f k') } := by
  induction m with
  | ret a => intro c _ h; exact absurd rfl h
  | read j g ih =>
    intro c h hr
    obtain ⟨f, k', s⟩ := ih (c.obj j) (hm.2 _) { c with thr := Function.update c.thr t ((g (c.obj j)).toCode k) } (by simp) hr
    refine ⟨f, k', ?_⟩
    simp only [Function.update_idem] at s
    exact ((DSteps.refl c).step (.read h)).trans s
  | upd j f g ih =>
    intro c h _
    obtain ⟨rfl, -⟩ := hm
    refine ⟨f, g.toCode k, ?_⟩
    have : Function.update c.thr t (.upd j f (g.toCode k)) = c.thr := by
      rw [show Code.upd j f (g.toCode k) = c.thr t from h.symm, Function.update_eq_self]
    rw [this]; exact .refl _

/-- A read-locked call, with the lock free, can be run alone from beginning to end. -/
theorem run_read_call {writes : Op → Bool} {stp : Op → S → Res (Out × S)} (impl : Impl ι writes stp) {i : ι} {op : Op} (hop : writes op = false)
    {t : τ} {k : Res Out → Code ι S} (c : DConf ι S τ) (hl : c.lck i = ⟨fun _ => 0, none, none⟩) (h : c.thr t = callCode impl i op k) :
    ∃ a, DSteps c { c with thr := Function.update c.thr t (k a) } := by
  simp only [callCode, hop] at h
  have s1 := (DSteps.refl c).step (.rlock h (by rw [hl]) (by rw [hl]))
  generalize hc1 : ({ c with lck := _, thr := _ } : DConf ι S τ) = c1 at s1
  have hok := impl.ok i op
  rw [hop] at hok
  have h1 : c1.thr t = (impl.code i op).toCode (fun r => Code.rel i false (k r)) := by rw [← hc1]; simp
  obtain ⟨a, s2⟩ := run_reader _ _ hok c1 h1
  have h2 : (c1.lck i).readers t = 1 := by rw [← hc1]; simp [hl]
  have s3 := (s1.trans s2).step (.runlock (t := t) (i := i) (k := k a) (by simp) (by simp [h2]))
  refine ⟨a, ?_⟩
  subst hc1
  have z : Function.update (fun _ : τ => 0) t 0 = fun _ => 0 := by funext x; simp [Function.update_apply]
  have z' : Function.update c.lck i ⟨fun _ => 0, none, none⟩ = c.lck := by rw [← hl, Function.update_eq_self]
  simpa [hl, Function.update_idem, z, z'] using s3

/-- A write-locked call that changes the object, with the lock free, can be run up to an update of it. -/
theorem run_write_call {writes : Op → Bool} {stp : Op → S → Res (Out × S)} (impl : Impl ι writes stp) {i : ι} {op : Op} (hop : writes op = true)
    {t : τ} {k : Res Out → Code ι S} (c : DConf ι S τ) (hl : c.lck i = ⟨fun _ => 0, none, none⟩) (h : c.thr t = callCode impl i op k)
    (hch : (lift stp op (c.obj i)).1 ≠ c.obj i) :
    ∃ f k' l, DSteps c ⟨c.obj, l, Function.update c.thr t (.upd i f k')⟩ := by
  simp only [callCode, hop] at h
  have s1 := (DSteps.refl c).step (.wait h (by rw [hl]))
  have s2 := s1.step (.lock (t := t) (i := i) h (by simp) (by simp [hl]) (by simp [hl]))
  generalize hc1 : ({ c with lck := _, thr := _ } : DConf ι S τ) = c1 at s2
  have hok := impl.ok i op
  rw [hop] at hok
  have h1 : c1.thr t = (impl.code i op).toCode (fun r => Code.rel i true (k r)) := by rw [← hc1]; simp
  have h2 : c1.obj = c.obj := by rw [← hc1]
  have h3 : Function.update c1.thr t = Function.update c.thr t := by rw [← hc1]; funext x; simp [Function.update_idem]
  obtain ⟨f, k', s3⟩ := run_writer _ _ hok c1 h1 (by rw [h2, (impl.eff i op c.obj).1]; exact hch)
  rw [h2, h3] at s3
  exact ⟨f, k', _, s2.trans s3⟩

/-- Goroutine `t` calls a read-locked method of container `i` and afterwards reads the container without the lock; goroutine `u` calls a method that
changes the container. Whatever the code of the methods: there is a data race. -/
theorem unlocked_read_races {writes : Op → Bool} {stp : Op → S → Res (Out × S)} (impl : Impl ι writes stp) {i : ι} {op op' : Op}
    (hop : writes op = false) (hop' : writes op' = true) {o : ι → S} (hch : (lift stp op' (o i)).1 ≠ o i)
    {k : Res Out → S → Code ι S} {k' : Res Out → Code ι S} {t u : τ} (htu : t ≠ u) {code : τ → Code ι S}
    (ht : code t = callCode impl i op fun r => .read i (k r)) (hu : code u = callCode impl i op' k') :
    ∃ c, DSteps (dstart o code) c ∧ DRace c := by
  obtain ⟨a, s1⟩ := run_read_call impl hop (dstart o code) rfl ht
  obtain ⟨f, kk, l, s2⟩ := run_write_call impl hop' { dstart o code with thr := Function.update (dstart o code).thr t (.read i (k a)) } rfl
    (t := u) (k := k') (by show Function.update code t _ u = _; rw [Function.update_of_ne (Ne.symm htu)]; exact hu) hch
  refine ⟨_, s1.trans s2, u, t, i, Ne.symm htu, ⟨f, kk, by simp⟩, .inl ⟨k a, ?_⟩⟩
  simp [Function.update_of_ne htu]

/-! ## Maps -/

/-- `First`, `Find`, `LowerBound` and `UpperBound` besides the calls of `MapOp`. -/
inductive IterOp (K V : Type)
  | call (op : MapOp K V)
  | first
  | find (k : K)
  | lower (k : K)
  | upper (k : K)

/-- The result of a call: as before, or an iterator (`MapIterator`, map/iterator.go:9-11). -/
inductive IterOut (K V : Type)
  | call (o : MapOut K V)
  | iter (it : Option Id)

/-- map.go:103-127, 138-143, multimap.go:64-88, 99-104: they take `RLock`. -/
def iterWrites : IterOp K V → Bool
  | .call op => mapWrites op
  | _ => false

/-- map.go:103-143: besides the calls of `MapOp`, the methods that return iterators. -/
def mapIterStep (cmp : K → K → Int) (op : IterOp K V) (t : Tree K V) : Res (IterOut K V × Tree K V) :=
  match op with
  | .call op => do let (o, t) ← mapStep cmp op t; .ok (.call o, t)
  | .first => do let it ← TreeMap.first t; .ok (.iter it, t)
  | .find k => do let it ← TreeMap.find cmp t k; .ok (.iter it, t)
  | .lower k => do let it ← lowerBound cmp t k; .ok (.iter it, t)
  | .upper k => do let it ← upperBound cmp t k; .ok (.iter it, t)

theorem mapIter_readers (cmp : K → K → Int) : ReadersRead iterWrites (mapIterStep (V := V) cmp) := by
  intro op s o s' hw e
  cases op with
  | call op =>
    simp only [mapIterStep, Res.bind_eq_ok, Res.ok.injEq, Prod.mk.injEq] at e
    obtain ⟨⟨r, s1⟩, e1, -, rfl⟩ := e
    exact map_readers cmp op s r s1 hw e1
  | first | find | lower | upper =>
    simp only [mapIterStep, Res.bind_eq_ok, Res.ok.injEq, Prod.mk.injEq] at e
    obtain ⟨ks, -, -, e⟩ := e
    exact e.symm

/-- **C65 is false** of maps: a goroutine gets an iterator by `First`, `Find`, `LowerBound` or `UpperBound` and reads through it (`Key`, `Value`, `Next`:
iterator.go:18-45, no lock); another goroutine inserts a key that is absent, or gives a key a new value. Whatever the comparator, the reachable content of the map
and the code of the methods, there is a data race. Granularity: the map is one location here. For `Find(key)`, `Value()` and `Insert(key, v)` the two
accesses are of the same Go field (`node.value`: map/iterator.go:45, rbtree/node.go:33, both without a lock on the reading side). -/
theorem C65_violated {cmp : K → K → Int} (hc : LawfulCmp cmp) (impl : Impl ι iterWrites (mapIterStep (V := V) cmp)) {i : ι} {op : IterOp K V}
    (hop : ∀ call, op ≠ .call call) {o : ι → Tree K V} {f : K → Option V} (ho : MapHist cmp (o i) f) {key : K} {v : V} (hk : f key ≠ some v)
    {k : Res (IterOut K V) → Tree K V → Code ι (Tree K V)} {k' : Res (IterOut K V) → Code ι (Tree K V)} {t u : τ} (htu : t ≠ u)
    {code : τ → Code ι (Tree K V)} (ht : code t = callCode impl i op fun r => .read i (k r))
    (hu : code u = callCode impl i (.call (.insert key v)) k') : ∃ c, DSteps (dstart o code) c ∧ DRace c := by
  have hop' : iterWrites op = false := by cases op with | call c => exact absurd rfl (hop c) | _ => rfl
  refine unlocked_read_races impl hop' (op' := .call (.insert key v)) rfl ?_ htu ht hu
  obtain ⟨s', e, -⟩ := (mapHist_inv hc ho).insert hc key v
  have h1 := (C40_map_is_finite_map hc (MapHist.insert ho e)).1 key
  have h2 := (C40_map_is_finite_map hc ho).1 key
  have : (lift (mapIterStep cmp) (.call (.insert key v)) (o i)).1 = s' := by
    simp [lift, mapIterStep, mapStep, e]
  rw [this]
  rintro rfl
  rw [h1] at h2
  have hr : cmp key key = 0 := hc.refl key
  simp only [upd, hr, if_true, Res.ok.injEq] at h2
  exact hk h2.symm

/-- What the four methods return, of a reachable map of the entries `kvs`: iterators that visit all entries, those from the key on, those after the key, and,
if the key is there, those from it on; the map is as before. -/
theorem C65_iterators {cmp : K → K → Int} (hc : LawfulCmp cmp) {t : Tree K V} {f : K → Option V} (ht : MapHist cmp t f) :
    ∃ kvs, iterList t = .ok kvs ∧ ∀ k, ∃ a b c d,
      mapIterStep cmp .first t = .ok (.iter a, t) ∧ iterFrom t (.ok a) = .ok kvs ∧
      mapIterStep cmp (.lower k) t = .ok (.iter b, t) ∧ iterFrom t (.ok b) = .ok (kvs.filter fun e => decide (cmp k e.1 ≤ 0)) ∧
      mapIterStep cmp (.upper k) t = .ok (.iter c, t) ∧ iterFrom t (.ok c) = .ok (kvs.filter fun e => decide (cmp k e.1 < 0)) ∧
      mapIterStep cmp (.find k) t = .ok (.iter d, t) ∧
        iterFrom t (.ok d) = .ok (if f k = none then [] else kvs.filter fun e => decide (cmp k e.1 ≤ 0)) := by
  obtain ⟨kvs, h, h2, h3⟩ := mapHist_inv hc ht
  refine ⟨kvs, h.iterList, fun k => ?_⟩
  have pick : ∀ {r : Res (Option Id)} {l}, iterFrom t r = .ok l → ∃ it, r = .ok it ∧ iterFrom t (.ok it) = .ok l := by
    intro r l e
    cases r with
    | ok it => exact ⟨it, rfl, e⟩
    | panic => cases e
    | outOfFuel => cases e
  obtain ⟨a, ea, la⟩ := pick (show iterFrom t (TreeMap.first t) = .ok kvs from h.iterList)
  obtain ⟨b, eb, lb⟩ := pick (h.iterFrom_lower hc k)
  obtain ⟨c, ec, lc⟩ := pick (h.iterFrom_upper hc k)
  obtain ⟨d, ed, ld⟩ := pick (h.iterFrom_find hc k)
  refine ⟨a, b, c, d, by simp [mapIterStep, ea], la, by simp [mapIterStep, eb], lb, by simp [mapIterStep, ec], lc, by simp [mapIterStep, ed], ?_⟩
  rw [ld, h3 k]
  have : (lk cmp kvs k = none) ↔ ¬ kvs.any (keq cmp k) = true := by simp [lk]
  by_cases e : kvs.any (keq cmp k) = true
  · rw [if_pos e, if_neg fun x => this.1 x e]
  · rw [if_neg e, if_pos (this.2 e)]

/-! ## While nobody writes -/

/-- Code that locks, unlocks and reads, and updates nothing. -/
inductive Code.ReadOnly {ι σ : Type} : Code ι σ → Prop
  | done : ReadOnly .done
  | read {i k} : (∀ s, ReadOnly (k s)) → ReadOnly (.read i k)
  | acq {i w k} : ReadOnly k → ReadOnly (.acq i w k)
  | rel {i w k} : ReadOnly k → ReadOnly (.rel i w k)

theorem readOnly_toCode {α : Type} {F : ι → Prop} {i : ι} (m : Micro ι S α) (k : α → Code ι S) (hm : m.Ok F i false) (hk : ∀ a, (k a).ReadOnly) :
    (m.toCode k).ReadOnly := by
  induction m with
  | ret a => exact hk a
  | read j g ih => exact .read fun s => ih s (hm.2 s)
  | upd j f g ih => exact absurd hm.2.1 (by simp)

/-- Calls of methods that take `RLock` are such code. -/
theorem readOnly_call {writes : Op → Bool} {stp : Op → S → Res (Out × S)} (impl : Impl ι writes stp) {i : ι} {op : Op} (hop : writes op = false)
    {k : Res Out → Code ι S} (hk : ∀ a, (k a).ReadOnly) : (callCode impl i op k).ReadOnly := by
  have hok := impl.ok i op
  rw [hop] at hok
  exact .acq (readOnly_toCode _ _ hok fun a => .rel (hk a))

theorem readOnly_step {c c' : DConf ι S τ} (s : DStep c c') (h : ∀ t, (c.thr t).ReadOnly) : (∀ t, (c'.thr t).ReadOnly) ∧ c'.obj = c.obj := by
  have aux : ∀ {t k}, Code.ReadOnly k → ∀ u, (Function.update c.thr t k u).ReadOnly := by
    intro t k hk u
    rcases eq_or_ne u t with rfl | hu
    · simpa using hk
    · simpa [Function.update_of_ne hu] using h u
  cases s with
  | @read t i k e => have := h t; rw [e] at this; cases this with | read hk => exact ⟨aux (hk _), rfl⟩
  | @upd t i f k e => have := h t; rw [e] at this; cases this
  | @wait t i k e _ => exact ⟨h, rfl⟩
  | @rlock t i k e _ _ => have := h t; rw [e] at this; cases this with | acq hk => exact ⟨aux hk, rfl⟩
  | @lock t i k e _ _ _ => have := h t; rw [e] at this; cases this with | acq hk => exact ⟨aux hk, rfl⟩
  | @runlock t i k e _ => have := h t; rw [e] at this; cases this with | rel hk => exact ⟨aux hk, rfl⟩
  | @unlock t i k e _ => have := h t; rw [e] at this; cases this with | rel hk => exact ⟨aux hk, rfl⟩

/-- **C65, the part that holds**: while every goroutine only calls methods that take `RLock` (`readOnly_call`) and reads through iterators (reads outside
the lock), there is no data race and nothing changes. -/
theorem C65_while_nobody_writes_partial {o : ι → S} {code : τ → Code ι S} (h : ∀ t, (code t).ReadOnly) {c : DConf ι S τ} (s : DSteps (dstart o code) c) :
    c.obj = o ∧ ¬ DRace c := by
  have key : (∀ t, (c.thr t).ReadOnly) ∧ c.obj = o := by
    generalize hc0 : dstart o code = c0 at s
    induction s with
    | refl => subst hc0; exact ⟨h, rfl⟩
    | step s1 s2 ih => obtain ⟨g1, g2⟩ := readOnly_step s2 ih.1; exact ⟨g1, g2.trans ih.2⟩
  refine ⟨key.2, ?_⟩
  rintro ⟨t, -, i, -, ⟨f, k, e⟩, -⟩
  have := key.1 t
  rw [e] at this
  cases this

/-- A map with the key 1: one goroutine gets an iterator by `Find(1)` and reads through it, the other calls `Insert(1, 20)`. -/
example : ∃ s : Tree Int Int, mapInsert intCmp Tree.new 1 10 = .ok s ∧ ∃ c, DSteps (dstart (fun _ : Unit => s) fun t : Fin 2 =>
      if t = 0 then callCode (Impl.whole (mapIter_readers intCmp)) () (.find 1) fun _ => .read () fun _ => .done
      else callCode (Impl.whole (mapIter_readers intCmp)) () (.call (.insert 1 20)) fun _ => .done) c ∧ DRace c := by
  obtain ⟨s, e, -⟩ := (mapHist_inv intCmp_lawful (MapHist.new (V := Int))).insert intCmp_lawful 1 10
  exact ⟨s, e, C65_violated intCmp_lawful (Impl.whole (mapIter_readers intCmp)) (op := .find 1) (by simp) (o := fun _ => s) (MapHist.insert .new e)
    (key := 1) (v := 20) (by simp [upd, intCmp]) (t := 0) (u := 1) (by decide) rfl rfl⟩

/-- The map with the keys 1, 2 and 3: `LowerBound(2)` and `UpperBound(2)` differ. -/
example : ∃ s : Tree Int Int, (do let s ← mapInsert intCmp Tree.new 1 10; let s ← mapInsert intCmp s 2 20; mapInsert intCmp s 3 30) = .ok s ∧ ∃ b c,
    mapIterStep intCmp (.lower 2) s = .ok (.iter b, s) ∧ iterFrom s (.ok b) = .ok [(2, 20), (3, 30)] ∧
    mapIterStep intCmp (.upper 2) s = .ok (.iter c, s) ∧ iterFrom s (.ok c) = .ok [(3, 30)] := by
  refine ⟨_, rfl, _, _, rfl, rfl, rfl, rfl⟩

/-- Two goroutines that iterate. -/
example (o : Unit → Tree Int Int) (c : DConf Unit (Tree Int Int) (Fin 2)) (s : DSteps (dstart o fun _ =>
      callCode (Impl.whole (mapIter_readers intCmp)) () .first fun _ => .read () fun _ => .read () fun _ => .done) c) : c.obj = o ∧ ¬ DRace c :=
  C65_while_nobody_writes_partial (fun _ => readOnly_call _ rfl fun _ => .read fun _ => .read fun _ => .done) s

end GoSTL.Conc
