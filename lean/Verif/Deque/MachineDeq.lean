import Verif.Deque.MachineSeg
/-!
# C106 for the deque: the functions of one call
-/
namespace GoSTL.Deque
variable {T : Type}

/-- What pointer `id` points at is small. -/
def OkId (K k : Nat) (d : Deq T) (id : Nat) : Prop := ∀ s, d.heap[id]? = some s → SB K k s

/-- All numbers in a deque are small. -/
structure DB (K k : Nat) (d : Deq T) : Prop where
  len : d.segs.length ≤ k
  beg : d.begin_ ≤ d.segs.length
  end_ : d.end_ ≤ d.segs.length
  lo : -(k : Int) ≤ d.size
  hi : d.size ≤ k
  pool : d.pool.length ≤ k
  seg : ∀ id, id ∈ d.pool ∨ some id ∈ d.segs → OkId K k d id

theorem OkId.mono {K k k' : Nat} {d : Deq T} {id : Nat} (h : OkId K k d id) (hk : k ≤ k') : OkId K k' d id := fun s e => (h s e).mono hk

theorem DB.mono {K k k' : Nat} {d : Deq T} (h : DB K k d) (hk : k ≤ k') : DB K k' d :=
  ⟨by have := h.len; omega, h.beg, h.end_, by have := h.lo; omega, by have := h.hi; omega, by have := h.pool; omega, fun id hid => (h.seg id hid).mono hk⟩

theorem OkId.store {K k : Nat} {d : Deq T} {id j : Nat} {s : Seg T} (h : OkId K k d id) (hs : SB K k s) : OkId K k (store d j s) id := by
  intro s' e
  unfold Deque.store at e
  simp only at e
  rw [List.getElem?_set] at e
  split at e
  · split at e
    · cases e; exact hs
    · cases e
  · exact h s' e

theorem DB.store {K k : Nat} {d : Deq T} {j : Nat} {s : Seg T} (h : DB K k d) (hs : SB K k s) : DB K k (store d j s) :=
  ⟨h.len, h.beg, h.end_, h.lo, h.hi, h.pool, fun id hid => (h.seg id hid).store hs⟩

theorem load_eqv (d : Deq T) (id : Nat) : Eqv (fun s => d.heap[id]? = some s) (load d id) (load d id) := by
  refine ⟨rfl, fun a e => ?_⟩
  unfold load idx at e
  cases h : d.heap[id]? with
  | none => rw [h] at e; cases e
  | some x => rw [h] at e; cases e; rfl

theorem load_ok {K k : Nat} {d : Deq T} {id : Nat} (h : OkId K k d id) : Eqv (SB K k) (load d id) (load d id) := (load_eqv d id).mono fun s e => h s e

variable {K k : Nat} {d : Deq T} {cfg : Cfg T}

theorem segUsed_eqv (h : DB K k d) (hk : k ≤ 2 ^ 60) : segUsedM d = segUsed d ∧ 0 ≤ segUsed d ∧ segUsed d ≤ d.segs.length := by
  obtain ⟨h1, h2, h3, h4, h5, h6, h7⟩ := h
  unfold segUsedM segUsed
  rw [int64_id (x := (d.end_ : Int) - d.begin_) (by simp only [Fits64]; omega), int64_id (x := (d.segs.length : Int) - d.begin_) (by simp only [Fits64]; omega),
    int64_id (by simp only [Fits64]; omega)]
  refine ⟨rfl, ?_, ?_⟩ <;> split <;> (try split) <;> omega

theorem nextIndex_eqv {i : Nat} (hi : i ≤ 2 ^ 60) : Eqv (fun j => j < d.segs.length) (nextIndexM d i) (nextIndex d i) := modM_next hi
theorem preIndex_eqv {i : Nat} (hi : i ≤ 2 ^ 60) (hl : d.segs.length ≤ 2 ^ 60) : Eqv (fun j => j < d.segs.length) (preIndexM d i) (preIndex d i) := modM_pre hi hl

theorem poolGet_db (h : DB cfg.segCap k d) : DB cfg.segCap k (poolGet cfg d).2 ∧ OkId cfg.segCap k (poolGet cfg d).2 (poolGet cfg d).1 := by
  have hs : SB cfg.segCap k (Seg.new cfg.zero cfg.segCap) := ⟨by simp [Seg.new], by simp [Seg.new], by simp [Seg.new], by simp [Seg.new], by simp [Seg.new]⟩
  have hok : ∀ id, OkId cfg.segCap k d id → OkId cfg.segCap k { d with heap := d.heap ++ [Seg.new cfg.zero cfg.segCap] } id := by
    intro id hid s e
    simp only at e
    rw [List.getElem?_append] at e
    split at e
    · exact hid s e
    · have := List.mem_of_getElem? e
      simp at this
      rw [this]; exact hs
  unfold poolGet
  cases hp : d.pool.getLast? with
  | none =>
    refine ⟨⟨h.len, h.beg, h.end_, h.lo, h.hi, h.pool, fun id hid => hok id (h.seg id hid)⟩, ?_⟩
    intro s e
    simp only [List.getElem?_append_right (Nat.le_refl _), Nat.sub_self] at e
    simp at e
    rw [← e]; exact hs
  | some id =>
    refine ⟨⟨h.len, h.beg, h.end_, h.lo, h.hi, ?_, ?_⟩, ?_⟩
    · have := h.pool; simp only [List.length_dropLast]; omega
    · rintro j (hj | hj)
      · exact h.seg j (.inl (List.dropLast_subset _ hj))
      · exact h.seg j (.inr hj)
    · exact h.seg id (.inl (List.mem_of_getLast? hp))

theorem shrinkPool_eqv (h : DB K k d) (n : Int) : Eqv (DB K k) (shrinkPool d n) (shrinkPool d n) := by
  unfold shrinkPool
  split
  · split
    · exact .panic
    · refine .ok ⟨h.len, h.beg, h.end_, h.lo, h.hi, ?_, ?_⟩
      · have := h.pool; simp only [List.length_take]; omega
      · rintro j (hj | hj)
        · exact h.seg j (.inl (List.mem_of_mem_take hj))
        · exact h.seg j (.inr hj)
  · exact .ok h

theorem putTail_eqv (h : DB K k d) (hk : k ≤ 2 ^ 59) : Eqv (fun d' => DB K k d' ∧ d'.segs = d.segs ∧ d'.begin_ = d.begin_)
    (if (int64 (d.pool.length * 6)).tdiv 5 > segUsedM d then shrinkPool d ((segUsedM d).tdiv 5) else .ok d)
    (if ((d.pool.length * 6 / 5 : Nat) : Int) > segUsed d then shrinkPool d (segUsed d / 5) else .ok d) := by
  obtain ⟨e, g1, g2⟩ := segUsed_eqv h (by omega)
  have hp := h.pool
  have e1 : (int64 (d.pool.length * 6)).tdiv 5 = ((d.pool.length * 6 / 5 : Nat) : Int) := by
    rw [int64_id (by simp only [Fits64]; omega), Int.tdiv_eq_ediv_of_nonneg (by omega)]
    omega
  rw [e, e1, Int.tdiv_eq_ediv_of_nonneg g1]
  split
  · have := shrinkPool_eqv h (segUsed d / 5)
    refine ⟨rfl, fun d' ed => ⟨this.2 d' ed, ?_⟩⟩
    unfold shrinkPool at ed
    split at ed
    · split at ed
      · cases ed
      · cases ed; exact ⟨rfl, rfl⟩
    · cases ed; exact ⟨rfl, rfl⟩
  · exact .ok ⟨h, rfl, rfl⟩

theorem putToPool_eqv (h : DB K k d) (hk : k < 2 ^ 59) {id : Nat} (hid : OkId K k d id) : Eqv (fun d' => DB K (k + 1) d' ∧ d'.segs = d.segs ∧ d'.begin_ = d.begin_) (putToPoolM d id) (putToPool d id) := by
  unfold putToPoolM putToPool
  refine (load_ok hid).bind fun s hs => ?_
  have hc : SB K (k + 1) s.clear := ⟨hs.len, Nat.zero_le _, Nat.zero_le _, by simp [Seg.clear]; omega, by simp [Seg.clear]; omega⟩
  have h1 : DB K (k + 1) { store d id s.clear with pool := (store d id s.clear).pool ++ [id] } := by
    have h2 := (h.mono (Nat.le_add_right k 1)).store (j := id) hc
    refine ⟨h2.len, h2.beg, h2.end_, h2.lo, h2.hi, ?_, ?_⟩
    · have := h.pool; simp [Deque.store]; omega
    · rintro j (hj | hj)
      · rcases List.mem_append.1 hj with hj | hj
        · exact h2.seg j (.inl hj)
        · cases List.mem_singleton.1 hj
          exact (hid.mono (Nat.le_add_right k 1)).store hc
      · exact h2.seg j (.inr hj)
  have h3 : k + 1 ≤ 2 ^ 59 := hk
  have h4 := putTail_eqv h1 h3
  simp only [Deque.store] at h4 ⊢
  exact h4

theorem firstSegment_eqv (d : Deq T) : Eqv (fun o => ∀ id, o = some id → some id ∈ d.segs) (firstSegment d) (firstSegment d) := by
  unfold firstSegment
  split
  · exact .ok fun _ e => by cases e
  · exact (Eqv.idx _ _).mono fun o ho id e => e ▸ ho.2

theorem lastSegment_eqv (h : DB K k d) (hk : k ≤ 2 ^ 60) : Eqv (fun o => ∀ id, o = some id → some id ∈ d.segs) (lastSegmentM d) (lastSegment d) := by
  unfold lastSegmentM lastSegment
  split
  · exact .ok fun _ e => by cases e
  · refine (preIndex_eqv (by have := h.end_; have := h.len; omega) (by have := h.len; omega)).bind fun i hi => ?_
    exact (Eqv.idx _ _).mono fun o ho id e => e ▸ ho.2

theorem segmentAt_eqv (h : DB K k d) (hk : k ≤ 2 ^ 60) {i : Int} (h1 : -2 ^ 60 ≤ i) (h2 : i ≤ 2 ^ 60) :
    Eqv (fun o => ∀ id, o = some id → some id ∈ d.segs) (segmentAtM d i) (segmentAt d i) := by
  unfold segmentAtM segmentAt
  rw [int64_id (by have := h.beg; have := h.len; simp only [Fits64]; omega)]
  split
  · exact .panic
  · simp only
    split
    · exact .panic
    · exact (Eqv.idx _ _).mono fun o ho id e => e ▸ ho.2

theorem copySegs_eqv (src : List (Option Nat)) {b : Nat} (md : Nat) (hb : b ≤ 2 ^ 60) : ∀ (n i : Nat) (dst : List (Option Nat)), n + i ≤ 2 ^ 60 →
    Eqv (fun l => l.length = dst.length ∧ ∀ x ∈ l, x ∈ src ∨ x ∈ dst) (copySegsM src b md n i dst) (copySegs src b md n i dst) := by
  intro n
  induction n with
  | zero => intro i dst _; exact .ok ⟨rfl, fun x hx => .inr hx⟩
  | succ n ih =>
    intro i dst hi
    unfold copySegsM copySegs
    refine (modM_nat (a := b + i) (by rw [int64_id (by simp only [Fits64]; omega)]; omega)).bind fun j hj => ?_
    refine (Eqv.idx _ _).bind fun x hx => (Eqv.upd _ _ _).bind ?_
    rintro l ⟨hl, rfl⟩
    refine (ih (i + 1) _ (by omega)).mono ?_
    rintro l' ⟨h1, h2⟩
    refine ⟨by simp [h1], fun y hy => ?_⟩
    rcases h2 y hy with h | h
    · exact .inl h
    · rcases List.mem_or_eq_of_mem_set h with h | h
      · exact .inr h
      · exact .inl (h ▸ hx.2)

theorem expand_eqv (h : DB K k d) (hk : k ≤ 2 ^ 59) : Eqv (DB K (2 * k + 1)) (expandM d) (expand d) := by
  obtain ⟨e, g1, g2⟩ := segUsed_eqv h (by omega)
  have hl := h.len
  have hb := h.beg
  unfold expandM expand
  rw [e, int64_id (by simp only [Fits64]; omega)]
  simp only
  obtain ⟨c, hc⟩ : ∃ c : Int, (if segUsed d * 2 = 0 then 1 else segUsed d * 2) = c := ⟨_, rfl⟩
  rw [hc]
  have hc1 : 0 ≤ c ∧ segUsed d ≤ c ∧ c ≤ 2 * k + 1 := by split at hc <;> omega
  split
  · exact .panic
  · refine (copySegs_eqv _ _ (by omega) _ _ _ (by omega)).bind ?_
    rintro l ⟨h1, h2⟩
    simp only [List.length_replicate] at h1
    have h' := h.mono (k' := 2 * k + 1) (by omega)
    refine .ok ⟨?_, Nat.zero_le _, ?_, h'.lo, h'.hi, h'.pool, ?_⟩
    · simp only [h1]; omega
    · simp only [h1]; omega
    · rintro j (hj | hj)
      · exact h'.seg j (.inl hj)
      · rcases h2 _ hj with hj | hj
        · exact h'.seg j (.inr hj)
        · simp at hj

theorem growIfFull_eqv (h : DB K k d) (hk : k ≤ 2 ^ 59) : Eqv (DB K (2 * k + 1)) (growIfFullM d) (growIfFull d) := by
  unfold growIfFullM growIfFull
  rw [(segUsed_eqv h (by omega)).1]
  split
  · exact expand_eqv h hk
  · exact .ok (h.mono (by omega))

theorem shrinkIfNeeded_eqv (hg : cfg.Good) (h : DB K k d) (hk : k ≤ 2 ^ 59) : Eqv (DB K k) (shrinkIfNeededM cfg d) (shrinkIfNeeded cfg d) := by
  obtain ⟨e, g1, g2⟩ := segUsed_eqv h (by omega)
  have hl := h.len
  have hb := h.beg
  unfold shrinkIfNeededM shrinkIfNeeded
  rw [e, int64_id (by simp only [Fits64]; omega)]
  have hsc := hg.scale (segUsed d * 2) (by omega)
  split
  · refine (copySegs_eqv _ _ (by omega) _ _ _ (by omega)).bind ?_
    rintro l ⟨h1, h2⟩
    simp only [List.length_replicate] at h1
    refine .ok ⟨?_, Nat.zero_le _, ?_, h.lo, h.hi, h.pool, ?_⟩
    · simp only [h1]; omega
    · simp only [h1]; omega
    · rintro j (hj | hj)
      · exact h.seg j (.inl hj)
      · rcases h2 _ hj with hj | hj
        · exact h.seg j (.inr hj)
        · simp at hj
  · exact .ok h

theorem addFirst_eqv (h : DB cfg.segCap k d) (hk : k ≤ 2 ^ 59) :
    Eqv (fun r => DB cfg.segCap k r.2 ∧ some r.1 ∈ r.2.segs) (addFirstM cfg d) (addFirst cfg d) := by
  unfold addFirstM addFirst
  refine (preIndex_eqv (by have := h.beg; have := h.len; omega) (by have := h.len; omega)).bind fun b hb => ?_
  have h' : DB cfg.segCap k { d with begin_ := b } := ⟨h.len, Nat.le_of_lt hb, h.end_, h.lo, h.hi, h.pool, h.seg⟩
  have hp := poolGet_db h'
  simp only
  generalize poolGet cfg { d with begin_ := b } = r at *
  obtain ⟨id, d1⟩ := r
  obtain ⟨p1, p2⟩ := hp
  simp only at p1 p2
  refine (Eqv.upd _ _ _).bind ?_
  rintro l ⟨hl, rfl⟩
  refine .ok ⟨⟨by simp [p1.len], by simp [p1.beg], by simp [p1.end_], p1.lo, p1.hi, p1.pool, ?_⟩, List.mem_set hl _⟩
  rintro j (hj | hj)
  · exact p1.seg j (.inl hj)
  · rcases List.mem_or_eq_of_mem_set hj with hj | hj
    · exact p1.seg j (.inr hj)
    · cases hj; exact p2

theorem addLast_eqv (h : DB cfg.segCap k d) (hk : k ≤ 2 ^ 59) :
    Eqv (fun r => DB cfg.segCap k r.2 ∧ some r.1 ∈ r.2.segs) (addLastM cfg d) (addLast cfg d) := by
  unfold addLastM addLast
  have hp := poolGet_db h
  simp only
  generalize poolGet cfg d = r at *
  obtain ⟨id, d1⟩ := r
  obtain ⟨p1, p2⟩ := hp
  simp only at p1 p2
  refine (Eqv.upd _ _ _).bind ?_
  rintro l ⟨hl, rfl⟩
  refine (nextIndex_eqv (by have := p1.end_; have := p1.len; simp only; omega)).bind fun e he => ?_
  simp only [List.length_set] at he
  refine .ok ⟨⟨by simp [p1.len], by simp [p1.beg], by simp; omega, p1.lo, p1.hi, p1.pool, ?_⟩, List.mem_set hl _⟩
  rintro j (hj | hj)
  · exact p1.seg j (.inl hj)
  · rcases List.mem_or_eq_of_mem_set hj with hj | hj
    · exact p1.seg j (.inr hj)
    · cases hj; exact p2

theorem nilOrFull_eqv (d : Deq T) (o : Option Nat) : Eqv (fun _ => True) (nilOrFull d o) (nilOrFull d o) := ⟨rfl, fun _ _ => trivial⟩

theorem firstAvailable_eqv (h : DB cfg.segCap k d) (hk : k ≤ 2 ^ 55) :
    Eqv (fun r => DB cfg.segCap (2 * k + 1) r.2 ∧ ∀ id, r.1 = some id → some id ∈ r.2.segs) (firstAvailableSegmentM cfg d) (firstAvailableSegment cfg d) := by
  unfold firstAvailableSegmentM firstAvailableSegment
  refine (firstSegment_eqv d).bind fun f hf => (nilOrFull_eqv d f).bind fun nf _ => ?_
  split
  · exact .ok ⟨h.mono (by omega), hf⟩
  · refine (growIfFull_eqv h (by omega)).bind fun d1 h1 => (firstSegment_eqv d1).bind fun f hf => (nilOrFull_eqv d1 f).bind fun nf _ => ?_
    split
    · refine (addFirst_eqv h1 (by omega)).bind ?_
      rintro ⟨id, d2⟩ ⟨h2, h3⟩
      exact .ok ⟨h2, fun j e => by cases e; exact h3⟩
    · exact .ok ⟨h1, hf⟩

theorem lastAvailable_eqv (h : DB cfg.segCap k d) (hk : k ≤ 2 ^ 55) :
    Eqv (fun r => DB cfg.segCap (2 * k + 1) r.2 ∧ ∀ id, r.1 = some id → some id ∈ r.2.segs) (lastAvailableSegmentM cfg d) (lastAvailableSegment cfg d) := by
  unfold lastAvailableSegmentM lastAvailableSegment
  refine (lastSegment_eqv h (by omega)).bind fun f hf => (nilOrFull_eqv d f).bind fun nf _ => ?_
  split
  · exact .ok ⟨h.mono (by omega), hf⟩
  · refine (growIfFull_eqv h (by omega)).bind fun d1 h1 => (lastSegment_eqv h1 (by omega)).bind fun f hf => (nilOrFull_eqv d1 f).bind fun nf _ => ?_
    split
    · refine (addLast_eqv h1 (by omega)).bind ?_
      rintro ⟨id, d2⟩ ⟨h2, h3⟩
      exact .ok ⟨h2, fun j e => by cases e; exact h3⟩
    · exact .ok ⟨h1, hf⟩

theorem DB.addSize (h : DB K k d) : DB K (k + 1) { d with size := d.size + 1 } := by
  have h' := h.mono (Nat.le_add_right k 1)
  exact ⟨h'.len, h'.beg, h'.end_, by have := h.lo; simp only; omega, by have := h.hi; simp only; omega, h'.pool, h'.seg⟩
theorem DB.subSize (h : DB K k d) : DB K (k + 1) { d with size := d.size - 1 } := by
  have h' := h.mono (Nat.le_add_right k 1)
  exact ⟨h'.len, h'.beg, h'.end_, by have := h.lo; simp only; omega, by have := h.hi; simp only; omega, h'.pool, h'.seg⟩
theorem DB.fitsAdd (h : DB K k d) (hk : k ≤ 2 ^ 60) : int64 (d.size + 1) = d.size + 1 := int64_id (by have := h.lo; have := h.hi; simp only [Fits64]; omega)
theorem DB.fitsSub (h : DB K k d) (hk : k ≤ 2 ^ 60) : int64 (d.size - 1) = d.size - 1 := int64_id (by have := h.lo; have := h.hi; simp only [Fits64]; omega)

theorem pushFront_eqv (hK : cfg.segCap ≤ 2 ^ 50) (h : DB cfg.segCap k d) (hk : k ≤ 2 ^ 50) (v : T) :
    Eqv (DB cfg.segCap (4 * k + 7)) (pushFrontM cfg d v) (pushFront cfg d v) := by
  unfold pushFrontM pushFront
  refine (firstAvailable_eqv h (by omega)).bind ?_
  rintro ⟨o, d1⟩ ⟨h1, ho⟩
  simp only at h1 ho
  refine (Eqv.ofOption o).bind fun id hid => (load_ok (h1.seg id (.inr (ho id hid)))).bind fun s hs => ?_
  refine (Seg.pushFront_eqv hs (by omega) (by omega) v).bind fun s hs => ?_
  have h2 := (h1.mono (Nat.le_add_right (2 * k + 1) 1)).store (j := id) hs
  show Eqv _ (growIfFullM { store d1 id s with size := int64 ((store d1 id s).size + 1) }) _
  rw [h2.fitsAdd (by omega)]
  exact (growIfFull_eqv h2.addSize (by omega)).mono fun _ h => h.mono (by omega)

theorem pushBack_eqv (hK : cfg.segCap ≤ 2 ^ 50) (h : DB cfg.segCap k d) (hk : k ≤ 2 ^ 50) (v : T) :
    Eqv (DB cfg.segCap (4 * k + 7)) (pushBackM cfg d v) (pushBack cfg d v) := by
  unfold pushBackM pushBack
  refine (lastAvailable_eqv h (by omega)).bind ?_
  rintro ⟨o, d1⟩ ⟨h1, ho⟩
  simp only at h1 ho
  refine (Eqv.ofOption o).bind fun id hid => (load_ok (h1.seg id (.inr (ho id hid)))).bind fun s hs => ?_
  refine (Seg.pushBack_eqv hs (by omega) (by omega) v).bind fun s hs => ?_
  have h2 := (h1.mono (Nat.le_add_right (2 * k + 1) 1)).store (j := id) hs
  show Eqv _ (growIfFullM { store d1 id s with size := int64 ((store d1 id s).size + 1) }) _
  rw [h2.fitsAdd (by omega)]
  exact (growIfFull_eqv h2.addSize (by omega)).mono fun _ h => h.mono (by omega)

end GoSTL.Deque
