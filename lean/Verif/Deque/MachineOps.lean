import Verif.Deque.MachineDeq
/-!
# C106 for the deque: positions, shifting, erasing
-/
namespace GoSTL.Deque
variable {T : Type} {K k : Nat} {d : Deq T} {cfg : Cfg T}

theorem pos_eqv (hK : cfg.segCap ≤ 2 ^ 50) (h : DB cfg.segCap k d) (hk : k ≤ 2 ^ 52) {p : Int} (h0 : 0 ≤ p) (hp : p ≤ k) :
    Eqv (fun r : Int × Int => 0 ≤ r.1 ∧ r.1 ≤ 2 * k + 1 ∧ 0 ≤ r.2 ∧ r.2 ≤ 2 ^ 53) (posM cfg d p) (pos cfg d p) := by
  unfold posM pos
  refine (firstSegment_eqv d).bind fun f hf => (Eqv.ofOption f).bind fun id hid => (load_ok (h.seg id (.inr (hf id hid)))).bind fun s hs => ?_
  have l1 := hs.lo
  have l2 := hs.hi
  rw [int64_id (x := s.size - 1) (by simp only [Fits64, Seg.size]; omega)]
  split
  · exact .ok ⟨by simp, by simp only; omega, h0, by simp only; omega⟩
  · next hlt =>
    split
    · exact .panic
    · next hne =>
      simp only [Seg.size] at hlt ⊢
      have hx : 0 ≤ p - s.nSize := by omega
      rw [int64_id (x := p - s.nSize) (by simp only [Fits64]; omega), Int.tdiv_eq_ediv_of_nonneg hx, Int.tmod_eq_emod_of_nonneg hx]
      have a1 : 0 ≤ (p - s.nSize) / (cfg.segCap : Int) := Int.ediv_nonneg hx (by omega)
      have a2 : (p - s.nSize) / (cfg.segCap : Int) ≤ p - s.nSize := Int.ediv_le_self _ hx
      have a3 : 0 ≤ (p - s.nSize) % (cfg.segCap : Int) := Int.emod_nonneg _ (by omega)
      have a4 : (p - s.nSize) % (cfg.segCap : Int) < cfg.segCap := Int.emod_lt_of_pos _ (by omega)
      rw [int64_id (by simp only [Fits64]; omega)]
      exact .ok ⟨by simp only; omega, by simp only; omega, a3, by simp only; omega⟩

theorem fwdLoop_eqv (hK : K ≤ 2 ^ 50) : ∀ (n k : Nat) (i : Int) (d : Deq T), DB K k d → k + 2 * n ≤ 2 ^ 58 → -2 ^ 58 ≤ i → i + n ≤ 2 ^ 58 →
    Eqv (fun d' => DB K (k + 2 * n) d') (fwdLoopM n i d) (fwdLoop n i d) := by
  intro n
  induction n with
  | zero => intro k i d h _ _ _; exact .ok h
  | succ n ih =>
    intro k i d h hk h1 h2
    unfold fwdLoopM fwdLoop
    rw [int64_id (x := i + 1) (by simp only [Fits64]; omega)]
    refine (segmentAt_eqv h (by omega) (by omega) (by omega)).bind fun cur hcur => ?_
    refine (segmentAt_eqv h (by omega) (by omega) (by omega)).bind fun next hnext => ?_
    refine (Eqv.ofOption next).bind fun nid hnid => (load_ok (h.seg nid (.inr (hnext nid hnid)))).bind fun s hs => ?_
    refine (Seg.popFront_eqv hs (by omega) (by omega)).bind ?_
    rintro ⟨x, s⟩ hs
    simp only at hs
    have h3 := (h.mono (Nat.le_add_right k 1)).store (j := nid) hs
    refine (Eqv.ofOption cur).bind fun cid hcid => ?_
    refine (load_ok (h3.seg cid (.inr (hcur cid hcid)))).bind fun s' hs' => ?_
    refine (Seg.pushBack_eqv hs' (by omega) (by omega) x).bind fun s'' hs'' => ?_
    have h4 := (h3.mono (Nat.le_add_right (k + 1) 1)).store (j := cid) hs''
    exact (ih (k + 2) (i + 1) _ h4 (by omega) (by omega) (by omega)).mono fun _ h => h.mono (by omega)

theorem bwdLoop_eqv (hK : K ≤ 2 ^ 50) : ∀ (n k : Nat) (i : Int) (d : Deq T), DB K k d → k + 2 * n ≤ 2 ^ 58 → i ≤ 2 ^ 58 → -2 ^ 58 ≤ i - n →
    Eqv (fun d' => DB K (k + 2 * n) d') (bwdLoopM n i d) (bwdLoop n i d) := by
  intro n
  induction n with
  | zero => intro k i d h _ _ _; exact .ok h
  | succ n ih =>
    intro k i d h hk h1 h2
    unfold bwdLoopM bwdLoop
    rw [int64_id (x := i - 1) (by simp only [Fits64]; omega)]
    refine (segmentAt_eqv h (by omega) (by omega) (by omega)).bind fun cur hcur => ?_
    refine (segmentAt_eqv h (by omega) (by omega) (by omega)).bind fun next hnext => ?_
    refine (Eqv.ofOption next).bind fun nid hnid => (load_ok (h.seg nid (.inr (hnext nid hnid)))).bind fun s hs => ?_
    refine (Seg.popBack_eqv hs (by omega) (by omega)).bind ?_
    rintro ⟨x, s⟩ hs
    simp only at hs
    have h3 := (h.mono (Nat.le_add_right k 1)).store (j := nid) hs
    refine (Eqv.ofOption cur).bind fun cid hcid => ?_
    refine (load_ok (h3.seg cid (.inr (hcur cid hcid)))).bind fun s' hs' => ?_
    refine (Seg.pushFront_eqv hs' (by omega) (by omega) x).bind fun s'' hs'' => ?_
    have h4 := (h3.mono (Nat.le_add_right (k + 1) 1)).store (j := cid) hs''
    exact (ih (k + 2) (i - 1) _ h4 (by omega) (by omega) (by omega)).mono fun _ h => h.mono (by omega)

theorem insertSeg_eqv (hK : K ≤ 2 ^ 50) (h : DB K k d) (hk : k ≤ 2 ^ 58) {i q : Int} (h1 : -2 ^ 58 ≤ i) (h2 : i ≤ 2 ^ 58) (q1 : -2 ^ 58 ≤ q) (q2 : q ≤ 2 ^ 58) (v : T) :
    Eqv (DB K (k + 1)) (insertSegM d i q v) (insertSeg d i q v) := by
  unfold insertSegM insertSeg
  refine (segmentAt_eqv h (by omega) (by omega) (by omega)).bind fun o ho => ?_
  refine (Eqv.ofOption o).bind fun id hid => (load_ok (h.seg id (.inr (ho id hid)))).bind fun s hs => ?_
  refine (Seg.insert_eqv hs (by omega) (by omega) (by omega) (by omega) v).bind fun s hs => ?_
  exact .ok ((h.mono (Nat.le_add_right k 1)).store hs)

theorem moveFrontInsert_eqv (hK : cfg.segCap ≤ 2 ^ 50) (h : DB cfg.segCap k d) (hk : k ≤ 2 ^ 50) {i q : Int} (h1 : 0 ≤ i) (h2 : i ≤ 2 * k + 1) (q1 : 0 ≤ q) (q2 : q ≤ 2 ^ 53) (v : T) :
    Eqv (DB cfg.segCap (6 * k + 10)) (moveFrontInsertM cfg d i q v) (moveFrontInsert cfg d i q v) := by
  unfold moveFrontInsertM moveFrontInsert
  refine (firstSegment_eqv d).bind fun f hf => (Eqv.ofOption f).bind fun id hid => (load_ok (h.seg id (.inr (hf id hid)))).bind fun s hs => ?_
  rw [int64_id (x := i + 1) (by simp only [Fits64]; omega), int64_id (x := i - 1) (by simp only [Fits64]; omega), int64_id (x := q - 1) (by simp only [Fits64]; omega)]
  have cont : ∀ (d1 : Deq T) (i q : Int), DB cfg.segCap (2 * k + 1) d1 → -1 ≤ i → i ≤ 2 * k + 2 → -2 ^ 55 ≤ q → q ≤ 2 ^ 55 →
      Eqv (DB cfg.segCap (6 * k + 10)) (fwdLoopM i.toNat 0 d1 >>= fun d => insertSegM d i q v) (fwdLoop i.toNat 0 d1 >>= fun d => insertSeg d i q v) := by
    intro d1 i q h3 h4 h5 h6 h7
    refine (fwdLoop_eqv hK _ _ _ _ h3 (by omega) (by omega) (by omega)).bind fun d2 hd2 => ?_
    exact (insertSeg_eqv hK hd2 (by omega) (by omega) (by omega) (by omega) (by omega) v).mono fun _ h => h.mono (by omega)
  dsimp only
  split
  · refine (growIfFull_eqv h (by omega)).bind fun d1 h3 => (addFirst_eqv h3 (by omega)).bind ?_
    rintro ⟨id, d2⟩ ⟨h4, -⟩
    simp only at h4
    dsimp only
    split
    · exact cont d2 i (cfg.segCap - 1) h4 (by omega) (by omega) (by omega) (by omega)
    · exact cont d2 (i + 1) (q - 1) h4 (by omega) (by omega) (by omega) (by omega)
  · have h4 := h.mono (k' := 2 * k + 1) (by omega)
    split
    · exact cont d (i - 1) (cfg.segCap - 1) h4 (by omega) (by omega) (by omega) (by omega)
    · split
      · exact cont d i (q - 1) h4 (by omega) (by omega) (by omega) (by omega)
      · exact cont d i q h4 (by omega) (by omega) (by omega) (by omega)

theorem moveBackInsert_eqv (hK : cfg.segCap ≤ 2 ^ 50) (h : DB cfg.segCap k d) (hk : k ≤ 2 ^ 50) {i q : Int} (h1 : 0 ≤ i) (h2 : i ≤ 2 * k + 1) (q1 : 0 ≤ q) (q2 : q ≤ 2 ^ 53) (v : T) :
    Eqv (DB cfg.segCap (6 * k + 10)) (moveBackInsertM cfg d i q v) (moveBackInsert cfg d i q v) := by
  unfold moveBackInsertM moveBackInsert
  refine (lastSegment_eqv h (by omega)).bind fun f hf => (Eqv.ofOption f).bind fun id hid => (load_ok (h.seg id (.inr (hf id hid)))).bind fun s hs => ?_
  have cont : ∀ d1 : Deq T, DB cfg.segCap (2 * k + 1) d1 →
      Eqv (DB cfg.segCap (6 * k + 10)) (bwdLoopM (int64 (segUsedM d1 - 1) - i).toNat (int64 (segUsedM d1 - 1)) d1 >>= fun d => insertSegM d i q v)
        (bwdLoop (segUsed d1 - 1 - i).toNat (segUsed d1 - 1) d1 >>= fun d => insertSeg d i q v) := by
    intro d1 h3
    obtain ⟨e, g1, g2⟩ := segUsed_eqv h3 (by omega)
    have := h3.len
    rw [e, int64_id (x := segUsed d1 - 1) (by simp only [Fits64]; omega)]
    refine (bwdLoop_eqv hK _ _ _ _ h3 (by omega) (by omega) (by omega)).bind fun d2 hd2 => ?_
    exact (insertSeg_eqv hK hd2 (by omega) (by omega) (by omega) (by omega) (by omega) v).mono fun _ h => h.mono (by omega)
  dsimp only
  split
  · refine (growIfFull_eqv h (by omega)).bind fun d1 h3 => (addLast_eqv h3 (by omega)).bind ?_
    rintro ⟨id, d2⟩ ⟨h4, -⟩
    exact cont d2 h4
  · exact cont d (h.mono (by omega))

theorem insert_eqv (hK : cfg.segCap ≤ 2 ^ 50) (h : DB cfg.segCap k d) (hk : k ≤ 2 ^ 50) (p : Int) (v : T) :
    Eqv (DB cfg.segCap (12 * k + 30)) (insertM cfg d p v) (insert cfg d p v) := by
  unfold insertM insert
  have hhi := h.hi
  split
  · exact .ok (h.mono (by omega))
  · split
    · exact (pushFront_eqv hK h hk v).mono fun _ h => h.mono (by omega)
    · split
      · exact (pushBack_eqv hK h hk v).mono fun _ h => h.mono (by omega)
      · refine (pos_eqv hK h (by omega) (by omega) (by omega)).bind ?_
        rintro ⟨i, q⟩ ⟨h1, h2, h3, h4⟩
        simp only at h1 h2 h3 h4
        obtain ⟨e, g1, g2⟩ := segUsed_eqv h (by omega)
        have hl := h.len
        have cont : ∀ d1 : Deq T, DB cfg.segCap (6 * k + 10) d1 →
            Eqv (DB cfg.segCap (12 * k + 30)) (growIfFullM { d1 with size := int64 (d1.size + 1) }) (growIfFull { d1 with size := d1.size + 1 }) := by
          intro d1 hd1
          rw [hd1.fitsAdd (by omega)]
          exact (growIfFull_eqv hd1.addSize (by omega)).mono fun _ h => h.mono (by omega)
        dsimp only
        rw [e, int64_id (x := segUsed d - i) (by simp only [Fits64]; omega)]
        split
        · exact (moveFrontInsert_eqv hK h hk h1 h2 h3 h4 v).bind cont
        · exact (moveBackInsert_eqv hK h hk h1 h2 h3 h4 v).bind cont

theorem front_eqv (hK : K ≤ 2 ^ 50) (h : DB K k d) (hk : k ≤ 2 ^ 50) : Eqv (fun _ => True) (frontM d) (front d) := by
  unfold frontM front
  refine (firstSegment_eqv d).bind fun f hf => (Eqv.ofOption f).bind fun id hid => (load_ok (h.seg id (.inr (hf id hid)))).bind fun s hs => ?_
  exact Seg.front_eqv hs (by omega) (by omega)

theorem back_eqv (hK : K ≤ 2 ^ 50) (h : DB K k d) (hk : k ≤ 2 ^ 50) : Eqv (fun _ => True) (backM d) (back d) := by
  unfold backM back
  refine (lastSegment_eqv h (by omega)).bind fun f hf => (Eqv.ofOption f).bind fun id hid => (load_ok (h.seg id (.inr (hf id hid)))).bind fun s hs => ?_
  exact Seg.back_eqv hs (by omega) (by omega)

theorem at_eqv (hK : cfg.segCap ≤ 2 ^ 50) (h : DB cfg.segCap k d) (hk : k ≤ 2 ^ 50) (p : Int) : Eqv (fun _ => True) (at_M cfg d p) (at_ cfg d p) := by
  unfold at_M at_
  have hhi := h.hi
  split
  · exact .panic
  · refine (pos_eqv hK h (by omega) (by omega) (by omega)).bind ?_
    rintro ⟨i, q⟩ ⟨h1, h2, h3, h4⟩
    simp only at h1 h2 h3 h4
    refine (segmentAt_eqv h (by omega) (by omega) (by omega)).bind fun o ho => ?_
    refine (Eqv.ofOption o).bind fun id hid => (load_ok (h.seg id (.inr (ho id hid)))).bind fun s hs => ?_
    exact Seg.at_eqv hs (by omega) (by omega) q

theorem set_eqv (hK : cfg.segCap ≤ 2 ^ 50) (h : DB cfg.segCap k d) (hk : k ≤ 2 ^ 50) (p : Int) (v : T) :
    Eqv (fun r => DB cfg.segCap k r.2) (setM cfg d p v) (set cfg d p v) := by
  unfold setM set
  have hhi := h.hi
  split
  · exact .ok h
  · refine (pos_eqv hK h (by omega) (by omega) (by omega)).bind ?_
    rintro ⟨i, q⟩ ⟨h1, h2, h3, h4⟩
    simp only at h1 h2 h3 h4
    refine (segmentAt_eqv h (by omega) (by omega) (by omega)).bind fun o ho => ?_
    refine (Eqv.ofOption o).bind fun id hid => (load_ok (h.seg id (.inr (ho id hid)))).bind fun s hs => ?_
    refine (Seg.set_eqv hs (by omega) q v).bind fun s hs => ?_
    exact .ok (h.store hs)

theorem DB.setNone (h : DB K k d) (i : Nat) {b e : Nat} (hb : b ≤ d.segs.length) (he : e ≤ d.segs.length) :
    DB K k { d with segs := d.segs.set i none, begin_ := b, end_ := e } := by
  refine ⟨by simp [h.len], by simp [hb], by simp [he], h.lo, h.hi, h.pool, ?_⟩
  rintro j (hj | hj)
  · exact h.seg j (.inl hj)
  · rcases List.mem_or_eq_of_mem_set hj with hj | hj
    · exact h.seg j (.inr hj)
    · cases hj

theorem dropLastSeg_eqv (h : DB K k d) (hk : k < 2 ^ 58) {id : Nat} (hid : OkId K k d id) (i : Nat) :
    Eqv (DB K (k + 1)) (dropLastSegM d id i) (dropLastSeg d id i) := by
  unfold dropLastSegM dropLastSeg
  refine (putToPool_eqv h (by omega) hid).bind ?_
  rintro d1 ⟨h1, -, -⟩
  refine (Eqv.upd _ _ _).bind ?_
  rintro l ⟨hl, rfl⟩
  exact .ok (h1.setNone i h1.beg (by omega))

theorem dropFirst_eqv (h : DB K k d) (hk : k < 2 ^ 58) {id : Nat} (hid : OkId K k d id) : Eqv (DB K (k + 1)) (dropFirstM d id) (dropFirst d id) := by
  unfold dropFirstM dropFirst
  refine (putToPool_eqv h (by omega) hid).bind ?_
  rintro d1 ⟨h1, -, -⟩
  refine (Eqv.upd _ _ _).bind ?_
  rintro l ⟨hl, rfl⟩
  refine (nextIndex_eqv (by have := h1.beg; have := h1.len; simp only; omega)).bind fun b hb => ?_
  simp only [List.length_set] at hb
  exact .ok (h1.setNone d1.begin_ (by omega) h1.end_)

theorem popFront_eqv (hg : cfg.Good) (hK : cfg.segCap ≤ 2 ^ 50) (h : DB cfg.segCap k d) (hk : k ≤ 2 ^ 55) :
    Eqv (fun r => DB cfg.segCap (k + 3) r.2) (popFrontM cfg d) (popFront cfg d) := by
  unfold popFrontM popFront
  split
  · exact .panic
  · refine (Eqv.idx _ _).bind ?_
    rintro o ⟨-, ho⟩
    refine (Eqv.ofOption o).bind fun id hid => ?_
    have hm : some id ∈ d.segs := hid ▸ ho
    refine (load_ok (h.seg id (.inr hm))).bind fun s hs => ?_
    refine (Seg.popFront_eqv hs (by omega) (by omega)).bind ?_
    rintro ⟨v, s⟩ hs
    simp only at hs
    have h3 := (h.mono (Nat.le_add_right k 1)).store (j := id) hs
    have cont : ∀ d1 : Deq T, DB cfg.segCap (k + 2) d1 → Eqv (fun r : T × Deq T => DB cfg.segCap (k + 3) r.2)
        (shrinkIfNeededM cfg { d1 with size := int64 (d1.size - 1) } >>= fun d => .ok (v, d))
        (shrinkIfNeeded cfg { d1 with size := d1.size - 1 } >>= fun d => .ok (v, d)) := by
      intro d1 h4
      rw [h4.fitsSub (by omega)]
      exact (shrinkIfNeeded_eqv hg h4.subSize (by omega)).bind fun d2 h5 => .ok h5
    dsimp only
    split
    · exact (dropFirst_eqv h3 (by omega) (h3.seg id (.inr hm))).bind cont
    · exact cont _ (h3.mono (by omega))

theorem popBack_eqv (hg : cfg.Good) (hK : cfg.segCap ≤ 2 ^ 50) (h : DB cfg.segCap k d) (hk : k ≤ 2 ^ 55) :
    Eqv (fun r => DB cfg.segCap (k + 3) r.2) (popBackM cfg d) (popBack cfg d) := by
  unfold popBackM popBack
  split
  · exact .panic
  · refine (preIndex_eqv (by have := h.end_; have := h.len; omega) (by have := h.len; omega)).bind fun i hi => ?_
    refine (Eqv.idx _ _).bind ?_
    rintro o ⟨-, ho⟩
    refine (Eqv.ofOption o).bind fun id hid => ?_
    have hm : some id ∈ d.segs := hid ▸ ho
    refine (load_ok (h.seg id (.inr hm))).bind fun s hs => ?_
    refine (Seg.popBack_eqv hs (by omega) (by omega)).bind ?_
    rintro ⟨v, s⟩ hs
    simp only at hs
    have h3 := (h.mono (Nat.le_add_right k 1)).store (j := id) hs
    have cont : ∀ d1 : Deq T, DB cfg.segCap (k + 2) d1 → Eqv (fun r : T × Deq T => DB cfg.segCap (k + 3) r.2)
        (shrinkIfNeededM cfg { d1 with size := int64 (d1.size - 1) } >>= fun d => .ok (v, d))
        (shrinkIfNeeded cfg { d1 with size := d1.size - 1 } >>= fun d => .ok (v, d)) := by
      intro d1 h4
      rw [h4.fitsSub (by omega)]
      exact (shrinkIfNeeded_eqv hg h4.subSize (by omega)).bind fun d2 h5 => .ok h5
    dsimp only
    split
    · exact (dropLastSeg_eqv h3 (by omega) (h3.seg id (.inr hm)) i).bind cont
    · exact cont _ (h3.mono (by omega))

theorem eraseShift_eqv (hg : cfg.Good) (hK : cfg.segCap ≤ 2 ^ 50) (h : DB cfg.segCap k d) (hk : k ≤ 2 ^ 51) {i : Int} (h1 : 0 ≤ i) (h2 : i ≤ 2 * k + 1) :
    Eqv (DB cfg.segCap (5 * k + 5)) (eraseShiftM cfg d i) (eraseShift cfg d i) := by
  unfold eraseShiftM eraseShift
  have hlo := h.lo
  have hhi := h.hi
  have hl := h.len
  rw [int64_id (x := d.size - i) (by simp only [Fits64]; omega), int64_id (x := d.size - i - 1) (by simp only [Fits64]; omega)]
  split
  · refine (bwdLoop_eqv hK _ _ _ _ h (by omega) (by omega) (by omega)).bind fun d1 h3 => ?_
    refine (firstSegment_eqv d1).bind fun f hf => (Eqv.ofOption f).bind fun id hid => ?_
    have hok := h3.seg id (.inr (hf id hid))
    refine (load_ok hok).bind fun s hs => ?_
    split
    · refine (dropFirst_eqv h3 (by omega) hok).bind fun d2 h4 => ?_
      exact (shrinkIfNeeded_eqv hg h4 (by omega)).mono fun _ h => h.mono (by omega)
    · exact .ok (h3.mono (by omega))
  · obtain ⟨e, g1, g2⟩ := segUsed_eqv h (by omega)
    rw [e, int64_id (x := segUsed d - 1) (by simp only [Fits64]; omega)]
    refine (fwdLoop_eqv hK _ _ _ _ h (by omega) (by omega) (by omega)).bind fun d1 h3 => ?_
    refine (lastSegment_eqv h3 (by omega)).bind fun f hf => (Eqv.ofOption f).bind fun id hid => ?_
    have hok := h3.seg id (.inr (hf id hid))
    refine (load_ok hok).bind fun s hs => ?_
    split
    · refine (preIndex_eqv (by have := h3.end_; have := h3.len; omega) (by have := h3.len; omega)).bind fun j hj => ?_
      refine (dropLastSeg_eqv h3 (by omega) hok j).bind fun d2 h4 => ?_
      exact (shrinkIfNeeded_eqv hg h4 (by omega)).mono fun _ h => h.mono (by omega)
    · exact .ok (h3.mono (by omega))

theorem eraseAt_eqv (hg : cfg.Good) (hK : cfg.segCap ≤ 2 ^ 50) (h : DB cfg.segCap k d) (hk : k ≤ 2 ^ 50) (p : Int) :
    Eqv (DB cfg.segCap (6 * k + 20)) (eraseAtM cfg d p) (eraseAt cfg d p) := by
  unfold eraseAtM eraseAt
  have hhi := h.hi
  split
  · exact .ok (h.mono (by omega))
  · refine (pos_eqv hK h (by omega) (by omega) (by omega)).bind ?_
    rintro ⟨i, q⟩ ⟨h1, h2, h3, h4⟩
    simp only at h1 h2 h3 h4
    refine (segmentAt_eqv h (by omega) (by omega) (by omega)).bind fun o ho => ?_
    refine (Eqv.ofOption o).bind fun id hid => (load_ok (h.seg id (.inr (ho id hid)))).bind fun s hs => ?_
    refine (Seg.eraseAt_eqv hs (by omega) (by omega) (by omega) (by omega)).bind fun s hs => ?_
    refine (eraseShift_eqv hg hK ((h.mono (Nat.le_add_right k 1)).store hs) (by omega) h1 (by omega)).bind fun d1 h5 => ?_
    rw [h5.fitsSub (by omega)]
    exact .ok (h5.subSize.mono (by omega))

theorem moveDown_eqv (hK : cfg.segCap ≤ 2 ^ 50) (hk : k ≤ 2 ^ 50) {num : Int} (hn1 : 0 ≤ num) (hn2 : num ≤ 2 ^ 50) : ∀ (n : Nat) (p : Int) (d : Deq T), DB cfg.segCap k d →
    0 ≤ p → p + n ≤ 2 ^ 52 → Eqv (DB cfg.segCap k) (moveDownM cfg num n p d) (moveDown cfg num n p d) := by
  intro n
  induction n with
  | zero => intro p d h _ _; exact .ok h
  | succ n ih =>
    intro p d h h1 h2
    unfold moveDownM moveDown
    rw [int64_id (x := p + num) (by simp only [Fits64]; omega), int64_id (x := p + 1) (by simp only [Fits64]; omega)]
    refine (at_eqv hK h hk _).bind fun x _ => (set_eqv hK h hk p x).bind ?_
    rintro ⟨b, d1⟩ h3
    exact ih _ _ h3 (by omega) (by omega)

theorem moveUp_eqv (hK : cfg.segCap ≤ 2 ^ 50) (hk : k ≤ 2 ^ 50) {num : Int} (hn1 : 0 ≤ num) (hn2 : num ≤ 2 ^ 50) : ∀ (n : Nat) (p : Int) (d : Deq T), DB cfg.segCap k d →
    p ≤ 2 ^ 50 → -2 ^ 52 ≤ p - n → Eqv (DB cfg.segCap k) (moveUpM cfg num n p d) (moveUp cfg num n p d) := by
  intro n
  induction n with
  | zero => intro p d h _ _; exact .ok h
  | succ n ih =>
    intro p d h h1 h2
    unfold moveUpM moveUp
    rw [int64_id (x := p - num) (by simp only [Fits64]; omega), int64_id (x := p - 1) (by simp only [Fits64]; omega)]
    refine (at_eqv hK h hk _).bind fun x _ => (set_eqv hK h hk p x).bind ?_
    rintro ⟨b, d1⟩ h3
    exact ih _ _ h3 (by omega) (by omega)

theorem popBackN_eqv (hg : cfg.Good) (hK : cfg.segCap ≤ 2 ^ 50) : ∀ (n k : Nat) (d : Deq T), DB cfg.segCap k d → k + 3 * n ≤ 2 ^ 55 →
    Eqv (DB cfg.segCap (k + 3 * n)) (popBackNM cfg n d) (popBackN cfg n d) := by
  intro n
  induction n with
  | zero => intro k d h _; exact .ok h
  | succ n ih =>
    intro k d h hk
    unfold popBackNM popBackN
    refine (popBack_eqv hg hK h (by omega)).bind ?_
    rintro ⟨x, d1⟩ h1
    exact (ih (k + 3) d1 h1 (by omega)).mono fun _ h => h.mono (by omega)

theorem popFrontN_eqv (hg : cfg.Good) (hK : cfg.segCap ≤ 2 ^ 50) : ∀ (n k : Nat) (d : Deq T), DB cfg.segCap k d → k + 3 * n ≤ 2 ^ 55 →
    Eqv (DB cfg.segCap (k + 3 * n)) (popFrontNM cfg n d) (popFrontN cfg n d) := by
  intro n
  induction n with
  | zero => intro k d h _; exact .ok h
  | succ n ih =>
    intro k d h hk
    unfold popFrontNM popFrontN
    refine (popFront_eqv hg hK h (by omega)).bind ?_
    rintro ⟨x, d1⟩ h1
    exact (ih (k + 3) d1 h1 (by omega)).mono fun _ h => h.mono (by omega)

theorem eraseRange_eqv (hg : cfg.Good) (hK : cfg.segCap ≤ 2 ^ 50) (h : DB cfg.segCap k d) (hk : k ≤ 2 ^ 50) (a b : Int) :
    Eqv (DB cfg.segCap (4 * k)) (eraseRangeM cfg d a b) (eraseRange cfg d a b) := by
  unfold eraseRangeM eraseRange
  have hhi := h.hi
  split
  · exact .ok (h.mono (by omega))
  · rw [int64_id (x := b - a) (by simp only [Fits64]; omega), int64_id (x := d.size - a) (by simp only [Fits64]; omega), int64_id (x := b - 1) (by simp only [Fits64]; omega)]
    simp only
    split
    · refine (moveDown_eqv hK hk (by omega) (by omega) _ _ _ h (by omega) (by omega)).bind fun d1 h1 => ?_
      exact (popBackN_eqv hg hK _ _ _ h1 (by omega)).mono fun _ h => h.mono (by omega)
    · refine (moveUp_eqv hK hk (by omega) (by omega) _ _ _ h (by omega) (by omega)).bind fun d1 h1 => ?_
      exact (popFrontN_eqv hg hK _ _ _ h1 (by omega)).mono fun _ h => h.mono (by omega)

/-- One call does the same with wrapping arithmetic as with exact arithmetic when all numbers are small. -/
theorem stepM_eq (hg : cfg.Good) (hK : cfg.segCap ≤ 2 ^ 50) (h : DB cfg.segCap k d) (hk : k ≤ 2 ^ 50) (op : Op T) : stepM cfg op d = step cfg op d := by
  cases op with
  | pushFront v => simp only [stepM, step, (pushFront_eqv hK h hk v).1]
  | pushBack v => simp only [stepM, step, (pushBack_eqv hK h hk v).1]
  | insert p v => simp only [stepM, step, (insert_eqv hK h hk p v).1]
  | popFront => simp only [stepM, step, (popFront_eqv hg hK h (by omega)).1]
  | popBack => simp only [stepM, step, (popBack_eqv hg hK h (by omega)).1]
  | eraseAt p => simp only [stepM, step, (eraseAt_eqv hg hK h hk p).1]
  | eraseRange a b => simp only [stepM, step, (eraseRange_eqv hg hK h hk a b).1]
  | set p v => simp only [stepM, step, (set_eqv hK h hk p v).1]
  | clear => simp only [stepM, step, clearM, clear, (eraseRange_eqv hg hK h hk 0 d.size).1]
  | «at» p => simp only [stepM, step, (at_eqv hK h hk p).1]
  | front => simp only [stepM, step, (front_eqv hK h hk).1]
  | back => simp only [stepM, step, (back_eqv hK h hk).1]
  | size => rfl
  | empty => rfl

end GoSTL.Deque
