import Verif.Deque.Props
/-!
# C92: inserting and erasing near either end of a deque is cheap

The loops of `Insert`, `EraseAt` and `EraseRange` shift one element per round. Here the same methods with at most `N` rounds per loop: they run out of
budget as soon as a loop would make more rounds.
-/
namespace GoSTL.Deque
variable {T : Type} {cfg : Cfg T}

/-- A loop of `n` rounds with a budget of `N`. -/
def within (N n : Nat) (r : Res (Deq T)) : Res (Deq T) := if n ≤ N then r else .outOfFuel

theorem within_ok {N n : Nat} {r : Res (Deq T)} (h : n ≤ N) : within N n r = r := if_pos h
theorem within_out {N n : Nat} {r : Res (Deq T)} (h : N < n) : within N n r = .outOfFuel := if_neg (by omega)

/-- deque.go:101-129 `moveFrontInsert`, at most `N` rounds of the loop 123-127. -/
def moveFrontInsertB (N : Nat) (cfg : Cfg T) (d : Deq T) (seg pos : Int) (value : T) : Res (Deq T) := do
  let f ← firstSegment d
  let fid ← Res.ofOption f
  let fs ← load d fid
  let (d, seg, pos) ←
    if fs.full then do
      let d ← growIfFull d
      let (_, d) ← addFirst cfg d
      if pos = 0 then .ok (d, seg, (cfg.segCap : Int) - 1) else .ok (d, seg + 1, pos - 1)
    else
      if pos = 0 then .ok (d, seg - 1, (cfg.segCap : Int) - 1)
      else if seg ≠ 0 then .ok (d, seg, pos - 1) else .ok (d, seg, pos)
  let d ← within N seg.toNat (fwdLoop seg.toNat 0 d)
  insertSeg d seg pos value

/-- deque.go:132-147 `moveBackInsert`, at most `N` rounds of the loop 141-145. -/
def moveBackInsertB (N : Nat) (cfg : Cfg T) (d : Deq T) (seg pos : Int) (value : T) : Res (Deq T) := do
  let l ← lastSegment d
  let lid ← Res.ofOption l
  let ls ← load d lid
  let d ←
    if ls.full then do
      let d ← growIfFull d
      let (_, d) ← addLast cfg d
      .ok d
    else .ok d
  let d ← within N (segUsed d - 1 - seg).toNat (bwdLoop (segUsed d - 1 - seg).toNat (segUsed d - 1) d)
  insertSeg d seg pos value

/-- deque.go:75-99 `Insert`, at most `N` rounds of its loop. -/
def insertB (N : Nat) (cfg : Cfg T) (d : Deq T) (p : Int) (value : T) : Res (Deq T) :=
  if p < 0 ∨ p > d.size then .ok d else
  if p = 0 then pushFront cfg d value else
  if p = d.size then pushBack cfg d value else do
  let (seg, q) ← pos cfg d p
  let d ← if seg < segUsed d - seg then moveFrontInsertB N cfg d seg q value else moveBackInsertB N cfg d seg q value
  growIfFull { d with size := d.size + 1 }

/-- deque.go:222-246, at most `N` rounds of the loops 223-227 and 234-238. -/
def eraseShiftB (N : Nat) (cfg : Cfg T) (d : Deq T) (seg : Int) : Res (Deq T) :=
  if seg < d.size - seg - 1 then do
    let d ← within N seg.toNat (bwdLoop seg.toNat seg d)
    let f ← firstSegment d
    let fid ← Res.ofOption f
    let fs ← load d fid
    if fs.empty then do
      let d ← dropFirst d fid
      shrinkIfNeeded cfg d
    else .ok d
  else do
    let d ← within N (segUsed d - 1 - seg).toNat (fwdLoop (segUsed d - 1 - seg).toNat seg d)
    let l ← lastSegment d
    let lid ← Res.ofOption l
    let ls ← load d lid
    if ls.empty then do
      let i ← preIndex d d.end_
      let d ← dropLastSeg d lid i
      shrinkIfNeeded cfg d
    else .ok d

/-- deque.go:216-248 `EraseAt`, at most `N` rounds of its loop. -/
def eraseAtB (N : Nat) (cfg : Cfg T) (d : Deq T) (p : Int) : Res (Deq T) :=
  if p < 0 ∨ p ≥ d.size then .ok d else do
  let (seg, q) ← pos cfg d p
  let o ← segmentAt d seg
  let id ← Res.ofOption o
  let s ← load d id
  let s ← s.eraseAt q
  let d ← eraseShiftB N cfg (store d id s) seg
  .ok { d with size := d.size - 1 }

/-- deque.go:251-273 `EraseRange`, at most `N` rounds of the loops that move elements (258-260, 266-268); the loops that pop make `lastPos - firstPos`. -/
def eraseRangeB (N : Nat) (cfg : Cfg T) (d : Deq T) (firstPos lastPos : Int) : Res (Deq T) :=
  if firstPos < 0 ∨ firstPos ≥ lastPos ∨ lastPos > d.size then .ok d else
  let num := lastPos - firstPos
  if d.size - firstPos < lastPos then do
    let d ← within N (d.size - num - firstPos).toNat (moveDown cfg num (d.size - num - firstPos).toNat firstPos d)
    popBackN cfg num.toNat d
  else do
    let d ← within N (lastPos - num).toNat (moveUp cfg num (lastPos - num).toNat (lastPos - 1) d)
    popFrontN cfg num.toNat d

/-- Segments in front of position `p` and behind it: `s` is the segment of `p`, `u` the number of segments, `n` of elements. -/
theorem seg_counts (hg : cfg.Good) {d : Deq T} {U : List Nat} {L : List (List T)} (h : Rep cfg d U L) (hs : Shape cfg.segCap L) {p s q : Nat}
    (hsl : s < L.length) (hq : q < slen L s) (ho : off L s + q = p) :
    s ≤ p / cfg.segCap + 1 ∧ L.length - s ≤ (L.flatten.length - p) / cfg.segCap + 2 := by
  have hpos := hg.pos
  constructor
  · cases s with
    | zero => exact Nat.zero_le _
    | succ s =>
      have := hs.off' s hsl
      have : s ≤ p / cfg.segCap := (Nat.le_div_iff_mul_le hpos).2 (by omega)
      omega
  · by_cases c : s + 1 < L.length
    · have h1 := hs.off' s c
      have h2 := off_succ L s
      have h3 := hs.off' (L.length - 2) (by omega)
      have h4 := off_succ L (L.length - 1)
      have h5 := hs.ne (L.length - 1) (by omega)
      have h6 : off L (L.length - 1 + 1) = L.flatten.length := off_all L (by omega)
      have e1 : L.length - 2 + 1 = L.length - 1 := by omega
      rw [e1] at h3
      have e2 : (L.length - 2) * cfg.segCap = s * cfg.segCap + (L.length - 2 - s) * cfg.segCap := by
        rw [← Nat.add_mul]; congr 1; omega
      have : L.length - 2 - s ≤ (L.flatten.length - p) / cfg.segCap := (Nat.le_div_iff_mul_le hpos).2 (by omega)
      omega
    · exact Nat.le_trans (show L.length - s ≤ 2 by omega) (Nat.le_add_left _ _)

theorem moveFrontInsertB_eq {N : Nat} {d : Deq T} {seg pos : Int} (h : seg + 1 ≤ N) (v : T) :
    moveFrontInsertB N cfg d seg pos v = moveFrontInsert cfg d seg pos v := by
  have e0 : ∀ d' : Deq T, within N seg.toNat (fwdLoop seg.toNat 0 d') = fwdLoop seg.toNat 0 d' := fun _ => within_ok (by omega)
  have e1 : ∀ d' : Deq T, within N (seg + 1).toNat (fwdLoop (seg + 1).toNat 0 d') = fwdLoop (seg + 1).toNat 0 d' := fun _ => within_ok (by omega)
  have e2 : ∀ d' : Deq T, within N (seg - 1).toNat (fwdLoop (seg - 1).toNat 0 d') = fwdLoop (seg - 1).toNat 0 d' := fun _ => within_ok (by omega)
  unfold moveFrontInsertB moveFrontInsert
  cases firstSegment d <;> simp only [Res.ok_bind, Res.panic_bind, Res.outOfFuel_bind]
  rename_i f
  cases Res.ofOption f <;> simp only [Res.ok_bind, Res.panic_bind, Res.outOfFuel_bind]
  rename_i fid
  cases load d fid <;> simp only [Res.ok_bind, Res.panic_bind, Res.outOfFuel_bind]
  rename_i fs
  by_cases c : fs.full = true
  · simp only [c, if_true]
    cases growIfFull d <;> simp only [Res.ok_bind, Res.panic_bind, Res.outOfFuel_bind]
    rename_i d1
    cases addFirst cfg d1 <;> simp only [Res.ok_bind, Res.panic_bind, Res.outOfFuel_bind]
    by_cases c2 : pos = 0
    · simp only [c2, if_true, Res.ok_bind, e0]
    · simp only [c2, if_false, Res.ok_bind, e1]
  · simp only [c, if_false, Bool.false_eq_true]
    by_cases c2 : pos = 0
    · simp only [c2, if_true, Res.ok_bind, e2]
    · by_cases c3 : seg = 0
      · simp only [c2, c3, if_false, ne_eq, not_true, Res.ok_bind]
        rw [show within N (0 : Int).toNat (fwdLoop (0 : Int).toNat 0 d) = fwdLoop (0 : Int).toNat 0 d from within_ok (by omega)]
      · simp only [c2, c3, if_false, ne_eq, not_false_eq_true, if_true, Res.ok_bind, e0]

theorem moveBackInsertB_eq (hg : cfg.Good) {N : Nat} {d : Deq T} {U : List Nat} {L : List (List T)} (h : Rep cfg d U L) (hs : Shape cfg.segCap L)
    (hz : d.size = L.flatten.length) (hne : L ≠ []) {seg pos : Int} (hN : L.length - seg ≤ N) (v : T) :
    moveBackInsertB N cfg d seg pos v = moveBackInsert cfg d seg pos v := by
  have hz0 : ¬ d.size = 0 := by
    rw [DInv.size0 h hs hz]
    intro hU; have := h.len; rw [hU] at this; exact hne (List.length_eq_zero_iff.1 this.symm)
  have hu := segUsed_eq h.ring (DInv.size0 h hs hz)
  have hl := h.len
  unfold moveBackInsertB moveBackInsert
  cases lastSegment d <;> simp only [Res.ok_bind, Res.panic_bind, Res.outOfFuel_bind]
  rename_i f
  cases Res.ofOption f <;> simp only [Res.ok_bind, Res.panic_bind, Res.outOfFuel_bind]
  rename_i fid
  cases load d fid <;> simp only [Res.ok_bind, Res.panic_bind, Res.outOfFuel_bind]
  rename_i fs
  by_cases c : fs.full = true
  · simp only [c, if_true]
    obtain ⟨d1, e2, hm1, hr1, hlt1⟩ := growIfFull_spec h.ring (DInv.size0 h hs hz)
    have h1 := h.moved hm1 hr1
    obtain ⟨id2, d2, e3, h2, z2, -⟩ := h1.addLast hg hlt1
    simp only [e2, e3, Res.ok_bind]
    have hu2 := segUsed_eq h2.ring ⟨fun hh => absurd (by rw [← hm1.size, ← z2]; exact hh) hz0, fun hh => by simp at hh⟩
    rw [within_ok (by rw [hu2, List.length_append, List.length_singleton]; omega)]
  · simp only [c, if_false, Bool.false_eq_true, Res.ok_bind]
    rw [within_ok (by rw [hu]; omega)]

/-- **C92** `Insert` shifts from the nearer end: inserting at position `p` of a deque of `n` elements, one loop makes at most `min(p, n-p)/K + 2` rounds,
where `K` is the number of elements of a segment (128). -/
theorem C92_insert (hg : cfg.Good) {d : Deq T} (hr : Reachable cfg d) (p : Int) (v : T) {N : Nat}
    (hN : (min p (size d - p)).toNat / cfg.segCap + 2 ≤ N) : insertB N cfg d p v = insert cfg d p v := by
  obtain ⟨c, hd⟩ := hr.inv hg
  have hsz := hd.size
  unfold insertB insert
  split
  · rfl
  split
  · rfl
  split
  · rfl
  obtain ⟨L, ⟨U, h, hroom, hs, hz⟩, rfl⟩ := hd
  obtain ⟨n, rfl⟩ := Int.eq_ofNat_of_zero_le (show 0 ≤ p by omega)
  obtain ⟨s, q, e1, hsl, hq, ho⟩ := pos_spec hg h hs (p := n) (by omega)
  have hu := segUsed_eq h.ring (DInv.size0 h hs hz)
  have hl := h.len
  obtain ⟨b1, b2⟩ := seg_counts hg h hs hsl hq ho
  have hm : (min (n : Int) (size d - n)).toNat = min n (L.flatten.length - n) := by
    show (min (n : Int) (d.size - n)).toNat = _
    rw [hz]; omega
  rw [hm] at hN
  simp only [e1, Res.ok_bind]
  by_cases c4 : (s : Int) < segUsed d - s
  · rw [if_pos c4, if_pos c4, moveFrontInsertB_eq]
    rcases Nat.le_total n (L.flatten.length - n) with hle | hle
    · rw [Nat.min_eq_left hle] at hN; omega
    · rw [Nat.min_eq_right hle] at hN; omega
  · rw [if_neg c4, if_neg c4, moveBackInsertB_eq hg h hs hz (by rintro rfl; simp at hsl)]
    rcases Nat.le_total n (L.flatten.length - n) with hle | hle
    · rw [Nat.min_eq_left hle] at hN; omega
    · rw [Nat.min_eq_right hle] at hN; omega

/-- **C92** `EraseRange` moves the elements of the shorter side, one per round: `min(first, n-last)` rounds. -/
theorem C92_eraseRange {d : Deq T} (a b : Int) {N : Nat} (hN : min a (size d - b) ≤ N) : eraseRangeB N cfg d a b = eraseRange cfg d a b := by
  unfold eraseRangeB eraseRange
  have hN : min a (d.size - b) ≤ N := hN
  split
  · rfl
  · dsimp only
    split
    · rw [within_ok (by omega)]
    · rw [within_ok (by omega)]

/-- **C92, partial**: `EraseAt` makes at most `p/K + 1` rounds. Missing, and false (`C92_violated`): few rounds for positions near the back. -/
theorem C92_eraseAt_partial (hg : cfg.Good) {d : Deq T} (hr : Reachable cfg d) (p : Int) {N : Nat} (hN : p.toNat / cfg.segCap + 1 ≤ N) :
    eraseAtB N cfg d p = eraseAt cfg d p := by
  obtain ⟨c, hd⟩ := hr.inv hg
  have hsz := hd.size
  unfold eraseAtB eraseAt
  split
  · rfl
  obtain ⟨L, ⟨U, h, hroom, hs, hz⟩, rfl⟩ := hd
  obtain ⟨n, rfl⟩ := Int.eq_ofNat_of_zero_le (show 0 ≤ p by omega)
  obtain ⟨s, q, e1, hsl, hq, ho⟩ := pos_spec hg h hs (p := n) (by omega)
  have hu := segUsed_eq h.ring (DInv.size0 h hs hz)
  have hl := h.len
  obtain ⟨b1, b2⟩ := seg_counts hg h hs hsl hq ho
  rw [Int.toNat_natCast] at hN
  have hmany : L.length ≤ L.flatten.length := by
    have : ∀ k, k ≤ L.length → k ≤ off L k := by
      intro k
      induction k with
      | zero => omega
      | succ k ih =>
        intro hk
        have := ih (by omega)
        have := hs.ne k (by omega)
        rw [off_succ]; omega
    have := this L.length (Nat.le_refl _)
    rwa [off_all L (Nat.le_refl _)] at this
  have key : ∀ id sg, eraseShiftB N cfg (store d id sg) s = eraseShift cfg (store d id sg) s := by
    intro id sg
    unfold eraseShiftB eraseShift
    have hu1 : segUsed (store d id sg) = U.length := hu
    have hz1 : (store d id sg).size = L.flatten.length := hz
    split
    · rw [within_ok (by omega)]
    · next hc => rw [within_ok (by rw [hu1]; omega)]
  simp only [e1, Res.ok_bind, key]

/-- **C92 is false of `EraseAt`**: it compares the number of segments in front with the number of elements behind (deque.go:222), so it nearly always
shifts from the front. Erasing the last element of any deque of `n ≥ 4K` elements makes more than `N` rounds, for every `N` with `(N+1)·K < n`: one for
each segment. -/
theorem C92_violated (hg : cfg.Good) (hK : 4 ≤ cfg.segCap) {d : Deq T} (hr : Reachable cfg d) {N : Nat} (hbig : (4 * cfg.segCap : Int) ≤ size d)
    (hN : ((N + 1) * cfg.segCap : Int) < size d) : eraseAtB N cfg d (size d - 1) = .outOfFuel := by
  obtain ⟨c, hd⟩ := hr.inv hg
  have hsz := hd.size
  have hbig : (4 * cfg.segCap : Int) ≤ d.size := hbig
  have hN : ((N + 1) * cfg.segCap : Int) < d.size := hN
  show eraseAtB N cfg d (d.size - 1) = _
  unfold eraseAtB
  rw [if_neg (by omega)]
  obtain ⟨L, ⟨U, h, hroom, hs, hz⟩, rfl⟩ := hd
  obtain ⟨s, q, e1, hsl, hq, ho⟩ := pos_spec hg h hs (p := L.flatten.length - 1) (by omega)
  have hp : d.size - 1 = ((L.flatten.length - 1 : Nat) : Int) := by omega
  rw [hp, e1]
  simp only [Res.ok_bind]
  have hl : L[s]? = some L[s] := by simp
  generalize L[s] = l at hl
  obtain ⟨id, e2, hu⟩ := h.segmentAt hl
  obtain ⟨sg, e3, r3⟩ := h.load hu hl
  have hqK := h.slen_le s
  have hq' := hq
  rw [slen_eq hl] at hq'
  obtain ⟨sg', e4, r4⟩ := r3.eraseAt (p := (q : Int)) (by omega) (by omega)
  have hlast : s + 1 = L.length := by
    by_contra hne
    have h1 := off_succ L s
    have h2 := off_succ L (s + 1)
    have h3 := hs.ne (s + 1) (by omega)
    have h4 : off L (s + 1 + 1) ≤ L.flatten.length := by
      unfold off
      conv_rhs => rw [← List.take_append_drop (s + 1 + 1) L]
      rw [List.flatten_append, List.length_append]; omega
    omega
  have hcap : L.flatten.length ≤ L.length * cfg.segCap := by
    have h1 := off_le h s
    have h2 := h.slen_le 0
    rw [hlast, off_all L (Nat.le_refl _)] at h1
    rw [← hlast, Nat.succ_mul]; omega
  have hmin : s * 2 + 1 < L.flatten.length := by
    have h4 : 4 ≤ L.length := by
      by_contra hc
      have : L.length * cfg.segCap ≤ 3 * cfg.segCap := Nat.mul_le_mul_right _ (by omega)
      omega
    have h1 := hs.off' (s - 1) (by omega)
    have e : s - 1 + 1 = s := by omega
    rw [e] at h1
    have h2 : (s - 1) * 4 ≤ (s - 1) * cfg.segCap := Nat.mul_le_mul_left _ hK
    omega
  have hrounds : N < s := by
    have h1 : (N + 1) * cfg.segCap < L.flatten.length := by
      have : (((N + 1) * cfg.segCap : Nat) : Int) < L.flatten.length := by push_cast; omega
      exact_mod_cast this
    have h2 : (N + 1) * cfg.segCap < (s + 1) * cfg.segCap := by rw [hlast]; omega
    have := Nat.lt_of_mul_lt_mul_right h2
    omega
  simp only [e2, Res.ok_bind, Res.ofOption_some, e3, e4]
  have : eraseShiftB N cfg (store d id sg') (s : Int) = .outOfFuel := by
    unfold eraseShiftB
    have hz1 : (store d id sg').size = L.flatten.length := hz
    rw [if_pos (by omega), within_out (by omega)]; rfl
  rw [this]; rfl

/-! ## Non-vacuity -/

/-- Segments of four elements. -/
def fourCfg : Cfg Nat := { segCap := 4, zero := 0, scale12 := fun n => n * 6 / 5 }
theorem fourCfg_good : fourCfg.Good := ⟨by decide, fun n h => by simp only [fourCfg]; omega⟩

/-- A deque of 40 elements in eleven segments. -/
theorem four_deque : ∃ d, Reachable fourCfg d ∧ size d = 40 :=
  ⟨_, ⟨List.replicate 39 (.pushBack 7) ++ [.pushFront 8], _, rfl⟩, rfl⟩

/-- `C92_insert`: three rounds are enough to insert at position 36 of 40, with 9 segments in front. -/
example : ∃ d, Reachable fourCfg d ∧ insertB 3 fourCfg d 36 1 = insert fourCfg d 36 1 := by
  obtain ⟨d, h, hs⟩ := four_deque
  exact ⟨d, h, C92_insert fourCfg_good h 36 1 (by rw [hs]; decide)⟩

/-- `C92_violated`: eight rounds are not enough to erase the last of 40 elements. -/
example : ∃ d, Reachable fourCfg d ∧ eraseAtB 8 fourCfg d 39 = .outOfFuel := by
  obtain ⟨d, h, hs⟩ := four_deque
  have := C92_violated (N := 8) fourCfg_good (Nat.le_refl 4) h (by rw [hs]; decide) (by rw [hs]; decide)
  rw [hs] at this
  exact ⟨d, h, this⟩

/-- `C92_violated` applies to the real configuration. -/
example (d : Deq Nat) (h : Reachable (goCfg 0) d) (hs : size d = 12800) : eraseAtB 98 (goCfg 0) d 12799 = .outOfFuel := by
  have := C92_violated (N := 98) (goCfg_good 0) (by show 4 ≤ 128; decide) h (by rw [hs]; show ((4 * (128 : Nat) : Int)) ≤ 12800; decide)
    (by rw [hs]; show (((98 : Nat) + 1) * (128 : Nat) : Int) < 12800; decide)
  rw [hs] at this
  exact this

/-- `C92_eraseAt_partial`: three rounds are enough at position 8. -/
example : ∃ d, Reachable fourCfg d ∧ eraseAtB 3 fourCfg d 8 = eraseAt fourCfg d 8 := by
  obtain ⟨d, h, hs⟩ := four_deque
  exact ⟨d, h, C92_eraseAt_partial fourCfg_good h 8 (by decide)⟩

/-- `C92_eraseRange`: erasing [30, 38) of 40 moves two elements. -/
example : ∃ d, Reachable fourCfg d ∧ eraseRangeB 2 fourCfg d 30 38 = eraseRange fourCfg d 30 38 := by
  obtain ⟨d, h, hs⟩ := four_deque
  exact ⟨d, h, C92_eraseRange 30 38 (by rw [hs]; decide)⟩

end GoSTL.Deque
