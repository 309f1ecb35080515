import Verif.Deque.Ops1
/-!
# Inserting and erasing in the middle
-/
namespace GoSTL.Deque
variable {T : Type} {cfg : Cfg T}

/-- Insertion into one segment. Positions past its end act like its end. -/
theorem insertSeg_spec {d : Deq T} {U : List Nat} {L : List (List T)} (h : Rep cfg d U L) {t q q' : Nat} (ht : t < L.length)
    (hK : slen L t < cfg.segCap) (hq : q' = min q (slen L t)) (v : T) :
    ∃ d' L', insertSeg d (t : Int) (q : Int) v = .ok d' ∧ Rep cfg d' U L' ∧ Same d d' ∧ L'.length = L.length ∧
      L'.flatten = L.flatten.take (off L t + q') ++ v :: L.flatten.drop (off L t + q') ∧
      ∀ j, slen L' j = slen L j + (if j = t then 1 else 0) := by
  have hl : L[t]? = some L[t] := by simp
  generalize L[t] = l at hl
  rw [slen_eq hl] at hK hq
  obtain ⟨id, e1, hu⟩ := h.segmentAt hl
  obtain ⟨s, e2, r2⟩ := h.load hu hl
  obtain ⟨s', e3, r3⟩ := r2.insert hK (p := (q : Int)) (by omega) v
  have h2 := h.store hu r3
  have e4 : l.take (q : Int).toNat ++ v :: l.drop (q : Int).toNat = l.take q' ++ v :: l.drop q' := by
    rw [Int.toNat_natCast]
    by_cases c : q ≤ l.length
    · have : q' = q := by omega
      rw [this]
    · have : q' = l.length := by omega
      rw [this, List.take_of_length_le (by omega), List.drop_eq_nil_of_le (by omega)]; simp
  refine ⟨_, _, ?_, h2, .store _ _ _, by simp, ?_, ?_⟩
  · simp only [insertSeg, e1, Res.ok_bind, Res.ofOption_some, e2, e3]
  · rw [e4, flatten_insert hl (by omega)]
  · intro j
    rw [e4, slen_set ht]
    by_cases c : t = j
    · subst c; rw [if_pos rfl, if_pos rfl, slen_eq hl]; simp; omega
    · rw [if_neg c, if_neg (by omega)]; omega

/-- The state after shifting and inserting, ready for the final growth check. -/
def Inserted (cfg : Cfg T) (d : Deq T) (L : List (List T)) (p : Nat) (v : T) (d' : Deq T) : Prop :=
  ∃ U' L', Rep cfg d' U' L' ∧ Shape cfg.segCap L' ∧ d'.size = d.size ∧ L'.flatten = L.flatten.take p ++ v :: L.flatten.drop p

theorem moveFrontInsert_spec (hg : cfg.Good) {d : Deq T} {U : List Nat} {L : List (List T)} (h : Rep cfg d U L)
    (hs : Shape cfg.segCap L) (hz : d.size = L.flatten.length) {p s q : Nat} (hp : 0 < p) (hsl : s < L.length) (hq : q < slen L s)
    (ho : off L s + q = p) (v : T) :
    ∃ d', moveFrontInsert cfg d (s : Int) (q : Int) v = .ok d' ∧ Inserted cfg d L p v d' := by
  have hpos := hg.pos
  have hl := h.len
  cases hL : L with
  | nil => subst hL; simp at hsl
  | cons l0 L0 =>
    rw [← hL]
    have h0 : L[0]? = some l0 := by rw [hL]; rfl
    have es0 := slen_eq h0
    obtain ⟨id, hU⟩ := h.getU h0
    obtain ⟨sg, e1, r1⟩ := h.load hU h0
    have ef : firstSegment d = .ok (some id) := by rw [firstSegment_eq h.ring, List.head?_eq_getElem?, hU]
    have hqK := h.slen_le s
    have q0 : q = 0 → 1 ≤ s := by
      intro hq0
      rcases Nat.eq_zero_or_pos s with rfl | h
      · simp at ho; omega
      · exact h
    simp only [moveFrontInsert, ef, Res.ok_bind, Res.ofOption_some, e1, r1.full_iff]
    by_cases c : l0.length = cfg.segCap
    · obtain ⟨d1, e2, hm1, hr1, hlt1⟩ := growIfFull_spec h.ring (DInv.size0 h hs hz)
      have h1 := h.moved hm1 hr1
      obtain ⟨id2, d2, e3, h2, z2, -⟩ := h1.addFirst hg hlt1
      rw [if_pos (decide_eq_true c)]
      have hs1 : ∀ j, slen ([] :: L) (j + 1) = slen L j := slen_cons_succ [] L
      have hs10 : slen ([] :: L) 0 = 0 := by rw [slen_cons_zero]; rfl
      have hoff : ∀ k, off ([] :: L) (k + 1) = off L k := by intro k; simp [off]
      -- both sub-cases: shift `n` steps, insert into segment `n` at `q1`
      have key : ∀ n q1 : Nat, 1 ≤ n → n ≤ s + 1 → off L n + min q1 (slen L (n - 1) - 1) + 1 = p + slen L (n - 1) →
          ∃ d', (do
            let d ← fwdLoop ((n : Int)).toNat 0 d2
            insertSeg d (n : Int) (q1 : Int) v) = .ok d' ∧ Inserted cfg d L p v d' := by
        intro n q1 hn1 hns hop
        obtain ⟨m, rfl⟩ : ∃ m, n = m + 1 := ⟨n - 1, by omega⟩
        simp only [Nat.add_sub_cancel] at hop
        have hmne := hs.ne m (by omega)
        obtain ⟨d3, L3, e5, h3, sm3, f3, l3, c3⟩ := fwdLoop_spec (m + 1) 0 d2 _ _ h2 (by simp; omega) (by rw [hs10]; exact hpos)
          (by
            intro j hj1 hj2
            obtain ⟨k, rfl⟩ : ∃ k, j = k + 1 := ⟨j - 1, by omega⟩
            rw [hs1]; exact hs.ne k (by omega))
        have hsn : slen L3 (m + 1) = slen L m - 1 := by
          have := c3 (m + 1); rw [if_pos (by omega), if_neg (by omega), hs1] at this; omega
        have hon : off L3 (m + 1) = off L m + 1 := by
          have := off_shift c3 (m + 1)
          rw [if_neg (by omega), if_pos (by omega), hoff] at this
          omega
        have hsK := h.slen_le m
        obtain ⟨d4, L4, e6, h4, sm4, l4, f4, c4⟩ := insertSeg_spec h3 (t := m + 1) (q := q1) (by rw [l3]; simp; omega)
          (by rw [hsn]; omega) rfl v
        refine ⟨d4, ?_, _, L4, h4, ?_, ?_, ?_⟩
        · simp only [Int.toNat_natCast]
          have e5' : fwdLoop (m + 1) 0 d2 = .ok d3 := e5
          rw [e5']; exact e6
        · have hsj : ∀ j, slen L4 j = if j = 0 then 1 else slen L (j - 1) := by
            intro j
            have h1 := c3 j
            have h2 := c4 j
            cases j with
            | zero => rw [hs10, if_neg (by omega), if_pos rfl] at h1; rw [if_neg (by omega)] at h2; rw [if_pos rfl]; omega
            | succ j =>
              rw [hs1, if_neg (show ¬ j + 1 = 0 by omega)] at h1
              simp only [Nat.add_sub_cancel]
              rw [if_neg (show ¬ j + 1 = 0 by omega)]
              by_cases cj : j = m
              · subst cj; rw [if_pos (by omega)] at h1; rw [if_pos rfl] at h2; omega
              · rw [if_neg (by omega)] at h1; rw [if_neg (by omega)] at h2; omega
          refine ⟨fun i hi => ?_, fun i hi0 hi => ?_⟩
          · rw [hsj]; split
            · exact Nat.le_refl _
            · exact hs.ne _ (by rw [l4, l3] at hi; simp at hi; omega)
          · rw [hsj, if_neg (by omega)]
            rw [l4, l3] at hi; simp at hi
            rcases Nat.eq_zero_or_pos (i - 1) with h | h
            · rw [h, es0]; exact c
            · exact hs.mid _ h (by omega)
        · rw [sm4.size, sm3.size, z2, hm1.size]
        · have ho4 : off L3 (m + 1) + min q1 (slen L3 (m + 1)) = p := by
            rw [hon, hsn]
            have := off_succ L m
            omega
          rw [f4, ho4, f3]; simp
      by_cases cq : q = 0
      · have hs1 := q0 cq
        have hsm : slen L (s - 1) = cfg.segCap := by
          rcases Nat.eq_zero_or_pos (s - 1) with h | h
          · rw [h, es0]; exact c
          · exact hs.mid _ h (by omega)
        obtain ⟨d', e7, h7⟩ := key s (cfg.segCap - 1) hs1 (by omega) (by rw [hsm]; omega)
        refine ⟨d', ?_, h7⟩
        have : (q : Int) = 0 := by omega
        have ek : (cfg.segCap : Int) - 1 = ((cfg.segCap - 1 : Nat) : Int) := by omega
        simp only [e2, e3, Res.ok_bind, if_pos this, ek]
        exact e7
      · obtain ⟨d', e7, h7⟩ := key (s + 1) (q - 1) (by omega) (by omega) (by
          rw [off_succ, Nat.add_sub_cancel]; omega)
        refine ⟨d', ?_, h7⟩
        have : ¬ (q : Int) = 0 := by omega
        have ek : (q : Int) - 1 = ((q - 1 : Nat) : Int) := by omega
        have ek2 : (s : Int) + 1 = ((s + 1 : Nat) : Int) := by omega
        simp only [e2, e3, Res.ok_bind, if_neg this, ek, ek2]
        exact e7
    · have hl0 : l0.length < cfg.segCap := by have := h.slen_le 0; omega
      rw [if_neg (by simpa using c)]
      have key : ∀ n q1 : Nat, n < L.length → (∃ q2, off L n + (if 0 < n then 1 else 0) + q2 = p ∧
            q2 = min q1 (slen L n - (if 0 < n then 1 else 0))) →
          ∃ d', (do
            let d ← fwdLoop ((n : Int)).toNat 0 d
            insertSeg d (n : Int) (q1 : Int) v) = .ok d' ∧ Inserted cfg d L p v d' := by
        intro n q1 hn ⟨q2, hop, hq2⟩
        obtain ⟨d3, L3, e5, h3, sm3, f3, l3, c3⟩ := fwdLoop_spec n 0 d _ _ h (by omega) (by omega)
          (fun j hj1 hj2 => hs.ne j (by omega))
        have hnne := hs.ne n hn
        have hsn : slen L3 n = slen L n - (if 0 < n then 1 else 0) := by
          have := c3 n
          rw [if_pos (by omega)] at this
          split_ifs at this ⊢ <;> omega
        have hon : off L3 n = off L n + (if 0 < n then 1 else 0) := by
          have := off_shift c3 n
          rw [if_neg (by omega)] at this
          omega
        have hsK := h.slen_le n
        obtain ⟨d4, L4, e6, h4, sm4, l4, f4, c4⟩ := insertSeg_spec h3 (t := n) (q := q1) (by rw [l3]; exact hn)
          (by
            rw [hsn]
            rcases Nat.eq_zero_or_pos n with h | h
            · subst h; simp; omega
            · rw [if_pos h]; omega) rfl v
        refine ⟨d4, ?_, _, L4, h4, ?_, ?_, ?_⟩
        · simp only [Int.toNat_natCast]
          have e5' : fwdLoop n 0 d = .ok d3 := e5
          rw [e5']; exact e6
        · have hsj : ∀ j, slen L4 j = slen L j + if j = 0 then 1 else 0 := by
            intro j
            have h1 := c3 j
            have h2 := c4 j
            split_ifs at h1 h2 ⊢ <;> omega
          refine ⟨fun i hi => ?_, fun i hi0 hi => ?_⟩
          · rw [hsj]
            have := hs.ne i (by omega)
            omega
          · rw [hsj, if_neg (by omega)]
            exact hs.mid i hi0 (by omega)
        · rw [sm4.size, sm3.size]
        · have ho4 : off L3 n + min q1 (slen L3 n) = p := by rw [hon, hsn]; omega
          rw [f4, ho4, f3]
      by_cases cq : q = 0
      · have hs1 := q0 cq
        obtain ⟨t, rfl⟩ : ∃ t, s = t + 1 := ⟨s - 1, by omega⟩
        have hK := h.slen_le t
        have htne := hs.ne t (by omega)
        obtain ⟨d', e7, h7⟩ := key t (cfg.segCap - 1) (by omega) ⟨slen L t - (if 0 < t then 1 else 0), by
            rw [off_succ] at ho
            split <;> omega, by
            rcases Nat.eq_zero_or_pos t with h | h
            · subst h; simp; omega
            · rw [if_pos h]; omega⟩
        refine ⟨d', ?_, h7⟩
        have : (q : Int) = 0 := by omega
        have ek : (cfg.segCap : Int) - 1 = ((cfg.segCap - 1 : Nat) : Int) := by omega
        have ek2 : ((t + 1 : Nat) : Int) - 1 = (t : Int) := by omega
        simp only [Res.ok_bind, if_pos this, ek, ek2]
        exact e7
      · have cq' : ¬ (q : Int) = 0 := by omega
        by_cases cs : s = 0
        · subst cs
          obtain ⟨d', e7, h7⟩ := key 0 q (by omega) ⟨q, by simpa using ho, by simp; omega⟩
          refine ⟨d', ?_, h7⟩
          simp only [Res.ok_bind, if_neg cq']
          exact e7
        · obtain ⟨d', e7, h7⟩ := key s (q - 1) (by omega) ⟨q - 1, by rw [if_pos (by omega)]; omega, by rw [if_pos (by omega)]; omega⟩
          refine ⟨d', ?_, h7⟩
          have ek : (q : Int) - 1 = ((q - 1 : Nat) : Int) := by omega
          have cs' : (s : Int) ≠ 0 := by omega
          simp only [Res.ok_bind, if_neg cq', if_pos cs', ek]
          exact e7

theorem moveBackInsert_spec (hg : cfg.Good) {d : Deq T} {U : List Nat} {L : List (List T)} (h : Rep cfg d U L)
    (hs : Shape cfg.segCap L) (hz : d.size = L.flatten.length) {p s q : Nat} (hs1 : 1 ≤ s) (hsl : s < L.length) (hq : q < slen L s)
    (ho : off L s + q = p) (v : T) :
    ∃ d', moveBackInsert cfg d (s : Int) (q : Int) v = .ok d' ∧ Inserted cfg d L p v d' := by
  have hpos := hg.pos
  have hl := h.len
  rcases List.eq_nil_or_concat L with rfl | ⟨L0, l, eL⟩
  · simp at hsl
  · rw [List.concat_eq_append] at eL
    have hLl : L.length = L0.length + 1 := by rw [eL]; simp
    obtain ⟨U0, id, eU, hU0⟩ := (eL ▸ h).last
    have hU : U[L0.length]? = some id := by rw [eU, List.getElem?_append_right (by omega), hU0]; simp
    have hL : L[L0.length]? = some l := by rw [eL]; simp
    have esl := slen_eq hL
    obtain ⟨sg, e1, r1⟩ := h.load hU hL
    have hlK := h.slen_le L0.length
    have hsK := h.slen_le s
    have ef : lastSegment d = .ok (some id) := by rw [lastSegment_eq h.ring, eU]; simp
    have hUne : U ≠ [] := by rw [eU]; simp
    have hz0 : ¬ d.size = 0 := by rw [DInv.size0 h hs hz]; exact hUne
    simp only [moveBackInsert, ef, Res.ok_bind, Res.ofOption_some, e1, r1.full_iff]
    -- both cases: shift from segment `m` down to `s`, insert into `s` at `q`
    have key : ∀ (d2 : Deq T) (U2 : List Nat) (L2 : List (List T)) (m : Nat), Rep cfg d2 U2 L2 → d2.size = d.size →
        L2.length = m + 1 → s ≤ m → m ≤ L.length → slen L2 m < cfg.segCap → L2.flatten = L.flatten →
        (∀ j, j < m → slen L2 j = slen L j ∧ (0 < j → slen L2 j = cfg.segCap)) → slen L s ≤ slen L2 s → off L2 s = off L s → slen L2 0 = slen L 0 →
        ∃ d', (do
          let d ← bwdLoop (segUsed d2 - 1 - (s : Int)).toNat (segUsed d2 - 1) d2
          insertSeg d (s : Int) (q : Int) v) = .ok d' ∧ Inserted cfg d L p v d' := by
      intro d2 U2 L2 m h2 z2 l2 hsm hm hK hf hsame hle hoff h00
      have hU2 : U2.length = m + 1 := by rw [h2.len, l2]
      have hu := segUsed_eq h2.ring (by
        rw [z2]; constructor
        · intro h; exact absurd h hz0
        · intro h; rw [h] at hU2; simp at hU2)
      obtain ⟨d3, L3, e5, h3, sm3, f3, l3, c3⟩ := bwdLoop_spec (m - s) m d2 _ _ h2 (by omega) (by omega) hK
        (by
          intro j hj1 hj2
          rw [(hsame j hj2).1]; exact hs.ne j (by omega))
      have emn : m - (m - s) = s := by omega
      rw [emn] at c3
      have hsn : slen L3 s + 1 = slen L2 s + (if s = m then 1 else 0) := by
        have := c3 s; rw [if_pos rfl] at this; exact this
      have hon : off L3 s = off L s := by
        have := off_shift c3 s
        rw [if_neg (by omega), if_neg (by omega)] at this
        omega
      have hs2K := h2.slen_le s
      obtain ⟨d4, L4, e6, h4, sm4, l4, f4, c4⟩ := insertSeg_spec h3 (t := s) (q := q) (by rw [l3]; omega)
        (by split_ifs at hsn with c
            · subst c; omega
            · omega) rfl v
      refine ⟨d4, ?_, _, L4, h4, ?_, ?_, ?_⟩
      · have e7 : (segUsed d2 - 1 - (s : Int)).toNat = m - s := by omega
        have e8 : segUsed d2 - 1 = (m : Int) := by omega
        rw [e7, e8, e5]; exact e6
      · have hsj : ∀ j, slen L4 j = slen L2 j + if j = m then 1 else 0 := by
          intro j
          have h1 := c3 j
          have h2 := c4 j
          split_ifs at h1 h2 ⊢ <;> omega
        refine ⟨fun i hi => ?_, fun i hi0 hi => ?_⟩
        · rw [hsj]
          by_cases c : i = m
          · rw [if_pos c]; omega
          · rw [(hsame i (by omega)).1]
            have := hs.ne i (by omega)
            omega
        · rw [hsj, if_neg (by omega), (hsame i (by omega)).2 hi0]; rfl
      · rw [sm4.size, sm3.size, z2]
      · have ho4 : off L3 s + min q (slen L3 s) = p := by
          rw [hon]; split_ifs at hsn <;> omega
        rw [f4, ho4, f3, hf]
    by_cases c : l.length = cfg.segCap
    · obtain ⟨d1, e2, hm1, hr1, hlt1⟩ := growIfFull_spec h.ring (DInv.size0 h hs hz)
      have h1 := h.moved hm1 hr1
      obtain ⟨id2, d2, e3, h2, z2, -⟩ := h1.addLast hg hlt1
      have hsn : ∀ j, j < L.length → slen (L ++ [[]]) j = slen L j := by
        intro j hj; rw [slen_snoc, if_neg (by omega)]
      obtain ⟨d', e7, h7⟩ := key d2 _ _ L.length h2 (z2.trans hm1.size) (by simp) (by omega) (Nat.le_refl _)
        (by rw [slen_snoc, if_pos rfl]; exact hpos) (by simp) (fun j hj => ⟨hsn j hj, fun hj0 => by
            rw [hsn j hj]
            by_cases c2 : j = L0.length
            · rw [c2, esl]; exact c
            · exact hs.mid j hj0 (by omega)⟩) (by rw [hsn s hsl]; omega) (by
            unfold off; rw [List.take_append_of_le_length (by omega)]) (hsn 0 (by omega))
      refine ⟨d', ?_, h7⟩
      rw [if_pos (decide_eq_true c)]
      simp only [e2, e3, Res.ok_bind]
      exact e7
    · have hlast : slen L L0.length < cfg.segCap := by omega
      obtain ⟨d', e7, h7⟩ := key d U L L0.length h rfl hLl (by omega) (by omega) hlast rfl
        (fun j hj => ⟨rfl, fun hj0 => hs.mid j hj0 (by omega)⟩) (by omega) rfl rfl
      refine ⟨d', ?_, h7⟩
      rw [if_neg (by simpa using c)]
      exact e7

theorem insert_spec (hg : cfg.Good) {d : Deq T} {c : List T} (hd : Inv cfg d c) (p : Int) (v : T) :
    ∃ d', insert cfg d p v = .ok d' ∧
      Inv cfg d' (if p < 0 ∨ p > c.length then c else c.take p.toNat ++ v :: c.drop p.toNat) := by
  have hsz := hd.size
  unfold Deque.insert
  by_cases c1 : p < 0 ∨ p > (c.length : Int)
  · rw [if_pos (by omega), if_pos c1]; exact ⟨d, rfl, hd⟩
  · rw [if_neg (by omega), if_neg c1]
    by_cases c2 : p = 0
    · rw [if_pos c2]
      obtain ⟨d', e, h⟩ := pushFront_spec hg hd v
      exact ⟨d', e, by simpa [c2] using h⟩
    · rw [if_neg c2]
      by_cases c3 : p = d.size
      · rw [if_pos c3]
        obtain ⟨d', e, h⟩ := pushBack_spec hg hd v
        refine ⟨d', e, ?_⟩
        have : p.toNat = c.length := by omega
        rw [this, List.take_length, List.drop_length]; exact h
      · rw [if_neg c3]
        obtain ⟨L, ⟨U, h, hroom, hs, hz⟩, rfl⟩ := hd
        obtain ⟨n, rfl⟩ := Int.eq_ofNat_of_zero_le (show 0 ≤ p by omega)
        obtain ⟨s, q, e1, hsl, hq, ho⟩ := pos_spec hg h hs (p := n) (by omega)
        have hu := segUsed_eq h.ring (DInv.size0 h hs hz)
        have hl := h.len
        have : ∃ d1, (if (s : Int) < segUsed d - s then moveFrontInsert cfg d s q v else moveBackInsert cfg d s q v) = .ok d1 ∧
            Inserted cfg d L n v d1 := by
          by_cases c4 : (s : Int) < segUsed d - s
          · rw [if_pos c4]; exact moveFrontInsert_spec hg h hs hz (by omega) hsl hq ho v
          · rw [if_neg c4]; exact moveBackInsert_spec hg h hs hz (by omega) hsl hq ho v
        obtain ⟨d1, e2, U1, L1, h1, hs1, z1, f1⟩ := this
        obtain ⟨d', e3, h3⟩ := finish_grow h1 hs1 (by
          rw [f1, z1, hz]; simp; omega)
        refine ⟨d', ?_, L1, h3, f1⟩
        simp only [e1, Res.ok_bind]
        split
        · next c4 => rw [if_pos c4] at e2; rw [e2]; exact e3
        · next c4 => rw [if_neg c4] at e2; rw [e2]; exact e3

theorem segUsed_or {d : Deq T} {U : List Nat} (h : RingOf d U) (hz : ¬ d.size = 0) :
    segUsed d = U.length ∨ segUsed d = d.segs.length := by
  by_cases c : U = []
  · right
    subst c
    unfold segUsed
    rw [if_neg hz]
    have he := h.end_
    have hb := h.beg
    unfold ring at he
    simp only [List.length_nil] at he
    split at he <;> split <;> omega
  · left; exact segUsed_eq h ⟨fun h => absurd h hz, fun h => absurd h c⟩

theorem eraseAt_spec (hg : cfg.Good) {d : Deq T} {c : List T} (hd : Inv cfg d c) (p : Int) :
    ∃ d', eraseAt cfg d p = .ok d' ∧ Inv cfg d' (if p < 0 ∨ p ≥ c.length then c else c.eraseIdx p.toNat) := by
  have hsz := hd.size
  unfold Deque.eraseAt
  by_cases c1 : p < 0 ∨ p ≥ (c.length : Int)
  · rw [if_pos (by omega), if_pos c1]; exact ⟨d, rfl, hd⟩
  · rw [if_neg (by omega), if_neg c1]
    obtain ⟨L, ⟨U, h, hroom, hs, hz⟩, rfl⟩ := hd
    obtain ⟨n, rfl⟩ := Int.eq_ofNat_of_zero_le (show 0 ≤ p by omega)
    obtain ⟨s, q, e1, hsl, hq, ho⟩ := pos_spec hg h hs (p := n) (by omega)
    have hl : L[s]? = some L[s] := by simp
    generalize L[s] = l at hl
    obtain ⟨id, e2, hu⟩ := h.segmentAt hl
    obtain ⟨sg, e3, r3⟩ := h.load hu hl
    have hqK := h.slen_le s
    have hq' := hq
    rw [slen_eq hl] at hq'
    obtain ⟨sg', e4, r4⟩ := r3.eraseAt (p := (q : Int)) (by omega) (by omega)
    rw [Int.toNat_natCast] at r4
    have h1 := h.store hu r4
    have hz0 : ¬ d.size = 0 := by omega
    have hUl := h.len
    have hu1 : segUsed (Deque.store d id sg') = U.length := by
      have : segUsed (Deque.store d id sg') = segUsed d := rfl
      rw [this]; exact segUsed_eq h.ring (DInv.size0 h hs hz)
    have hsl1 : ∀ j, slen (L.set s (l.eraseIdx q)) j + (if j = s then 1 else 0) = slen L j := by
      intro j
      rw [slen_set hsl]
      by_cases c : s = j
      · subst c; rw [if_pos rfl, if_pos rfl, slen_eq hl, List.length_eraseIdx]; rw [if_pos hq']; omega
      · rw [if_neg c, if_neg (by omega)]; rfl
    have hf1 := flatten_erase hl hq'
    rw [ho] at hf1
    have hroom1 : U.length < d.segs.length := by rcases hroom with h | h <;> omega
    have hlen1 : (L.flatten.eraseIdx n).length = L.flatten.length - 1 := by rw [List.length_eraseIdx, if_pos (by omega)]
    have main : ∃ d1 L1, eraseShift cfg (Deque.store d id sg') (s : Int) = .ok d1 ∧ (∃ U1, Rep cfg d1 U1 L1 ∧ Room d1 U1) ∧ Shape cfg.segCap L1 ∧ d1.size = d.size ∧ L1.flatten = L.flatten.eraseIdx n := by
      unfold eraseShift
      by_cases c4 : (s : Int) < (Deque.store d id sg').size - s - 1
      · rw [if_pos c4]
        obtain ⟨d3, L3, e5, h3, sm3, f3, l3, c3⟩ := bwdLoop_spec s s _ _ _ h1 (by simpa using hsl) (Nat.le_refl _)
          (by have := hsl1 s; rw [if_pos rfl] at this; omega)
          (by
            intro j hj1 hj2
            have := hsl1 j; rw [if_neg (by omega)] at this
            rw [show slen (L.set s (l.eraseIdx q)) j = slen L j by omega]
            exact hs.ne j (by omega))
        have hL3 : ∀ j, slen L3 j + (if j = 0 then 1 else 0) = slen L j := by
          intro j
          have ha := c3 j
          have hb := hsl1 j
          rw [Nat.sub_self] at ha
          split_ifs at ha hb ⊢ <;> omega
        have l3' : L3.length = L.length := by rw [l3]; simp
        cases hL3c : L3 with
        | nil => rw [hL3c] at l3'; simp at l3'; omega
        | cons x X =>
          rw [hL3c] at h3 hL3 f3 l3'
          simp only [List.length_cons] at l3'
          obtain ⟨fid, V, rfl, hV⟩ := h3.head
          obtain ⟨fs, e6, r6⟩ := h3.load (i := 0) (id := fid) rfl (show (x :: X)[0]? = some x from rfl)
          have eF : firstSegment d3 = .ok (some fid) := by rw [firstSegment_eq h3.ring]; rfl
          simp only [Int.toNat_natCast, e5, eF, Res.ok_bind, Res.ofOption_some, e6, r6.empty_iff]
          have hx := hL3 0
          rw [slen_cons_zero, if_pos rfl] at hx
          have hX : ∀ j, slen X j = slen L (j + 1) := by
            intro j; have := hL3 (j + 1); rw [slen_cons_succ, if_neg (by omega)] at this; exact this
          by_cases c5 : x = []
          · subst c5
            obtain ⟨d4, e7, h7, z7, g7⟩ := h3.dropFirst
            have hz4 : ¬ d4.size = 0 := by rw [z7, sm3.size]; exact hz0
            have hV' : V.length < d4.segs.length := by
              rw [g7, sm3.segs]
              simp only [List.length_cons] at hroom1
              show V.length < d.segs.length
              omega
            obtain ⟨d5, e8, hm8, hr8, hro8⟩ := shrink_spec hg h7.ring (.inl hV') (segUsed_or h7.ring hz4)
            refine ⟨d5, X, ?_, ⟨V, h7.moved hm8 hr8, hro8⟩, ⟨?_, ?_⟩, ?_, ?_⟩
            · rw [if_pos (by simp), e7]; exact e8
            · intro i hi; rw [hX]; exact hs.ne _ (by omega)
            · intro i h0 hi; rw [hX]; exact hs.mid _ (by omega) (by omega)
            · rw [hm8.size, z7, sm3.size]; rfl
            · rw [← hf1, ← f3]; simp
          · refine ⟨d3, x :: X, ?_, ⟨_, h3, ?_⟩, ⟨?_, ?_⟩, ?_, ?_⟩
            · rw [if_neg (by simpa using c5)]
            · left; rw [sm3.segs]; exact hroom1
            · intro i hi
              cases i with
              | zero => rw [slen_cons_zero]; cases x with | nil => exact absurd rfl c5 | cons _ _ => simp
              | succ i => rw [slen_cons_succ, hX]; exact hs.ne _ (by simp at hi; omega)
            · intro i h0 hi
              cases i with
              | zero => omega
              | succ i => rw [slen_cons_succ, hX]; exact hs.mid _ (by omega) (by simp at hi; omega)
            · rw [sm3.size]; rfl
            · rw [← hf1, ← f3]
      · rw [if_neg c4]
        have e0 : (segUsed (Deque.store d id sg') - 1 - (s : Int)).toNat = L.length - 1 - s := by rw [hu1]; omega
        rw [e0]
        obtain ⟨d3, L3, e5, h3, sm3, f3, l3, c3⟩ := fwdLoop_spec (L.length - 1 - s) s _ _ _ h1 (by simp; omega)
          (by have := hsl1 s; rw [if_pos rfl] at this; omega)
          (by
            intro j hj1 hj2
            have := hsl1 j; rw [if_neg (by omega)] at this
            rw [show slen (L.set s (l.eraseIdx q)) j = slen L j by omega]
            exact hs.ne j (by omega))
        have hL3 : ∀ j, slen L3 j + (if j = L.length - 1 then 1 else 0) = slen L j := by
          intro j
          have ha := c3 j
          have hb := hsl1 j
          split_ifs at ha hb ⊢ <;> omega
        have l3' : L3.length = L.length := by rw [l3]; simp
        rcases List.eq_nil_or_concat L3 with rfl | ⟨X, x, eL3⟩
        · simp at l3'; omega
        · rw [List.concat_eq_append] at eL3
          rw [eL3] at h3 hL3 f3 l3'
          simp only [List.length_append, List.length_singleton] at l3'
          obtain ⟨V, lid, rfl, hV⟩ := h3.last
          have hU3 : (V ++ [lid])[X.length]? = some lid := by rw [List.getElem?_append_right (by omega), hV]; simp
          obtain ⟨fs, e6, r6⟩ := h3.load hU3 (show (X ++ [x])[X.length]? = some x by simp)
          have eF : lastSegment d3 = .ok (some lid) := by rw [lastSegment_eq h3.ring]; simp
          simp only [e5, eF, Res.ok_bind, Res.ofOption_some, e6, r6.empty_iff]
          have hX : ∀ j, j < X.length → slen X j = slen L j := by
            intro j hj; have := hL3 j
            rw [slen_snoc, if_neg (by omega), if_neg (by omega)] at this; exact this
          by_cases c5 : x = []
          · subst c5
            obtain ⟨e', p1, p2, d4, e7, h7, z7, g7⟩ := h3.dropLastSeg
            have hz4 : ¬ d4.size = 0 := by rw [z7, sm3.size]; exact hz0
            have hV' : V.length < d4.segs.length := by
              rw [g7, sm3.segs]
              simp only [List.length_append, List.length_singleton] at hroom1
              show V.length < d.segs.length
              omega
            obtain ⟨d5, e8, hm8, hr8, hro8⟩ := shrink_spec hg h7.ring (.inl hV') (segUsed_or h7.ring hz4)
            refine ⟨d5, X, ?_, ⟨V, h7.moved hm8 hr8, hro8⟩, ⟨?_, ?_⟩, ?_, ?_⟩
            · rw [if_pos (by simp)]; simp only [p1, Res.ok_bind, e7]; exact e8
            · intro i hi; rw [hX i hi]; exact hs.ne _ (by omega)
            · intro i h0 hi; rw [hX i (by omega)]; exact hs.mid _ (by omega) (by omega)
            · rw [hm8.size, z7, sm3.size]; rfl
            · rw [← hf1, ← f3]; simp
          · refine ⟨d3, X ++ [x], ?_, ⟨_, h3, ?_⟩, ⟨?_, ?_⟩, ?_, ?_⟩
            · rw [if_neg (by simpa using c5)]
            · left; rw [sm3.segs]; exact hroom1
            · intro i hi
              rw [slen_snoc]
              split
              · cases x with | nil => exact absurd rfl c5 | cons _ _ => simp
              · simp at hi; rw [hX _ (by omega)]; exact hs.ne _ (by omega)
            · intro i h0 hi
              simp at hi
              rw [slen_snoc, if_neg (by omega), hX _ (by omega)]; exact hs.mid _ (by omega) (by omega)
            · rw [sm3.size]; rfl
            · rw [← hf1, ← f3]
    obtain ⟨d1, L1, e5, ⟨U1, h5, ro5⟩, s5, z5, f5⟩ := main
    refine ⟨{ d1 with size := d1.size - 1 }, ?_, L1, ⟨U1, h5.resize _, by simpa [Room] using ro5, s5, ?_⟩, ?_⟩
    · simp only [e1, e2, Res.ok_bind, Res.ofOption_some, e3, e4, e5]
    · rw [f5, hlen1]; simp only [z5]; omega
    · rw [f5]; rfl

end GoSTL.Deque
