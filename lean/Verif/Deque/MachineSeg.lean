import Verif.Deque.Machine
/-!
# C106 for the segments of a deque
-/
namespace GoSTL.Deque
variable {T α β : Type}

/-- The same result, and `P` of it if there is one. -/
def Eqv (P : α → Prop) (p q : Res α) : Prop := p = q ∧ ∀ a, q = .ok a → P a

theorem Eqv.bind {P : α → Prop} {Q : β → Prop} {p q : Res α} {f g : α → Res β} (h : Eqv P p q) (hf : ∀ a, P a → Eqv Q (f a) (g a)) :
    Eqv Q (p >>= f) (q >>= g) := by
  obtain ⟨rfl, h⟩ := h
  cases p with
  | ok a => exact hf a (h a rfl)
  | panic => exact ⟨rfl, fun _ e => by cases e⟩
  | outOfFuel => exact ⟨rfl, fun _ e => by cases e⟩

theorem Eqv.ok {P : α → Prop} {a : α} (h : P a) : Eqv P (.ok a) (.ok a) := ⟨rfl, fun _ e => by cases e; exact h⟩
theorem Eqv.panic {P : α → Prop} : Eqv P (.panic : Res α) .panic := ⟨rfl, fun _ e => by cases e⟩
theorem Eqv.mono {P Q : α → Prop} {p q : Res α} (h : Eqv P p q) (hi : ∀ a, P a → Q a) : Eqv Q p q := ⟨h.1, fun a e => hi a (h.2 a e)⟩

theorem Eqv.upd (l : List α) (i : Nat) (v : α) : Eqv (fun l' => i < l.length ∧ l' = l.set i v) (upd l i v) (upd l i v) := by
  unfold Deque.upd
  split
  · next h => exact .ok ⟨h, rfl⟩
  · exact .panic

theorem Eqv.idx (l : List α) (i : Nat) : Eqv (fun x => i < l.length ∧ x ∈ l) (idx l i) (idx l i) := by
  refine ⟨rfl, fun a e => ?_⟩
  unfold Deque.idx at e
  cases h : l[i]? with
  | none => rw [h] at e; cases e
  | some x => rw [h] at e; cases e; exact ⟨(List.getElem?_eq_some_iff.1 h).1, List.mem_of_getElem? h⟩

theorem Eqv.ofOption (o : Option α) : Eqv (fun x => o = some x) (Res.ofOption o) (Res.ofOption o) := by
  cases o with
  | none => exact .panic
  | some x => exact .ok rfl

theorem modM_nat {a c : Nat} {x : Int} (h : x = a) : Eqv (fun j => j < c) (modM x c) (modG a c) := by
  subst h
  unfold modM modG
  split
  · exact .panic
  · next hc =>
    have e : (a : Int).tmod c = ((a % c : Nat) : Int) := by
      rw [Int.tmod_eq_emod_of_nonneg (by omega)]; rfl
    rw [e, if_neg (by omega), Int.toNat_natCast]
    exact .ok (Nat.mod_lt _ (by omega))

theorem modM_pre {i c : Nat} (hi : i ≤ 2 ^ 60) (hc : c ≤ 2 ^ 60) : Eqv (fun j => j < c) (modM (int64 (int64 ((i : Int) - 1) + c)) c) (modG (i + c - 1) c) := by
  by_cases h : c = 0
  · unfold modM modG
    rw [if_pos h, if_pos h]
    exact .panic
  · apply modM_nat
    rw [int64_id (by simp only [Fits64]; rw [int64_id (by simp only [Fits64]; omega)]; omega), int64_id (by simp only [Fits64]; omega)]
    omega

theorem modM_next {i c : Nat} (hi : i ≤ 2 ^ 60) : Eqv (fun j => j < c) (modM (int64 ((i : Int) + 1)) c) (modG (i + 1) c) := by
  apply modM_nat
  rw [int64_id (by simp only [Fits64]; omega)]
  omega

/-- A segment of capacity `K` whose numbers are small. -/
structure SB (K k : Nat) (s : Seg T) : Prop where
  len : s.data.length = K
  beg : s.begin_ ≤ K
  end_ : s.end_ ≤ K
  lo : -(k : Int) ≤ s.nSize
  hi : s.nSize ≤ k

theorem SB.mono {K k k' : Nat} {s : Seg T} (h : SB K k s) (hk : k ≤ k') : SB K k' s :=
  ⟨h.len, h.beg, h.end_, by have := h.lo; omega, by have := h.hi; omega⟩

variable {K k : Nat} {s : Seg T}

namespace Seg

theorem next_eqv (hK : s.data.length ≤ 2 ^ 60) {i : Nat} (hi : i ≤ 2 ^ 60) : Eqv (fun j => j < s.data.length) (s.nextIndexM i) (s.nextIndex i) := modM_next hi
theorem pre_eqv (hK : s.data.length ≤ 2 ^ 60) {i : Nat} (hi : i ≤ 2 ^ 60) : Eqv (fun j => j < s.data.length) (s.preIndexM i) (s.preIndex i) := modM_pre hi hK

theorem pushBack_eqv (h : SB K k s) (hK : K ≤ 2 ^ 60) (hk : k < 2 ^ 60) (v : T) : Eqv (SB K (k + 1)) (s.pushBackM v) (s.pushBack v) := by
  obtain ⟨h1, h2, h3, h4, h5⟩ := h
  unfold pushBackM pushBack
  refine (Eqv.upd _ _ _).bind ?_
  rintro data ⟨hd, rfl⟩
  refine (next_eqv (by simp; omega) (by simp; omega)).bind fun e he => ?_
  rw [int64_id (by simp only [Fits64]; omega)]
  simp only [List.length_set] at he
  exact .ok ⟨by simp [h1], h2, by simp only; omega, by simp only; omega, by simp only; omega⟩

theorem pushFront_eqv (h : SB K k s) (hK : K ≤ 2 ^ 60) (hk : k < 2 ^ 60) (v : T) : Eqv (SB K (k + 1)) (s.pushFrontM v) (s.pushFront v) := by
  obtain ⟨h1, h2, h3, h4, h5⟩ := h
  unfold pushFrontM pushFront
  refine (pre_eqv (by omega) (by omega)).bind fun e he => ?_
  refine (Eqv.upd _ _ _).bind ?_
  rintro data ⟨hd, rfl⟩
  rw [int64_id (by simp only [Fits64]; omega)]
  exact .ok ⟨by simp [h1], by simp only; omega, h3, by simp only; omega, by simp only; omega⟩

theorem popBack_eqv (h : SB K k s) (hK : K ≤ 2 ^ 60) (hk : k < 2 ^ 60) : Eqv (fun r => SB K (k + 1) r.2) s.popBackM s.popBack := by
  obtain ⟨h1, h2, h3, h4, h5⟩ := h
  unfold popBackM popBack
  refine (pre_eqv (by omega) (by omega)).bind fun e he => ?_
  refine (Eqv.idx _ _).bind fun x hx => ?_
  rw [int64_id (by simp only [Fits64]; omega)]
  exact .ok ⟨h1, h2, by simp only; omega, by simp only; omega, by simp only; omega⟩

theorem popFront_eqv (h : SB K k s) (hK : K ≤ 2 ^ 60) (hk : k < 2 ^ 60) : Eqv (fun r => SB K (k + 1) r.2) s.popFrontM s.popFront := by
  obtain ⟨h1, h2, h3, h4, h5⟩ := h
  unfold popFrontM popFront
  refine (Eqv.idx _ _).bind fun x hx => ?_
  refine (next_eqv (by omega) (by omega)).bind fun e he => ?_
  rw [int64_id (by simp only [Fits64]; omega)]
  exact .ok ⟨h1, by simp only; omega, h3, by simp only; omega, by simp only; omega⟩

theorem insFrontLoop_eqv (hK : K ≤ 2 ^ 60) : ∀ (n i : Nat) (s : Seg T), SB K k s → i ≤ K →
    Eqv (fun r => r.1 ≤ K ∧ SB K k r.2) (insFrontLoopM n i s) (insFrontLoop n i s) := by
  intro n
  induction n with
  | zero => intro i s h hi; exact .ok ⟨hi, h⟩
  | succ n ih =>
    intro i s h hi
    obtain ⟨h1, h2, h3, h4, h5⟩ := h
    unfold insFrontLoopM insFrontLoop
    refine (next_eqv (by omega) (by omega)).bind fun j hj => (Eqv.idx _ _).bind fun x hx => (Eqv.upd _ _ _).bind ?_
    rintro data ⟨hd, rfl⟩
    refine (next_eqv (by simp; omega) (by omega)).bind fun j hj => ?_
    simp only [List.length_set] at hj
    exact ih _ _ ⟨by simp [h1], h2, h3, h4, h5⟩ (by omega)

theorem insBackLoop_eqv (hK : K ≤ 2 ^ 60) : ∀ (n i : Nat) (s : Seg T), SB K k s → i ≤ K →
    Eqv (fun r => r.1 ≤ K ∧ SB K k r.2) (insBackLoopM n i s) (insBackLoop n i s) := by
  intro n
  induction n with
  | zero => intro i s h hi; exact .ok ⟨hi, h⟩
  | succ n ih =>
    intro i s h hi
    obtain ⟨h1, h2, h3, h4, h5⟩ := h
    unfold insBackLoopM insBackLoop
    refine (pre_eqv (by omega) (by omega)).bind fun j hj => (Eqv.idx _ _).bind fun x hx => (Eqv.upd _ _ _).bind ?_
    rintro data ⟨hd, rfl⟩
    refine (pre_eqv (by simp; omega) (by omega)).bind fun j hj => ?_
    simp only [List.length_set] at hj
    exact ih _ _ ⟨by simp [h1], h2, h3, h4, h5⟩ (by omega)

theorem insert_eqv (h : SB K k s) (hK : K ≤ 2 ^ 60) (hk : k < 2 ^ 60) {p : Int} (hp1 : -2 ^ 60 ≤ p) (hp2 : p ≤ 2 ^ 60) (v : T) :
    Eqv (SB K (k + 1)) (s.insertM p v) (s.insert p v) := by
  have hh := h
  obtain ⟨h1, h2, h3, h4, h5⟩ := h
  unfold insertM insert
  rw [int64_id (x := s.nSize - p) (by simp only [Fits64]; omega)]
  split
  · refine (pre_eqv (by omega) (by omega)).bind fun i hi => ?_
    refine (insFrontLoop_eqv hK _ _ _ hh (by omega)).bind ?_
    rintro ⟨i, s⟩ ⟨hi, h1, h2, h3, h4, h5⟩
    simp only at hi h1 h2 h3 h4 h5
    refine (Eqv.upd _ _ _).bind ?_
    rintro data ⟨hd, rfl⟩
    refine (pre_eqv (by simp; omega) (by simp; omega)).bind fun e he => ?_
    simp only [List.length_set] at he
    rw [int64_id (by simp only [Fits64]; omega)]
    exact .ok ⟨by simp [h1], by simp only; omega, h3, by simp only; omega, by simp only; omega⟩
  · refine (insBackLoop_eqv hK _ _ _ hh (by omega)).bind ?_
    rintro ⟨i, s⟩ ⟨hi, h1, h2, h3, h4, h5⟩
    simp only at hi h1 h2 h3 h4 h5
    refine (Eqv.upd _ _ _).bind ?_
    rintro data ⟨hd, rfl⟩
    refine (next_eqv (by simp; omega) (by simp; omega)).bind fun e he => ?_
    simp only [List.length_set] at he
    rw [int64_id (by simp only [Fits64]; omega)]
    exact .ok ⟨by simp [h1], h2, by simp only; omega, by simp only; omega, by simp only; omega⟩

theorem eraseFrontLoop_eqv (hK : K ≤ 2 ^ 60) : ∀ (i : Nat) (s : Seg T), SB K k s → i ≤ 2 ^ 61 → Eqv (SB K k) (eraseFrontLoopM i s) (eraseFrontLoop i s) := by
  intro i
  induction i with
  | zero => intro s h _; exact .ok h
  | succ i ih =>
    intro s h hi
    obtain ⟨h1, h2, h3, h4, h5⟩ := h
    unfold eraseFrontLoopM eraseFrontLoop
    refine (modM_nat (a := i + 1 + s.begin_) (by rw [int64_id (by simp only [Fits64]; omega)]; omega)).bind fun j hj => ?_
    refine (modM_nat (a := i + s.begin_) (by rw [int64_id (x := ((i + 1 : Nat) : Int) - 1) (by simp only [Fits64]; omega), int64_id (by simp only [Fits64]; omega)]; omega)).bind fun j hj => ?_
    refine (Eqv.idx _ _).bind fun x hx => (Eqv.upd _ _ _).bind ?_
    rintro data ⟨hd, rfl⟩
    exact ih _ ⟨by simp [h1], h2, h3, h4, h5⟩ (by omega)

theorem eraseBackLoop_eqv (hK : K ≤ 2 ^ 60) : ∀ (n i : Nat) (s : Seg T), SB K k s → n + i ≤ 2 ^ 61 → Eqv (SB K k) (eraseBackLoopM n i s) (eraseBackLoop n i s) := by
  intro n
  induction n with
  | zero => intro i s h _; exact .ok h
  | succ n ih =>
    intro i s h hi
    obtain ⟨h1, h2, h3, h4, h5⟩ := h
    unfold eraseBackLoopM eraseBackLoop
    refine (modM_nat (a := i + s.begin_) (by rw [int64_id (by simp only [Fits64]; omega)]; omega)).bind fun j hj => ?_
    refine (modM_nat (a := i + 1 + s.begin_) (by rw [int64_id (x := (i : Int) + 1) (by simp only [Fits64]; omega), int64_id (by simp only [Fits64]; omega)]; omega)).bind fun j hj => ?_
    refine (Eqv.idx _ _).bind fun x hx => (Eqv.upd _ _ _).bind ?_
    rintro data ⟨hd, rfl⟩
    exact ih _ _ ⟨by simp [h1], h2, h3, h4, h5⟩ (by omega)

theorem eraseAt_eqv (h : SB K k s) (hK : K ≤ 2 ^ 60) (hk : k < 2 ^ 60) {p : Int} (hp1 : -2 ^ 59 ≤ p) (hp2 : p ≤ 2 ^ 59) :
    Eqv (SB K (k + 1)) (s.eraseAtM p) (s.eraseAt p) := by
  have hh := h
  obtain ⟨h1, h2, h3, h4, h5⟩ := h
  unfold eraseAtM eraseAt
  rw [int64_id (x := s.nSize - p) (by simp only [Fits64]; omega)]
  split
  · refine (eraseFrontLoop_eqv hK _ _ hh (by omega)).bind ?_
    rintro s ⟨h1, h2, h3, h4, h5⟩
    refine (next_eqv (by omega) (by omega)).bind fun e he => ?_
    rw [int64_id (by simp only [Fits64]; omega)]
    exact .ok ⟨h1, by simp only; omega, h3, by simp only; omega, by simp only; omega⟩
  · refine (eraseBackLoop_eqv hK _ _ _ hh (by omega)).bind ?_
    rintro s ⟨h1, h2, h3, h4, h5⟩
    refine (pre_eqv (by omega) (by omega)).bind fun e he => ?_
    rw [int64_id (by simp only [Fits64]; omega)]
    exact .ok ⟨h1, h2, by simp only; omega, by simp only; omega, by simp only; omega⟩

theorem at_eqv (h : SB K k s) (hK : K ≤ 2 ^ 60) (hk : k < 2 ^ 60) (p : Int) : Eqv (fun _ => True) (s.at_M p) (s.at_ p) := by
  obtain ⟨h1, h2, h3, h4, h5⟩ := h
  unfold at_M at_
  split
  · exact .panic
  · refine (modM_nat (by rw [int64_id (by simp only [Fits64]; omega)]; omega)).bind fun j hj => ?_
    exact (Eqv.idx _ _).mono fun _ _ => trivial

theorem set_eqv (h : SB K k s) (hK : K ≤ 2 ^ 60) (p : Int) (v : T) : Eqv (SB K k) (s.setM p v) (s.set p v) := by
  have hh := h
  obtain ⟨h1, h2, h3, h4, h5⟩ := h
  unfold setM set
  split
  · exact .ok hh
  · refine (modM_nat (by rw [int64_id (by simp only [Fits64]; omega)]; omega)).bind fun j hj => ?_
    refine (Eqv.upd _ _ _).bind ?_
    rintro data ⟨hd, rfl⟩
    exact .ok ⟨by simp [h1], h2, h3, h4, h5⟩

theorem back_eqv (h : SB K k s) (hK : K ≤ 2 ^ 60) (hk : k < 2 ^ 60) : Eqv (fun _ => True) s.backM s.back := by
  unfold backM back
  rw [int64_id (by have := h.lo; have := h.hi; simp only [Fits64]; omega)]
  exact at_eqv h hK hk _

theorem front_eqv (h : SB K k s) (hK : K ≤ 2 ^ 60) (hk : k < 2 ^ 60) : Eqv (fun _ => True) s.frontM s.front := at_eqv h hK hk _

end Seg
end GoSTL.Deque
