import Verif.TreeMap.MapProps
/-!
# Set: C43, C45
-/
namespace GoSTL.TreeMap
open GoSTL.RB

variable {K V : Type} {cmp : K → K → Int}

/-- `x` is equal to some element of the list. -/
def In (cmp : K → K → Int) (x : K) (l : List K) : Prop := ∃ k ∈ l, cmp x k = 0

@[simp] theorem In_nil {x : K} : ¬ In cmp x [] := by simp [In]
@[simp] theorem In_cons {x a : K} {l} : In cmp x (a :: l) ↔ cmp x a = 0 ∨ In cmp x l := by simp [In]
@[simp] theorem In_append {x : K} {l l'} : In cmp x (l ++ l') ↔ In cmp x l ∨ In cmp x l' := by
  simp [In, or_and_right, exists_or]

/-- Strictly increasing keys. -/
def StrictK (cmp : K → K → Int) (l : List K) : Prop := l.Pairwise fun a b => cmp a b < 0

theorem Strict.keys {kvs : List (K × V)} (h : Strict cmp kvs) : StrictK cmp (kvs.map (·.1)) := by
  simp only [StrictK, List.pairwise_map]; exact h

theorem StrictK.strict {kvs : List (K × V)} (h : StrictK cmp (kvs.map (·.1))) : Strict cmp kvs := by
  simp only [StrictK, List.pairwise_map] at h; exact h

/-- A tree holding the strictly increasing keys `ks`. -/
def HoldsSet (cmp : K → K → Int) (s : Tree K V) (ks : List K) : Prop :=
  ∃ kvs, HoldsKV cmp s kvs ∧ kvs.map (·.1) = ks ∧ StrictK cmp ks

theorem insertBy_end (x : K × V) (kvs : List (K × V)) (h : ∀ e ∈ kvs, ¬ cmp x.1 e.1 < 0) :
    insertBy cmp (·.1) x kvs = kvs ++ [x] := by
  induction kvs with
  | nil => rfl
  | cons e kvs ih =>
    simp only [insertBy, List.cons_append]
    rw [if_neg (h e (by simp)), ih fun e he => h e (by simp [he])]

theorem HoldsSet.push (hc : LawfulCmp cmp) {s : Tree K V} {ks} (h : HoldsSet cmp s ks) (x : K) (v : V)
    (hx : ∀ k ∈ ks, cmp k x < 0) : ∃ s', s.insert cmp x v = .ok s' ∧ HoldsSet cmp s' (ks ++ [x]) := by
  obtain ⟨kvs, h1, rfl, h3⟩ := h
  obtain ⟨s', e, h4⟩ := h1.insert hc x v
  refine ⟨s', e, _, h4, ?_, ?_⟩
  · rw [insertBy_end]
    · simp
    · intro e he
      have := hx e.1 (List.mem_map_of_mem he)
      have := hc.swap e.1 x
      simp only; omega
  · simp only [StrictK, List.pairwise_append]
    refine ⟨h3, by simp, fun a ha b hb => ?_⟩
    simp at hb; subst hb; exact hx a ha

/-- Keys of a list of entries. -/
def keysE (A : List (Id × K × V)) : List K := A.map (·.2.1)

@[simp] theorem keysE_nil : keysE ([] : List (Id × K × V)) = [] := rfl
@[simp] theorem keysE_cons {e : Id × K × V} {A} : keysE (e :: A) = e.2.1 :: keysE A := rfl

theorem iter_at {s : Tree K V} {A B : List (Id × K × V)} {i k v} (h : HoldsS cmp s (A ++ (i, k, v) :: B)) :
    iterKey s (some i) = .ok k ∧ iterNext s (some i) = .ok (hd B) :=
  ⟨(iterKey_at h).1, h.1.successor⟩

theorem In_lt (hc : LawfulCmp cmp) {k : K} {l : List K} (h : ∀ a ∈ l, cmp k a < 0) {x : K} (hx : cmp x k = 0) : ¬ In cmp x l := by
  rintro ⟨a, ha, h1⟩
  have := h a ha
  have := hc.congr_left (c := a) hx
  omega

theorem In_lt' (hc : LawfulCmp cmp) {k : K} {l : List K} (h : ∀ a ∈ l, cmp k a < 0) {x : K} (hx : In cmp x l) : ¬ cmp x k = 0 :=
  fun h' => In_lt hc h h' hx

theorem lt_tail (hc : LawfulCmp cmp) {ka kb : K} {B : List K} (h : cmp ka kb ≤ 0) (hb : ∀ b ∈ B, cmp kb b < 0) :
    ∀ b ∈ B, cmp ka b < 0 := fun b h1 => hc.lt_of_le_of_lt h (hb b h1)

theorem below_snoc {ks : List K} {k : K} {L : List K} (h1 : ∀ a ∈ ks, ∀ b ∈ L, cmp a b < 0) (h2 : ∀ b ∈ L, cmp k b < 0) :
    ∀ a ∈ ks ++ [k], ∀ b ∈ L, cmp a b < 0 := by
  intro a ha b hb
  simp at ha
  rcases ha with ha | rfl
  · exact h1 a ha b hb
  · exact h2 b hb

theorem intersectLoop_spec (hc : LawfulCmp cmp) {s o : Tree K Bool} : ∀ (f : Nat) (A1 A2 B1 B2 : List (Id × K × Bool)) (r : Tree K Bool)
    (ks : List K), HoldsS cmp s (A1 ++ A2) → HoldsS cmp o (B1 ++ B2) → StrictK cmp (keysE A2) → StrictK cmp (keysE B2) →
    HoldsSet cmp r ks → (∀ a ∈ ks, ∀ b ∈ keysE A2, cmp a b < 0) → (∀ a ∈ ks, ∀ b ∈ keysE B2, cmp a b < 0) →
    A2.length + B2.length < f →
    ∃ r' ks', intersectLoop cmp s o f (hd A2) (hd B2) r = .ok r' ∧ HoldsSet cmp r' ks' ∧
      (∀ x, In cmp x ks' ↔ In cmp x ks ∨ (In cmp x (keysE A2) ∧ In cmp x (keysE B2))) ∧
      ∀ k ∈ ks', k ∈ ks ∨ k ∈ keysE A2 := by
  intro f
  induction f with
  | zero => intros; omega
  | succ f ih =>
    intro A1 A2 B1 B2 r ks h1 h2 h3 h4 h5 h6 h7 hf
    cases A2 with
    | nil => exact ⟨r, ks, by simp [intersectLoop], h5, by simp, by simp +contextual⟩
    | cons a A2 =>
      cases B2 with
      | nil => exact ⟨r, ks, by simp [intersectLoop], h5, by simp, by simp +contextual⟩
      | cons b B2 =>
        obtain ⟨ia, ka, va⟩ := a
        obtain ⟨ib, kb, vb⟩ := b
        have ga := iter_at h1
        have gb := iter_at h2
        have h1' : HoldsS cmp s ((A1 ++ [(ia, ka, va)]) ++ A2) := by simpa using h1
        have h2' : HoldsS cmp o ((B1 ++ [(ib, kb, vb)]) ++ B2) := by simpa using h2
        have sA := h3
        have sB := h4
        simp only [keysE_cons, StrictK, List.pairwise_cons] at h3 h4
        simp only [List.length_cons] at hf
        simp only [hd_cons, intersectLoop, ga.1, gb.1, Res.ok_bind]
        by_cases e0 : cmp ka kb = 0
        · rw [if_pos e0]
          obtain ⟨r1, e1, g1⟩ := h5.push hc ka true fun k hk => h6 k hk ka (by simp)
          obtain ⟨r', ks', e2, g2, g3, g4⟩ := ih _ A2 _ B2 r1 _ h1' h2' h3.2 h4.2 g1
            (below_snoc (fun a ha b hb => h6 a ha b (by simp [hb])) h3.1)
            (below_snoc (fun a ha b hb => h7 a ha b (by simp [hb])) (lt_tail hc (by omega) h4.1)) (by omega)
          refine ⟨r', ks', by simp [e1, ga.2, gb.2, e2], g2, fun x => ?_, fun k hk => by have := g4 k hk; clear * - this; simp at this ⊢; tauto⟩
          rw [g3]
          have hxb : cmp x ka = 0 ↔ cmp x kb = 0 := (hc.congr_right e0).2.1
          have n1 := fun hx => In_lt hc (x := x) h3.1 hx
          have n2 := fun hx => In_lt hc (x := x) h4.1 hx
          simp only [In_append, In_cons, In_nil, or_false, keysE_cons]
          simp only [hxb] at n1 n2 ⊢
          tauto
        · rw [if_neg e0]
          by_cases e1 : cmp ka kb < 0
          · rw [if_pos e1]
            obtain ⟨r', ks', e2, g2, g3, g4⟩ := ih _ A2 _ ((ib, kb, vb) :: B2) r ks h1' h2 h3.2 sB h5
              (fun a ha b hb => h6 a ha b (by simp [hb])) h7 (by simp only [List.length_cons]; omega)
            refine ⟨r', ks', by simpa [ga.2] using e2, g2, fun x => ?_, fun k hk => by have := g4 k hk; clear * - this; simp at this ⊢; tauto⟩
            rw [g3]
            have : ∀ b ∈ keysE ((ib, kb, vb) :: B2), cmp ka b < 0 := by
              intro b hb; simp at hb
              rcases hb with rfl | hb
              · exact e1
              · exact hc.lt_trans e1 (h4.1 b hb)
            have n2 := fun hx => In_lt hc (x := x) this hx
            rw [keysE_cons (A := A2), In_cons (l := keysE A2)]
            tauto
          · rw [if_neg e1]
            obtain ⟨r', ks', e2, g2, g3, g4⟩ := ih _ ((ia, ka, va) :: A2) _ B2 r ks h1 h2' sA h4.2 h5
              h6 (fun a ha b hb => h7 a ha b (by simp [hb])) (by simp only [List.length_cons]; omega)
            refine ⟨r', ks', by simpa [gb.2] using e2, g2, fun x => ?_, fun k hk => by have := g4 k hk; clear * - this; simp at this ⊢; tauto⟩
            rw [g3]
            have e1 : cmp kb ka < 0 := by rw [hc.swap]; omega
            have : ∀ b ∈ keysE ((ia, ka, va) :: A2), cmp kb b < 0 := by
              intro b hb; simp at hb
              rcases hb with rfl | hb
              · exact e1
              · exact hc.lt_trans e1 (h3.1 b hb)
            have n2 := fun hx => In_lt hc (x := x) this hx
            rw [keysE_cons (A := B2), In_cons (l := keysE B2)]
            tauto

theorem drainLoop_spec (hc : LawfulCmp cmp) {s : Tree K Bool} : ∀ (f : Nat) (A1 A2 : List (Id × K × Bool)) (r : Tree K Bool)
    (ks : List K), HoldsS cmp s (A1 ++ A2) → StrictK cmp (keysE A2) →
    HoldsSet cmp r ks → (∀ a ∈ ks, ∀ b ∈ keysE A2, cmp a b < 0) → A2.length < f →
    ∃ r', drainLoop cmp s f (hd A2) r = .ok r' ∧ HoldsSet cmp r' (ks ++ keysE A2) := by
  intro f
  induction f with
  | zero => intros; omega
  | succ f ih =>
    intro A1 A2 r ks h1 h3 h5 h6 hf
    cases A2 with
    | nil => exact ⟨r, by simp [drainLoop], by simpa using h5⟩
    | cons a A2 =>
      obtain ⟨ia, ka, va⟩ := a
      have ga := iter_at h1
      have h1' : HoldsS cmp s ((A1 ++ [(ia, ka, va)]) ++ A2) := by simpa using h1
      simp only [keysE_cons, StrictK, List.pairwise_cons] at h3
      simp only [List.length_cons] at hf
      obtain ⟨r1, e1, g1⟩ := h5.push hc ka true fun k hk => h6 k hk ka (by simp)
      obtain ⟨r', e2, g2⟩ := ih _ A2 r1 _ h1' h3.2 g1
        (below_snoc (fun a ha b hb => h6 a ha b (by simp [hb])) h3.1) (by omega)
      exact ⟨r', by simp [drainLoop, ga.1, ga.2, e1, e2], by simpa using g2⟩

theorem unionLoop_spec (hc : LawfulCmp cmp) {s o : Tree K Bool} : ∀ (f : Nat) (A1 A2 B1 B2 : List (Id × K × Bool)) (r : Tree K Bool)
    (ks : List K), HoldsS cmp s (A1 ++ A2) → HoldsS cmp o (B1 ++ B2) → StrictK cmp (keysE A2) → StrictK cmp (keysE B2) →
    HoldsSet cmp r ks → (∀ a ∈ ks, ∀ b ∈ keysE A2, cmp a b < 0) → (∀ a ∈ ks, ∀ b ∈ keysE B2, cmp a b < 0) →
    A2.length + B2.length < f →
    ∃ r' ks' A1' A2' B1' B2', unionLoop cmp s o f (hd A2) (hd B2) r = .ok (hd A2', hd B2', r') ∧ HoldsSet cmp r' ks' ∧
      HoldsS cmp s (A1' ++ A2') ∧ HoldsS cmp o (B1' ++ B2') ∧ StrictK cmp (keysE A2') ∧ StrictK cmp (keysE B2') ∧
      (∀ a ∈ ks', ∀ b ∈ keysE A2', cmp a b < 0) ∧ (∀ a ∈ ks', ∀ b ∈ keysE B2', cmp a b < 0) ∧ (A2' = [] ∨ B2' = []) ∧
      (∀ x, In cmp x ks' ∨ In cmp x (keysE A2') ∨ In cmp x (keysE B2') ↔
        In cmp x ks ∨ In cmp x (keysE A2) ∨ In cmp x (keysE B2)) ∧
      (∀ k, k ∈ ks ∨ k ∈ keysE A2 → k ∈ ks' ∨ k ∈ keysE A2') ∧
      ∀ k, k ∈ ks' ∨ k ∈ keysE A2' ∨ k ∈ keysE B2' → k ∈ ks ∨ k ∈ keysE A2 ∨ k ∈ keysE B2 := by
  intro f
  induction f with
  | zero => intros; omega
  | succ f ih =>
    intro A1 A2 B1 B2 r ks h1 h2 h3 h4 h5 h6 h7 hf
    cases A2 with
    | nil => exact ⟨r, ks, A1, [], B1, B2, by simp [unionLoop], h5, h1, h2, h3, h4, h6, h7, .inl rfl, by simp, by simp, by simp⟩
    | cons a A2 =>
      cases B2 with
      | nil => exact ⟨r, ks, A1, a :: A2, B1, [], by simp [unionLoop], h5, h1, h2, h3, h4, h6, h7, .inr rfl, by simp, by simp, by simp⟩
      | cons b B2 =>
        obtain ⟨ia, ka, va⟩ := a
        obtain ⟨ib, kb, vb⟩ := b
        have ga := iter_at h1
        have gb := iter_at h2
        have h1' : HoldsS cmp s ((A1 ++ [(ia, ka, va)]) ++ A2) := by simpa using h1
        have h2' : HoldsS cmp o ((B1 ++ [(ib, kb, vb)]) ++ B2) := by simpa using h2
        have sA := h3
        have sB := h4
        simp only [keysE_cons, StrictK, List.pairwise_cons] at h3 h4
        simp only [List.length_cons] at hf
        simp only [hd_cons, unionLoop, ga.1, gb.1, Res.ok_bind]
        by_cases e0 : cmp ka kb = 0
        · rw [if_pos e0]
          obtain ⟨r1, e1, g1⟩ := h5.push hc ka true fun k hk => h6 k hk ka (by simp)
          obtain ⟨r', ks', A1', A2', B1', B2', e2, g2, g3, g4, g5, g6, g7, g8, g9, g10, g11, g12⟩ := ih _ A2 _ B2 r1 _ h1' h2' h3.2 h4.2 g1
            (below_snoc (fun a ha b hb => h6 a ha b (by simp [hb])) h3.1)
            (below_snoc (fun a ha b hb => h7 a ha b (by simp [hb])) (lt_tail hc (by omega) h4.1)) (by omega)
          refine ⟨r', ks', A1', A2', B1', B2', by simp [e1, ga.2, gb.2, e2], g2, g3, g4, g5, g6, g7, g8, g9, fun x => ?_,
              fun k hk => g11 k (by clear * - hk; simp at hk ⊢; tauto), fun k hk => by have := g12 k hk; clear * - this; simp at this ⊢; tauto⟩
          rw [g10]
          have hxb : cmp x ka = 0 ↔ cmp x kb = 0 := (hc.congr_right e0).2.1
          simp only [In_append, In_cons, In_nil, or_false, keysE_cons, hxb]
          tauto
        · rw [if_neg e0]
          by_cases e1 : cmp ka kb < 0
          · rw [if_pos e1]
            obtain ⟨r1, e1', g1⟩ := h5.push hc ka true fun k hk => h6 k hk ka (by simp)
            have : ∀ b ∈ keysE ((ib, kb, vb) :: B2), cmp ka b < 0 := by
              intro b hb; simp at hb
              rcases hb with rfl | hb
              · exact e1
              · exact hc.lt_trans e1 (h4.1 b hb)
            obtain ⟨r', ks', A1', A2', B1', B2', e2, g2, g3, g4, g5, g6, g7, g8, g9, g10, g11, g12⟩ := ih _ A2 _ ((ib, kb, vb) :: B2) r1 _
              h1' h2 h3.2 sB g1 (below_snoc (fun a ha b hb => h6 a ha b (by simp [hb])) h3.1) (below_snoc h7 this)
              (by simp only [List.length_cons]; omega)
            refine ⟨r', ks', A1', A2', B1', B2', by simpa [ga.2, e1'] using e2, g2, g3, g4, g5, g6, g7, g8, g9, fun x => ?_,
              fun k hk => g11 k (by clear * - hk; simp at hk ⊢; tauto), fun k hk => by have := g12 k hk; clear * - this; simp at this ⊢; tauto⟩
            rw [g10]
            simp only [In_append, In_cons, In_nil, or_false, keysE_cons]
            tauto
          · rw [if_neg e1]
            obtain ⟨r1, e1', g1⟩ := h5.push hc kb true fun k hk => h7 k hk kb (by simp)
            have e1 : cmp kb ka < 0 := by rw [hc.swap]; omega
            have : ∀ b ∈ keysE ((ia, ka, va) :: A2), cmp kb b < 0 := by
              intro b hb; simp at hb
              rcases hb with rfl | hb
              · exact e1
              · exact hc.lt_trans e1 (h3.1 b hb)
            obtain ⟨r', ks', A1', A2', B1', B2', e2, g2, g3, g4, g5, g6, g7, g8, g9, g10, g11, g12⟩ := ih _ ((ia, ka, va) :: A2) _ B2 r1 _
              h1 h2' sA h4.2 g1 (below_snoc h6 this) (below_snoc (fun a ha b hb => h7 a ha b (by simp [hb])) h4.1)
              (by simp only [List.length_cons]; omega)
            refine ⟨r', ks', A1', A2', B1', B2', by simpa [gb.2, e1'] using e2, g2, g3, g4, g5, g6, g7, g8, g9, fun x => ?_,
              fun k hk => g11 k (by clear * - hk; simp at hk ⊢; tauto), fun k hk => by have := g12 k hk; clear * - this; simp at this ⊢; tauto⟩
            rw [g10]
            simp only [In_append, In_cons, In_nil, or_false, keysE_cons]
            tauto

theorem diffLoop_spec (hc : LawfulCmp cmp) {s o : Tree K Bool} : ∀ (f : Nat) (A1 A2 B1 B2 : List (Id × K × Bool)) (r : Tree K Bool)
    (ks : List K), HoldsS cmp s (A1 ++ A2) → HoldsS cmp o (B1 ++ B2) → StrictK cmp (keysE A2) → StrictK cmp (keysE B2) →
    HoldsSet cmp r ks → (∀ a ∈ ks, ∀ b ∈ keysE A2, cmp a b < 0) →
    A2.length + B2.length < f →
    ∃ r' ks' A1' A2', diffLoop cmp s o f (hd A2) (hd B2) r = .ok (hd A2', r') ∧ HoldsSet cmp r' ks' ∧
      HoldsS cmp s (A1' ++ A2') ∧ StrictK cmp (keysE A2') ∧ (∀ a ∈ ks', ∀ b ∈ keysE A2', cmp a b < 0) ∧
      (∀ x, In cmp x ks' ∨ In cmp x (keysE A2') ↔ In cmp x ks ∨ (In cmp x (keysE A2) ∧ ¬ In cmp x (keysE B2))) ∧
      ∀ k, k ∈ ks' ∨ k ∈ keysE A2' → k ∈ ks ∨ k ∈ keysE A2 := by
  intro f
  induction f with
  | zero => intros; omega
  | succ f ih =>
    intro A1 A2 B1 B2 r ks h1 h2 h3 h4 h5 h6 hf
    cases A2 with
    | nil => exact ⟨r, ks, A1, [], by simp [diffLoop], h5, h1, h3, h6, by simp, by simp⟩
    | cons a A2 =>
      cases B2 with
      | nil => exact ⟨r, ks, A1, a :: A2, by simp [diffLoop], h5, h1, h3, h6, by simp, by simp⟩
      | cons b B2 =>
        obtain ⟨ia, ka, va⟩ := a
        obtain ⟨ib, kb, vb⟩ := b
        have ga := iter_at h1
        have gb := iter_at h2
        have h1' : HoldsS cmp s ((A1 ++ [(ia, ka, va)]) ++ A2) := by simpa using h1
        have h2' : HoldsS cmp o ((B1 ++ [(ib, kb, vb)]) ++ B2) := by simpa using h2
        have sA := h3
        have sB := h4
        simp only [keysE_cons, StrictK, List.pairwise_cons] at h3 h4
        simp only [List.length_cons] at hf
        simp only [hd_cons, diffLoop, ga.1, gb.1, Res.ok_bind]
        by_cases e0 : cmp ka kb = 0
        · rw [if_pos e0]
          obtain ⟨r', ks', A1', A2', e2, g2, g3, g4, g5, g6, g7⟩ := ih _ A2 _ B2 r _ h1' h2' h3.2 h4.2 h5
            (fun a ha b hb => h6 a ha b (by simp [hb])) (by omega)
          refine ⟨r', ks', A1', A2', by simp [ga.2, gb.2, e2], g2, g3, g4, g5, fun x => ?_,
              fun k hk => by have := g7 k hk; clear * - this; simp at this ⊢; tauto⟩
          rw [g6]
          have hxb : cmp x ka = 0 ↔ cmp x kb = 0 := (hc.congr_right e0).2.1
          have n1 := fun hx => In_lt hc (x := x) h3.1 hx
          have n2 := fun hx => In_lt hc (x := x) h4.1 hx
          simp only [In_cons, keysE_cons]
          simp only [hxb] at n1 n2 ⊢
          tauto
        · rw [if_neg e0]
          by_cases e1 : cmp ka kb < 0
          · rw [if_pos e1]
            obtain ⟨r1, e1', g1⟩ := h5.push hc ka true fun k hk => h6 k hk ka (by simp)
            have : ∀ b ∈ keysE ((ib, kb, vb) :: B2), cmp ka b < 0 := by
              intro b hb; simp at hb
              rcases hb with rfl | hb
              · exact e1
              · exact hc.lt_trans e1 (h4.1 b hb)
            obtain ⟨r', ks', A1', A2', e2, g2, g3, g4, g5, g6, g7⟩ := ih _ A2 _ ((ib, kb, vb) :: B2) r1 _ h1' h2 h3.2 sB g1
              (below_snoc (fun a ha b hb => h6 a ha b (by simp [hb])) h3.1) (by simp only [List.length_cons]; omega)
            refine ⟨r', ks', A1', A2', by simpa [ga.2, e1'] using e2, g2, g3, g4, g5, fun x => ?_,
              fun k hk => by have := g7 k hk; clear * - this; simp at this ⊢; tauto⟩
            rw [g6]
            have n2 := fun hx => In_lt hc (x := x) this hx
            rw [keysE_cons (A := A2), In_cons (l := keysE A2), In_append, In_cons, or_iff_left (In_nil)]
            tauto
          · rw [if_neg e1]
            obtain ⟨r', ks', A1', A2', e2, g2, g3, g4, g5, g6, g7⟩ := ih _ ((ia, ka, va) :: A2) _ B2 r _ h1 h2' sA h4.2 h5
              h6 (by simp only [List.length_cons]; omega)
            refine ⟨r', ks', A1', A2', by simpa [gb.2] using e2, g2, g3, g4, g5, fun x => ?_,
              fun k hk => by have := g7 k hk; clear * - this; simp at this ⊢; tauto⟩
            rw [g6]
            have e1 : cmp kb ka < 0 := by rw [hc.swap]; omega
            have : ∀ b ∈ keysE ((ia, ka, va) :: A2), cmp kb b < 0 := by
              intro b hb; simp at hb
              rcases hb with rfl | hb
              · exact e1
              · exact hc.lt_trans e1 (h3.1 b hb)
            have n2 := fun hx => In_lt hc (x := x) this hx
            rw [keysE_cons (A := B2), In_cons (l := keysE B2)]
            tauto

/-- Invariant of Set histories. -/
def SetInv (cmp : K → K → Int) (s : Tree K Bool) (m : K → Prop) : Prop :=
  ∃ ks, HoldsSet cmp s ks ∧ ∀ x, m x ↔ In cmp x ks

theorem HoldsSet.new : HoldsSet cmp (Tree.new : Tree K V) [] := ⟨[], HoldsKV.new, rfl, List.Pairwise.nil⟩

theorem HoldsSet.entries {s : Tree K V} {ks} (h : HoldsSet cmp s ks) :
    ∃ xs, HoldsS cmp s ([] ++ xs) ∧ keysE xs = ks ∧ StrictK cmp (keysE xs) ∧ xs.length < s.fuel := by
  obtain ⟨kvs, ⟨xs, h1, rfl⟩, rfl, h3⟩ := h
  refine ⟨xs, by simpa using h1, by simp [keysE], ?_, by have := h1.1.length_le; simp only [Tree.fuel]; omega⟩
  rw [List.map_map] at h3; exact h3

/-- The elements of the intersection, as listed: those of `s` that have an equal in `o`. -/
theorem HoldsSet.intersect (hc : LawfulCmp cmp) {s o : Tree K Bool} {a b : List K} (h1 : HoldsSet cmp s a) (h2 : HoldsSet cmp o b) :
    ∃ r ks, intersect cmp s o = .ok r ∧ HoldsSet cmp r ks ∧ (∀ x, In cmp x ks ↔ In cmp x a ∧ In cmp x b) ∧ ∀ k ∈ ks, k ∈ a := by
  obtain ⟨xs, g1, rfl, g3, g4⟩ := h1.entries
  obtain ⟨ys, k1, rfl, k3, k4⟩ := h2.entries
  obtain ⟨r, ks', e, j1, j2, j3⟩ := intersectLoop_spec hc (s.fuel + o.fuel) [] xs [] ys Tree.new [] g1 k1 g3 k3 HoldsSet.new
    (by simp) (by simp) (by omega)
  refine ⟨r, ks', by simp only [TreeMap.intersect, g1.1.first, k1.1.first, Res.ok_bind]; exact e, j1, fun x => ?_, fun k hk => ?_⟩
  · rw [j2]; simp
  · simpa using j3 k hk

theorem HoldsSet.union (hc : LawfulCmp cmp) {s o : Tree K Bool} {a b : List K} (h1 : HoldsSet cmp s a) (h2 : HoldsSet cmp o b) :
    ∃ r ks, union cmp s o = .ok r ∧ HoldsSet cmp r ks ∧ (∀ x, In cmp x ks ↔ In cmp x a ∨ In cmp x b) ∧ (∀ k ∈ a, k ∈ ks) ∧
      ∀ k ∈ ks, k ∈ a ∨ k ∈ b := by
  obtain ⟨xs, g1, rfl, g3, g4⟩ := h1.entries
  obtain ⟨ys, k1, rfl, k3, k4⟩ := h2.entries
  obtain ⟨r, ks', A1, A2, B1, B2, e, j1, j2, j3, j4, j5, j6, j7, j8, j9, j10, j11⟩ :=
    unionLoop_spec hc (s.fuel + o.fuel) [] xs [] ys Tree.new [] g1 k1 g3 k3 HoldsSet.new
    (by simp) (by simp) (by omega)
  obtain ⟨r1, e1, l1⟩ := drainLoop_spec hc s.fuel A1 A2 r ks' j2 j4 j1 j6 (by
    have := j2.1.length_le; simp only [List.length_append] at this; simp only [Tree.fuel]; omega)
  obtain ⟨r2, e2, l2⟩ := drainLoop_spec hc o.fuel B1 B2 r1 _ j3 j5 l1 (by
    rcases j8 with rfl | rfl
    · simpa using j7
    · simp) (by
    have := j3.1.length_le; simp only [List.length_append] at this; simp only [Tree.fuel]; omega)
  refine ⟨r2, _, ?_, l2, fun x => ?_, fun k hk => ?_, fun k hk => ?_⟩
  · simp only [TreeMap.union, g1.1.first, k1.1.first, Res.ok_bind]
    simp only [List.nil_append, e, Res.ok_bind, e1, e2]
  · have := j9 x
    simp only [In_nil, false_or] at this
    rw [← this]; simp [or_assoc]
  · have := j10 k (.inr hk)
    simp only [List.mem_append]; tauto
  · have := j11 k (by simp only [List.mem_append] at hk; tauto)
    simpa using this

theorem HoldsSet.diff (hc : LawfulCmp cmp) {s o : Tree K Bool} {a b : List K} (h1 : HoldsSet cmp s a) (h2 : HoldsSet cmp o b) :
    ∃ r ks, diff cmp s o = .ok r ∧ HoldsSet cmp r ks ∧ (∀ x, In cmp x ks ↔ In cmp x a ∧ ¬ In cmp x b) ∧ ∀ k ∈ ks, k ∈ a := by
  obtain ⟨xs, g1, rfl, g3, g4⟩ := h1.entries
  obtain ⟨ys, k1, rfl, k3, k4⟩ := h2.entries
  obtain ⟨r, ks', A1, A2, e, j1, j2, j3, j4, j5, j6⟩ :=
    diffLoop_spec hc (s.fuel + o.fuel) [] xs [] ys Tree.new [] g1 k1 g3 k3 HoldsSet.new (by simp) (by omega)
  obtain ⟨r1, e1, l1⟩ := drainLoop_spec hc s.fuel A1 A2 r ks' j2 j3 j1 j4 (by
    have := j2.1.length_le; simp only [List.length_append] at this; simp only [Tree.fuel]; omega)
  refine ⟨r1, _, ?_, l1, fun x => ?_, fun k hk => ?_⟩
  · simp only [TreeMap.diff, g1.1.first, k1.1.first, Res.ok_bind]
    simp only [List.nil_append, e, Res.ok_bind, e1]
  · have := j5 x
    simp only [In_nil, false_or] at this
    rw [← this]; simp
  · have := j6 k (by simp only [List.mem_append] at hk; tauto)
    simpa using this

theorem SetInv.intersect (hc : LawfulCmp cmp) {s o : Tree K Bool} {m n} (h1 : SetInv cmp s m) (h2 : SetInv cmp o n) :
    ∃ r, intersect cmp s o = .ok r ∧ SetInv cmp r fun x => m x ∧ n x := by
  obtain ⟨ks, h1, h1'⟩ := h1
  obtain ⟨ks2, h2, h2'⟩ := h2
  obtain ⟨r, ks', e, j1, j2, -⟩ := h1.intersect hc h2
  exact ⟨r, e, ks', j1, fun x => by beta_reduce; rw [h1', h2', j2]⟩

theorem SetInv.union (hc : LawfulCmp cmp) {s o : Tree K Bool} {m n} (h1 : SetInv cmp s m) (h2 : SetInv cmp o n) :
    ∃ r, union cmp s o = .ok r ∧ SetInv cmp r fun x => m x ∨ n x := by
  obtain ⟨ks, h1, h1'⟩ := h1
  obtain ⟨ks2, h2, h2'⟩ := h2
  obtain ⟨r, ks', e, j1, j2, -⟩ := h1.union hc h2
  exact ⟨r, e, ks', j1, fun x => by beta_reduce; rw [h1', h2', j2]⟩

theorem SetInv.diff (hc : LawfulCmp cmp) {s o : Tree K Bool} {m n} (h1 : SetInv cmp s m) (h2 : SetInv cmp o n) :
    ∃ r, diff cmp s o = .ok r ∧ SetInv cmp r fun x => m x ∧ ¬ n x := by
  obtain ⟨ks, h1, h1'⟩ := h1
  obtain ⟨ks2, h2, h2'⟩ := h2
  obtain ⟨r, ks', e, j1, j2, -⟩ := h1.diff hc h2
  exact ⟨r, e, ks', j1, fun x => by beta_reduce; rw [h1', h2', j2]⟩

theorem HoldsSet.kv {s : Tree K V} {ks} (h : HoldsSet cmp s ks) : ∃ kvs, HoldsKV cmp s kvs ∧ Strict cmp kvs ∧ kvs.map (·.1) = ks := by
  obtain ⟨kvs, h1, rfl, h3⟩ := h
  exact ⟨kvs, h1, h3.strict, rfl⟩

theorem SetInv.insert (hc : LawfulCmp cmp) {s : Tree K Bool} {m} (h : SetInv cmp s m) (x : K) :
    ∃ s', setInsert cmp s x = .ok s' ∧ SetInv cmp s' fun y => cmp y x = 0 ∨ m y := by
  obtain ⟨ks, h0, h2⟩ := h
  obtain ⟨kvs, ⟨xs, h1, rfl⟩, h3, rfl⟩ := h0.kv
  rcases h1.findNode hc x with ⟨h4, h5⟩ | ⟨A, i, k', v', B, rfl, h4, h5, -⟩
  · obtain ⟨s', e, h6⟩ := HoldsKV.insert hc ⟨xs, h1, rfl⟩ x true
    obtain ⟨A, B, e1, e2, h7⟩ := h3.insert hc x true (by
      intro e he
      rw [List.mem_map] at he
      obtain ⟨x, hx, rfl⟩ := he
      exact h5 x hx)
    rw [e2] at h6
    refine ⟨s', by simp [setInsert, h4, e], _, ⟨_, h6, rfl, h7.keys⟩, fun q => ?_⟩
    beta_reduce; rw [h2, e1]; simp; tauto
  · refine ⟨s, by simp [setInsert, h4], _, ⟨_, ⟨_, h1, rfl⟩, rfl, h3.keys⟩, fun q => ?_⟩
    beta_reduce; rw [h2, or_iff_right_of_imp]
    intro hq
    exact ⟨k', by simp, hc.eq_trans hq h5⟩

theorem SetInv.erase (hc : LawfulCmp cmp) {s : Tree K Bool} {m} (h : SetInv cmp s m) (x : K) :
    ∃ s', eraseOne cmp s x = .ok s' ∧ SetInv cmp s' fun y => cmp y x ≠ 0 ∧ m y := by
  obtain ⟨ks, h0, h2⟩ := h
  obtain ⟨kvs, ⟨xs, h1, rfl⟩, h3, rfl⟩ := h0.kv
  rcases h1.findNode hc x with ⟨h4, h5⟩ | ⟨A, i, k', v', B, rfl, h4, h5, -⟩
  · refine ⟨s, by simp [eraseOne, h4], _, ⟨_, ⟨_, h1, rfl⟩, rfl, h3.keys⟩, fun q => ?_⟩
    beta_reduce; rw [h2, and_iff_right_of_imp]
    rintro ⟨a, ha, h6⟩ h7
    simp only [List.map_map, List.mem_map] at ha
    obtain ⟨e, he, rfl⟩ := ha
    exact h5 e he (hc.eq_trans (hc.eq_symm.1 h7) h6)
  · obtain ⟨s', e, h6⟩ := HoldsKV.delete h1
    simp only [List.map_append, List.map_cons] at h6 h3 h2
    refine ⟨s', by simp [eraseOne, h4, e], _, ⟨_, h6, rfl, h3.sub.keys⟩, fun q => ?_⟩
    beta_reduce; rw [h2]
    have h8 := h3.keys
    simp only [List.map_append, List.map_cons, StrictK, List.pairwise_append, List.pairwise_cons] at h8
    have hq : cmp q x = 0 ↔ cmp q k' = 0 := (hc.congr_right h5).2.1
    have n1 := fun hx => In_lt hc (x := q) h8.2.1.1 hx
    have n2 : cmp q k' = 0 → ¬ In cmp q (List.map (·.1) (List.map (·.2) A)) := by
      rintro hx ⟨a, ha, h9⟩
      have h10 := h8.2.2 a ha k' (by simp)
      have h11 := (hc.congr_left (c := k') (hc.eq_trans (hc.eq_symm.1 h9) hx)).2.1
      have := hc.refl k'
      omega
    simp only [List.map_append, List.map_cons, In_append, In_cons, hq, ne_eq]
    tauto

theorem setHist_inv (hc : LawfulCmp cmp) {s : Tree K Bool} {m} (h : SetHist cmp s m) : SetInv cmp s m := by
  induction h with
  | new => exact ⟨[], HoldsSet.new, by simp⟩
  | @insert s s' m x _ e ih =>
    obtain ⟨s'', e', h⟩ := ih.insert hc x
    rw [e] at e'; cases e'; exact h
  | @erase s s' m x _ e ih =>
    obtain ⟨s'', e', h⟩ := ih.erase hc x
    rw [e] at e'; cases e'; exact h
  | clear _ ih =>
    obtain ⟨ks, h1, -⟩ := ih
    obtain ⟨kvs, h1, -⟩ := h1
    exact ⟨[], ⟨[], h1.clear, rfl, List.Pairwise.nil⟩, by simp⟩
  | intersect _ _ e ih1 ih2 =>
    obtain ⟨r, e', h⟩ := ih1.intersect hc ih2
    rw [e] at e'; cases e'; exact h
  | union _ _ e ih1 ih2 =>
    obtain ⟨r, e', h⟩ := ih1.union hc ih2
    rw [e] at e'; cases e'; exact h
  | diff _ _ e ih1 ih2 =>
    obtain ⟨r, e', h⟩ := ih1.diff hc ih2
    rw [e] at e'; cases e'; exact h

/-- C43: after any history `Contains(x)` reports exactly membership in the mathematical set of the history; iteration
lists its elements once each in strictly increasing order (`Last`/`Prev` the reverse), `Size` is their number,
`Traversal` feeds them in that order, and `LowerBound`/`UpperBound`/`Find` start the iteration at the right element. -/
theorem C43_set (hc : LawfulCmp cmp) {s : Tree K Bool} {m : K → Prop} (h : SetHist cmp s m) :
    (∀ x, ∃ b, contains cmp s x = .ok b ∧ (b = true ↔ m x)) ∧
    ∃ kvs, iterList s = .ok kvs ∧ iterListBack s = .ok kvs.reverse ∧ size s = kvs.length ∧
      (kvs.map (·.1)).Pairwise (fun a b => cmp a b < 0) ∧ (∀ x, m x ↔ ∃ k ∈ kvs.map (·.1), cmp x k = 0) ∧
      (∀ (S : Type) (visit : S → K → S × Bool) st, setTraversal s visit st = .ok (feedKeys visit (kvs.map (·.1)) st)) ∧
      (∀ x, iterFrom s (lowerBound cmp s x) = .ok (kvs.filter fun e => decide (cmp x e.1 ≤ 0))) ∧
      (∀ x, iterFrom s (upperBound cmp s x) = .ok (kvs.filter fun e => decide (cmp x e.1 < 0))) ∧
      (∀ x, m x → iterFrom s (find cmp s x) = .ok (kvs.filter fun e => decide (cmp x e.1 ≤ 0))) ∧
      (∀ x, ¬ m x → find cmp s x = .ok none) := by
  obtain ⟨ks, h0, h2⟩ := setHist_inv hc h
  obtain ⟨kvs, h1, h3, rfl⟩ := h0.kv
  have hany : ∀ x, kvs.any (keq cmp x) = true ↔ m x := fun x => by rw [h2]; simp [keq, In]
  refine ⟨fun x => ⟨_, h1.contains hc x, hany x⟩, kvs, h1.iterList, h1.iterListBack, h1.size, h3.keys, h2,
    fun S visit st => h1.setTraversal visit st, h1.iterFrom_lower hc, h1.iterFrom_upper hc, fun x hx => ?_, fun x hx => ?_⟩
  · rw [h1.iterFrom_find hc, if_pos ((hany x).2 hx)]
  · obtain ⟨xs, h1, rfl⟩ := h1
    rcases h1.findNode hc x with ⟨h4, h5⟩ | ⟨A, i, k', v', B, rfl, h4, h5, -⟩
    · exact h4
    · exact absurd ((h2 x).2 ⟨k', by simp, h5⟩) hx

/-- C43: no method panics or loops. -/
theorem C43_set_no_panic (hc : LawfulCmp cmp) {s : Tree K Bool} {m : K → Prop} (h : SetHist cmp s m) (x : K) :
    (∃ s', setInsert cmp s x = .ok s') ∧ (∃ s', eraseOne cmp s x = .ok s') := by
  have hi := setHist_inv hc h
  refine ⟨?_, ?_⟩
  · obtain ⟨s', e, -⟩ := hi.insert hc x; exact ⟨s', e⟩
  · obtain ⟨s', e, -⟩ := hi.erase hc x; exact ⟨s', e⟩

/-- C45: for any two sets (of any histories) `Intersect`, `Union` and `Diff` return sets whose elements are exactly the
common elements, the elements of either, and those of the first that are not in the second. (The operands are
arguments only: the three methods write only to the tree of the result, so the operands keep denoting `m` and `n`.) -/
theorem C45_set_algebra (hc : LawfulCmp cmp) {s o : Tree K Bool} {m n : K → Prop} (hs : SetHist cmp s m)
    (ho : SetHist cmp o n) :
    (∃ r, intersect cmp s o = .ok r ∧ ∀ x, ∃ b, contains cmp r x = .ok b ∧ (b = true ↔ m x ∧ n x)) ∧
    (∃ r, union cmp s o = .ok r ∧ ∀ x, ∃ b, contains cmp r x = .ok b ∧ (b = true ↔ m x ∨ n x)) ∧
    (∃ r, diff cmp s o = .ok r ∧ ∀ x, ∃ b, contains cmp r x = .ok b ∧ (b = true ↔ m x ∧ ¬ n x)) := by
  have h1 := setHist_inv hc hs
  have h2 := setHist_inv hc ho
  refine ⟨?_, ?_, ?_⟩
  · obtain ⟨r, e, -⟩ := h1.intersect hc h2
    exact ⟨r, e, (C43_set hc (hs.intersect ho e)).1⟩
  · obtain ⟨r, e, -⟩ := h1.union hc h2
    exact ⟨r, e, (C43_set hc (hs.union ho e)).1⟩
  · obtain ⟨r, e, -⟩ := h1.diff hc h2
    exact ⟨r, e, (C43_set hc (hs.diff ho e)).1⟩

/-! ## Non-vacuity -/

/-- Two sets {1,2,3} (with a duplicate insert and an erase) and {2,3,4}; their intersection, union and difference. -/
theorem demo_sets : ∃ s o m n, SetHist intCmp s m ∧ SetHist intCmp o n ∧ m 2 ∧ ¬ m 7 ∧ n 4 ∧
    iterList s = .ok [((1 : Int), true), (2, true), (3, true)] ∧
    (intersect intCmp s o >>= iterList) = .ok [(2, true), (3, true)] ∧
    (union intCmp s o >>= iterList) = .ok [(1, true), (2, true), (3, true), (4, true)] ∧
    (diff intCmp s o >>= iterList) = .ok [(1, true)] := by
  have h0 : ∃ s1 s2 s3 s4 s5 s6 o1 o2 o3, setInsert intCmp Tree.new 3 = .ok s1 ∧ setInsert intCmp s1 1 = .ok s2 ∧
      setInsert intCmp s2 3 = .ok s3 ∧ setInsert intCmp s3 7 = .ok s4 ∧ setInsert intCmp s4 2 = .ok s5 ∧
      eraseOne intCmp s5 7 = .ok s6 ∧
      setInsert intCmp Tree.new 4 = .ok o1 ∧ setInsert intCmp o1 3 = .ok o2 ∧ setInsert intCmp o2 2 = .ok o3 ∧
      iterList s6 = .ok [((1 : Int), true), (2, true), (3, true)] ∧
      (intersect intCmp s6 o3 >>= iterList) = .ok [(2, true), (3, true)] ∧
      (union intCmp s6 o3 >>= iterList) = .ok [(1, true), (2, true), (3, true), (4, true)] ∧
      (diff intCmp s6 o3 >>= iterList) = .ok [(1, true)] :=
    ⟨_, _, _, _, _, _, _, _, _, rfl, rfl, rfl, rfl, rfl, rfl, rfl, rfl, rfl, rfl, rfl, rfl, rfl⟩
  obtain ⟨s1, s2, s3, s4, s5, s6, o1, o2, o3, e1, e2, e3, e4, e5, e6, f1, f2, f3, g⟩ := h0
  have hs := ((((((.new : SetHist intCmp Tree.new _).insert e1).insert e2).insert e3).insert e4).insert e5).erase e6
  have ho := (((.new : SetHist intCmp Tree.new _).insert f1).insert f2).insert f3
  exact ⟨s6, o3, _, _, hs, ho, by simp [intCmp], by simp [intCmp], by simp [intCmp], g⟩

/-- `C43_set`: what a set of 1, 2, 3 answers. -/
example : ∃ s, contains intCmp s 2 = .ok true ∧ contains intCmp s 7 = .ok false ∧ size s = 3 ∧ iterListBack s = .ok [((3 : Int), true), (2, true), (1, true)] ∧
    iterFrom s (upperBound intCmp s 1) = .ok [(2, true), (3, true)] ∧ find intCmp s 7 = .ok none := by
  obtain ⟨s, o, m, n, h, -, m2, m7, -, e, -⟩ := demo_sets
  obtain ⟨h1, kvs, e', h3, h4, -, -, -, -, h9, -, h11⟩ := C43_set intCmp_lawful h
  rw [e] at e'; cases e'
  obtain ⟨b, e1, b1⟩ := h1 2
  obtain ⟨b', e2, b2⟩ := h1 7
  obtain rfl : b = true := b1.2 m2
  obtain rfl : b' = false := by cases b' with | false => rfl | true => exact absurd (b2.1 rfl) m7
  exact ⟨s, e1, e2, h4, h3, h9 1, h11 7 m7⟩

/-- `C43_set_no_panic`: inserting an element that is there and erasing one that is not. -/
example : ∃ s s1 s2, iterList s = .ok [((1 : Int), true), (2, true), (3, true)] ∧ setInsert intCmp s 2 = .ok s1 ∧ eraseOne intCmp s 7 = .ok s2 := by
  obtain ⟨s, o, m, n, h, -, -, -, -, e, -⟩ := demo_sets
  obtain ⟨s1, e1⟩ := (C43_set_no_panic intCmp_lawful h 2).1
  obtain ⟨s2, e2⟩ := (C43_set_no_panic intCmp_lawful h 7).2
  exact ⟨s, s1, s2, e, e1, e2⟩

/-- `C45_set_algebra`: the union of two overlapping sets contains what is in one of them. -/
example : ∃ s o r, iterList s = .ok [((1 : Int), true), (2, true), (3, true)] ∧ union intCmp s o = .ok r ∧ contains intCmp r 4 = .ok true := by
  obtain ⟨s, o, m, n, h, h', -, -, n4, e, -⟩ := demo_sets
  obtain ⟨-, ⟨r, e1, h1⟩, -⟩ := C45_set_algebra intCmp_lawful h h'
  obtain ⟨b, e2, hb⟩ := h1 4
  obtain rfl : b = true := hb.2 (.inr n4)
  exact ⟨s, o, r, e, e1, e2⟩

end GoSTL.TreeMap
