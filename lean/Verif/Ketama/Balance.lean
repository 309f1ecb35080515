import Verif.Ketama.Members
import Verif.Bloom.Ideal
import Mathlib.Data.Fintype.BigOperators
import Mathlib.Data.Fintype.Pi
import Mathlib.Logic.Equiv.Fin.Basic
import Mathlib.Logic.Equiv.Basic
import Mathlib.Algebra.Order.Field.Rat
import Mathlib.Logic.Equiv.Prod
import Mathlib.Tactic.Linarith
import Mathlib.Algebra.Order.Ring.Abs
import Mathlib.Tactic.Positivity
import Mathlib.Tactic.FieldSimp
/-!
# C82: the load of a consistent-hash ring, averaged over hash functions

The hash of each of the `N` node names that ever occur is eight 64-bit words, all choices of these `8 N` words being equally likely (for SHA-512 this is
the usual assumption); the point of the key is fixed. The theorems count the choices for which the key is mapped to a node.
-/
namespace GoSTL.Ketama
open Finset
open Bloom (GoodHash be8)

/-! ## Specification -/

/-- The words of the hashes of `N` node names. -/
abbrev Choice (N : Nat) := Fin N × Fin 8 → Fin (2 ^ 64)

/-- The hash of node `i`: eight words, big-endian. -/
def digest {N : Nat} (D : Choice N) (i : Fin N) : Str := (List.ofFn fun u : Fin 8 => (D (i, u) : Nat)).flatMap be8

open Classical in
/-- The hash function that gives the salted node names the chosen hashes and is `H` elsewhere. -/
noncomputable def hashWith {N : Nat} (H : Str → Str) (nodes : Fin N → Str) (D : Choice N) (s : Str) : Str :=
  if h : ∃ i, salt ++ nodes i = s then digest D h.choose else H s

/-- Calls that change the ring. -/
inductive KOp (N : Nat)
  | add (ns : List (Fin N))
  | remove (ns : List (Fin N))

/-- A history of calls. -/
def runOps {N : Nat} (H : Str → Str) (nodes : Fin N → Str) : List (KOp N) → Ketama → Res Ketama
  | [], k => .ok k
  | .add ns :: ops, k => do
    let k ← add H k (ns.map nodes)
    runOps H nodes ops k
  | .remove ns :: ops, k => do
    let k ← remove H k (ns.map nodes)
    runOps H nodes ops k

/-- The members after a history: added and not removed since. -/
def members {N : Nat} : List (KOp N) → Finset (Fin N) → Finset (Fin N)
  | [], M => M
  | .add ns :: ops, M => members ops (M ∪ ns.toFinset)
  | .remove ns :: ops, M => members ops (M \ ns.toFinset)

/-- The answer of `Get(key)` after a history, with the chosen hashes. -/
noncomputable def answer {N : Nat} (H : Str → Str) (nodes : Fin N → Str) (r : Nat) (ops : List (KOp N)) (key : Str) (D : Choice N) : Res (Option Str) := do
  let k ← runOps (hashWith H nodes D) nodes ops (new r)
  get (hashWith H nodes D) k key

/-- No word of one node is a word of another. -/
def Apart {N : Nat} (D : Choice N) : Prop := ∀ i j, i ≠ j → ∀ u v, D (i, u) ≠ D (j, v)

open Classical in
/-- The choices of hashes for which something holds. -/
noncomputable def those {N : Nat} (P : Choice N → Prop) : Finset (Choice N) := univ.filter P

theorem mem_those {N : Nat} {P : Choice N → Prop} {D : Choice N} : D ∈ those P ↔ P D := by simp [those]

/-- The number of choices of hashes for which something holds. -/
noncomputable def count (N : Nat) (P : Choice N → Prop) : Nat := (those P).card

/-- The share of the choices of hashes for which something holds. -/
noncomputable def share (N : Nat) (P : Choice N → Prop) : ℚ := count N P / Fintype.card (Choice N)

/-! ## The chosen hashes -/

section
variable {N : Nat} {H : Str → Str} {nodes : Fin N → Str} (hinj : Function.Injective nodes)

include hinj in
theorem hashWith_node (D : Choice N) (i : Fin N) : hashWith H nodes D (salt ++ nodes i) = digest D i := by
  unfold hashWith
  have h : ∃ j, salt ++ nodes j = salt ++ nodes i := ⟨i, rfl⟩
  rw [dif_pos h]
  have := hinj (List.append_cancel_left h.choose_spec)
  rw [this]

theorem hashWith_other (D : Choice N) {key : Str} (hk : ∀ i, nodes i ≠ key) : hashWith H nodes D (salt ++ key) = H (salt ++ key) := by
  unfold hashWith
  rw [dif_neg]
  rintro ⟨i, h⟩
  exact hk i (List.append_cancel_left h)

theorem digest_words (D : Choice N) (i : Fin N) : Bloom.words (digest D i) = List.ofFn fun u : Fin 8 => (D (i, u) : Nat) := by
  apply Bloom.words_be8
  intro x hx
  rw [List.mem_ofFn] at hx
  obtain ⟨u, rfl⟩ := hx
  exact (D (i, u)).isLt

theorem digest_length (D : Choice N) (i : Fin N) : (digest D i).length = 64 := by
  unfold digest
  rw [Bloom.flatMap_be8_length, List.length_ofFn]

theorem hashWith_good (hH : GoodHash H) (D : Choice N) : GoodHash (hashWith H nodes D) := by
  intro s
  unfold hashWith
  split
  · rw [digest_length]; omega
  · exact hH s

/-- The points of node `i`. -/
abbrev pts (r : Nat) (D : Choice N) (i : Fin N) : List Nat := (List.ofFn fun u : Fin 8 => (D (i, u) : Nat)).take r

include hinj in
theorem points_with (r : Nat) (D : Choice N) (i : Fin N) : points (hashWith H nodes D) r (nodes i) = pts r D i := by
  rw [points, hashWith_node hinj, digest_words]

theorem Apart.disjoint {r : Nat} {D : Choice N} (hD : Apart D) {i j : Fin N} {p : Nat} (h1 : p ∈ pts r D i) (h2 : p ∈ pts r D j) : i = j := by
  by_contra c
  have h1 := List.mem_of_mem_take h1
  have h2 := List.mem_of_mem_take h2
  rw [List.mem_ofFn] at h1 h2
  obtain ⟨u, e1⟩ := h1
  obtain ⟨v, e2⟩ := h2
  exact hD i j c u v (Fin.ext (e1.trans e2.symm))

include hinj in
theorem Apart.noCollision {r : Nat} {D : Choice N} (hD : Apart D) : NoCollision (hashWith H nodes D) r (fun n => ∃ i, nodes i = n) := by
  rintro a b p ⟨i, rfl⟩ ⟨j, rfl⟩ h1 h2
  rw [points_with hinj] at h1 h2
  rw [hD.disjoint h1 h2]

/-- A history with its members. -/
theorem runOps_mem (hH : GoodHash H) (hinj : Function.Injective nodes) {r : Nat} : ∀ (ops : List (KOp N)) (k : Ketama) (M : Finset (Fin N)) (f : Ring),
    Hist H r k f → MemHist H r (fun n => ∃ i, nodes i = n) k (fun n => ∃ i ∈ M, nodes i = n) →
    ∃ k' f', runOps H nodes ops k = .ok k' ∧ Hist H r k' f' ∧ MemHist H r (fun n => ∃ i, nodes i = n) k' (fun n => ∃ i ∈ members ops M, nodes i = n) := by
  intro ops
  induction ops with
  | nil => intro k M f hf h; exact ⟨k, f, rfl, hf, h⟩
  | cons op ops ih =>
    intro k M f hf h
    have hp := C54_no_panic hH hf
    cases op with
    | add ns =>
      obtain ⟨k1, e1⟩ := hp.1 (ns.map nodes)
      have h1 := h.add (nodes := ns.map nodes) (by
        intro n hn
        obtain ⟨i, _, e⟩ := List.mem_map.1 hn
        exact ⟨i, e⟩) e1
      have e : (fun n => n ∈ ns.map nodes ∨ ∃ i ∈ M, nodes i = n) = fun n => ∃ i ∈ M ∪ ns.toFinset, nodes i = n := by
        funext n
        simp only [List.mem_map, mem_union, List.mem_toFinset, eq_iff_iff]
        constructor
        · rintro (⟨i, hi, e⟩ | ⟨i, hi, e⟩)
          · exact ⟨i, .inr hi, e⟩
          · exact ⟨i, .inl hi, e⟩
        · rintro ⟨i, hi | hi, e⟩
          · exact .inr ⟨i, hi, e⟩
          · exact .inl ⟨i, hi, e⟩
      rw [e] at h1
      obtain ⟨k', f', e2, h2, h3⟩ := ih k1 _ _ (hf.add e1) h1
      exact ⟨k', f', by simp only [runOps, e1, Res.ok_bind, e2], h2, h3⟩
    | remove ns =>
      obtain ⟨k1, e1⟩ := hp.2.1 (ns.map nodes)
      have h1 := h.remove (nodes := ns.map nodes) (by
        intro n hn
        obtain ⟨i, _, e⟩ := List.mem_map.1 hn
        exact ⟨i, e⟩) e1
      have e : (fun n => n ∉ ns.map nodes ∧ ∃ i ∈ M, nodes i = n) = fun n => ∃ i ∈ M \ ns.toFinset, nodes i = n := by
        funext n
        simp only [List.mem_map, mem_sdiff, List.mem_toFinset, eq_iff_iff]
        constructor
        · rintro ⟨h, i, hi, e⟩
          exact ⟨i, ⟨hi, fun c => h ⟨i, c, e⟩⟩, e⟩
        · rintro ⟨i, ⟨hi, hn⟩, e⟩
          refine ⟨?_, i, hi, e⟩
          rintro ⟨j, hj, e'⟩
          have := hinj (e.trans e'.symm)
          subst this
          exact hn hj
      rw [e] at h1
      obtain ⟨k', f', e2, h2, h3⟩ := ih k1 _ _ (hf.remove e1) h1
      exact ⟨k', f', by simp only [runOps, e1, Res.ok_bind, e2], h2, h3⟩

/-- The ring of the members of `M`, when no two nodes share a word. -/
theorem answer_spec (hH : GoodHash H) (hinj : Function.Injective nodes) (r : Nat) (ops : List (KOp N)) {key : Str} (hk : ∀ i, nodes i ≠ key) {D : Choice N} (hD : Apart D) :
    ∃ f : Ring, (∀ p n, f p = some n ↔ ∃ i ∈ members ops ∅, nodes i = n ∧ p ∈ pts r D i) ∧
      ∀ o, answer H nodes r ops key D = .ok o ↔ Owner f (hashOf H key) o := by
  have hg := hashWith_good (nodes := nodes) hH D
  obtain ⟨k, f0, e, _, hm⟩ := runOps_mem hg hinj ops (new r) ∅ _ Hist.new (by
    have : (fun n => ∃ i ∈ (∅ : Finset (Fin N)), nodes i = n) = fun _ => False := by
      funext n; simp
    rw [this]; exact .new)
  obtain ⟨_, f, h1, h2⟩ := memHist_exact (hD.noCollision hinj) hm
  refine ⟨f, ?_, ?_⟩
  · intro p n
    rw [h2 p n]
    constructor
    · rintro ⟨⟨i, hi, rfl⟩, hp⟩
      rw [points_with hinj] at hp
      exact ⟨i, hi, rfl, hp⟩
    · rintro ⟨i, hi, rfl, hp⟩
      refine ⟨⟨i, hi, rfl⟩, ?_⟩
      rw [points_with hinj]; exact hp
  · intro o
    have hh : hashOf (hashWith H nodes D) key = hashOf H key := by
      unfold hashOf; rw [hashWith_other D hk]
    have := (C54_get_is_clockwise_owner hg h1 key o).1
    rw [hh] at this
    simp only [answer, e, Res.ok_bind]
    exact this

end

/-! ## Symmetry -/

section
variable {N : Nat} {H : Str → Str} {nodes : Fin N → Str}

/-- Give the hashes of `a` to `b` and those of `b` to `a`. -/
def swapped (a b : Fin N) (D : Choice N) : Choice N := fun x => D (Equiv.swap a b x.1, x.2)

theorem swapped_swapped (a b : Fin N) (D : Choice N) : swapped a b (swapped a b D) = D := by
  funext x
  simp only [swapped, Equiv.swap_apply_self]

theorem Apart.swapped {D : Choice N} (hD : Apart D) (a b : Fin N) : Apart (swapped a b D) := by
  intro i j hij u v
  exact hD _ _ (fun c => hij ((Equiv.swap a b).injective c)) u v

theorem owner_swap (hH : GoodHash H) (hinj : Function.Injective nodes) (r : Nat) (ops : List (KOp N)) {key : Str} (hk : ∀ i, nodes i ≠ key) {D : Choice N} (hD : Apart D)
    {a b : Fin N} (ha : a ∈ members ops ∅) (hb : b ∈ members ops ∅) (h : answer H nodes r ops key D = .ok (some (nodes a))) :
    answer H nodes r ops key (swapped a b D) = .ok (some (nodes b)) := by
  obtain ⟨f, f1, f2⟩ := answer_spec hH hinj r ops hk hD
  obtain ⟨g, g1, g2⟩ := answer_spec hH hinj r ops hk (hD.swapped a b)
  rw [f2] at h
  rw [g2]
  have hpts : ∀ i, pts r (swapped a b D) i = pts r D (Equiv.swap a b i) := fun i => rfl
  have hmem : ∀ i, i ∈ members ops ∅ → Equiv.swap a b i ∈ members ops ∅ := by
    intro i hi
    by_cases c : i = a
    · rw [c, Equiv.swap_apply_left]; exact hb
    · by_cases c' : i = b
      · rw [c', Equiv.swap_apply_right]; exact ha
      · rw [Equiv.swap_apply_of_ne_of_ne c c']; exact hi
  have hne : ∀ p, g p ≠ none → f p ≠ none := by
    intro p hp
    obtain ⟨n, hn⟩ := Option.ne_none_iff_exists'.1 hp
    obtain ⟨i, hi, _, hip⟩ := (g1 p n).1 hn
    rw [hpts] at hip
    rw [(f1 p (nodes (Equiv.swap a b i))).2 ⟨_, hmem i hi, rfl, hip⟩]
    simp
  obtain ⟨p, hp, hc⟩ := h
  obtain ⟨i, hi, ei, hip⟩ := (f1 p _).1 hp
  have hia : i = a := hinj ei
  rw [hia] at hip
  refine ⟨p, ?_, ?_⟩
  · refine (g1 p _).2 ⟨b, hb, rfl, ?_⟩
    rw [hpts, Equiv.swap_apply_right]
    exact hip
  · rcases hc with ⟨c1, c2⟩ | ⟨c1, c2⟩
    · exact .inl ⟨c1, fun q hq hle => c2 q (hne q hq) hle⟩
    · exact .inr ⟨fun q hq => c1 q (hne q hq), fun q hq => c2 q (hne q hq)⟩

/-- The choices without common words for which the key goes to node `i`. -/
noncomputable def wins (H : Str → Str) (nodes : Fin N → Str) (r : Nat) (ops : List (KOp N)) (key : Str) (i : Fin N) : Finset (Choice N) :=
  those fun D => Apart D ∧ answer H nodes r ops key D = .ok (some (nodes i))

open Classical in
theorem wins_eq (hH : GoodHash H) (hinj : Function.Injective nodes) (r : Nat) (ops : List (KOp N)) {key : Str} (hk : ∀ i, nodes i ≠ key)
    {a b : Fin N} (ha : a ∈ members ops ∅) (hb : b ∈ members ops ∅) : (wins H nodes r ops key a).card = (wins H nodes r ops key b).card := by
  refine card_nbij' (swapped a b) (swapped b a) ?_ ?_ ?_ ?_
  · intro D hD
    simp only [wins, mem_coe, mem_those] at hD ⊢
    exact ⟨hD.1.swapped a b, owner_swap hH hinj r ops hk hD.1 ha hb hD.2⟩
  · intro D hD
    simp only [wins, mem_coe, mem_those] at hD ⊢
    exact ⟨hD.1.swapped b a, owner_swap hH hinj r ops hk hD.1 hb ha hD.2⟩
  · intro D _
    have : swapped b a = swapped (N := N) a b := by funext D x; simp only [swapped, Equiv.swap_comm]
    rw [this]; exact swapped_swapped a b D
  · intro D _
    have : swapped b a = swapped (N := N) a b := by funext D x; simp only [swapped, Equiv.swap_comm]
    rw [this]; exact swapped_swapped a b D

/-- C82, exactly: of the choices of hashes in which no two nodes share a word, each of the `m` members of the ring gets the key in one `m`-th. -/
theorem C82_exact_share (hH : GoodHash H) (hinj : Function.Injective nodes) (r : Nat) (hr : 0 < r) (ops : List (KOp N)) {key : Str} (hk : ∀ i, nodes i ≠ key)
    {a : Fin N} (ha : a ∈ members ops ∅) :
    (members ops ∅).card * count N (fun D => Apart D ∧ answer H nodes r ops key D = .ok (some (nodes a))) = count N Apart := by
  classical
  unfold count
  have e : those Apart = (members ops ∅).biUnion (wins H nodes r ops key) := by
    ext D
    simp only [mem_those, mem_biUnion, wins]
    constructor
    · intro hD
      obtain ⟨f, f1, f2⟩ := answer_spec hH hinj r ops hk hD
      have hg := hashWith_good (nodes := nodes) hH D
      -- some node is the owner
      obtain ⟨k, f0, ek, hf0, _⟩ := runOps_mem hg hinj ops (new r) ∅ _ Hist.new (by
        have : (fun n => ∃ i ∈ (∅ : Finset (Fin N)), nodes i = n) = fun _ => False := by
          funext n; simp
        rw [this]; exact .new)
      obtain ⟨o, eo⟩ := (C54_no_panic hg hf0).2.2 key
      have ea : answer H nodes r ops key D = .ok o := by simp only [answer, ek, Res.ok_bind, eo]
      have ho := (f2 o).1 ea
      cases o with
      | none =>
        exfalso
        have hp : (D (a, 0) : Nat) ∈ pts r D a := by
          obtain ⟨r', rfl⟩ : ∃ r', r = r' + 1 := ⟨r - 1, by omega⟩
          simp [pts, List.ofFn_succ]
        have h1 := (f1 (D (a, 0) : Nat) (nodes a)).2 ⟨a, ha, rfl, hp⟩
        rw [ho] at h1
        cases h1
      | some n =>
        obtain ⟨p, hp, _⟩ := ho
        obtain ⟨i, hi, rfl, _⟩ := (f1 p n).1 hp
        exact ⟨i, hi, hD, ea⟩
    · rintro ⟨i, _, h, _⟩
      exact h
  rw [e, card_biUnion]
  · rw [sum_congr rfl (fun i hi => wins_eq hH hinj r ops hk hi ha), sum_const, smul_eq_mul]
    rfl
  · intro i _ j _ hij
    rw [Function.onFun, disjoint_left]
    intro D h1 h2
    simp only [wins, mem_those] at h1 h2
    rw [h1.2] at h2
    have := h2.2
    injection this with this
    injection this with this
    exact hij (hinj this)

end

/-! ## Choices with common words are rare -/

theorem card_equal {α β : Type} [Fintype α] [DecidableEq α] [Fintype β] [DecidableEq β] {x y : α} (hxy : y ≠ x) :
    (univ.filter fun f : α → β => f x = f y).card * Fintype.card β = Fintype.card (α → β) := by
  have e : (univ.filter fun f : α → β => f x = f y).card = Fintype.card ({j // j ≠ x} → β) := by
    rw [← card_univ]
    refine card_bij (fun f _ => fun j => f j.1) (fun _ _ => mem_univ _) ?_ ?_
    · intro f hf g hg h
      simp only [mem_filter, mem_univ, true_and] at hf hg
      funext j
      by_cases c : j = x
      · rw [c, hf, hg]
        exact congrFun h ⟨y, hxy⟩
      · exact congrFun h ⟨j, c⟩
    · intro g _
      refine ⟨fun j => if h : j = x then g ⟨y, hxy⟩ else g ⟨j, h⟩, ?_, ?_⟩
      · simp [hxy]
      · funext j
        simp [j.2]
  rw [e, Fintype.card_congr (Equiv.funSplitAt x β), Fintype.card_prod, Nat.mul_comm]

theorem card_not_apart (N : Nat) : count N (fun D => ¬ Apart D) * 2 ^ 64 ≤ 64 * N ^ 2 * Fintype.card (Choice N) := by
  classical
  let F : (Fin N × Fin 8) × (Fin N × Fin 8) → Finset (Choice N) := fun xy => if xy.2 ≠ xy.1 then univ.filter fun D : Choice N => D xy.1 = D xy.2 else ∅
  have sub : those (fun D : Choice N => ¬ Apart D) ⊆ univ.biUnion F := by
    intro D hD
    have hD := mem_those.1 hD
    unfold Apart at hD
    push Not at hD
    obtain ⟨i, j, hij, u, v, h⟩ := hD
    rw [mem_biUnion]
    refine ⟨((i, u), (j, v)), mem_univ _, ?_⟩
    simp only [F]
    rw [if_pos (fun c => hij (congrArg Prod.fst c).symm)]
    simp only [mem_filter, mem_univ, true_and]
    exact h
  have each : ∀ xy, (F xy).card * 2 ^ 64 ≤ Fintype.card (Choice N) := by
    intro xy
    simp only [F]
    split
    · next h =>
      have := card_equal (β := Fin (2 ^ 64)) h
      rw [Fintype.card_fin] at this
      exact this.le
    · rw [card_empty, Nat.zero_mul]; exact Nat.zero_le _
  have h1 := (card_le_card sub).trans card_biUnion_le
  have h2 : (∑ xy, (F xy).card) * 2 ^ 64 ≤ ∑ _xy : (Fin N × Fin 8) × (Fin N × Fin 8), Fintype.card (Choice N) := by
    rw [sum_mul]
    exact sum_le_sum fun xy _ => each xy
  rw [sum_const, card_univ, smul_eq_mul] at h2
  have h3 : Fintype.card ((Fin N × Fin 8) × (Fin N × Fin 8)) = 64 * N ^ 2 := by
    simp only [Fintype.card_prod, Fintype.card_fin]
    ring
  rw [h3] at h2
  exact (Nat.mul_le_mul_right _ h1).trans h2

/-- An event that has probability `1 / m` among the rest has nearly that probability. -/
theorem near {tot good bad m x y : ℚ} (hm : 1 ≤ m) (ht : 0 < tot) (hsum : good + bad = tot) (hb : 0 ≤ bad) (hx : m * x = good) (hxy : x ≤ y) (hy : y ≤ x + bad)
    {ε : ℚ} (hε : bad ≤ ε * tot) : |y / tot - 1 / m| ≤ ε := by
  have hm0 : (0 : ℚ) < m := by linarith
  have hx' : x = good / m := by rw [← hx]; field_simp
  have e : 1 / m = (tot / m) / tot := by field_simp
  rw [e, ← sub_div, abs_div, abs_of_pos ht, div_le_iff₀ ht]
  refine le_trans ?_ hε
  have h2 : tot / m = x + bad / m := by rw [hx', ← hsum, add_div]
  have h3 : bad / m ≤ bad := div_le_self hb hm
  have h4 : 0 ≤ bad / m := by positivity
  rw [abs_le]
  constructor
  · linarith
  · linarith

theorem near_nat (N : Nat) {tot good bad m x y : Nat} (hm : 1 ≤ m) (ht : 0 < tot) (hsum : good + bad = tot) (hx : m * x = good) (hxy : x ≤ y) (hy : y ≤ x + bad)
    (hb : bad * 2 ^ 64 ≤ 64 * N ^ 2 * tot) : |(y : ℚ) / tot - 1 / m| ≤ (N : ℚ) ^ 2 / 2 ^ 58 := by
  refine near (m := m) (good := good) (bad := bad) (x := x) (by exact_mod_cast hm) (by exact_mod_cast ht) (by exact_mod_cast hsum) (Nat.cast_nonneg _) (by exact_mod_cast hx)
    (by exact_mod_cast hxy) (by exact_mod_cast hy) ?_
  have hb' : (bad : ℚ) * 2 ^ 64 ≤ 64 * N ^ 2 * tot := by exact_mod_cast hb
  have : (N : ℚ) ^ 2 / 2 ^ 58 * tot = (64 * N ^ 2 * tot) / 2 ^ 64 := by ring
  rw [this, le_div_iff₀ (by positivity)]
  exact hb'

section
variable {N : Nat} {H : Str → Str} {nodes : Fin N → Str}

theorem count_mono {N : Nat} {P Q : Choice N → Prop} (h : ∀ D, P D → Q D) : count N P ≤ count N Q :=
  card_le_card fun D hD => mem_those.2 (h D (mem_those.1 hD))

theorem count_or {N : Nat} (P Q : Choice N → Prop) : count N (fun D => P D ∨ Q D) ≤ count N P + count N Q := by
  classical
  refine le_trans (card_le_card ?_) (card_union_le _ _)
  intro D hD
  rcases mem_those.1 hD with h | h
  · exact mem_union_left _ (mem_those.2 h)
  · exact mem_union_right _ (mem_those.2 h)

theorem count_not (N : Nat) (P : Choice N → Prop) : count N P + count N (fun D => ¬ P D) = Fintype.card (Choice N) := by
  classical
  unfold count
  rw [← card_union_of_disjoint, ← card_univ]
  · congr 1
    ext D
    simp only [mem_union, mem_those, mem_univ, iff_true]
    exact em _
  · rw [disjoint_left]
    intro D h1 h2
    exact mem_those.1 h2 (mem_those.1 h1)

theorem near_share (m : Nat) (hm : 1 ≤ m) (P : Choice N → Prop) (h : m * count N (fun D => Apart D ∧ P D) = count N Apart) :
    |share N P - 1 / m| ≤ N ^ 2 / 2 ^ 58 := by
  have htot : 0 < Fintype.card (Choice N) := Fintype.card_pos_iff.2 ⟨fun _ => 0⟩
  have h1 : count N (fun D => Apart D ∧ P D) ≤ count N P := count_mono fun D h => h.2
  have h2 : count N P ≤ count N (fun D => Apart D ∧ P D) + count N (fun D => ¬ Apart D) :=
    le_trans (count_mono fun D h => by
      by_cases c : Apart D
      · exact .inl ⟨c, h⟩
      · exact .inr c) (count_or _ _)
  exact near_nat N hm htot (count_not N Apart) h h1 h2 (card_not_apart N)

/-- C82: the load is balanced. After any history of `Add` and `Remove` calls on `N` node names with `m` members left, `Get(key)` is any given member for one `m`-th of all
choices of hashes, up to `N^2 / 2^58`. -/
theorem C82_balanced (hH : GoodHash H) (hinj : Function.Injective nodes) (r : Nat) (hr : 0 < r) (ops : List (KOp N)) {key : Str} (hk : ∀ i, nodes i ≠ key)
    {a : Fin N} (ha : a ∈ members ops ∅) :
    |share N (fun D => answer H nodes r ops key D = .ok (some (nodes a))) - 1 / (members ops ∅).card| ≤ N ^ 2 / 2 ^ 58 :=
  near_share _ (card_pos.2 ⟨a, ha⟩) _ (C82_exact_share hH hinj r hr ops hk ha)

theorem members_append {N : Nat} : ∀ (ops ops' : List (KOp N)) (M : Finset (Fin N)), members (ops ++ ops') M = members ops' (members ops M) := by
  intro ops
  induction ops with
  | nil => intro ops' M; rfl
  | cons op ops ih =>
    intro ops' M
    cases op <;> exact ih _ _

theorem runOps_append {H : Str → Str} : ∀ (ops ops' : List (KOp N)) (k : Ketama), runOps H nodes (ops ++ ops') k = runOps H nodes ops k >>= runOps H nodes ops' := by
  intro ops
  induction ops with
  | nil => intro ops' k; rfl
  | cons op ops ih =>
    intro ops' k
    cases op <;> simp only [List.cons_append, runOps, ih, bind_assoc]

/-- C82: adding a node to a ring of `m` members moves the key for one `m+1`-st of all choices of hashes, up to `N^2 / 2^58` (`N` node names in all). -/
theorem C82_moves_little (hH : GoodHash H) (hinj : Function.Injective nodes) (r : Nat) (hr : 0 < r) (ops : List (KOp N)) {key : Str} (hk : ∀ i, nodes i ≠ key)
    {b : Fin N} (hb : b ∉ members ops ∅) (hne : (members ops ∅).Nonempty) :
    |share N (fun D => answer H nodes r (ops ++ [.add [b]]) key D ≠ answer H nodes r ops key D) - 1 / ((members ops ∅).card + 1)| ≤ N ^ 2 / 2 ^ 58 := by
  have hM : members (ops ++ [.add [b]]) ∅ = members ops ∅ ∪ {b} := by
    rw [members_append]; simp [members]
  have hcard : (members (ops ++ [KOp.add [b]]) ∅).card = (members ops ∅).card + 1 := by
    rw [hM, card_union_of_disjoint (by simpa using hb), card_singleton]
  have ex := C82_exact_share hH hinj r hr (ops ++ [.add [b]]) hk (a := b) (by rw [hM]; simp)
  rw [hcard] at ex
  have key1 : (fun D : Choice N => Apart D ∧ answer H nodes r (ops ++ [.add [b]]) key D ≠ answer H nodes r ops key D) =
      fun D : Choice N => Apart D ∧ answer H nodes r (ops ++ [.add [b]]) key D = .ok (some (nodes b)) := by
    funext D
    rw [eq_iff_iff, and_congr_right_iff]
    intro hD
    have hg := hashWith_good (nodes := nodes) hH D
    obtain ⟨k, f, ek, hf, hm⟩ := runOps_mem hg hinj ops (new r) ∅ _ Hist.new (by
      have : (fun n => ∃ i ∈ (∅ : Finset (Fin N)), nodes i = n) = fun _ => False := by
        funext n; simp
      rw [this]; exact .new)
    obtain ⟨k', ek'⟩ := (C54_no_panic hg hf).1 [nodes b]
    obtain ⟨o, eo⟩ := (C54_no_panic hg hf).2.2 key
    obtain ⟨o', eo'⟩ := (C54_no_panic hg (hf.add ek')).2.2 key
    have a1 : answer H nodes r ops key D = .ok o := by simp only [answer, ek, Res.ok_bind, eo]
    have a2 : answer H nodes r (ops ++ [.add [b]]) key D = .ok o' := by
      simp only [answer, runOps_append, ek, Res.ok_bind, runOps, List.map_cons, List.map_nil, ek', eo']
    rw [a1, a2]
    have hmin := C55_add_minimal hg hf ek' eo eo'
    have hmem := (C56_get_member_partial hg (hD.noCollision hinj) hm key).1
    constructor
    · intro hne
      rcases hmin with h | ⟨n, hn, h⟩
      · exact absurd (by rw [h]) hne
      · rw [List.mem_singleton] at hn
        rw [h, hn]
    · intro h e
      rw [h] at e
      injection e with e
      rw [← e] at eo
      obtain ⟨i, hi, e2⟩ := hmem _ eo
      have := hinj e2
      subst this
      exact hb hi
  have := near_share (N := N) ((members ops ∅).card + 1) (by omega) (fun D => answer H nodes r (ops ++ [.add [b]]) key D ≠ answer H nodes r ops key D) (by rw [key1]; exact ex)
  push_cast at this
  exact this

end

/-- A case that meets the hypotheses: five names, of which `[0]`, `[1]` and `[2]` are added, `[1]` is removed and `[3]` is added: three members, each of which gets
the key in a third of the choices up to `25 / 2^58`; adding `[4]` moves the key in a quarter of them. -/
example : let nodes : Fin 5 → Str := fun i => [BitVec.ofNat 8 i]
    let ops : List (KOp 5) := [.add [0, 1, 2], .remove [1], .add [3]]
    |share 5 (fun D => answer (fun _ => List.replicate 64 0) nodes 8 ops [9] D = .ok (some [2])) - 1 / 3| ≤ 25 / 2 ^ 58 ∧
    |share 5 (fun D => answer (fun _ => List.replicate 64 0) nodes 8 (ops ++ [.add [4]]) [9] D ≠ answer (fun _ => List.replicate 64 0) nodes 8 ops [9] D) - 1 / 4| ≤ 25 / 2 ^ 58 := by
  intro nodes ops
  have hH : GoodHash fun _ => List.replicate 64 0 := by intro s; simp
  have hinj : Function.Injective nodes := by decide
  have hk : ∀ i, nodes i ≠ [9] := by decide
  have hM : (members ops ∅).card = 3 := by decide
  have h1 := C82_balanced hH hinj 8 (by omega) ops hk (a := 2) (by decide)
  have h2 := C82_moves_little hH hinj 8 (by omega) ops hk (b := 4) (by decide) (by decide)
  rw [hM] at h1 h2
  norm_num at h1 h2 ⊢
  exact ⟨h1, h2⟩

/-- `C82_exact_share` on the same ring. -/
example : let nodes : Fin 5 → Str := fun i => [BitVec.ofNat 8 i]
    let ops : List (KOp 5) := [.add [0, 1, 2], .remove [1], .add [3]]
    3 * count 5 (fun D => Apart D ∧ answer (fun _ => List.replicate 64 0) nodes 8 ops [9] D = .ok (some [2])) = count 5 Apart := by
  intro nodes ops
  have hM : (members ops ∅).card = 3 := by decide
  have h := C82_exact_share (H := fun _ => List.replicate 64 0) (nodes := nodes) (by intro s; simp) (by decide) 8 (by omega) ops (key := [9]) (by decide) (a := 2) (by decide)
  have e2 : nodes 2 = [2] := rfl
  rw [hM, e2] at h
  exact h

end GoSTL.Ketama
