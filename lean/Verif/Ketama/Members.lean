import Verif.Ketama.Props
import Mathlib.Data.List.Nodup
import Mathlib.Data.List.Perm.Subperm
/-!
# Ketama: C56 (dependence on the member set), C61 (number of points)
-/
namespace GoSTL.Ketama
open GoSTL.RB GoSTL.TreeMap
open Bloom (GoodHash)

variable {H : Str → Str}

/-- The ring in which exactly the members of `M` have exactly their points. -/
def Exact (H : Str → Str) (r : Nat) (M : Str → Prop) (f : Ring) : Prop := ∀ p n, f p = some n ↔ M n ∧ p ∈ points H r n

theorem exact_claim {r : Nat} {U : Str → Prop} (hU : NoCollision H r U) : ∀ (nodes : List Str) (M : Str → Prop) (f : Ring),
    (∀ n, M n → U n) → (∀ n ∈ nodes, U n) → Exact H r M f → Exact H r (fun n => n ∈ nodes ∨ M n) (nodes.foldl (claim H r) f) := by
  intro nodes
  induction nodes with
  | nil => intro M f _ _ h p n; simpa using h p n
  | cons a nodes ih =>
    intro M f hM hn h
    have ha : U a := hn a (List.mem_cons_self ..)
    have h1 : Exact H r (fun n => n = a ∨ M n) (claim H r f a) := by
      intro p n
      simp only [claim]
      split
      · next hc =>
        constructor
        · intro e; cases e; exact ⟨.inl rfl, hc.1⟩
        · rintro ⟨rfl | hm, hp⟩
          · rfl
          · have := (h p n).2 ⟨hm, hp⟩
            rw [hc.2] at this; cases this
      · next hc =>
        rw [h p n]
        constructor
        · rintro ⟨hm, hp⟩; exact ⟨.inr hm, hp⟩
        · rintro ⟨rfl | hm, hp⟩
          · cases hf : f p with
            | none => exact absurd ⟨hp, hf⟩ hc
            | some b =>
              obtain ⟨hb, hpb⟩ := (h p b).1 hf
              have := hU n b p ha (hM b hb) hp hpb
              subst this; exact ⟨hb, hp⟩
          · exact ⟨hm, hp⟩
    have h2 := ih (fun n => n = a ∨ M n) _ (by rintro n (rfl | hm); exacts [ha, hM n hm]) (fun n hn' => hn n (List.mem_cons_of_mem _ hn')) h1
    intro p n
    rw [List.foldl_cons, h2 p n]
    simp only [List.mem_cons]
    tauto

theorem exact_release {r : Nat} : ∀ (nodes : List Str) (M : Str → Prop) (f : Ring),
    Exact H r M f → Exact H r (fun n => n ∉ nodes ∧ M n) (nodes.foldl (release H r) f) := by
  intro nodes
  induction nodes with
  | nil => intro M f h p n; simpa using h p n
  | cons a nodes ih =>
    intro M f h
    have h1 : Exact H r (fun n => n ≠ a ∧ M n) (release H r f a) := by
      intro p n
      simp only [release]
      split
      · next hc =>
        constructor
        · intro e; cases e
        · rintro ⟨⟨hne, hm⟩, hp⟩
          have := (h p n).2 ⟨hm, hp⟩
          rw [hc.2] at this
          simp only [Option.some.injEq] at this
          exact absurd this.symm hne
      · next hc =>
        rw [h p n]
        constructor
        · rintro ⟨hm, hp⟩
          refine ⟨⟨?_, hm⟩, hp⟩
          rintro rfl
          exact hc ⟨hp, (h p n).2 ⟨hm, hp⟩⟩
        · rintro ⟨⟨-, hm⟩, hp⟩; exact ⟨hm, hp⟩
    have h2 := ih (fun n => n ≠ a ∧ M n) _ h1
    intro p n
    rw [List.foldl_cons, h2 p n]
    simp only [List.mem_cons]
    tauto

theorem memHist_exact {r : Nat} {U : Str → Prop} (hU : NoCollision H r U) {k : Ketama} {M : Str → Prop} (h : MemHist H r U k M) :
    (∀ n, M n → U n) ∧ ∃ f, Hist H r k f ∧ Exact H r M f := by
  induction h with
  | new => exact ⟨fun _ h => h.elim, _, .new, fun p n => by simp⟩
  | @add k k' M nodes _ hn e ih =>
    obtain ⟨hM, f, h1, h2⟩ := ih
    refine ⟨?_, _, h1.add e, exact_claim hU nodes M f hM hn h2⟩
    rintro n (h | h)
    · exact hn n h
    · exact hM n h
  | @remove k k' M nodes _ hn e ih =>
    obtain ⟨hM, f, h1, h2⟩ := ih
    exact ⟨fun n h => hM n h.2, _, h1.remove e, exact_release nodes M f h2⟩

/-- C56, the part that holds: as long as no two of the nodes ever used share a ring point, the mapping depends only on the set of member
nodes: two rings reached by any two histories (any orders, repetitions, removals and re-additions) with the same members map every key to the
same node. Missing (and false, see `C56_violated`): the same when points of different nodes collide. -/
theorem C56_membership_partial (hH : GoodHash H) {r : Nat} {U : Str → Prop} (hU : NoCollision H r U) {k k' : Ketama} {M M' : Str → Prop}
    (h : MemHist H r U k M) (h' : MemHist H r U k' M') (hM : ∀ n, M n ↔ M' n) (key : Str) : get H k key = get H k' key := by
  obtain ⟨-, f, h1, h2⟩ := memHist_exact hU h
  obtain ⟨-, f', h1', h2'⟩ := memHist_exact hU h'
  have hf : f = f' := by
    funext p
    apply Option.ext
    intro n
    rw [h2 p n, h2' p n, hM n]
  subst hf
  obtain ⟨o, e, ho⟩ := get_spec hH (hist_inv hH h1) key
  rw [e, ((C54_get_is_clockwise_owner hH h1' key o).1).2 ho]

/-- C56 under the same condition: every member with a point is used, and nothing else: the ring is empty iff there is no member with points. -/
theorem C56_get_member_partial (hH : GoodHash H) {r : Nat} {U : Str → Prop} (hU : NoCollision H r U) {k : Ketama} {M : Str → Prop}
    (h : MemHist H r U k M) (key : Str) :
    (∀ n, get H k key = .ok (some n) → M n) ∧ (0 < r → (∃ n, M n) → get H k key ≠ .ok none) := by
  obtain ⟨-, f, h1, h2⟩ := memHist_exact hU h
  refine ⟨fun n hg => ?_, ?_⟩
  · obtain ⟨p, hp, -⟩ := ((C54_get_is_clockwise_owner hH h1 key _).1).1 hg
    exact ((h2 p n).1 hp).1
  · rintro hr ⟨n, hn⟩ hg
    have := ((C54_get_is_clockwise_owner hH h1 key _).1).1 hg
    have hw := Bloom.words_ne hH (salt ++ n)
    cases hx : Bloom.words (H (salt ++ n)) with
    | nil => exact hw hx
    | cons x xs =>
      have hp : x ∈ points H r n := by
        obtain ⟨r', rfl⟩ : ∃ r', r = r' + 1 := ⟨r - 1, by omega⟩
        simp [points, hx]
      have h3 := (h2 x n).2 ⟨hn, hp⟩
      rw [this x] at h3; cases h3

/-- C56, with collisions: removing nodes just added gives back the same mapping, provided they owned no point before. -/
theorem C56_remove_undoes_add_partial (hH : GoodHash H) {r : Nat} {k k1 k2 : Ketama} {f : Ring} (h : Hist H r k f) {nodes : List Str}
    (hfresh : ∀ n ∈ nodes, ∀ p, f p ≠ some n) (ha : add H k nodes = .ok k1) (hr : remove H k1 nodes = .ok k2) (key : Str) :
    get H k2 key = get H k key := by
  have hf : (nodes.foldl (release H r) (nodes.foldl (claim H r) f)) = f := by
    funext p
    obtain ⟨a1, a2⟩ := claim_mono (H := H) r nodes f
    obtain ⟨b1, b2⟩ := release_mono (H := H) r nodes (nodes.foldl (claim H r) f)
    have b3 := fun n hn => release_gone r (h.add ha) nodes n hn p
    apply Option.ext
    intro n
    constructor
    · intro e
      rcases a2 p n (b1 p n e) with h | h
      · exact h
      · exact absurd e (b3 n h)
    · intro e
      rcases b2 p n (a1 p n e) with h | h
      · exact h
      · exact absurd e (hfresh n h p)
  have h2 := (h.add ha).remove hr
  rw [hf] at h2
  obtain ⟨o, e, ho⟩ := get_spec hH (hist_inv hH h) key
  rw [e, ((C54_get_is_clockwise_owner hH h2 key o).1).2 ho]

/-- A hash function that sends everything to the same 64 bytes. -/
def constHash (_ : Str) : Str := List.replicate 64 0

theorem constHash_good : GoodHash constHash := by intro d; simp [constHash]

/-- C56 is false of the code when points collide: after `Add(A)`, `Add(B)`, `Remove(A)` the node `B` is a member but the ring is empty, while
after `Add(B)` alone (the same members) every key is on `B`. -/
theorem C56_violated : ∃ (H : Str → Str) (k k' : Ketama) (M M' : Str → Prop) (B key : Str), GoodHash H ∧
    MemHist H 10 (fun _ => True) k M ∧ MemHist H 10 (fun _ => True) k' M' ∧ (∀ n, M n ↔ M' n) ∧ M B ∧
    get H k key = .ok none ∧ get H k' key = .ok (some B) := by
  have h0 : ∃ k1 k2 k k', add constHash (new 10) [[65]] = .ok k1 ∧ add constHash k1 [[66]] = .ok k2 ∧ remove constHash k2 [[65]] = .ok k ∧
      add constHash (new 10) [[66]] = .ok k' ∧ get constHash k [67] = .ok none ∧ get constHash k' [67] = .ok (some [66]) :=
    ⟨_, _, _, _, rfl, rfl, rfl, rfl, rfl, rfl⟩
  obtain ⟨k1, k2, k, k', e1, e2, e3, e4, e5, e6⟩ := h0
  have m0 : MemHist constHash 10 (fun _ => True) (new 10) fun _ => False := .new
  refine ⟨constHash, k, k', _, _, [66], [67], constHash_good,
    ((m0.add (fun _ _ => trivial) e1).add (fun _ _ => trivial) e2).remove (fun _ _ => trivial) e3, m0.add (fun _ _ => trivial) e4, ?_, ?_, e5, e6⟩
  · intro n
    simp only [List.mem_singleton, or_false]
    constructor
    · rintro ⟨h1, h2 | h2⟩
      · exact h2
      · exact absurd h2 h1
    · rintro rfl; exact ⟨by decide, .inl rfl⟩
  · simp

/-- The condition of C56 can be met: two nodes with different points, added in different orders, one removed and added again. -/
theorem demo_members : ∃ k k' M M', NoCollision Bloom.exHash 1 (fun n => n = [1] ∨ n = [2]) ∧
    MemHist Bloom.exHash 1 (fun n => n = [1] ∨ n = [2]) k M ∧ MemHist Bloom.exHash 1 (fun n => n = [1] ∨ n = [2]) k' M' ∧
    (∀ n, M n ↔ M' n) ∧ M [1] ∧ M [2] ∧ get Bloom.exHash k [1] = .ok (some [1]) ∧ get Bloom.exHash k' [3] = .ok (some [1]) ∧
    get Bloom.exHash k [2] = .ok (some [2]) := by
  have h0 : ∃ k k1 k2 k', add Bloom.exHash (new 1) [[1], [2]] = .ok k ∧ add Bloom.exHash (new 1) [[2], [1]] = .ok k1 ∧
      remove Bloom.exHash k1 [[2]] = .ok k2 ∧ add Bloom.exHash k2 [[2]] = .ok k' ∧
      get Bloom.exHash k [1] = .ok (some [1]) ∧ get Bloom.exHash k' [3] = .ok (some [1]) ∧ get Bloom.exHash k [2] = .ok (some [2]) :=
    ⟨_, _, _, _, rfl, rfl, rfl, rfl, rfl, rfl, rfl⟩
  obtain ⟨k, k1, k2, k', e1, e2, e3, e4, e5, e6, e7⟩ := h0
  have m0 : MemHist Bloom.exHash 1 (fun n => n = [1] ∨ n = [2]) (new 1) fun _ => False := .new
  refine ⟨k, k', _, _, ?_, m0.add (by simp) e1, ((m0.add (by simp) e2).remove (by simp) e3).add (by simp) e4, ?_, by simp, by simp, e5, e6, e7⟩
  · have p1 : points Bloom.exHash 1 [1] = [144] := rfl
    have p2 : points Bloom.exHash 1 [2] = [145] := rfl
    rintro a b p (rfl | rfl) (rfl | rfl)
    · intros; rfl
    · rw [p1, p2]; intro h1 h2; simp at h1 h2; omega
    · rw [p1, p2]; intro h1 h2; simp at h1 h2; omega
    · intros; rfl
  · intro n
    simp only [List.mem_cons, List.not_mem_nil, or_false]
    by_cases h1 : n = [1] <;> by_cases h2 : n = [2] <;> simp_all

/-! ## C61: the number of points of a node -/

theorem size_points {r : Nat} {k : Ketama} {f : Ring} (h : KInv r k f) : ∃ ps : List Nat, ps.Nodup ∧ (∀ p, p ∈ ps ↔ f p ≠ none) ∧
    size k.m = ps.length := by
  obtain ⟨-, kvs, h1, h2, h3⟩ := h
  refine ⟨kvs.map (·.1), ?_, fun p => ?_, by simp [h1.size]⟩
  · rw [List.Nodup, List.pairwise_map]
    refine h2.imp fun {a b} hab => ?_
    have := u64Cmp_lt.1 hab
    omega
  · rw [List.mem_map]
    constructor
    · rintro ⟨⟨q, v⟩, hm, rfl⟩
      have : f q = some v := by rw [h3, lk_mem u64Cmp_lawful h2]; exact ⟨q, hm, u64Cmp_eq.2 rfl⟩
      rw [this]; simp
    · intro hp
      cases hv : f p with
      | none => exact absurd hv hp
      | some v =>
        rw [h3, lk_mem u64Cmp_lawful h2] at hv
        obtain ⟨k', hm, hk⟩ := hv
        rw [u64Cmp_eq] at hk; subst hk
        exact ⟨_, hm, rfl⟩

/-- The points of a ring with a single node. -/
theorem single_size (hH : GoodHash H) {r : Nat} {k : Ketama} {node : Str} (ha : add H (new r) [node] = .ok k) :
    ∃ ps : List Nat, ps.Nodup ∧ (∀ p, p ∈ ps ↔ p ∈ points H r node) ∧ size k.m = ps.length := by
  obtain ⟨ps, h1, h2, h3⟩ := size_points (hist_inv hH (Hist.new.add ha))
  refine ⟨ps, h1, fun p => ?_, h3⟩
  rw [h2]
  simp [claim]

/-- C61 is false of the code for every `replicas > 8`: with a 64-byte hash (SHA-512), `Add` of one node to an empty ring places at most 8
points, whatever `WithReplicas` asked for (the default is 10). -/
theorem C61_violated (h64 : ∀ d, (H d).length = 64) (r : Nat) (node : Str) :
    ∃ k, add H (new r) [node] = .ok k ∧ size k.m ≤ 8 := by
  have hH : GoodHash H := fun d => by rw [h64]; omega
  obtain ⟨k, e⟩ := (C54_no_panic hH (Hist.new (H := H) (r := r))).1 [node]
  refine ⟨k, e, ?_⟩
  obtain ⟨ps, h1, h2, h3⟩ := single_size hH e
  have hsub := (List.subperm_of_subset h1 (fun p hp => (h2 p).1 hp)).length_le
  have : (points H r node).length ≤ 8 := by
    simp only [points, List.length_take, Bloom.words, Bloom.wordsN_length, h64]; omega
  rw [h3]; omega

/-- C61, the part that holds: a node whose hash has at least `replicas` words, all different, gets exactly `replicas` points on an empty ring. Missing
(and false): more than one block of words. -/
theorem C61_replicas_partial (hH : GoodHash H) (r : Nat) (node : Str) (hr : r ≤ (Bloom.words (H (salt ++ node))).length)
    (hd : (Bloom.words (H (salt ++ node))).Nodup) : ∃ k, add H (new r) [node] = .ok k ∧ size k.m = r := by
  obtain ⟨k, e⟩ := (C54_no_panic hH (Hist.new (H := H) (r := r))).1 [node]
  refine ⟨k, e, ?_⟩
  obtain ⟨ps, h1, h2, h3⟩ := single_size hH e
  have hn : (points H r node).Nodup := hd.sublist (List.take_sublist _ _)
  have l1 := (List.subperm_of_subset h1 (fun p hp => (h2 p).1 hp)).length_le
  have l2 := (List.subperm_of_subset hn (fun p hp => (h2 p).2 hp)).length_le
  have l3 : (points H r node).length = r := by simp only [points, List.length_take]; omega
  rw [h3]; omega

/-- A hash with different words. -/
example : (Bloom.words ((fun _ => (List.range 64).map (BitVec.ofNat 8)) (salt ++ [1]))).Nodup ∧
    8 ≤ (Bloom.words ((fun _ : Str => (List.range 64).map (BitVec.ofNat 8)) (salt ++ [1]))).length := by
  decide

/-- `C56_membership_partial`, `C56_get_member_partial`: the two histories of `demo_members` answer every key alike, and always with `[1]` or `[2]`. -/
example : ∃ k k' : Ketama, get Bloom.exHash k [2] = .ok (some [2]) ∧ (∀ key, get Bloom.exHash k key = get Bloom.exHash k' key) ∧ ∀ key, get Bloom.exHash k key ≠ .ok none := by
  obtain ⟨k, k', M, M', hU, h, h', hM, m1, -, -, -, g⟩ := demo_members
  exact ⟨k, k', g, C56_membership_partial Bloom.exHash_good hU h h' hM, fun key => (C56_get_member_partial Bloom.exHash_good hU h key).2 (by decide) ⟨_, m1⟩⟩
/-- `C56_remove_undoes_add_partial`: a node added and removed again leaves no trace. -/
example : ∃ k k1 k2 : Ketama, get Bloom.exHash k [2] = .ok (some [2]) ∧ add Bloom.exHash k [[9]] = .ok k1 ∧ remove Bloom.exHash k1 [[9]] = .ok k2 ∧
    ∀ key, get Bloom.exHash k2 key = get Bloom.exHash k key := by
  obtain ⟨k, h, -, -, h2⟩ := demo_ring
  obtain ⟨k1, e1⟩ := (C54_no_panic Bloom.exHash_good h).1 [[9]]
  obtain ⟨k2, e2⟩ := (C54_no_panic Bloom.exHash_good (h.add e1)).2.1 [[9]]
  refine ⟨k, k1, k2, h2, e1, e2, C56_remove_undoes_add_partial Bloom.exHash_good h ?_ e1 e2⟩
  intro n hn p hp
  simp only [List.mem_singleton] at hn
  subst hn
  simp only [List.foldl_cons, List.foldl_nil, claim] at hp
  have h9 : ∀ (c d : Prop) [Decidable c] [Decidable d] (x y : Option Str), x ≠ some [9] → y ≠ some [9] → (if c then x else if d then y else none) ≠ some [9] := by
    intro c d _ _ x y hx hy
    by_cases hc : c
    · rw [if_pos hc]; exact hx
    · rw [if_neg hc]
      by_cases hd : d
      · rw [if_pos hd]; exact hy
      · rw [if_neg hd]; simp
  exact h9 _ _ _ _ (by decide) (by decide) hp
/-- `C61_violated`, `C61_replicas_partial`: asked for 10 points a node gets at most 8; asked for 8 it gets 8 when its words differ. -/
example : ∃ k, add Bloom.exHash (new 10) [[1]] = .ok k ∧ size k.m ≤ 8 := C61_violated (fun d => by simp [Bloom.exHash]) 10 [1]
example : ∃ k, add (fun _ => (List.range 64).map (BitVec.ofNat 8)) (new 8) [[1]] = .ok k ∧ size k.m = 8 :=
  C61_replicas_partial (H := fun _ => (List.range 64).map (BitVec.ofNat 8)) (fun _ => by simp) 8 [1] (by decide) (by decide)

end GoSTL.Ketama
