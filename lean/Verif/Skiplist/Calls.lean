import Verif.Skiplist.Expected
/-!
# C112: comparator calls of the skip list in the worst case
-/
namespace GoSTL.Skiplist
variable {K V : Type} {cmp : K → K → Int}

theorem climbSum_cons (n h : Nat) (t : List Nat) : climbSum n (h :: t) ≤ climbSum n t + if h ≤ n then 1 else 0 := by
  induction n with
  | zero => simp [climbSum]
  | succ n ih =>
    rw [climbSum_succ, climbSum_succ]
    have : climbs n (h :: t) ≤ climbs n t + if h = n + 1 then 1 else 0 := by
      show (if _ then 1 else 0) + climbs n t ≤ _
      split
      · next h' => rw [if_pos h'.1]; omega
      · omega
    split at ih <;> split at this <;> split <;> omega

/-- Every element is stepped over on one level at most. -/
theorem climbSum_le (n : Nat) (H : List Nat) : climbSum n H ≤ H.length + n := by
  induction H with
  | nil =>
    induction n with
    | zero => simp [climbSum]
    | succ n ih => rw [climbSum_succ]; simp only [climbs, List.length_nil] at *; omega
  | cons h t ih =>
    have := climbSum_cons n h t
    rw [List.length_cons]
    split at this <;> omega

/-- **C112** Whatever the random numbers: after every history on a skip list of `n` levels, `Insert`, `Get` and `Remove` call the comparator at
most `r + n + 1` times, where `r` is the number of keys present below the one asked for, and `Len` does not call it. -/
theorem C112_skiplist (hc : LawfulCmp cmp) (n : Nat) (h1 : 1 ≤ n) (h2 : n ≤ 64) (ops : List (Op K V)) (d : Fin ops.length → BitVec 64) (op : Op K V) :
    ∃ w0 os w r m, New n = .ok w0 ∧ run cmp (withDraws (draws d) 0 ops) w0 = .ok (os, w) ∧ step cmp op w = .ok r ∧ stepC cmp op w = .ok (r, m) ∧
      m ≤ ((specRun cmp ops []).2.filter (fun x => below cmp op x.1)).length + n + 1 ∧ (op = .len → m = 0) := by
  obtain ⟨J, hJ, hlen, hist⟩ := history hc h1 h2 ops (below cmp op)
  obtain ⟨w0, os, w, G, e0, e, hm, hi, _, hh⟩ := hist d
  obtain ⟨r, m, e', l⟩ := stepC_bound hc hi op
  refine ⟨w0, os, w, r, m, e0, e, ?_, e', ?_, ?_⟩
  · rw [← stepC_fst, e']; rfl
  · rw [hh, hm] at l
    have := climbSum_le n (heights n J d)
    have h3 : (heights n J d).length = J.length := by simp [heights]
    omega
  · rintro rfl
    cases e'
    rfl

/-- `C112_skiplist`. -/
example := C112_skiplist subCmp_lawful 3 (by decide) (by decide) demoOps (fun _ => 5) (.get 5)
/-- Three keys, all on one level, and a list of one level: a search beyond them takes three calls, `Remove` of a present one three and one more. -/
example : ∃ (w : SL Int Int) (os : List (Out Int)), (New 1 >>= run (fun a b => a - b) [.insert 1 10 0, .insert 2 20 3, .insert 3 30 1]) = .ok (os, w) ∧
    (stepC (fun a b => a - b) (.get 4) w >>= fun r => .ok r.2) = .ok 3 ∧ (stepC (fun a b => a - b) (.remove 3) w >>= fun r => .ok r.2) = .ok 4 :=
  ⟨_, _, rfl, rfl, rfl⟩

end GoSTL.Skiplist
