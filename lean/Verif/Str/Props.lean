import Verif.Str.Model
import Verif.Deque.Props
import Verif.BidList.Props
import Verif.SimpleList.Props
import Verif.TreeMap.SetProps
import Verif.TreeMap.MultiProps
/-!
# C62: what `String` prints
-/
namespace GoSTL.Str
open RB TreeMap
variable {T : Type}

/-- What a reader expects: the elements in order, in brackets, separated by one blank each (as `fmt` prints a slice). -/
def expected (fmt : T → List Char) (xs : List T) : List Char := '[' :: (List.intercalate [' '] (xs.map fmt) ++ [']'])

/-- What is printed: leading elements whose text is empty leave no trace. -/
def printed (fmt : T → List Char) (xs : List T) : List Char :=
  '[' :: (List.intercalate [' '] ((xs.map fmt).dropWhile (·.isEmpty)) ++ [']'])

theorem inter_cons2 (a b : List Char) (l : List (List Char)) :
    List.intercalate [' '] (a :: b :: l) = a ++ ' ' :: List.intercalate [' '] (b :: l) := by
  simp [List.intercalate, List.intersperse]

/-- The loop after the first visible text. -/
theorem fold_go (fmt : T → List Char) (xs : List T) : ∀ s, s ≠ ['['] → 1 ≤ s.length →
    xs.foldl (addElem fmt) s = s ++ (xs.map fun x => ' ' :: fmt x).flatten := by
  induction xs with
  | nil => intro s _ _; simp
  | cons x xs ih =>
    intro s hs hl
    have e : addElem fmt s x = s ++ ' ' :: fmt x := by simp [addElem, hs]
    rw [List.foldl_cons, e, ih _ _ (by simp; omega)]
    · simp
    · intro h
      have := congrArg List.length h
      simp at this
      omega

theorem inter_flatten (a : List Char) (l : List (List Char)) : List.intercalate [' '] (a :: l) = a ++ (l.map fun x => ' ' :: x).flatten := by
  induction l generalizing a with
  | nil => simp [List.intercalate]
  | cons b l ih => rw [inter_cons2, ih]; simp

theorem fold_printed (fmt : T → List Char) (xs : List T) : xs.foldl (addElem fmt) ['['] ++ [']'] = printed fmt xs := by
  rw [printed]
  suffices h : xs.foldl (addElem fmt) ['['] = '[' :: List.intercalate [' '] ((xs.map fmt).dropWhile (·.isEmpty)) by rw [h]; rfl
  induction xs with
  | nil => rfl
  | cons x xs ih =>
    have e : addElem fmt ['['] x = '[' :: fmt x := by simp [addElem]
    rw [List.foldl_cons, e]
    cases hx : fmt x with
    | nil => rw [ih]; simp [hx]
    | cons c cs =>
      rw [fold_go fmt xs _ (by simp) (by simp), List.map_cons, hx, List.dropWhile_cons_of_neg (by simp), inter_flatten]
      simp [Function.comp_def]

theorem printed_eq (fmt : T → List Char) {xs : List T} (h : ∀ x, xs.head? = some x → fmt x ≠ []) : printed fmt xs = expected fmt xs := by
  cases xs with
  | nil => rfl
  | cons x xs =>
    have := h x rfl
    rw [printed, expected, List.map_cons, List.dropWhile_cons_of_neg (by simpa using this)]

theorem inter_drop_le (l : List (List Char)) : (List.intercalate [' '] (l.dropWhile (·.isEmpty))).length ≤ (List.intercalate [' '] l).length := by
  induction l with
  | nil => simp
  | cons a l ih =>
    cases a with
    | cons c cs => rw [List.dropWhile_cons_of_neg (by simp)]
    | nil =>
      rw [List.dropWhile_cons_of_pos (by simp)]
      cases l with
      | nil => simp
      | cons b l => rw [inter_cons2]; simp only [List.nil_append, List.length_cons]; omega

theorem printed_ne (fmt : T → List Char) (x y : T) (xs : List T) (h : fmt x = []) : printed fmt (x :: y :: xs) ≠ expected fmt (x :: y :: xs) := by
  intro he
  have hl := congrArg List.length he
  have := inter_drop_le (fmt y :: xs.map fmt)
  simp only [printed, expected, List.map_cons, h] at hl
  rw [List.dropWhile_cons_of_pos (by simp), inter_cons2] at hl
  simp only [List.length_cons, List.length_append, List.nil_append] at hl
  omega

/-! ## The containers print `printed` -/

theorem dequeLoop_spec {cfg : Deque.Cfg T} (fmt : T → List Char) {d : Deque.Deq T} {l : List T} (hs : Deque.size d = (l.length : Int))
    (ha : ∀ p, Deque.at_ cfg d p = Res.ofOption (Seq.at? l p)) : ∀ (f i : Nat) (str : List Char), i ≤ l.length → l.length < i + f →
    dequeLoop cfg fmt d f i str = .ok ((l.drop i).foldl (addElem fmt) str) := by
  intro f
  induction f with
  | zero => intro i str h1 h2; omega
  | succ f ih =>
    intro i str h1 h2
    rw [dequeLoop, hs]
    by_cases hi : i < l.length
    · rw [if_pos (by omega), ha]
      have e : Seq.at? l (i : Int) = some l[i] := by simp [Seq.at?, hi]
      rw [e, Res.ofOption_some, Res.ok_bind]
      have := ih (i + 1) (addElem fmt str l[i]) (by omega) (by omega)
      rw [show ((i : Int) + 1) = ((i + 1 : Nat) : Int) by omega, this, List.drop_eq_getElem_cons hi, List.foldl_cons]
    · rw [if_neg (by omega), List.drop_of_length_le (by omega), List.foldl_nil]

theorem dequeString_spec {cfg : Deque.Cfg T} (fmt : T → List Char) {d : Deque.Deq T} {l : List T} (hs : Deque.size d = (l.length : Int))
    (ha : ∀ p, Deque.at_ cfg d p = Res.ofOption (Seq.at? l p)) : dequeString cfg fmt d = .ok (printed fmt l) := by
  rw [dequeString, hs]
  have := dequeLoop_spec fmt hs ha (l.length + 1) 0 ['['] (by omega) (by omega)
  simp only [Int.toNat_natCast]
  rw [show (0 : Int) = ((0 : Nat) : Int) from rfl, this, Res.ok_bind, List.drop_zero, fold_printed]

/-- C62, `Deque.String`: the text of the elements in order; the leading elements with an empty text are not separated. -/
theorem C62_deque {cfg : Deque.Cfg T} (hg : cfg.Good) {d : Deque.Deq T} (h : Deque.Reachable cfg d) (fmt : T → List Char) : ∃ l : List T,
    (Deque.size d = (l.length : Int) ∧ ∀ p, Deque.at_ cfg d p = Res.ofOption (Seq.at? l p)) ∧ dequeString cfg fmt d = .ok (printed fmt l) := by
  obtain ⟨l, h1, -⟩ := Deque.C16_deque hg h
  exact ⟨l, h1, dequeString_spec fmt h1.1 h1.2⟩

theorem simpleLoop_eq (fmt : T → List Char) (w : SimpleList.World T) : ∀ (f : Nat) (n : Option Nat) (str : List Char),
    simpleLoop fmt w f n str = (SimpleList.traversal (fun _ => true) w f n).bind fun xs => .ok (xs.foldl (addElem fmt) str) := by
  intro f
  induction f with
  | zero => intro n str; rfl
  | succ f ih =>
    intro n str
    cases n with
    | none => rfl
    | some n =>
      simp only [simpleLoop, SimpleList.traversal]
      cases SimpleList.node w n with
      | ok nd =>
        simp only [Res.ok_bind]
        cases SimpleList.next w n with
        | ok m =>
          simp only [Res.ok_bind, ih]
          cases SimpleList.traversal (fun _ => true) w f m <;> rfl
        | panic => rfl
        | outOfFuel => rfl
      | panic => rfl
      | outOfFuel => rfl

theorem shown_all (xs : List T) : BidList.shown (fun _ => true) xs = xs := by
  induction xs with
  | nil => rfl
  | cons x xs ih => simp [BidList.shown, ih]

/-- C62, `String` of a single list. -/
theorem C62_simplelist {zero : T} {w : SimpleList.World T} {S : SimpleList.Spec T} (h : SimpleList.Reachable zero w S) (fmt : T → List Char) {f : Nat}
    (hf : S.seq.length < f) : simpleString fmt w f = .ok (printed fmt (S.valsOf S.seq)) := by
  rw [simpleString, simpleLoop_eq, SimpleList.C10_traversal h _ hf, shown_all]
  show Res.ok _ = _
  rw [fold_printed]

theorem bidLoop_eq (fmt : T → List Char) (w : BidList.World T) : ∀ (f : Nat) (n : Option Nat) (str : List Char),
    bidLoop fmt w f n str = (BidList.traversal (fun _ => true) w f n).bind fun xs => .ok (xs.foldl (addElem fmt) str) := by
  intro f
  induction f with
  | zero => intro n str; rfl
  | succ f ih =>
    intro n str
    cases n with
    | none => rfl
    | some n =>
      simp only [bidLoop, BidList.traversal]
      cases BidList.node w n with
      | ok nd =>
        simp only [Res.ok_bind]
        cases BidList.next w n with
        | ok m =>
          simp only [Res.ok_bind, ih]
          cases BidList.traversal (fun _ => true) w f m <;> rfl
        | panic => rfl
        | outOfFuel => rfl
      | panic => rfl
      | outOfFuel => rfl

/-- C62, `String` of a doubly linked list, whatever other lists there are. -/
theorem C62_bidlist {w : BidList.World T} {S : BidList.Spec T} (h : BidList.Reachable w S) {l : Nat} (hl : S.isList l) (fmt : T → List Char) {f : Nat}
    (hf : (S.seq l).length < f) : bidString fmt w l f = .ok (printed fmt (S.valsOf (S.seq l))) := by
  have ht := BidList.C09_traversal h hl (fun _ => true) hf
  rw [bidString]
  cases hn : BidList.frontNode w l with
  | ok n =>
    rw [hn] at ht
    simp only [Res.ok_bind] at ht ⊢
    rw [bidLoop_eq, ht, shown_all]
    show Res.ok _ = _
    rw [fold_printed]
  | panic => rw [hn] at ht; cases ht
  | outOfFuel => rw [hn] at ht; cases ht

theorem feedKeys_fold {K : Type} (fmt : K → List Char) (ks : List K) : ∀ str,
    feedKeys (fun str v => (addElem fmt str v, true)) ks str = ks.foldl (addElem fmt) str := by
  induction ks with
  | nil => intro str; rfl
  | cons k ks ih => intro str; rw [List.foldl_cons, ← ih]; rfl

/-- C62, `Set.String`: the elements in increasing order. -/
theorem C62_set {K : Type} {cmp : K → K → Int} (hc : LawfulCmp cmp) {s : Tree K Bool} {m : K → Prop} (h : SetHist cmp s m) (fmt : K → List Char) :
    ∃ ks : List K, ks.Pairwise (fun a b => cmp a b < 0) ∧ (∀ x, m x ↔ ∃ k ∈ ks, cmp x k = 0) ∧ setString fmt s = .ok (printed fmt ks) := by
  obtain ⟨-, kvs, -, -, -, h1, h2, h3, -⟩ := C43_set hc h
  refine ⟨kvs.map (·.1), h1, h2, ?_⟩
  rw [setString, h3, Res.ok_bind, feedKeys_fold, fold_printed]

/-- C62, `MultiSet.String`: the elements in increasing order, equal ones in the order of insertion. -/
theorem C62_multiset {K : Type} {cmp : K → K → Int} (hc : LawfulCmp cmp) {s : Tree K Bool} {b : List K} (h : MultiSetHist cmp s b) (fmt : K → List Char) :
    ∃ ks : List K, ks.Pairwise (fun a b => cmp a b ≤ 0) ∧ ks.Perm b ∧
      (∀ x, ks.filter (fun y => decide (cmp x y = 0)) = b.filter fun y => decide (cmp x y = 0)) ∧ setString fmt s = .ok (printed fmt ks) := by
  obtain ⟨-, -, -, kvs, -, -, h1, h2, h3, h4, -⟩ := C44_multiset hc h
  refine ⟨kvs.map (·.1), h2, h1, h3, ?_⟩
  rw [setString, h4, Res.ok_bind, feedKeys_fold, fold_printed]

/-! ## Where this is what one expects, and where not -/

/-- C62, the part that holds: if the text of the first element is not empty, what is printed is the elements in order, in brackets, with one blank
between any two. Missing (and false): lists that begin with an element whose text is empty. -/
theorem C62_string_partial (fmt : T → List Char) (xs : List T) (h : ∀ x, xs.head? = some x → fmt x ≠ []) : printed fmt xs = expected fmt xs :=
  printed_eq fmt h

/-- C62 is false for every container with at least two elements of which the first has an empty text: the blank after it is missing, and the text is the
same as that of the container without it. -/
theorem C62_violated (fmt : T → List Char) (x y : T) (xs : List T) (h : fmt x = []) :
    printed fmt (x :: y :: xs) ≠ expected fmt (x :: y :: xs) ∧ printed fmt (x :: y :: xs) = printed fmt (y :: xs) :=
  ⟨printed_ne fmt x y xs h, by rw [printed, List.map_cons, h, List.dropWhile_cons_of_pos (by simp)]; rfl⟩

/-- The identity is `fmt` for strings: a deque of "", "a" prints "[a]", and one of "a", "", "b" prints "[a  b]". -/
def strCfg : Deque.Cfg (List Char) := Deque.goCfg []

set_option maxRecDepth 20000 in
example : (do let r ← Deque.run strCfg [.pushBack [], .pushBack ['a']] Deque.new; dequeString strCfg id r.2) = .ok "[a]".toList := rfl

set_option maxRecDepth 20000 in
example : (do let r ← Deque.run strCfg [.pushBack ['a'], .pushBack [], .pushBack ['b']] Deque.new; dequeString strCfg id r.2) = .ok "[a  b]".toList := rfl

example : expected id ["".toList, "a".toList] = "[ a]".toList := rfl

example : (do let r ← SimpleList.run [] [.pushBack ['x', 'y'], .pushBack [], .pushFront ['z']] SimpleList.new
              simpleString id r.2 4) = .ok "[z xy ]".toList := rfl

example : (do let r ← BidList.run [.newList, .pushBack 0 ['x', 'y'], .pushBack 0 [], .pushFront 0 ['z']] BidList.start
              bidString id r.2 0 4) = .ok "[z xy ]".toList := rfl

/-! ### The theorems on the containers of the other files -/

/-- `%v` of a number. -/
def digits (n : Nat) : List Char := Nat.toDigits 10 n

example : ∃ (d : Deque.Deq Nat) (l : List Nat), Deque.size d = 2 ∧ Deque.at_ Deque.smallCfg d 1 = .ok 11 ∧ (Deque.size d = (l.length : Int) ∧
    ∀ p, Deque.at_ Deque.smallCfg d p = Res.ofOption (Seq.at? l p)) ∧ dequeString Deque.smallCfg digits d = .ok (printed digits l) := by
  obtain ⟨d, h, h1, h2⟩ := Deque.demo_deque
  obtain ⟨l, h3, h4⟩ := C62_deque Deque.smallCfg_good h digits
  exact ⟨d, l, h1, h2, h3, h4⟩
example : ∃ w : SimpleList.World Nat, w.len = 1 ∧ simpleString digits w 2 = .ok "[20]".toList := by
  obtain ⟨w, h, e⟩ := SimpleList.demo_list
  exact ⟨w, e, (C62_simplelist h _ (by decide)).trans (by decide)⟩
example : ∃ w : BidList.World Nat, bidString digits w 0 4 = .ok "[5 7 8]".toList := by
  obtain ⟨w, h⟩ := BidList.demo_reachable
  exact ⟨w, (C62_bidlist h (l := 0) (by decide) _ (by decide)).trans (by decide)⟩
example : ∃ (s : Tree Int Bool) (m : Int → Prop) (ks : List Int), m 2 ∧ ¬ m 7 ∧ ks.Pairwise (fun a b => intCmp a b < 0) ∧ (∀ x, m x ↔ ∃ k ∈ ks, intCmp x k = 0) ∧
    setString (fun k => digits k.toNat) s = .ok (printed (fun k => digits k.toNat) ks) := by
  obtain ⟨s, o, m, n, h, -, m2, m7, -⟩ := demo_sets
  obtain ⟨ks, h1, h2, h3⟩ := C62_set intCmp_lawful h fun k => digits k.toNat
  exact ⟨s, m, ks, m2, m7, h1, h2, h3⟩
example : ∃ (s : Tree Int Bool) (ks : List Int), ks.Perm [11, 30, 20] ∧ setString (fun k => digits k.toNat) s = .ok (printed (fun k => digits k.toNat) ks) := by
  obtain ⟨s, h, -⟩ := demo_multiset
  obtain ⟨ks, -, h2, -, h4⟩ := C62_multiset tensCmp_lawful h fun k => digits k.toNat
  exact ⟨s, ks, h2, h4⟩
example : printed id ["z".toList, "".toList, "b".toList] = expected id ["z".toList, "".toList, "b".toList] := C62_string_partial _ _ (by decide)
example : printed id ["".toList, "a".toList] ≠ expected id ["".toList, "a".toList] := (C62_violated _ _ _ [] rfl).1

end GoSTL.Str
