import Verif.Conc.Specs
import Verif.Ketama.Props
/-!
# C57: goroutine-safe `Ketama`

ketama.go: `Add` and `Remove` hold the lock for their whole body, `Empty` the read lock. `Get` (107-123) is two critical sections: it calls
`Empty`, which locks and unlocks for reading, and only then locks for the lookup.
-/
namespace GoSTL.Conc
open Ketama (Str Ring KInv claim release)
open Bloom (GoodHash)
variable {τ : Type} [DecidableEq τ]

/-- The critical sections. -/
inductive KSec
  | add (nodes : List Str)
  | remove (nodes : List Str)
  | empty
  | lookup (key : Str)

/-- What a section computes. -/
inductive KOut
  | unit
  | bool (b : Bool)
  | node (n : Str)

/-- ketama.go:67 `RLock` in `Empty`; 75, 91, 115 `Lock` in `Add`, `Remove`, `Get`. -/
def ketamaWrites : KSec → Bool
  | .add _ | .remove _ | .lookup _ => true
  | .empty => false

/-- ketama.go:66-104, 112-122: what the sections do when running alone. -/
def ketamaStep (H : Str → Str) (op : KSec) (k : Ketama.Ketama) : Res (KOut × Ketama.Ketama) :=
  match op with
  | .add nodes => do let k ← Ketama.add H k nodes; .ok (.unit, k)
  | .remove nodes => do let k ← Ketama.remove H k nodes; .ok (.unit, k)
  | .empty => .ok (.bool (Ketama.empty k), k)
  | .lookup key => do let n ← Ketama.getBody H k key; .ok (.node n, k)

theorem ketama_readers (H : Str → Str) : ReadersRead ketamaWrites (ketamaStep H) := by
  intro op s o s' hw h
  cases op <;> simp only [ketamaWrites, Bool.true_eq_false, reduceCtorEq] at hw
  simp only [ketamaStep, Res.ok.injEq, Prod.mk.injEq] at h
  exact h.2.symm

/-- The calls of the API. -/
inductive KCall
  | add (nodes : List Str)
  | remove (nodes : List Str)
  | empty
  | get (key : Str)

/-- How a call ended. -/
inductive KRes
  | unit
  | bool (b : Bool)
  /-- `Get`: the node, or `("", false)`. -/
  | got (n : Option Str)
  | panic

/-- A goroutine between two critical sections: the results of its finished calls, and the key if it is in the middle of `Get`. -/
structure KLoc where
  done : List KRes
  mid : Option Str

/-- How a call without result ended. -/
def resUnit : Res KOut → KRes
  | .ok _ => .unit
  | _ => .panic
/-- How `Empty` (ketama.go:66-71) ended. -/
def resBool : Res KOut → KRes
  | .ok (.bool b) => .bool b
  | _ => .panic
/-- How the lookup of `Get` (ketama.go:112-122) ended. -/
def resNode : Res KOut → KRes
  | .ok (.node n) => .got (some n)
  | _ => .panic

/-- ketama.go:108-111: `if k.Empty() { return "", false }`. -/
def afterEmpty (l : KLoc) (key : Str) : Res KOut → KLoc
  | .ok (.bool true) => { done := l.done ++ [.got none], mid := none }
  | .ok (.bool false) => { done := l.done, mid := some key }
  | _ => { done := l.done ++ [.panic], mid := none }

/-- Users of one `Ketama`: which call a goroutine makes next, given the results of its calls so far (`none`: it has finished). -/
abbrev KScript (τ : Type) := τ → List KRes → Option KCall

/-- The critical section that starts a call. -/
def KCall.first (l : KLoc) : KCall → KSec × (Res KOut → KLoc)
  | .add nodes => (.add nodes, fun r => { done := l.done ++ [resUnit r], mid := none })
  | .remove nodes => (.remove nodes, fun r => { done := l.done ++ [resUnit r], mid := none })
  | .empty => (.empty, fun r => { done := l.done ++ [resBool r], mid := none })
  | .get key => (.empty, afterEmpty l key)

/-- The goroutines run these calls: `Get` is `Empty` and, unless that returned true, the lookup (ketama.go:107-123). -/
def KScript.client (script : KScript τ) : Client Unit τ KLoc KSec KOut := fun t l =>
  match l.mid with
  | some key => some ((), .lookup key, fun r => { done := l.done ++ [resNode r], mid := none })
  | none => (script t l.done).map fun call => ((), call.first l)

/-- The program, for any code of the sections. -/
abbrev KScript.prog {H : Str → Str} (script : KScript τ) (impl : Impl Unit ketamaWrites (ketamaStep H)) : Prog Unit Ketama.Ketama τ KLoc :=
  script.client.prog impl

/-- A goroutine has seen a panic. -/
def Crashed (c : Conf Unit Ketama.Ketama τ KLoc) (t : τ) : Prop :=
  (∃ x, c.thr t = .out x ∧ KRes.panic ∈ x.done) ∨ (∃ x i w m, c.thr t = .ins x i w m ∧ KRes.panic ∈ x.done)

/-! ## What one section does to the ring -/

variable {H : Str → Str}

theorem lift_add (hH : GoodHash H) {r : Nat} {k : Ketama.Ketama} {f : Ring} (h : KInv r k f) (nodes : List Str) :
    ∃ k', lift (ketamaStep H) (.add nodes) k = (k', .ok .unit) ∧ KInv r k' (nodes.foldl (claim H r) f) := by
  obtain ⟨k', e, h'⟩ := h.add hH nodes
  exact ⟨k', by simp [lift, ketamaStep, e], h'⟩

theorem lift_remove (hH : GoodHash H) {r : Nat} {k : Ketama.Ketama} {f : Ring} (h : KInv r k f) (nodes : List Str) :
    ∃ k', lift (ketamaStep H) (.remove nodes) k = (k', .ok .unit) ∧ KInv r k' (nodes.foldl (release H r) f) := by
  obtain ⟨k', e, h'⟩ := h.remove hH nodes
  exact ⟨k', by simp [lift, ketamaStep, e], h'⟩

theorem lift_empty (k : Ketama.Ketama) : lift (ketamaStep H) .empty k = (k, .ok (.bool (Ketama.empty k))) := rfl

theorem lift_lookup (hH : GoodHash H) {r : Nat} {k : Ketama.Ketama} {f : Ring} (h : KInv r k f) (hne : ∃ p, f p ≠ none) (key : Str) :
    ∃ n, lift (ketamaStep H) (.lookup key) k = (k, .ok (.node n)) := by
  have : Ketama.empty k = false := by
    obtain ⟨p, hp⟩ := hne
    cases he : Ketama.empty k with
    | false => rfl
    | true => exact absurd ((Ketama.empty_iff h).1 he p) hp
  obtain ⟨n, e, -⟩ := Ketama.getBody_spec hH h this key
  exact ⟨n, by simp [lift, ketamaStep, e]⟩

/-- In an empty ring the lookup panics: ketama.go:122 `k.m.First().Value()`. -/
theorem lookup_empty (hH : GoodHash H) {r : Nat} {k : Ketama.Ketama} {f : Ring} (h : KInv r k f) (hne : ∀ p, f p = none) (key : Str) :
    lift (ketamaStep H) (.lookup key) k = (k, .panic) := by
  obtain ⟨-, kvs, ⟨xs, h1, rfl⟩, h2, h3⟩ := h
  have hx : xs = [] := by
    cases xs with
    | nil => rfl
    | cons e xs =>
      have := hne e.2.1
      rw [h3] at this
      simp [TreeMap.lk, TreeMap.keq, Ketama.u64Cmp_eq] at this
  subst hx
  obtain ⟨ys, e1, e2⟩ := Ketama.hashOf_gen hH key
  have hb : Ketama.getBody H k key = .panic := by
    simp only [Ketama.getBody, e1, Res.ok_bind, e2, Res.ofOption_some, TreeMap.lowerBound, h1.1.lower Ketama.u64Cmp_lawful h1.2]
    simp [Ketama.ownerOf, TreeMap.iterIsValid, TreeMap.first, h1.1.first, TreeMap.iterValue]
  simp [lift, ketamaStep, hb]

/-! ## The goroutines -/

/-- The invariant of executions in which a removal never empties the ring. -/
def KGood (r : Nat) (Q : Ring → Prop) (k : Ketama.Ketama) (l : τ → KLoc) : Prop :=
  ∃ f, KInv r k f ∧ Q f ∧ (∀ t, (l t).mid ≠ none → ∃ p, f p ≠ none) ∧ ∀ t, KRes.panic ∉ (l t).done

theorem claim_nonempty {r : Nat} {f : Ring} (nodes : List Str) (h : ∃ p, f p ≠ none) : ∃ p, nodes.foldl (claim H r) f p ≠ none := by
  obtain ⟨p, hp⟩ := h
  cases hf : f p with
  | none => exact absurd hf hp
  | some n => exact ⟨p, by rw [(Ketama.claim_mono (H := H) r nodes f).1 p n hf]; simp⟩

theorem seq_good (hH : GoodHash H) {r : Nat} {Q : Ring → Prop} {script : KScript τ}
    (hadd : ∀ (nodes : List Str) f, Q f → Q (nodes.foldl (claim H r) f))
    (hrem : ∀ t done (nodes : List Str), script t done = some (.remove nodes) → ∀ f, Q f →
      Q (nodes.foldl (release H r) f) ∧ ∃ p, nodes.foldl (release H r) f p ≠ none) :
    ∀ (log : List τ) (o : Unit → Ketama.Ketama) (l : τ → KLoc) o' l', KGood r Q (o ()) l →
    seqRun (ketamaStep H) script.client log o l = some (o', l') → KGood r Q (o' ()) l' := by
  intro log
  induction log with
  | nil => intro o l o' l' h e; cases e; exact h
  | cons t ts ih =>
    intro o l o' l' h e
    obtain ⟨f, h1, h2, h3, h4⟩ := h
    simp only [seqRun, Option.bind_eq_some_iff] at e
    obtain ⟨⟨i, op, k⟩, hc, e⟩ := e
    refine ih _ _ o' l' ?_ e
    simp only [Function.update_self]
    have mono : ∀ {f' : Ring} {k' : Ketama.Ketama} {x : KLoc}, KInv r k' f' → Q f' → ((∃ p, f p ≠ none) → ∃ p, f' p ≠ none) →
        (x.mid ≠ none → ∃ p, f' p ≠ none) → KRes.panic ∉ x.done → KGood r Q k' (Function.update l t x) := by
      intro f' k' x g1 g2 g3 g4 g5
      refine ⟨f', g1, g2, fun t' => ?_, fun t' => ?_⟩
      · by_cases ht : t' = t
        · subst ht; simpa using g4
        · rw [Function.update_of_ne ht]; exact fun hm => g3 (h3 t' hm)
      · by_cases ht : t' = t
        · subst ht; simpa using g5
        · rw [Function.update_of_ne ht]; exact h4 t'
    have hl := h4 t
    simp only [KScript.client] at hc
    cases hm : (l t).mid with
    | some key =>
      simp only [hm, Option.some.injEq, Prod.mk.injEq] at hc
      obtain ⟨-, rfl, rfl⟩ := hc
      obtain ⟨n, e1⟩ := lift_lookup hH h1 (h3 t (by simp [hm])) key
      rw [e1]
      exact mono h1 h2 id (by simp) (by simp [resNode, hl])
    | none =>
      simp only [hm, Option.map_eq_some_iff, Prod.mk.injEq] at hc
      obtain ⟨call, hs, -, hc⟩ := hc
      cases call with
      | add nodes =>
        simp only [KCall.first, Prod.mk.injEq] at hc
        obtain ⟨rfl, rfl⟩ := hc
        obtain ⟨k', e1, h'⟩ := lift_add hH h1 nodes
        rw [e1]
        exact mono h' (hadd nodes f h2) (claim_nonempty nodes) (by simp) (by simp [resUnit, hl])
      | remove nodes =>
        simp only [KCall.first, Prod.mk.injEq] at hc
        obtain ⟨rfl, rfl⟩ := hc
        obtain ⟨k', e1, h'⟩ := lift_remove hH h1 nodes
        rw [e1]
        obtain ⟨q1, q2⟩ := hrem t _ nodes hs f h2
        exact mono h' q1 (fun _ => q2) (by simp) (by simp [resUnit, hl])
      | empty =>
        simp only [KCall.first, Prod.mk.injEq] at hc
        obtain ⟨rfl, rfl⟩ := hc
        rw [lift_empty]
        exact mono h1 h2 id (by simp) (by simp [resBool, hl])
      | get key =>
        simp only [KCall.first, Prod.mk.injEq] at hc
        obtain ⟨rfl, rfl⟩ := hc
        rw [lift_empty]
        cases he : Ketama.empty (o ()) with
        | true => exact mono h1 h2 id (by simp [afterEmpty]) (by simp [afterEmpty, hl])
        | false =>
          refine mono h1 h2 id (fun _ => ?_) (by simp [afterEmpty, hl])
          by_contra hn
          have := (Ketama.empty_iff h1).2 fun p => by by_contra hp; exact hn ⟨p, hp⟩
          rw [he] at this; cases this

theorem run_good (hH : GoodHash H) {r : Nat} {Q : Ring → Prop} {script : KScript τ} {impl : Impl Unit ketamaWrites (ketamaStep H)}
    (hadd : ∀ (nodes : List Str) f, Q f → Q (nodes.foldl (claim H r) f))
    (hrem : ∀ t done (nodes : List Str), script t done = some (.remove nodes) → ∀ f, Q f →
      Q (nodes.foldl (release H r) f) ∧ ∃ p, nodes.foldl (release H r) f p ≠ none)
    {k0 : Ketama.Ketama} {f : Ring} (h0 : KInv r k0 f) (hq : Q f) {log : List τ} {c : Conf Unit Ketama.Ketama τ KLoc}
    (h : Run (script.prog impl) (fun _ => k0) (fun _ => ⟨[], none⟩) log c) (t : τ) : ¬ Crashed c t := by
  obtain ⟨p', l', e, h1, h2, -⟩ := C58_linearizable_self script.client impl h
  obtain ⟨-, -, -, -, hp⟩ := seq_good hH hadd hrem log _ _ p' l' ⟨f, h0, hq, by simp, by simp⟩ e
  rintro (⟨x, hx, hd⟩ | ⟨x, i, w, m, hx, hd⟩)
  · exact hp t (by rw [h1 t x hx]; exact hd)
  · exact hp t (by rw [h2 t x i w m hx]; exact hd)

/-- C57, what holds (1): as long as nobody calls `Remove`, no call panics, for any number of goroutines and any interleaving, starting from any
ring. Missing: programs that call `Remove` (`C57_violated`). -/
theorem C57_no_remove_partial (hH : GoodHash H) {r : Nat} {script : KScript τ} (hs : ∀ t done nodes, script t done ≠ some (.remove nodes))
    (impl : Impl Unit ketamaWrites (ketamaStep H)) {k0 : Ketama.Ketama} {f : Ring} (h0 : Ketama.Hist H r k0 f)
    {log : List τ} {c : Conf Unit Ketama.Ketama τ KLoc} (h : Run (script.prog impl) (fun _ => k0) (fun _ => ⟨[], none⟩) log c) (t : τ) :
    ¬ Crashed c t :=
  run_good hH (Q := fun _ => True) (fun _ _ _ => trivial) (fun t d n hr => absurd hr (hs t d n)) (Ketama.hist_inv hH h0) trivial h t

/-- C57, what holds (2): as long as some node with a point on the ring is never removed, no call panics. -/
theorem C57_kept_node_partial (hH : GoodHash H) {r : Nat} {script : KScript τ} {n : Str}
    (hs : ∀ t done nodes, script t done = some (.remove nodes) → n ∉ nodes)
    (impl : Impl Unit ketamaWrites (ketamaStep H)) {k0 : Ketama.Ketama} {f : Ring} (h0 : Ketama.Hist H r k0 f) (hn : ∃ p, f p = some n)
    {log : List τ} {c : Conf Unit Ketama.Ketama τ KLoc} (h : Run (script.prog impl) (fun _ => k0) (fun _ => ⟨[], none⟩) log c) (t : τ) :
    ¬ Crashed c t := by
  refine run_good hH (Q := fun f => ∃ p, f p = some n) ?_ ?_ (Ketama.hist_inv hH h0) hn h t
  · rintro nodes f ⟨p, hp⟩
    exact ⟨p, (Ketama.claim_mono (H := H) r nodes f).1 p n hp⟩
  · rintro t d nodes hr f ⟨p, hp⟩
    have := ((Ketama.release_mono (H := H) r nodes f).2 p n hp).resolve_right (hs t d nodes hr)
    exact ⟨⟨p, this⟩, p, by rw [this]; simp⟩

/-- A program without `Remove`, on a new ring: one goroutine adds a node, any number of others get a key. -/
example (node key : Str) : ∀ t done nodes, (fun (t : Nat) (done : List KRes) => if done = [] then some (if t = 0 then KCall.add [node] else .get key) else none :
    Nat → List KRes → Option KCall) t done ≠ some (.remove nodes) := by
  intro t done nodes
  dsimp only
  split_ifs <;> simp

/-- What one critical section does to the ring `f` (`Ketama/Spec`): `Add` claims the free points of the nodes, `Remove` gives back those they own,
`Empty` tells whether there is any point, and the lookup inside `Get` returns the clockwise owner of the key's position — and panics when there is none. -/
inductive KetamaSpec (H : Str → Str) (r : Nat) : KSec → Ring → Res (KOut × Ring) → Prop
  | add {nodes f} : KetamaSpec H r (.add nodes) f (.ok (.unit, nodes.foldl (claim H r) f))
  | remove {nodes f} : KetamaSpec H r (.remove nodes) f (.ok (.unit, nodes.foldl (release H r) f))
  | isEmpty {f} : (∀ p, f p = none) → KetamaSpec H r .empty f (.ok (.bool true, f))
  | nonEmpty {f} : (∃ p, f p ≠ none) → KetamaSpec H r .empty f (.ok (.bool false, f))
  | lookup {key f n} : Ketama.Owner f (Ketama.hashOf H key) (some n) → KetamaSpec H r (.lookup key) f (.ok (.node n, f))
  | crash {key f} : (∀ p, f p = none) → KetamaSpec H r (.lookup key) f .panic

theorem ketama_refines (hH : GoodHash H) (r : Nat) : Refines (ketamaStep H) (KetamaSpec H r) (KInv r) := by
  intro op k f h
  cases op with
  | add nodes => obtain ⟨k', e, h'⟩ := h.add hH nodes; exact .inr ⟨_, k', _, by simp [ketamaStep, e], h', .add⟩
  | remove nodes => obtain ⟨k', e, h'⟩ := h.remove hH nodes; exact .inr ⟨_, k', _, by simp [ketamaStep, e], h', .remove⟩
  | empty =>
    have he := Ketama.empty_iff h
    refine .inr ⟨_, k, f, rfl, h, ?_⟩
    cases c : Ketama.empty k with
    | true => exact .isEmpty (he.1 c)
    | false =>
      refine .nonEmpty ?_
      by_contra hn
      have := he.2 fun p => by by_contra hp; exact hn ⟨p, hp⟩
      rw [c] at this; cases this
  | lookup key =>
    cases c : Ketama.empty k with
    | false => obtain ⟨n, e, ho⟩ := Ketama.getBody_spec hH h c key; exact .inr ⟨_, k, f, by simp [ketamaStep, e], h, .lookup ho⟩
    | true =>
      have he := (Ketama.empty_iff h).1 c
      have hp := lookup_empty hH h he key
      refine .inl ⟨?_, .crash he⟩
      unfold lift at hp
      cases hs : ketamaStep H (.lookup key) k with
      | panic => rfl
      | ok x => obtain ⟨o, k'⟩ := x; simp [hs] at hp
      | outOfFuel =>
        obtain ⟨ys, e1, e2⟩ := Ketama.hashOf_gen hH key
        obtain ⟨-, kvs, ⟨xs, h1, rfl⟩, h2, h3⟩ := h
        have hx : xs = [] := by
          cases xs with
          | nil => rfl
          | cons e xs =>
            have := he e.2.1
            rw [h3] at this
            simp [TreeMap.lk, TreeMap.keq, Ketama.u64Cmp_eq] at this
        subst hx
        have hb : Ketama.getBody H k key = .panic := by
          simp only [Ketama.getBody, e1, Res.ok_bind, e2, Res.ofOption_some, TreeMap.lowerBound, h1.1.lower Ketama.u64Cmp_lawful h1.2]
          simp [Ketama.ownerOf, TreeMap.iterIsValid, TreeMap.first, h1.1.first, TreeMap.iterValue]
        simp [ketamaStep, hb] at hs

/-- C58 for `Ketama`: in every concurrent execution the critical sections of all goroutines amount to the sections one at a time on a ring of points
(`KetamaSpec`), in the order in which the locks were released; the ring not being written is the one they leave; there are no data races. -/
theorem C58_ketama (hH : GoodHash H) (script : KScript τ) (impl : Impl Unit ketamaWrites (ketamaStep H)) {r : Nat} {k0 : Ketama.Ketama} {f0 : Ring}
    (h0 : Ketama.Hist H r k0 f0) {log : List τ} {c : Conf Unit Ketama.Ketama τ KLoc} (h : Run (script.prog impl) (fun _ => k0) (fun _ => ⟨[], none⟩) log c) :
    ∃ p l', SeqRel (KetamaSpec H r) script.client log (fun _ => f0) (fun _ => ⟨[], none⟩) p l' ∧
      (∀ t x, c.thr t = .out x → l' t = x) ∧ (∀ t x i w m, c.thr t = .ins x i w m → l' t = x) ∧
      (∀ i, (∀ t, ¬ Holds c t i true) → KInv r (c.obj i) (p i)) ∧ ¬ Race c :=
  C58_linearizable_rel (ketama_refines hH r) script.client impl (fun _ => Ketama.hist_inv hH h0) h

/-- C58: the section of `Ketama` under the read lock changes nothing, so that such code exists (`Impl.whole`). -/
theorem C58_ketama_readers_only_read (H : Str → Str) : ReadersRead ketamaWrites (ketamaStep H) ∧ ∀ nodes key,
    ketamaWrites (.add nodes) = true ∧ ketamaWrites (.remove nodes) = true ∧ ketamaWrites (.lookup key) = true ∧ ketamaWrites .empty = false :=
  ⟨ketama_readers H, fun _ _ => ⟨rfl, rfl, rfl, rfl⟩⟩

/-! ## What the calls answer -/

/-- The script asks for this key. -/
def KAsked (script : KScript τ) (key : Str) : Prop := ∃ t done, script t done = some (.get key)

theorem seq_answers (hH : GoodHash H) {r : Nat} {Q : Ring → Prop} {P : KRes → Prop} {script : KScript τ}
    (hadd : ∀ t done (nodes : List Str), script t done = some (.add nodes) → ∀ f, Q f → Q (nodes.foldl (claim H r) f))
    (hrem : ∀ t done (nodes : List Str), script t done = some (.remove nodes) → ∀ f, Q f → Q (nodes.foldl (release H r) f))
    (pu : P .unit) (pb : ∀ f b, Q f → (b = true ↔ ∀ p, f p = none) → P (.bool b)) (pn : ∀ f, Q f → (∀ p, f p = none) → P (.got none) ∧ P .panic)
    (ps : ∀ f key n, Q f → KAsked script key → Ketama.Owner f (Ketama.hashOf H key) (some n) → P (.got (some n))) :
    ∀ (log : List τ) (o : Unit → Ketama.Ketama) (l : τ → KLoc) o' l',
    (∃ f, KInv r (o ()) f ∧ Q f ∧ ∀ t, (∀ key, (l t).mid = some key → KAsked script key) ∧ ∀ x ∈ (l t).done, P x) →
    seqRun (ketamaStep H) script.client log o l = some (o', l') →
    ∃ f, KInv r (o' ()) f ∧ Q f ∧ ∀ t, (∀ key, (l' t).mid = some key → KAsked script key) ∧ ∀ x ∈ (l' t).done, P x := by
  intro log
  induction log with
  | nil => intro o l o' l' h e; cases e; exact h
  | cons t ts ih =>
    intro o l o' l' h e
    obtain ⟨f, h1, h2, h3⟩ := h
    simp only [seqRun, Option.bind_eq_some_iff] at e
    obtain ⟨⟨i, op, k⟩, hc, e⟩ := e
    refine ih _ _ o' l' ?_ e
    simp only [Function.update_self]
    have mono : ∀ {f' : Ring} {k' : Ketama.Ketama} {x : KLoc}, KInv r k' f' → Q f' →
        (∀ key, x.mid = some key → KAsked script key) → (∀ y ∈ x.done, P y) →
        ∃ f, KInv r k' f ∧ Q f ∧ ∀ t', (∀ key, (Function.update l t x t').mid = some key → KAsked script key) ∧ ∀ y ∈ (Function.update l t x t').done, P y := by
      intro f' k' x g1 g2 g3 g4
      refine ⟨f', g1, g2, fun t' => ?_⟩
      by_cases ht : t' = t
      · subst ht; simpa using ⟨g3, g4⟩
      · rw [Function.update_of_ne ht]; exact h3 t'
    obtain ⟨hl1, hl⟩ := h3 t
    have app : ∀ {y}, P y → ∀ x ∈ (l t).done ++ [y], P x := by
      intro y hy x hx
      rcases List.mem_append.1 hx with hx | hx
      · exact hl x hx
      · rw [List.mem_singleton.1 hx]; exact hy
    have nomid : ∀ (d : List KRes) (key : Str), (KLoc.mk d none).mid = some key → KAsked script key := by intro d key h; cases h
    simp only [KScript.client] at hc
    cases hm : (l t).mid with
    | some key =>
      simp only [hm, Option.some.injEq, Prod.mk.injEq] at hc
      obtain ⟨-, rfl, rfl⟩ := hc
      cases he : Ketama.empty (o ()) with
      | true =>
        have hf := (Ketama.empty_iff h1).1 he
        rw [lookup_empty hH h1 hf]
        exact mono h1 h2 (nomid _) (app (pn f h2 hf).2)
      | false =>
        obtain ⟨n, e1, ow⟩ := Ketama.getBody_spec hH h1 he key
        have e2 : lift (ketamaStep H) (.lookup key) (o ()) = (o (), .ok (.node n)) := by simp [lift, ketamaStep, e1]
        rw [e2]
        exact mono h1 h2 (nomid _) (app (ps f key n h2 (hl1 key hm) ow))
    | none =>
      simp only [hm, Option.map_eq_some_iff, Prod.mk.injEq] at hc
      obtain ⟨call, hs, -, hc⟩ := hc
      cases call with
      | add nodes =>
        simp only [KCall.first, Prod.mk.injEq] at hc
        obtain ⟨rfl, rfl⟩ := hc
        obtain ⟨k', e1, h'⟩ := lift_add hH h1 nodes
        rw [e1]
        exact mono h' (hadd t _ nodes hs f h2) (nomid _) (app pu)
      | remove nodes =>
        simp only [KCall.first, Prod.mk.injEq] at hc
        obtain ⟨rfl, rfl⟩ := hc
        obtain ⟨k', e1, h'⟩ := lift_remove hH h1 nodes
        rw [e1]
        exact mono h' (hrem t _ nodes hs f h2) (nomid _) (app pu)
      | empty =>
        simp only [KCall.first, Prod.mk.injEq] at hc
        obtain ⟨rfl, rfl⟩ := hc
        rw [lift_empty]
        exact mono h1 h2 (nomid _) (app (pb f _ h2 (Ketama.empty_iff h1)))
      | get key =>
        simp only [KCall.first, Prod.mk.injEq] at hc
        obtain ⟨rfl, rfl⟩ := hc
        rw [lift_empty]
        cases he : Ketama.empty (o ()) with
        | true => exact mono h1 h2 (by simp [afterEmpty]) (app (pn f h2 ((Ketama.empty_iff h1).1 he)).1)
        | false => exact mono h1 h2 (fun key' hk => by cases hk; exact ⟨t, _, hs⟩) hl

/-- A goroutine has got this answer from a call. -/
def KAnswered (c : Conf Unit Ketama.Ketama τ KLoc) (t : τ) (x : KRes) : Prop :=
  (∃ y, c.thr t = .out y ∧ x ∈ y.done) ∨ (∃ y i w m, c.thr t = .ins y i w m ∧ x ∈ y.done)

theorem run_answers (hH : GoodHash H) {r : Nat} {Q : Ring → Prop} {P : KRes → Prop} {script : KScript τ} {impl : Impl Unit ketamaWrites (ketamaStep H)}
    (hadd : ∀ t done (nodes : List Str), script t done = some (.add nodes) → ∀ f, Q f → Q (nodes.foldl (claim H r) f))
    (hrem : ∀ t done (nodes : List Str), script t done = some (.remove nodes) → ∀ f, Q f → Q (nodes.foldl (release H r) f))
    (pu : P .unit) (pb : ∀ f b, Q f → (b = true ↔ ∀ p, f p = none) → P (.bool b)) (pn : ∀ f, Q f → (∀ p, f p = none) → P (.got none) ∧ P .panic)
    (ps : ∀ f key n, Q f → KAsked script key → Ketama.Owner f (Ketama.hashOf H key) (some n) → P (.got (some n)))
    {k0 : Ketama.Ketama} {f : Ring} (h0 : KInv r k0 f) (hq : Q f) {log : List τ} {c : Conf Unit Ketama.Ketama τ KLoc}
    (h : Run (script.prog impl) (fun _ => k0) (fun _ => ⟨[], none⟩) log c) (t : τ) (x : KRes) (hx : KAnswered c t x) : P x := by
  obtain ⟨p', l', e, h1, h2, -⟩ := C58_linearizable_self script.client impl h
  obtain ⟨-, -, -, hp⟩ := seq_answers hH hadd hrem pu pb pn ps log _ _ p' l' ⟨f, h0, hq, by simp⟩ e
  rcases hx with ⟨y, hy, hd⟩ | ⟨y, i, w, m, hy, hd⟩
  · exact (hp t).2 x (by rw [h1 t y hy]; exact hd)
  · exact (hp t).2 x (by rw [h2 t y i w m hy]; exact hd)

/-- **C58** As long as some node with a point on the ring is never removed, `Get` never says that there is no node and `Empty` never says that the ring is
empty, for any number of goroutines and any interleaving. -/
theorem C58_ketama_kept (hH : GoodHash H) {r : Nat} {script : KScript τ} {n : Str} (hs : ∀ t done nodes, script t done = some (.remove nodes) → n ∉ nodes)
    (impl : Impl Unit ketamaWrites (ketamaStep H)) {k0 : Ketama.Ketama} {f : Ring} (h0 : Ketama.Hist H r k0 f) (hn : ∃ p, f p = some n)
    {log : List τ} {c : Conf Unit Ketama.Ketama τ KLoc} (h : Run (script.prog impl) (fun _ => k0) (fun _ => ⟨[], none⟩) log c) (t : τ) :
    ¬ KAnswered c t (.got none) ∧ ¬ KAnswered c t (.bool true) ∧ ¬ KAnswered c t .panic := by
  have key := run_answers hH (Q := fun f => ∃ p, f p = some n) (P := fun x => x ≠ .got none ∧ x ≠ .bool true ∧ x ≠ .panic)
    (script := script) (impl := impl) (r := r)
    (by
      rintro - - nodes - f ⟨p, hp⟩
      exact ⟨p, (Ketama.claim_mono (H := H) r nodes f).1 p n hp⟩)
    (by
      rintro t d nodes hr f ⟨p, hp⟩
      exact ⟨p, ((Ketama.release_mono (H := H) r nodes f).2 p n hp).resolve_right (hs t d nodes hr)⟩)
    (by simp)
    (by
      rintro f b ⟨p, hp⟩ hb
      cases b with
      | false => simp
      | true => have := hb.1 rfl p; rw [hp] at this; cases this)
    (by
      rintro f ⟨p, hp⟩ hf
      have := hf p; rw [hp] at this; cases this)
    (by simp) (Ketama.hist_inv hH h0) hn h t
  exact ⟨fun hx => (key _ hx).1 rfl, fun hx => (key _ hx).2.1 rfl, fun hx => (key _ hx).2.2 rfl⟩

/-- **C58** Whatever the interleaving, `Get` answers only with nodes that were on the ring at the start or were added by somebody. -/
theorem C58_ketama_members (hH : GoodHash H) {r : Nat} {script : KScript τ} (N : Str → Prop)
    (hs : ∀ t done nodes, script t done = some (.add nodes) → ∀ n ∈ nodes, N n)
    (impl : Impl Unit ketamaWrites (ketamaStep H)) {k0 : Ketama.Ketama} {f : Ring} (h0 : Ketama.Hist H r k0 f) (hn : ∀ p n, f p = some n → N n)
    {log : List τ} {c : Conf Unit Ketama.Ketama τ KLoc} (h : Run (script.prog impl) (fun _ => k0) (fun _ => ⟨[], none⟩) log c) (t : τ) (n : Str)
    (ha : KAnswered c t (.got (some n))) : N n := by
  refine run_answers hH (Q := fun f => ∀ p n, f p = some n → N n) (P := fun x => ∀ n, x = .got (some n) → N n) (script := script) (impl := impl) (r := r)
    ?_ ?_ (by simp) (by simp) (by simp) ?_ (Ketama.hist_inv hH h0) hn h t _ ha n rfl
  · intro t d nodes hr f hf p n hp
    rcases (Ketama.claim_mono (H := H) r nodes f).2 p n hp with h | h
    · exact hf p n h
    · exact hs t d nodes hr n h
  · intro t d nodes hr f hf p n hp
    exact hf p n ((Ketama.release_mono (H := H) r nodes f).1 p n hp)
  · rintro f key n hf - ⟨p, hp, -⟩ m e
    cases e
    exact hf p n hp

/-- **C58** While nobody adds or removes nodes, `Get` answers with the clockwise owner of the key asked for, and says that there is no node only if there is none. -/
theorem C58_ketama_owner (hH : GoodHash H) {r : Nat} {script : KScript τ}
    (hs : ∀ t done nodes, script t done ≠ some (.add nodes) ∧ script t done ≠ some (.remove nodes))
    (impl : Impl Unit ketamaWrites (ketamaStep H)) {k0 : Ketama.Ketama} {f : Ring} (h0 : Ketama.Hist H r k0 f)
    {log : List τ} {c : Conf Unit Ketama.Ketama τ KLoc} (h : Run (script.prog impl) (fun _ => k0) (fun _ => ⟨[], none⟩) log c) (t : τ) :
    (∀ n, KAnswered c t (.got (some n)) → ∃ key, KAsked script key ∧ Ketama.Owner f (Ketama.hashOf H key) (some n)) ∧
      (KAnswered c t (.got none) → ∀ p, f p = none) ∧ ∀ b, KAnswered c t (.bool b) → (b = true ↔ ∀ p, f p = none) := by
  have key := run_answers hH (Q := fun g => g = f) (P := fun x => (∀ n, x = .got (some n) → ∃ key, KAsked script key ∧ Ketama.Owner f (Ketama.hashOf H key) (some n)) ∧
      (x = .got none → ∀ p, f p = none) ∧ ∀ b, x = .bool b → (b = true ↔ ∀ p, f p = none))
    (script := script) (impl := impl) (r := r)
    (fun t d n hr => absurd hr (hs t d n).1) (fun t d n hr => absurd hr (hs t d n).2) (by simp)
    (by rintro g b rfl hb; exact ⟨by simp, by simp, fun b' e => by cases e; exact hb⟩)
    (by rintro g rfl hg; exact ⟨⟨by simp, fun _ => hg, by simp⟩, by simp⟩)
    (by rintro g key n rfl hk ow; exact ⟨fun m e => by cases e; exact ⟨key, hk, ow⟩, by simp, by simp⟩)
    (Ketama.hist_inv hH h0) rfl h t
  exact ⟨fun n ha => (key _ ha).1 n rfl, fun ha => (key _ ha).2.1 rfl, fun b ha => (key _ ha).2.2 b rfl⟩

/-- One goroutine removes node `1` of the ring of the nodes `1` and `2`, any number of others get a key. -/
def keptScript : KScript Nat := fun t done => if done = [] then some (if t = 0 then .remove [[1]] else .get [7]) else none

/-- `C58_ketama_kept` and `C58_ketama_members` apply to that program, and `C58_ketama_owner` to it without the first goroutine. -/
example (impl : Impl Unit ketamaWrites (ketamaStep Bloom.exHash)) : ∃ (k : Ketama.Ketama) (f : Ring), Ketama.Hist Bloom.exHash 2 k f ∧ (∃ p, f p = some [2]) ∧
    (∀ log c, Run (keptScript.prog impl) (fun _ => k) (fun _ => ⟨[], none⟩) log c → ∀ t, ¬ KAnswered c t (.got none)) ∧
    (∀ log c, Run (keptScript.prog impl) (fun _ => k) (fun _ => ⟨[], none⟩) log c → ∀ t n, KAnswered c t (.got (some n)) → ∃ p, f p = some n) ∧
    ∀ log c, Run (KScript.prog (fun (t : Nat) done => if t = 0 then none else keptScript t done) impl) (fun _ => k) (fun _ => ⟨[], none⟩) log c → ∀ t n,
      KAnswered c t (.got (some n)) → Ketama.Owner f (Ketama.hashOf Bloom.exHash [7]) (some n) := by
  obtain ⟨k, h, h0, -, h2⟩ := Ketama.demo_ring
  generalize List.foldl (claim Bloom.exHash 2) (fun x => none) [[1], [2]] = f at h
  have hn : ∃ p, f p = some [2] := by
    obtain ⟨p, hp, -⟩ := (Ketama.C54_get_is_clockwise_owner Bloom.exHash_good h [2] _).1.1 h2
    exact ⟨p, hp⟩
  refine ⟨k, _, h, hn, fun log c hr t => (C58_ketama_kept Bloom.exHash_good ?_ impl h hn hr t).1,
    fun log c hr t n ha => C58_ketama_members Bloom.exHash_good (fun n => ∃ p, f p = some n) ?_ impl h (fun p n hp => ⟨p, hp⟩) hr t n ha, fun log c hr t n ha => ?_⟩
  · intro t done nodes e
    unfold keptScript at e
    split_ifs at e <;> simp at e
    subst e; decide
  · intro t done nodes e
    unfold keptScript at e
    split_ifs at e <;> simp at e
  · obtain ⟨key, ⟨t', d, ek⟩, ow⟩ := (C58_ketama_owner Bloom.exHash_good (by
      intro t done nodes
      unfold keptScript
      split_ifs <;> simp) impl h hr t).1 n ha
    beta_reduce at ek
    unfold keptScript at ek
    split_ifs at ek
    cases ek
    exact ow

/-! ## The crash -/

/-- Goroutine `true` adds a node and then removes it; goroutine `false` gets a key. -/
def crashScript (node key : Str) : KScript Bool := fun t done =>
  match t, done with
  | true, [] => some (.add [node])
  | true, [_] => some (.remove [node])
  | false, [] => some (.get key)
  | _, _ => none

/-- C57 is false of the code: for every hash function, every positive number of replicas, every node and key and every code of the critical
sections, there is an interleaving of `Add(node); Remove(node)` with `Get(key)`, on a new ring, in which `Get` panics. -/
theorem C57_violated (hH : GoodHash H) {r : Nat} (hr : 0 < r) (node key : Str) (impl : Impl Unit ketamaWrites (ketamaStep H)) :
    ∃ log c, Run ((crashScript node key).prog impl) (fun _ => Ketama.new r) (fun _ => ⟨[], none⟩) log c ∧ Crashed c false := by
  have h0 : KInv r (Ketama.new r) fun _ => none := ⟨rfl, TreeMap.MapInv.new⟩
  obtain ⟨k1, e1, h1⟩ := lift_add hH h0 [node]
  obtain ⟨k2, e2, h2⟩ := lift_remove hH h1 [node]
  have e3 := lookup_empty hH h2 (by
    intro p
    simp only [List.foldl_cons, List.foldl_nil, claim, release]
    split_ifs <;> simp_all) key
  have he : Ketama.empty k1 = false := by
    cases he : Ketama.empty k1 with
    | false => rfl
    | true =>
      have hall := (Ketama.empty_iff h1).1 he
      have hpos : 0 < (Ketama.points H r node).length := by
        have := List.length_pos_iff.2 (Bloom.words_ne hH (Ketama.salt ++ node))
        simp only [Ketama.points, List.length_take]; omega
      have hm : (Ketama.points H r node)[0] ∈ Ketama.points H r node := List.getElem_mem hpos
      have := hall (Ketama.points H r node)[0]
      simp only [List.foldl_cons, List.foldl_nil, claim, hm, and_self, if_true, reduceCtorEq] at this
  have hx : exec ((crashScript node key).prog impl) [true, false, true, false] { obj := fun _ => Ketama.new r, loc := fun _ => ⟨[], none⟩ } =
      some { obj := fun _ => k2, loc := Function.update (Function.update (fun _ => ⟨[], none⟩) true ⟨[.unit, .unit], none⟩) false ⟨[.panic], none⟩ } := by
    have hu : ∀ (o : Unit → Ketama.Ketama) k, Function.update o () k = fun _ => k := by
      intro o k; funext u; simp
    have hs : ∀ (l : Bool → KLoc) x y z, Function.update (Function.update (Function.update (Function.update l true x) false y) true z) false =
        Function.update (Function.update l true z) false := by
      intro l x y z
      funext w b
      cases b <;> simp [Function.update]
    simp [exec, astep, Client.prog, KScript.client, crashScript, KCall.first, Micro.map_run, impl_run, hu, e1, e2, e3, lift_empty, he, resUnit,
      resNode, afterEmpty, hs]
  have hrun := exec_run hx
  exact ⟨_, _, hrun, .inl ⟨_, rfl, by simp⟩⟩

end GoSTL.Conc
