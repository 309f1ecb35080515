import Verif.Ketama.Model
/-!
# Specification of the consistent-hash ring

A ring is a partial function from points (64-bit numbers) to node names. The `i`-th point of a node is the `i`-th big-endian word of the
hash of the salted name.
-/
namespace GoSTL.Ketama
open GoSTL.RB GoSTL.TreeMap

/-- The ring: which node stands at a point. -/
abbrev Ring := Nat → Option Str

/-- The points of a node, at most `r` of them. -/
def points (H : Str → Str) (r : Nat) (node : Str) : List Nat := (Bloom.words (H (salt ++ node))).take r

/-- The point of a key: the first eight bytes of the hash of the salted key, big-endian. -/
def hashOf (H : Str → Str) (key : Str) : Nat := Bloom.be ((H (salt ++ key)).take 8)

/-- A node claims those of its points that are free. -/
def claim (H : Str → Str) (r : Nat) (f : Ring) (node : Str) : Ring :=
  fun p => if p ∈ points H r node ∧ f p = none then some node else f p

/-- A node gives back those of its points that it owns. -/
def release (H : Str → Str) (r : Nat) (f : Ring) (node : Str) : Ring :=
  fun p => if p ∈ points H r node ∧ f p = some node then none else f p

/-- Histories of calls on a `Ketama` made with `replicas = r`, with the ring they denote. -/
inductive Hist (H : Str → Str) (r : Nat) : Ketama → Ring → Prop
  | new : Hist H r (new r) fun _ => none
  | add {k k' f nodes} : Hist H r k f → add H k nodes = .ok k' → Hist H r k' (nodes.foldl (claim H r) f)
  | remove {k k' f nodes} : Hist H r k f → remove H k nodes = .ok k' → Hist H r k' (nodes.foldl (release H r) f)

/-- The clockwise owner of the position `h`: the node at the first point at or after `h`, or at the first point of all if there is none. -/
def Owner (f : Ring) (h : Nat) : Option Str → Prop
  | none => ∀ p, f p = none
  | some n => ∃ p, f p = some n ∧
      ((h ≤ p ∧ ∀ q, f q ≠ none → h ≤ q → p ≤ q) ∨ ((∀ q, f q ≠ none → q < h) ∧ ∀ q, f q ≠ none → p ≤ q))

/-- Histories of calls with the set of member nodes they denote: added and not removed since. -/
inductive MemHist (H : Str → Str) (r : Nat) (U : Str → Prop) : Ketama → (Str → Prop) → Prop
  | new : MemHist H r U (new r) fun _ => False
  | add {k k' M nodes} : MemHist H r U k M → (∀ n ∈ nodes, U n) → add H k nodes = .ok k' → MemHist H r U k' fun n => n ∈ nodes ∨ M n
  | remove {k k' M nodes} : MemHist H r U k M → (∀ n ∈ nodes, U n) → remove H k nodes = .ok k' →
      MemHist H r U k' fun n => n ∉ nodes ∧ M n

/-- No two nodes of `U` share a point. -/
def NoCollision (H : Str → Str) (r : Nat) (U : Str → Prop) : Prop :=
  ∀ a b p, U a → U b → p ∈ points H r a → p ∈ points H r b → a = b

end GoSTL.Ketama
