import Verif.RBTree.Model
/-!
# Representation of a pointer tree by an inductive tree

`T` is the shape of the tree with the node ids; `Rep h par t` says that the heap `h` contains exactly the nodes of `t`
with correct `parent`/`left`/`right` pointers. Contexts (`Ctx`) are one-hole trees, innermost frame first.
-/
namespace GoSTL.RB

/-- A tree as a value: nodes with their identity, colour, key and value. -/
inductive T (K V : Type) where
  | leaf
  | node (l : T K V) (i : Id) (b : Bool) (k : K) (v : V) (r : T K V)

/-- One step on the way from a subtree to the root. -/
inductive Frame (K V : Type) where
  /-- the hole is the left child of `i` -/
  | L (i : Id) (b : Bool) (k : K) (v : V) (r : T K V)
  /-- the hole is the right child of `i` -/
  | R (l : T K V) (i : Id) (b : Bool) (k : K) (v : V)

/-- The way to the root. -/
abbrev Ctx (K V : Type) := List (Frame K V)

variable {K V : Type}

namespace T

/-- The node at the top. -/
def rootId : T K V → Option Id
  | leaf => none
  | node _ i _ _ _ _ => some i

/-- The nodes, in order. -/
@[simp] def ids : T K V → List Id
  | leaf => []
  | node l i _ _ _ r => l.ids ++ i :: r.ids

@[simp] theorem rootId_leaf : (leaf : T K V).rootId = none := rfl
@[simp] theorem rootId_node (l : T K V) (i b k v r) : (node l i b k v r).rootId = some i := rfl

/-- In-order entries with their ids. -/
@[simp] def entries : T K V → List (Id × K × V)
  | leaf => []
  | node l i _ k v r => l.entries ++ (i, k, v) :: r.entries

/-- The colour of the top; leaves are black. -/
def isBlack : T K V → Bool
  | leaf => true
  | node _ _ b _ _ _ => b

@[simp] theorem isBlack_leaf : (leaf : T K V).isBlack = true := rfl
@[simp] theorem isBlack_node (l : T K V) (i b k v r) : (node l i b k v r).isBlack = b := rfl

/-- The height. -/
@[simp] def height : T K V → Nat
  | leaf => 0
  | node l _ _ _ _ r => max l.height r.height + 1

theorem ids_eq (t : T K V) : t.ids = t.entries.map (·.1) := by
  induction t with
  | leaf => rfl
  | node l i b k v r ihl ihr => simp [ihl, ihr]

theorem height_le (t : T K V) : t.height ≤ t.ids.length := by
  induction t with
  | leaf => simp
  | node l i b k v r ihl ihr => simp; omega

theorem rootId_mem {t : T K V} {i : Id} (h : t.rootId = some i) : i ∈ t.ids := by
  cases t <;> simp_all

end T

open T

/-- Put a subtree into the hole. -/
def Frame.plug : Frame K V → T K V → T K V
  | .L i b k v r, t => .node t i b k v r
  | .R l i b k v, t => .node l i b k v t

/-- Put a subtree at the end of a way. -/
@[simp] def plug : Ctx K V → T K V → T K V
  | [], t => t
  | f :: c, t => plug c (f.plug t)

/-- The node of a step. -/
def Frame.id : Frame K V → Id
  | .L i .. => i
  | .R _ i .. => i

/-- Its colour. -/
def Frame.isBlack : Frame K V → Bool
  | .L _ b .. => b
  | .R _ _ b .. => b

/-- The nodes of a step, in order. -/
def Frame.ids : Frame K V → List Id
  | .L i _ _ _ r => i :: r.ids
  | .R l i _ _ _ => l.ids ++ [i]

/-- The node above the hole. -/
def parentId : Ctx K V → Option Id
  | [] => none
  | f :: _ => some f.id

@[simp] theorem Frame.plug_L (i b) (k : K) (v : V) (r t) : (Frame.L i b k v r).plug t = .node t i b k v r := rfl
@[simp] theorem Frame.plug_R (l i b) (k : K) (v : V) (t) : (Frame.R l i b k v).plug t = .node l i b k v t := rfl
@[simp] theorem Frame.id_L (i b) (k : K) (v : V) (r) : (Frame.L i b k v r).id = i := rfl
@[simp] theorem Frame.id_R (l i b) (k : K) (v : V) : (Frame.R l i b k v).id = i := rfl
@[simp] theorem Frame.isBlack_L (i b) (k : K) (v : V) (r) : (Frame.L i b k v r).isBlack = b := rfl
@[simp] theorem Frame.isBlack_R (l i b) (k : K) (v : V) : (Frame.R l i b k v).isBlack = b := rfl
@[simp] theorem Frame.ids_L (i b) (k : K) (v : V) (r) : (Frame.L i b k v r).ids = i :: r.ids := rfl
@[simp] theorem Frame.ids_R (l i b) (k : K) (v : V) : (Frame.R l i b k v).ids = l.ids ++ [i] := rfl
@[simp] theorem parentId_nil : parentId ([] : Ctx K V) = none := rfl
@[simp] theorem parentId_cons (f : Frame K V) (c) : parentId (f :: c) = some f.id := rfl

/-- The nodes outside the hole. -/
@[simp] def ctxIds : Ctx K V → List Id
  | [] => []
  | f :: c => f.ids ++ ctxIds c

/-- entries left of the hole -/
@[simp] def leftEntries : Ctx K V → List (Id × K × V)
  | [] => []
  | .L .. :: c => leftEntries c
  | .R l i _ k v :: c => leftEntries c ++ l.entries ++ [(i, k, v)]

/-- entries right of the hole -/
@[simp] def rightEntries : Ctx K V → List (Id × K × V)
  | [] => []
  | .L i _ k v r :: c => (i, k, v) :: r.entries ++ rightEntries c
  | .R .. :: c => rightEntries c

theorem plug_entries (c : Ctx K V) (t : T K V) :
    (plug c t).entries = leftEntries c ++ t.entries ++ rightEntries c := by
  induction c generalizing t with
  | nil => simp
  | cons f c ih => cases f <;> simp [ih]

theorem plug_append (c d : Ctx K V) (t : T K V) : plug (c ++ d) t = plug d (plug c t) := by
  induction c generalizing t with
  | nil => rfl
  | cons f c ih => simp [ih]

/-- The heap holds the nodes of `t`, the root of `t` having parent `par`. -/
def Rep (h : Id → Option (Node K V)) (par : Option Id) : T K V → Prop
  | .leaf => True
  | .node l i b k v r =>
    h i = some { parent := par, left := l.rootId, right := r.rootId, black := b, key := k, value := v }
    ∧ Rep h (some i) l ∧ Rep h (some i) r

/-- The heap holds the frames of the context, whose hole contains the pointer `p`. -/
def RepC (h : Id → Option (Node K V)) (p : Option Id) : Ctx K V → Prop
  | [] => True
  | .L i b k v r :: c =>
    h i = some { parent := parentId c, left := p, right := r.rootId, black := b, key := k, value := v }
    ∧ Rep h (some i) r ∧ RepC h (some i) c
  | .R l i b k v :: c =>
    h i = some { parent := parentId c, left := l.rootId, right := p, black := b, key := k, value := v }
    ∧ Rep h (some i) l ∧ RepC h (some i) c

theorem rep_plug (h : Id → Option (Node K V)) (c : Ctx K V) (t : T K V) :
    Rep h none (plug c t) ↔ Rep h (parentId c) t ∧ RepC h t.rootId c := by
  induction c generalizing t with
  | nil => simp [RepC]
  | cons f c ih =>
    cases f with
    | L i b k v r =>
      simp only [plug, ih, Frame.plug_L, Frame.plug_R, Rep, RepC, parentId_cons, Frame.id_L, Frame.id_R, rootId_node]
      grind
    | R l i b k v =>
      simp only [plug, ih, Frame.plug_L, Frame.plug_R, Rep, RepC, parentId_cons, Frame.id_L, Frame.id_R, rootId_node]
      grind

/-- Updates outside the ids of `t` do not matter. -/
theorem Rep.frame {h h' : Id → Option (Node K V)} {par : Option Id} {t : T K V}
    (hr : Rep h par t) (hf : ∀ i ∈ t.ids, h' i = h i) : Rep h' par t := by
  induction t generalizing par with
  | leaf => trivial
  | node l i b k v r ihl ihr =>
    obtain ⟨h1, h2, h3⟩ := hr
    refine ⟨?_, ihl h2 ?_, ihr h3 ?_⟩
    · rw [hf i (by simp), h1]
    · intro j hj; exact hf j (by simp [hj])
    · intro j hj; exact hf j (by simp [hj])

theorem RepC.frame {h h' : Id → Option (Node K V)} {p : Option Id} {c : Ctx K V}
    (hr : RepC h p c) (hf : ∀ i ∈ ctxIds c, h' i = h i) : RepC h' p c := by
  induction c generalizing p with
  | nil => trivial
  | cons f c ih =>
    cases f with
    | L i b k v r =>
      obtain ⟨h1, h2, h3⟩ := hr
      exact ⟨by rw [hf i (by simp), h1], h2.frame fun j hj => hf j (by simp [hj]),
        ih h3 fun j hj => hf j (by simp [hj])⟩
    | R l i b k v =>
      obtain ⟨h1, h2, h3⟩ := hr
      exact ⟨by rw [hf i (by simp), h1], h2.frame fun j hj => hf j (by simp [hj]),
        ih h3 fun j hj => hf j (by simp [hj])⟩

/-- Changing the parent pointer of the root. -/
theorem Rep.reparent {h h' : Id → Option (Node K V)} {par par' : Option Id} {t : T K V}
    (hr : Rep h par t) (hn : t.ids.Nodup)
    (hroot : ∀ i, t.rootId = some i → h' i = (h i).map fun n => { n with parent := par' })
    (hf : ∀ i ∈ t.ids, t.rootId ≠ some i → h' i = h i) : Rep h' par' t := by
  cases t with
  | leaf => trivial
  | node l i b k v r =>
    obtain ⟨h1, h2, h3⟩ := hr
    simp only [T.ids, List.nodup_append, List.nodup_cons] at hn
    refine ⟨by rw [hroot i rfl, h1]; rfl, h2.frame ?_, h3.frame ?_⟩
    · intro j hj; apply hf j (by simp [hj]); simp; rintro rfl; exact hn.2.2 i hj i (by simp) rfl
    · intro j hj; apply hf j (by simp [hj]); simp; rintro rfl; exact hn.2.1.1 hj

/-- Changing the pointer in the hole: only the innermost frame's node changes. -/
theorem RepC.rehole {h h' : Id → Option (Node K V)} {p p' : Option Id} {c : Ctx K V}
    (hr : RepC h p c) (hn : (ctxIds c).Nodup)
    (hhead : ∀ f c', c = f :: c' → h' f.id = (h f.id).map fun n =>
      match f with
      | .L .. => { n with left := p' }
      | .R .. => { n with right := p' })
    (hf : ∀ i ∈ ctxIds c, parentId c ≠ some i → h' i = h i) : RepC h' p' c := by
  cases c with
  | nil => trivial
  | cons f c =>
    have hh := hhead f c rfl
    cases f with
    | L i b k v r =>
      obtain ⟨h1, h2, h3⟩ := hr
      simp only [ctxIds, Frame.ids_L, Frame.ids_R, List.nodup_append, List.nodup_cons] at hn
      simp only [Frame.id_L, Frame.id_R, parentId_cons] at hh hf
      refine ⟨by rw [hh, h1]; rfl, h2.frame ?_, h3.frame ?_⟩
      · intro j hj; apply hf j (by simp [hj]); simp; rintro rfl; exact hn.1.1 hj
      · intro j hj; apply hf j (by simp [hj]); simp; rintro rfl; exact hn.2.2 i (by simp) i hj rfl
    | R l i b k v =>
      obtain ⟨h1, h2, h3⟩ := hr
      simp only [ctxIds, Frame.ids_L, Frame.ids_R, List.nodup_append, List.nodup_cons] at hn
      simp only [Frame.id_L, Frame.id_R, parentId_cons] at hh hf
      refine ⟨by rw [hh, h1]; rfl, h2.frame ?_, h3.frame ?_⟩
      · intro j hj; apply hf j (by simp [hj]); simp; rintro rfl; exact hn.1.2.2 i hj i (by simp) rfl
      · intro j hj; apply hf j (by simp [hj]); simp; rintro rfl; exact hn.2.2 i (by simp) i hj rfl

theorem plug_ids_perm (c : Ctx K V) (t : T K V) : (plug c t).ids.Perm (t.ids ++ ctxIds c) := by
  induction c generalizing t with
  | nil => simp
  | cons f c ih =>
    simp only [plug]
    refine (ih _).trans ?_
    cases f with
    | L i b k v r => simp
    | R l i b k v =>
      simp only [Frame.plug_R, T.ids, ctxIds, Frame.ids_L, Frame.ids_R]
      rw [← List.append_assoc]
      refine List.Perm.append_right _ ?_
      have : (l.ids ++ i :: t.ids).Perm (l.ids ++ (t.ids ++ [i])) :=
        List.Perm.append_left _ (List.perm_append_singleton i t.ids).symm
      refine this.trans ?_
      rw [← List.append_assoc]
      exact (List.perm_append_comm_assoc _ _ _ |>.trans (by simp) : (l.ids ++ (t.ids ++ [i])).Perm (t.ids ++ (l.ids ++ [i]))) |> fun h => by simpa using h

/-- `s` represents the inductive tree `t`. -/
structure Reps (s : Tree K V) (t : T K V) : Prop where
  root : s.root = t.rootId
  rep : Rep s.heap none t
  nodup : t.ids.Nodup
  fresh : ∀ i ∈ t.ids, i < s.next

end GoSTL.RB
