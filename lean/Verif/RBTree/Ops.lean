import Mathlib.Data.List.Perm.Subperm
import Verif.RBTree.Rep
/-!
# Local pointer operations on represented trees
-/
namespace GoSTL.RB
open T
variable {K V : Type}

namespace Tree

@[simp] theorem modify_heap (s : Tree K V) (i : Id) (f) (j : Id) :
    (s.modify i f).heap j = if j = i then (s.heap i).map f else s.heap j := rfl
@[simp] theorem modify_root (s : Tree K V) (i : Id) (f) : (s.modify i f).root = s.root := rfl
@[simp] theorem modify_size (s : Tree K V) (i : Id) (f) : (s.modify i f).size = s.size := rfl
@[simp] theorem modify_next (s : Tree K V) (i : Id) (f) : (s.modify i f).next = s.next := rfl

end Tree

theorem plug_rootId_congr {c : Ctx K V} (hc : c ≠ []) (t t' : T K V) : (plug c t).rootId = (plug c t').rootId := by
  induction c generalizing t t' with
  | nil => exact absurd rfl hc
  | cons f c ih =>
    cases c with
    | nil => cases f <;> simp
    | cons g c => exact ih (by simp) _ _

theorem plug_rootId_cases (c : Ctx K V) (t : T K V) :
    (c = [] ∧ (plug c t).rootId = t.rootId) ∨ (c ≠ [] ∧ ∃ i ∈ ctxIds c, (plug c t).rootId = some i) := by
  induction c generalizing t with
  | nil => simp
  | cons f c ih =>
    right
    refine ⟨by simp, ?_⟩
    rcases ih (f.plug t) with ⟨rfl, h⟩ | ⟨_, i, hi, h⟩
    · refine ⟨f.id, ?_, ?_⟩
      · cases f <;> simp
      · cases f <;> simp
    · exact ⟨i, by simp [hi], h⟩

theorem nodup_plug {c : Ctx K V} {t : T K V} :
    (plug c t).ids.Nodup ↔ t.ids.Nodup ∧ (ctxIds c).Nodup ∧ ∀ a ∈ t.ids, ∀ b ∈ ctxIds c, a ≠ b := by
  rw [(plug_ids_perm c t).nodup_iff, List.nodup_append]

theorem mem_plug_ids {c : Ctx K V} {t : T K V} {i : Id} : i ∈ (plug c t).ids ↔ i ∈ t.ids ∨ i ∈ ctxIds c := by
  rw [(plug_ids_perm c t).mem_iff, List.mem_append]

theorem parentId_mem {c : Ctx K V} {i : Id} (h : parentId c = some i) : i ∈ ctxIds c := by
  cases c with
  | nil => simp at h
  | cons f c => cases f <;> simp_all

/-- Replacing the tree in the hole. -/
theorem Reps.replace {s s' : Tree K V} {c : Ctx K V} {t t' : T K V} (h : Reps s (plug c t))
    (hroot : s'.root = if c = [] then t'.rootId else s.root)
    (hrep : Rep s'.heap (parentId c) t') (hrepc : RepC s'.heap t'.rootId c)
    (hnodup : t'.ids.Nodup) (hsub : ∀ i ∈ t'.ids, i ∈ t.ids)
    (hnext : s'.next = s.next) : Reps s' (plug c t') where
  root := by
    rw [hroot]
    split
    · rename_i hc; subst hc; rfl
    · rename_i hc; rw [h.root]; exact plug_rootId_congr hc _ _
  rep := by rw [rep_plug]; exact ⟨hrep, hrepc⟩
  nodup := by
    have := nodup_plug.1 h.nodup
    rw [nodup_plug]
    exact ⟨hnodup, this.2.1, fun a ha b hb => this.2.2 a (hsub a ha) b hb⟩
  fresh := by
    intro i hi
    rw [hnext]
    apply h.fresh
    rw [mem_plug_ids] at hi ⊢
    exact hi.imp (hsub i) id

theorem Reps.split {s : Tree K V} {c : Ctx K V} {t : T K V} (h : Reps s (plug c t)) :
    Rep s.heap (parentId c) t ∧ RepC s.heap t.rootId c ∧ t.ids.Nodup ∧ (ctxIds c).Nodup ∧
    (∀ a ∈ t.ids, ∀ b ∈ ctxIds c, a ≠ b) := by
  have h1 := (rep_plug _ _ _).1 h.rep
  have h2 := nodup_plug.1 h.nodup
  exact ⟨h1.1, h1.2, h2.1, h2.2.1, h2.2.2⟩

/-- `if` on the heap for the head frame's node. -/
theorem RepC.head_L {h : Id → Option (Node K V)} {p : Option Id} {i b k v} {r : T K V} {c}
    (hr : RepC h p (.L i b k v r :: c)) :
    h i = some { parent := parentId c, left := p, right := r.rootId, black := b, key := k, value := v } := hr.1

/-- The head frame's hole pointer replaced. -/
def Frame.sel (f : Frame K V) (n : Node K V) (p : Option Id) : Node K V :=
  match f with
  | .L .. => { n with left := p }
  | .R .. => { n with right := p }

set_option maxHeartbeats 1000000 in
theorem leftRotate_heap {s : Tree K V} {c : Ctx K V} {a b d : T K V} {x y : Id} {bx bY : Bool} {kx ky : K} {vx vy : V}
    (hs : Reps s (plug c (.node a x bx kx vx (.node b y bY ky vy d)))) :
    ∃ s', s.leftRotate x = .ok s' ∧ s'.size = s.size ∧ s'.next = s.next ∧
      (s'.root = if c = [] then some y else s.root) ∧
      s'.heap x = some ⟨some y, a.rootId, b.rootId, bx, kx, vx⟩ ∧
      s'.heap y = some ⟨parentId c, some x, d.rootId, bY, ky, vy⟩ ∧
      (∀ j, b.rootId = some j → s'.heap j = (s.heap j).map fun n => { n with parent := some x }) ∧
      (∀ f c', c = f :: c' → s'.heap f.id = (s.heap f.id).map fun n => f.sel n (some y)) ∧
      (∀ j, j ≠ x → j ≠ y → b.rootId ≠ some j → parentId c ≠ some j → s'.heap j = s.heap j) := by
  obtain ⟨h1, h2, h3, h4, h5⟩ := hs.split
  obtain ⟨hx, ha, hy, hb, hd⟩ := h1
  simp only [T.ids, List.nodup_append, List.nodup_cons, List.mem_append, List.mem_cons] at h3 h5
  have hxy : x ≠ y := by grind
  have hbx : b.rootId ≠ some x := by intro h; have := rootId_mem h; grind
  have hby : b.rootId ≠ some y := by intro h; have := rootId_mem h; grind
  have hbc : ∀ j, b.rootId = some j → parentId c ≠ some j := by
    intro j h h'; have := rootId_mem h; have := parentId_mem h'; grind
  have hcx : parentId c ≠ some x := by intro h'; have := parentId_mem h'; grind
  have hcy : parentId c ≠ some y := by intro h'; have := parentId_mem h'; grind
  have hyx := Ne.symm hxy
  simp only [rootId_node] at hx
  have hbi : ∀ j, b.rootId = some j → ∃ n, s.heap j = some n := by
    intro j hj
    cases b with
    | leaf => simp at hj
    | node bl bi bb bk bv br => simp only [rootId_node, Option.some.injEq] at hj; subst hj; exact ⟨_, hb.1⟩
  clear h3 h4 ha hb hd hs
  rcases c with _ | ⟨f, c⟩
  · clear h2
    simp only [parentId_nil] at hx hcx hcy hbc
    cases hbr : b.rootId with
    | none =>
      rw [hbr] at hy
      refine ⟨_, by simp [Tree.leftRotate, Tree.node, Tree.setParent, Tree.setLeft, Tree.setRight, hx, hy, hxy, hyx]; rfl, ?_⟩
      simp [hx, hy, hxy, hyx]; grind
    | some j =>
      obtain ⟨bn, hbn⟩ := hbi j hbr
      rw [hbr] at hy
      have n1 : j ≠ x := by grind
      have n2 : j ≠ y := by grind
      refine ⟨_, by simp [Tree.leftRotate, Tree.node, Tree.setParent, Tree.setLeft, Tree.setRight, hx, hy, hxy, hyx, n1, n2, n1.symm, n2.symm, hbn]; rfl, ?_⟩
      simp [hx, hy, hxy, hyx, n1, n2, n1.symm, n2.symm, hbn]; grind
  · cases f with
    | L i bi ki vi r =>
      obtain ⟨h2, -, -⟩ := h2
      have hrx : r.rootId ≠ some x := by intro h'; have := rootId_mem h'; simp at h5; grind
      clear h5
      simp only [parentId_cons, Frame.id_L, rootId_node] at hx hcx hcy hbc h2
      have m1 : i ≠ x := by grind
      have m2 : i ≠ y := by grind
      cases hbr : b.rootId with
      | none =>
        rw [hbr] at hy
        refine ⟨_, by simp [Tree.leftRotate, Tree.node, Tree.setParent, Tree.setLeft, Tree.setRight, hx, hy, hxy, hyx, m1, m2, m1.symm, m2.symm, h2, hrx]; rfl, ?_⟩
        simp [hx, hy, hxy, hyx, m1, m2, m1.symm, m2.symm, h2, Frame.sel]; grind
      | some j =>
        obtain ⟨bn, hbn⟩ := hbi j hbr
        rw [hbr] at hy
        have n1 : j ≠ x := by grind
        have n2 : j ≠ y := by grind
        have n3 : j ≠ i := by grind
        refine ⟨_, by simp [Tree.leftRotate, Tree.node, Tree.setParent, Tree.setLeft, Tree.setRight, hx, hy, hxy, hyx, m1, m2, m1.symm, m2.symm, n1, n2, n1.symm, n2.symm, n3, n3.symm, hbn, h2, hrx]; rfl, ?_⟩
        simp [hx, hy, hxy, hyx, m1, m2, m1.symm, m2.symm, n1, n2, n1.symm, n2.symm, n3, n3.symm, hbn, h2, Frame.sel]; grind
    | R l i bi ki vi =>
      obtain ⟨h2, -, -⟩ := h2
      have hlx : l.rootId ≠ some x := by intro h'; have := rootId_mem h'; simp at h5; grind
      clear h5
      simp only [parentId_cons, Frame.id_R, rootId_node] at hx hcx hcy hbc h2
      have m1 : i ≠ x := by grind
      have m2 : i ≠ y := by grind
      cases hbr : b.rootId with
      | none =>
        rw [hbr] at hy
        refine ⟨_, by simp [Tree.leftRotate, Tree.node, Tree.setParent, Tree.setLeft, Tree.setRight, hx, hy, hxy, hyx, m1, m2, m1.symm, m2.symm, h2, hlx]; rfl, ?_⟩
        simp [hx, hy, hxy, hyx, m1, m2, m1.symm, m2.symm, h2, Frame.sel]; grind
      | some j =>
        obtain ⟨bn, hbn⟩ := hbi j hbr
        rw [hbr] at hy
        have n1 : j ≠ x := by grind
        have n2 : j ≠ y := by grind
        have n3 : j ≠ i := by grind
        refine ⟨_, by simp [Tree.leftRotate, Tree.node, Tree.setParent, Tree.setLeft, Tree.setRight, hx, hy, hxy, hyx, m1, m2, m1.symm, m2.symm, n1, n2, n1.symm, n2.symm, n3, n3.symm, hbn, h2, hlx]; rfl, ?_⟩
        simp [hx, hy, hxy, hyx, m1, m2, m1.symm, m2.symm, n1, n2, n1.symm, n2.symm, n3, n3.symm, hbn, h2, Frame.sel]; grind


set_option maxHeartbeats 1000000 in
theorem leftRotate_spec {s : Tree K V} {c : Ctx K V} {a b d : T K V} {x y : Id} {bx bY : Bool} {kx ky : K} {vx vy : V}
    (hs : Reps s (plug c (.node a x bx kx vx (.node b y bY ky vy d)))) :
    ∃ s', s.leftRotate x = .ok s' ∧ Reps s' (plug c (.node (.node a x bx kx vx b) y bY ky vy d)) ∧
      s'.size = s.size ∧ s'.next = s.next := by
  obtain ⟨s', e, hsz, hnx, hroot, hx', hy', hb', hc', hf'⟩ := leftRotate_heap hs
  refine ⟨s', e, ?_, hsz, hnx⟩
  obtain ⟨h1, h2, h3, h4, h5⟩ := hs.split
  obtain ⟨hx, ha, hy, hb, hd⟩ := h1
  simp only [T.ids, List.nodup_append, List.nodup_cons, List.mem_append, List.mem_cons] at h3 h5
  have pm : ∀ j, parentId c = some j → j ∈ ctxIds c := fun j => parentId_mem
  have bm : ∀ j, b.rootId = some j → j ∈ b.ids := fun j => rootId_mem
  refine hs.replace (by simpa using hroot) ⟨hy', ⟨hx', ?_, ?_⟩, ?_⟩ ?_ ?_ ?_ hnx
  · exact ha.frame fun j hj => hf' j (by grind) (by grind) (by grind) (by grind)
  · exact hb.reparent (by grind) hb' fun j hj hr => hf' j (by grind) (by grind) (by grind) (by grind)
  · exact hd.frame fun j hj => hf' j (by grind) (by grind) (by grind) (by grind)
  · refine h2.rehole h4 ?_ ?_
    · intro f c' hc; rw [hc' f c' hc]; cases f <;> rfl
    · intro j hj hp; exact hf' j (by grind) (by grind) (by grind) (by grind)
  · simp only [T.ids, List.nodup_append, List.nodup_cons, List.mem_append, List.mem_cons]; grind
  · simp only [T.ids, List.mem_append, List.mem_cons]; grind

set_option maxHeartbeats 1000000 in
theorem rightRotate_heap {s : Tree K V} {c : Ctx K V} {a b d : T K V} {x y : Id} {bx bY : Bool} {kx ky : K} {vx vy : V}
    (hs : Reps s (plug c (.node (.node d y bY ky vy b) x bx kx vx a))) :
    ∃ s', s.rightRotate x = .ok s' ∧ s'.size = s.size ∧ s'.next = s.next ∧
      (s'.root = if c = [] then some y else s.root) ∧
      s'.heap x = some ⟨some y, b.rootId, a.rootId, bx, kx, vx⟩ ∧
      s'.heap y = some ⟨parentId c, d.rootId, some x, bY, ky, vy⟩ ∧
      (∀ j, b.rootId = some j → s'.heap j = (s.heap j).map fun n => { n with parent := some x }) ∧
      (∀ f c', c = f :: c' → s'.heap f.id = (s.heap f.id).map fun n => f.sel n (some y)) ∧
      (∀ j, j ≠ x → j ≠ y → b.rootId ≠ some j → parentId c ≠ some j → s'.heap j = s.heap j) := by
  obtain ⟨h1, h2, h3, h4, h5⟩ := hs.split
  obtain ⟨hx, ⟨hy, hd, hb⟩, ha⟩ := h1
  simp only [T.ids, List.nodup_append, List.nodup_cons, List.mem_append, List.mem_cons] at h3 h5
  have hxy : x ≠ y := by grind
  have hbx : b.rootId ≠ some x := by intro h; have := rootId_mem h; grind
  have hby : b.rootId ≠ some y := by intro h; have := rootId_mem h; grind
  have hbc : ∀ j, b.rootId = some j → parentId c ≠ some j := by
    intro j h h'; have := rootId_mem h; have := parentId_mem h'; grind
  have hcx : parentId c ≠ some x := by intro h'; have := parentId_mem h'; grind
  have hcy : parentId c ≠ some y := by intro h'; have := parentId_mem h'; grind
  have hyx := Ne.symm hxy
  simp only [rootId_node] at hx
  have hbi : ∀ j, b.rootId = some j → ∃ n, s.heap j = some n := by
    intro j hj
    cases b with
    | leaf => simp at hj
    | node bl bi bb bk bv br => simp only [rootId_node, Option.some.injEq] at hj; subst hj; exact ⟨_, hb.1⟩
  clear h3 h4 ha hb hd hs
  rcases c with _ | ⟨f, c⟩
  · clear h2
    simp only [parentId_nil] at hx hcx hcy hbc
    cases hbr : b.rootId with
    | none =>
      rw [hbr] at hy
      refine ⟨_, by simp [Tree.rightRotate, Tree.node, Tree.setParent, Tree.setLeft, Tree.setRight, hx, hy, hxy, hyx]; rfl, ?_⟩
      simp [hx, hy, hxy, hyx]; grind
    | some j =>
      obtain ⟨bn, hbn⟩ := hbi j hbr
      rw [hbr] at hy
      have n1 : j ≠ x := by grind
      have n2 : j ≠ y := by grind
      refine ⟨_, by simp [Tree.rightRotate, Tree.node, Tree.setParent, Tree.setLeft, Tree.setRight, hx, hy, hxy, hyx, n1, n2, n1.symm, n2.symm, hbn]; rfl, ?_⟩
      simp [hx, hy, hxy, hyx, n1, n2, n1.symm, n2.symm, hbn]; grind
  · cases f with
    | L i bi ki vi r =>
      obtain ⟨h2, -, -⟩ := h2
      have hrx : r.rootId ≠ some x := by intro h'; have := rootId_mem h'; simp at h5; grind
      clear h5
      simp only [parentId_cons, Frame.id_L, rootId_node] at hx hcx hcy hbc h2
      have m1 : i ≠ x := by grind
      have m2 : i ≠ y := by grind
      cases hbr : b.rootId with
      | none =>
        rw [hbr] at hy
        refine ⟨_, by simp [Tree.rightRotate, Tree.node, Tree.setParent, Tree.setLeft, Tree.setRight, hx, hy, hxy, hyx, m1, m2, m1.symm, m2.symm, h2, hrx]; rfl, ?_⟩
        simp [hx, hy, hxy, hyx, m1, m2, m1.symm, m2.symm, h2, Frame.sel]; grind
      | some j =>
        obtain ⟨bn, hbn⟩ := hbi j hbr
        rw [hbr] at hy
        have n1 : j ≠ x := by grind
        have n2 : j ≠ y := by grind
        have n3 : j ≠ i := by grind
        refine ⟨_, by simp [Tree.rightRotate, Tree.node, Tree.setParent, Tree.setLeft, Tree.setRight, hx, hy, hxy, hyx, m1, m2, m1.symm, m2.symm, n1, n2, n1.symm, n2.symm, n3, n3.symm, hbn, h2, hrx]; rfl, ?_⟩
        simp [hx, hy, hxy, hyx, m1, m2, m1.symm, m2.symm, n1, n2, n1.symm, n2.symm, n3, n3.symm, hbn, h2, Frame.sel]; grind
    | R l i bi ki vi =>
      obtain ⟨h2, -, -⟩ := h2
      have hlx : l.rootId ≠ some x := by intro h'; have := rootId_mem h'; simp at h5; grind
      clear h5
      simp only [parentId_cons, Frame.id_R, rootId_node] at hx hcx hcy hbc h2
      have m1 : i ≠ x := by grind
      have m2 : i ≠ y := by grind
      cases hbr : b.rootId with
      | none =>
        rw [hbr] at hy
        refine ⟨_, by simp [Tree.rightRotate, Tree.node, Tree.setParent, Tree.setLeft, Tree.setRight, hx, hy, hxy, hyx, m1, m2, m1.symm, m2.symm, h2, hlx]; rfl, ?_⟩
        simp [hx, hy, hxy, hyx, m1, m2, m1.symm, m2.symm, h2, Frame.sel]; grind
      | some j =>
        obtain ⟨bn, hbn⟩ := hbi j hbr
        rw [hbr] at hy
        have n1 : j ≠ x := by grind
        have n2 : j ≠ y := by grind
        have n3 : j ≠ i := by grind
        refine ⟨_, by simp [Tree.rightRotate, Tree.node, Tree.setParent, Tree.setLeft, Tree.setRight, hx, hy, hxy, hyx, m1, m2, m1.symm, m2.symm, n1, n2, n1.symm, n2.symm, n3, n3.symm, hbn, h2, hlx]; rfl, ?_⟩
        simp [hx, hy, hxy, hyx, m1, m2, m1.symm, m2.symm, n1, n2, n1.symm, n2.symm, n3, n3.symm, hbn, h2, Frame.sel]; grind


set_option maxHeartbeats 1000000 in
theorem rightRotate_spec {s : Tree K V} {c : Ctx K V} {a b d : T K V} {x y : Id} {bx bY : Bool} {kx ky : K} {vx vy : V}
    (hs : Reps s (plug c (.node (.node d y bY ky vy b) x bx kx vx a))) :
    ∃ s', s.rightRotate x = .ok s' ∧ Reps s' (plug c (.node d y bY ky vy (.node b x bx kx vx a))) ∧
      s'.size = s.size ∧ s'.next = s.next := by
  obtain ⟨s', e, hsz, hnx, hroot, hx', hy', hb', hc', hf'⟩ := rightRotate_heap hs
  refine ⟨s', e, ?_, hsz, hnx⟩
  obtain ⟨h1, h2, h3, h4, h5⟩ := hs.split
  obtain ⟨hx, ⟨hy, hd, hb⟩, ha⟩ := h1
  simp only [T.ids, List.nodup_append, List.nodup_cons, List.mem_append, List.mem_cons] at h3 h5
  have pm : ∀ j, parentId c = some j → j ∈ ctxIds c := fun j => parentId_mem
  have bm : ∀ j, b.rootId = some j → j ∈ b.ids := fun j => rootId_mem
  refine hs.replace (by simpa using hroot) ⟨hy', ?_, hx', ?_, ?_⟩ ?_ ?_ ?_ hnx
  · exact hd.frame fun j hj => hf' j (by grind) (by grind) (by grind) (by grind)
  · exact hb.reparent (by grind) hb' fun j hj hr => hf' j (by grind) (by grind) (by grind) (by grind)
  · exact ha.frame fun j hj => hf' j (by grind) (by grind) (by grind) (by grind)
  · refine h2.rehole h4 ?_ ?_
    · intro f c' hc; rw [hc' f c' hc]; cases f <;> rfl
    · intro j hj hp; exact hf' j (by grind) (by grind) (by grind) (by grind)
  · simp only [T.ids, List.nodup_append, List.nodup_cons, List.mem_append, List.mem_cons]; grind
  · simp only [T.ids, List.mem_append, List.mem_cons]; grind

theorem Reps.lookup {s : Tree K V} {c : Ctx K V} {l r : T K V} {i b k v}
    (hs : Reps s (plug c (.node l i b k v r))) :
    s.heap i = some ⟨parentId c, l.rootId, r.rootId, b, k, v⟩ := hs.split.1.1

theorem Reps.node_eq {s : Tree K V} {c : Ctx K V} {l r : T K V} {i b k v}
    (hs : Reps s (plug c (.node l i b k v r))) :
    s.node i = .ok ⟨parentId c, l.rootId, r.rootId, b, k, v⟩ := by
  simp [Tree.node, hs.lookup]

theorem Rep.getColor {s : Tree K V} {par : Option Id} {t : T K V} (h : Rep s.heap par t) :
    s.getColor t.rootId = .ok t.isBlack := by
  cases t with
  | leaf => rfl
  | node l i b k v r => simp [Tree.getColor, Tree.node, h.1]

/-- Changing colour, key or value of one node. -/
theorem Reps.modify {s : Tree K V} {c : Ctx K V} {l r : T K V} {i b k v b' k' v'}
    (hs : Reps s (plug c (.node l i b k v r))) {f : Node K V → Node K V}
    (hf : f ⟨parentId c, l.rootId, r.rootId, b, k, v⟩ = ⟨parentId c, l.rootId, r.rootId, b', k', v'⟩) :
    Reps (s.modify i f) (plug c (.node l i b' k' v' r)) := by
  obtain ⟨⟨h1, hl, hr⟩, h2, h3, h4, h5⟩ := hs.split
  simp only [T.ids, List.nodup_append, List.nodup_cons, List.mem_append, List.mem_cons] at h3 h5
  refine hs.replace ?_ ⟨?_, ?_, ?_⟩ ?_ ?_ ?_ rfl
  · split
    · rename_i hc; subst hc; exact hs.root
    · rfl
  · simp [h1, hf]
  · exact hl.frame fun j hj => by simp; grind
  · exact hr.frame fun j hj => by simp; grind
  · exact h2.frame fun j hj => by simp; grind
  · simp only [T.ids, List.nodup_append, List.nodup_cons]; grind
  · simp

theorem Reps.setBlack {s : Tree K V} {c : Ctx K V} {l r : T K V} {i b k v}
    (hs : Reps s (plug c (.node l i b k v r))) (b' : Bool) :
    Reps (s.setBlack i b') (plug c (.node l i b' k v r)) := hs.modify rfl

theorem Reps.setValue {s : Tree K V} {c : Ctx K V} {l r : T K V} {i b k v}
    (hs : Reps s (plug c (.node l i b k v r))) (v' : V) :
    Reps (s.setValue i v') (plug c (.node l i b k v' r)) := hs.modify rfl

theorem Reps.setKV {s : Tree K V} {c : Ctx K V} {l r : T K V} {i b k v}
    (hs : Reps s (plug c (.node l i b k v r))) (k' : K) (v' : V) :
    Reps (s.setKV i k' v') (plug c (.node l i b k' v' r)) := hs.modify rfl

theorem ctx_length_le (c : Ctx K V) : c.length ≤ (ctxIds c).length := by
  induction c with
  | nil => simp
  | cons f c ih => cases f <;> simp <;> omega

theorem nodup_bounded_length {l : List Nat} {n : Nat} (hn : l.Nodup) (hb : ∀ i ∈ l, i < n) : l.length ≤ n := by
  have : l.Subperm (List.range n) := List.subperm_of_subset hn (fun i hi => by simpa using hb i hi)
  simpa using this.length_le

theorem Reps.length_le {s : Tree K V} {t : T K V} (hs : Reps s t) : t.ids.length ≤ s.next :=
  nodup_bounded_length hs.nodup hs.fresh

theorem Reps.ctx_le {s : Tree K V} {c : Ctx K V} {t : T K V} (hs : Reps s (plug c t)) :
    c.length + t.ids.length ≤ s.next := by
  have h1 := hs.length_le
  have h2 := (plug_ids_perm c t).length_eq
  have h3 := ctx_length_le c
  simp at h2
  omega

/-- Every node of a tree is the root of a subtree in a context. -/
theorem exists_zipper {t : T K V} {i : Id} (h : i ∈ t.ids) :
    ∃ c l b k v r, t = plug c (.node l i b k v r) := by
  induction t with
  | leaf => simp at h
  | node l j b k v r ihl ihr =>
    simp at h
    rcases h with h | rfl | h
    · obtain ⟨c, l', b', k', v', r', e⟩ := ihl h
      exact ⟨c ++ [.L j b k v r], l', b', k', v', r', by rw [plug_append, ← e]; rfl⟩
    · exact ⟨[], l, b, k, v, r, rfl⟩
    · obtain ⟨c, l', b', k', v', r', e⟩ := ihr h
      exact ⟨c ++ [.R l j b k v], l', b', k', v', r', by rw [plug_append, ← e]; rfl⟩

end GoSTL.RB
