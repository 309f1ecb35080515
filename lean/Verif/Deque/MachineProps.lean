import Verif.Deque.MachineOps
import Verif.Deque.Memory
import Verif.Deque.EraseLoop
/-!
# C106 for the deque: the theorems

`stepM`/`runM` (Verif/Deque/Machine.lean) compute every sum, difference and quotient of deque.go and segment.go in Go's 64-bit
`int`; `step`/`run` compute them exactly.
-/
namespace GoSTL.Deque
variable {T : Type} {cfg : Cfg T}

theorem SegRep.sb {K k : Nat} {s : Seg T} {l : List T} (h : SegRep K s l) (hk : K ≤ k) : SB K k s := by
  have h1 := h.size
  have h2 := h.le
  have h3 := h.beg
  have h4 : s.end_ < K := by rw [h.end_]; exact ring_lt h3 h2
  exact ⟨h.len, by omega, by omega, by omega, by omega⟩

theorem ring_mem {d : Deq T} {U : List Nat} (h : RingOf d U) {id : Nat} (hm : some id ∈ d.segs) : id ∈ U := by
  have hpos : 0 < d.segs.length := List.length_pos_of_mem hm
  obtain ⟨i, hi, e⟩ := List.mem_iff_getElem.1 hm
  have hb := h.beg' hpos
  obtain ⟨j, hj, ej⟩ : ∃ j, j < d.segs.length ∧ ring d.segs.length d.begin_ j = i := by
    by_cases c : d.begin_ ≤ i
    · exact ⟨i - d.begin_, by omega, by unfold ring; split <;> omega⟩
    · exact ⟨i + d.segs.length - d.begin_, by omega, by unfold ring; split <;> omega⟩
  have hs := h.slot j hj
  rw [ej, List.getElem?_eq_getElem hi, e] at hs
  exact List.mem_of_getElem? (Option.some.inj hs).symm

/-- In every state reached by calls the numbers of the deque are small when its size is. -/
theorem Reachable.db (hg : cfg.Good) (hc : cfg.ScaleLe) {d : Deq T} (h : Reachable cfg d) : DB cfg.segCap (cfg.segCap + 3 * d.size.toNat + 2) d := by
  obtain ⟨c, hi⟩ := h.inv hg
  obtain ⟨ops, os, e⟩ := h
  have hM := run_mem hg hc ops new_inv (by unfold MemOk MB; exact ⟨.inl (by simp [new]), by simp [new]⟩) e
  obtain ⟨L, ⟨U, h, hroom, hs, hz⟩, -⟩ := hi
  have hu := DInv.used h hs hz
  unfold MemOk MB at hM
  rw [hu, Int.toNat_natCast] at hM
  have hl := h.len
  have hpos := hg.pos
  have hU : U.length ≤ L.flatten.length := by
    by_cases c2 : 2 ≤ L.length
    · have h1 := hs.count c2
      have h2 : L.length - 2 ≤ cfg.segCap * (L.length - 2) := Nat.le_mul_of_pos_left _ hpos
      omega
    · by_cases c0 : L = []
      · subst c0; simp at hl; simp [hl]
      · have := hs.pos_of_ne c0
        omega
  have hb := h.ring.beg
  have he : d.end_ ≤ d.segs.length := by
    by_cases c0 : 0 < d.segs.length
    · exact Nat.le_of_lt (h.ring.end_lt c0)
    · have h1 := h.ring.end_
      have h2 := h.ring.le
      unfold ring at h1
      split at h1 <;> omega
  have hz' : d.size.toNat = L.flatten.length := by omega
  refine ⟨by omega, by omega, he, by omega, by omega, by omega, ?_⟩
  rintro id (hid | hid) s es
  · obtain ⟨s', e1, e2⟩ := h.pool id hid
    rw [es] at e1; cases e1
    exact e2.sb (by omega)
  · obtain ⟨i, hlt, ei⟩ := List.mem_iff_getElem.1 (ring_mem h.ring hid)
    obtain ⟨s', e1, e2⟩ := h.seg i id L[i] (by rw [List.getElem?_eq_getElem hlt, ei]) (List.getElem?_eq_getElem (by omega))
    rw [es] at e1; cases e1
    exact e2.sb (by omega)

/-- **C106** On every deque reached by calls, with fewer than 2^48 elements, each call computes in Go's `int` what it computes
with unbounded integers: no sum, difference or index wraps around. -/
theorem C106_deque_step (hg : cfg.Good) (hc : cfg.ScaleLe) (hK : cfg.segCap ≤ 2 ^ 48) {d : Deq T} (h : Reachable cfg d) (hs : size d < 2 ^ 48) (op : Op T) :
    stepM cfg op d = step cfg op d := by
  unfold size at hs
  exact stepM_eq hg (by omega) (h.db hg hc) (by omega) op

theorem runM_eq (hg : cfg.Good) (hc : cfg.ScaleLe) (hK : cfg.segCap ≤ 2 ^ 48) : ∀ (ops : List (Op T)) {d : Deq T}, Reachable cfg d →
    (∀ pre suf os d', ops = pre ++ suf → run cfg pre d = .ok (os, d') → size d' < 2 ^ 48) → runM cfg ops d = run cfg ops d := by
  intro ops
  induction ops with
  | nil => intro d _ _; rfl
  | cons op ops ih =>
    intro d h hsz
    unfold runM run
    rw [C106_deque_step hg hc hK h (hsz [] (op :: ops) [] d rfl rfl) op]
    cases e : step cfg op d with
    | ok r =>
      obtain ⟨o, d1⟩ := r
      simp only [Res.ok_bind]
      have hr : Reachable cfg d1 := by
        obtain ⟨cs, os, hh⟩ := h
        exact ⟨_, _, run_concat _ _ _ _ _ _ _ hh e⟩
      rw [ih hr fun pre suf os d' e1 e2 => hsz (op :: pre) suf (o :: os) d' (by rw [e1]; rfl) (by simp only [run, e, Res.ok_bind, e2])]
    | panic => rfl
    | outOfFuel => rfl

/-- **C106** A history of calls during which the size stays below 2^48 gives, in Go's `int`, the same results, panics and final
deque as with unbounded integers. -/
theorem C106_deque (hg : cfg.Good) (hc : cfg.ScaleLe) (hK : cfg.segCap ≤ 2 ^ 48) (ops : List (Op T))
    (hsz : ∀ pre suf os d, ops = pre ++ suf → run cfg pre new = .ok (os, d) → size d < 2 ^ 48) : runM cfg ops new = run cfg ops new :=
  runM_eq hg hc hK ops ⟨[], [], rfl⟩ hsz

theorem specStep_grow {op : Op T} {l l' : List T} {o : Out T} (e : specStep op l = .ok (o, l')) : l'.length ≤ l.length + 1 := by
  cases op <;> simp only [specStep] at e
  case popFront => cases l <;> cases e; simp; omega
  case popBack => split at e <;> cases e; simp; omega
  case insert p v =>
    cases e
    split
    · omega
    · simp only [List.length_append, List.length_cons, List.length_take, List.length_drop]; omega
  case eraseRange a b =>
    cases e
    split
    · omega
    · simp only [List.length_append, List.length_take, List.length_drop]; omega
  case «at» p =>
    split at e
    · cases e
    · split at e <;> cases e
      omega
  case eraseAt p =>
    cases e
    split
    · omega
    · have := List.length_eraseIdx_le l p.toNat
      omega
  all_goals (first | (cases e; simp; done) | (cases e; simp; omega) | (split at e <;> cases e <;> simp; done) | skip)

theorem specRun_grow : ∀ {ops : List (Op T)} {l l' : List T} {os : List (Out T)}, specRun ops l = .ok (os, l') → l'.length ≤ l.length + ops.length := by
  intro ops
  induction ops with
  | nil => intro l l' os e; cases e; simp
  | cons op ops ih =>
    intro l l' os e
    unfold specRun at e
    rw [Res.bind_eq_ok] at e; obtain ⟨⟨o, l1⟩, e1, e⟩ := e
    rw [Res.bind_eq_ok] at e; obtain ⟨⟨os1, l2⟩, e2, e⟩ := e
    cases e
    have h1 := specStep_grow e1
    have h2 := ih e2
    simp only [List.length_cons]
    omega

/-- **C106** The deque of the code, in Go's `int`, is a plain sequence (the claim of C01) through every history of fewer than
2^48 calls. -/
theorem C106_deque_is_sequence (zero : T) (ops : List (Op T)) (hn : ops.length < 2 ^ 48) :
    match specRun ops [] with
    | .ok (os, l) => ∃ d, runM (goCfg zero) ops new = .ok (os, d) ∧ size d = (l.length : Int) ∧ ∀ p, at_M (goCfg zero) d p = Res.ofOption (Seq.at? l p)
    | .panic => runM (goCfg zero) ops new = .panic
    | .outOfFuel => False := by
  have hg := goCfg_good zero
  have hc : (goCfg zero).ScaleLe := fun n h => Int.le_refl _
  have hK : (goCfg zero).segCap ≤ 2 ^ 48 := by simp [goCfg]
  have key : ∀ (pre : List (Op T)) os d, pre.length < 2 ^ 48 → run (goCfg zero) pre new = .ok (os, d) → size d < 2 ^ 48 := by
    intro pre os d hp e
    have h := C01_deque_is_sequence hg pre
    cases hs : specRun pre ([] : List T) with
    | ok r =>
      obtain ⟨os', l⟩ := r
      rw [hs] at h
      obtain ⟨d', e1, e2, -⟩ := h
      rw [e] at e1; cases e1
      have := specRun_grow hs
      simp only [List.length_nil] at this
      omega
    | panic => rw [hs] at h; simp only at h; rw [e] at h; cases h
    | outOfFuel => rw [hs] at h; exact h.elim
  have hrun := C106_deque hg hc hK ops fun pre suf os d e1 e2 => key pre os d (by rw [e1, List.length_append] at hn; omega) e2
  have h := C01_deque_is_sequence hg ops
  cases hs : specRun ops ([] : List T) with
  | ok r =>
    obtain ⟨os, l⟩ := r
    rw [hs] at h
    obtain ⟨d, e1, e2, e3⟩ := h
    refine ⟨d, hrun.trans e1, e2, fun p => ?_⟩
    have hr : Reachable (goCfg zero) d := ⟨_, _, e1⟩
    have hsz := key ops os d hn e1
    unfold size at hsz
    rw [← e3 p]
    exact (at_eqv (by omega) (hr.db hg hc) (by omega) p).1
  | panic => rw [hs] at h; exact hrun.trans h
  | outOfFuel => rw [hs] at h; exact h.elim

/-- `C106_deque_step`: a reachable deque of twelve elements in six segments, and an insertion in its middle. -/
example : ∃ d os, run smallCfg (List.replicate 12 (.pushBack 7)) new = .ok (os, d) ∧ size d = 12 ∧
    stepM smallCfg (.insert 5 9) d = step smallCfg (.insert 5 9) d ∧ (∃ r, step smallCfg (.insert 5 9) d = .ok r) := by
  have h : ∃ d os, run smallCfg (List.replicate 12 (.pushBack 7)) new = .ok (os, d) ∧ size d = 12 ∧ (∃ r, step smallCfg (.insert 5 9) d = .ok r) :=
    ⟨_, _, rfl, rfl, _, rfl⟩
  obtain ⟨d, os, e, e1, e2⟩ := h
  exact ⟨d, os, e, e1, C106_deque_step smallCfg_good (fun _ _ => Int.le_refl _) (by decide) ⟨_, _, e⟩ (by omega) _, e2⟩

set_option maxRecDepth 40000 in
/-- `C106_deque_is_sequence`, with the real configuration. -/
example : ∃ d, runM (goCfg 0) [.pushBack 7, .pushFront 8, .insert 1 9, .popBack, .at 1] new = .ok ([.unit, .unit, .unit, .val 7, .val 9], d) :=
  (C106_deque_is_sequence 0 [.pushBack 7, .pushFront 8, .insert 1 9, .popBack, .at 1] (by decide)).imp fun _ h => h.1

end GoSTL.Deque
