import Verif.Conc.IterRace
import Verif.Conc.Ketama
/-!
# C75: readers do not exclude each other

A call that never changes the container only needs to read it, and `sync.RWMutex` lets any number of goroutines read at the same time. Here: such calls take
`RLock` (in all containers but two methods), and goroutines that make only such calls are never made to wait, by anybody.
-/
namespace GoSTL.Conc
variable {ι τ L S A Op Out : Type} [DecidableEq ι] [DecidableEq τ]

/-- The states a container can reach from `s0` by calls that return. -/
inductive From (stp : Op → S → Res (Out × S)) (s0 : S) : S → Prop
  | init : From stp s0 s0
  | step {op s r s'} : From stp s0 s → stp op s = .ok (r, s') → From stp s0 s'

/-- The call `op` changes some state the container can reach. -/
def Changes (stp : Op → S → Res (Out × S)) (s0 : S) (op : Op) : Prop := ∃ s r s', From stp s0 s ∧ stp op s = .ok (r, s') ∧ s' ≠ s

/-! ## Code that only reads -/

/-- The code, started while holding lock `i` for reading `held i` times, takes locks only for reading, gives back only what it holds, and updates nothing. -/
def ReadsOnly : (ι → Nat) → Code ι S → Prop
  | _, .done => True
  | held, .read _ k => ∀ s, ReadsOnly held (k s)
  | _, .upd _ _ _ => False
  | held, .acq i w k => w = false ∧ ReadsOnly (Function.update held i (held i + 1)) k
  | held, .rel i w k => w = false ∧ 0 < held i ∧ ReadsOnly (Function.update held i (held i - 1)) k

/-- Nobody holds or wants a lock for writing, and everybody runs code that only reads. -/
structure Quiet (c : DConf ι S τ) : Prop where
  code : ∀ t, ReadsOnly (fun i => (c.lck i).readers t) (c.thr t)
  writer : ∀ i, (c.lck i).writer = none
  waiting : ∀ i, (c.lck i).waiting = none

theorem readers_upd (lck : ι → RW τ) (i : ι) (t u : τ) (n : Nat) :
    (fun j => (Function.update lck i { lck i with readers := Function.update (lck i).readers t n } j).readers u) =
      if u = t then Function.update (fun j => (lck j).readers u) i n else fun j => (lck j).readers u := by
  funext j
  by_cases q : j = i
  · subst q
    by_cases q : u = t
    · subst q; simp
    · simp [q]
  · by_cases q' : u = t
    · subst q'; simp [q]
    · simp [q, q']

theorem quiet_step {c c' : DConf ι S τ} (h : Quiet c) (s : DStep c c') : Quiet c' := by
  cases s with
  | @read t i k e =>
    refine ⟨fun u => ?_, h.writer, h.waiting⟩
    have := h.code t; rw [e] at this
    simp only [upd_apply]; split
    · next q => subst q; exact this _
    · exact h.code u
  | @upd t i f k e => have := h.code t; rw [e] at this; exact this.elim
  | @rlock t i k e hw hq =>
    refine ⟨fun u => ?_, fun j => ?_, fun j => ?_⟩
    · have := h.code t; rw [e] at this
      rw [readers_upd]
      by_cases q : u = t
      · subst q; simp only [if_true, Function.update_self]; exact this.2
      · simp only [q, if_false, Function.update_of_ne q]; exact h.code u
    · simp only [upd_apply]; split
      · next q => subst q; exact h.writer _
      · exact h.writer j
    · simp only [upd_apply]; split
      · next q => subst q; exact h.waiting _
      · exact h.waiting j
  | @wait t i k e hq => have := h.code t; rw [e] at this; exact absurd this.1 (by simp)
  | @lock t i k e hq hw hr => have := h.code t; rw [e] at this; exact absurd this.1 (by simp)
  | @runlock t i k e hr =>
    refine ⟨fun u => ?_, fun j => ?_, fun j => ?_⟩
    · have := h.code t; rw [e] at this
      rw [readers_upd]
      by_cases q : u = t
      · subst q; simp only [if_true, Function.update_self]; exact this.2.2
      · simp only [q, if_false, Function.update_of_ne q]; exact h.code u
    · simp only [upd_apply]; split
      · next q => subst q; exact h.writer _
      · exact h.writer j
    · simp only [upd_apply]; split
      · next q => subst q; exact h.waiting _
      · exact h.waiting j
  | @unlock t i k e hw => have := h.code t; rw [e] at this; exact absurd this.1 (by simp)

theorem quiet_steps {c c' : DConf ι S τ} (h : Quiet c) (s : DSteps c c') : Quiet c' := by
  induction s with
  | refl => exact h
  | step _ s ih => exact quiet_step ih s

/-- The next step of goroutine `t` is possible right away, and it is a step ahead in its code. -/
def CanGoOn (c : DConf ι S τ) (t : τ) : Prop := ∃ c' k, DStep c c' ∧ c'.thr = Function.update c.thr t k ∧ Code.Sub k (c.thr t)

theorem quiet_goes_on {c : DConf ι S τ} (h : Quiet c) {t : τ} (ht : c.thr t ≠ .done) : CanGoOn c t := by
  have hc := h.code t
  cases e : c.thr t with
  | done => exact absurd e ht
  | read i k => exact ⟨_, _, .read e, rfl, by rw [e]; exact .read _⟩
  | upd i f k => rw [e] at hc; exact hc.elim
  | acq i w k =>
    rw [e] at hc
    obtain ⟨rfl, -⟩ := hc
    exact ⟨_, _, .rlock e (h.writer i) (h.waiting i), rfl, by rw [e]; exact .acq⟩
  | rel i w k =>
    rw [e] at hc
    obtain ⟨rfl, hp, -⟩ := hc
    exact ⟨_, _, .runlock e hp, rfl, by rw [e]; exact .rel⟩

/-- **C75** Goroutines that only read never wait, whatever they have locked already (so also in a visitor that reads the container it visits). -/
theorem C75_reading_code_never_waits {o : ι → S} {code : τ → Code ι S} (h : ∀ t, ReadsOnly (fun _ => 0) (code t)) {c : DConf ι S τ}
    (s : DSteps (dstart o code) c) {t : τ} (ht : c.thr t ≠ .done) : CanGoOn c t :=
  quiet_goes_on (quiet_steps ⟨h, fun _ => rfl, fun _ => rfl⟩ s) ht

theorem readsOnly_toCode {α : Type} {F : ι → Prop} {i : ι} (held : ι → Nat) (m : Micro ι S α) (hm : m.Ok F i false) (k : α → Code ι S)
    (hk : ∀ a, ReadsOnly held (k a)) : ReadsOnly held (m.toCode k) := by
  induction m with
  | ret a => exact hk a
  | read j g ih => exact fun s => ih s (hm.2 s)
  | upd j f g ih => exact absurd hm.2.1 (by simp)

/-- A call that takes `RLock` only reads. -/
theorem readsOnly_call {writes : Op → Bool} {stp : Op → S → Res (Out × S)} (impl : Impl ι writes stp) (held : ι → Nat) {i : ι} {op : Op}
    (hop : writes op = false) {k : Res Out → Code ι S} (hk : ∀ r, ReadsOnly held (k r)) : ReadsOnly held (callCode impl i op k) := by
  have hok := impl.ok i op
  rw [hop] at hok
  simp only [callCode, hop]
  refine ⟨rfl, readsOnly_toCode _ _ hok _ fun r => ⟨rfl, by simp, ?_⟩⟩
  rw [Function.update_idem, Function.update_self, Nat.add_sub_cancel, Function.update_eq_self]
  exact hk r

/-- A visitor that calls a reading method of the container it visits only reads. -/
theorem readsOnly_visiting {α : Type} {writes : Op → Bool} {stp : Op → S → Res (Out × S)} (impl : Impl ι writes stp) (held : ι → Nat) {i : ι} {pre : Micro ι S α}
    (hpre : pre.Ok (fun _ => False) i false) {op : α → Op} (hop : ∀ a, writes (op a) = false) {k : α → Res Out → Code ι S}
    (hk : ∀ a r, ReadsOnly (Function.update held i (held i + 1)) (k a r)) : ReadsOnly held (visitingCode impl i pre op k) :=
  ⟨rfl, readsOnly_toCode _ _ hpre _ fun a => readsOnly_call impl _ (hop a) (hk a)⟩

theorem readsOnly_client {writes : Op → Bool} {stp : Op → S → Res (Out × S)} (client : Client ι τ L Op Out) (impl : Impl ι writes stp)
    (hq : ∀ t l i op k, client t l = some (i, op, k) → writes op = false) (t : τ) :
    ∀ (n : Nat) (l : L), ReadsOnly (fun _ => 0) (client.code impl t n l) := by
  intro n
  induction n with
  | zero => intro l; trivial
  | succ n ih =>
    intro l
    unfold Client.code
    cases h : client t l with
    | none => trivial
    | some x =>
      obtain ⟨i, op, k⟩ := x
      exact readsOnly_call impl _ (hq t l i op k h) fun r => ih _

/-- **C75** Let goroutines make only calls that never change a container (in no state it can reach). If the methods that take `Lock` are only such as can
change the container — `C75_only_writers_lock` — then in every state the goroutines can reach, everyone who is not finished can go on at once: they never
wait for each other. Any number of goroutines and containers, any interleaving. -/
theorem C75_readers_never_wait_partial {writes : Op → Bool} {stp : Op → S → Res (Out × S)} {s0 : S} (hw : ∀ op, writes op = true → Changes stp s0 op)
    (client : Client ι τ L Op Out) (impl : Impl ι writes stp) (hq : ∀ t l i op k, client t l = some (i, op, k) → ¬ Changes stp s0 op)
    (calls : τ → Nat) (l : τ → L) (o : ι → S) {c : DConf ι S τ} {t : τ}
    (s : DSteps (dstart o fun t => client.code impl t (calls t) (l t)) c) (ht : c.thr t ≠ .done) : CanGoOn c t := by
  refine C75_reading_code_never_waits (fun t => readsOnly_client client impl (fun t l i op k h => ?_) t _ _) s ht
  cases e : writes op with
  | false => rfl
  | true => exact absurd (hw op e) (hq t l i op k h)

/-! ## Only the methods that can change the container take `Lock` -/

theorem changes_of {stp : Op → S → Res (Out × S)} {s0 s s' : S} {op : Op} {r : Out} (h : From stp s0 s) (e : stp op s = .ok (r, s')) {ob : Op} {x x' : Out}
    {s1 s1' : S} (h1 : stp ob s = .ok (x, s1)) (h2 : stp ob s' = .ok (x', s1')) (hne : x ≠ x') : Changes stp s0 op := by
  refine ⟨s, r, s', h, e, fun q => ?_⟩
  rw [q, h1] at h2
  cases h2; exact hne rfl

theorem run_rel {stp : Op → S → Res (Out × S)} {spec : Op → A → Res (Out × A) → Prop} {R : S → A → Prop} (hR : Refines stp spec R) {s : S} {a : A} (h : R s a)
    {op : Op} {r : Out} {a' : A} (hs : ∀ x, spec op a x → x = .ok (r, a')) : ∃ s', stp op s = .ok (r, s') ∧ R s' a' := by
  rcases hR op s a h with ⟨-, h2⟩ | ⟨r1, s1, a1, h1, h2, h3⟩
  · have := hs _ h2; cases this
  · have := hs _ h3; cases this; exact ⟨s1, h1, h2⟩

theorem run_agree {stp : Op → S → Res (Out × S)} {spec : Op → A → Res (Out × A)} {R : S → A → Prop} (hR : ∀ op s a, R s a → Adapter.Agree R (stp op s) (spec op a))
    {s : S} {a : A} (h : R s a) {op : Op} {r : Out} {a' : A} (hs : spec op a = .ok (r, a')) : ∃ s', stp op s = .ok (r, s') ∧ R s' a' :=
  agree_inv (hs ▸ hR op s a h)

theorem queue_locks {T : Type} [Nonempty T] {cfg : Deque.Cfg T} (hg : cfg.Good) (op : Adapter.QueueOp T) (h : queueWrites op = true) :
    Changes (Adapter.queueStep (Adapter.dequeContainer cfg)) Deque.new op := by
  have run := fun {s a op r a'} => run_agree (fun op s a hr => Adapter.queue_step (Adapter.deque_lawful hg) op s a hr) (s := s) (a := a) (op := op) (r := r) (a' := a')
  have h0 : Deque.Inv cfg Deque.new [] := Deque.new_inv
  obtain ⟨y⟩ := ‹Nonempty T›
  obtain ⟨s1, e1, h1⟩ := run h0 (op := .push y) rfl
  obtain ⟨_, z0, -⟩ := run h0 (op := .size) rfl
  obtain ⟨_, z1, -⟩ := run h1 (op := .size) rfl
  cases op with
  | push x =>
    obtain ⟨s2, e2, h2⟩ := run h0 (op := .push x) rfl
    obtain ⟨_, z2, -⟩ := run h2 (op := .size) rfl
    exact changes_of .init e2 z0 z2 (by simp)
  | pop =>
    obtain ⟨s2, e2, h2⟩ := run h1 (op := .pop) rfl
    obtain ⟨_, z2, -⟩ := run h2 (op := .size) rfl
    exact changes_of (.step .init e1) e2 z1 z2 (by simp)
  | clear =>
    obtain ⟨s2, e2, h2⟩ := run h1 (op := .clear) rfl
    obtain ⟨_, z2, -⟩ := run h2 (op := .size) rfl
    exact changes_of (.step .init e1) e2 z1 z2 (by simp)
  | front => cases h
  | back => cases h
  | size => cases h
  | empty => cases h

theorem stack_locks {T : Type} [Nonempty T] {cfg : Deque.Cfg T} (hg : cfg.Good) (op : Adapter.StackOp T) (h : stackWrites op = true) :
    Changes (Adapter.stackStep (Adapter.dequeContainer cfg)) Deque.new op := by
  have run := fun {s a op r a'} => run_agree (R := fun c l => Deque.Inv cfg c l.reverse)
    (fun op s a hr => Adapter.stack_step (Adapter.deque_lawful hg) op s a hr) (s := s) (a := a) (op := op) (r := r) (a' := a')
  have h0 : Deque.Inv cfg Deque.new ([] : List T).reverse := Deque.new_inv
  obtain ⟨y⟩ := ‹Nonempty T›
  obtain ⟨s1, e1, h1⟩ := run h0 (op := .push y) rfl
  obtain ⟨_, z0, -⟩ := run h0 (op := .size) rfl
  obtain ⟨_, z1, -⟩ := run h1 (op := .size) rfl
  cases op with
  | push x =>
    obtain ⟨s2, e2, h2⟩ := run h0 (op := .push x) rfl
    obtain ⟨_, z2, -⟩ := run h2 (op := .size) rfl
    exact changes_of .init e2 z0 z2 (by simp)
  | pop =>
    obtain ⟨s2, e2, h2⟩ := run h1 (op := .pop) rfl
    obtain ⟨_, z2, -⟩ := run h2 (op := .size) rfl
    exact changes_of (.step .init e1) e2 z1 z2 (by simp)
  | clear =>
    obtain ⟨s2, e2, h2⟩ := run h1 (op := .clear) rfl
    obtain ⟨_, z2, -⟩ := run h2 (op := .size) rfl
    exact changes_of (.step .init e1) e2 z1 z2 (by simp)
  | top => cases h
  | size => cases h
  | empty => cases h

open TreeMap RB in
theorem map_locks {K V : Type} [Nonempty K] [Nonempty V] {cmp : K → K → Int} (hc : LawfulCmp cmp) (op : MapOp K V) (h : mapWrites op = true) :
    Changes (mapStep cmp) Tree.new op := by
  have run := fun {s a op r a'} => run_agree (map_step (V := V) hc) (s := s) (a := a) (op := op) (r := r) (a' := a')
  have h0 : MapRep cmp (Tree.new : Tree K V) [] := ⟨HoldsKV.new, List.Pairwise.nil⟩
  obtain ⟨k0⟩ := ‹Nonempty K›
  obtain ⟨v0⟩ := ‹Nonempty V›
  obtain ⟨_, z0, -⟩ := run h0 (op := .size) rfl
  cases op with
  | insert k v =>
    obtain ⟨s2, e2, h2⟩ := run h0 (op := .insert k v) rfl
    obtain ⟨_, z2, -⟩ := run h2 (op := .size) rfl
    exact changes_of .init e2 z0 z2 (by simp)
  | erase k =>
    obtain ⟨s1, e1, h1⟩ := run h0 (op := .insert k v0) rfl
    obtain ⟨_, z1, -⟩ := run h1 (op := .size) rfl
    obtain ⟨s2, e2, h2⟩ := run h1 (op := .erase k) rfl
    obtain ⟨_, z2, -⟩ := run h2 (op := .size) rfl
    exact changes_of (.step .init e1) e2 z1 z2 (by simp [hc.refl])
  | clear =>
    obtain ⟨s1, e1, h1⟩ := run h0 (op := .insert k0 v0) rfl
    obtain ⟨_, z1, -⟩ := run h1 (op := .size) rfl
    obtain ⟨s2, e2, h2⟩ := run h1 (op := .clear) rfl
    obtain ⟨_, z2, -⟩ := run h2 (op := .size) rfl
    exact changes_of (.step .init e1) e2 z1 z2 (by simp)
  | get k => cases h
  | contains k => cases h
  | size => cases h
  | entries => cases h

open TreeMap RB in
theorem set_locks {K : Type} [Nonempty K] {cmp : K → K → Int} (hc : LawfulCmp cmp) (op : SetOp K) (h : setWrites op = true) :
    Changes (setStep cmp) Tree.new op := by
  have run := fun {s a op r a'} => run_agree (set_step hc) (s := s) (a := a) (op := op) (r := r) (a' := a')
  have h0 : SetRep cmp (Tree.new : Tree K Bool) [] := ⟨[], ⟨HoldsKV.new, List.Pairwise.nil⟩, rfl⟩
  obtain ⟨k0⟩ := ‹Nonempty K›
  obtain ⟨_, z0, -⟩ := run h0 (op := .size) rfl
  cases op with
  | insert k =>
    obtain ⟨s2, e2, h2⟩ := run h0 (op := .insert k) rfl
    obtain ⟨_, z2, -⟩ := run h2 (op := .size) rfl
    exact changes_of .init e2 z0 z2 (by simp)
  | erase k =>
    obtain ⟨s1, e1, h1⟩ := run h0 (op := .insert k) rfl
    obtain ⟨_, z1, -⟩ := run h1 (op := .size) rfl
    obtain ⟨s2, e2, h2⟩ := run h1 (op := .erase k) rfl
    obtain ⟨_, z2, -⟩ := run h2 (op := .size) rfl
    exact changes_of (.step .init e1) e2 z1 z2 (by simp [hc.refl])
  | clear =>
    obtain ⟨s1, e1, h1⟩ := run h0 (op := .insert k0) rfl
    obtain ⟨_, z1, -⟩ := run h1 (op := .size) rfl
    obtain ⟨s2, e2, h2⟩ := run h1 (op := .clear) rfl
    obtain ⟨_, z2, -⟩ := run h2 (op := .size) rfl
    exact changes_of (.step .init e1) e2 z1 z2 (by simp)
  | contains k => cases h
  | size => cases h
  | elements => cases h

open TreeMap RB in
theorem multimap_locks {K V : Type} [Nonempty K] [Nonempty V] {cmp : K → K → Int} (hc : LawfulCmp cmp) (op : MapOp K V) (h : mapWrites op = true) :
    Changes (multiMapStep cmp) Tree.new op := by
  have run := fun {s a op r a'} => run_rel (multimap_refines (V := V) hc) (s := s) (a := a) (op := op) (r := r) (a' := a')
  have h0 : MultiInv cmp (Tree.new : Tree K V) [] := ⟨[], HoldsKV.new, List.Perm.nil, fun _ => rfl⟩
  obtain ⟨k0⟩ := ‹Nonempty K›
  obtain ⟨v0⟩ := ‹Nonempty V›
  obtain ⟨_, z0, -⟩ := run h0 (op := .size) fun x h => by cases h; rfl
  cases op with
  | insert k v =>
    obtain ⟨s2, e2, h2⟩ := run h0 (op := .insert k v) fun x h => by cases h; rfl
    obtain ⟨_, z2, -⟩ := run h2 (op := .size) fun x h => by cases h; rfl
    exact changes_of .init e2 z0 z2 (by simp)
  | erase k =>
    obtain ⟨s1, e1, h1⟩ := run h0 (op := .insert k v0) fun x h => by cases h; rfl
    obtain ⟨_, z1, -⟩ := run h1 (op := .size) fun x h => by cases h; rfl
    obtain ⟨s2, e2, h2⟩ := run h1 (op := .erase k) fun x h => by cases h; rfl
    obtain ⟨_, z2, -⟩ := run h2 (op := .size) fun x h => by cases h; rfl
    exact changes_of (.step .init e1) e2 z1 z2 (by simp [hc.refl])
  | clear =>
    obtain ⟨s1, e1, h1⟩ := run h0 (op := .insert k0 v0) fun x h => by cases h; rfl
    obtain ⟨_, z1, -⟩ := run h1 (op := .size) fun x h => by cases h; rfl
    obtain ⟨s2, e2, h2⟩ := run h1 (op := .clear) fun x h => by cases h; rfl
    obtain ⟨_, z2, -⟩ := run h2 (op := .size) fun x h => by cases h; rfl
    exact changes_of (.step .init e1) e2 z1 z2 (by simp)
  | get k => cases h
  | contains k => cases h
  | size => cases h
  | entries => cases h

open TreeMap RB in
theorem multiset_locks {K : Type} [Nonempty K] {cmp : K → K → Int} (hc : LawfulCmp cmp) (op : MultiSetOp K) (h : multiSetWrites op = true) :
    Changes (multiSetStep cmp) Tree.new op := by
  have run := fun {s a op r a'} => run_rel (multiset_refines hc) (s := s) (a := a) (op := op) (r := r) (a' := a')
  have h0 : MultiInv cmp (Tree.new : Tree K Bool) (([] : List K).map fun x => (x, true)) := ⟨[], HoldsKV.new, List.Perm.nil, fun _ => rfl⟩
  obtain ⟨k0⟩ := ‹Nonempty K›
  obtain ⟨_, z0, -⟩ := run h0 (op := .size) fun x h => by cases h; rfl
  cases op with
  | insert k =>
    obtain ⟨s2, e2, h2⟩ := run h0 (op := .insert k) fun x h => by cases h; rfl
    obtain ⟨_, z2, -⟩ := run h2 (op := .size) fun x h => by cases h; rfl
    exact changes_of .init e2 z0 z2 (by simp)
  | erase k =>
    obtain ⟨s1, e1, h1⟩ := run h0 (op := .insert k) fun x h => by cases h; rfl
    obtain ⟨_, z1, -⟩ := run h1 (op := .size) fun x h => by cases h; rfl
    obtain ⟨s2, e2, h2⟩ := run h1 (op := .erase k) fun x h => by cases h; rfl
    obtain ⟨_, z2, -⟩ := run h2 (op := .size) fun x h => by cases h; rfl
    exact changes_of (.step .init e1) e2 z1 z2 (by simp [hc.refl])
  | eraseAll k =>
    obtain ⟨s1, e1, h1⟩ := run h0 (op := .insert k) fun x h => by cases h; rfl
    obtain ⟨_, z1, -⟩ := run h1 (op := .size) fun x h => by cases h; rfl
    obtain ⟨s2, e2, h2⟩ := run h1 (op := .eraseAll k) fun x h => by cases h; rfl
    obtain ⟨_, z2, -⟩ := run h2 (op := .size) fun x h => by cases h; rfl
    exact changes_of (.step .init e1) e2 z1 z2 (by simp [hc.refl])
  | clear =>
    obtain ⟨s1, e1, h1⟩ := run h0 (op := .insert k0) fun x h => by cases h; rfl
    obtain ⟨_, z1, -⟩ := run h1 (op := .size) fun x h => by cases h; rfl
    obtain ⟨s2, e2, h2⟩ := run h1 (op := .clear) fun x h => by cases h; rfl
    obtain ⟨_, z2, -⟩ := run h2 (op := .size) fun x h => by cases h; rfl
    exact changes_of (.step .init e1) e2 z1 z2 (by simp)
  | contains k => cases h
  | count k => cases h
  | size => cases h
  | elements => cases h

theorem hamt_locks {T : Type} [Nonempty T] (hashOf : Hamt.Key → Hamt.Hash) (op : KeysOp (Hamt.Op T)) (h : keysWrites hamtWrites op = true) :
    Changes (keysStep (Hamt.step hashOf) Hamt.Keys) Hamt.new op := by
  have run := fun {s a op r a'} => run_rel (hamt_refines (T := T) hashOf) (s := s) (a := a) (op := op) (r := r) (a' := a')
  have h0 := Hamt.agree_new (T := T) hashOf
  obtain ⟨v0⟩ := ‹Nonempty T›
  cases op with
  | keys => cases h
  | call op =>
    cases op with
    | get k => cases h
    | insert k v =>
      obtain ⟨_, z0, -⟩ := run h0 (op := .call (.get k)) fun x h => by cases h; rfl
      obtain ⟨s2, e2, h2⟩ := run h0 (op := .call (.insert k v)) fun x h => by cases h; rfl
      obtain ⟨_, z2, -⟩ := run h2 (op := .call (.get k)) fun x h => by cases h; rfl
      exact changes_of .init e2 z0 z2 (by simp [Hamt.specStep, Hamt.emptyMap])
    | erase k =>
      obtain ⟨s1, e1, h1⟩ := run h0 (op := .call (.insert k v0)) fun x h => by cases h; rfl
      obtain ⟨_, z1, -⟩ := run h1 (op := .call (.get k)) fun x h => by cases h; rfl
      obtain ⟨s2, e2, h2⟩ := run h1 (op := .call (.erase k)) fun x h => by cases h; rfl
      obtain ⟨_, z2, -⟩ := run h2 (op := .call (.get k)) fun x h => by cases h; rfl
      exact changes_of (.step .init e1) e2 z1 z2 (by simp [Hamt.specStep])

theorem skip_locks {K V : Type} [Nonempty V] {cmp : K → K → Int} (hc : LawfulCmp cmp) {n : Nat} (h1 : 1 ≤ n) (h2 : n ≤ 64) {w0 : Skiplist.SL K V}
    (hn : Skiplist.New n = .ok w0) (op : KeysOp (Skiplist.Op K V)) (h : keysWrites skipWrites op = true) :
    Changes (keysStep (Skiplist.step cmp) Skiplist.Keys) w0 op := by
  have run := fun {s a op r a'} => run_rel (skip_refines (V := V) hc) (s := s) (a := a) (op := op) (r := r) (a' := a')
  obtain ⟨w0', e0, h0⟩ := Skiplist.agree_new (K := K) (V := V) (cmp := cmp) h1 h2
  rw [hn] at e0; cases e0
  obtain ⟨v0⟩ := ‹Nonempty V›
  cases op with
  | keys => cases h
  | call op =>
    obtain ⟨_, z0, -⟩ := run h0 (op := .call .len) fun x h => by cases h; rfl
    cases op with
    | get k => cases h
    | len => cases h
    | insert k v d =>
      obtain ⟨s2, e2, h2⟩ := run h0 (op := .call (.insert k v d)) fun x h => by cases h; rfl
      obtain ⟨_, z2, -⟩ := run h2 (op := .call .len) fun x h => by cases h; rfl
      exact changes_of .init e2 z0 z2 (by simp [Skiplist.specStep])
    | remove k =>
      obtain ⟨s1, e1, h1⟩ := run h0 (op := .call (.insert k v0 0)) fun x h => by cases h; rfl
      obtain ⟨_, z1, -⟩ := run h1 (op := .call .len) fun x h => by cases h; rfl
      obtain ⟨s2, e2, h2⟩ := run h1 (op := .call (.remove k)) fun x h => by cases h; rfl
      obtain ⟨_, z2, -⟩ := run h2 (op := .call .len) fun x h => by cases h; rfl
      exact changes_of (.step .init e1) e2 z1 z2 (by simp [Skiplist.specStep, hc.refl])

theorem pq_locks {T : Type} [Nonempty T] (cmp : T → T → Int) (op : Heap.Op T) (h : pqWrites op = true) : Changes (Heap.step cmp) [] op := by
  obtain ⟨y⟩ := ‹Nonempty T›
  have e1 : ∀ x : T, Heap.step cmp (.push x) [] = .ok (.unit, [x]) := fun x => rfl
  cases op with
  | push x => exact ⟨[], _, [x], .init, e1 x, by simp⟩
  | pop => exact ⟨[y], _, [], .step .init (e1 y), rfl, by simp⟩
  | clear => exact ⟨[y], _, [], .step .init (e1 y), rfl, by simp⟩
  | top => cases h
  | empty => cases h
  | size => cases h

theorem locks_iff {writes : Op → Bool} {stp : Op → S → Res (Out × S)} {s0 : S} (h : ReadersRead writes stp) {op : Op}
    (hw : writes op = true → Changes stp s0 op) : writes op = true ↔ Changes stp s0 op := by
  refine ⟨hw, fun ⟨s, r, s', _, e, hne⟩ => ?_⟩
  cases q : writes op with
  | true => rfl
  | false => exact absurd (h op s r s' q e) hne

/-- **C75** Queue, Stack, PriorityQueue, Map, MultiMap, Set, MultiSet, Hamt and Skiplist: a method takes `Lock` exactly if it changes some container that calls
can produce from a new one. (The types need a value: a container whose element type has none is always empty.) -/
theorem C75_only_writers_lock {T K V : Type} [Nonempty T] [Nonempty K] [Nonempty V] {cfg : Deque.Cfg T} (hg : cfg.Good) {cmp : K → K → Int} (hc : LawfulCmp cmp)
    (cmpT : T → T → Int) (hashOf : Hamt.Key → Hamt.Hash) {n : Nat} (h1 : 1 ≤ n) (h2 : n ≤ 64) {w0 : Skiplist.SL K V} (hn : Skiplist.New n = .ok w0) :
    (∀ op, queueWrites op = true ↔ Changes (Adapter.queueStep (Adapter.dequeContainer cfg)) Deque.new op) ∧
    (∀ op, stackWrites op = true ↔ Changes (Adapter.stackStep (Adapter.dequeContainer cfg)) Deque.new op) ∧
    (∀ op, pqWrites op = true ↔ Changes (Heap.step cmpT) [] op) ∧
    (∀ op, mapWrites op = true ↔ Changes (mapStep (V := V) cmp) RB.Tree.new op) ∧
    (∀ op, mapWrites op = true ↔ Changes (multiMapStep (V := V) cmp) RB.Tree.new op) ∧
    (∀ op, setWrites op = true ↔ Changes (setStep cmp) RB.Tree.new op) ∧
    (∀ op, multiSetWrites op = true ↔ Changes (multiSetStep cmp) RB.Tree.new op) ∧
    (∀ op, keysWrites hamtWrites op = true ↔ Changes (keysStep (Hamt.step (T := T) hashOf) Hamt.Keys) Hamt.new op) ∧
    (∀ op, keysWrites skipWrites op = true ↔ Changes (keysStep (Skiplist.step (K := K) (V := V) cmp) Skiplist.Keys) w0 op) :=
  ⟨fun op => locks_iff (queue_readers _) (queue_locks hg op), fun op => locks_iff (stack_readers _) (stack_locks hg op),
    fun op => locks_iff (pq_readers _) (pq_locks cmpT op), fun op => locks_iff (map_readers _) (map_locks hc op),
    fun op => locks_iff (multimap_readers _) (multimap_locks hc op), fun op => locks_iff (set_readers _) (set_locks hc op),
    fun op => locks_iff (multiset_readers _) (multiset_locks hc op), fun op => locks_iff (keys_readers _ (hamt_readers hashOf)) (hamt_locks hashOf op),
    fun op => locks_iff (keys_readers _ (skip_readers cmp)) (skip_locks hc h1 h2 hn op)⟩

/-! ## The exceptions -/

/-- Two calls that take `Lock`: one goroutine can be inside while the other one, not finished, cannot get ahead, whoever goes next. -/
theorem lock_excludes {writes : Op → Bool} {stp : Op → S → Res (Out × S)} (impl : Impl ι writes stp) {i : ι} {op op' : Op} (hop : writes op = true)
    (hop' : writes op' = true) {t u : τ} (htu : t ≠ u) {k k' : Res Out → Code ι S} {o : ι → S} {code : τ → Code ι S} (ht : code t = callCode impl i op k)
    (hu : code u = callCode impl i op' k') :
    ∃ c, DSteps (dstart o code) c ∧ c.thr u = code u ∧ ∀ c', DStep c c' → c'.thr u = code u := by
  simp only [callCode, hop, hop'] at ht hu
  have s1 := (DSteps.refl (dstart o code)).step (.wait (t := t) (i := i) ht rfl)
  have s2 := s1.step (.lock (t := t) (i := i) ht (by simp) (by simp [dstart]) (by simp [dstart]))
  generalize hc2 : ({ dstart o code with lck := _, thr := _ } : DConf ι S τ) = c2 at s2
  have hw : (c2.lck i).writer = some t := by subst hc2; simp
  have hthr : c2.thr u = code u := by subst hc2; simp [dstart, Function.update_of_ne (Ne.symm htu)]
  refine ⟨c2, s2, hthr, fun c' s => ?_⟩
  have same : ∀ {v : τ} {x : Code ι S}, v ≠ u → Function.update c2.thr v x u = code u := fun h => by
    rw [Function.update_of_ne (Ne.symm h)]; exact hthr
  rw [hu] at hthr
  cases s with
  | @read v j k e => exact same (by rintro rfl; rw [hthr] at e; cases e)
  | @upd v j f k e => exact same (by rintro rfl; rw [hthr] at e; cases e)
  | @rlock v j k e _ _ => exact same (by rintro rfl; rw [hthr] at e; cases e)
  | @wait v j k e _ => rw [hu]; exact hthr
  | @lock v j k e _ hn _ => exact same (by rintro rfl; rw [hthr] at e; cases e; rw [hw] at hn; cases hn)
  | @runlock v j k e _ => exact same (by rintro rfl; rw [hthr] at e; cases e)
  | @unlock v j k e _ => exact same (by rintro rfl; rw [hthr] at e; cases e)

/-- **C75 is false of `BloomFilter.Data`** (bloom.go:115-123 takes `Lock`): it changes no filter, yet two goroutines calling it exclude each other. -/
theorem C75_bloom_data_violated (H : List Bitmap.Byte → List Bitmap.Byte) (s0 : Bloom.BloomFilter) (impl : Impl ι bloomWrites (bloomStep H)) (i : ι) {t u : τ}
    (htu : t ≠ u) {k k' : Res BloomOut → Code ι Bloom.BloomFilter} {o : ι → Bloom.BloomFilter} {code : τ → Code ι Bloom.BloomFilter}
    (ht : code t = callCode impl i .data k) (hu : code u = callCode impl i .data k') :
    ¬ Changes (bloomStep H) s0 .data ∧ ∃ c, DSteps (dstart o code) c ∧ c.thr u = code u ∧ ∀ c', DStep c c' → c'.thr u = code u := by
  refine ⟨?_, lock_excludes impl rfl rfl htu ht hu⟩
  rintro ⟨s, r, s', -, e, hne⟩
  simp only [bloomStep, Res.ok.injEq, Prod.mk.injEq] at e
  exact hne e.2.symm

/-- **C75 is false of `Ketama.Get`** (ketama.go:112-122 takes `Lock` for its lookup): a lookup changes no ring, yet two goroutines looking up keys exclude
each other. -/
theorem C75_ketama_get_violated (H : List Bitmap.Byte → List Bitmap.Byte) (s0 : Ketama.Ketama) (impl : Impl ι ketamaWrites (ketamaStep H)) (i : ι) {t u : τ}
    (htu : t ≠ u) {key key' : List Bitmap.Byte} {k k' : Res KOut → Code ι Ketama.Ketama} {o : ι → Ketama.Ketama} {code : τ → Code ι Ketama.Ketama}
    (ht : code t = callCode impl i (.lookup key) k) (hu : code u = callCode impl i (.lookup key') k') :
    (∀ key, ¬ Changes (ketamaStep H) s0 (.lookup key)) ∧ ∃ c, DSteps (dstart o code) c ∧ c.thr u = code u ∧ ∀ c', DStep c c' → c'.thr u = code u := by
  refine ⟨fun key => ?_, lock_excludes impl rfl rfl htu ht hu⟩
  rintro ⟨s, r, s', -, e, hne⟩
  simp only [ketamaStep, Res.bind_eq_ok, Res.ok.injEq, Prod.mk.injEq] at e
  obtain ⟨_, -, -, e⟩ := e
  exact hne e.symm

/-! ## Instances -/

/-- Any number of goroutines asking a queue for its size and its front: nobody ever waits. -/
example (c : DConf Unit (Deque.Deq Int) Nat) (t : Nat) (o : Unit → Deque.Deq Int)
    (s : DSteps (dstart o fun t => Client.code (fun t n => some ((), if n % 2 = t % 2 then .size else .front, fun _ => n + 1))
      (Impl.whole (queue_readers (Adapter.dequeContainer (Deque.goCfg 0)))) t 10 (0 : Nat)) c) (ht : c.thr t ≠ .done) : CanGoOn c t := by
  have hg : (Deque.goCfg (0 : Int)).Good := Deque.goCfg_good 0
  refine C75_readers_never_wait_partial (queue_locks hg) _ _ (fun t l i op k h => ?_) (fun _ => 10) (fun _ => 0) o s ht
  intro hch
  have := (locks_iff (queue_readers _) (queue_locks hg op)).2 hch
  simp only [Option.some.injEq, Prod.mk.injEq] at h
  obtain ⟨-, rfl, -⟩ := h
  split at this <;> cases this

/-- A visitor that asks `Contains` of the set it visits: with no writers around nobody waits. -/
example {c : DConf Unit (RB.Tree Int Bool) Nat} {t : Nat} (o : Unit → RB.Tree Int Bool)
    (s : DSteps (dstart o fun _ => visitingCode (Impl.whole (set_readers intCmp)) () (.read () fun s => .ret s.size) (fun n => .contains (n + 1))
      fun _ _ => .rel () false .done) c) (ht : c.thr t ≠ .done) : CanGoOn c t := by
  refine C75_reading_code_never_waits (fun _ => ?_) s ht
  refine readsOnly_visiting _ _ ?_ (fun _ => rfl) fun _ _ => ?_
  · exact ⟨.inl rfl, fun _ => trivial⟩
  · exact ⟨rfl, by simp, trivial⟩

end GoSTL.Conc
