import Verif.Hamt.Canon
/-!
# C84: key slices are kept, not copied

In `Verif/Hamt/Model.lean` a key is a byte string. In Go it is a slice: `Insert` keeps the slice it is given, so that a later write to its bytes shows in the
trie, and `Keys` hands out the slices that are kept. Here keys are slices into a memory of byte arrays.
-/
namespace GoSTL.Hamt
variable {T : Type}

/-! ## Model -/

/-- A byte slice: an array, the position of the first byte and the length. -/
structure Ref where
  arr : Nat
  off : Nat
  len : Nat
  deriving DecidableEq

/-- The byte arrays of the program. -/
abbrev Mem := Nat → Nat → BitVec 8

/-- The bytes of a slice. -/
def Mem.read (m : Mem) (r : Ref) : Key := (List.range r.len).map fun i => m r.arr (r.off + i)

/-- An assignment to one byte of an array. -/
def Mem.write (m : Mem) (a i : Nat) (b : BitVec 8) : Mem := fun a' i' => if a' = a ∧ i' = i then b else m a' i'

/-- hamt.go:54-71 `BitmapNode`, `KvNode` (with its chain of `KvPair`), the keys being slices. -/
inductive REntry (T : Type) where
  | kv (hash : Hash) (l : List (Ref × T))
  | node (bitmap : Hash) (pos : Nat) (children : List (REntry T))

/-- The fields `bitmap` and `children` of a `BitmapNode`. -/
structure RNode (T : Type) where
  bitmap : Hash
  children : List (REntry T)

/-- hamt.go:85-87, 242-244 `BitPosNum`. -/
def rbitPosNum (depth : Nat) : REntry T → Hash
  | .kv hash _ => (1 : Hash) <<< pos hash depth
  | .node _ p _ => (1 : Hash) <<< p

/-- hamt.go:105-108, 217-222: every entry is written to the slot of the new array that `Index` gives; writing outside panics. -/
def rplaceLoop (depth : Nat) (bitmap : Hash) : List (REntry T) → List (Option (REntry T)) → Res (List (Option (REntry T)))
  | [], a => .ok a
  | e :: es, a =>
    let i := index bitmap (rbitPosNum depth e)
    if i < a.length then rplaceLoop depth bitmap es (a.set i (some e)) else .panic

/-- A slot that was not written holds nil; the next access to it would panic, the model does so at once. -/
def rallSome : List (Option (REntry T)) → Res (List (REntry T))
  | [] => .ok []
  | none :: _ => .panic
  | some e :: a => do
    let es ← rallSome a
    .ok (e :: es)

/-- hamt.go:99-109, 216-223: a new array with `n` slots for the entries. -/
def rplace (depth : Nat) (bitmap : Hash) (n : Nat) (es : List (REntry T)) : Res (List (REntry T)) := do
  let a ← rplaceLoop depth bitmap es (List.replicate n none)
  rallSome a

/-- hamt.go:116-121: overwrite the value of the first pair whose key has the same bytes now. -/
def rupdKv (m : Mem) (k : Ref) (v : T) : List (Ref × T) → Option (List (Ref × T))
  | [] => none
  | x :: l => if m.read x.1 = m.read k then some ((x.1, v) :: l) else (rupdKv m k v l).map (x :: ·)

/-- hamt.go:116-123: overwrite the value of an equal key, or put the pair with the caller's slice in front. -/
def rsetKv (m : Mem) (k : Ref) (v : T) (l : List (Ref × T)) : List (Ref × T) := (rupdKv m k v l).getD ((k, v) :: l)

/-- hamt.go:94-137 `insert`. -/
def rinsert (m : Mem) : Nat → Nat → RNode T → Hash → List (Ref × T) → Res (RNode T)
  | 0, _, _, _, _ => .outOfFuel
  | f + 1, depth, h, hash, kvs => do
    let p := pos hash depth
    let b := bitPos p
    if b &&& h.bitmap = 0 then do
      let bm := h.bitmap ||| b
      let cs ← rplace depth bm (h.children.length + 1) (.kv hash kvs :: h.children)
      .ok ⟨bm, cs⟩
    else do
      let i := index h.bitmap b
      let e ← Res.ofOption h.children[i]?
      match e with
      | .kv hash' l =>
        if hash' = hash then
          match kvs with
          | [] => .panic
          | (k, v) :: _ => .ok { h with children := h.children.set i (.kv hash' (rsetKv m k v l)) }
        else do
          let n ← rinsert m f (depth + 1) ⟨0, []⟩ hash' l
          let n ← rinsert m f (depth + 1) n hash kvs
          .ok { h with children := h.children.set i (.node n.bitmap p n.children) }
      | .node bm p' cs => do
        let n ← rinsert m f (depth + 1) ⟨bm, cs⟩ hash kvs
        .ok { h with children := h.children.set i (.node n.bitmap p' n.children) }

/-- hamt.go:139-162 `find`; `none` is the error. -/
def rfind (m : Mem) : Nat → Nat → RNode T → Hash → Key → Res (Option T)
  | 0, _, _, _, _ => .outOfFuel
  | f + 1, depth, h, hash, key => do
    let b := bitPos (pos hash depth)
    if b &&& h.bitmap = 0 then .ok none
    else do
      let e ← Res.ofOption h.children[index h.bitmap b]?
      match e with
      | .kv hash' l =>
        if hash' ≠ hash then .ok none
        else .ok ((l.find? (fun x => m.read x.1 == key)).map Prod.snd)
      | .node bm _ cs => rfind m f (depth + 1) ⟨bm, cs⟩ hash key

/-- hamt.go:179-234 `erase`; the answer and the changed node. -/
def rerase (m : Mem) : Nat → Nat → RNode T → Hash → Key → Res (Bool × RNode T)
  | 0, _, _, _, _ => .outOfFuel
  | f + 1, depth, h, hash, key => do
    let b := bitPos (pos hash depth)
    if b &&& h.bitmap = 0 then .ok (false, h)
    else do
      let i := index h.bitmap b
      let e ← Res.ofOption h.children[i]?
      match e with
      | .kv hash' l =>
        if hash' ≠ hash then .ok (false, h)
        else if l.any (fun x => m.read x.1 == key) then
          match l.eraseP (fun x => m.read x.1 == key) with
          | [] => do
            let bm := h.bitmap &&& ~~~ b
            let cs ← rplace depth bm (h.children.length - 1) (h.children.eraseIdx i)
            .ok (true, ⟨bm, cs⟩)
          | x :: l' => .ok (true, { h with children := h.children.set i (.kv hash' (x :: l')) })
        else .ok (false, h)
      | .node bm p' cs => do
        let (ok, n) ← rerase m f (depth + 1) ⟨bm, cs⟩ hash key
        match ok, n.children with
        | true, [.kv hash' l] => .ok (ok, { h with children := h.children.set i (.kv hash' l) })
        | _, _ => .ok (ok, { h with children := h.children.set i (.node n.bitmap p' n.children) })

/-- hamt.go:164-177 `traversal` with the visitor of `Keys` (hamt.go:293-296), which never stops: the loop over the children. -/
def rkeysLoop (rec : List (REntry T) → List Ref → Res (List Ref)) : List (REntry T) → List Ref → Res (List Ref)
  | [], s => .ok s
  | .node _ _ cs :: es, s => do
    let s ← rec cs s
    rkeysLoop rec es s
  | .kv _ l :: es, s => rkeysLoop rec es (s ++ l.map Prod.fst)

/-- hamt.go:164-177 `traversal` with the visitor of `Keys`. -/
def rkeys : Nat → List (REntry T) → List Ref → Res (List Ref)
  | 0, _, _ => .outOfFuel
  | f + 1, cs, s => rkeysLoop (rkeys f) cs s

/-- hamt.go:247-255 `New`. -/
def rnew : RNode T := ⟨0, []⟩
/-- hamt.go:258-265 `Insert`; `hash` is the hash function, which sees the bytes of the slice at the time of the call. -/
def RInsert (hash : Key → Hash) (m : Mem) (h : RNode T) (r : Ref) (v : T) : Res (RNode T) := rinsert m levels 0 h (hash (m.read r)) [(r, v)]
/-- hamt.go:268-275 `Get`. -/
def RGet (hash : Key → Hash) (m : Mem) (h : RNode T) (r : Ref) : Res (Option T) := rfind m levels 0 h (hash (m.read r)) (m.read r)
/-- hamt.go:278-285 `Erase`. -/
def RErase (hash : Key → Hash) (m : Mem) (h : RNode T) (r : Ref) : Res (Bool × RNode T) := rerase m levels 0 h (hash (m.read r)) (m.read r)
/-- hamt.go:288-298 `Keys`: the slices that are kept. -/
def RKeys (h : RNode T) : Res (List Ref) := rkeys levels h.children []

/-! ## Histories and specification -/

/-- What a program does: calls with slices, and writes to its byte arrays. -/
inductive ROp (T : Type)
  | insert (r : Ref) (v : T)
  | get (r : Ref)
  | erase (r : Ref)
  | keys
  | write (a i : Nat) (b : BitVec 8)

/-- What it sees; for `Keys` the bytes of the returned slices at that time. -/
inductive ROut (T : Type)
  | unit
  | val (v : Option T)
  | bool (b : Bool)
  | keys (ks : List Key)

/-- One step: a call as modelled above, or a write to a byte array. -/
def rstep (hash : Key → Hash) (op : ROp T) (s : Mem × RNode T) : Res (ROut T × Mem × RNode T) :=
  match op with
  | .insert r v => do let h ← RInsert hash s.1 s.2 r v; .ok (.unit, s.1, h)
  | .get r => do let v ← RGet hash s.1 s.2 r; .ok (.val v, s.1, s.2)
  | .erase r => do let (b, h) ← RErase hash s.1 s.2 r; .ok (.bool b, s.1, h)
  | .keys => do let rs ← RKeys s.2; .ok (.keys (rs.map s.1.read), s.1, s.2)
  | .write a i b => .ok (.unit, s.1.write a i b, s.2)

/-- A program. -/
def rrun (hash : Key → Hash) : List (ROp T) → Mem × RNode T → Res (List (ROut T) × Mem × RNode T)
  | [], s => .ok ([], s)
  | op :: ops, s => do
    let (o, s) ← rstep hash op s
    let (os, s) ← rrun hash ops s
    .ok (o :: os, s)

/-- What a map of byte strings would answer: `Insert` takes the bytes the slice has at the time of the call, and later writes do not matter. -/
def Good : List (ROp T) → Mem → (Key → Option T) → List (ROut T) → Prop
  | [], _, _, os => os = []
  | .insert r v :: ops, m, f, os => ∃ os', os = .unit :: os' ∧ Good ops m (fun k => if k = m.read r then some v else f k) os'
  | .get r :: ops, m, f, os => ∃ os', os = .val (f (m.read r)) :: os' ∧ Good ops m f os'
  | .erase r :: ops, m, f, os => ∃ os', os = .bool (f (m.read r)).isSome :: os' ∧ Good ops m (fun k => if k = m.read r then none else f k) os'
  | .keys :: ops, m, f, os => ∃ ks os', os = .keys ks :: os' ∧ ks.Nodup ∧ (∀ k, k ∈ ks ↔ (f k).isSome = true) ∧ Good ops m f os'
  | .write a i b :: ops, m, f, os => ∃ os', os = .unit :: os' ∧ Good ops (m.write a i b) f os'

/-- The byte is one of the slice's. -/
def Ref.Covers (r : Ref) (a i : Nat) : Prop := r.arr = a ∧ r.off ≤ i ∧ i < r.off + r.len

/-- The program never writes to a byte of a slice that it has passed to `Insert` before (`P`: the slices passed so far). -/
def HandsOff : List (ROp T) → List Ref → Prop
  | [], _ => True
  | .insert r _ :: ops, P => HandsOff ops (r :: P)
  | .write a i _ :: ops, P => (∀ r ∈ P, ¬ r.Covers a i) ∧ HandsOff ops P
  | .get _ :: ops, P => HandsOff ops P
  | .erase _ :: ops, P => HandsOff ops P
  | .keys :: ops, P => HandsOff ops P

/-! ## Reading the slices -/

mutual
/-- The trie of byte strings that the trie of slices stands for. -/
def deref (m : Mem) : REntry T → Entry T
  | .kv h l => .kv h (l.map fun x => (m.read x.1, x.2))
  | .node bm p cs => .node bm p (derefL m cs)
/-- The entries with the bytes their keys show now. -/
def derefL (m : Mem) : List (REntry T) → List (Entry T)
  | [] => []
  | e :: es => deref m e :: derefL m es
end

theorem derefL_eq (m : Mem) (cs : List (REntry T)) : derefL m cs = cs.map (deref m) := by
  induction cs with
  | nil => rfl
  | cons c cs ih => simp [derefL, ih]

/-- The trie with the bytes its keys show now. -/
def derefN (m : Mem) (n : RNode T) : Node T := ⟨n.bitmap, n.children.map (deref m)⟩

/-- The pairs as byte strings. -/
abbrev readKvs (m : Mem) (l : List (Ref × T)) : List (Key × T) := l.map fun x => (m.read x.1, x.2)

theorem deref_kv (m : Mem) (h : Hash) (l : List (Ref × T)) : deref m (.kv h l) = .kv h (readKvs m l) := rfl
theorem deref_node (m : Mem) (bm : Hash) (p : Nat) (cs : List (REntry T)) : deref m (.node bm p cs) = .node bm p (cs.map (deref m)) := by
  rw [deref, derefL_eq]

/-- A result, mapped. -/
def resMap {α β : Type} (f : α → β) : Res α → Res β
  | .ok a => .ok (f a)
  | .panic => .panic
  | .outOfFuel => .outOfFuel

theorem rbitPosNum_deref (m : Mem) (d : Nat) (e : REntry T) : bitPosNum d (deref m e) = rbitPosNum d e := by
  cases e <;> simp [deref, bitPosNum, rbitPosNum]

theorem rplaceLoop_deref (m : Mem) (d : Nat) (bm : Hash) : ∀ (es : List (REntry T)) (a : List (Option (REntry T))),
    placeLoop d bm (es.map (deref m)) (a.map (Option.map (deref m))) = resMap (List.map (Option.map (deref m))) (rplaceLoop d bm es a) := by
  intro es
  induction es with
  | nil => intro a; rfl
  | cons e es ih =>
    intro a
    simp only [List.map_cons, placeLoop, rplaceLoop, rbitPosNum_deref, List.length_map]
    split
    · rw [← ih, List.map_set]; rfl
    · rfl

theorem rallSome_deref (m : Mem) : ∀ (a : List (Option (REntry T))), allSome (a.map (Option.map (deref m))) = resMap (List.map (deref m)) (rallSome a) := by
  intro a
  induction a with
  | nil => rfl
  | cons x a ih =>
    cases x with
    | none => rfl
    | some e =>
      simp only [List.map_cons, Option.map_some, allSome, rallSome, ih]
      cases rallSome a <;> rfl

theorem rplace_deref (m : Mem) (d : Nat) (bm : Hash) (n : Nat) (es : List (REntry T)) : place d bm n (es.map (deref m)) = resMap (List.map (deref m)) (rplace d bm n es) := by
  have := rplaceLoop_deref m d bm es (List.replicate n none)
  rw [List.map_replicate] at this
  simp only [place, rplace]
  rw [show (none : Option (Entry T)) = Option.map (deref m) none from rfl, this]
  cases rplaceLoop d bm es (List.replicate n none) with
  | ok a => exact rallSome_deref m a
  | panic => rfl
  | outOfFuel => rfl

theorem rupdKv_deref (m : Mem) (k : Ref) (v : T) (l : List (Ref × T)) : updKv (m.read k) v (readKvs m l) = (rupdKv m k v l).map (readKvs m) := by
  induction l with
  | nil => rfl
  | cons x l ih =>
    simp only [readKvs, List.map_cons, updKv, rupdKv] at ih ⊢
    split
    · rfl
    · rw [ih]
      cases rupdKv m k v l <;> rfl

theorem rsetKv_deref (m : Mem) (k : Ref) (v : T) (l : List (Ref × T)) : setKv (m.read k) v (readKvs m l) = readKvs m (rsetKv m k v l) := by
  rw [setKv, rsetKv, rupdKv_deref]
  cases rupdKv m k v l <;> rfl

theorem rinsert_deref (m : Mem) (f : Nat) : ∀ (d : Nat) (n : RNode T) (hash : Hash) (kvs : List (Ref × T)),
    insert f d (derefN m n) hash (readKvs m kvs) = resMap (derefN m) (rinsert m f d n hash kvs) := by
  induction f with
  | zero => intro d n hash kvs; rfl
  | succ f ih =>
    intro d n hash kvs
    simp only [insert, rinsert, derefN, List.length_map, List.getElem?_map]
    split
    · rw [← deref_kv, ← List.map_cons, rplace_deref]
      cases rplace d (n.bitmap ||| bitPos (pos hash d)) (n.children.length + 1) (REntry.kv hash kvs :: n.children) <;> rfl
    · cases n.children[index n.bitmap (bitPos (pos hash d))]? with
      | none => rfl
      | some e =>
        simp only [Option.map_some, Res.ofOption_some, Res.ok_bind]
        cases e with
        | kv hash' l =>
          simp only [deref_kv]
          split
          · cases kvs with
            | nil => rfl
            | cons x kvs =>
              obtain ⟨k, v⟩ := x
              have := rsetKv_deref m k v l
              simp only [readKvs, List.map_cons, resMap, derefN, List.map_set, deref_kv] at this ⊢
              rw [this]
          · have h1 := ih (d + 1) ⟨0, []⟩ hash' l
            simp only [derefN, List.map_nil] at h1
            rw [h1]
            cases rinsert m f (d + 1) ⟨0, []⟩ hash' l with
            | panic => rfl
            | outOfFuel => rfl
            | ok n1 =>
              simp only [resMap, Res.ok_bind]
              have h2 := ih (d + 1) n1 hash kvs
              simp only [derefN] at h2 ⊢
              rw [h2]
              cases rinsert m f (d + 1) n1 hash kvs with
              | panic => rfl
              | outOfFuel => rfl
              | ok n2 => simp [resMap, derefN, List.map_set, deref_node]
        | node bm p cs =>
          simp only [deref_node]
          have h1 := ih (d + 1) ⟨bm, cs⟩ hash kvs
          simp only [derefN] at h1
          rw [h1]
          cases rinsert m f (d + 1) ⟨bm, cs⟩ hash kvs with
          | panic => rfl
          | outOfFuel => rfl
          | ok n2 => simp [resMap, derefN, List.map_set, deref_node]

theorem rfind_deref (m : Mem) (f : Nat) : ∀ (d : Nat) (n : RNode T) (hash : Hash) (key : Key), find f d (derefN m n) hash key = rfind m f d n hash key := by
  induction f with
  | zero => intro d n hash key; rfl
  | succ f ih =>
    intro d n hash key
    simp only [find, rfind, derefN, List.getElem?_map]
    split
    · rfl
    · cases n.children[index n.bitmap (bitPos (pos hash d))]? with
      | none => rfl
      | some e =>
        simp only [Option.map_some, Res.ofOption_some, Res.ok_bind]
        cases e with
        | kv hash' l =>
          simp only [deref_kv, readKvs, List.find?_map]
          split
          · rfl
          · congr 1
            show Option.map Prod.snd (Option.map _ (l.find? fun x => m.read x.1 == key)) = _
            cases l.find? (fun x => m.read x.1 == key) with
            | none => rfl
            | some x => rfl
        | node bm p cs =>
          simp only [deref_node]
          exact ih (d + 1) ⟨bm, cs⟩ hash key

theorem eraseP_read (m : Mem) (key : Key) (l : List (Ref × T)) : (readKvs m l).eraseP (fun x => x.1 == key) = readKvs m (l.eraseP fun x => m.read x.1 == key) := by
  induction l with
  | nil => rfl
  | cons x l ih =>
    simp only [readKvs, List.map_cons, List.eraseP_cons] at ih ⊢
    cases h : (m.read x.1 == key)
    · simp [ih]
    · simp

theorem rerase_deref (m : Mem) (f : Nat) : ∀ (d : Nat) (n : RNode T) (hash : Hash) (key : Key),
    erase f d (derefN m n) hash key = resMap (fun x => (x.1, derefN m x.2)) (rerase m f d n hash key) := by
  induction f with
  | zero => intro d n hash key; rfl
  | succ f ih =>
    intro d n hash key
    simp only [erase, rerase, derefN, List.length_map, List.getElem?_map]
    split
    · rfl
    · cases n.children[index n.bitmap (bitPos (pos hash d))]? with
      | none => rfl
      | some e =>
        simp only [Option.map_some, Res.ofOption_some, Res.ok_bind]
        cases e with
        | kv hash' l =>
          simp only [deref_kv]
          split
          · rfl
          · have h1 : (readKvs m l).any (fun x => x.1 == key) = l.any fun x => m.read x.1 == key := by simp [readKvs, List.any_map]; rfl
            rw [h1]
            split
            · rw [eraseP_read]
              cases l.eraseP (fun x => m.read x.1 == key) with
              | nil =>
                simp only [readKvs, List.map_nil, List.eraseIdx_map, rplace_deref]
                cases rplace d (n.bitmap &&& ~~~bitPos (pos hash d)) (n.children.length - 1) (n.children.eraseIdx (index n.bitmap (bitPos (pos hash d)))) <;> rfl
              | cons x l' => simp [resMap, derefN, List.map_set, deref_kv]
            · rfl
        | node bm p cs =>
          simp only [deref_node]
          have h1 := ih (d + 1) ⟨bm, cs⟩ hash key
          simp only [derefN] at h1
          rw [h1]
          cases rerase m f (d + 1) ⟨bm, cs⟩ hash key with
          | panic => rfl
          | outOfFuel => rfl
          | ok x =>
            obtain ⟨ok, n2⟩ := x
            simp only [resMap, Res.ok_bind, derefN]
            match ok, h : n2.children with
            | true, [.kv hash' l] => simp [resMap, derefN, List.map_set, deref_kv]
            | true, [.node bm' p' cs'] => simp [resMap, derefN, List.map_set, deref_node]
            | true, [] => simp [resMap, derefN, List.map_set, deref_node]
            | true, c :: c' :: cs' => simp [resMap, derefN, List.map_set, deref_node]
            | false, cs' => simp [resMap, derefN, List.map_set, deref_node]

theorem rkeysLoop_deref (m : Mem) {f : Nat} (ih : ∀ (cs : List (REntry T)) (s : List Ref),
      traversal (fun (s : List Key) k (_ : T) => (s ++ [k], true)) f (cs.map (deref m)) (s.map m.read) = resMap (List.map m.read) (rkeys f cs s)) :
    ∀ (cs : List (REntry T)) (s : List Ref),
      travLoop (fun (s : List Key) k (_ : T) => (s ++ [k], true)) (traversal (fun (s : List Key) k (_ : T) => (s ++ [k], true)) f) (cs.map (deref m)) (s.map m.read) =
        resMap (List.map m.read) (rkeysLoop (rkeys f) cs s) := by
  have hv : ∀ (l : List (Ref × T)) (s : List Key), visitKvs (fun (s : List Key) k (_ : T) => (s ++ [k], true)) (readKvs m l) s = (s ++ l.map fun x => m.read x.1, true) := by
    intro l
    induction l with
    | nil => intro s; simp [readKvs, visitKvs]
    | cons x l ihl =>
      intro s
      have := ihl (s ++ [m.read x.1])
      simp only [readKvs, List.map_cons, visitKvs] at this ⊢
      rw [this]; simp
  intro cs
  induction cs with
  | nil => intro s; rfl
  | cons c cs ihc =>
    intro s
    cases c with
    | kv h l =>
      simp only [List.map_cons, deref_kv, travLoop, rkeysLoop, hv]
      have := ihc (s ++ l.map Prod.fst)
      simp only [List.map_append, List.map_map] at this
      exact this
    | node bm p cs' =>
      simp only [List.map_cons, deref_node, travLoop, rkeysLoop, ih]
      cases rkeys f cs' s with
      | panic => rfl
      | outOfFuel => rfl
      | ok s' => exact ihc s'

theorem rkeys_deref (m : Mem) (f : Nat) : ∀ (cs : List (REntry T)) (s : List Ref),
    traversal (fun (s : List Key) k (_ : T) => (s ++ [k], true)) f (cs.map (deref m)) (s.map m.read) = resMap (List.map m.read) (rkeys f cs s) := by
  induction f with
  | zero => intro cs s; rfl
  | succ f ih => intro cs s; exact rkeysLoop_deref m ih cs s

/-! ## Which slices are kept -/

/-- All slices kept satisfy `P`. -/
inductive RIn (P : Ref → Prop) : REntry T → Prop
  | kv {h l} : (∀ x ∈ l, P x.1) → RIn P (.kv h l)
  | node {bm p cs} : (∀ c ∈ cs, RIn P c) → RIn P (.node bm p cs)

theorem RIn.kvs {P : Ref → Prop} {h : Hash} {l : List (Ref × T)} (hi : RIn P (.kv h l)) : ∀ x ∈ l, P x.1 := by cases hi; assumption
theorem RIn.sub {P : Ref → Prop} {bm : Hash} {p : Nat} {cs : List (REntry T)} (hi : RIn P (.node bm p cs)) : ∀ c ∈ cs, RIn P c := by cases hi; assumption

theorem RIn.mono {P Q : Ref → Prop} (h : ∀ r, P r → Q r) {e : REntry T} (he : RIn P e) : RIn Q e := by
  induction he with
  | kv h1 => exact .kv fun x hx => h _ (h1 x hx)
  | node _ ih => exact .node ih

theorem deref_congr {m m' : Mem} {P : Ref → Prop} (h : ∀ r, P r → m.read r = m'.read r) {e : REntry T} (he : RIn P e) : deref m e = deref m' e := by
  induction he with
  | kv h1 =>
    rw [deref_kv, deref_kv]
    congr 1
    exact List.map_congr_left fun x hx => by rw [h _ (h1 x hx)]
  | node _ ih =>
    rw [deref_node, deref_node]
    congr 1
    exact List.map_congr_left ih

theorem rplaceLoop_mem (d : Nat) (bm : Hash) (Q : REntry T → Prop) : ∀ (es : List (REntry T)) (a L : List (Option (REntry T))), (∀ e ∈ es, Q e) → (∀ e, some e ∈ a → Q e) →
    rplaceLoop d bm es a = .ok L → ∀ e, some e ∈ L → Q e := by
  intro es
  induction es with
  | nil =>
    intro a L _ h e
    cases e
    exact h
  | cons x es ih =>
    intro a L h1 h2 e
    simp only [rplaceLoop] at e
    split at e
    · refine ih _ _ (fun y hy => h1 y (by simp [hy])) ?_ e
      intro y hy
      rcases List.mem_or_eq_of_mem_set hy with c | c
      · exact h2 y c
      · injection c with c
        rw [c]; exact h1 x (by simp)
    · cases e

theorem rallSome_mem : ∀ (a : List (Option (REntry T))) (L : List (REntry T)), rallSome a = .ok L → ∀ e ∈ L, some e ∈ a := by
  intro a
  induction a with
  | nil => intro L e; cases e; simp
  | cons x a ih =>
    intro L e
    cases x with
    | none => cases e
    | some y =>
      simp only [rallSome] at e
      rw [Res.bind_eq_ok] at e
      obtain ⟨L', e1, e2⟩ := e
      cases e2
      intro z hz
      rcases List.mem_cons.1 hz with c | c
      · rw [c]; simp
      · exact List.mem_cons_of_mem _ (ih L' e1 z c)

theorem rplace_mem {d : Nat} {bm : Hash} {n : Nat} {es L : List (REntry T)} (Q : REntry T → Prop) (hQ : ∀ e ∈ es, Q e) (h : rplace d bm n es = .ok L) : ∀ e ∈ L, Q e := by
  simp only [rplace] at h
  rw [Res.bind_eq_ok] at h
  obtain ⟨a, e1, e2⟩ := h
  intro e he
  exact rplaceLoop_mem d bm Q es _ a hQ (by intro e h; simp at h) e1 e (rallSome_mem a L e2 e he)

theorem set_in {P : Ref → Prop} {cs : List (REntry T)} {i : Nat} {e : REntry T} (h : ∀ c ∈ cs, RIn P c) (he : RIn P e) : ∀ c ∈ cs.set i e, RIn P c := by
  intro c hc
  rcases List.mem_or_eq_of_mem_set hc with a | a
  · exact h c a
  · rw [a]; exact he

theorem rupdKv_in {P : Ref → Prop} (m : Mem) (k : Ref) (v : T) : ∀ (l l' : List (Ref × T)), (∀ x ∈ l, P x.1) → rupdKv m k v l = some l' → ∀ x ∈ l', P x.1 := by
  intro l
  induction l with
  | nil => intro l' _ e; cases e
  | cons y l ih =>
    intro l' h e
    simp only [rupdKv] at e
    split at e
    · cases e
      intro x hx
      rcases List.mem_cons.1 hx with c | c
      · rw [c]; exact h y (by simp)
      · exact h x (by simp [c])
    · rw [Option.map_eq_some_iff] at e
      obtain ⟨l2, e1, rfl⟩ := e
      intro x hx
      rcases List.mem_cons.1 hx with c | c
      · rw [c]; exact h y (by simp)
      · exact ih l2 (fun z hz => h z (by simp [hz])) e1 x c

theorem rsetKv_in {P : Ref → Prop} (m : Mem) (k : Ref) (v : T) (l : List (Ref × T)) (h : ∀ x ∈ l, P x.1) (hk : P k) : ∀ x ∈ rsetKv m k v l, P x.1 := by
  rw [rsetKv]
  cases e : rupdKv m k v l with
  | none =>
    intro x hx
    rcases List.mem_cons.1 hx with c | c
    · rw [c]; exact hk
    · exact h x c
  | some l' => exact rupdKv_in m k v l l' h e

theorem rinsert_in {P : Ref → Prop} (m : Mem) (f : Nat) : ∀ (d : Nat) (n n' : RNode T) (hash : Hash) (kvs : List (Ref × T)), (∀ c ∈ n.children, RIn P c) → (∀ x ∈ kvs, P x.1) →
    rinsert m f d n hash kvs = .ok n' → ∀ c ∈ n'.children, RIn P c := by
  induction f with
  | zero => intro d n n' hash kvs _ _ e; cases e
  | succ f ih =>
    intro d n n' hash kvs hn hk e
    simp only [rinsert] at e
    split at e
    · rw [Res.bind_eq_ok] at e
      obtain ⟨cs, e1, e2⟩ := e
      cases e2
      refine rplace_mem _ ?_ e1
      intro c hc
      rcases List.mem_cons.1 hc with a | a
      · rw [a]; exact .kv hk
      · exact hn c a
    · rw [Res.bind_eq_ok] at e
      obtain ⟨x, e1, e⟩ := e
      have hx : RIn P x := by
        cases h : n.children[index n.bitmap (bitPos (pos hash d))]? with
        | none => rw [h] at e1; cases e1
        | some y => rw [h] at e1; cases e1; exact hn _ (List.mem_of_getElem? h)
      cases x with
      | kv hash' l =>
        simp only at e
        split at e
        · cases kvs with
          | nil => cases e
          | cons y kvs =>
            cases e
            exact set_in hn (.kv (rsetKv_in m y.1 y.2 l hx.kvs (hk y (by simp))))
        · rw [Res.bind_eq_ok] at e
          obtain ⟨n1, e2, e⟩ := e
          rw [Res.bind_eq_ok] at e
          obtain ⟨n2, e3, e⟩ := e
          cases e
          exact set_in hn (.node (ih _ _ _ _ _ (ih _ _ _ _ _ (by simp) hx.kvs e2) hk e3))
      | node bm p cs =>
        simp only at e
        rw [Res.bind_eq_ok] at e
        obtain ⟨n1, e2, e⟩ := e
        cases e
        exact set_in hn (.node (ih _ _ _ _ _ hx.sub hk e2))

theorem rerase_in {P : Ref → Prop} (m : Mem) (f : Nat) : ∀ (d : Nat) (n n' : RNode T) (hash : Hash) (key : Key) (b : Bool), (∀ c ∈ n.children, RIn P c) →
    rerase m f d n hash key = .ok (b, n') → ∀ c ∈ n'.children, RIn P c := by
  induction f with
  | zero => intro d n n' hash key b _ e; cases e
  | succ f ih =>
    intro d n n' hash key b hn e
    simp only [rerase] at e
    split at e
    · cases e; exact hn
    · rw [Res.bind_eq_ok] at e
      obtain ⟨x, e1, e⟩ := e
      have hx : RIn P x := by
        cases h : n.children[index n.bitmap (bitPos (pos hash d))]? with
        | none => rw [h] at e1; cases e1
        | some y => rw [h] at e1; cases e1; exact hn _ (List.mem_of_getElem? h)
      cases x with
      | kv hash' l =>
        simp only at e
        split at e
        · cases e; exact hn
        · split at e
          · have hl : ∀ x ∈ l.eraseP (fun x => m.read x.1 == key), P x.1 := fun x h => hx.kvs x (List.mem_of_mem_eraseP h)
            revert e hl
            cases l.eraseP (fun x => m.read x.1 == key) with
            | nil =>
              intro e _
              simp only at e
              rw [Res.bind_eq_ok] at e
              obtain ⟨cs, e1, e2⟩ := e
              cases e2
              exact rplace_mem _ (fun c hc => hn c (List.mem_of_mem_eraseIdx hc)) e1
            | cons y l' =>
              intro e hl
              cases e
              exact set_in hn (.kv hl)
          · cases e; exact hn
      | node bm p cs =>
        simp only at e
        rw [Res.bind_eq_ok] at e
        obtain ⟨⟨ok, n1⟩, e2, e⟩ := e
        have h1 := ih _ _ _ _ _ _ hx.sub e2
        revert e h1
        match ok, n1 with
        | true, ⟨_, [.kv hash' l]⟩ => intro e h1; cases e; exact set_in hn (h1 _ (by simp))
        | true, ⟨_, [.node bm' p' cs']⟩ => intro e h1; cases e; exact set_in hn (.node h1)
        | true, ⟨_, []⟩ => intro e h1; cases e; exact set_in hn (.node h1)
        | true, ⟨_, .kv _ _ :: c' :: cs'⟩ => intro e h1; cases e; exact set_in hn (.node h1)
        | true, ⟨_, .node _ _ _ :: c' :: cs'⟩ => intro e h1; cases e; exact set_in hn (.node h1)
        | false, ⟨_, cs'⟩ => intro e h1; cases e; exact set_in hn (.node h1)

/-! ## C84 -/

theorem read_write {m : Mem} {a i : Nat} {b : BitVec 8} {r : Ref} (h : ¬ r.Covers a i) : m.read r = (m.write a i b).read r := by
  refine List.map_congr_left fun j hj => ?_
  rw [List.mem_range] at hj
  simp only [Mem.write]
  rw [if_neg]
  rintro ⟨h1, h2⟩
  exact h ⟨h1, by omega, by omega⟩

theorem resMap_ok {α β : Type} {f : α → β} {x : Res α} {b : β} (h : resMap f x = .ok b) : ∃ a, x = .ok a ∧ f a = b := by
  cases x with
  | ok a => cases h; exact ⟨a, rfl, rfl⟩
  | panic => cases h
  | outOfFuel => cases h

/-- C84, the part that holds: a program that does not write to the bytes of a slice after passing it to `Insert` sees a map of byte strings, for every hash
function: every call answers as it should, nothing panics. Missing: programs that reuse a buffer, see `C84_violated`. -/
theorem C84_value_semantics_partial (hashOf : Key → Hash) : ∀ (ops : List (ROp T)) (P : List Ref) (m : Mem) (n : RNode T) (f : Key → Option T),
    HandsOff ops P → (∀ c ∈ n.children, RIn (· ∈ P) c) → Agree hashOf (derefN m n) f → ∃ os s, rrun hashOf ops (m, n) = .ok (os, s) ∧ Good ops m f os := by
  intro ops
  induction ops with
  | nil => intro P m n f _ _ _; exact ⟨[], _, rfl, rfl⟩
  | cons op ops ih =>
    intro P m n f hs hin ha
    cases op with
    | insert r v =>
      obtain ⟨h', e, ha'⟩ := step_agree ha (.insert (m.read r) v)
      simp only [step] at e
      rw [Res.bind_eq_ok] at e
      obtain ⟨h1, e1, e2⟩ := e
      cases e2
      have := rinsert_deref m levels 0 n (hashOf (m.read r)) [(r, v)]
      simp only [readKvs, List.map_cons, List.map_nil] at this
      rw [Insert, this] at e1
      obtain ⟨n1, e3, e4⟩ := resMap_ok e1
      rw [← e4] at ha'
      obtain ⟨os, s, e5, g⟩ := ih (r :: P) m n1 _ hs (rinsert_in m levels 0 n n1 _ _ (fun c hc => (hin c hc).mono fun _ h => List.mem_cons_of_mem _ h) (by simp) e3) ha'
      refine ⟨.unit :: os, s, ?_, ⟨os, rfl, g⟩⟩
      simp only [rrun, rstep, RInsert, e3, Res.ok_bind, e5]
    | get r =>
      obtain ⟨h', e, ha'⟩ := step_agree ha (.get (m.read r))
      simp only [step] at e
      rw [Res.bind_eq_ok] at e
      obtain ⟨x, e1, e2⟩ := e
      rw [Get, rfind_deref] at e1
      obtain ⟨os, s, e5, g⟩ := ih P m n f hs hin ha
      refine ⟨.val (f (m.read r)) :: os, s, ?_, ⟨os, rfl, g⟩⟩
      have hx : x = f (m.read r) := by
        simp only [specStep] at e2
        injection e2 with e2
        injection e2 with e2
        injection e2
      simp only [rrun, rstep, RGet, e1, Res.ok_bind, e5, hx]
    | erase r =>
      obtain ⟨h', e, ha'⟩ := step_agree ha (.erase (m.read r))
      simp only [step] at e
      rw [Res.bind_eq_ok] at e
      obtain ⟨⟨b, h1⟩, e1, e2⟩ := e
      rw [Erase, rerase_deref] at e1
      obtain ⟨⟨b', n1⟩, e3, e4⟩ := resMap_ok e1
      simp only [Prod.mk.injEq] at e4
      obtain ⟨rfl, rfl⟩ := e4
      simp only [specStep] at e2
      injection e2 with e2
      injection e2 with e2 e6
      injection e2 with e2
      rw [← e6] at ha'
      obtain ⟨os, s, e5, g⟩ := ih P m n1 _ hs (rerase_in m levels 0 n n1 _ _ _ hin e3) ha'
      refine ⟨.bool (f (m.read r)).isSome :: os, s, ?_, ⟨os, rfl, g⟩⟩
      simp only [rrun, rstep, RErase, e3, Res.ok_bind, e5, e2]
    | keys =>
      obtain ⟨ks, e, h1, h2⟩ := keys_agree ha
      have := rkeys_deref m levels n.children []
      rw [Keys, Traversal] at e
      simp only [derefN, List.map_nil] at e this
      rw [this] at e
      obtain ⟨rs, e3, e4⟩ := resMap_ok e
      obtain ⟨os, s, e5, g⟩ := ih P m n f hs hin ha
      refine ⟨.keys ks :: os, s, ?_, ⟨ks, os, rfl, h1, h2, g⟩⟩
      simp only [rrun, rstep, RKeys, e3, Res.ok_bind, e5, e4]
    | write a i b =>
      have hd : derefN m n = derefN (m.write a i b) n := by
        rw [derefN, derefN]
        congr 1
        exact List.map_congr_left fun c hc => deref_congr (P := (· ∈ P)) (fun r hr => read_write (hs.1 r hr)) (hin c hc)
      rw [hd] at ha
      obtain ⟨os, s, e5, g⟩ := ih P (m.write a i b) n f hs.2 hin ha
      refine ⟨.unit :: os, s, ?_, ⟨os, rfl, g⟩⟩
      simp only [rrun, rstep, Res.ok_bind, e5]

/-- C84, from a new trie. -/
theorem C84_from_new_partial (hashOf : Key → Hash) (ops : List (ROp T)) (m : Mem) (h : HandsOff ops []) :
    ∃ os s, rrun hashOf ops (m, (rnew : RNode T)) = .ok (os, s) ∧ Good ops m emptyMap os :=
  C84_value_semantics_partial hashOf ops [] m rnew emptyMap h (by simp [rnew]) (agree_new hashOf)

/-- A program that meets the hypothesis: two keys in one array, a third key in a buffer that is used for lookups and changed between them. -/
example (v : T) : HandsOff [.insert ⟨0, 0, 2⟩ v, .insert ⟨0, 2, 1⟩ v, .write 1 0 5, .get ⟨1, 0, 1⟩, .write 1 0 6, .erase ⟨1, 0, 1⟩, .write 0 3 9, .keys] [] := by
  simp [HandsOff, Ref.Covers]

theorem rinsert_empty (m : Mem) (f depth : Nat) (hash : Hash) (kvs : List (Ref × T)) :
    rinsert m (f + 1) depth ⟨0, []⟩ hash kvs = .ok ⟨bitPos (pos hash depth), [.kv hash kvs]⟩ := by
  have h := rinsert_deref m (f + 1) depth ⟨0, []⟩ hash kvs
  have e1 : bitPos (pos hash depth) &&& (0 : Hash) = 0 := by simp
  have e0 : (0 : Hash) ||| bitPos (pos hash depth) = bitPos (pos hash depth) := by simp
  have hp := pos_lt hash depth
  have h2 : index (bitPos (pos hash depth)) (bitPos (pos hash depth)) = 0 := index_get (by rw [bits_bitPos hp]; rfl)
  have h3 : (1 : Hash) <<< pos hash depth = bitPos (pos hash depth) := rfl
  simp only [rinsert, e1, if_true, e0, List.length_nil, rplace, rplaceLoop, rbitPosNum, h3, h2]
  rfl

/-- C84 is false of the code, for every hash function: a key is inserted, then the caller changes a byte of the buffer it was in. The inserted key is gone although it
was never erased, and `Keys` lists one that was never inserted. -/
theorem C84_violated (hashOf : Key → Hash) (x y : BitVec 8) (hxy : x ≠ y) (v : T) :
    ∃ s, rrun hashOf [.insert ⟨0, 0, 1⟩ v, .write 0 0 y, .get ⟨1, 0, 1⟩, .keys] ((fun _ _ => x), (rnew : RNode T)) = .ok ([.unit, .unit, .val none, .keys [[y]]], s) ∧
      ¬ ∃ ks, Good [.insert ⟨0, 0, 1⟩ v, .write 0 0 y, .get ⟨1, 0, 1⟩, .keys] (fun _ _ => x) emptyMap [.unit, .unit, .val none, .keys ks] := by
  have r0 : Mem.read (fun _ _ => x) ⟨0, 0, 1⟩ = [x] := rfl
  have r1 : Mem.read (Mem.write (fun _ _ => x) 0 0 y) ⟨1, 0, 1⟩ = [x] := rfl
  have r2 : Mem.read (Mem.write (fun _ _ => x) 0 0 y) ⟨0, 0, 1⟩ = [y] := rfl
  have hf : rfind (Mem.write (fun _ _ => x) 0 0 y) levels 0 (⟨bitPos (pos (hashOf [x]) 0), [.kv (hashOf [x]) [(⟨0, 0, 1⟩, v)]]⟩ : RNode T) (hashOf [x]) [x] = .ok none := by
    have hp := pos_lt (hashOf [x]) 0
    have h1 : ¬ bitPos (pos (hashOf [x]) 0) &&& bitPos (pos (hashOf [x]) 0) = 0 := by rw [test_zero hp, bits_bitPos hp]; simp
    have h2 : index (bitPos (pos (hashOf [x]) 0)) (bitPos (pos (hashOf [x]) 0)) = 0 := index_get (by rw [bits_bitPos hp]; rfl)
    simp only [levels, rfind, if_neg h1, h2]
    simp [r2, hxy.symm]
  refine ⟨(Mem.write (fun _ _ => x) 0 0 y, ⟨bitPos (pos (hashOf [x]) 0), [.kv (hashOf [x]) [(⟨0, 0, 1⟩, v)]]⟩), ?_, ?_⟩
  · have hi : rinsert (fun _ _ => x) levels 0 (⟨0, []⟩ : RNode T) (hashOf [x]) [(⟨0, 0, 1⟩, v)] = .ok ⟨bitPos (pos (hashOf [x]) 0), [.kv (hashOf [x]) [(⟨0, 0, 1⟩, v)]]⟩ :=
      rinsert_empty _ 10 0 _ _
    have hk : RKeys (⟨bitPos (pos (hashOf [x]) 0), [.kv (hashOf [x]) [(⟨0, 0, 1⟩, v)]]⟩ : RNode T) = .ok [⟨0, 0, 1⟩] := rfl
    simp only [rrun, rstep, RInsert, RGet, rnew, r0, r1, hi, Res.ok_bind, hf, hk, List.map_cons, List.map_nil, r2]
  · rintro ⟨ks, o1, e1, o2, e2, o3, e, _⟩
    simp only [r0, r1, if_true] at e
    injection e1 with _ e1
    rw [← e1] at e2
    injection e2 with _ e2
    rw [← e2] at e
    injection e with e
    injection e with e
    cases e

/-- A buffer used for two insertions: with the hash function the code uses, `Keys` lists one key twice and the first insertion cannot be found. -/
theorem C84_reused_buffer : ∃ s, rrun fnv1 [.write 1 0 1, .write 0 0 1, .insert ⟨0, 0, 1⟩ 10, .get ⟨1, 0, 1⟩, .write 0 0 2, .insert ⟨0, 0, 1⟩ 20, .keys, .get ⟨1, 0, 1⟩]
    ((fun _ _ => 0), (rnew : RNode Nat)) = .ok ([.unit, .unit, .unit, .val (some 10), .unit, .unit, .keys [[2], [2]], .val none], s) := ⟨_, rfl⟩

/-- `C84_value_semantics_partial` and `C84_from_new_partial` on a program that keeps its hands off the keys it has inserted. -/
example := C84_from_new_partial (T := Nat) fnv1 [.insert ⟨0, 0, 2⟩ 1, .insert ⟨0, 2, 1⟩ 2, .write 1 0 5, .get ⟨1, 0, 1⟩, .write 1 0 6, .erase ⟨1, 0, 1⟩, .write 0 3 9, .keys]
  (fun _ _ => 0) (by simp [HandsOff, Ref.Covers])
/-- `C84_violated` for the bytes 1 and 2. -/
example := C84_violated fnv1 1 2 (by decide) (7 : Nat)
/-- `C84_value_semantics_partial`, from the empty map again. -/
example := C84_value_semantics_partial (T := Nat) fnv1 [.insert ⟨0, 0, 2⟩ 1, .write 1 0 5, .keys] [] (fun _ _ => 0) rnew emptyMap (by simp [HandsOff, Ref.Covers]) (by simp [rnew]) (agree_new fnv1)

end GoSTL.Hamt
