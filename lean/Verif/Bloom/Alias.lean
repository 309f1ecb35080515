import Verif.Bloom.Props
import Mathlib.Tactic.Ring
/-!
# The byte slices that go in and out of bitmaps and Bloom filters

`bitmap.NewFromData` keeps the slice it is given, `Bitmap.Data` returns the slice in use, `bloom.NewFromData` keeps `data[16:]`, and
`BloomFilter.Data` makes a copy. Here slices are windows of byte arrays, and a program may mix slices, bitmaps and filters at will.
Simplification: a slice expression `s[a:b]` of the caller has `b ≤ len(s)` (Go also allows `b ≤ cap(s)`), and nothing is appended; a call that
writes some bytes of a slice is modelled as writing back the whole window.
-/
namespace GoSTL.Bloom.Alias
open Bitmap (Byte Bitmap bitsOf bitsOf1)
open Bloom

/-! ## Model -/

/-- A Go slice: `len` bytes of the array `buf` from `off` on. -/
structure View where
  buf : Nat
  off : Nat
  len : Nat

/-- What an object is. -/
inductive Kind
  | slice
  /-- bitmap.go:4-7; the slice is the view. -/
  | bitmap
  /-- bloom.go:33-38; the slice is that of the bitmap. -/
  | filter (m k : Nat)
  deriving DecidableEq

/-- A slice of the caller, a bitmap or a filter. `size` is the field `size` of the bitmap. -/
structure Obj where
  kind : Kind
  view : View
  size : Nat

/-- The byte arrays, and the slices, bitmaps and filters over them. -/
structure World where
  bufs : List (List Byte)
  objs : List Obj

/-- Nothing yet. -/
def start : World := ⟨[], []⟩

/-- The bytes a slice shows. -/
def window (bufs : List (List Byte)) (v : View) : List Byte := (((bufs[v.buf]?).getD []).drop v.off).take v.len

/-- The bytes `d` written to the slice. -/
def splice (buf : List Byte) (off : Nat) (d : List Byte) : List Byte := buf.take off ++ d ++ buf.drop (off + d.length)

/-- A call wrote `d` into the array under the slice. -/
def writeBack (bufs : List (List Byte)) (v : View) (d : List Byte) : List (List Byte) :=
  bufs.set v.buf (splice ((bufs[v.buf]?).getD []) v.off d)

/-- A new array with a new slice of it. -/
def addNew (w : World) (kind : Kind) (d : List Byte) (size : Nat) : World :=
  ⟨w.bufs ++ [d], w.objs ++ [⟨kind, ⟨w.bufs.length, 0, d.length⟩, size⟩]⟩

/-- Object `h` gets a new array. -/
def renew (w : World) (h : Nat) (kind : Kind) (d : List Byte) (size : Nat) : World :=
  ⟨w.bufs ++ [d], w.objs.set h ⟨kind, ⟨w.bufs.length, 0, d.length⟩, size⟩⟩

/-- Object `h`, a slice of the caller. -/
def getSlice (w : World) (h : Nat) : Res View :=
  match w.objs[h]? with
  | some ⟨.slice, v, _⟩ => .ok v
  | _ => .panic

/-- Object `h`, a bitmap, with the bytes it sees. -/
def getBitmap (w : World) (h : Nat) : Res (View × Bitmap) :=
  match w.objs[h]? with
  | some ⟨.bitmap, v, n⟩ => .ok (v, ⟨window w.bufs v, n⟩)
  | _ => .panic

/-- Object `h`, a filter, with the bytes it sees. -/
def getFilter (w : World) (h : Nat) : Res (View × BloomFilter) :=
  match w.objs[h]? with
  | some ⟨.filter m k, v, n⟩ => .ok (v, ⟨m, k, ⟨window w.bufs v, n⟩⟩)
  | _ => .panic

/-- What a program does: with slices of its own, and the calls of bitmap.go:10-82 and bloom.go:41-123. -/
inductive Op
  /-- A new slice of the caller with these bytes. -/
  | mk (d : List Byte)
  /-- `s[a:b]`. -/
  | sub (h a b : Nat)
  /-- `s[i] = x`. -/
  | put (h i : Nat) (x : Byte)
  /-- The bytes of a slice. -/
  | bytes (h : Nat)
  | bNew (n : Nat)
  /-- `bitmap.NewFromData(s)`. -/
  | bFrom (h : Nat)
  | bSet (h p : Nat)
  | bUnset (h p : Nat)
  | bIsSet (h p : Nat)
  | bResize (h n : Nat)
  | bClear (h : Nat)
  | bSize (h : Nat)
  /-- `s := b.Data()`. -/
  | bData (h : Nat)
  | fNew (m k : BitVec 64)
  /-- `bloom.NewFromData(s)`. -/
  | fFrom (h : Nat)
  | fAdd (h : Nat) (x : List Byte)
  | fContains (h : Nat) (x : List Byte)
  /-- `s := f.Data()`. -/
  | fData (h : Nat)

/-- What it gets. -/
abbrev Out := Bitmap.Out
/-- What it gets from the specification: bits instead of bytes. -/
abbrev SpecOut := Bitmap.SpecOut

/-- bitmap.go:58-67 `Resize`: a new slice, or nothing. -/
def resizeObj (w : World) (h : Nat) (r : Bool × Bitmap) : World :=
  if r.1 then renew w h .bitmap r.2.data r.2.size else w

/-- bitmap.go:10-82, bloom.go:41-131. -/
def step (H : List Byte → List Byte) (op : Op) (w : World) : Res (Out × World) :=
  match op with
  | .mk d => .ok (.unit, addNew w .slice d 0)
  | .sub h a b => do
    let v ← getSlice w h
    if a ≤ b ∧ b ≤ v.len then .ok (.unit, { w with objs := w.objs ++ [⟨.slice, ⟨v.buf, v.off + a, b - a⟩, 0⟩] }) else .panic
  | .put h i x => do
    let v ← getSlice w h
    if i < v.len then .ok (.unit, { w with bufs := writeBack w.bufs v ((window w.bufs v).set i x) }) else .panic
  | .bytes h => do
    let v ← getSlice w h
    .ok (.bytes (window w.bufs v), w)
  | .bNew n => .ok (.unit, addNew w .bitmap (Bitmap.new n).data (Bitmap.new n).size)
  | .bFrom h => do
    let v ← getSlice w h
    .ok (.unit, { w with objs := w.objs ++ [⟨.bitmap, v, (Bitmap.newFromData (window w.bufs v)).size⟩] })
  | .bSet h p => do
    let (v, b) ← getBitmap w h
    let (r, b) ← Bitmap.set b p
    .ok (.bool r, { w with bufs := writeBack w.bufs v b.data })
  | .bUnset h p => do
    let (v, b) ← getBitmap w h
    let (r, b) ← Bitmap.unset b p
    .ok (.bool r, { w with bufs := writeBack w.bufs v b.data })
  | .bIsSet h p => do
    let (_, b) ← getBitmap w h
    let r ← Bitmap.isSet b p
    .ok (.bool r, w)
  | .bResize h n => do
    let (_, b) ← getBitmap w h
    .ok (.unit, resizeObj w h (Bitmap.resize b n))
  | .bClear h => do
    let (_, b) ← getBitmap w h
    .ok (.unit, renew w h .bitmap (Bitmap.clear b).data (Bitmap.clear b).size)
  | .bSize h => do
    let (_, b) ← getBitmap w h
    .ok (.int b.size, w)
  | .bData h => do
    let (v, _) ← getBitmap w h
    .ok (.unit, { w with objs := w.objs ++ [⟨.slice, v, 0⟩] })
  | .fNew m k => .ok (.unit, addNew w (.filter m.toNat k.toNat) (new m.toNat k.toNat).b.data (new m.toNat k.toNat).b.size)
  | .fFrom h => do
    let v ← getSlice w h
    let bf ← newFromData (window w.bufs v)
    .ok (.unit, { w with objs := w.objs ++ [⟨.filter bf.m bf.k, ⟨v.buf, v.off + 16, v.len - 16⟩, bf.b.size⟩] })
  | .fAdd h x => do
    let (v, bf) ← getFilter w h
    let bf ← add H bf x
    .ok (.unit, { w with bufs := writeBack w.bufs v bf.b.data })
  | .fContains h x => do
    let (_, bf) ← getFilter w h
    let r ← contains H bf x
    .ok (.bool r, w)
  | .fData h => do
    let (_, bf) ← getFilter w h
    .ok (.unit, addNew w .slice (data bf) 0)

/-- A program. -/
def run (H : List Byte → List Byte) : List Op → World → Res (List Out × World)
  | [], w => .ok ([], w)
  | op :: ops, w => do
    let (o, w) ← step H op w
    let (os, w) ← run H ops w
    .ok (o :: os, w)

/-! ## Specification: rows of bits, some of them parts of the same storage -/

/-- What an object shows: the bits of storage `store` from `off` on. -/
structure SObj where
  kind : Kind
  store : Nat
  off : Nat
  bits : List Bool

/-- The objects in order of creation, and the number of storages so far. -/
structure Spec where
  objs : List SObj
  next : Nat

/-- The bit at position `p` of storage `s` becomes `x`: every object that shows it changes. -/
def poke1 (s p : Nat) (x : Bool) (o : SObj) : SObj :=
  if o.store = s ∧ o.off ≤ p then { o with bits := o.bits.set (p - o.off) x } else o

/-- Bit `p` of storage `s` becomes `x` for all objects that show it. -/
def poke (S : Spec) (s p : Nat) (x : Bool) : Spec := { S with objs := S.objs.map (poke1 s p x) }

/-- Bit `p` of object `o` becomes `x`, if it has one. -/
def write (S : Spec) (o : SObj) (p : Nat) (x : Bool) : Spec := if p < o.bits.length then poke S o.store (o.off + p) x else S

/-- Bits `p`, `p + 1`, ... of object `o` become `xs`. -/
def writes (S : Spec) (o : SObj) (p : Nat) : List Bool → Spec
  | [] => S
  | x :: xs => writes (write S o p x) o (p + 1) xs

/-- The bits at the positions become true. -/
def writeAll (S : Spec) (o : SObj) : List Nat → Spec
  | [] => S
  | p :: ps => writeAll (write S o p true) o ps

/-- A number from its bits, lowest first; and its lowest `n` bits. -/
def num : List Bool → Nat
  | [] => 0
  | b :: bs => b.toNat + 2 * num bs

/-- The `n` low bits of a number. -/
def numBits (n x : Nat) : List Bool := (List.range n).map fun i => x.testBit i

/-- The `k` positions of a value in a filter with `m` bits: the words of the hash value, over and over, modulo `m`. -/
def positions (H : List Byte → List Byte) (m k : Nat) (x : List Byte) : Res (List Nat) :=
  if 2 ^ 63 ≤ k ∨ (m = 0 ∧ 0 < k) then .panic
  else .ok ((List.range k).map fun i => ((words (H (salt ++ x)))[i % (words (H (salt ++ x))).length]?).getD 0 % m)

/-- Object `h`. -/
def Spec.find (S : Spec) (h : Nat) : Res SObj := Res.ofOption S.objs[h]?

/-- Object `h`, a slice. -/
def Spec.slice (S : Spec) (h : Nat) : Res SObj := do
  let o ← S.find h
  if o.kind = .slice then .ok o else .panic

/-- Object `h`, a bitmap. -/
def Spec.bitmap (S : Spec) (h : Nat) : Res SObj := do
  let o ← S.find h
  if o.kind = .bitmap then .ok o else .panic

/-- Object `h`, a filter, with its numbers. -/
def Spec.filter (S : Spec) (h : Nat) : Res (Nat × Nat × SObj) := do
  let o ← S.find h
  match o.kind with
  | .filter m k => .ok (m, k, o)
  | _ => .panic

/-- A new object showing a part of an old storage. -/
def Spec.share (S : Spec) (o : SObj) : Spec := { S with objs := S.objs ++ [o] }

/-- A new object with a storage of its own. -/
def Spec.own (S : Spec) (kind : Kind) (bits : List Bool) : Spec := ⟨S.objs ++ [⟨kind, S.next, 0, bits⟩], S.next + 1⟩

/-- Object `h` gets a storage of its own. -/
def Spec.reown (S : Spec) (h : Nat) (kind : Kind) (bits : List Bool) : Spec := ⟨S.objs.set h ⟨kind, S.next, 0, bits⟩, S.next + 1⟩

/-- One step, on objects that show bits of shared storages. -/
def specStep (H : List Byte → List Byte) (op : Op) (S : Spec) : Res (SpecOut × Spec) :=
  match op with
  | .mk d => .ok (.unit, S.own .slice (bitsOf d))
  | .sub h a b => do
    let o ← S.slice h
    if a ≤ b ∧ 8 * b ≤ o.bits.length then .ok (.unit, S.share ⟨.slice, o.store, o.off + 8 * a, (o.bits.drop (8 * a)).take (8 * (b - a))⟩) else .panic
  | .put h i x => do
    let o ← S.slice h
    if 8 * i < o.bits.length then .ok (.unit, writes S o (8 * i) (bitsOf1 x)) else .panic
  | .bytes h => do
    let o ← S.slice h
    .ok (.bits o.bits, S)
  | .bNew n => .ok (.unit, S.own .bitmap (List.replicate (Bitmap.roundUp n) false))
  | .bFrom h => do
    let o ← S.slice h
    .ok (.unit, S.share { o with kind := .bitmap })
  | .bSet h p => do
    let o ← S.bitmap h
    .ok (.bool (decide (p < o.bits.length)), write S o p true)
  | .bUnset h p => do
    let o ← S.bitmap h
    .ok (.bool (decide (p < o.bits.length)), write S o p false)
  | .bIsSet h p => do
    let o ← S.bitmap h
    .ok (.bool (o.bits[p]? == some true), S)
  | .bResize h n => do
    let o ← S.bitmap h
    .ok (.unit, if o.bits.length = Bitmap.roundUp n then S else S.reown h .bitmap (Bitmap.fit (Bitmap.roundUp n) o.bits))
  | .bClear h => do
    let o ← S.bitmap h
    .ok (.unit, S.reown h .bitmap (List.replicate o.bits.length false))
  | .bSize h => do
    let o ← S.bitmap h
    .ok (.int o.bits.length, S)
  | .bData h => do
    let o ← S.bitmap h
    .ok (.unit, S.share { o with kind := .slice })
  | .fNew m k => .ok (.unit, S.own (.filter m.toNat k.toNat) (List.replicate (Bitmap.roundUp m.toNat) false))
  | .fFrom h => do
    let o ← S.slice h
    if o.bits.length < 128 then .panic else
      .ok (.unit, S.share ⟨.filter (num (o.bits.take 64)) (num ((o.bits.drop 64).take 64)), o.store, o.off + 128, o.bits.drop 128⟩)
  | .fAdd h x => do
    let (m, k, o) ← S.filter h
    let ps ← positions H m k x
    .ok (.unit, writeAll S o ps)
  | .fContains h x => do
    let (m, k, o) ← S.filter h
    let ps ← positions H m k x
    .ok (.bool (ps.all fun p => o.bits[p]? == some true), S)
  | .fData h => do
    let (m, k, o) ← S.filter h
    .ok (.unit, S.own .slice (numBits 64 m ++ numBits 64 k ++ o.bits))

/-- A program, on these. -/
def specRun (H : List Byte → List Byte) : List Op → Spec → Res (List SpecOut × Spec)
  | [], S => .ok ([], S)
  | op :: ops, S => do
    let (o, S) ← specStep H op S
    let (os, S) ← specRun H ops S
    .ok (o :: os, S)

/-! ## Proof -/

/-- The bits an object shows. -/
def abs (bufs : List (List Byte)) (o : Obj) : SObj := ⟨o.kind, o.view.buf, o.view.off * 8, bitsOf (window bufs o.view)⟩

/-- The bits all objects show. -/
def absW (w : World) : Spec := ⟨w.objs.map (abs w.bufs), w.bufs.length⟩

/-- The object lies within its array. -/
structure Fits (bufs : List (List Byte)) (o : Obj) : Prop where
  view : ∃ d, bufs[o.view.buf]? = some d ∧ o.view.off + o.view.len ≤ d.length
  size : o.kind ≠ .slice → o.size = o.view.len * 8
  k : ∀ m k, o.kind = .filter m k → k < 2 ^ 64

/-- All objects do. -/
def Valid (w : World) : Prop := ∀ o ∈ w.objs, Fits w.bufs o

theorem bitsOf_drop (a : List Byte) (n : Nat) : bitsOf (a.drop n) = (bitsOf a).drop (n * 8) := by
  induction a generalizing n with
  | nil => simp [bitsOf]
  | cons d ds ih =>
    cases n with
    | zero => simp
    | succ n =>
      have : (n + 1) * 8 = (bitsOf1 d).length + n * 8 := by simp [bitsOf1]; omega
      rw [List.drop_succ_cons, ih, bitsOf, this, List.drop_append]
      simp

theorem Fits.length {bufs : List (List Byte)} {o : Obj} (h : Fits bufs o) : (window bufs o.view).length = o.view.len := by
  obtain ⟨d, e, hl⟩ := h.view
  simp [window, e]; omega

theorem splice_length {buf d : List Byte} {off : Nat} (h : off + d.length ≤ buf.length) : (splice buf off d).length = buf.length := by
  simp [splice]; omega

theorem splice_bits {buf d : List Byte} {off len q : Nat} {x : Bool} (hl : off + len ≤ buf.length) (hd : d.length = len) (hq : q < len * 8)
    (e : bitsOf d = (bitsOf ((buf.drop off).take len)).set q x) : bitsOf (splice buf off d) = (bitsOf buf).set (off * 8 + q) x := by
  simp only [splice, Bitmap.bitsOf_append, e, bitsOf_drop, Bitmap.bitsOf_take]
  apply List.ext_getElem?
  intro i
  have l := Bitmap.bitsOf_length buf
  simp only [List.getElem?_append, List.getElem?_set, List.getElem?_take, List.getElem?_drop, List.length_append, List.length_take, List.length_set, List.length_drop]
  grind

theorem splice_same {buf d : List Byte} {off len : Nat} (hl : off + len ≤ buf.length) (hd : d.length = len)
    (e : bitsOf d = bitsOf ((buf.drop off).take len)) : bitsOf (splice buf off d) = bitsOf buf := by
  simp only [splice, Bitmap.bitsOf_append, e, bitsOf_drop, Bitmap.bitsOf_take]
  apply List.ext_getElem?
  intro i
  have l := Bitmap.bitsOf_length buf
  simp only [List.getElem?_append, List.getElem?_take, List.getElem?_drop, List.length_append, List.length_take, List.length_drop]
  grind

theorem bitsOf_window (bufs : List (List Byte)) (v : View) :
    bitsOf (window bufs v) = ((bitsOf ((bufs[v.buf]?).getD [])).drop (v.off * 8)).take (v.len * 8) := by
  rw [window, Bitmap.bitsOf_take, bitsOf_drop]

theorem writeBack_valid {w : World} (hw : Valid w) {o : Obj} (ho : o ∈ w.objs) {d : List Byte} (hd : d.length = o.view.len) :
    Valid { w with bufs := writeBack w.bufs o.view d } := by
  intro o' ho'
  obtain ⟨b, e, hl⟩ := (hw o ho).view
  have hlt : o.view.buf < w.bufs.length := (List.getElem?_eq_some_iff.1 e).1
  obtain ⟨b', e', hl'⟩ := (hw o' ho').view
  refine ⟨?_, (hw o' ho').size, (hw o' ho').k⟩
  simp only [writeBack, List.getElem?_set, e, Option.getD_some]
  by_cases c : o.view.buf = o'.view.buf
  · rw [if_pos c, if_pos hlt]
    refine ⟨_, rfl, ?_⟩
    rw [splice_length (by omega)]
    rw [← c, e] at e'; cases e'; exact hl'
  · rw [if_neg c]; exact ⟨b', e', hl'⟩

/-- Writing back a window in which one bit changed. -/
theorem writeBack_poke {w : World} (hw : Valid w) {o : Obj} (ho : o ∈ w.objs) {d : List Byte} {q : Nat} {x : Bool}
    (hd : d.length = o.view.len) (e : bitsOf d = (bitsOf (window w.bufs o.view)).set q x) :
    absW { w with bufs := writeBack w.bufs o.view d } = write (absW w) (abs w.bufs o) q x := by
  obtain ⟨b, eb, hl⟩ := (hw o ho).view
  have hlt : o.view.buf < w.bufs.length := (List.getElem?_eq_some_iff.1 eb).1
  have hlen : (abs w.bufs o).bits.length = o.view.len * 8 := by simp [abs, Bitmap.bitsOf_length, (hw o ho).length]
  have ew : window w.bufs o.view = (b.drop o.view.off).take o.view.len := by simp [window, eb]
  by_cases c : q < o.view.len * 8
  · rw [write, if_pos (by omega)]
    rw [ew] at e
    have es := splice_bits hl hd c e
    simp only [absW, poke, List.map_map, Spec.mk.injEq]
    refine ⟨?_, by simp [writeBack]⟩
    apply List.map_congr_left
    intro o' ho'
    simp only [Function.comp, abs, poke1, bitsOf_window]
    by_cases c1 : o'.view.buf = o.view.buf
    · rw [c1]
      simp only [writeBack, eb, Option.getD_some, List.getElem?_set_self hlt, es, true_and]
      by_cases c2 : o'.view.off * 8 ≤ o.view.off * 8 + q
      · rw [if_pos c2]
        simp only [SObj.mk.injEq, true_and]
        apply List.ext_getElem?
        intro i
        simp only [List.getElem?_set, List.getElem?_take, List.getElem?_drop, List.length_take, List.length_drop]
        grind
      · rw [if_neg c2]
        simp only [SObj.mk.injEq, true_and]
        apply List.ext_getElem?
        intro i
        simp only [List.getElem?_set, List.getElem?_take, List.getElem?_drop]
        grind
    · have c1' : ¬ o.view.buf = o'.view.buf := fun h => c1 h.symm
      simp [c1, writeBack, List.getElem?_set, c1']
  · rw [write, if_neg (by omega)]
    rw [List.set_eq_of_length_le (by rw [Bitmap.bitsOf_length, (hw o ho).length]; omega), ew] at e
    have es := splice_same hl hd e
    simp only [absW, Spec.mk.injEq]
    refine ⟨?_, by simp [writeBack]⟩
    apply List.map_congr_left
    intro o' ho'
    simp only [abs, bitsOf_window]
    by_cases c1 : o'.view.buf = o.view.buf
    · rw [c1]
      simp only [writeBack, eb, Option.getD_some, List.getElem?_set_self hlt, es]
    · have c1' : ¬ o.view.buf = o'.view.buf := fun h => c1 h.symm
      simp [writeBack, List.getElem?_set, c1']

theorem window_writeBack {w : World} {o : Obj} (hf : Fits w.bufs o) {d : List Byte} (hd : d.length = o.view.len) :
    window (writeBack w.bufs o.view d) o.view = d := by
  obtain ⟨b, eb, hl⟩ := hf.view
  have hlt : o.view.buf < w.bufs.length := (List.getElem?_eq_some_iff.1 eb).1
  have h1 : (b.take o.view.off).length = o.view.off := by simp; omega
  simp only [window, writeBack, eb, Option.getD_some, List.getElem?_set_self hlt, splice]
  rw [List.append_assoc, List.drop_left' h1, List.take_left' hd]

theorem writeBack_twice {w : World} {o : Obj} (hf : Fits w.bufs o) {d d' : List Byte} (hd : d.length = o.view.len) (hd' : d'.length = o.view.len) :
    writeBack (writeBack w.bufs o.view d) o.view d' = writeBack w.bufs o.view d' := by
  obtain ⟨b, eb, hl⟩ := hf.view
  have hlt : o.view.buf < w.bufs.length := (List.getElem?_eq_some_iff.1 eb).1
  have h1 : (b.take o.view.off).length = o.view.off := by simp; omega
  simp only [writeBack, eb, Option.getD_some, List.getElem?_set_self hlt, List.set_set]
  congr 1
  simp only [splice]
  rw [List.append_assoc (b.take _), List.take_left' h1, hd, hd', ← hd, ← List.append_assoc, List.drop_left' (by simp [h1, hd]), hd]

theorem writeBack_same {w : World} {o : Obj} (hf : Fits w.bufs o) : writeBack w.bufs o.view (window w.bufs o.view) = w.bufs := by
  obtain ⟨b, eb, hl⟩ := hf.view
  have hlen := hf.length
  have : splice b o.view.off (window w.bufs o.view) = b := by
    rw [splice, hlen]
    simp only [window, eb, Option.getD_some]
    rw [List.append_assoc, ← List.drop_drop, List.take_append_drop, List.take_append_drop]
  rw [writeBack, eb, Option.getD_some, this]
  obtain ⟨h, e⟩ := List.getElem?_eq_some_iff.1 eb
  rw [← e]; exact List.set_getElem_self h

/-! ### Several bits -/

theorem set_bytes (d : List Byte) (p : Nat) (x : Bool) : ∃ d', d'.length = d.length ∧ bitsOf d' = (bitsOf d).set p x := by
  cases x with
  | true => obtain ⟨b, -, -, h1, h2⟩ := Bitmap.set_spec d p; exact ⟨b.data, h1, h2⟩
  | false => obtain ⟨b, -, -, h1, h2⟩ := Bitmap.unset_spec d p; exact ⟨b.data, h1, h2⟩

theorem write_congr {o o' : SObj} (h1 : o.store = o'.store) (h2 : o.off = o'.off) (h3 : o.bits.length = o'.bits.length) (S : Spec) (p : Nat) (x : Bool) :
    write S o p x = write S o' p x := by simp only [write, h1, h2, h3]

/-- Several bits set one after the other. -/
def setL (l : List Bool) (qs : List (Nat × Bool)) : List Bool := qs.foldl (fun l q => l.set q.1 q.2) l

/-- The same, in the storage of an object. -/
def writeL (S : Spec) (o : SObj) (qs : List (Nat × Bool)) : Spec := qs.foldl (fun S q => write S o q.1 q.2) S

theorem writeL_congr {o o' : SObj} (h1 : o.store = o'.store) (h2 : o.off = o'.off) (h3 : o.bits.length = o'.bits.length) (qs : List (Nat × Bool)) :
    ∀ S : Spec, writeL S o qs = writeL S o' qs := by
  induction qs with
  | nil => intro S; rfl
  | cons q qs ih =>
    intro S
    show writeL (write S o q.1 q.2) o qs = writeL (write S o' q.1 q.2) o' qs
    rw [write_congr h1 h2 h3, ih]

theorem writeBack_writeL (qs : List (Nat × Bool)) : ∀ {w : World} (hw : Valid w) {o : Obj} (ho : o ∈ w.objs) {d : List Byte}
    (hd : d.length = o.view.len) (e : bitsOf d = setL (bitsOf (window w.bufs o.view)) qs),
    absW { w with bufs := writeBack w.bufs o.view d } = writeL (absW w) (abs w.bufs o) qs := by
  induction qs with
  | nil =>
    intro w hw o ho d hd e
    have hl : (abs w.bufs o).bits.length = o.view.len * 8 := by simp [abs, Bitmap.bitsOf_length, (hw o ho).length]
    have := writeBack_poke hw ho (q := o.view.len * 8) (x := true) hd (by
      rw [List.set_eq_of_length_le (by simp [Bitmap.bitsOf_length, (hw o ho).length]), e]; rfl)
    rw [this, write, if_neg (by omega)]; rfl
  | cons q qs ih =>
    intro w hw o ho d hd e
    obtain ⟨d1, hl1, e1⟩ := set_bytes (window w.bufs o.view) q.1 q.2
    rw [(hw o ho).length] at hl1
    have h1 := writeBack_poke hw ho hl1 e1
    have hv := writeBack_valid hw ho hl1
    have hw1 := window_writeBack (hw o ho) hl1
    have := ih hv (o := o) ho (d := d) hd (by
      show bitsOf d = setL (bitsOf (window (writeBack w.bufs o.view d1) o.view)) qs
      rw [hw1, e1, e]; rfl)
    rw [h1] at this
    simp only [writeBack_twice (hw o ho) hl1 hd] at this
    rw [this]
    show _ = writeL (write (absW w) (abs w.bufs o) q.1 q.2) (abs w.bufs o) qs
    refine writeL_congr ?_ ?_ ?_ qs _
    · rfl
    · rfl
    · show (bitsOf (window (writeBack w.bufs o.view d1) o.view)).length = (bitsOf (window w.bufs o.view)).length
      rw [hw1, e1, List.length_set]

theorem writes_eq (S : Spec) (o : SObj) (p : Nat) (a b c d e f g h : Bool) : writes S o p [a, b, c, d, e, f, g, h] =
    writeL S o [(p, a), (p + 1, b), (p + 2, c), (p + 3, d), (p + 4, e), (p + 5, f), (p + 6, g), (p + 7, h)] := rfl

theorem writeAll_eq (o : SObj) (ps : List Nat) : ∀ S : Spec, writeAll S o ps = writeL S o (ps.map fun p => (p, true)) := by
  induction ps with
  | nil => intro S; rfl
  | cons p ps ih => intro S; exact ih _

theorem bitsOf_setByte (l : List Byte) (i : Nat) (hi : i < l.length) (x : Byte) : bitsOf (l.set i x) =
    setL (bitsOf l) [(8 * i, x.getLsbD 0), (8 * i + 1, x.getLsbD 1), (8 * i + 2, x.getLsbD 2), (8 * i + 3, x.getLsbD 3),
      (8 * i + 4, x.getLsbD 4), (8 * i + 5, x.getLsbD 5), (8 * i + 6, x.getLsbD 6), (8 * i + 7, x.getLsbD 7)] := by
  apply List.ext_getElem?
  intro j
  have hl := Bitmap.bitsOf_length l
  by_cases c : j / 8 = i
  · have hj : j = 8 * i + j % 8 := by omega
    have h8 : j % 8 < 8 := Nat.mod_lt _ (by omega)
    rw [Bitmap.bitsOf_get, c, List.getElem?_set_self hi]
    simp only [setL, List.foldl, List.getElem?_set, List.length_set, hl]
    generalize j % 8 = r at *
    subst hj
    have : r = 0 ∨ r = 1 ∨ r = 2 ∨ r = 3 ∨ r = 4 ∨ r = 5 ∨ r = 6 ∨ r = 7 := by omega
    rcases this with h | h | h | h | h | h | h | h <;> subst h <;> simp <;> omega
  · rw [Bitmap.bitsOf_get, List.getElem?_set_ne (fun h => c h.symm), ← Bitmap.bitsOf_get]
    simp only [setL, List.foldl]
    repeat rw [List.getElem?_set_ne (by omega)]

/-! ### Filters -/

variable {H : List Byte → List Byte}

theorem addLoop_bits {m : Nat} (hm : 0 < m) : ∀ (xs : List Nat) (d : List Byte),
    ∃ d', addLoop m xs ⟨d, d.length * 8⟩ = .ok ⟨d', d'.length * 8⟩ ∧ d'.length = d.length ∧
      bitsOf d' = setL (bitsOf d) ((xs.map (· % m)).map fun p => (p, true)) := by
  intro xs
  induction xs with
  | nil => intro d; exact ⟨d, rfl, rfl, rfl⟩
  | cons x xs ih =>
    intro d
    obtain ⟨b, e1, h1, l1, s1⟩ := Bitmap.set_spec d (x % m)
    obtain ⟨d', e2, l2, s2⟩ := ih b.data
    have : ¬ m = 0 := by omega
    refine ⟨d', ?_, by omega, ?_⟩
    · simp only [addLoop, modM, this, if_false, Res.ok_bind, e1]
      rw [h1]; exact e2
    · rw [s2, s1]; rfl

theorem containsLoop_bits {m : Nat} (hm : 0 < m) (d : List Byte) : ∀ (xs : List Nat),
    containsLoop m ⟨d, d.length * 8⟩ xs = .ok ((xs.map (· % m)).all fun p => (bitsOf d)[p]? == some true) := by
  intro xs
  induction xs with
  | nil => rfl
  | cons x xs ih =>
    have : ¬ m = 0 := by omega
    simp only [containsLoop, modM, this, if_false, Res.ok_bind, Bitmap.isSet_spec, ih, List.map_cons, List.all_cons]
    cases ((bitsOf d)[x % m]? == some true) <;> simp

theorem gen_list (hH : GoodHash H) (seed : List Byte) (n : Nat) : genHashInts H seed n =
    .ok ((List.range n).map fun i => ((words (H seed))[i % (words (H seed)).length]?).getD 0) := by
  obtain ⟨xs, e, hl, h⟩ := gen_spec hH seed n
  rw [e]
  congr 1
  apply List.ext_getElem?
  intro i
  by_cases c : i < n
  · rw [h i c]
    have hne := words_ne hH seed
    have : i % (words (H seed)).length < (words (H seed)).length := Nat.mod_lt _ (List.length_pos_iff.2 hne)
    simp [List.getElem?_range c, List.getElem?_eq_getElem this]
  · rw [List.getElem?_eq_none (by omega), List.getElem?_eq_none (by simp; omega)]

theorem gen_huge {k : Nat} (hk : 2 ^ 63 ≤ k) (hk' : k < 2 ^ 64) (s : List Byte) : genHashInts H s (toInt k) = .panic := by
  have e1 : toInt k < 0 := by
    unfold toInt
    rw [if_neg (by omega)]
    omega
  have h0 : (toInt k).toNat = 0 := by omega
  simp only [genHashInts, h0, genLoop, List.length_nil]
  rw [if_neg (by omega), Res.ok_bind, if_neg (by omega)]

theorem add_bits (hH : GoodHash H) {m k : Nat} (hk : k < 2 ^ 64) (d : List Byte) (x : List Byte) :
    (positions H m k x = .panic ∧ add H ⟨m, k, ⟨d, d.length * 8⟩⟩ x = .panic ∧ contains H ⟨m, k, ⟨d, d.length * 8⟩⟩ x = .panic) ∨
    ∃ ps d', positions H m k x = .ok ps ∧ add H ⟨m, k, ⟨d, d.length * 8⟩⟩ x = .ok ⟨m, k, ⟨d', d'.length * 8⟩⟩ ∧ d'.length = d.length ∧
      bitsOf d' = setL (bitsOf d) (ps.map fun p => (p, true)) ∧
      contains H ⟨m, k, ⟨d, d.length * 8⟩⟩ x = .ok (ps.all fun p => (bitsOf d)[p]? == some true) := by
  by_cases c : 2 ^ 63 ≤ k
  · left
    refine ⟨by rw [positions, if_pos (Or.inl c)], ?_, ?_⟩
    · simp only [add, gen_huge c hk, Res.panic_bind]
    · simp only [contains, gen_huge c hk, Res.panic_bind]
  · have hg := gen_list hH (salt ++ x) k
    have ht : toInt k = k := toInt_small (by omega)
    by_cases c2 : m = 0
    · subst c2
      by_cases c3 : 0 < k
      · left
        refine ⟨by rw [positions, if_pos (Or.inr ⟨rfl, c3⟩)], ?_, ?_⟩
        · simp only [add, ht, hg, Res.ok_bind]
          obtain ⟨k, rfl⟩ : ∃ k', k = k' + 1 := ⟨k - 1, by omega⟩
          rw [List.range_succ_eq_map]; rfl
        · simp only [contains, ht, hg, Res.ok_bind]
          obtain ⟨k, rfl⟩ : ∃ k', k = k' + 1 := ⟨k - 1, by omega⟩
          rw [List.range_succ_eq_map]; rfl
      · right
        have hk0 : k = 0 := by omega
        subst hk0
        refine ⟨[], d, by rw [positions, if_neg (by omega)]; rfl, ?_, rfl, rfl, ?_⟩
        · simp only [add, ht, hg, Res.ok_bind]; rfl
        · simp only [contains, ht, hg, Res.ok_bind]; rfl
    · right
      have hm : 0 < m := by omega
      obtain ⟨d', e1, e2, e3⟩ := addLoop_bits hm ((List.range k).map fun i => ((words (H (salt ++ x)))[i % (words (H (salt ++ x))).length]?).getD 0) d
      refine ⟨_, d', by rw [positions, if_neg (by omega)], ?_, e2, ?_, ?_⟩
      · simp only [add, ht, hg, Res.ok_bind, e1]
      · rw [e3]; simp only [List.map_map]; rfl
      · simp only [contains, ht, hg, Res.ok_bind]
        rw [containsLoop_bits hm, List.map_map]; rfl

/-! ### Numbers -/

theorem num_append (a b : List Bool) : num (a ++ b) = num a + 2 ^ a.length * num b := by
  induction a with
  | nil => simp [num]
  | cons x a ih => simp only [List.cons_append, num, ih, List.length_cons, Nat.pow_succ]; ring

theorem num_byte (d : Byte) : num (bitsOf1 d) = d.toNat := by
  revert d; decide

theorem num_bytes (ds : List Byte) : num (bitsOf ds) = unle8 ds := by
  induction ds with
  | nil => rfl
  | cons d ds ih =>
    have : 2 ^ (bitsOf1 d).length = 256 := by simp [bitsOf1]
    rw [bitsOf, num_append, num_byte, ih, unle8, this]

theorem unle8_lt (ds : List Byte) : unle8 ds < 256 ^ ds.length := by
  induction ds with
  | nil => simp [unle8]
  | cons d ds ih =>
    have := d.isLt
    rw [unle8, List.length_cons, Nat.pow_succ]; omega

theorem bits_le8 (n : Nat) : bitsOf (le8 n) = numBits 64 n := by
  simp only [le8, bitsOf, bitsOf1, numBits, List.append_nil, List.cons_append, List.nil_append, BitVec.getLsbD_ofNat, Nat.testBit_div_two_pow]
  rfl

/-! ### The steps -/

/-- The same result, and the states agree. -/
inductive Agree : Res (Out × World) → Res (SpecOut × Spec) → Prop
  | ok {o : Out} {w : World} {S : Spec} : Valid w → S = absW w → Agree (.ok (o, w)) (.ok (o.toSpec, S))
  | panic : Agree .panic .panic

theorem addNew_ok {w : World} (hw : Valid w) (kind : Kind) (d : List Byte) (size : Nat) (hs : kind ≠ .slice → size = d.length * 8)
    (hk : ∀ m k, kind = .filter m k → k < 2 ^ 64) : Valid (addNew w kind d size) ∧ absW (addNew w kind d size) = (absW w).own kind (bitsOf d) := by
  have old : ∀ o ∈ w.objs, Fits (w.bufs ++ [d]) o ∧ abs (w.bufs ++ [d]) o = abs w.bufs o := by
    intro o ho
    obtain ⟨b, e, hl⟩ := (hw o ho).view
    have hlt : o.view.buf < w.bufs.length := (List.getElem?_eq_some_iff.1 e).1
    have e' : (w.bufs ++ [d])[o.view.buf]? = w.bufs[o.view.buf]? := List.getElem?_append_left hlt
    exact ⟨⟨⟨b, by rw [e', e], hl⟩, (hw o ho).size, (hw o ho).k⟩, by simp only [abs, window, e']⟩
  constructor
  · intro o ho
    rcases List.mem_append.1 ho with ho | ho
    · exact (old o ho).1
    · rw [List.mem_singleton] at ho
      subst ho
      exact ⟨⟨d, by simp [addNew], by simp⟩, hs, hk⟩
  · simp only [absW, addNew, Spec.own, List.map_append, List.map_cons, List.map_nil, List.length_append, List.length_singleton, Spec.mk.injEq, and_true]
    congr 1
    · exact List.map_congr_left fun o ho => (old o ho).2
    · simp [abs, window]

theorem renew_ok {w : World} (hw : Valid w) (h : Nat) (kind : Kind) (d : List Byte) (size : Nat) (hs : kind ≠ .slice → size = d.length * 8)
    (hk : ∀ m k, kind = .filter m k → k < 2 ^ 64) : Valid (renew w h kind d size) ∧ absW (renew w h kind d size) = (absW w).reown h kind (bitsOf d) := by
  have old : ∀ o ∈ w.objs, Fits (w.bufs ++ [d]) o ∧ abs (w.bufs ++ [d]) o = abs w.bufs o := by
    intro o ho
    obtain ⟨b, e, hl⟩ := (hw o ho).view
    have hlt : o.view.buf < w.bufs.length := (List.getElem?_eq_some_iff.1 e).1
    have e' : (w.bufs ++ [d])[o.view.buf]? = w.bufs[o.view.buf]? := List.getElem?_append_left hlt
    exact ⟨⟨⟨b, by rw [e', e], hl⟩, (hw o ho).size, (hw o ho).k⟩, by simp only [abs, window, e']⟩
  constructor
  · intro o ho
    rcases List.mem_or_eq_of_mem_set ho with ho | ho
    · exact (old o ho).1
    · subst ho
      exact ⟨⟨d, by simp [renew], by simp⟩, hs, hk⟩
  · simp only [absW, renew, Spec.reown, List.map_set, List.length_append, List.length_singleton, Spec.mk.injEq, and_true]
    congr 1
    · exact List.map_congr_left fun o ho => (old o ho).2
    · simp [abs, window]

theorem share_ok {w : World} (hw : Valid w) {o : Obj} (ho : Fits w.bufs o) :
    Valid { w with objs := w.objs ++ [o] } ∧ absW { w with objs := w.objs ++ [o] } = (absW w).share (abs w.bufs o) := by
  constructor
  · intro o' ho'
    rcases List.mem_append.1 ho' with h | h
    · exact hw o' h
    · rw [List.mem_singleton] at h; subst h; exact ho
  · simp [absW, Spec.share]

theorem find_abs (w : World) (h : Nat) : (absW w).find h = (match w.objs[h]? with | some o => .ok (abs w.bufs o) | none => .panic) := by
  simp only [Spec.find, absW, List.getElem?_map]
  cases w.objs[h]? <;> rfl

theorem slice_cases (w : World) (h : Nat) : (getSlice w h = .panic ∧ (absW w).slice h = .panic) ∨
    ∃ o, o ∈ w.objs ∧ o.kind = .slice ∧ getSlice w h = .ok o.view ∧ (absW w).slice h = .ok (abs w.bufs o) := by
  simp only [getSlice, Spec.slice, find_abs]
  cases e : w.objs[h]? with
  | none => left; exact ⟨rfl, rfl⟩
  | some o =>
    obtain ⟨kind, v, n⟩ := o
    cases kind with
    | slice => right; exact ⟨_, List.mem_of_getElem? e, rfl, rfl, by simp [abs]⟩
    | bitmap => left; exact ⟨rfl, by simp [abs]⟩
    | filter m k => left; exact ⟨rfl, by simp [abs]⟩

theorem bitmap_cases {w : World} (hw : Valid w) (h : Nat) : (getBitmap w h = .panic ∧ (absW w).bitmap h = .panic) ∨
    ∃ o, o ∈ w.objs ∧ o.kind = .bitmap ∧ getBitmap w h = .ok (o.view, ⟨window w.bufs o.view, (window w.bufs o.view).length * 8⟩) ∧ (absW w).bitmap h = .ok (abs w.bufs o) := by
  simp only [getBitmap, Spec.bitmap, find_abs]
  cases e : w.objs[h]? with
  | none => left; exact ⟨rfl, rfl⟩
  | some o =>
    have hf := hw o (List.mem_of_getElem? e)
    obtain ⟨kind, v, n⟩ := o
    cases kind with
    | bitmap =>
      right
      have h1 := hf.size (by simp)
      have h2 := hf.length
      simp only at h1 h2
      exact ⟨_, List.mem_of_getElem? e, rfl, by simp only [h1, h2], by simp [abs]⟩
    | slice => left; exact ⟨rfl, by simp [abs]⟩
    | filter m k => left; exact ⟨rfl, by simp [abs]⟩

theorem filter_cases {w : World} (hw : Valid w) (h : Nat) : (getFilter w h = .panic ∧ (absW w).filter h = .panic) ∨
    ∃ o m k, o ∈ w.objs ∧ o.kind = .filter m k ∧ k < 2 ^ 64 ∧
      getFilter w h = .ok (o.view, ⟨m, k, ⟨window w.bufs o.view, (window w.bufs o.view).length * 8⟩⟩) ∧ (absW w).filter h = .ok (m, k, abs w.bufs o) := by
  simp only [getFilter, Spec.filter, find_abs]
  cases e : w.objs[h]? with
  | none => left; exact ⟨rfl, rfl⟩
  | some o =>
    have hf := hw o (List.mem_of_getElem? e)
    obtain ⟨kind, v, n⟩ := o
    cases kind with
    | filter m k =>
      right
      have h1 := hf.size (by simp)
      have h2 := hf.length
      simp only at h1 h2
      exact ⟨_, m, k, List.mem_of_getElem? e, rfl, hf.k m k rfl, by simp only [h1, h2], by simp [abs]⟩
    | slice => left; exact ⟨rfl, by simp [abs]⟩
    | bitmap => left; exact ⟨rfl, by simp [abs]⟩

theorem abs_length {w : World} (hw : Valid w) {o : Obj} (ho : o ∈ w.objs) : (abs w.bufs o).bits.length = o.view.len * 8 := by
  simp [abs, Bitmap.bitsOf_length, (hw o ho).length]

theorem step_refines (hH : GoodHash H) {w : World} (hw : Valid w) (op : Op) : Agree (step H op w) (specStep H op (absW w)) := by
  cases op with
  | mk d =>
    have := addNew_ok hw .slice d 0 (by simp) (by simp)
    exact .ok this.1 this.2.symm
  | sub h a b =>
    rcases slice_cases w h with ⟨e1, e2⟩ | ⟨o, ho, hk, e1, e2⟩
    · simp only [step, specStep, e1, e2, Res.panic_bind]; exact .panic
    · simp only [step, specStep, e1, e2, Res.ok_bind, abs_length hw ho]
      obtain ⟨d, ed, hl⟩ := (hw o ho).view
      by_cases c : a ≤ b ∧ b ≤ o.view.len
      · rw [if_pos c, if_pos (by omega)]
        have := share_ok hw (o := ⟨.slice, ⟨o.view.buf, o.view.off + a, b - a⟩, 0⟩) ⟨⟨d, ed, by simp only; omega⟩, by simp, by simp⟩
        refine Agree.ok (o := .unit) this.1 ?_
        rw [this.2]
        congr 1
        simp only [abs, bitsOf_window, List.drop_take, List.drop_drop, List.take_take, SObj.mk.injEq, true_and]
        refine ⟨by omega, ?_⟩
        have h1 : (o.view.off + a) * 8 = o.view.off * 8 + 8 * a := by omega
        have h2 : min (8 * (b - a)) (o.view.len * 8 - 8 * a) = (b - a) * 8 := by omega
        rw [h1, h2]
      · rw [if_neg c, if_neg (by omega)]; exact .panic
  | put h i x =>
    rcases slice_cases w h with ⟨e1, e2⟩ | ⟨o, ho, hk, e1, e2⟩
    · simp only [step, specStep, e1, e2, Res.panic_bind]; exact .panic
    · simp only [step, specStep, e1, e2, Res.ok_bind, abs_length hw ho]
      by_cases c : i < o.view.len
      · rw [if_pos c, if_pos (by omega)]
        have hl : ((window w.bufs o.view).set i x).length = o.view.len := by rw [List.length_set, (hw o ho).length]
        refine Agree.ok (o := .unit) (writeBack_valid hw ho hl) ?_
        rw [writeBack_writeL _ hw ho hl (bitsOf_setByte _ i (by rw [(hw o ho).length]; exact c) x)]
        rfl
      · rw [if_neg c, if_neg (by omega)]; exact .panic
  | bytes h =>
    rcases slice_cases w h with ⟨e1, e2⟩ | ⟨o, ho, hk, e1, e2⟩
    · simp only [step, specStep, e1, e2, Res.panic_bind]; exact .panic
    · simp only [step, specStep, e1, e2, Res.ok_bind]
      exact Agree.ok (o := .bytes _) hw rfl
  | bNew n =>
    have := addNew_ok hw .bitmap (Bitmap.new n).data (Bitmap.new n).size (by simp [Bitmap.new, Bitmap.roundUp_mul]) (by simp)
    refine Agree.ok (o := .unit) this.1 ?_
    rw [this.2]
    simp only [Bitmap.new, Bitmap.bitsOf_zero, Bitmap.roundUp_mul]
  | bFrom h =>
    rcases slice_cases w h with ⟨e1, e2⟩ | ⟨o, ho, hk, e1, e2⟩
    · simp only [step, specStep, e1, e2, Res.panic_bind]; exact .panic
    · simp only [step, specStep, e1, e2, Res.ok_bind]
      have := share_ok hw (o := ⟨.bitmap, o.view, (Bitmap.newFromData (window w.bufs o.view)).size⟩)
        ⟨(hw o ho).view, fun _ => by simp only [Bitmap.newFromData, (hw o ho).length], by simp⟩
      refine Agree.ok (o := .unit) this.1 ?_
      rw [this.2]; rfl
  | bSet h p =>
    rcases bitmap_cases hw h with ⟨e1, e2⟩ | ⟨o, ho, hk, e1, e2⟩
    · simp only [step, specStep, e1, e2, Res.panic_bind]; exact .panic
    · obtain ⟨b, e3, e4, e5, e6⟩ := Bitmap.set_spec (window w.bufs o.view) p
      simp only [step, specStep, e1, e2, e3, Res.ok_bind]
      have hl : b.data.length = o.view.len := by rw [e5, (hw o ho).length]
      refine Agree.ok (o := .bool _) (writeBack_valid hw ho hl) ?_
      rw [writeBack_poke hw ho hl e6]
  | bUnset h p =>
    rcases bitmap_cases hw h with ⟨e1, e2⟩ | ⟨o, ho, hk, e1, e2⟩
    · simp only [step, specStep, e1, e2, Res.panic_bind]; exact .panic
    · obtain ⟨b, e3, e4, e5, e6⟩ := Bitmap.unset_spec (window w.bufs o.view) p
      simp only [step, specStep, e1, e2, e3, Res.ok_bind]
      have hl : b.data.length = o.view.len := by rw [e5, (hw o ho).length]
      refine Agree.ok (o := .bool _) (writeBack_valid hw ho hl) ?_
      rw [writeBack_poke hw ho hl e6]
  | bIsSet h p =>
    rcases bitmap_cases hw h with ⟨e1, e2⟩ | ⟨o, ho, hk, e1, e2⟩
    · simp only [step, specStep, e1, e2, Res.panic_bind]; exact .panic
    · simp only [step, specStep, e1, e2, Bitmap.isSet_spec, Res.ok_bind]
      exact Agree.ok (o := .bool _) hw rfl
  | bResize h n =>
    rcases bitmap_cases hw h with ⟨e1, e2⟩ | ⟨o, ho, hk, e1, e2⟩
    · simp only [step, specStep, e1, e2, Res.panic_bind]; exact .panic
    · simp only [step, specStep, e1, e2, Res.ok_bind, abs_length hw ho, (hw o ho).length]
      by_cases c : o.view.len * 8 = Bitmap.roundUp n
      · simp only [Bitmap.resize, c, if_true, resizeObj]
        exact Agree.ok (o := .unit) hw rfl
      · simp only [Bitmap.resize, c, if_false, resizeObj, if_true]
        have := renew_ok hw h .bitmap (Bitmap.resized (window w.bufs o.view) (Bitmap.roundUp n / 8)) (Bitmap.roundUp n)
          (by intro _; rw [Bitmap.resized_length, Bitmap.roundUp_mul]) (by simp)
        refine Agree.ok (o := .unit) this.1 ?_
        rw [this.2, Bitmap.bitsOf_resized, Bitmap.roundUp_mul]; rfl
  | bClear h =>
    rcases bitmap_cases hw h with ⟨e1, e2⟩ | ⟨o, ho, hk, e1, e2⟩
    · simp only [step, specStep, e1, e2, Res.panic_bind]; exact .panic
    · simp only [step, specStep, e1, e2, Res.ok_bind, abs_length hw ho, (hw o ho).length]
      have h8 : o.view.len * 8 / 8 = o.view.len := by omega
      have := renew_ok hw h .bitmap (List.replicate (o.view.len * 8 / 8) 0) (o.view.len * 8) (by intro _; rw [List.length_replicate, h8]) (by simp)
      refine Agree.ok (o := .unit) this.1 ?_
      simp only [Bitmap.clear]
      rw [this.2, Bitmap.bitsOf_zero, h8]
  | bSize h =>
    rcases bitmap_cases hw h with ⟨e1, e2⟩ | ⟨o, ho, hk, e1, e2⟩
    · simp only [step, specStep, e1, e2, Res.panic_bind]; exact .panic
    · simp only [step, specStep, e1, e2, Res.ok_bind, abs_length hw ho, (hw o ho).length]
      exact Agree.ok (o := .int _) hw rfl
  | bData h =>
    rcases bitmap_cases hw h with ⟨e1, e2⟩ | ⟨o, ho, hk, e1, e2⟩
    · simp only [step, specStep, e1, e2, Res.panic_bind]; exact .panic
    · simp only [step, specStep, e1, e2, Res.ok_bind]
      have := share_ok hw (o := ⟨.slice, o.view, 0⟩) ⟨(hw o ho).view, by simp, by simp⟩
      refine Agree.ok (o := .unit) this.1 ?_
      rw [this.2]; rfl
  | fNew m k =>
    have := addNew_ok hw (.filter m.toNat k.toNat) (new m.toNat k.toNat).b.data (new m.toNat k.toNat).b.size
      (by simp [new, Bitmap.new, Bitmap.roundUp_mul]) (by intro m' k' e; cases e; exact k.isLt)
    refine Agree.ok (o := .unit) this.1 ?_
    rw [this.2]
    simp only [new, Bitmap.new, Bitmap.bitsOf_zero, Bitmap.roundUp_mul]
  | fFrom h =>
    rcases slice_cases w h with ⟨e1, e2⟩ | ⟨o, ho, hk, e1, e2⟩
    · simp only [step, specStep, e1, e2, Res.panic_bind]; exact .panic
    · simp only [step, specStep, e1, e2, Res.ok_bind, abs_length hw ho, newFromData, (hw o ho).length]
      obtain ⟨d, ed, hl⟩ := (hw o ho).view
      by_cases c : o.view.len < 16
      · rw [if_pos c, if_pos (by omega)]; exact .panic
      · rw [if_neg c, if_neg (by omega)]
        simp only [Res.ok_bind]
        have := share_ok hw (o := ⟨.filter (unle8 ((window w.bufs o.view).take 8)) (unle8 (((window w.bufs o.view).drop 8).take 8)),
          ⟨o.view.buf, o.view.off + 16, o.view.len - 16⟩, (Bitmap.newFromData ((window w.bufs o.view).drop 16)).size⟩)
          ⟨⟨d, ed, by simp only; omega⟩, by intro _; simp only [Bitmap.newFromData, List.length_drop, (hw o ho).length],
            by
              intro m k e
              cases e
              refine Nat.lt_of_lt_of_le (unle8_lt _) ?_
              rw [List.length_take, List.length_drop, (hw o ho).length, Nat.min_eq_left (by omega)]
              decide⟩
        refine Agree.ok (o := .unit) this.1 ?_
        rw [this.2]
        congr 1
        simp only [abs, ← num_bytes, Bitmap.bitsOf_take, bitsOf_drop, bitsOf_window, List.drop_take, List.drop_drop, SObj.mk.injEq, true_and]
        refine ⟨by omega, ?_⟩
        have h1 : (o.view.off + 16) * 8 = o.view.off * 8 + 128 := by omega
        have h2 : (o.view.len - 16) * 8 = o.view.len * 8 - 128 := by omega
        rw [h1, h2]
  | fAdd h x =>
    rcases filter_cases hw h with ⟨e1, e2⟩ | ⟨o, m, k, ho, hk, hk', e1, e2⟩
    · simp only [step, specStep, e1, e2, Res.panic_bind]; exact .panic
    · simp only [step, specStep, e1, e2, Res.ok_bind]
      rcases add_bits hH (m := m) hk' (window w.bufs o.view) x with ⟨a1, a2, a3⟩ | ⟨ps, d', a1, a2, a3, a4, a5⟩
      · simp only [a1, a2, Res.panic_bind]; exact .panic
      · simp only [a1, a2, Res.ok_bind]
        have hl : d'.length = o.view.len := by rw [a3, (hw o ho).length]
        refine Agree.ok (o := .unit) (writeBack_valid hw ho hl) ?_
        rw [writeBack_writeL _ hw ho hl a4, writeAll_eq]
  | fContains h x =>
    rcases filter_cases hw h with ⟨e1, e2⟩ | ⟨o, m, k, ho, hk, hk', e1, e2⟩
    · simp only [step, specStep, e1, e2, Res.panic_bind]; exact .panic
    · simp only [step, specStep, e1, e2, Res.ok_bind]
      rcases add_bits hH (m := m) hk' (window w.bufs o.view) x with ⟨a1, a2, a3⟩ | ⟨ps, d', a1, a2, a3, a4, a5⟩
      · simp only [a1, a3, Res.panic_bind]; exact .panic
      · simp only [a1, a5, Res.ok_bind]
        exact Agree.ok (o := .bool _) hw rfl
  | fData h =>
    rcases filter_cases hw h with ⟨e1, e2⟩ | ⟨o, m, k, ho, hk, hk', e1, e2⟩
    · simp only [step, specStep, e1, e2, Res.panic_bind]; exact .panic
    · simp only [step, specStep, e1, e2, Res.ok_bind]
      have := addNew_ok hw .slice (data ⟨m, k, ⟨window w.bufs o.view, (window w.bufs o.view).length * 8⟩⟩) 0 (by simp) (by simp)
      refine Agree.ok (o := .unit) this.1 ?_
      rw [this.2]
      simp only [data, Bitmap.bitsOf_append, bits_le8]; rfl

/-! ## Theorems -/

/-- What a run returned, or how it ended. -/
def outs : Res (List Out × World) → Res (List SpecOut)
  | .ok (a, _) => .ok (a.map Bitmap.Out.toSpec)
  | .panic => .panic
  | .outOfFuel => .outOfFuel

/-- The results of a program on the specification. -/
def specOuts : Res (List SpecOut × Spec) → Res (List SpecOut)
  | .ok (a, _) => .ok a
  | .panic => .panic
  | .outOfFuel => .outOfFuel

theorem run_refines (hH : GoodHash H) (ops : List Op) : ∀ {w : World}, Valid w → outs (run H ops w) = specOuts (specRun H ops (absW w)) := by
  induction ops with
  | nil => intro w _; rfl
  | cons op ops ih =>
    intro w hw
    have := step_refines hH hw op
    simp only [run, specRun]
    revert this
    generalize step H op w = a
    generalize specStep H op (absW w) = b
    intro this
    cases this with
    | panic => rfl
    | ok hv e =>
      have := ih hv
      subst e
      simp only [Res.ok_bind]
      revert this
      generalize run H ops _ = a
      generalize specRun H ops _ = b
      intro this
      cases a <;> cases b <;> simp_all [outs, specOuts]

/-- **C85** For every program that makes slices, bitmaps and Bloom filters, passes slices to `NewFromData`, takes slices out with `Data`, and writes through any
of them in any order, every result (and every panic) is that of rows of bits in which exactly these objects are parts of one storage: a bitmap and the slice it was
made from, a bitmap and the slices its `Data` returned before its next `Clear` or change of size, a filter and the slice from byte 16 on that it was made from,
and slices of each of these. `BloomFilter.Data`, `New`, `Clear` and a `Resize` to another size make a storage of their own. -/
theorem C85_slices (hH : GoodHash H) (ops : List Op) : outs (run H ops start) = specOuts (specRun H ops ⟨[], 0⟩) :=
  run_refines hH ops (w := start) (by intro o ho; simp [start] at ho)

/-- The ops with which a program can make a bit false that another object shows. -/
def Op.clears : Op → Bool
  | .put _ _ _ => true
  | .bUnset _ _ => true
  | _ => false

/-- Object `o'` is `o` with perhaps more bits true. -/
structure More (o o' : SObj) : Prop where
  kind : o'.kind = o.kind
  len : o'.bits.length = o.bits.length
  bits : ∀ p : Nat, o.bits[p]? = some true → o'.bits[p]? = some true

theorem More.refl (o : SObj) : More o o := ⟨rfl, rfl, fun _ h => h⟩

theorem More.trans {a b c : SObj} (h1 : More a b) (h2 : More b c) : More a c :=
  ⟨h2.kind.trans h1.kind, h2.len.trans h1.len, fun p h => h2.bits p (h1.bits p h)⟩

theorem write_more (S : Spec) (o : SObj) (p h : Nat) {f : SObj} (e : S.objs[h]? = some f) :
    ∃ f', (write S o p true).objs[h]? = some f' ∧ More f f' := by
  unfold write
  split
  · refine ⟨poke1 o.store (o.off + p) true f, by simp [poke, e], ?_⟩
    unfold poke1
    split
    · refine ⟨rfl, by simp, fun q hq => ?_⟩
      simp only [List.getElem?_set]
      obtain ⟨hlt, hv⟩ := List.getElem?_eq_some_iff.1 hq
      split
      · rw [if_pos (by omega)]
      · exact hq
    · exact .refl f
  · exact ⟨f, e, .refl f⟩

theorem writeAll_more (o : SObj) (ps : List Nat) : ∀ (S : Spec) {h : Nat} {f : SObj}, S.objs[h]? = some f →
    ∃ f', (writeAll S o ps).objs[h]? = some f' ∧ More f f' := by
  induction ps with
  | nil => intro S h f e; exact ⟨f, e, .refl f⟩
  | cons p ps ih =>
    intro S h f e
    obtain ⟨f1, e1, m1⟩ := write_more S o p h e
    obtain ⟨f2, e2, m2⟩ := ih _ e1
    exact ⟨f2, e2, m1.trans m2⟩

theorem append_more {l : List SObj} {h : Nat} {f : SObj} (x : SObj) (e : l[h]? = some f) : ∃ f', (l ++ [x])[h]? = some f' ∧ More f f' :=
  ⟨f, by rw [List.getElem?_append_left (List.getElem?_eq_some_iff.1 e).1, e], .refl f⟩

theorem reown_more {S : Spec} {h h' : Nat} {f o : SObj} {m k : Nat} (hf : f.kind = .filter m k) (hb : S.bitmap h' = .ok o) (kind : Kind) (bits : List Bool)
    (e : S.objs[h]? = some f) : ∃ f', (S.reown h' kind bits).objs[h]? = some f' ∧ More f f' := by
  refine ⟨f, ?_, .refl f⟩
  have hne : ¬ h' = h := by
    intro c
    subst c
    simp only [Spec.bitmap, Spec.find, e, Res.ofOption_some, Res.ok_bind, hf] at hb
    cases hb
  simp [Spec.reown, List.getElem?_set, hne, e]

theorem step_more {op : Op} (hc : op.clears = false) {S S' : Spec} {out : SpecOut} (hs : specStep H op S = .ok (out, S')) {h : Nat} {f : SObj} {m k : Nat}
    (hf : f.kind = .filter m k) (e : S.objs[h]? = some f) : ∃ f', S'.objs[h]? = some f' ∧ More f f' := by
  cases op with
  | put h' i x => cases hc
  | bUnset h' p => cases hc
  | mk d => cases hs; exact append_more _ e
  | sub h' a b =>
    simp only [specStep] at hs; rw [Res.bind_eq_ok] at hs; obtain ⟨o, e1, hs⟩ := hs
    split at hs
    · cases hs; exact append_more _ e
    · cases hs
  | bytes h' => simp only [specStep] at hs; rw [Res.bind_eq_ok] at hs; obtain ⟨o, e1, hs⟩ := hs; cases hs; exact ⟨f, e, .refl f⟩
  | bNew n => cases hs; exact append_more _ e
  | bFrom h' => simp only [specStep] at hs; rw [Res.bind_eq_ok] at hs; obtain ⟨o, e1, hs⟩ := hs; cases hs; exact append_more _ e
  | bSet h' p => simp only [specStep] at hs; rw [Res.bind_eq_ok] at hs; obtain ⟨o, e1, hs⟩ := hs; cases hs; exact write_more S o p h e
  | bIsSet h' p => simp only [specStep] at hs; rw [Res.bind_eq_ok] at hs; obtain ⟨o, e1, hs⟩ := hs; cases hs; exact ⟨f, e, .refl f⟩
  | bResize h' n =>
    simp only [specStep] at hs; rw [Res.bind_eq_ok] at hs; obtain ⟨o, e1, hs⟩ := hs; cases hs
    split
    · exact ⟨f, e, .refl f⟩
    · exact reown_more hf e1 _ _ e
  | bClear h' =>
    simp only [specStep] at hs; rw [Res.bind_eq_ok] at hs; obtain ⟨o, e1, hs⟩ := hs; cases hs
    exact reown_more hf e1 _ _ e
  | bSize h' => simp only [specStep] at hs; rw [Res.bind_eq_ok] at hs; obtain ⟨o, e1, hs⟩ := hs; cases hs; exact ⟨f, e, .refl f⟩
  | bData h' => simp only [specStep] at hs; rw [Res.bind_eq_ok] at hs; obtain ⟨o, e1, hs⟩ := hs; cases hs; exact append_more _ e
  | fNew m k => cases hs; exact append_more _ e
  | fFrom h' =>
    simp only [specStep] at hs; rw [Res.bind_eq_ok] at hs; obtain ⟨o, e1, hs⟩ := hs
    split at hs
    · cases hs
    · cases hs; exact append_more _ e
  | fAdd h' x =>
    simp only [specStep] at hs; rw [Res.bind_eq_ok] at hs; obtain ⟨⟨m', k', o⟩, e1, hs⟩ := hs
    simp only at hs; rw [Res.bind_eq_ok] at hs; obtain ⟨ps, e2, hs⟩ := hs; cases hs
    exact writeAll_more o ps S e
  | fContains h' x =>
    simp only [specStep] at hs; rw [Res.bind_eq_ok] at hs; obtain ⟨⟨m', k', o⟩, e1, hs⟩ := hs
    simp only at hs; rw [Res.bind_eq_ok] at hs; obtain ⟨ps, e2, hs⟩ := hs; cases hs
    exact ⟨f, e, .refl f⟩
  | fData h' =>
    simp only [specStep] at hs; rw [Res.bind_eq_ok] at hs; obtain ⟨⟨m', k', o⟩, e1, hs⟩ := hs
    cases hs; exact append_more _ e

theorem run_more (ops : List Op) (hc : ∀ op ∈ ops, op.clears = false) : ∀ {S S' : Spec} {os : List SpecOut}, specRun H ops S = .ok (os, S') →
    ∀ {h : Nat} {f : SObj} {m k : Nat}, f.kind = .filter m k → S.objs[h]? = some f → ∃ f', S'.objs[h]? = some f' ∧ More f f' := by
  induction ops with
  | nil => intro S S' os e h f m k _ hf; cases e; exact ⟨f, hf, .refl f⟩
  | cons op ops ih =>
    intro S S' os e h f m k hk hf
    simp only [specRun] at e
    rw [Res.bind_eq_ok] at e; obtain ⟨⟨o, S1⟩, e1, e⟩ := e
    simp only at e
    rw [Res.bind_eq_ok] at e; obtain ⟨⟨os', S2⟩, e2, e⟩ := e
    cases e
    obtain ⟨f1, h1, m1⟩ := step_more (hc op (by simp)) e1 hk hf
    obtain ⟨f2, h2, m2⟩ := ih (fun o ho => hc o (by simp [ho])) e2 (m1.kind.trans hk) h1
    exact ⟨f2, h2, m1.trans m2⟩

/-- Every position that is true stays true, and the written ones become true. -/
theorem writeAll_own (f o : SObj) (hs : o.store = f.store) (ho : o.off = f.off) (hl : o.bits.length = f.bits.length) (ps : List Nat) :
    ∀ (S : Spec) {h : Nat} {f0 : SObj}, f0.store = f.store → f0.off = f.off → f0.bits.length = f.bits.length → S.objs[h]? = some f0 →
    ∃ f', (writeAll S o ps).objs[h]? = some f' ∧ ∀ p ∈ ps, p < f.bits.length → f'.bits[p]? = some true := by
  induction ps with
  | nil => intro S h f0 _ _ _ e; exact ⟨f0, e, by simp⟩
  | cons p ps ih =>
    intro S h f0 h1 h2 h3 e
    have e1 : ∃ f1, (write S o p true).objs[h]? = some f1 ∧ f1.store = f.store ∧ f1.off = f.off ∧ f1.bits.length = f.bits.length ∧
        (p < f.bits.length → f1.bits[p]? = some true) := by
      unfold write
      split
      · rename_i c
        refine ⟨poke1 o.store (o.off + p) true f0, by simp [poke, e], ?_⟩
        have : f0.store = o.store ∧ f0.off ≤ o.off + p := ⟨by rw [h1, hs], by omega⟩
        rw [poke1, if_pos this]
        have h4 : o.off + p - f0.off = p := by omega
        refine ⟨h1, h2, by simp [h3], fun hp => ?_⟩
        simp only [h4]
        rw [List.getElem?_set_self (by omega)]
      · exact ⟨f0, e, h1, h2, h3, fun hp => by omega⟩
    obtain ⟨f1, e1, s1, o1, l1, b1⟩ := e1
    obtain ⟨f', e', hb⟩ := ih _ s1 o1 l1 e1
    refine ⟨f', e', fun q hq hq' => ?_⟩
    rcases List.mem_cons.1 hq with rfl | hq
    · obtain ⟨f'', e'', m⟩ := writeAll_more o ps _ e1
      change (writeAll (write S o q true) o ps).objs[h]? = some f' at e'
      rw [e'] at e''; cases e''
      exact m.bits q (b1 hq')
    · exact hb q hq hq'

theorem spec_no_false_negatives (ops1 ops2 : List Op) (hc : ∀ op ∈ ops2, op.clears = false) (h : Nat) (x : List Byte)
    {S : Spec} {os : List SpecOut} (h1 : specRun H ops1 ⟨[], 0⟩ = .ok (os, S)) {m k : Nat} {o : SObj} (h2 : S.filter h = .ok (m, k, o)) (hm : m ≤ o.bits.length)
    {S' : Spec} {os' : List SpecOut} (h3 : specRun H (.fAdd h x :: ops2) S = .ok (os', S')) :
    specStep H (.fContains h x) S' = .ok (.bool true, S') := by
  have ho : S.objs[h]? = some o ∧ o.kind = .filter m k := by
    simp only [Spec.filter, Spec.find] at h2
    rw [Res.bind_eq_ok] at h2; obtain ⟨a, e1, e2⟩ := h2
    cases e : S.objs[h]? with
    | none => rw [e] at e1; cases e1
    | some b =>
      rw [e] at e1; cases e1
      split at e2
      · rename_i m' k' hk
        cases e2; exact ⟨rfl, hk⟩
      · cases e2
  simp only [specRun] at h3
  rw [Res.bind_eq_ok] at h3; obtain ⟨⟨o1, S1⟩, e1, h3⟩ := h3
  simp only at h3
  rw [Res.bind_eq_ok] at h3; obtain ⟨⟨os2, S2⟩, e2, h3⟩ := h3
  cases h3
  simp only [specStep, h2, Res.ok_bind] at e1
  rw [Res.bind_eq_ok] at e1; obtain ⟨ps, e3, e1⟩ := e1
  cases e1
  obtain ⟨f1, ef1, m1⟩ := writeAll_more o ps S ho.1
  obtain ⟨f1', ef1', hb⟩ := writeAll_own o o rfl rfl rfl ps S rfl rfl rfl ho.1
  rw [ef1] at ef1'; cases ef1'
  obtain ⟨f2, ef2, m2⟩ := run_more ops2 hc e2 (m1.kind.trans ho.2) ef1
  have hk2 : f2.kind = .filter m k := m2.kind.trans (m1.kind.trans ho.2)
  have hS2 : S2.filter h = .ok (m, k, f2) := by
    simp only [Spec.filter, Spec.find, ef2, Res.ofOption_some, Res.ok_bind, hk2]
  simp only [specStep, hS2, Res.ok_bind, e3]
  congr 2
  congr 1
  rw [List.all_eq_true]
  intro p hp
  have hlt : p < o.bits.length := by
    unfold positions at e3
    split at e3
    · cases e3
    · rename_i c
      cases e3
      obtain ⟨i, hi, rfl⟩ := List.mem_map.1 hp
      have : 0 < m := by
        rw [List.mem_range] at hi
        omega
      exact Nat.lt_of_lt_of_le (Nat.mod_lt _ this) hm
  rw [m2.bits p (hb p hp hlt)]; rfl

theorem run_ok (hH : GoodHash H) (ops : List Op) : ∀ {w w' : World} {os : List Out}, Valid w → run H ops w = .ok (os, w') →
    Valid w' ∧ ∃ os', specRun H ops (absW w) = .ok (os', absW w') := by
  induction ops with
  | nil => intro w w' os hw e; cases e; exact ⟨hw, [], rfl⟩
  | cons op ops ih =>
    intro w w' os hw e
    simp only [run] at e
    rw [Res.bind_eq_ok] at e; obtain ⟨⟨o, w1⟩, e1, e⟩ := e
    simp only at e
    rw [Res.bind_eq_ok] at e; obtain ⟨⟨os', w2⟩, e2, e⟩ := e
    cases e
    have := step_refines hH hw op
    rw [e1] at this
    simp only [specRun]
    revert this
    generalize specStep H op (absW w) = b
    intro this
    cases this with
    | ok hv e =>
      obtain ⟨hv', os'', e'⟩ := ih hv e2
      subst e
      exact ⟨hv', Bitmap.Out.toSpec o :: os'', by simp only [Res.ok_bind, e']⟩

/-- **C85** No false negatives, however storages are shared: in every program, after `Add(x)` to a filter `Contains(x)` is true, as long as the program makes no
`Unset` on a bitmap and no assignment to a slice element afterwards; `Add`s, `Set`s, imports, exports, `Clear` and `Resize` do no harm, also when they go to
bitmaps and slices that share their bytes with the filter. (The filter must have all its positions, that is, `m` is at most its number of bits, as in every filter
made by `New` up to size 2^64 - 8, and every one imported from the data of such a filter.) -/
theorem C85_no_false_negatives (hH : GoodHash H) (ops1 ops2 : List Op) (hc : ∀ op ∈ ops2, op.clears = false) (h : Nat) (x : List Byte)
    {w : World} {os : List Out} (h1 : run H ops1 start = .ok (os, w)) {v : View} {bf : BloomFilter} (h2 : getFilter w h = .ok (v, bf)) (hm : bf.m ≤ bf.b.size)
    {w' : World} {os' : List Out} (h3 : run H (.fAdd h x :: ops2) w = .ok (os', w')) :
    step H (.fContains h x) w' = .ok (.bool true, w') := by
  obtain ⟨hv, so, e1⟩ := run_ok hH ops1 (w := start) (by intro o ho; simp [start] at ho) h1
  obtain ⟨hv', so', e3⟩ := run_ok hH _ hv h3
  rcases filter_cases hv h with ⟨f1, f2⟩ | ⟨o, m, k, ho, hk, hk', f1, f2⟩
  · rw [f1] at h2; cases h2
  · rw [f1] at h2; cases h2
    have hl := abs_length hv ho
    simp only [(hv o ho).length] at hm
    have := spec_no_false_negatives ops1 ops2 hc h x e1 f2 (by omega) e3
    have ag := step_refines hH hv' (.fContains h x)
    rw [this] at ag
    have hs : ∀ out w2, step H (.fContains h x) w' = .ok (out, w2) → w2 = w' := by
      intro out w2 e
      simp only [step] at e
      rw [Res.bind_eq_ok] at e; obtain ⟨⟨v', bf⟩, -, e⟩ := e
      simp only at e
      rw [Res.bind_eq_ok] at e; obtain ⟨r, -, e⟩ := e
      cases e; rfl
    revert ag hs
    generalize step H (.fContains h x) w' = a
    intro ag hs
    generalize eb : (Res.ok (Bitmap.SpecOut.bool true, absW w') : Res (SpecOut × Spec)) = b at ag
    cases ag with
    | panic => cases eb
    | ok hv2 e =>
      rename_i out w2 S2
      have := hs out w2 rfl
      subst this
      injection eb with eb
      injection eb with eb1 eb2
      cases out with
      | bool b => simp only [Bitmap.Out.toSpec] at eb1; cases eb1; rfl
      | unit => simp only [Bitmap.Out.toSpec] at eb1; cases eb1
      | int b => simp only [Bitmap.Out.toSpec] at eb1; cases eb1
      | bytes b => simp only [Bitmap.Out.toSpec] at eb1; cases eb1

/-- All objects change in the same way. -/
theorem writeAll_map (o : SObj) (ps : List Nat) : ∀ S : Spec, ∃ g : SObj → SObj, (∀ a : SObj, a.store ≠ o.store → g a = a) ∧
    writeAll S o ps = { S with objs := S.objs.map g } := by
  induction ps with
  | nil => intro S; exact ⟨id, fun _ _ => rfl, by simp [writeAll]⟩
  | cons p ps ih =>
    intro S
    obtain ⟨g, hg, e⟩ := ih (write S o p true)
    rw [writeAll, e]
    unfold write
    split
    · refine ⟨g ∘ poke1 o.store (o.off + p) true, fun a ha => ?_, by simp [poke]⟩
      simp only [Function.comp]
      rw [poke1, if_neg (fun h => ha h.1), hg a ha]
    · exact ⟨g, hg, rfl⟩

theorem num_numBits {n : Nat} (hn : n < 2 ^ 64) : num (numBits 64 n) = n := by rw [← bits_le8, num_bytes, unle8_le8 hn]

theorem numBits_length (n x : Nat) : (numBits n x).length = n := by simp [numBits]

theorem cons_ok {op : Op} {ops : List Op} {S S1 : Spec} {o : SpecOut} {os : List SpecOut} (h1 : specStep H op S = .ok (o, S1))
    (h2 : specOuts (specRun H ops S1) = .ok os) : specOuts (specRun H (op :: ops) S) = .ok (o :: os) := by
  simp only [specRun, h1, Res.ok_bind]
  revert h2
  generalize specRun H ops S1 = a
  intro h2
  cases a with
  | ok a => simp only [specOuts] at h2; cases h2; rfl
  | panic => cases h2
  | outOfFuel => cases h2

theorem filter_at {S : Spec} {h : Nat} {f : SObj} {m k : Nat} (e : S.objs[h]? = some f) (hk : f.kind = .filter m k) : S.filter h = .ok (m, k, f) := by
  simp only [Spec.filter, Spec.find, e, Res.ofOption_some, Res.ok_bind, hk]

theorem slice_at {S : Spec} {h : Nat} {f : SObj} (e : S.objs[h]? = some f) (hk : f.kind = .slice) : S.slice h = .ok f := by
  simp only [Spec.slice, Spec.find, e, Res.ofOption_some, Res.ok_bind, hk, if_true]

theorem contains_step {S : Spec} {h : Nat} {f : SObj} {m k : Nat} {x : List Byte} {ps : List Nat} (e : S.objs[h]? = some f) (hk : f.kind = .filter m k)
    (hp : positions H m k x = .ok ps) {b : Bool} (hb : (ps.all fun p => f.bits[p]? == some true) = b) : specStep H (.fContains h x) S = .ok (.bool b, S) := by
  simp only [specStep, filter_at e hk, Res.ok_bind, hp, hb]

theorem add_step {S : Spec} {h : Nat} {f : SObj} {m k : Nat} {x : List Byte} {ps : List Nat} (e : S.objs[h]? = some f) (hk : f.kind = .filter m k)
    (hp : positions H m k x = .ok ps) : specStep H (.fAdd h x) S = .ok (.unit, writeAll S f ps) := by
  simp only [specStep, filter_at e hk, Res.ok_bind, hp]

theorem data_step {S : Spec} {h : Nat} {f : SObj} {m k : Nat} (e : S.objs[h]? = some f) (hk : f.kind = .filter m k) :
    specStep H (.fData h) S = .ok (.unit, S.own .slice (numBits 64 m ++ numBits 64 k ++ f.bits)) := by
  simp only [specStep, filter_at e hk, Res.ok_bind]

theorem from_step {S : Spec} {h : Nat} {m k : Nat} {st off : Nat} {z : List Bool} (hm : m < 2 ^ 64) (hk : k < 2 ^ 64)
    (e : S.objs[h]? = some ⟨.slice, st, off, numBits 64 m ++ numBits 64 k ++ z⟩) :
    specStep H (.fFrom h) S = .ok (.unit, S.share ⟨.filter m k, st, off + 128, z⟩) := by
  have l1 : ¬ (numBits 64 m ++ numBits 64 k ++ z).length < 128 := by simp [numBits_length]; omega
  have t1 : (numBits 64 m ++ numBits 64 k ++ z).take 64 = numBits 64 m := by
    rw [List.append_assoc, List.take_left' (numBits_length _ _)]
  have t2 : ((numBits 64 m ++ numBits 64 k ++ z).drop 64).take 64 = numBits 64 k := by
    rw [List.append_assoc, List.drop_left' (numBits_length _ _), List.take_left' (numBits_length _ _)]
  have t3 : (numBits 64 m ++ numBits 64 k ++ z).drop 128 = z := by
    rw [List.drop_left' (by simp [numBits_length])]
  simp only [specStep, slice_at e rfl, Res.ok_bind]
  rw [if_neg l1, t1, t2, t3, num_numBits hm, num_numBits hk]

/-- **C85** Two filters imported from the same exported data are not independent: a value added to one is contained in the other, for every hash function, all
parameters and every value. The filter that was exported is independent of them. -/
theorem C85_imports_share (hH : GoodHash H) (m k : BitVec 64) (hm : 0 < m.toNat) (hm' : m.toNat ≤ 2 ^ 64 - 8) (hk0 : 0 < k.toNat) (hk : k.toNat < 2 ^ 63) (x : List Byte) :
    outs (run H [.fNew m k, .fData 0, .fFrom 1, .fFrom 1, .fAdd 2 x, .fContains 2 x, .fContains 3 x, .fContains 0 x] start) =
      .ok [.unit, .unit, .unit, .unit, .unit, .bool true, .bool true, .bool false] := by
  rw [C85_slices hH]
  have hr := (Bitmap.C30_size hm').1
  have hmlt := m.isLt
  have hklt := k.isLt
  have s1 : specStep H (.fNew m k) ⟨[], 0⟩ = .ok (.unit, ⟨[⟨.filter m.toNat k.toNat, 0, 0, List.replicate (Bitmap.roundUp m.toNat) false⟩], 1⟩) := rfl
  refine cons_ok s1 ?_
  clear s1
  generalize m.toNat = m at *
  generalize k.toNat = k at *
  generalize hz : List.replicate (Bitmap.roundUp m) false = z
  have hzl : z.length = Bitmap.roundUp m := by rw [← hz, List.length_replicate]
  have hpos : ∃ ps, positions H m k x = .ok ps ∧ ps ≠ [] ∧ ∀ p ∈ ps, p < z.length := by
    refine ⟨_, by rw [positions, if_neg (by omega)], ?_, ?_⟩
    · intro e
      rw [List.map_eq_nil_iff, List.range_eq_nil] at e; omega
    · intro p hp
      obtain ⟨i, hi, rfl⟩ := List.mem_map.1 hp
      rw [hzl]
      exact Nat.lt_of_lt_of_le (Nat.mod_lt _ hm) hr
  obtain ⟨ps, hps, hne, hlt⟩ := hpos
  have hb : (ps.all fun p => z[p]? == some true) = false := by
    cases ps with
    | nil => exact absurd rfl hne
    | cons p ps =>
      rw [List.all_cons, ← hz]
      have : ((List.replicate (Bitmap.roundUp m) false)[p]? == some true) = false := by
        rw [List.getElem?_replicate]
        split <;> rfl
      rw [this]; rfl
  clear hz
  refine cons_ok (data_step (m := m) (k := k) (f := ⟨.filter m k, 0, 0, z⟩) rfl rfl) ?_
  refine cons_ok (from_step hmlt hklt (st := 1) (off := 0) (z := z) rfl) ?_
  refine cons_ok (from_step hmlt hklt (st := 1) (off := 0) (z := z) rfl) ?_
  refine cons_ok (add_step (f := ⟨.filter m k, 1, 0 + 128, z⟩) rfl rfl hps) ?_
  generalize hS : Spec.share _ _ = S
  obtain ⟨g, hg, e⟩ := writeAll_map ⟨.filter m k, 1, 0 + 128, z⟩ ps S
  have h2 : S.objs[2]? = some ⟨.filter m k, 1, 0 + 128, z⟩ := by rw [← hS]; rfl
  have h3 : S.objs[3]? = some ⟨.filter m k, 1, 0 + 128, z⟩ := by rw [← hS]; rfl
  have h0 : S.objs[0]? = some ⟨.filter m k, 0, 0, z⟩ := by rw [← hS]; rfl
  obtain ⟨f', e1, b1⟩ := writeAll_own ⟨.filter m k, 1, 0 + 128, z⟩ ⟨.filter m k, 1, 0 + 128, z⟩ rfl rfl rfl ps S rfl rfl rfl h2
  obtain ⟨f'', e2, m2⟩ := writeAll_more ⟨.filter m k, 1, 0 + 128, z⟩ ps S h2
  rw [e1] at e2; cases e2
  have g2 : g ⟨.filter m k, 1, 0 + 128, z⟩ = f' := by
    rw [e] at e1
    simp only [List.getElem?_map, h2, Option.map_some, Option.some.injEq] at e1
    exact e1
  have ha : (ps.all fun p => f'.bits[p]? == some true) = true := by
    rw [List.all_eq_true]
    intro p hp
    rw [b1 p hp (hlt p hp)]; rfl
  refine cons_ok (contains_step e1 m2.kind hps ha) ?_
  refine cons_ok (contains_step (f := f') (by rw [e]; simp only [List.getElem?_map, h3, Option.map_some, g2]) m2.kind hps ha) ?_
  refine cons_ok (contains_step (f := ⟨.filter m k, 0, 0, z⟩) (by
    rw [e]; simp only [List.getElem?_map, h0, Option.map_some, hg ⟨.filter m k, 0, 0, z⟩ (by simp)]) rfl hps hb) ?_
  rfl

/-- **C85** The import is no snapshot: for every hash function, a caller who reuses the slice after `NewFromData` makes the filter forget a value that was added. -/
theorem C85_violated (hH : GoodHash H) (x : List Byte) :
    outs (run H [.fNew 8 1, .fData 0, .fFrom 1, .fAdd 2 x, .fContains 2 x, .put 1 16 0, .fContains 2 x] start) =
      .ok [.unit, .unit, .unit, .unit, .bool true, .unit, .bool false] := by
  rw [C85_slices hH]
  have hp : positions H 8 1 x = .ok [((words (H (salt ++ x)))[0 % (words (H (salt ++ x))).length]?).getD 0 % 8] := rfl
  have hlt : ((words (H (salt ++ x)))[0 % (words (H (salt ++ x))).length]?).getD 0 % 8 < 8 := Nat.mod_lt _ (by omega)
  generalize ((words (H (salt ++ x)))[0 % (words (H (salt ++ x))).length]?).getD 0 % 8 = p at hp hlt
  have hc : p = 0 ∨ p = 1 ∨ p = 2 ∨ p = 3 ∨ p = 4 ∨ p = 5 ∨ p = 6 ∨ p = 7 := by omega
  have s1 : specStep H (.fNew 8 1) ⟨[], 0⟩ = .ok (.unit, ⟨[⟨.filter 8 1, 0, 0, List.replicate 8 false⟩], 1⟩) := rfl
  refine cons_ok s1 ?_
  refine cons_ok (data_step (m := 8) (k := 1) (f := ⟨.filter 8 1, 0, 0, List.replicate 8 false⟩) rfl rfl) ?_
  generalize hz : numBits 64 8 ++ numBits 64 1 = hd
  have hdl : hd.length = 128 := by rw [← hz]; simp [numBits_length]
  refine cons_ok (from_step (m := 8) (k := 1) (by decide) (by decide) (st := 1) (off := 0) (z := List.replicate 8 false) (by rw [hz]; rfl)) ?_
  refine cons_ok (add_step (f := ⟨.filter 8 1, 1, 0 + 128, List.replicate 8 false⟩) rfl rfl hp) ?_
  have e : writeAll ((Spec.own ⟨[⟨.filter 8 1, 0, 0, List.replicate 8 false⟩], 1⟩ .slice (hd ++ List.replicate 8 false)).share ⟨.filter 8 1, 1, 0 + 128, List.replicate 8 false⟩)
      ⟨.filter 8 1, 1, 0 + 128, List.replicate 8 false⟩ [p] =
      ⟨[⟨.filter 8 1, 0, 0, List.replicate 8 false⟩, ⟨.slice, 1, 0, (hd ++ List.replicate 8 false).set (128 + p) true⟩,
        ⟨.filter 8 1, 1, 128, (List.replicate 8 false).set p true⟩], 2⟩ := by
    simp [writeAll, write, poke, poke1, Spec.own, Spec.share, hlt]
  rw [e]
  refine cons_ok (contains_step (f := ⟨.filter 8 1, 1, 128, (List.replicate 8 false).set p true⟩) rfl rfl hp (b := true) ?_) ?_
  · rcases hc with h | h | h | h | h | h | h | h <;> subst h <;> rfl
  generalize hl : (hd ++ List.replicate 8 false).set (128 + p) true = sl
  have hsl : sl.length = 136 := by rw [← hl]; simp [hdl]
  have s2 : ∀ S : Spec, S.objs[1]? = some ⟨.slice, 1, 0, sl⟩ → specStep H (.put 1 16 0) S = .ok (.unit, writes S ⟨.slice, 1, 0, sl⟩ (8 * 16) (bitsOf1 0)) := by
    intro S h
    simp only [specStep, slice_at h rfl, Res.ok_bind]
    rw [if_pos (by omega)]
  refine cons_ok (s2 _ rfl) ?_
  refine cons_ok (contains_step (f := ⟨.filter 8 1, 1, 128, List.replicate 8 false⟩) ?_ rfl hp (b := false) ?_) rfl
  · simp only [writes, write, bitsOf1, hsl]
    rcases hc with h | h | h | h | h | h | h | h <;> subst h <;> simp [poke, poke1]
  · rcases hc with h | h | h | h | h | h | h | h <;> subst h <;> rfl

/-- A program that does all kinds of calls. -/
def demo : List Op :=
  [.mk [1, 2, 3], .bFrom 0, .bSet 1 20, .bytes 0, .put 0 1 0xff, .bIsSet 1 12, .bData 1, .sub 2 1 3, .put 3 0 0, .bIsSet 1 12, .bResize 1 40, .bSet 1 0, .bytes 0,
   .bUnset 1 9, .bClear 1, .bSize 1, .fNew 16 3, .fAdd 4 [7], .fData 4, .fFrom 5, .sub 5 16 18, .bFrom 7, .bSet 8 3, .fAdd 6 [8], .bytes 5, .fContains 6 [7], .fContains 4 [8]]

/-- The number of results of a run. -/
def count : Res (List Out × World) → Nat
  | .ok (os, _) => os.length
  | _ => 0

set_option maxRecDepth 40000 in
/-- C85 is not vacuous: the demo runs through. -/
example : count (run exHash demo start) = 27 := rfl

set_option maxRecDepth 40000 in
/-- The hypotheses of C85_no_false_negatives are met: a filter imported from a slice, of which a bitmap shows the bytes, too. -/
example : ∃ os w v bf os' w', run exHash [.fNew 16 3, .fData 0, .fFrom 1, .sub 1 16 18, .bFrom 3] start = .ok (os, w) ∧ getFilter w 2 = .ok (v, bf) ∧ bf.m ≤ bf.b.size ∧
    run exHash [.fAdd 2 [7], .bSet 4 3, .fData 2, .bClear 4] w = .ok (os', w') ∧ step exHash (.fContains 2 [7]) w' = .ok (.bool true, w') :=
  ⟨_, _, _, _, _, _, rfl, rfl, by decide, rfl, rfl⟩

/-- `C85_slices` on the demo program, `C85_imports_share` and `C85_violated` for concrete parameters. -/
example := C85_slices exHash_good demo
/-- `C85_imports_share`. -/
example := C85_imports_share exHash_good 16 3 (by decide) (by decide) (by decide) (by decide) [7]
/-- `C85_violated`. -/
example := C85_violated exHash_good [7]

end GoSTL.Bloom.Alias
