import Verif.Basic.Res
/-!
# Model of `ds/bitmap/bitmap.go`

Bytes are bit vectors of width 8, sizes and positions are natural numbers; additions of `uint64` values wrap at 2^64 where the code
adds (`New`, `Resize`). Byte slices live in buffers, so that `NewFromData(b.Data())` shares the bytes with `b`. Memory is unlimited
(`make` never fails) and no slice has 2^61 or more bytes.
-/
namespace GoSTL.Bitmap

/-- A `byte`. -/
abbrev Byte := BitVec 8

/-- bitmap.go:4-7 `Bitmap`. -/
structure Bitmap where
  data : List Byte
  size : Nat

/-- `(size + 7) / 8 * 8` on `uint64` (bitmap.go:11, 59). -/
def roundUp (size : Nat) : Nat := (size + 7) % 2 ^ 64 / 8 * 8

/-- bitmap.go:10-17 `New`. -/
def new (size : Nat) : Bitmap :=
  let size := roundUp size
  { size := size, data := List.replicate (size / 8) 0 }

/-- bitmap.go:20-26 `NewFromData`. -/
def newFromData (data : List Byte) : Bitmap := { size := data.length * 8, data := data }

/-- `1 << (pos & 0x07)` as a byte (bitmap.go:33, 42, 51). -/
def mask (pos : Nat) : Byte := (1 : Byte) <<< (pos &&& 7)

/-- bitmap.go:29-35 `Set`. -/
def set (b : Bitmap) (pos : Nat) : Res (Bool × Bitmap) :=
  if pos ≥ b.size then .ok (false, b) else do
    let d ← Res.ofOption b.data[pos >>> 3]?
    .ok (true, { b with data := b.data.set (pos >>> 3) (d ||| mask pos) })

/-- bitmap.go:38-44 `Unset`. -/
def unset (b : Bitmap) (pos : Nat) : Res (Bool × Bitmap) :=
  if pos ≥ b.size then .ok (false, b) else do
    let d ← Res.ofOption b.data[pos >>> 3]?
    .ok (true, { b with data := b.data.set (pos >>> 3) (d &&& ~~~ (mask pos)) })

/-- bitmap.go:47-55 `IsSet`. -/
def isSet (b : Bitmap) (pos : Nat) : Res Bool :=
  if pos ≥ b.size then .ok false else do
    let d ← Res.ofOption b.data[pos >>> 3]?
    if (d &&& mask pos).toNat > 0 then .ok true else .ok false

/-- bitmap.go:63-64: `make` and `copy`. -/
def resized (data : List Byte) (n : Nat) : List Byte := data.take n ++ List.replicate (n - data.length) 0

/-- bitmap.go:58-67 `Resize`; the flag says whether the bitmap got a new slice. -/
def resize (b : Bitmap) (size : Nat) : Bool × Bitmap :=
  let size := roundUp size
  if b.size = size then (false, b) else (true, { data := resized b.data (size / 8), size := size })

/-- bitmap.go:75-77 `Clear` (the bitmap gets a new slice). -/
def clear (b : Bitmap) : Bitmap := { b with data := List.replicate (b.size / 8) 0 }

/-! ## Several bitmaps with shared slices -/

/-- The byte slices, and for every bitmap which slice it uses and its size. -/
structure World where
  bufs : List (List Byte)
  maps : List (Nat × Nat)

/-- Nothing yet. -/
def start : World := { bufs := [], maps := [] }

/-- Bitmap `h` with the bytes of its slice. -/
def load (w : World) (h : Nat) : Res (Nat × Bitmap) := do
  let (i, size) ← Res.ofOption w.maps[h]?
  let data ← Res.ofOption w.bufs[i]?
  .ok (i, { data := data, size := size })

/-- A call wrote into the bitmap's slice. -/
def store (w : World) (i : Nat) (b : Bitmap) : World := { w with bufs := w.bufs.set i b.data }

/-- A call gave bitmap `h` a new slice. -/
def storeNew (w : World) (h : Nat) (b : Bitmap) : World :=
  { bufs := w.bufs ++ [b.data], maps := w.maps.set h (w.bufs.length, b.size) }

/-- A new bitmap with a new slice. -/
def addNew (w : World) (b : Bitmap) : World :=
  { bufs := w.bufs ++ [b.data], maps := w.maps ++ [(w.bufs.length, b.size)] }

/-- The calls of bitmap.go:10-82; bitmaps are named by their order of creation. -/
inductive Op
  | new (size : Nat)
  /-- `NewFromData` of a slice of the caller. -/
  | fromBytes (data : List Byte)
  /-- `NewFromData(b.Data())`. -/
  | fromData (h : Nat)
  | set (h pos : Nat)
  | unset (h pos : Nat)
  | isSet (h pos : Nat)
  | resize (h size : Nat)
  | size (h : Nat)
  | clear (h : Nat)
  | data (h : Nat)

/-- What they return. -/
inductive Out
  | unit
  | bool (b : Bool)
  | int (n : Nat)
  | bytes (d : List Byte)

/-- bitmap.go:10-82; `Size` (70-72) and `Data` (80-82) are the fields. -/
def step (op : Op) (w : World) : Res (Out × World) :=
  match op with
  | .new size => .ok (.unit, addNew w (new size))
  | .fromBytes data => .ok (.unit, addNew w (newFromData data))
  | .fromData h => do
    let (i, b) ← load w h
    .ok (.unit, { w with maps := w.maps ++ [(i, (newFromData b.data).size)] })
  | .set h pos => do
    let (i, b) ← load w h
    let (r, b) ← set b pos
    .ok (.bool r, store w i b)
  | .unset h pos => do
    let (i, b) ← load w h
    let (r, b) ← unset b pos
    .ok (.bool r, store w i b)
  | .isSet h pos => do
    let (_, b) ← load w h
    let r ← isSet b pos
    .ok (.bool r, w)
  | .resize h size => do
    let (_, b) ← load w h
    let (fresh, b) := resize b size
    .ok (.unit, if fresh then storeNew w h b else w)
  | .size h => do
    let (_, b) ← load w h
    .ok (.int b.size, w)
  | .clear h => do
    let (_, b) ← load w h
    .ok (.unit, storeNew w h (clear b))
  | .data h => do
    let (_, b) ← load w h
    .ok (.bytes b.data, w)

/-- A program. -/
def run : List Op → World → Res (List Out × World)
  | [], w => .ok ([], w)
  | op :: ops, w => do
    let (o, w) ← step op w
    let (os, w) ← run ops w
    .ok (o :: os, w)

end GoSTL.Bitmap
