import Verif.Bitmap.Model
/-!
# Model of `algorithm/hash/hash.go` and `ds/bloomfilter/bloom.go`

`H` is the hash function of hash.go:24-28 `Hash512` (SHA-512 in the code; a parameter here, all that is used is that it returns at least
8 bytes). Not modelled here: `EstimateParameters`, `NewWithEstimates` (see `Bloom/Estimate`), the lock (see `Verif/Conc`); the byte slice given to
`NewFromData` is taken over by value here (sharing: see `Bloom/Alias`).
-/
namespace GoSTL.Bloom
open Bitmap (Byte Bitmap)

/-- A big-endian number (`binary.BigEndian`). -/
def be (d : List Byte) : Nat := d.foldl (fun a b => a * 256 + b.toNat) 0

/-- hash.go:15-17: `binary.Read` into `n` `uint64` values. -/
def wordsN : Nat → List Byte → List Nat
  | 0, _ => []
  | n + 1, d => be (d.take 8) :: wordsN n (d.drop 8)

/-- hash.go:15-17: all the words there are. -/
def words (d : List Byte) : List Nat := wordsN (d.length / 8) d

/-- hash.go:13-19: the loop, with a step budget. The `data` assigned in the loop is a new variable in every round; the hashed one stays
the seed. -/
def genLoop (H : List Byte → List Byte) (seed : List Byte) (n : Int) : Nat → List Nat → Res (List Nat)
  | 0, _ => .outOfFuel
  | f + 1, hashInts =>
    if (hashInts.length : Int) < n then
      let data := H seed
      genLoop H seed n f (hashInts ++ words data)
    else .ok hashInts

/-- hash.go:10-21 `GenHashInts`; slicing to a negative length panics. -/
def genHashInts (H : List Byte → List Byte) (seed : List Byte) (n : Int) : Res (List Nat) := do
  let hashInts ← genLoop H seed n (n.toNat + 1) []
  if 0 ≤ n then .ok (hashInts.take n.toNat) else .panic

/-- bloom.go:33-38 `BloomFilter`. -/
structure BloomFilter where
  m : Nat
  k : Nat
  b : Bitmap

/-- bloom.go:41-54 `New`. -/
def new (m k : Nat) : BloomFilter := { m := m, k := k, b := Bitmap.new m }

/-- bloom.go:13 `salt`. -/
def salt : List Byte := [0x67, 0x39, 0x68, 0x6d, 0x6a, 0x32, 0x66, 0x68, 0x67, 0x72]

/-- `int(bf.k)`: a `uint64` read as `int`. -/
def toInt (k : Nat) : Int := if k < 2 ^ 63 then k else (k : Int) - 2 ^ 64

/-- `hashs[i] % bf.m`. -/
def modM (x m : Nat) : Res Nat := if m = 0 then .panic else .ok (x % m)

/-- bloom.go:95-97: the loop of `Add` over the values `hashs[0..k-1]`, which are all there are. -/
def addLoop (m : Nat) : List Nat → Bitmap → Res Bitmap
  | [], b => .ok b
  | x :: xs, b => do
    let p ← modM x m
    let (_, b) ← Bitmap.set b p
    addLoop m xs b

/-- bloom.go:90-98 `Add`. -/
def add (H : List Byte → List Byte) (bf : BloomFilter) (val : List Byte) : Res BloomFilter := do
  let hashs ← genHashInts H (salt ++ val) (toInt bf.k)
  let b ← addLoop bf.m hashs bf.b
  .ok { bf with b := b }

/-- bloom.go:106-111: the loop of `Contains`. -/
def containsLoop (m : Nat) (b : Bitmap) : List Nat → Res Bool
  | [] => .ok true
  | x :: xs => do
    let p ← modM x m
    let r ← Bitmap.isSet b p
    if !r then .ok false else containsLoop m b xs

/-- bloom.go:101-112 `Contains`. -/
def contains (H : List Byte → List Byte) (bf : BloomFilter) (val : List Byte) : Res Bool := do
  let hashs ← genHashInts H (salt ++ val) (toInt bf.k)
  containsLoop bf.m bf.b hashs

/-- `binary.Write` of a `uint64`, little endian. -/
def le8 (n : Nat) : List Byte :=
  [BitVec.ofNat 8 n, BitVec.ofNat 8 (n / 2 ^ 8), BitVec.ofNat 8 (n / 2 ^ 16), BitVec.ofNat 8 (n / 2 ^ 24),
   BitVec.ofNat 8 (n / 2 ^ 32), BitVec.ofNat 8 (n / 2 ^ 40), BitVec.ofNat 8 (n / 2 ^ 48), BitVec.ofNat 8 (n / 2 ^ 56)]

/-- `binary.Read` of a `uint64`, little endian. -/
def unle8 : List Byte → Nat
  | [] => 0
  | d :: ds => d.toNat + 256 * unle8 ds

/-- bloom.go:115-124 `Data`. -/
def data (bf : BloomFilter) : List Byte := le8 bf.m ++ le8 bf.k ++ bf.b.data

/-- bloom.go:65-80 `NewFromData`; `data[16:]` panics on shorter data. -/
def newFromData (d : List Byte) : Res BloomFilter :=
  if d.length < 16 then .panic else
    .ok { m := unle8 (d.take 8), k := unle8 ((d.drop 8).take 8), b := Bitmap.newFromData (d.drop 16) }

end GoSTL.Bloom
