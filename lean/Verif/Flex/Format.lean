import Verif.Flex.Doc
import Verif.Float

/-!
# flexbuffers: the byte format, its reader and its builder

The flexbuffers library (`flatbuffers/flexbuffers.h`, included at flex.hpp:3) is a dependency outside the
repository. This file transcribes the parts that `flex.hpp` calls, function by function, under the names
that `flexbuffers.h` gives them. Nothing in it is assumed; what is assumed about the library is that the
transcription is right, and the one thing left open, the order in which `std::sort` puts entries with
equal keys (`Lib`).
-/

namespace Zer.Flex

/-! ## Numbers in memory -/

/-- The `w` bytes of a number, lowest first (`EndianScalar`, `WriteBytes`). -/
def le : Nat → Nat → Bytes
  | 0, _ => []
  | w + 1, n => UInt8.ofNat n :: le w (n / 256)

/-- The number in a sequence of bytes, lowest first. -/
def unle : Bytes → Nat
  | [] => 0
  | c :: cs => c.toNat + 256 * unle cs

/-- How many bytes `ReadSizedScalar` reads for a byte width. -/
def scalarWidth (w : Nat) : Nat := if w < 4 then (if w < 2 then 1 else 2) else if w < 8 then 4 else 8

/-- `ReadUInt64` -/
def readU (b : Bytes) (p w : Nat) : Res Nat := do
  let s ← sliceAt b p (scalarWidth w)
  pure (unle s)

/-- `ReadInt64` -/
def readI (b : Bytes) (p w : Nat) : Res Int64 := do
  let n ← readU b p w
  pure (Int64.ofInt ((n : Int).bmod (2 ^ (8 * scalarWidth w))))

/-- `static_cast<double>` of a number of at most 16 bits. -/
def smallDouble (i : Int) : Nat := if i = 0 then 0 else mkDouble (decide (i < 0)) i.natAbs 1074

/-- `ReadDouble`: one and two bytes are read as integers. -/
def readF (b : Bytes) (p w : Nat) : Res UInt64 := do
  let n ← readU b p w
  pure (UInt64.ofNat (if scalarWidth w = 8 then n else if scalarWidth w = 4 then widen32 n
    else smallDouble ((n : Int).bmod (2 ^ (8 * scalarWidth w)))))

/-- `Indirect`: an offset leads backwards; before the start of the buffer there is nothing. -/
def indirect (b : Bytes) (p w : Nat) : Res Nat := do
  let o ← readU b p w
  if o ≤ p then pure (p - o) else .ub

/-- `Sized::read_size`: the size stands in front of the data. -/
def sizeAt (b : Bytes) (p w : Nat) : Res Nat := if w ≤ p then readU b (p - w) w else .ub

/-- A NUL-terminated string at a position; `strlen` outside the buffer is undefined. -/
def cstrAt (b : Bytes) (p : Nat) : Res Bytes :=
  if (0 : UInt8) ∈ b.drop p then .ok (cstr (b.drop p)) else .ub

/-! ## References -/

/-- `flexbuffers::Reference`: the buffer, the position of `data_` in it, `parent_width_`, `byte_width_`
and `type_`. -/
structure Ref where
  buf : Bytes
  pos : Nat
  pw : Nat
  bw : Nat
  ty : Nat
deriving DecidableEq

/-- `Reference()` and `Reference(nullptr, 1, NullPackedType())` -/
def nullRef : Ref := ⟨[], 0, 1, 1, 0⟩

/-- `Reference(data, parent_width, packed_type)` -/
def Ref.ofPacked (b : Bytes) (p w t : Nat) : Ref := ⟨b, p, w, 2 ^ (t % 4), t / 4⟩

/-- `IsTypedVector` or `IsFixedTypedVector` -/
def typedType (t : Nat) : Bool := (11 ≤ t && t ≤ 15) || t = 36 || (16 ≤ t && t ≤ 24)

/-- `GetRoot(buffer, size)`: the last byte is the width of the root, the one before it its packed type,
the root lies before them. Nothing is compared with `size`. -/
def getRoot (b : Bytes) : Res Ref :=
  if b.length < 2 then .ub
  else do
    let w ← byteAt b (b.length - 1)
    let t ← byteAt b (b.length - 2)
    if w ≤ b.length - 2 then pure (Ref.ofPacked b (b.length - 2 - w) w t) else .ub

/-- `AsInt64` where `IsInt()` holds. -/
def Ref.int64 (r : Ref) : Res Int64 :=
  if r.ty = 1 then readI r.buf r.pos r.pw
  else do
    let p ← indirect r.buf r.pos r.pw
    readI r.buf p r.bw

/-- `AsUInt64` where `IsUInt()` holds. -/
def Ref.uint64 (r : Ref) : Res Nat :=
  if r.ty = 2 then readU r.buf r.pos r.pw
  else do
    let p ← indirect r.buf r.pos r.pw
    readU r.buf p r.bw

/-- `AsDouble` where `IsFloat()` holds. -/
def Ref.double (r : Ref) : Res UInt64 :=
  if r.ty = 3 then readF r.buf r.pos r.pw
  else do
    let p ← indirect r.buf r.pos r.pw
    readF r.buf p r.bw

/-- `String(Indirect(), byte_width_)` and `Blob(Indirect(), byte_width_)`: size and data. -/
def Ref.sized (r : Ref) : Res Bytes := do
  let p ← indirect r.buf r.pos r.pw
  let n ← sizeAt r.buf p r.bw
  sliceAt r.buf p n

/-- `AsVector()`: position and size, for a map or an untyped vector; for everything else
`EmptyVector()`. -/
def Ref.vector (r : Ref) : Res (Nat × Nat) :=
  if r.ty = 9 ∨ r.ty = 10 then do
    let p ← indirect r.buf r.pos r.pw
    let n ← sizeAt r.buf p r.bw
    pure (p, n)
  else pure (0, 0)

/-- `Vector::operator[]`: the types follow the `n` elements. -/
def elemAt (b : Bytes) (p bw n i : Nat) : Res Ref :=
  if n ≤ i then pure nullRef
  else do
    let t ← byteAt b (p + u64 (n * bw) + i)
    pure (Ref.ofPacked b (p + u64 (i * bw)) bw t)

/-- `Map::Keys()`: position, byte width and size of the vector of keys. The byte width is stored as a
number and cut to eight bits. -/
def keysAt (b : Bytes) (p bw : Nat) : Res (Nat × Nat × Nat) :=
  if 3 * bw ≤ p then do
    let kp ← indirect b (p - 3 * bw) bw
    let kw ← readU b (p - 2 * bw) bw
    let kn ← sizeAt b kp (kw % 256)
    pure (kp, kw % 256, kn)
  else .ub

/-- `TypedVector::operator[](i).AsString()` of a vector of keys; behind its end a null reference, which
is an empty string. -/
def keyAt (b : Bytes) (kp kw kn i : Nat) : Res Bytes :=
  if kn ≤ i then pure []
  else do
    let q ← indirect b (kp + u64 (i * kw)) kw
    cstrAt b q

/-! ## The builder -/

/-- `std::sort` as `Builder::EndMap` calls it: given the keys, the order in which the entries come out.
The comparison looks at keys only, so nothing else can decide. -/
structure Lib where
  arrange : List Bytes → List Nat

/-- What `std::sort` guarantees: every entry comes out once, in the order of the keys (`strcmp`:
unsigned bytes). Which of several entries with equal keys comes first is open. -/
structure Lib.Law (L : Lib) : Prop where
  perm : ∀ ks, (L.arrange ks).Perm (List.range ks.length)
  sorted : ∀ ks, ((L.arrange ks).filterMap (ks[·]?)).Pairwise (· ≤ ·)

/-- Entries in the order of their keys. With fewer than two there is no comparison. -/
def Lib.sort {α : Type} (L : Lib) (ms : List (Bytes × α)) : List (Bytes × α) :=
  if ms.length ≤ 1 then ms else (L.arrange (ms.map Prod.fst)).filterMap (ms[·]?)

/-- `Builder::Value`: type, payload (of `i_`, `u_`, `f_` the 64 bits) and `min_bit_width_` (0 to 3 for
8 to 64 bits). -/
structure BV where
  ty : Nat
  u : Nat
  w : Nat
deriving DecidableEq

/-- `WidthU` -/
def widthU (n : Nat) : Nat := if n < 2 ^ 8 then 0 else if n < 2 ^ 16 then 1 else if n < 2 ^ 32 then 2 else 3

/-- `WidthI`, on the 64 bits of the number. -/
def widthI (u : Nat) : Nat :=
  let u2 := (2 * u) % 2 ^ 64
  if u < 2 ^ 63 then widthU u2 else widthU (2 ^ 64 - 1 - u2)

/-- `WidthF`: `f == static_cast<double>(static_cast<float>(f))`. -/
def widthF (d : Nat) : Nat := if (shrink32 d).isSome then 2 else 3

/-- `IsInline` -/
def isInline (t : Nat) : Bool := t ≤ 3 || t = 26

/-- `PaddingBytes` -/
def padding (n w : Nat) : Nat := (w - n % w) % w

/-- `Align` -/
def align (b : Bytes) (w : Nat) : Bytes := b ++ List.replicate (padding b.length w) 0

/-- Whether the offset to `u` fits `2 ^ x` bytes exactly, when it is stored `idx` elements behind the
next aligned position after `n`. -/
def offsetWidth (u n idx x : Nat) : Nat := widthU (n + padding n (2 ^ x) + idx * 2 ^ x - u)

/-- `Value::ElemWidth(buf_size, elem_index)` -/
def BV.elemWidth (v : BV) (n idx : Nat) : Nat :=
  if isInline v.ty then v.w
  else if offsetWidth v.u n idx 0 = 0 then 0
  else if offsetWidth v.u n idx 1 = 1 then 1
  else if offsetWidth v.u n idx 2 = 2 then 2
  else 3

/-- `Value::StoredPackedType(parent_bit_width)` -/
def BV.packed (v : BV) (bit : Nat) : Nat := (if isInline v.ty then max v.w bit else v.w) + 4 * v.ty

/-- `WriteAny` in front of position `n`, `w` bytes. A single is written only where the double is one
(`ElemWidth` has chosen the width). -/
def BV.bytes (v : BV) (n w : Nat) : Bytes :=
  if v.ty = 3 then (if w = 8 then le 8 v.u else le w ((shrink32 v.u).getD 0))
  else if isInline v.ty then le w v.u
  else le w (n - v.u)

/-- The loop of `WriteAny` in `CreateVector`. -/
def writeAll (b : Bytes) (w : Nat) : List BV → Bytes
  | [] => b
  | v :: vs => writeAll (b ++ v.bytes b.length w) w vs

/-- The loop over bit widths in `CreateVector`; `idx` is `i - start + prefix_elems`. -/
def widest (n step : Nat) : Nat → List BV → Nat
  | _, [] => 0
  | idx, v :: vs => max (v.elemWidth n idx) (widest n step (idx + step) vs)

/-- `CreateVector(start, vec_len, step, typed, false, keys)` on the values that its loops visit. -/
def createVector (b : Bytes) (vals : List BV) (len step : Nat) (typed : Bool) (keys : Option BV) : Bytes × BV :=
  let n := b.length
  let bit := match keys with
    | none => max (widthU len) (widest n step 1 vals)
    | some k => max (max (widthU len) (k.elemWidth n 0)) (widest n step 3 vals)
  let w := 2 ^ bit
  let b1 := align b w
  let b2 := match keys with
    | none => b1
    | some k => (b1 ++ le w (b1.length - k.u)) ++ le w (2 ^ k.w)
  let b3 := b2 ++ le w len
  let b4 := writeAll b3 w vals
  let b5 := if typed then b4 else b4 ++ vals.map (fun v => UInt8.ofNat (v.packed bit))
  (b5, ⟨match keys with
    | some _ => 9
    | none => if typed then (vals.head?.elim 4 BV.ty) + 10 else 10, b3.length, bit⟩)

/-- `CreateBlob(data, len, trailing, type)`; `tail` is the trailing byte of a string. -/
def createBlob (b : Bytes) (ty : Nat) (s tail : Bytes) : Bytes × BV :=
  let bit := widthU s.length
  let b1 := align b (2 ^ bit) ++ le (2 ^ bit) s.length
  (b1 ++ (s ++ tail), ⟨ty, b1.length, bit⟩)

/-- `key_pool.find(sloc)`: an offset in the pool at which the same string stands. (`std::set` compares
with some of the keys of the pool; the model looks at all of them until one is equal, which makes no
difference as long as every key ends inside the buffer.) -/
def findKey (b : Bytes) (sloc : Nat) : List Nat → Res (Option Nat)
  | [] => pure none
  | p :: ps => do
    let x ← cstrAt b p
    let y ← cstrAt b sloc
    if x = y then pure (some p) else findKey b sloc ps

/-- `Key(str, len)`, which copies `len + 1` bytes, `k`: the buffer, the offset and the pool. -/
def createKey (b : Bytes) (pool : List Nat) (k : Bytes) : Res (Bytes × Nat × List Nat) := do
  let found ← findKey (b ++ k) b.length pool
  match found with
  | some p => pure (b, p, pool)
  | none => pure (b ++ k, b.length, b.length :: pool)

/-- Every other element, from the first. -/
def evens {α : Type} : List α → List α
  | [] => []
  | [a] => [a]
  | a :: _ :: l => a :: evens l

/-- Every other element, from the second. -/
def odds {α : Type} (l : List α) : List α := evens l.tail

/-- The pairs of a list; of an odd number of elements the last is left out (`len /= 2`). -/
def pairs {α : Type} : List α → List (α × α)
  | a :: b :: l => (a, b) :: pairs l
  | _ => []

/-- The element that `pairs` leaves out. -/
def leftover {α : Type} : List α → List α
  | _ :: _ :: l => leftover l
  | l => l

/-- The elements of pairs. -/
def unpairs {α : Type} : List (α × α) → List α
  | [] => []
  | (a, b) :: l => a :: b :: unpairs l

/-- The strings that the comparison of `EndMap` looks at. -/
def keyStrings (b : Bytes) : List (BV × BV) → Res (List (Bytes × (BV × BV)))
  | [] => pure []
  | p :: ps => do
    let k ← cstrAt b p.1.u
    let r ← keyStrings b ps
    pure ((k, p) :: r)

/-- The sort of `EndMap`. -/
def sortPairs (L : Lib) (b : Bytes) (ps : List (BV × BV)) : Res (List (BV × BV)) :=
  if ps.length ≤ 1 then pure ps
  else do
    let ks ← keyStrings b ps
    pure ((L.sort ks).map Prod.snd)

/-- `EndMap(start)` on the elements from `start`. With assertions (`dbg`) an odd number of elements or
something else in the place of a key ends the process. -/
def buildMap (L : Lib) (dbg : Bool) (b : Bytes) (vals : List BV) : Res (Bytes × BV) :=
  if dbg = true ∧ (vals.length % 2 = 1 ∨ (evens vals).any (fun v => v.ty ≠ 4)) then .err .abort
  else do
    let ps ← sortPairs L b (pairs vals)
    let vals' := unpairs ps ++ leftover vals
    let kv := createVector b (evens vals') ps.length 2 true none
    pure (createVector kv.1 (odds vals') ps.length 2 false (some kv.2))

/-- `Finish()` with root `v`. -/
def finishRoot (b : Bytes) (v : BV) : Bytes :=
  let w := 2 ^ v.elemWidth b.length 0
  let b1 := align b w
  b1 ++ v.bytes b1.length w ++ [UInt8.ofNat (v.packed 0), UInt8.ofNat w]

end Zer.Flex
