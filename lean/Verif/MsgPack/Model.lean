import Verif.Reader
import Verif.Float
import Verif.Proto

/-!
# Model of the MessagePack protocol

Transcribed from `include/zerialize/protocols/msgpack.hpp` (cited as `msgpack.hpp`). A reader
position is the content of its `std::span` `view_`. Reading an index outside the span and calling
`subspan`/`first` with an offset or count beyond the span is undefined behaviour.

Offsets are sums of skipped lengths; they are `size_t` in the code and natural numbers here, which
is the same for buffers below 2^63 bytes (see `skip_le`).
-/

namespace Zer.MsgPack

/-! ## Helpers -/

/-- `mp_read_be16(p)`, msgpack.hpp:23-25 -/
def readBe16 (v : Bytes) (p : Nat) : Res Nat := do
  let x0 ← byteAt v p
  let x1 ← byteAt v (p + 1)
  pure (x0 * 2 ^ 8 + x1)

/-- `mp_read_be32(p)`, msgpack.hpp:26-28. Shifted bytes do not overlap, so `|` is `+`. -/
def readBe32 (v : Bytes) (p : Nat) : Res Nat := do
  let x0 ← byteAt v p
  let x1 ← byteAt v (p + 1)
  let x2 ← byteAt v (p + 2)
  let x3 ← byteAt v (p + 3)
  pure (x0 * 2 ^ 24 + x1 * 2 ^ 16 + x2 * 2 ^ 8 + x3)

/-- `mp_read_be64(p)`, msgpack.hpp:29-32 -/
def readBe64 (v : Bytes) (p : Nat) : Res Nat := do
  let x0 ← byteAt v p
  let x1 ← byteAt v (p + 1)
  let x2 ← byteAt v (p + 2)
  let x3 ← byteAt v (p + 3)
  let x4 ← byteAt v (p + 4)
  let x5 ← byteAt v (p + 5)
  let x6 ← byteAt v (p + 6)
  let x7 ← byteAt v (p + 7)
  pure (x0 * 2 ^ 56 + x1 * 2 ^ 48 + x2 * 2 ^ 40 + x3 * 2 ^ 32 + x4 * 2 ^ 24 + x5 * 2 ^ 16 +
    x6 * 2 ^ 8 + x7)

/-- `v.subspan(off)`: undefined if `off > v.size()`. -/
def subspan (v : Bytes) (off : Nat) : Res Bytes :=
  if off ≤ v.length then .ok (v.drop off) else .ub

/-- `v.first(n)`: undefined if `n > v.size()`. -/
def first (v : Bytes) (n : Nat) : Res Bytes :=
  if n ≤ v.length then .ok (v.take n) else .ub

/-! ## Skipping, msgpack.hpp:38-106 -/

/-- The loops of `mp_skip`: skip `n` consecutive elements of `v` starting at `off`. A map loop
skips a key and a value per round, i.e. `2 * count` elements. -/
def skipLoop (rec : Bytes → Res Nat) (v : Bytes) : Nat → Nat → Res Nat
  | 0, off => pure off
  | n + 1, off => do
    let w ← subspan v off
    let s ← rec w
    skipLoop rec v n (off + s)

/-- `mp_skip`, msgpack.hpp:38-106; the fuel bounds the recursion depth. -/
def mpSkip : Nat → Bytes → Res Nat
  | 0, _ => .diverge
  | f + 1, v =>
    match v with
    | [] => .err .deser
    | b :: _ =>
      let m := b.toNat
      -- nil/bool/fixint, line 43
      if m ≤ 0x7f ∨ m ≥ 0xe0 ∨ m = 0xc0 ∨ m = 0xc2 ∨ m = 0xc3 then pure 1
      -- fixstr, line 46
      else if m &&& 0xe0 = 0xa0 then pure (1 + (m &&& 0x1f))
      -- fixarray, lines 48-52
      else if m &&& 0xf0 = 0x90 then skipLoop (mpSkip f) v (m &&& 0x0f) 1
      -- fixmap, lines 54-61
      else if m &&& 0xf0 = 0x80 then skipLoop (mpSkip f) v (2 * (m &&& 0x0f)) 1
      -- ints / floats, lines 65-68
      else if m = 0xcc ∨ m = 0xd0 then pure 2
      else if m = 0xcd ∨ m = 0xd1 then pure 3
      else if m = 0xce ∨ m = 0xd2 ∨ m = 0xca then pure 5
      else if m = 0xcf ∨ m = 0xd3 ∨ m = 0xcb then pure 9
      -- str8/bin8, lines 71, 76
      else if m = 0xd9 ∨ m = 0xc4 then do
        Res.require (decide (2 ≤ v.length)) .deser
        let n ← byteAt v 1
        pure (2 + n)
      -- str16/bin16, lines 72, 77
      else if m = 0xda ∨ m = 0xc5 then do
        Res.require (decide (3 ≤ v.length)) .deser
        let n ← readBe16 v 1
        pure (3 + n)
      -- str32/bin32, lines 73, 78: `5 + uint32_t` is computed in 32 bits and wraps
      else if m = 0xdb ∨ m = 0xc6 then do
        Res.require (decide (5 ≤ v.length)) .deser
        let n ← readBe32 v 1
        pure ((5 + n) % 2 ^ 32)
      -- array16, lines 81-85
      else if m = 0xdc then do
        Res.require (decide (3 ≤ v.length)) .deser
        let n ← readBe16 v 1
        skipLoop (mpSkip f) v n 3
      -- array32, lines 86-90
      else if m = 0xdd then do
        Res.require (decide (5 ≤ v.length)) .deser
        let n ← readBe32 v 1
        skipLoop (mpSkip f) v n 5
      -- map16, lines 93-97
      else if m = 0xde then do
        Res.require (decide (3 ≤ v.length)) .deser
        let n ← readBe16 v 1
        skipLoop (mpSkip f) v (2 * n) 3
      -- map32, lines 98-102
      else if m = 0xdf then do
        Res.require (decide (5 ≤ v.length)) .deser
        let n ← readBe32 v 1
        skipLoop (mpSkip f) v (2 * n) 5
      -- line 105
      else .err .deser

/-- `mp_skip` with enough fuel (`mpSkip_fuel`). -/
def skip (v : Bytes) : Res Nat := mpSkip (v.length + 1) v

/-! ## Headers, msgpack.hpp:116-144; payload offset and length/count. No bound checks. -/

/-- msgpack.hpp:116-123 -/
def strInfo (v : Bytes) : Res (Nat × Nat) := do
  let m ← byteAt v 0
  if m &&& 0xe0 = 0xa0 then pure (1, m &&& 0x1f)
  else if m = 0xd9 then do let n ← byteAt v 1; pure (2, n)
  else if m = 0xda then do let n ← readBe16 v 1; pure (3, n)
  else if m = 0xdb then do let n ← readBe32 v 1; pure (5, n)
  else .err .deser

/-- msgpack.hpp:124-130 -/
def binInfo (v : Bytes) : Res (Nat × Nat) := do
  let m ← byteAt v 0
  if m = 0xc4 then do let n ← byteAt v 1; pure (2, n)
  else if m = 0xc5 then do let n ← readBe16 v 1; pure (3, n)
  else if m = 0xc6 then do let n ← readBe32 v 1; pure (5, n)
  else .err .deser

/-- msgpack.hpp:131-137; (count, offset) -/
def arrInfo (v : Bytes) : Res (Nat × Nat) := do
  let m ← byteAt v 0
  if m &&& 0xf0 = 0x90 then pure (m &&& 0x0f, 1)
  else if m = 0xdc then do let n ← readBe16 v 1; pure (n, 3)
  else if m = 0xdd then do let n ← readBe32 v 1; pure (n, 5)
  else .err .deser

/-- msgpack.hpp:138-144; (count, offset) -/
def mapInfo (v : Bytes) : Res (Nat × Nat) := do
  let m ← byteAt v 0
  if m &&& 0xf0 = 0x80 then pure (m &&& 0x0f, 1)
  else if m = 0xde then do let n ← readBe16 v 1; pure (n, 3)
  else if m = 0xdf then do let n ← readBe32 v 1; pure (n, 5)
  else .err .deser

/-! ## Predicates, msgpack.hpp:242-265 -/

/-- Common shape: false on an empty view, else a test on the first byte. -/
def onMarker (v : Bytes) (t : Nat → Bool) : Bool :=
  match v with
  | [] => false
  | b :: _ => t b.toNat

/-- msgpack.hpp:242 -/
def isNull (v : Bytes) : Bool := onMarker v (fun m => decide (m = 0xc0))
/-- msgpack.hpp:243 -/
def isBool (v : Bytes) : Bool := onMarker v (fun m => decide (m = 0xc2 ∨ m = 0xc3))
/-- msgpack.hpp:244-247 -/
def isInt (v : Bytes) : Bool := onMarker v (fun m =>
  decide (m ≤ 0x7f ∨ m ≥ 0xe0 ∨ m = 0xd0 ∨ m = 0xd1 ∨ m = 0xd2 ∨ m = 0xd3))
/-- msgpack.hpp:248-251 -/
def isUInt (v : Bytes) : Bool := onMarker v (fun m =>
  decide (m ≤ 0x7f ∨ m = 0xcc ∨ m = 0xcd ∨ m = 0xce ∨ m = 0xcf))
/-- msgpack.hpp:252 -/
def isFloat (v : Bytes) : Bool := onMarker v (fun m => decide (m = 0xca ∨ m = 0xcb))
/-- msgpack.hpp:253-256 -/
def isString (v : Bytes) : Bool := onMarker v (fun m =>
  decide (m &&& 0xe0 = 0xa0 ∨ m = 0xd9 ∨ m = 0xda ∨ m = 0xdb))
/-- msgpack.hpp:257 -/
def isBlob (v : Bytes) : Bool := onMarker v (fun m => decide (m = 0xc4 ∨ m = 0xc5 ∨ m = 0xc6))
/-- msgpack.hpp:258-261 -/
def isArray (v : Bytes) : Bool := onMarker v (fun m =>
  decide (m &&& 0xf0 = 0x90 ∨ m = 0xdc ∨ m = 0xdd))
/-- msgpack.hpp:262-265 -/
def isMap (v : Bytes) : Bool := onMarker v (fun m =>
  decide (m &&& 0xf0 = 0x80 ∨ m = 0xde ∨ m = 0xdf))

/-! ## Scalars -/

/-- Two's complement reading of the low `w` bits: `int8_t(x)` etc. -/
def toSigned (w x : Nat) : Int := if x < 2 ^ (w - 1) then (x : Int) else (x : Int) - 2 ^ w

/-- Conversion of a mathematical integer to `int64_t` (modulo 2^64). -/
def i64 (z : Int) : Int64 := Int64.ofInt z

/-- `asInt64`, msgpack.hpp:292-307. The last conversion, from `uint64_t`, wraps. -/
def asInt64 (v : Bytes) : Res Int64 := do
  Res.require (decide (v.length ≠ 0)) .deser
  let m ← byteAt v 0
  if m ≤ 0x7f then pure (i64 m)
  else if m ≥ 0xe0 then pure (i64 (toSigned 8 m))
  else if m = 0xd0 then do
    Res.require (decide (2 ≤ v.length)) .deser
    let x ← byteAt v 1; pure (i64 (toSigned 8 x))
  else if m = 0xd1 then do
    Res.require (decide (3 ≤ v.length)) .deser
    let x ← readBe16 v 1; pure (i64 (toSigned 16 x))
  else if m = 0xd2 then do
    Res.require (decide (5 ≤ v.length)) .deser
    let x ← readBe32 v 1; pure (i64 (toSigned 32 x))
  else if m = 0xd3 then do
    Res.require (decide (9 ≤ v.length)) .deser
    let x ← readBe64 v 1; pure (i64 (toSigned 64 x))
  else if m = 0xcc then do
    Res.require (decide (2 ≤ v.length)) .deser
    let x ← byteAt v 1; pure (i64 x)
  else if m = 0xcd then do
    Res.require (decide (3 ≤ v.length)) .deser
    let x ← readBe16 v 1; pure (i64 x)
  else if m = 0xce then do
    Res.require (decide (5 ≤ v.length)) .deser
    let x ← readBe32 v 1; pure (i64 x)
  else if m = 0xcf then do
    Res.require (decide (9 ≤ v.length)) .deser
    let x ← readBe64 v 1; pure (i64 x)
  else .err .deser

/-- `asUInt64`, msgpack.hpp:333-343. The fall-back conversion from `int64_t` wraps. -/
def asUInt64 (v : Bytes) : Res UInt64 := do
  Res.require (decide (v.length ≠ 0)) .deser
  let m ← byteAt v 0
  if m ≤ 0x7f then pure (UInt64.ofNat m)
  else if m = 0xcc then do
    Res.require (decide (2 ≤ v.length)) .deser
    let x ← byteAt v 1; pure (UInt64.ofNat x)
  else if m = 0xcd then do
    Res.require (decide (3 ≤ v.length)) .deser
    let x ← readBe16 v 1; pure (UInt64.ofNat x)
  else if m = 0xce then do
    Res.require (decide (5 ≤ v.length)) .deser
    let x ← readBe32 v 1; pure (UInt64.ofNat x)
  else if m = 0xcf then do
    Res.require (decide (9 ≤ v.length)) .deser
    let x ← readBe64 v 1; pure (UInt64.ofNat x)
  else do
    let x ← asInt64 v
    pure x.toUInt64

/-- `asInt8/16/32`, msgpack.hpp:268-290, for width `w`. -/
def asIntN (w : Nat) (v : Bytes) : Res Int := do
  let x ← asInt64 v
  if x.toInt < -(2 ^ (w - 1) : Int) ∨ x.toInt > (2 ^ (w - 1) : Int) - 1 then .err .deser
  else pure x.toInt

/-- `asUInt8/16/32`, msgpack.hpp:309-331, for width `w`. -/
def asUIntN (w : Nat) (v : Bytes) : Res Nat := do
  let x ← asUInt64 v
  if x.toNat > 2 ^ w - 1 then .err .deser
  else pure x.toNat

/-- `asDouble`, msgpack.hpp:349-355; bits of the double. -/
def asDouble (v : Bytes) : Res UInt64 := do
  Res.require (isFloat v) .deser
  let m ← byteAt v 0
  if m = 0xca then do
    Res.require (decide (5 ≤ v.length)) .deser
    let x ← readBe32 v 1; pure (UInt64.ofNat (widen32 x))
  else if m = 0xcb then do
    Res.require (decide (9 ≤ v.length)) .deser
    let x ← readBe64 v 1; pure (UInt64.ofNat x)
  else .err .deser

/-- `asBool`, msgpack.hpp:357 -/
def asBool (v : Bytes) : Res Bool := do
  Res.require (isBool v) .deser
  let m ← byteAt v 0
  pure (decide (m = 0xc3))

/-- `asStringView`, msgpack.hpp:360-363 -/
def asStringView (v : Bytes) : Res Bytes := do
  let (p, n) ← strInfo v
  sliceAt v p n

/-- `asString`, msgpack.hpp:359 -/
def asString (v : Bytes) : Res Bytes := asStringView v

/-- `asBlob`, msgpack.hpp:365-368 -/
def asBlob (v : Bytes) : Res Bytes := do
  let (p, n) ← binInfo v
  sliceAt v p n

/-! ## Maps -/

/-- `KeysView::iterator::operator*`, msgpack.hpp:394-401 -/
def keyDeref (v : Bytes) (off : Nat) : Res Bytes := do
  let ks ← subspan v off
  let sz ← skip ks
  let kd ← first ks sz
  asStringView kd

/-- `KeysView::iterator::operator++`, msgpack.hpp:402-410; the new `off`. -/
def keyNext (v : Bytes) (off : Nat) : Res Nat := do
  let ks ← subspan v off
  let ksz ← skip ks
  let vs ← subspan v (off + ksz)
  let vsz ← skip vs
  pure (off + (ksz + vsz))

/-- `KeysView::end`, msgpack.hpp:419-429: walk all entries. -/
def keysEnd (v : Bytes) (n off : Nat) : Res Nat := skipLoop skip v (2 * n) off

/-- Range-for over the keys: compare with `end()` by index and offset (msgpack.hpp:413-415; the
`data()` pointers are equal by construction), read
the key, advance. -/
def keysFrom (v : Bytes) (count endOff : Nat) : Nat → Nat → Nat → Res (List Bytes)
  | 0, _, _ => .diverge
  | f + 1, i, off =>
    if i = count ∧ off = endOff then pure []
    else do
      let k ← keyDeref v off
      let off' ← keyNext v off
      let ks ← keysFrom v count endOff f (i + 1) off'
      pure (k :: ks)

/-- `mapKeys()`, msgpack.hpp:432-436, followed by a complete range-for. -/
def mapKeys (v : Bytes) : Res (List Bytes) := do
  Res.require (isMap v) .deser
  let (n, off) ← mapInfo v
  let e ← keysEnd v n off
  keysFrom v n e (n + 1) 0 off

/-- Whether the key view matches, msgpack.hpp:448, 466. -/
def keyHit (kd key : Bytes) : Res Bool :=
  if isString kd then do
    let s ← asStringView kd
    pure (decide (s = key))
  else pure false

/-- Loop of `contains`, msgpack.hpp:441-453. -/
def containsFrom (v key : Bytes) : Nat → Nat → Res Bool
  | 0, _ => pure false
  | n + 1, off => do
    let ks ← subspan v off
    let ksz ← skip ks
    let kd ← first ks ksz
    let vs ← subspan v (off + ksz)
    let vsz ← skip vs
    let hit ← keyHit kd key
    if hit then pure true
    else containsFrom v key n (off + ksz + vsz)

/-- `contains`, msgpack.hpp:438-454 -/
def contains (v key : Bytes) : Res Bool :=
  if isMap v then do
    let (n, off) ← mapInfo v
    containsFrom v key n off
  else pure false

/-- Loop of `operator[](string_view)`, msgpack.hpp:459-470. -/
def getKeyFrom (v key : Bytes) : Nat → Nat → Res Bytes
  | 0, _ => .err .deser
  | n + 1, off => do
    let ks ← subspan v off
    let ksz ← skip ks
    let kd ← first ks ksz
    let vs ← subspan v (off + ksz)
    let vsz ← skip vs
    let hit ← keyHit kd key
    if hit then first vs vsz
    else getKeyFrom v key n (off + ksz + vsz)

/-- `operator[](string_view)`, msgpack.hpp:456-472 -/
def getKey (v key : Bytes) : Res Bytes := do
  Res.require (isMap v) .deser
  let (n, off) ← mapInfo v
  getKeyFrom v key n off

/-! ## Arrays -/

/-- `arraySize`, msgpack.hpp:475-477 -/
def arraySize (v : Bytes) : Res Nat := do
  let (n, _) ← arrInfo v
  pure n

/-- `operator[](size_t)`, msgpack.hpp:479-485; `view_.subspan(off, sz)` is `subspan(off).first(sz)`. -/
def getIdx (v : Bytes) (idx : Nat) : Res Bytes := do
  let (n, off) ← arrInfo v
  Res.require (decide (idx < n)) .deser
  let off ← skipLoop skip v idx off
  let w ← subspan v off
  let sz ← skip w
  first w sz

/-- The reader as an instance of the `Reader` concept. -/
def reader : Reader Bytes where
  isNull v := .ok (isNull v)
  isBool v := .ok (isBool v)
  isInt v := .ok (isInt v)
  isUInt v := .ok (isUInt v)
  isFloat v := .ok (isFloat v)
  isString v := .ok (isString v)
  isBlob v := .ok (isBlob v)
  isMap v := .ok (isMap v)
  isArray v := .ok (isArray v)
  asBool := asBool
  asInt64 := asInt64
  asUInt64 := asUInt64
  asDouble := asDouble
  asString := asString
  asStringView := asStringView
  asBlob := asBlob
  mapKeys := mapKeys
  contains := contains
  getKey := getKey
  arraySize := arraySize
  getIdx := getIdx

/-! ## Writer: the msgpack-c packer (external; documented encodings), msgpack.hpp:497-547 -/

/-- Big-endian bytes of the low `8 * k` bits of `n` (`_msgpack_store16/32/64`). -/
def beBytes : Nat → Nat → Bytes
  | 0, _ => []
  | k + 1, n => UInt8.ofNat (n / 2 ^ (8 * k)) :: beBytes k n

/-- `msgpack_pack_uint64` -/
def packUInt (n : Nat) : Bytes :=
  if n < 2 ^ 7 then [UInt8.ofNat n]
  else if n < 2 ^ 8 then 0xcc :: beBytes 1 n
  else if n < 2 ^ 16 then 0xcd :: beBytes 2 n
  else if n < 2 ^ 32 then 0xce :: beBytes 4 n
  else 0xcf :: beBytes 8 n

/-- `msgpack_pack_int64`; `i` is the number, negative numbers are stored modulo `2^(8k)`. -/
def packInt (i : Int) : Bytes :=
  if i < -(2 ^ 5) then
    if i < -(2 ^ 15) then
      if i < -(2 ^ 31) then 0xd3 :: beBytes 8 (i + 2 ^ 64).toNat
      else 0xd2 :: beBytes 4 (i + 2 ^ 32).toNat
    else if i < -(2 ^ 7) then 0xd1 :: beBytes 2 (i + 2 ^ 16).toNat
    else 0xd0 :: beBytes 1 (i + 2 ^ 8).toNat
  else if i < 0 then [UInt8.ofNat (i + 2 ^ 8).toNat]
  else packUInt i.toNat

/-- `msgpack_pack_str`; the length is truncated to 32 bits. -/
def packStrHead (n : Nat) : Bytes :=
  if n < 32 then [UInt8.ofNat (0xa0 ||| n)]
  else if n < 2 ^ 8 then 0xd9 :: beBytes 1 n
  else if n < 2 ^ 16 then 0xda :: beBytes 2 n
  else 0xdb :: beBytes 4 n

/-- `msgpack_pack_bin` -/
def packBinHead (n : Nat) : Bytes :=
  if n < 2 ^ 8 then 0xc4 :: beBytes 1 n
  else if n < 2 ^ 16 then 0xc5 :: beBytes 2 n
  else 0xc6 :: beBytes 4 n

/-- `msgpack_pack_array` -/
def packArrHead (n : Nat) : Bytes :=
  if n < 16 then [UInt8.ofNat (0x90 ||| n)]
  else if n < 2 ^ 16 then 0xdc :: beBytes 2 n
  else 0xdd :: beBytes 4 n

/-- `msgpack_pack_map` -/
def packMapHead (n : Nat) : Bytes :=
  if n < 16 then [UInt8.ofNat (0x80 ||| n)]
  else if n < 2 ^ 16 then 0xde :: beBytes 2 n
  else 0xdf :: beBytes 4 n

/-- The bytes one writer call appends, `MsgPackSerializer`, msgpack.hpp:518-547. -/
def packEv : Ev → Bytes
  | .null => [0xc0]
  | .bool b => [if b then 0xc3 else 0xc2]
  | .int i => packInt i.toInt
  | .uint n => packUInt n.toNat
  | .dbl d => 0xcb :: beBytes 8 d.toNat
  | .str s => packStrHead s.length ++ s
  | .blob s => packBinHead s.length ++ s
  | .key k => packStrHead k.length ++ k
  | .beginArr n => packArrHead n
  | .endArr => []
  | .beginMap n => packMapHead n
  | .endMap => []

/-- The writer. It never raises; allocation failure is not modelled. -/
def writer : Writer Bytes := ⟨fun s e => .ok (s ++ packEv e)⟩

/-- The protocol; `finish` hands out the buffer, msgpack.hpp:508-515. -/
def proto : Proto where
  σ := Bytes
  ρ := Bytes
  writer := writer
  init := []
  finish := .ok
  reader := reader
  opn := .ok

end Zer.MsgPack
