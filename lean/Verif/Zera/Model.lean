import Verif.Reader

/-!
# Model of the ZERA protocol

Transcribed from `include/zerialize/protocols/zera.hpp` (cited as `zera.hpp`). Function names
follow the C++ names. Byte-exact: envelope, arena, header and ValueRef16 are lists of bytes.
-/

namespace Zer.Zera

/-- zera.hpp:30 -/
def Magic : Nat := 0x564E455A
/-- zera.hpp:31 -/
def Version : Nat := 1
/-- zera.hpp:32 -/
def HeaderSize : Nat := 20
/-- zera.hpp:33 -/
def ArenaBaseAlign : Nat := 16
/-- zera.hpp:34 -/
def InlineMax : Nat := 12
/-- zera.hpp:35 -/
def RankMax : Nat := 8

/-! Tag numbers, zera.hpp:37-47 -/
def tNull : Nat := 0
def tBool : Nat := 1
def tI64 : Nat := 2
def tF64 : Nat := 3
def tString : Nat := 4
def tArray : Nat := 5
def tObject : Nat := 6
def tTyped : Nat := 7
def tU64 : Nat := 8
/-- `DType::U8`, zera.hpp:51 -/
def dtU8 : Nat := 2

/-! ## Little-endian helpers, zera.hpp:63-106 -/

/-- zera.hpp:63-65 -/
def readU16 (b : Bytes) (p : Nat) : Res Nat := do
  let x0 ← byteAt b p
  let x1 ← byteAt b (p + 1)
  pure (x0 ||| (x1 <<< 8))

/-- zera.hpp:66-71 -/
def readU32 (b : Bytes) (p : Nat) : Res Nat := do
  let x0 ← byteAt b p
  let x1 ← byteAt b (p + 1)
  let x2 ← byteAt b (p + 2)
  let x3 ← byteAt b (p + 3)
  pure (x0 ||| (x1 <<< 8) ||| (x2 <<< 16) ||| (x3 <<< 24))

/-- zera.hpp:72-74 -/
def readU64 (b : Bytes) (p : Nat) : Res Nat := do
  let lo ← readU32 b p
  let hi ← readU32 b (p + 4)
  pure (lo ||| (hi <<< 32))

/-- The two bytes appended by `append_u16_le`, zera.hpp:76-79 -/
def le16 (v : Nat) : Bytes := [UInt8.ofNat (v &&& 0xff), UInt8.ofNat ((v >>> 8) &&& 0xff)]

/-- The four bytes appended by `append_u32_le`, zera.hpp:80-85 -/
def le32 (v : Nat) : Bytes :=
  [UInt8.ofNat (v &&& 0xff), UInt8.ofNat ((v >>> 8) &&& 0xff),
   UInt8.ofNat ((v >>> 16) &&& 0xff), UInt8.ofNat ((v >>> 24) &&& 0xff)]

/-- `write_u32_le_at`, zera.hpp:95-100; `out.at` throws `std::out_of_range`. -/
def writeU32At (out : Bytes) (pos v : Nat) : Res Bytes :=
  if pos + 4 ≤ out.length then .ok (out.take pos ++ le32 v ++ out.drop (pos + 4))
  else .err .outOfRange

/-- zera.hpp:102-106 -/
def alignUp (x a : Nat) : Nat :=
  if a = 0 then x
  else
    let r := x % a
    if r ≠ 0 then x + (a - r) else x

/-! ## Reader -/

/-- `HeaderView`, zera.hpp:112-119 -/
structure Header where
  magic : Nat
  version : Nat
  flags : Nat
  rootOfs : Nat
  envSize : Nat
  arenaOfs : Nat

/-- zera.hpp:121-131 -/
def parseHeader (buf : Bytes) : Res Header := do
  Res.require (decide (HeaderSize ≤ buf.length)) .deser
  let magic ← readU32 buf 0
  let version ← readU16 buf 4
  let flags ← readU16 buf 6
  let rootOfs ← readU32 buf 8
  let envSize ← readU32 buf 12
  let arenaOfs ← readU32 buf 16
  pure ⟨magic, version, flags, rootOfs, envSize, arenaOfs⟩

/-- A reader position (`ZeraViewBase`, zera.hpp:135-157). Pointers are offsets from the start of
the buffer: `env_` is always `HeaderSize`, `arena_` is `arenaOfs`, `arena_len_` is
`buf.length - arenaOfs`, `vr_` is `vr` (`none` for the null pointer of a default-constructed
reader). -/
structure View where
  buf : Bytes
  envSize : Nat
  arenaOfs : Nat
  vr : Option Nat
  deriving DecidableEq, Repr

namespace View

/-- `arena_len_`, zera.hpp:142, 509 -/
def arenaLen (v : View) : Nat := v.buf.length - v.arenaOfs

/-- zera.hpp:166-169; returns the offset of the ValueRef16. -/
def requireVr (v : View) : Res Nat :=
  match v.vr with
  | none => .err .deser
  | some p => do
    Res.require (decide (HeaderSize ≤ p) && decide (p + 16 ≤ HeaderSize + v.envSize)) .deser
    pure p

/-- zera.hpp:171 -/
def tag (v : View) : Res Nat := do let p ← v.requireVr; byteAt v.buf p
/-- zera.hpp:172 -/
def flags (v : View) : Res Nat := do let p ← v.requireVr; byteAt v.buf (p + 1)
/-- zera.hpp:173 -/
def aux (v : View) : Res Nat := do let p ← v.requireVr; readU16 v.buf (p + 2)
/-- zera.hpp:174 -/
def a (v : View) : Res Nat := do let p ← v.requireVr; readU32 v.buf (p + 4)
/-- zera.hpp:175 -/
def b (v : View) : Res Nat := do let p ← v.requireVr; readU32 v.buf (p + 8)
/-- zera.hpp:176 -/
def c (v : View) : Res Nat := do let p ← v.requireVr; readU32 v.buf (p + 12)

/-- zera.hpp:178-182; the view as (offset, length). -/
def inlineBytes (v : View) (n : Nat) : Res (Nat × Nat) := do
  Res.require (decide (n ≤ InlineMax)) .deser
  let p ← v.requireVr
  pure (p + 4, n)

/-- zera.hpp:184-189 and 191-196 (same body); the view as (offset, length). -/
def arenaBytes (v : View) (ofs len : Nat) : Res (Nat × Nat) := do
  Res.require (decide (ofs ≤ v.arenaLen)) .deser
  Res.require (decide (len ≤ v.arenaLen)) .deser
  Res.require (decide (ofs + len ≤ v.arenaLen)) .deser
  pure (v.arenaOfs + ofs, len)

/-- zera.hpp:198-203; `ofs` is a `uint32_t`, callers truncate. Returns a buffer offset. -/
def envPtrAt (v : View) (ofs need : Nat) : Res Nat := do
  Res.require (decide (ofs ≤ v.envSize)) .deser
  Res.require (decide (need ≤ v.envSize)) .deser
  Res.require (decide (ofs + need ≤ v.envSize)) .deser
  pure (HeaderSize + ofs)

/-- zera.hpp:205-213 -/
def requireFlagsOk (v : View) : Res Unit := do
  let t ← v.tag
  let fl ← v.flags
  if t = tString then
    Res.require (decide (fl &&& 0xfe = 0)) .deser
  else
    Res.require (decide (fl = 0)) .deser

/-! Predicates, zera.hpp:217-225 -/

def isNull (v : View) : Res Bool := do let t ← v.tag; pure (decide (t = tNull))
def isBool (v : View) : Res Bool := do let t ← v.tag; pure (decide (t = tBool))
def isInt (v : View) : Res Bool := do let t ← v.tag; pure (decide (t = tI64))
def isUInt (v : View) : Res Bool := do let t ← v.tag; pure (decide (t = tU64))
def isFloat (v : View) : Res Bool := do let t ← v.tag; pure (decide (t = tF64))
def isString (v : View) : Res Bool := do let t ← v.tag; pure (decide (t = tString))
def isArray (v : View) : Res Bool := do let t ← v.tag; pure (decide (t = tArray))
def isMap (v : View) : Res Bool := do let t ← v.tag; pure (decide (t = tObject))
/-- zera.hpp:225 -/
def isBlob (v : View) : Res Bool := do
  let t ← v.tag
  if t = tTyped then do
    let x ← v.aux
    pure (decide (x = dtU8))
  else pure false

/-- zera.hpp:228-234 -/
def asBool (v : View) : Res Bool := do
  let t ← v.tag
  Res.require (decide (t = tBool)) .deser
  v.requireFlagsOk
  let x ← v.aux
  Res.require (decide (x = 0) || decide (x = 1)) .deser
  pure (decide (x = 1))

/-- `uint64(a()) | (uint64(b()) << 32)`, zera.hpp:239, 250, 262 -/
def bits (v : View) : Res Nat := do
  let lo ← v.a
  let hi ← v.b
  pure (lo ||| (hi <<< 32))

/-- zera.hpp:236-245 -/
def asInt64 (v : View) : Res Int64 := do
  let t ← v.tag
  Res.require (decide (t = tI64) || decide (t = tU64)) .deser
  v.requireFlagsOk
  let bits ← v.bits
  let t' ← v.tag
  if t' = tU64 then do
    Res.require (decide (bits ≤ 2 ^ 63 - 1)) .deser
    pure (UInt64.ofNat bits).toInt64
  else pure (UInt64.ofNat bits).toInt64

/-- zera.hpp:247-257 -/
def asUInt64 (v : View) : Res UInt64 := do
  let t ← v.tag
  Res.require (decide (t = tU64) || decide (t = tI64)) .deser
  v.requireFlagsOk
  let bits ← v.bits
  let t' ← v.tag
  if t' = tI64 then do
    let si := (UInt64.ofNat bits).toInt64
    Res.require (decide (0 ≤ si.toInt)) .deser
    pure si.toUInt64
  else pure (UInt64.ofNat bits)

/-- zera.hpp:259-267; the result is the bit pattern of the double. -/
def asDouble (v : View) : Res UInt64 := do
  let t ← v.tag
  Res.require (decide (t = tF64)) .deser
  v.requireFlagsOk
  let bits ← v.bits
  pure (UInt64.ofNat bits)

/-- `asInt8/16/32`, zera.hpp:271-288, for width `w`. The result is the mathematical value. -/
def asIntN (w : Nat) (v : View) : Res Int := do
  let x ← v.asInt64
  if x.toInt < -(2 ^ (w - 1) : Int) ∨ x.toInt > (2 ^ (w - 1) : Int) - 1 then .err .deser
  else pure x.toInt

/-- `asUInt8/16/32`, zera.hpp:290-304, for width `w`. -/
def asUIntN (w : Nat) (v : View) : Res Nat := do
  let x ← v.asUInt64
  if x.toNat > 2 ^ w - 1 then .err .deser
  else pure x.toNat

/-- Range seen by `asStringView`, zera.hpp:306-316, as (offset, length). -/
def stringRange (v : View) : Res (Nat × Nat) := do
  let t ← v.tag
  Res.require (decide (t = tString)) .deser
  v.requireFlagsOk
  let fl ← v.flags
  if fl &&& 1 ≠ 0 then do
    let len ← v.aux
    Res.require (decide (len ≤ InlineMax)) .deser
    v.inlineBytes len
  else do
    let x ← v.a
    let y ← v.b
    v.arenaBytes x y

/-- zera.hpp:306-316: the bytes of the view. -/
def asStringView (v : View) : Res Bytes := do
  let (p, n) ← v.stringRange
  sliceAt v.buf p n

/-- zera.hpp:318-321: copies the view. -/
def asString (v : View) : Res Bytes := v.asStringView

/-- Range seen by `asBlob`, zera.hpp:323-337, as (offset, length). -/
def blobRange (v : View) : Res (Nat × Nat) := do
  let isb ← v.isBlob
  Res.require isb .deser
  v.requireFlagsOk
  let shapeOfs ← v.c
  let sp ← v.envPtrAt shapeOfs 4
  let rank ← readU32 v.buf sp
  Res.require (decide (rank ≤ RankMax)) .deser
  Res.require (decide (rank = 1)) .deser
  let _ ← v.envPtrAt shapeOfs (4 + 8 * rank)
  let dim0 ← readU64 v.buf (HeaderSize + shapeOfs + 4)
  let y ← v.b
  Res.require (decide (dim0 = y)) .deser
  let x ← v.a
  v.arenaBytes x y

/-- zera.hpp:323-337: the bytes of the span. -/
def asBlob (v : View) : Res Bytes := do
  let (p, n) ← v.blobRange
  sliceAt v.buf p n

/-- zera.hpp:339-347. The `size_t` arithmetic cannot wrap: `count < 2^32`. -/
def arraySize (v : View) : Res Nat := do
  let t ← v.tag
  Res.require (decide (t = tArray)) .deser
  v.requireFlagsOk
  let arrOfs ← v.a
  let p ← v.envPtrAt arrOfs 4
  let count ← readU32 v.buf p
  let _ ← v.envPtrAt arrOfs (4 + 16 * count)
  pure count

/-- `KeysView::iterator::operator*` at `cur` (a buffer offset) with `i < n`, zera.hpp:366-371.
The key length is read before any bound check. -/
def keyDeref (v : View) (cur : Nat) : Res Bytes := do
  let keyLen ← readU16 v.buf cur
  let _ ← v.envPtrAt (u32 (cur - HeaderSize)) (4 + keyLen + 16)
  sliceAt v.buf (cur + 4) keyLen

/-- `KeysView::iterator::operator++` with `i < n`, zera.hpp:373-381. -/
def keyNext (v : View) (cur : Nat) : Res Nat := do
  let keyLen ← readU16 v.buf cur
  let adv := 4 + keyLen + 16
  let curOfs := u32 (cur - HeaderSize)
  v.envPtrAt (u32 (curOfs + u32 adv)) 0

/-- Range-for over the remaining `n` keys from `cur`. -/
def keysFrom (v : View) : Nat → Nat → Res (List Bytes)
  | 0, _ => pure []
  | n + 1, cur => do
    let k ← v.keyDeref cur
    let cur' ← v.keyNext cur
    let ks ← keysFrom v n cur'
    pure (k :: ks)

/-- `mapKeys()`, zera.hpp:393-401, followed by a complete range-for, zera.hpp:386-390.
`obj_ofs + 4` is `uint32_t` arithmetic. -/
def mapKeys (v : View) : Res (List Bytes) := do
  let t ← v.tag
  Res.require (decide (t = tObject)) .deser
  v.requireFlagsOk
  let objOfs ← v.a
  let p ← v.envPtrAt objOfs 4
  let count ← readU32 v.buf p
  let entries ← v.envPtrAt (u32 (objOfs + 4)) 0
  v.keysFrom count entries

/-- `key_len == key.size() && memcmp(kp, key.data(), key_len) == 0`, zera.hpp:415 and 479. -/
def keyHit (v : View) (key : Bytes) (kp keyLen : Nat) : Res Bool :=
  if keyLen = key.length then do
    let kb ← sliceAt v.buf kp key.length
    pure (decide (kb = key))
  else pure false

/-- Loop of `contains`, zera.hpp:410-419, with `n` iterations left at entry offset `ofs`. -/
def containsFrom (v : View) (key : Bytes) : Nat → Nat → Res Bool
  | 0, _ => pure false
  | n + 1, ofs => do
    let e ← v.envPtrAt (u32 ofs) 4
    let keyLen ← readU16 v.buf e
    let _ ← readU16 v.buf (e + 2)
    let kp ← v.envPtrAt (u32 (ofs + 4)) keyLen
    let hit ← v.keyHit key kp keyLen
    if hit then pure true
    else do
      let ofs' := ofs + (4 + keyLen + 16)
      let _ ← v.envPtrAt (u32 ofs') 0
      containsFrom v key n ofs'

/-- zera.hpp:403-421 -/
def contains (v : View) (key : Bytes) : Res Bool := do
  let m ← v.isMap
  if !m then pure false
  else do
    v.requireFlagsOk
    let objOfs ← v.a
    let p ← v.envPtrAt objOfs 4
    let count ← readU32 v.buf p
    v.containsFrom key count (u32 (objOfs + 4))

/-- zera.hpp:453-463. `elem_ofs` is a `size_t` (no wrap, `idx < count < 2^32`) and is truncated to
`uint32_t` before the bound check. -/
def getIdx (v : View) (idx : Nat) : Res View := do
  let t ← v.tag
  Res.require (decide (t = tArray)) .deser
  v.requireFlagsOk
  let arrOfs ← v.a
  let p ← v.envPtrAt arrOfs 4
  let count ← readU32 v.buf p
  Res.require (decide (idx < count)) .deser
  let elemOfs := arrOfs + 4 + 16 * idx
  let vr ← v.envPtrAt (u32 elemOfs) 16
  pure { v with vr := some vr }

/-- Loop of `operator[](string_view)`, zera.hpp:472-484. -/
def getKeyFrom (v : View) (key : Bytes) : Nat → Nat → Res View
  | 0, _ => .err .deser
  | n + 1, ofs => do
    let e ← v.envPtrAt (u32 ofs) 4
    let keyLen ← readU16 v.buf e
    let _ ← readU16 v.buf (e + 2)
    let kp ← v.envPtrAt (u32 (ofs + 4)) keyLen
    let vp ← v.envPtrAt (u32 (ofs + 4 + keyLen)) 16
    let hit ← v.keyHit key kp keyLen
    if hit then pure { v with vr := some vp }
    else do
      let ofs' := ofs + (4 + keyLen + 16)
      let _ ← v.envPtrAt (u32 ofs') 0
      getKeyFrom v key n ofs'

/-- zera.hpp:465-485 -/
def getKey (v : View) (key : Bytes) : Res View := do
  let t ← v.tag
  Res.require (decide (t = tObject)) .deser
  v.requireFlagsOk
  let objOfs ← v.a
  let p ← v.envPtrAt objOfs 4
  let count ← readU32 v.buf p
  v.getKeyFrom key count (u32 (objOfs + 4))

/-- `to_string`, zera.hpp:426-444, abstracted to "returns or raises". -/
def toStringOutcome (v : View) : Res Unit := do
  let t ← v.tag
  if t = tBool then do let _ ← v.asBool; pure ()
  else if t = tI64 then do let _ ← v.asInt64; pure ()
  else if t = tU64 then do let _ ← v.asUInt64; pure ()
  else if t = tF64 then do let _ ← v.asDouble; pure ()
  else if t = tString then do let _ ← v.asStringView; pure ()
  else if t = tArray then do let _ ← v.arraySize; pure ()
  else if t = tTyped then do let _ ← v.isBlob; let _ ← v.b; pure ()
  else pure ()

end View

/-- `init_from`, zera.hpp:491-513. `HeaderSize + h.env_size` is `uint32_t` arithmetic;
`env_size_ - 16` is `size_t` arithmetic and wraps when `env_size_ < 16`. -/
def initFrom (buf : Bytes) : Res View := do
  let h ← parseHeader buf
  Res.require (decide (h.magic = Magic)) .deser
  Res.require (decide (h.version = Version)) .deser
  Res.require (decide (h.flags = 1)) .deser
  Res.require (decide (h.envSize ≤ buf.length)) .deser
  Res.require (decide (h.rootOfs < h.envSize)) .deser
  Res.require (decide (h.arenaOfs ≤ buf.length)) .deser
  Res.require (decide (h.arenaOfs % ArenaBaseAlign = 0)) .deser
  Res.require (decide (h.arenaOfs ≥ u32 (HeaderSize + h.envSize))) .deser
  Res.require (decide (u32 (HeaderSize + h.envSize) ≤ h.arenaOfs)) .deser
  Res.require (decide (h.rootOfs ≤ u64 (h.envSize + 2 ^ 64 - 16))) .deser
  pure ⟨buf, h.envSize, h.arenaOfs, some (HeaderSize + h.rootOfs)⟩

/-- `ZeraDeserializer() = default`, zera.hpp:516 -/
def defaultView : View := ⟨[], 0, 0, none⟩

/-- The reader as an instance of the `Reader` concept. -/
def reader : Reader View where
  isNull := View.isNull
  isBool := View.isBool
  isInt := View.isInt
  isUInt := View.isUInt
  isFloat := View.isFloat
  isString := View.isString
  isBlob := View.isBlob
  isMap := View.isMap
  isArray := View.isArray
  asBool := View.asBool
  asInt64 := View.asInt64
  asUInt64 := View.asUInt64
  asDouble := View.asDouble
  asString := View.asString
  asStringView := View.asStringView
  asBlob := View.asBlob
  mapKeys := View.mapKeys
  contains := View.contains
  getKey := View.getKey
  arraySize := View.arraySize
  getIdx := View.getIdx

/-! ## Writer -/

/-- `ArrayCtx`/`MapCtx`, zera.hpp:570-578. `pend` is `pending_value_patch`. -/
inductive Ctx where
  | arr (payload : Bytes) (count : Nat)
  | map (payload : Bytes) (count : Nat) (pend : Option Nat)
  deriving DecidableEq, Repr

/-- `RootSerializer`, zera.hpp:569-586. The innermost open container is the head of `st`. -/
structure RS where
  st : List Ctx := []
  env : Bytes := []
  arena : Bytes := []
  root : Option Nat := none
  thr : Nat := InlineMax
  deriving DecidableEq, Repr

/-- zera.hpp:588-591 -/
def setThreshold (s : RS) (t : Nat) : Res RS :=
  if t > InlineMax then .err .ser else .ok { s with thr := t }

/-- `make_vr`, zera.hpp:637-657 -/
def makeVr (tag flags aux a b c : Nat) : Bytes :=
  [UInt8.ofNat tag, UInt8.ofNat flags] ++ le16 aux ++ le32 a ++ le32 b ++ le32 c

/-- `append_env_payload`, zera.hpp:659-664 -/
def appendEnv (s : RS) (bytes : Bytes) : Res (RS × Nat) :=
  let ofs := s.env.length
  if ofs > u32max then .err .ser
  else .ok ({ s with env := s.env ++ bytes }, u32 ofs)

/-- `arena_alloc` followed by the `memcpy` of the payload that both callers do,
zera.hpp:666-675, 750-751, 757-758. Extending the arena by zeros and overwriting them with the
payload is one append here. -/
def arenaPut (s : RS) (payload : Bytes) (align : Nat) : Res (RS × Nat) :=
  let wantAlign := max 1 align
  let aligned := alignUp s.arena.length wantAlign
  let arena1 := s.arena ++ List.replicate (aligned - s.arena.length) 0
  let ofs := arena1.length
  if ofs > u32max then .err .ser
  else if payload.length > u32max then .err .ser
  else .ok ({ s with arena := arena1 ++ payload }, u32 ofs)

/-- The 12 bytes of `emit_shape_rank1`, zera.hpp:677-682 -/
def shapeBytes (dim0 : Nat) : Bytes :=
  ([1, 0, 0, 0] : Bytes) ++ (List.range 8).map (fun i => UInt8.ofNat ((dim0 >>> (8 * i)) &&& 0xff))

/-- `write_root_vr`, zera.hpp:684-687 -/
def writeRootVr (s : RS) (vr : Bytes) : Res RS :=
  match s.root with
  | some _ => .err .ser
  | none => do
    let (s', ofs) ← appendEnv s vr
    pure { s' with root := some ofs }

/-- `deliver_vr`, zera.hpp:689-707. `++count` is `uint32_t` arithmetic. -/
def deliverVr (s : RS) (vr : Bytes) : Res RS :=
  match s.st with
  | [] => writeRootVr s vr
  | .arr p n :: st => .ok { s with st := .arr (p ++ vr) (u32 (n + 1)) :: st }
  | .map _ _ none :: _ => .err .ser
  | .map p n (some pos) :: st =>
    if pos + 16 > p.length then .err .ser
    else .ok { s with st := .map (p.take pos ++ vr ++ p.drop (pos + 16)) n none :: st }

/-- Low and high half of a 64-bit pattern, zera.hpp:720-721 and similar. -/
def lo32 (n : Nat) : Nat := n &&& 0xffffffff
def hi32 (n : Nat) : Nat := (n >>> 32) &&& 0xffffffff

/-- One writer call, `zera::Serializer`, zera.hpp:710-813. `reserve` hints have no effect on the
output and are ignored; hints so large that `reserve` throws are the subject of `Verif/Memory.lean`. -/
def step (s : RS) : Ev → Res RS
  -- zera.hpp:714
  | .null => deliverVr s (makeVr tNull 0 0 0 0 0)
  -- zera.hpp:715
  | .bool b => deliverVr s (makeVr tBool 0 (if b then 1 else 0) 0 0 0)
  -- zera.hpp:716-723
  | .int i => deliverVr s (makeVr tI64 0 0 (lo32 i.toUInt64.toNat) (hi32 i.toUInt64.toNat) 0)
  -- zera.hpp:724-730
  | .uint n => deliverVr s (makeVr tU64 0 0 (lo32 n.toNat) (hi32 n.toNat) 0)
  -- zera.hpp:731-740
  | .dbl d => deliverVr s (makeVr tF64 0 0 (lo32 d.toNat) (hi32 d.toNat) 0)
  -- zera.hpp:742-753
  | .str sv =>
    if sv.length ≤ min s.thr InlineMax then
      let out := makeVr tString 1 sv.length 0 0 0
      deliverVr s (out.take 4 ++ sv ++ out.drop (4 + sv.length))
    else if sv.length > u32max then .err .ser
    else do
      let (s', ofs) ← arenaPut s sv 1
      deliverVr s' (makeVr tString 0 0 ofs sv.length 0)
  -- zera.hpp:754-763
  | .blob b =>
    if b.length > u32max then .err .ser
    else do
      let (s', arenaOfs) ← arenaPut s b ArenaBaseAlign
      let (s'', shapeOfs) ← appendEnv s' (shapeBytes b.length)
      deliverVr s'' (makeVr tTyped 0 dtU8 arenaOfs b.length shapeOfs)
  -- zera.hpp:765-770
  | .beginArr _ => .ok { s with st := .arr (le32 0) 0 :: s.st }
  -- zera.hpp:771-780
  | .endArr => match s.st with
    | .arr p n :: st => do
      let p' ← writeU32At p 0 n
      let (s', ofs) ← appendEnv { s with st := st } p'
      deliverVr s' (makeVr tArray 0 0 ofs 0 0)
    | _ => .err .ser
  -- zera.hpp:782-787
  | .beginMap _ => .ok { s with st := .map (le32 0) 0 none :: s.st }
  -- zera.hpp:788-797
  | .endMap => match s.st with
    | .map p n pend :: st =>
      match pend with
      | some _ => .err .ser
      | none => do
        let p' ← writeU32At p 0 n
        let (s', ofs) ← appendEnv { s with st := st } p'
        deliverVr s' (makeVr tObject 0 0 ofs 0 0)
    | _ => .err .ser
  -- zera.hpp:799-812
  | .key k => match s.st with
    | .map p n pend :: st =>
      match pend with
      | some _ => .err .ser
      | none =>
        if k.length > u16max then .err .ser
        else
          let p1 := p ++ le16 k.length ++ le16 0 ++ k
          .ok { s with st := .map (p1 ++ List.replicate 16 0) (u32 (n + 1)) (some p1.length) :: st }
    | _ => .err .ser

/-- The bytes `finish` assembles from envelope and arena, zera.hpp:609-633: header, envelope,
zero padding up to the arena offset, arena. -/
def assemble (env arena : Bytes) (rootOfs arenaOfs : Nat) : Bytes :=
  le32 Magic ++ le16 Version ++ le16 1 ++ le32 rootOfs ++ le32 env.length ++ le32 arenaOfs ++
    env ++ List.replicate (arenaOfs - (HeaderSize + env.length)) 0 ++ arena

/-- `finish`, zera.hpp:593-634 -/
def finish (s : RS) : Res Bytes :=
  match s.st with
  | _ :: _ => .err .ser
  | [] => do
    let s ← match s.root with
      | none => writeRootVr s (makeVr tNull 0 0 0 0 0)
      | some _ => pure s
    if s.env.length > u32max then .err .ser
    else if s.arena.length > u32max then .err .ser
    else
      let envSize := u32 s.env.length
      let arenaOfs := alignUp (HeaderSize + envSize) ArenaBaseAlign
      if arenaOfs > u32max then .err .ser
      else .ok (assemble s.env s.arena (s.root.getD 0) arenaOfs)

/-- The writer as an instance of the `Writer` concept. -/
def writer : Writer RS := ⟨step⟩

/-- A writer run from a fresh `RootSerializer` with inline threshold `thr`. -/
def serializeEvs (thr : Nat) (es : List Ev) : Res Bytes := do
  let s0 ← setThreshold {} thr
  let s ← writer.run s0 es
  finish s

/-- `serialize<Zera>(value)`, serialize.hpp:40-66: default threshold. -/
def serialize (v : Val) : Res Bytes := do
  let s ← writer.run {} (emit v)
  finish s

end Zer.Zera
