import Verif.Reader
import Verif.Float
import Verif.Proto

/-!
# Model of the CBOR protocol

Transcribed from `include/zerialize/protocols/cbor.hpp` (cited as `cbor.hpp`). A reader position is
the buffer `buf_` and the offset `pos_`. Three things need care.

* Sums of an offset and a length taken from the input are `uint64_t`/`size_t` sums and wrap modulo
  2^64 (written `u64`). Sums of an offset inside the buffer and a small constant cannot wrap.
* `for (;;)` loops and the recursion of `skip` are bounded by a fuel `f`: a call of depth `f` or a
  loop of `f` rounds that is not finished is `diverge`. Results other than `diverge` do not depend
  on the fuel; a computation that is `diverge` for every fuel does not return.
* `&buf_[q]` with `q == buf_.size()` violates the precondition of `std::span::operator[]`. With
  `hard = true` this is undefined behaviour (standard text, hardened libraries); with `hard = false`
  it is the past-the-end pointer (what compilers without hardening produce).
-/

namespace Zer.Cbor

/-- cbor.hpp:89-95 -/
structure Head where
  major : Nat
  addl : Nat
  val : Nat
  hlen : Nat
  indef : Bool
  deriving DecidableEq, Repr

/-- `get_be`, cbor.hpp:83-87, at offset `p` (`acc` is `v`; `n ≤ 8`, so nothing is shifted out and `|`
is `+`). -/
def getBe (v : Bytes) : Nat → Nat → Nat → Res Nat
  | _, 0, acc => pure acc
  | p, n + 1, acc => do
    let x ← byteAt v p
    getBe v (p + 1) n (acc * 256 + x)

/-- `ensure`, cbor.hpp:79-81; the unchecked copies in `KeysView` have no `ensure`. -/
def ensure (raw : Bool) (c : Bool) : Res Unit := if raw then pure () else Res.require c .deser

/-- `read_head`, cbor.hpp:97-125 (`raw = false`), and its unchecked copy in `KeysView::iterator`,
cbor.hpp:378-396 (`raw = true`), which treats reserved additional information as a length of 0. -/
def readHead (raw : Bool) (v : Bytes) (p : Nat) : Res Head := do
  ensure raw (decide (p < v.length))
  let b ← byteAt v p
  let major := b / 32
  let addl := b % 32
  if major = 7 then
    if addl = 25 then pure ⟨7, addl, 2, 1, false⟩
    else if addl = 26 then pure ⟨7, addl, 4, 1, false⟩
    else if addl = 27 then pure ⟨7, addl, 8, 1, false⟩
    else if addl = 24 then do
      ensure raw (decide (p + 2 ≤ v.length))
      pure ⟨7, addl, 0, 2, false⟩
    else if addl = 31 then pure ⟨7, addl, 0, 1, true⟩
    else pure ⟨7, addl, 0, 1, false⟩
  else if addl < 24 then pure ⟨major, addl, addl, 1, false⟩
  else if addl = 24 then do
    ensure raw (decide (p + 2 ≤ v.length))
    let x ← byteAt v (p + 1)
    pure ⟨major, addl, x, 2, false⟩
  else if addl = 25 then do
    ensure raw (decide (p + 3 ≤ v.length))
    let x ← getBe v (p + 1) 2 0
    pure ⟨major, addl, x, 3, false⟩
  else if addl = 26 then do
    ensure raw (decide (p + 5 ≤ v.length))
    let x ← getBe v (p + 1) 4 0
    pure ⟨major, addl, x, 5, false⟩
  else if addl = 27 then do
    ensure raw (decide (p + 9 ≤ v.length))
    let x ← getBe v (p + 1) 8 0
    pure ⟨major, addl, x, 9, false⟩
  else if addl = 31 then pure ⟨major, addl, 0, 1, true⟩
  else if raw then pure ⟨major, addl, 0, 1, false⟩
  else .err .deser

/-! ## Skipping: `skip`, cbor.hpp:127-186 (`raw = false`) and cbor.hpp:397-415 (`raw = true`) -/

/-- `n` items one after the other: `for (i < n) q = skip(q)`. A map loop does two per round. -/
def items (rec : Nat → Res Nat) : Nat → Nat → Res Nat
  | 0, q => pure q
  | n + 1, q => do
    let q ← rec q
    items rec n q

/-- `for (;;) { if (buf[q] == 0xFF) return q + 1; ... }` with `k` items per round, cbor.hpp:155-159,
166-171, 407, 410. -/
def untilBreak (raw : Bool) (v : Bytes) (rec : Nat → Res Nat) (k : Nat) : Nat → Nat → Res Nat
  | 0, _ => .diverge
  | f + 1, q => do
    ensure raw (decide (q < v.length))
    let b ← byteAt v q
    if b = 0xff then pure (q + 1)
    else do
      let q ← items rec k q
      untilBreak raw v rec k f q

/-- Chunks of an indefinite string, cbor.hpp:141-149, 404. -/
def chunks (raw : Bool) (v : Bytes) (major : Nat) : Nat → Nat → Res Nat
  | 0, _ => .diverge
  | f + 1, q => do
    ensure raw (decide (q < v.length))
    let b ← byteAt v q
    if b = 0xff then pure (q + 1)
    else do
      let ch ← readHead raw v q
      ensure raw (decide (ch.major = major))
      ensure raw (!ch.indef)
      chunks raw v major f (u64 (q + (ch.hlen + ch.val)))

/-- One item. -/
def skip (raw : Bool) (v : Bytes) : Nat → Nat → Res Nat
  | 0, _ => .diverge
  | f + 1, p => do
    let h ← readHead raw v p
    let q := p + h.hlen
    if h.major ≤ 1 then pure q
    else if h.major ≤ 3 then
      if h.indef then chunks raw v h.major f q
      else do
        ensure raw (decide (u64 (q + h.val) ≤ v.length))
        pure (u64 (q + h.val))
    else if h.major = 4 then
      if h.indef then untilBreak raw v (skip raw v f) 1 f q
      else items (skip raw v f) h.val q
    else if h.major = 5 then
      if h.indef then untilBreak raw v (skip raw v f) 2 f q
      else items (skip raw v f) (2 * h.val) q
    else if h.major = 6 then skip raw v f q
    else if h.addl = 25 then do
      ensure raw (decide (q + 2 ≤ v.length))
      pure (q + 2)
    else if h.addl = 26 then do
      ensure raw (decide (q + 4 ≤ v.length))
      pure (q + 4)
    else if h.addl = 27 then do
      ensure raw (decide (q + 8 ≤ v.length))
      pure (q + 8)
    else if h.addl = 24 ∧ raw = false then do
      -- the header of a simple value already spans both bytes; this skips a third one
      ensure raw (decide (q + 1 ≤ v.length))
      pure (q + 1)
    else pure q

/-! ## Positions -/

/-- A reader object: `buf_` and `pos_`. -/
structure View where
  buf : Bytes
  pos : Nat
  deriving DecidableEq, Repr

namespace View

/-- `head()`, cbor.hpp:188 -/
def head (r : View) : Res Head := readHead false r.buf r.pos

/-! ## Predicates, cbor.hpp:230-238 -/

def isNull (r : View) : Res Bool := do let h ← r.head; pure (decide (h.major = 7 ∧ h.addl = 22))
def isBool (r : View) : Res Bool := do
  let h ← r.head; pure (decide (h.major = 7 ∧ (h.addl = 20 ∨ h.addl = 21)))
def isInt (r : View) : Res Bool := do let h ← r.head; pure (decide (h.major = 0 ∨ h.major = 1))
def isUInt (r : View) : Res Bool := do let h ← r.head; pure (decide (h.major = 0))
def isFloat (r : View) : Res Bool := do
  let h ← r.head; pure (decide (h.major = 7 ∧ (h.addl = 25 ∨ h.addl = 26 ∨ h.addl = 27)))
def isString (r : View) : Res Bool := do let h ← r.head; pure (decide (h.major = 3))
def isBlob (r : View) : Res Bool := do let h ← r.head; pure (decide (h.major = 2))
def isMap (r : View) : Res Bool := do let h ← r.head; pure (decide (h.major = 5))
def isArray (r : View) : Res Bool := do let h ← r.head; pure (decide (h.major = 4))

/-! ## Scalars -/

/-- `asInt64`, cbor.hpp:244-252. The conversion of a `uint64_t` above INT64_MAX wraps. -/
def asInt64 (r : View) : Res Int64 := do
  let h ← r.head
  Res.require (decide (h.major = 0 ∨ h.major = 1)) .deser
  if h.major = 0 then pure (Int64.ofInt h.val)
  else do
    Res.require (decide (h.val ≤ 2 ^ 63 - 1)) .deser
    pure (Int64.ofInt (-1 - (h.val : Int)))

/-- `asUInt64`, cbor.hpp:257 -/
def asUInt64 (r : View) : Res UInt64 := do
  let h ← r.head
  Res.require (decide (h.major = 0)) .deser
  pure (UInt64.ofNat h.val)

/-- `asInt8/16/32`, cbor.hpp:241-243, for width `w`. -/
def asIntN (w : Nat) (r : View) : Res Int := do
  let x ← r.asInt64
  if x.toInt < -(2 ^ (w - 1) : Int) ∨ x.toInt > (2 ^ (w - 1) : Int) - 1 then .err .deser
  else pure x.toInt

/-- `asUInt8/16/32`, cbor.hpp:254-256, for width `w`. -/
def asUIntN (w : Nat) (r : View) : Res Nat := do
  let x ← r.asUInt64
  if x.toNat > 2 ^ w - 1 then .err .deser
  else pure x.toNat

/-- `asDouble`, cbor.hpp:260-266; bits of the double. The body is read without a bound check. -/
def asDouble (r : View) : Res UInt64 := do
  let h ← r.head
  let fl ← r.isFloat
  Res.require fl .deser
  let q := r.pos + h.hlen
  if h.addl = 25 then do
    let x ← byteAt r.buf q
    let y ← byteAt r.buf (q + 1)
    pure (UInt64.ofNat (decodeF16 (x * 256 + y)))
  else if h.addl = 26 then do
    let x ← getBe r.buf q 4 0
    pure (UInt64.ofNat (widen32 x))
  else do
    let x ← getBe r.buf q 8 0
    pure (UInt64.ofNat x)

/-- `asBool`, cbor.hpp:267 -/
def asBool (r : View) : Res Bool := do
  let h ← r.head
  Res.require (decide (h.major = 7 ∧ (h.addl = 20 ∨ h.addl = 21))) .deser
  pure (decide (h.addl = 21))

/-! ## Strings and blobs -/

/-- The range `[&buf[q], &buf[q] + n)`. -/
def range (hard : Bool) (v : Bytes) (q n : Nat) : Res Bytes :=
  if hard = true ∧ v.length ≤ q then .ub else sliceAt v q n

/-- Chunks of an indefinite string, collected: cbor.hpp:277-284 (`major = 3`), 312-320 (`major = 2`). -/
def gather (hard : Bool) (v : Bytes) (major : Nat) : Nat → Nat → Res Bytes
  | 0, _ => .diverge
  | f + 1, q => do
    Res.require (decide (q < v.length)) .deser
    let b ← byteAt v q
    if b = 0xff then pure []
    else do
      let ch ← readHead false v q
      Res.require (decide (ch.major = major) && !ch.indef) .deser
      let q := q + ch.hlen
      Res.require (decide (u64 (q + ch.val) ≤ v.length)) .deser
      let s ← range hard v q ch.val
      let t ← gather hard v major f (u64 (q + ch.val))
      pure (s ++ t)

/-- A definite string, cbor.hpp:272-275, 291-292, 298-300, 306-309. -/
def definite (hard : Bool) (v : Bytes) (h : Head) (q : Nat) : Res Bytes := do
  Res.require (decide (u64 (q + h.val) ≤ v.length)) .deser
  range hard v q h.val

/-- `asString`, cbor.hpp:269-287 -/
def asString (hard : Bool) (f : Nat) (r : View) : Res Bytes := do
  let h ← r.head
  Res.require (decide (h.major = 3)) .deser
  let q := r.pos + h.hlen
  if h.indef then gather hard r.buf 3 f q
  else definite hard r.buf h q

/-- `asStringView`, cbor.hpp:288-293 -/
def asStringView (hard : Bool) (r : View) : Res Bytes := do
  let h ← r.head
  Res.require (decide (h.major = 3)) .deser
  Res.require (!h.indef) .deser
  definite hard r.buf h (r.pos + h.hlen)

/-- `asBlob`, cbor.hpp:295-301 -/
def asBlob (hard : Bool) (r : View) : Res Bytes := do
  let h ← r.head
  Res.require (decide (h.major = 2)) .deser
  Res.require (!h.indef) .deser
  definite hard r.buf h (r.pos + h.hlen)

/-- `asBlobVec`, cbor.hpp:302-322 -/
def asBlobVec (hard : Bool) (f : Nat) (r : View) : Res Bytes := do
  let h ← r.head
  Res.require (decide (h.major = 2)) .deser
  let q := r.pos + h.hlen
  if h.indef then gather hard r.buf 2 f q
  else definite hard r.buf h q

/-! ## Maps -/

/-- The key at `q` as `contains` sees it in a definite map, cbor.hpp:331-346: a definite text is
viewed without a bound check. -/
def keyAt (hard : Bool) (f : Nat) (v : Bytes) (q : Nat) : Res Bytes := do
  let kh ← readHead false v q
  if kh.major = 3 ∧ kh.indef = false then range hard v (q + kh.hlen) kh.val
  else asString hard f ⟨v, q⟩

/-- Definite loop of `contains`, cbor.hpp:329-351. -/
def containsN (hard : Bool) (f : Nat) (v key : Bytes) : Nat → Nat → Res Bool
  | 0, _ => pure false
  | n + 1, q => do
    let k ← keyAt hard f v q
    if k = key then pure true
    else do
      let q ← skip false v f q
      let q ← skip false v f q
      containsN hard f v key n q

/-- Indefinite loop of `contains`, cbor.hpp:353-360. -/
def containsB (hard : Bool) (f : Nat) (v key : Bytes) : Nat → Nat → Res Bool
  | 0, _ => .diverge
  | g + 1, q => do
    Res.require (decide (q < v.length)) .deser
    let b ← byteAt v q
    if b = 0xff then pure false
    else do
      let k ← asString hard f ⟨v, q⟩
      let q ← skip false v f q
      if k = key then pure true
      else do
        let q ← skip false v f q
        containsB hard f v key g q

/-- `contains`, cbor.hpp:325-362 -/
def contains (hard : Bool) (f : Nat) (r : View) (key : Bytes) : Res Bool := do
  let h ← r.head
  if h.major = 5 then
    let q := r.pos + h.hlen
    if h.indef then containsB hard f r.buf key f q
    else containsN hard f r.buf key h.val q
  else pure false

/-- `KeysView::end()`: the cursor, cbor.hpp:447-455. -/
def keysEnd (f : Nat) (v : Bytes) (start : Nat) : Res Nat := do
  let h ← readHead true v start
  let q := start + h.hlen
  if h.indef then untilBreak true v (skip true v f) 2 f q
  else items (skip true v f) (2 * h.val) q

/-- `KeysView::iterator::operator*`, cbor.hpp:417-426 -/
def keyDeref (hard : Bool) (f : Nat) (v : Bytes) (q : Nat) : Res Bytes := do
  let kh ← readHead true v q
  if kh.major = 3 ∧ kh.indef = false then range hard v (q + kh.hlen) kh.val
  else asString hard f ⟨v, q⟩

/-- `KeysView::iterator::operator++`, cbor.hpp:427-439: new cursor and `remaining`. -/
def keyNext (f : Nat) (v : Bytes) (indef : Bool) (q remaining : Nat) : Res (Nat × Nat) :=
  if indef then do
    let b ← byteAt v q
    if b = 0xff then pure (q, remaining)
    else do
      let q ← skip true v f q
      let q ← skip true v f q
      pure (q, remaining)
  else if remaining = 0 then pure (q, remaining)
  else do
    let q ← skip true v f q
    let q ← skip true v f q
    pure (q, remaining - 1)

/-- Range-for over the keys; iterators are compared by cursor, cbor.hpp:441. -/
def keysFrom (hard : Bool) (f : Nat) (v : Bytes) (indef : Bool) (stop : Nat) :
    Nat → Nat → Nat → Res (List Bytes)
  | 0, _, _ => .diverge
  | g + 1, q, remaining =>
    if q = stop then pure []
    else do
      let k ← keyDeref hard f v q
      let (q, remaining) ← keyNext f v indef q remaining
      let ks ← keysFrom hard f v indef stop g q remaining
      pure (k :: ks)

/-- `mapKeys()`, cbor.hpp:458, `begin()` 444-446, then a complete range-for. -/
def mapKeys (hard : Bool) (f : Nat) (r : View) : Res (List Bytes) := do
  let h ← r.head
  Res.require (decide (h.major = 5)) .deser
  let h ← readHead true r.buf r.pos
  let stop ← keysEnd f r.buf r.pos
  keysFrom hard f r.buf h.indef stop f (r.pos + h.hlen) (if h.indef then 0 else h.val)

/-- Definite loop of `operator[](string_view)`, cbor.hpp:464-470. -/
def getKeyN (hard : Bool) (f : Nat) (v key : Bytes) : Nat → Nat → Res View
  | 0, _ => .err .deser
  | n + 1, q => do
    let k ← asString hard f ⟨v, q⟩
    let q ← skip false v f q
    if k = key then pure ⟨v, q⟩
    else do
      let q ← skip false v f q
      getKeyN hard f v key n q

/-- Indefinite loop of `operator[](string_view)`, cbor.hpp:472. -/
def getKeyB (hard : Bool) (f : Nat) (v key : Bytes) : Nat → Nat → Res View
  | 0, _ => .diverge
  | g + 1, q => do
    Res.require (decide (q < v.length)) .deser
    let b ← byteAt v q
    if b = 0xff then .err .deser
    else do
      let k ← asString hard f ⟨v, q⟩
      let q ← skip false v f q
      if k = key then pure ⟨v, q⟩
      else do
        let q ← skip false v f q
        getKeyB hard f v key g q

/-- `operator[](string_view)`, cbor.hpp:460-475 -/
def getKey (hard : Bool) (f : Nat) (r : View) (key : Bytes) : Res View := do
  let h ← r.head
  Res.require (decide (h.major = 5)) .deser
  let q := r.pos + h.hlen
  if h.indef then getKeyB hard f r.buf key f q
  else getKeyN hard f r.buf key h.val q

/-! ## Arrays -/

/-- Counting loop of `arraySize`, cbor.hpp:481. -/
def countB (f : Nat) (v : Bytes) : Nat → Nat → Res Nat
  | 0, _ => .diverge
  | g + 1, q => do
    Res.require (decide (q < v.length)) .deser
    let b ← byteAt v q
    if b = 0xff then pure 0
    else do
      let q ← skip false v f q
      let c ← countB f v g q
      pure (c + 1)

/-- `arraySize`, cbor.hpp:478-482 -/
def arraySize (f : Nat) (r : View) : Res Nat := do
  let h ← r.head
  Res.require (decide (h.major = 4)) .deser
  if h.indef then countB f r.buf f (r.pos + h.hlen)
  else pure h.val

/-- Indefinite loop of `operator[](size_t)`, cbor.hpp:492; `i` counts up to `idx`. -/
def getIdxB (f : Nat) (v : Bytes) (idx : Nat) : Nat → Nat → Nat → Res View
  | 0, _, _ => .diverge
  | g + 1, i, q => do
    Res.require (decide (q < v.length)) .deser
    let b ← byteAt v q
    if b = 0xff then .err .deser
    else if i = idx then pure ⟨v, q⟩
    else do
      let q ← skip false v f q
      getIdxB f v idx g (i + 1) q

/-- `operator[](size_t)`, cbor.hpp:483-495 -/
def getIdx (f : Nat) (r : View) (idx : Nat) : Res View := do
  let h ← r.head
  Res.require (decide (h.major = 4)) .deser
  let q := r.pos + h.hlen
  if h.indef then getIdxB f r.buf idx f 0 q
  else do
    Res.require (decide (idx < h.val)) .deser
    let q ← items (skip false r.buf f) idx q
    pure ⟨r.buf, q⟩

end View

/-- The reader as an instance of the `Reader` concept. -/
def reader (hard : Bool) (f : Nat) : Reader View where
  isNull := View.isNull
  isBool := View.isBool
  isInt := View.isInt
  isUInt := View.isUInt
  isFloat := View.isFloat
  isString := View.isString
  isBlob := View.isBlob
  isMap := View.isMap
  isArray := View.isArray
  asBool := View.asBool
  asInt64 := View.asInt64
  asUInt64 := View.asUInt64
  asDouble := View.asDouble
  asString := View.asString hard f
  asStringView := View.asStringView hard
  asBlob := View.asBlob hard
  mapKeys := View.mapKeys hard f
  contains := View.contains hard f
  getKey := View.getKey hard f
  arraySize := View.arraySize f
  getIdx := View.getIdx f

/-! ## Writer: the jsoncons CBOR encoder (external; documented behaviour), cbor.hpp:28-70

Shortest heads, definite lengths, doubles shrunk to single precision when exact, text checked to be
UTF-8 (`utf8`), nesting limited to `maxDepth` (1024 by default), announced sizes checked at the end
of a container. jsoncons reports errors as `jsoncons::ser_error`, a `std::runtime_error`. -/

/-- Big-endian bytes of `n`. -/
def beBytes : Nat → Nat → Bytes
  | 0, _ => []
  | k + 1, n => UInt8.ofNat (n / 2 ^ (8 * k)) :: beBytes k n

/-- Shortest head. -/
def headBytes (major n : Nat) : Bytes :=
  if n < 24 then [UInt8.ofNat (major * 32 + n)]
  else if n < 2 ^ 8 then UInt8.ofNat (major * 32 + 24) :: beBytes 1 n
  else if n < 2 ^ 16 then UInt8.ofNat (major * 32 + 25) :: beBytes 2 n
  else if n < 2 ^ 32 then UInt8.ofNat (major * 32 + 26) :: beBytes 4 n
  else UInt8.ofNat (major * 32 + 27) :: beBytes 8 n

/-- An open container: whether it is an object, announced size, values and keys so far. -/
structure Open where
  isObj : Bool
  len : Nat
  count : Nat

/-- Encoder state: `out_`, the encoder's stack, `wrote_root`. -/
structure WS where
  out : Bytes := []
  stack : List Open := []
  wrote : Bool := false

/-- `end_value()` of the encoder: the innermost container counts one more. -/
def bump : List Open → List Open
  | [] => []
  | o :: os => { o with count := o.count + 1 } :: os

/-- Append a complete scalar. -/
def scalar (s : WS) (b : Bytes) : Res WS :=
  .ok { out := s.out ++ b, stack := bump s.stack, wrote := true }

/-- Text: head and bytes, checked to be UTF-8. -/
def textBytes (utf8 : Bytes → Bool) (t : Bytes) : Res Bytes :=
  if utf8 t then .ok (headBytes 3 t.length ++ t) else .err .runtime

/-- Open a container. -/
def openC (maxDepth : Nat) (s : WS) (isObj : Bool) (major n : Nat) : Res WS :=
  if s.stack.length + 1 > maxDepth then .err .runtime
  else .ok { out := s.out ++ headBytes major n, stack := ⟨isObj, n, 0⟩ :: s.stack, wrote := true }

/-- Close a container; an object counts entries, a key and a value each count one half. Closing
without an open container is a precondition violation of the encoder (assertion). -/
def closeC (s : WS) : Res WS :=
  match s.stack with
  | [] => .ub
  | o :: os =>
    if (if o.isObj then o.count / 2 else o.count) = o.len then .ok { s with stack := bump os }
    else .err .runtime

/-- One writer call, cbor.hpp:51-69. -/
def step (utf8 : Bytes → Bool) (maxDepth : Nat) (s : WS) : Ev → Res WS
  | .null => scalar s [0xf6]
  | .bool b => scalar s [if b then 0xf5 else 0xf4]
  | .int i => scalar s (if 0 ≤ i.toInt then headBytes 0 i.toInt.toNat else headBytes 1 (-1 - i.toInt).toNat)
  | .uint n => scalar s (headBytes 0 n.toNat)
  | .dbl d => scalar s (match shrink32 d.toNat with
    | some f => 0xfa :: beBytes 4 f
    | none => 0xfb :: beBytes 8 d.toNat)
  | .str t => do
    let b ← textBytes utf8 t
    scalar s b
  | .blob b => scalar s (headBytes 2 b.length ++ b)
  | .key k => do
    let b ← textBytes utf8 k
    .ok { s with out := s.out ++ b, stack := bump s.stack }
  | .beginArr n => openC maxDepth s false 4 n
  | .endArr => closeC s
  | .beginMap n => openC maxDepth s true 5 n
  | .endMap => closeC s

def writer (utf8 : Bytes → Bool) (maxDepth : Nat) : Writer WS := ⟨step utf8 maxDepth⟩

/-- `finish`, cbor.hpp:38-44 -/
def finish (s : WS) : Res Bytes := .ok (if s.wrote then s.out else s.out ++ [0xf6])

/-- The protocol. -/
def proto (utf8 : Bytes → Bool) (maxDepth : Nat) (hard : Bool) (f : Nat) : Proto where
  σ := WS
  ρ := View
  writer := writer utf8 maxDepth
  init := {}
  finish := finish
  reader := reader hard f
  opn := fun b => .ok ⟨b, 0⟩

end Zer.Cbor
