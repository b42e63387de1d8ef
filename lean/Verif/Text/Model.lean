import Verif.MsgPack.Model
import Verif.Cbor.Model
import Verif.Flex.Model
import Verif.Zera.Model

/-!
# `to_string()` of the readers

What `std::ostream` prints for an integer and for a double is a parameter (`Fmt`). `int pad` is a natural number here: it
overflows only after 2^30 nested calls. A text that has been partly written when an exception is raised is lost together
with the stream, so each function returns the piece of text it adds.
-/

namespace Zer

/-- ASCII characters as bytes. -/
def asc (s : String) : Bytes := s.toList.map (fun c => UInt8.ofNat c.toNat)

/-- `os << x` for integers and for doubles (given by their bits). -/
structure Fmt where
  dec : Int → Bytes
  dbl : UInt64 → Bytes

namespace Text

/-- Digit of `%x`. -/
def hexLower (n : Nat) : UInt8 := UInt8.ofNat (if n < 10 then 0x30 + n else 0x61 + (n - 10))

/-- One round of the loop of `esc`, msgpack.hpp:149-158, and of `json_escape`, flex.hpp:124-142. `%04x` of a value below
0x20 has two zeros and two digits. -/
def escChar (c : UInt8) : Bytes :=
  if c = 0x22 then asc "\\\""
  else if c = 0x5c then asc "\\\\"
  else if c = 0x08 then asc "\\b"
  else if c = 0x0c then asc "\\f"
  else if c = 0x0a then asc "\\n"
  else if c = 0x0d then asc "\\r"
  else if c = 0x09 then asc "\\t"
  else if c < 0x20 then asc "\\u00" ++ [hexLower (c.toNat / 16), hexLower (c.toNat % 16)]
  else [c]

/-- `esc`, msgpack.hpp:147-160, and `json_escape`, flex.hpp:121-144. -/
def esc : Bytes → Bytes
  | [] => []
  | c :: s => escChar c ++ esc s

/-- `ind`, msgpack.hpp:174, `indent`, flex.hpp:146-148, cbor.hpp:501. -/
def spaces (n : Nat) : Bytes := List.replicate n 0x20

/-- `true` or `false`. -/
def boolText (b : Bool) : Bytes := if b then asc "true" else asc "false"

end Text

open Text

namespace MsgPack

/-- `view_.subspan(off, mp_skip(view_.subspan(off)))` and the following `off += mp_skip(view_.subspan(off))`,
msgpack.hpp:187-190, 203-204. The second call of `mp_skip` repeats the first. -/
def child (v : Bytes) (off : Nat) : Res (Bytes × Nat) := do
  let w ← subspan v off
  let sz ← skip w
  let c ← first w sz
  pure (c, off + sz)

/-- Loop over the elements, msgpack.hpp:202-208; `n` rounds are left. -/
def dumpArr (rec : Bytes → Res Bytes) (v : Bytes) (pad : Nat) : Nat → Nat → Res Bytes
  | 0, _ => pure []
  | n + 1, off => do
    let (e, off) ← child v off
    let t ← rec e
    let rest ← dumpArr rec v pad n off
    pure (spaces (pad + 2) ++ t ++ (if n ≠ 0 then asc "," else []) ++ asc "\n" ++ rest)

/-- Loop over the entries, msgpack.hpp:186-196. -/
def dumpMap (rec : Bytes → Res Bytes) (v : Bytes) (pad : Nat) : Nat → Nat → Res Bytes
  | 0, _ => pure []
  | n + 1, off => do
    let (k, off) ← child v off
    let (e, off) ← child v off
    let ks ← asStringView k
    let t ← rec e
    let rest ← dumpMap rec v pad n off
    pure (spaces (pad + 2) ++ asc "\"" ++ esc ks ++ asc "\": " ++ t ++ (if n ≠ 0 then asc "," else []) ++ asc "\n" ++ rest)

/-- `dump`, msgpack.hpp:173-213. The last line prints `tname(v)`, msgpack.hpp:161-172, which is `any` there: every test has
failed. -/
def dump (F : Fmt) : Nat → Bytes → Nat → Res Bytes
  | 0, _, _ => .diverge
  | f + 1, v, pad =>
    if isNull v then pure (asc "null: null")
    else if isBool v then do let b ← asBool v; pure (asc "bool: " ++ boolText b)
    else if isInt v then do let x ← asInt64 v; pure (asc "int: " ++ F.dec x.toInt)
    else if isUInt v then do let x ← asUInt64 v; pure (asc "uint: " ++ F.dec x.toNat)
    else if isFloat v then do let x ← asDouble v; pure (asc "float: " ++ F.dbl x)
    else if isString v then do let s ← asStringView v; pure (asc "str: \"" ++ esc s ++ asc "\"")
    else if isBlob v then do let s ← asBlob v; pure (asc "bin[size=" ++ F.dec s.length ++ asc "]")
    else if isMap v then do
      let (n, off) ← mapInfo v
      let t ← dumpMap (fun e => dump F f e (pad + 2)) v pad n off
      pure (asc "map {\n" ++ t ++ spaces pad ++ asc "}")
    else if isArray v then do
      let (n, off) ← arrInfo v
      let t ← dumpArr (fun e => dump F f e (pad + 2)) v pad n off
      pure (asc "arr [\n" ++ t ++ spaces pad ++ asc "]")
    else pure (asc "any")

/-- `to_string`, msgpack.hpp:488-490. The recursion is at most one level per byte (`c52_msgpack_text_ends`). -/
def toText (F : Fmt) (v : Bytes) : Res Bytes := dump F (v.length + 1) v 0

end MsgPack

namespace Cbor

/-- Size of an indefinite blob, cbor.hpp:523: bytes and heads are read without a bound check on `q`; sums wrap. -/
def blobTotal (v : Bytes) : Nat → Nat → Nat → Res Nat
  | 0, _, _ => .diverge
  | g + 1, q, total => do
    let b ← byteAt v q
    if b = 0xff then pure total
    else do
      let ch ← readHead false v q
      blobTotal v g (u64 (q + (ch.hlen + ch.val))) (u64 (total + ch.val))

/-- Loop over the elements, cbor.hpp:526; `n` rounds are left. -/
def dumpArr (v : Bytes) (f : Nat) (rec : Nat → Res Bytes) (pad : Nat) : Nat → Nat → Res Bytes
  | 0, _ => pure []
  | n + 1, e => do
    let t ← rec e
    let e ← skip false v f e
    let rest ← dumpArr v f rec pad n e
    pure (spaces (pad + 2) ++ t ++ (if n ≠ 0 then asc "," else []) ++ asc "\n" ++ rest)

/-- `while (true)` over the entries, cbor.hpp:529. The count is looked at after a round, not before. -/
def dumpMap (hard : Bool) (v : Bytes) (f : Nat) (rec : Nat → Res Bytes) (pad : Nat) (indef : Bool) (count : Nat) :
    Nat → Nat → Nat → Res Bytes
  | 0, _, _ => .diverge
  | g + 1, i, q => do
    let stop ← (if indef then do let b ← byteAt v q; pure (decide (b = 0xff)) else pure false)
    if stop then pure []
    else do
      let k ← View.asString hard f ⟨v, q⟩
      let q ← skip false v f q
      let t ← rec q
      let q ← skip false v f q
      let line := spaces (pad + 2) ++ asc "\"" ++ k ++ asc "\": " ++ t ++ (if i + 1 < count then asc "," else []) ++ asc "\n"
      if indef = false ∧ count ≤ i + 1 then pure line
      else do
        let rest ← dumpMap hard v f rec pad indef count g (i + 1) q
        pure (line ++ rest)

/-- `dump_rec`, cbor.hpp:511-532, at offset `p` of a reader at `root`: `arraySize()` is called on the reader itself, that
is, on the root position, cbor.hpp:526, 528. `type_code`, cbor.hpp:502-509, repeats `read_head`. `d` bounds the nesting,
`f` the loops. `long long` conversions of values from 2^63 on wrap; `-1 - x` stays in range. -/
def dump (F : Fmt) (hard : Bool) (f : Nat) (root : View) : Nat → Nat → Nat → Res Bytes
  | 0, _, _ => .diverge
  | d + 1, p, pad => do
    let v := root.buf
    let h ← readHead false v p
    let q := p + h.hlen
    if h.major = 0 then pure (asc "uint|" ++ F.dec h.val)
    else if h.major = 1 then pure (asc "int|" ++ F.dec (-1 - (Int64.ofInt h.val).toInt))
    else if h.major = 7 ∧ (h.addl = 25 ∨ h.addl = 26 ∨ h.addl = 27) then do
      let x ← View.asDouble ⟨v, p⟩
      pure (asc "float|" ++ F.dbl x)
    else if h.major = 7 ∧ (h.addl = 20 ∨ h.addl = 21) then pure (asc "bool| " ++ boolText (decide (h.addl = 21)))
    else if h.major = 7 ∧ h.addl = 22 then pure (asc "null|null")
    else if h.major = 3 then do
      let s ← (if h.indef then View.asString hard f ⟨v, p⟩ else View.range hard v q h.val)
      pure (asc "str|\"" ++ s ++ asc "\"")
    else if h.major = 2 then do
      let n ← (if h.indef then blobTotal v f q 0 else pure h.val)
      pure (asc "blob[size=" ++ F.dec n ++ asc "]")
    else if h.major = 4 then do
      let n ← View.arraySize f root
      let t ← dumpArr v f (fun e => dump F hard f root d e (pad + 2)) pad n q
      pure (asc "arr [\n" ++ t ++ spaces pad ++ asc "]")
    else if h.major = 5 then do
      let count ← (if h.indef then View.arraySize f root else pure h.val)
      let t ← dumpMap hard v f (fun e => dump F hard f root d e (pad + 2)) pad h.indef count f 0 q
      pure (asc "map {\n" ++ t ++ spaces pad ++ asc "}")
    else pure (asc "any")

/-- `to_string`, cbor.hpp:498-500. -/
def toText (F : Fmt) (hard : Bool) (f : Nat) (r : View) : Res Bytes := dump F hard f r f r.pos 0

end Cbor

namespace Flex

/-- flex.hpp:202-207, from element `i` on, `k` times: `elem` prints an element. -/
def dumpElems (elem : Ref → Res Bytes) (pad : Nat) (b : Bytes) (p bw n : Nat) : Nat → Nat → Res Bytes
  | _, 0 => pure []
  | i, k + 1 => do
    let c ← elemAt b p bw n i
    let t ← elem c
    let rest ← dumpElems elem pad b p bw n (i + 1) k
    pure (spaces (pad + 2) ++ t ++ (if i + 1 < n then asc "," else []) ++ asc "\n" ++ rest)

/-- flex.hpp:188-195: `kn` keys, of the values (`n` of them) the one at the same index. -/
def dumpPairs (elem : Ref → Res Bytes) (pad : Nat) (b : Bytes) (p bw n kp kw kn : Nat) : Nat → Nat → Res Bytes
  | _, 0 => pure []
  | i, k + 1 => do
    let key ← keyAt b kp kw kn i
    let c ← elemAt b p bw n i
    let t ← elem c
    let rest ← dumpPairs elem pad b p bw n kp kw kn (i + 1) k
    pure (spaces (pad + 2) ++ asc "\"" ++ esc key ++ asc "\": " ++ t ++ (if i + 1 < kn then asc "," else []) ++ asc "\n" ++ rest)

/-- `dump_rec`, flex.hpp:163-213; the first number bounds the depth of the recursion. A key is no string for
flexbuffers and falls through to `any`; `AsVector` of a typed vector is empty. -/
def dump (F : Fmt) : Nat → Nat → Ref → Res Bytes
  | 0, _, _ => .diverge
  | f + 1, pad, r =>
    if isNull r then pure (asc "null|null")
    else if isBool r then do let b ← asBool r; pure (asc "bool| " ++ boolText b)
    else if isInt r then do let i ← asInt64 r; pure (asc "int|" ++ F.dec i.toInt)
    else if isUInt r then do let n ← asUInt64 r; pure (asc "uint|" ++ F.dec n.toNat)
    else if isFloat r then do let d ← asDouble r; pure (asc "float|" ++ F.dbl d)
    else if isString r then do let s ← asString r; pure (asc "str|\"" ++ esc s ++ asc "\"")
    else if isBlob r then do
      let q ← indirect r.buf r.pos r.pw
      let n ← sizeAt r.buf q r.bw
      pure (asc "blob[size=" ++ F.dec n ++ asc "]")
    else if isMap r then do
      let (p, n) ← r.vector
      let (kp, kw, kn) ← keysAt r.buf p r.bw
      let t ← dumpPairs (dump F f (pad + 2)) pad r.buf p r.bw n kp kw kn 0 kn
      pure (asc "map {\n" ++ t ++ spaces pad ++ asc "}")
    else if isArray r then do
      let (p, n) ← r.vector
      let t ← dumpElems (dump F f (pad + 2)) pad r.buf p r.bw n 0 n
      pure (asc "arr [\n" ++ t ++ spaces pad ++ asc "]")
    else pure (asc "any")

/-- `to_string`, flex.hpp:310-315. -/
def toText (F : Fmt) (f : Nat) (r : Ref) : Res Bytes := do
  let t ← dump F f 0 r
  pure (asc "Flex " ++ t)

end Flex

namespace Zera

/-- `to_string`, zera.hpp:426-444. -/
def toText (F : Fmt) (v : View) : Res Bytes := do
  let t ← v.tag
  let inner ← (if t = tNull then pure (asc "null")
    else if t = tBool then do let b ← v.asBool; pure (boolText b)
    else if t = tI64 then do let x ← v.asInt64; pure (F.dec x.toInt)
    else if t = tU64 then do let x ← v.asUInt64; pure (F.dec x.toNat)
    else if t = tF64 then do let x ← v.asDouble; pure (F.dbl x)
    else if t = tString then do let s ← v.asStringView; pure (asc "str[len=" ++ F.dec s.length ++ asc "]")
    else if t = tArray then do let n ← v.arraySize; pure (asc "arr[n=" ++ F.dec n ++ asc "]")
    else if t = tObject then pure (asc "map")
    else if t = tTyped then do
      let b ← v.isBlob
      let n ← v.b
      pure ((if b then asc "blob[len=" else asc "typed[len=") ++ F.dec n ++ asc "]")
    else pure (asc "unknown"))
  pure (asc "Zera(" ++ inner ++ asc ")")

end Zera

end Zer
