import Verif.Each
import Verif.Proto
import Verif.Base64.Model

/-!
# Model of the JSON protocol

Transcribed from `include/zerialize/protocols/json.hpp` (cited as `json.hpp`). A yyjson document is
a `Val` without blobs: `int` is the subtype SINT, `uint` the subtype UINT, an object may repeat keys.
A reader position is the subtree that `cur_` points to. yyjson's text layer (`yyjson_mut_write`,
`yyjson_read`) is the parameter `Text`.

Two simplifications. A container that is still open is kept in its `Ctx` and not in its parent; it
is put into its parent when it is closed, or by `finish()`. Strings are stored by value, although
`yyjson_mut_strn` stores a pointer: the caller's strings are assumed to live and stay unchanged until
`finish()` (both simplifications are dropped in `Json/Heap.lean`; `Json/Borrow.lean` relates the models).
-/

namespace Zer.Json

/-! ## The text layer -/

/-- `yyjson_mut_write` without flags (`none`: it returns NULL), `yyjson_read` without flags (`none`:
parse error), and yyjson's test of valid UTF-8. -/
structure Text where
  print : Val → Option Bytes
  parse : Bytes → Option Val
  utf8 : Bytes → Bool

/-- Infinities and NaNs have all exponent bits set. -/
def finiteBits (d : UInt64) : Bool := decide (d.toNat / 2 ^ 52 % 2 ^ 11 ≠ 2 ^ 11 - 1)

/-- What yyjson writes: no infinities or NaNs, text in UTF-8 (and no raw values). -/
def Printable (T : Text) (d : Val) : Prop :=
  d.Each (fun v => match v with
    | .dbl b => finiteBits b = true
    | .str s => T.utf8 s = true
    | .blob _ => False
    | _ => True) (fun k => T.utf8 k = true)

/-- Documented behaviour of yyjson: writing fails exactly on documents that are not printable; reading
what was written gives the document back, non-negative integers as UINT. ASCII is UTF-8. -/
structure Text.Law (T : Text) : Prop where
  written : ∀ d, Printable T d → ∃ b, T.print d = some b ∧ T.parse b = some d.canon
  refused : ∀ d, ¬ Printable T d → T.print d = none
  ascii : ∀ s : Bytes, (∀ c ∈ s, c < 0x80) → T.utf8 s = true

/-! ## Constants -/

/-- `blobTag`, json.hpp:20: "~b" -/
def blobTag : Bytes := [0x7e, 0x62]
/-- `blobEncoding`, json.hpp:21: "base64" -/
def blobEncoding : Bytes := [0x62, 0x61, 0x73, 0x65, 0x36, 0x34]

/-! ## Reader, json.hpp:80-232 -/

/-- `isNull`, `isBool`, ..., json.hpp:142-149 -/
def isNull : Val → Bool
  | .null => true
  | _ => false
def isBool : Val → Bool
  | .bool _ => true
  | _ => false
/-- `yyjson_is_int`: either subtype. -/
def isInt : Val → Bool
  | .int _ => true
  | .uint _ => true
  | _ => false
def isUInt : Val → Bool
  | .uint _ => true
  | _ => false
def isFloat : Val → Bool
  | .dbl _ => true
  | _ => false
def isString : Val → Bool
  | .str _ => true
  | _ => false
def isMap : Val → Bool
  | .map _ => true
  | _ => false
def isArray : Val → Bool
  | .arr _ => true
  | _ => false

/-- `asString`, `asStringView`, json.hpp:174-181 -/
def asString : Val → Res Bytes
  | .str s => .ok s
  | _ => .err .deser

/-- `arraySize`, json.hpp:207-210 -/
def arraySize : Val → Res Nat
  | .arr xs => .ok xs.length
  | _ => .err .deser

/-- `operator[](size_t)`, json.hpp:211-216 -/
def getIdx : Val → Nat → Res Val
  | .arr xs, i => match xs[i]? with
    | some v => .ok v
    | none => .err .deser
  | _, _ => .err .deser

/-- `isBlob`, json.hpp:151-156; `&&` evaluates from left to right. -/
def isBlob (v : Val) : Res Bool :=
  if isArray v then do
    let n ← arraySize v
    if n = 3 then do
      let x ← getIdx v 0
      if isString x then do
        let s ← asString x
        if s = blobTag then do
          let y ← getIdx v 1
          if isString y then do
            let z ← getIdx v 2
            if isString z then do
              let e ← asString z
              pure (decide (e = blobEncoding))
            else pure false
          else pure false
        else pure false
      else pure false
    else pure false
  else pure false

/-- `asInt64`, json.hpp:162; `yyjson_get_sint` of a UINT above INT64_MAX wraps. -/
def asInt64 : Val → Res Int64
  | .int i => .ok i
  | .uint n => .ok n.toInt64
  | _ => .err .deser

/-- `asUInt64`, json.hpp:167 -/
def asUInt64 : Val → Res UInt64
  | .uint n => .ok n
  | _ => .err .deser

/-- `asInt8/16/32`, json.hpp:159-161: `static_cast` without a range check. -/
def asIntN (w : Nat) (v : Val) : Res Int := do
  let x ← asInt64 v
  pure (x.toInt.bmod (2 ^ w))

/-- `asUInt8/16/32`, json.hpp:164-166 -/
def asUIntN (w : Nat) (v : Val) : Res Nat := do
  let x ← asUInt64 v
  pure (x.toNat % 2 ^ w)

/-- `asDouble`, json.hpp:170 -/
def asDouble : Val → Res UInt64
  | .dbl d => .ok d
  | _ => .err .deser

/-- `asBool`, json.hpp:172 -/
def asBool : Val → Res Bool
  | .bool b => .ok b
  | _ => .err .deser

/-- `asBlob`, json.hpp:183-186 -/
def asBlob (v : Val) : Res Bytes := do
  let b ← isBlob v
  Res.require b .deser
  let x ← getIdx v 1
  let s ← asString x
  Base64.decode s

/-- `contains`, json.hpp:189-192 -/
def contains : Val → Bytes → Res Bool
  | .map ms, k => .ok (firstVal ms k).isSome
  | _, _ => .ok false

/-- `mapKeys`, json.hpp:194-197, with a complete range-for over `KeysView`, json.hpp:24-73. -/
def mapKeys : Val → Res (List Bytes)
  | .map ms => .ok (ms.map Prod.fst)
  | _ => .err .deser

/-- `operator[](string_view)`, json.hpp:199-204; `yyjson_obj_getn` finds the first entry. -/
def getKey : Val → Bytes → Res Val
  | .map ms, k => match firstVal ms k with
    | some v => .ok v
    | none => .err .deser
  | _, _ => .err .deser

/-- The reader as an instance of the `Reader` concept. -/
def reader : Reader Val where
  isNull v := .ok (isNull v)
  isBool v := .ok (isBool v)
  isInt v := .ok (isInt v)
  isUInt v := .ok (isUInt v)
  isFloat v := .ok (isFloat v)
  isString v := .ok (isString v)
  isBlob := isBlob
  isMap v := .ok (isMap v)
  isArray v := .ok (isArray v)
  asBool := asBool
  asInt64 := asInt64
  asUInt64 := asUInt64
  asDouble := asDouble
  asString := asString
  asStringView := asString
  asBlob := asBlob
  mapKeys := mapKeys
  contains := contains
  getKey := getKey
  arraySize := arraySize
  getIdx := getIdx

/-- Constructor from bytes, json.hpp:97-112 -/
def opn (T : Text) (b : Bytes) : Res Val :=
  match T.parse b with
  | some d => .ok d
  | none => .err .deser

/-! ## Writer, json.hpp:236-387 -/

/-- `RootSerializer::Ctx`, json.hpp:241-245, with the contents of its node and the key under which
the node was added to its parent. -/
structure Ctx where
  isObj : Bool
  key : Bytes
  xs : List Val := []
  ms : List (Bytes × Val) := []
  pending : Bytes := []

/-- The node of an open container. -/
def Ctx.node (c : Ctx) : Val := if c.isObj then .map c.ms else .arr c.xs

/-- `yyjson_mut_arr_add_val` / `yyjson_mut_obj_add`. -/
def Ctx.add (c : Ctx) (k : Bytes) (v : Val) : Ctx :=
  if c.isObj then { c with ms := c.ms ++ [(k, v)] } else { c with xs := c.xs ++ [v] }

/-- `RootSerializer`, json.hpp:236-246: `root` once it is complete, `wrote_root`, `st`. -/
structure RS where
  root : Option Val := none
  wrote : Bool := false
  st : List Ctx := []

/-- `c_str()` ends at the first NUL. -/
def cstr (s : Bytes) : Bytes := s.takeWhile (fun c => decide (c ≠ 0))

/-- The checks of `push_value`, json.hpp:338-381: the key under which the next value is added, and
the state with this key consumed. `dbg` is the absence of NDEBUG, json.hpp:361-365. -/
def slot (dbg : Bool) (s : RS) : Res (Bytes × RS) :=
  match s.st with
  | [] => if s.wrote then .err .logic else .ok ([], { s with wrote := true })
  | c :: cs =>
    if c.isObj then
      if c.pending = [] then .err .logic
      else if dbg = true ∧ (0 : UInt8) ∈ c.pending then .err .logic
      else .ok (cstr c.pending, { s with st := { c with pending := [] } :: cs })
    else .ok ([], s)

/-- Add a complete node to the innermost container, or make it the root. -/
def attach (s : RS) (k : Bytes) (v : Val) : RS :=
  match s.st with
  | [] => { s with root := some v }
  | c :: cs => { s with st := c.add k v :: cs }

/-- `push_value` of a scalar, json.hpp:338-381 -/
def push (dbg : Bool) (s : RS) (v : Val) : Res RS := do
  let (k, s) ← slot dbg s
  pure (attach s k v)

/-- `begin_array`/`begin_map`, json.hpp:303-308, 314-319 -/
def openC (dbg : Bool) (isObj : Bool) (s : RS) : Res RS := do
  let (k, s) ← slot dbg s
  pure { s with st := { isObj := isObj, key := k } :: s.st }

/-- `st.pop_back()`: the node is complete. -/
def pop (s : RS) : RS :=
  match s.st with
  | [] => s
  | c :: cs => attach { s with st := cs } c.key c.node

/-- `end_array`, json.hpp:309-312 -/
def endArr (s : RS) : Res RS :=
  match s.st with
  | [] => .err .logic
  | c :: _ => if c.isObj then .err .logic else .ok (pop s)

/-- `end_map`, json.hpp:320-325 -/
def endMap (s : RS) : Res RS :=
  match s.st with
  | [] => .err .logic
  | c :: _ =>
    if c.isObj then if c.pending = [] then .ok (pop s) else .err .logic
    else .err .logic

/-- `key`, json.hpp:327-333 -/
def key (s : RS) (k : Bytes) : Res RS :=
  match s.st with
  | [] => .err .logic
  | c :: cs =>
    if c.isObj then
      if c.pending = [] then .ok { s with st := { c with pending := k } :: cs } else .err .logic
    else .err .logic

/-- `binary`, json.hpp:290-301 -/
def binary (dbg : Bool) (s : RS) (b : Bytes) : Res RS := do
  let t := Base64.encode b
  let s ← openC dbg false s
  let s ← push dbg s (.str blobTag)
  let s ← push dbg s (.str t)
  let s ← push dbg s (.str blobEncoding)
  endArr s

/-- One writer call, json.hpp:281-333. -/
def step (dbg : Bool) (s : RS) : Ev → Res RS
  | .null => push dbg s .null
  | .bool b => push dbg s (.bool b)
  | .int i => push dbg s (.int i)
  | .uint n => push dbg s (.uint n)
  | .dbl d => push dbg s (.dbl d)
  | .str t => push dbg s (.str t)
  | .blob b => binary dbg s b
  | .key k => key s k
  | .beginArr _ => openC dbg false s
  | .endArr => endArr s
  | .beginMap _ => openC dbg true s
  | .endMap => endMap s

def writer (dbg : Bool) : Writer RS := ⟨step dbg⟩

/-- Close `n` open containers: what the document looks like while they are open. -/
def popN : Nat → RS → RS
  | 0, s => s
  | n + 1, s => popN n (pop s)

/-- The document at `finish()`, json.hpp:253-256. -/
def doc (s : RS) : Val := (popN s.st.length s).root.getD .null

/-- `finish`, json.hpp:252-272 -/
def finish (T : Text) (s : RS) : Res Bytes :=
  match T.print (doc s) with
  | some b => .ok b
  | none => .err .runtime

/-- The protocol. -/
def proto (T : Text) (dbg : Bool) : Proto where
  σ := RS
  ρ := Val
  writer := writer dbg
  init := {}
  finish := finish T
  reader := reader
  opn := opn T

end Zer.Json
