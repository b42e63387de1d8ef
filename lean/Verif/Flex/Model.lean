import Verif.Flex.Format

/-!
# Model of the Flex protocol

Transcribed from `include/zerialize/protocols/flex.hpp` (cited as `flex.hpp`), on top of the flexbuffers
functions of `Verif/Flex/Format.lean`.
-/

namespace Zer.Flex

/-! ## Reader, flex.hpp:111-353 -/

/-- `isNull`, ..., flex.hpp:214-222 -/
def isNull (r : Ref) : Bool := r.ty = 0
def isBool (r : Ref) : Bool := r.ty = 26
def isInt (r : Ref) : Bool := r.ty = 1 || r.ty = 6
def isUInt (r : Ref) : Bool := r.ty = 2 || r.ty = 7
def isFloat (r : Ref) : Bool := r.ty = 3 || r.ty = 8
/-- `IsString` is false for FBT_KEY. -/
def isString (r : Ref) : Bool := r.ty = 5
def isBlob (r : Ref) : Bool := r.ty = 25
def isMap (r : Ref) : Bool := r.ty = 9
/-- `IsAnyVector() && !IsMap()`: typed vectors count. -/
def isArray (r : Ref) : Bool := (typedType r.ty || r.ty = 9 || r.ty = 10) && !isMap r

/-- `asInt64`, flex.hpp:228 -/
def asInt64 (r : Ref) : Res Int64 := do
  Res.require (isInt r) .deser
  r.int64

/-- `asUInt64`, flex.hpp:233 -/
def asUInt64 (r : Ref) : Res UInt64 := do
  Res.require (isUInt r) .deser
  let n ← r.uint64
  pure (UInt64.ofNat n)

/-- `asInt8/16/32`, flex.hpp:225-227; flexbuffers casts `AsInt64()`. -/
def asIntN (w : Nat) (r : Ref) : Res Int := do
  let x ← asInt64 r
  pure (x.toInt.bmod (2 ^ w))

/-- `asUInt8/16/32`, flex.hpp:230-232 -/
def asUIntN (w : Nat) (r : Ref) : Res Nat := do
  let x ← asUInt64 r
  pure (x.toNat % 2 ^ w)

/-- `asDouble`, flex.hpp:236 -/
def asDouble (r : Ref) : Res UInt64 := do
  Res.require (isFloat r) .deser
  r.double

/-- `asBool`, flex.hpp:237 -/
def asBool (r : Ref) : Res Bool := do
  Res.require (isBool r) .deser
  let n ← readU r.buf r.pos r.pw
  pure (decide (n ≠ 0))

/-- `asString`, `asStringView`, flex.hpp:239-240 -/
def asString (r : Ref) : Res Bytes := do
  Res.require (isString r) .deser
  r.sized

/-- `asBlob`, flex.hpp:242-247 -/
def asBlob (r : Ref) : Res Bytes := do
  Res.require (isBlob r) .deser
  r.sized

/-- Dereferencing the iterators of `KeysView`, flex.hpp:262-265, from `i` on, `n` times. -/
def keysFrom (b : Bytes) (kp kw kn : Nat) : Nat → Nat → Res (List Bytes)
  | _, 0 => pure []
  | i, n + 1 => do
    let k ← keyAt b kp kw kn i
    let ks ← keysFrom b kp kw kn (i + 1) n
    pure (k :: ks)

/-- `mapKeys`, flex.hpp:274-277, with a complete range-for over `KeysView`, flex.hpp:250-272. -/
def mapKeys (r : Ref) : Res (List Bytes) := do
  Res.require (isMap r) .deser
  let (p, _) ← r.vector
  let (kp, kw, kn) ← keysAt r.buf p r.bw
  keysFrom r.buf kp kw kn 0 kn

/-- The loop of `contains`, flex.hpp:284-297, and of `operator[]`, flex.hpp:331-344: the index at which
it stops, if it finds the key. `lo + hi` is a sum of `size_t`. -/
def loop (b : Bytes) (kp kw kn : Nat) (key : Bytes) : Nat → Nat → Nat → Res (Option Nat)
  | 0, _, _ => .diverge
  | fuel + 1, lo, hi =>
    if lo < hi then do
      let mid := u64 (lo + hi) / 2
      let sv ← keyAt b kp kw kn mid
      match order sv key with
      | .lt => loop b kp kw kn key fuel (mid + 1) hi
      | .gt => loop b kp kw kn key fuel lo mid
      | .eq => pure (some mid)
    else pure none

/-- There are fewer pairs of `size_t` than this: a loop that has not ended after so many rounds has been
twice in the same state and never ends. -/
def loopFuel : Nat := 2 ^ 128 + 1

/-- `contains`, flex.hpp:279-299 -/
def contains (r : Ref) (k : Bytes) : Res Bool :=
  if isMap r then do
    let (p, _) ← r.vector
    let (kp, kw, kn) ← keysAt r.buf p r.bw
    let f ← loop r.buf kp kw kn k loopFuel 0 kn
    pure f.isSome
  else pure false

/-- `operator[](string_view)`, flex.hpp:325-346 -/
def getKey (r : Ref) (k : Bytes) : Res Ref := do
  Res.require (isMap r) .deser
  let (p, n) ← r.vector
  let (kp, kw, kn) ← keysAt r.buf p r.bw
  let f ← loop r.buf kp kw kn k loopFuel 0 kn
  match f with
  | some mid => elemAt r.buf p r.bw n mid
  | none => .err .deser

/-- `arraySize`, flex.hpp:301-304 -/
def arraySize (r : Ref) : Res Nat := do
  Res.require (isArray r) .deser
  let (_, n) ← r.vector
  pure n

/-- `operator[](size_t)`, flex.hpp:348-353 -/
def getIdx (r : Ref) (i : Nat) : Res Ref := do
  Res.require (isArray r) .deser
  let (p, n) ← r.vector
  Res.require (decide (i < n)) .deser
  elemAt r.buf p r.bw n i

/-- The reader as an instance of the `Reader` concept. -/
def reader : Reader Ref where
  isNull r := .ok (isNull r)
  isBool r := .ok (isBool r)
  isInt r := .ok (isInt r)
  isUInt r := .ok (isUInt r)
  isFloat r := .ok (isFloat r)
  isString r := .ok (isString r)
  isBlob r := .ok (isBlob r)
  isMap r := .ok (isMap r)
  isArray r := .ok (isArray r)
  asBool := asBool
  asInt64 := asInt64
  asUInt64 := asUInt64
  asDouble := asDouble
  asString := asString
  asStringView := asString
  asBlob := asBlob
  mapKeys := mapKeys
  contains := contains
  getKey := getKey
  arraySize := arraySize
  getIdx := getIdx

/-- Constructors from bytes, flex.hpp:369-391: an empty buffer is null; otherwise `GetRoot` is called
without verification. -/
def opn (b : Bytes) : Res Ref := if b = [] then .ok nullRef else getRoot b

/-! ## Writer, flex.hpp:19-101 -/

/-- `RootSerializer`, flex.hpp:19-29: of `fbb` the members `buf_`, `stack_` (bottom first) and `key_pool`;
`wrote_root_`; `st` (innermost first) as pairs of "is an object" and `start`. -/
structure RS where
  buf : Bytes := []
  stack : List BV := []
  pool : List Nat := []
  wrote : Bool := false
  st : List (Bool × Nat) := []

/-- A scalar, flex.hpp:52-56: flexbuffers pushes it on its stack. -/
def push (s : RS) (v : BV) : RS := { s with stack := s.stack ++ [v], wrote := true }

/-- `string`, `binary`, flex.hpp:57-63, on what flexbuffers has created. -/
def pushBlob (s : RS) (c : Bytes × BV) : RS := { push s c.2 with buf := c.1 }

/-- `begin_array`, `begin_map`, flex.hpp:66-70, 79-83; `StartVector` and `StartMap` return the size of
the stack. -/
def openC (isObj : Bool) (s : RS) : RS :=
  { s with st := (isObj, s.stack.length) :: s.st, wrote := true }

/-- `end_array`, flex.hpp:71-77, with flexbuffers `EndVector(start, false, false)`. -/
def endArr (s : RS) : Res RS :=
  match s.st with
  | (false, start) :: st =>
    let c := createVector s.buf (s.stack.drop start) (s.stack.drop start).length 1 false none
    .ok { s with buf := c.1, stack := s.stack.take start ++ [c.2], st := st }
  | _ => .err .logic

/-- `end_map`, flex.hpp:84-89 -/
def endMap (L : Lib) (dbg : Bool) (s : RS) : Res RS :=
  match s.st with
  | (true, start) :: st => do
    let c ← buildMap L dbg s.buf (s.stack.drop start)
    pure { s with buf := c.1, stack := s.stack.take start ++ [c.2], st := st }
  | _ => .err .logic

/-- `key`, flex.hpp:91-94, where flexbuffers copies the bytes `k` (the view and the byte behind it);
neither the container is checked nor `wrote_root_` set. -/
def keyBytes (s : RS) (k : Bytes) : Res RS := do
  let (b, u, pool) ← createKey s.buf s.pool k
  pure { s with buf := b, pool := pool, stack := s.stack ++ [⟨4, u, 0⟩] }

/-- One writer call, flex.hpp:51-94, with views of strings and keys that are followed by a NUL byte in
memory (`Flex/Key.lean` treats other views). -/
def step (L : Lib) (dbg : Bool) (s : RS) : Ev → Res RS
  | .null => .ok (push s ⟨0, 0, 0⟩)
  | .bool b => .ok (push s ⟨26, if b then 1 else 0, 0⟩)
  | .int i => .ok (push s ⟨1, i.toUInt64.toNat, widthI i.toUInt64.toNat⟩)
  | .uint n => .ok (push s ⟨2, n.toNat, widthU n.toNat⟩)
  | .dbl d => .ok (push s ⟨3, d.toNat, widthF d.toNat⟩)
  | .str t => .ok (pushBlob s (createBlob s.buf 5 t [0]))
  | .blob b => .ok (pushBlob s (createBlob s.buf 25 b []))
  | .key k => keyBytes s (k ++ [0])
  | .beginArr _ => .ok (openC false s)
  | .endArr => endArr s
  | .beginMap _ => .ok (openC true s)
  | .endMap => endMap L dbg s

def writer (L : Lib) (dbg : Bool) : Writer RS := ⟨step L dbg⟩

/-- `finish`, flex.hpp:33-43, called once, with flexbuffers `Finish`: with assertions a stack that does
not hold exactly one value ends the process; without, the bottom value is the root and an empty stack
is read outside its bounds. -/
def finish (dbg : Bool) (s : RS) : Res Bytes :=
  let stack := if s.wrote then s.stack else s.stack ++ [⟨0, 0, 0⟩]
  if dbg = true ∧ stack.length ≠ 1 then .err .abort
  else match stack with
    | v :: _ => .ok (finishRoot s.buf v)
    | [] => .ub

/-- The protocol. -/
def proto (L : Lib) (dbg : Bool) : Proto where
  σ := RS
  ρ := Ref
  writer := writer L dbg
  init := {}
  finish := finish dbg
  reader := reader
  opn := opn

end Zer.Flex
