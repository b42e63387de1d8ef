import Verif.Each
import Verif.Proto

/-!
# Documents: what a flexbuffers buffer holds

`Doc` is the specification layer of the Flex protocol: the tree behind a valid buffer, and what the
reader of `include/zerialize/protocols/flex.hpp` (cited as `flex.hpp`) answers about it. The model of the
code itself is `Verif/Flex/Model.lean`; it works on bytes, and `Verif/Flex/Sim.lean` relates the two.
-/

namespace Zer.Flex

/-- A flexbuffers value: what a `flexbuffers::Reference` refers to. `key` is FBT_KEY, `vec` an untyped
vector, `map` a map with its keys in the stored order. (Typed vectors, which this library never writes,
are not documents; see `Ref`.) -/
inductive Doc where
  | null
  | bool (b : Bool)
  | int (i : Int64)
  | uint (n : UInt64)
  | dbl (bits : UInt64)
  | str (s : Bytes)
  | key (k : Bytes)
  | blob (s : Bytes)
  | vec (xs : List Doc)
  | map (ms : List (Bytes × Doc))

/-- Structural induction over documents. -/
theorem Doc.ind {P : Doc → Prop}
    (null : P .null) (bool : ∀ b, P (.bool b)) (int : ∀ i, P (.int i)) (uint : ∀ n, P (.uint n))
    (dbl : ∀ d, P (.dbl d)) (str : ∀ s, P (.str s)) (key : ∀ k, P (.key k)) (blob : ∀ s, P (.blob s))
    (vec : ∀ xs, (∀ x ∈ xs, P x) → P (.vec xs))
    (map : ∀ ms : List (Bytes × Doc), (∀ m ∈ ms, P m.2) → P (.map ms)) : ∀ v, P v
  | .null => null
  | .bool b => bool b
  | .int i => int i
  | .uint n => uint n
  | .dbl d => dbl d
  | .str s => str s
  | .key s => key s
  | .blob s => blob s
  | .vec xs => vec xs (fun x _ => ind null bool int uint dbl str key blob vec map x)
  | .map ms => map ms (fun m _ => ind null bool int uint dbl str key blob vec map m.2)
termination_by v => sizeOf v
decreasing_by
  all_goals simp_wf
  · rename_i h; have := List.sizeOf_lt_of_mem h; omega
  · rename_i h
    have := List.sizeOf_lt_of_mem h
    obtain ⟨k, v⟩ := m
    simp at this ⊢
    omega

/-- `std::char_traits<char>::compare(a, b, n)`: the first `n` bytes as unsigned numbers. -/
def compare : Bytes → Bytes → Nat → Ordering
  | a :: as, b :: bs, n + 1 => if a < b then .lt else if b < a then .gt else compare as bs n
  | _, _, _ => .eq

/-- The three-way decision in the loop body, flex.hpp:288-296 and 336-344: is the stored key `sv`
below, above or equal to `key`? -/
def order (sv key : Bytes) : Ordering :=
  let n := if sv.length < key.length then sv.length else key.length
  match compare sv key n with
  | .lt => .lt
  | .gt => .gt
  | .eq => if sv.length < key.length then .lt else if key.length < sv.length then .gt else .eq

/-- The loop of `contains`, flex.hpp:283-297, and of `operator[]`, flex.hpp:330-344: the index at which
it stops, if it finds the key. `keys[mid]` outside the range is an empty string (flexbuffers gives a
null reference). -/
def search (keys : List Bytes) (key : Bytes) (lo hi : Nat) : Option Nat :=
  if h : lo < hi then
    let mid := (lo + hi) / 2
    match order (keys[mid]?.getD []) key with
    | .lt => search keys key (mid + 1) hi
    | .gt => search keys key lo mid
    | .eq => some mid
  else none
termination_by hi - lo
decreasing_by all_goals omega

namespace Doc

/-! ## The reader on documents

Each function is what the accessor of the same name in `Verif/Flex/Model.lean` answers at a position
that holds the document. -/

/-- `isNull`, ..., flex.hpp:214-222 -/
def isNull : Doc → Bool
  | .null => true
  | _ => false
def isBool : Doc → Bool
  | .bool _ => true
  | _ => false
def isInt : Doc → Bool
  | .int _ => true
  | _ => false
def isUInt : Doc → Bool
  | .uint _ => true
  | _ => false
def isFloat : Doc → Bool
  | .dbl _ => true
  | _ => false
/-- `IsString` is false for FBT_KEY. -/
def isString : Doc → Bool
  | .str _ => true
  | _ => false
def isBlob : Doc → Bool
  | .blob _ => true
  | _ => false
def isMap : Doc → Bool
  | .map _ => true
  | _ => false
/-- `IsAnyVector() && !IsMap()` -/
def isArray : Doc → Bool
  | .vec _ => true
  | _ => false

/-- `asInt64`, flex.hpp:228 -/
def asInt64 : Doc → Res Int64
  | .int i => .ok i
  | _ => .err .deser

/-- `asUInt64`, flex.hpp:233 -/
def asUInt64 : Doc → Res UInt64
  | .uint n => .ok n
  | _ => .err .deser

/-- `asInt8/16/32`, flex.hpp:225-227; flexbuffers casts `AsInt64()`. -/
def asIntN (w : Nat) (v : Doc) : Res Int := do
  let x ← asInt64 v
  pure (x.toInt.bmod (2 ^ w))

/-- `asUInt8/16/32`, flex.hpp:230-232 -/
def asUIntN (w : Nat) (v : Doc) : Res Nat := do
  let x ← asUInt64 v
  pure (x.toNat % 2 ^ w)

/-- `asDouble`, flex.hpp:236 -/
def asDouble : Doc → Res UInt64
  | .dbl d => .ok d
  | _ => .err .deser

/-- `asBool`, flex.hpp:237 -/
def asBool : Doc → Res Bool
  | .bool b => .ok b
  | _ => .err .deser

/-- `asString`, `asStringView`, flex.hpp:239-240 -/
def asString : Doc → Res Bytes
  | .str s => .ok s
  | _ => .err .deser

/-- `asBlob`, flex.hpp:242-247 -/
def asBlob : Doc → Res Bytes
  | .blob s => .ok s
  | _ => .err .deser

/-- `mapKeys`, flex.hpp:274-277, with a complete range-for over `KeysView`, flex.hpp:250-272. -/
def mapKeys : Doc → Res (List Bytes)
  | .map ms => .ok (ms.map Prod.fst)
  | _ => .err .deser

/-- `contains`, flex.hpp:279-299 -/
def contains : Doc → Bytes → Res Bool
  | .map ms, k => .ok (search (ms.map Prod.fst) k 0 (ms.map Prod.fst).length).isSome
  | _, _ => .ok false

/-- `operator[](string_view)`, flex.hpp:325-346; `vals[mid]` outside the range is a null reference. -/
def getKey : Doc → Bytes → Res Doc
  | .map ms, k =>
    match search (ms.map Prod.fst) k 0 (ms.map Prod.fst).length with
    | some mid => .ok ((ms.map Prod.snd)[mid]?.getD .null)
    | none => .err .deser
  | _, _ => .err .deser

/-- The elements `AsVector()` gives. -/
def elems : Doc → List Doc
  | .vec xs => xs
  | _ => []

/-- `arraySize`, flex.hpp:301-304 -/
def arraySize (v : Doc) : Res Nat := do
  Res.require (isArray v) .deser
  pure (elems v).length

/-- `operator[](size_t)`, flex.hpp:348-353 -/
def getIdx (v : Doc) (i : Nat) : Res Doc := do
  Res.require (isArray v) .deser
  match (elems v)[i]? with
  | some x => .ok x
  | none => .err .deser

/-- The reader as an instance of the `Reader` concept. -/
def reader : Reader Doc where
  isNull v := .ok (isNull v)
  isBool v := .ok (isBool v)
  isInt v := .ok (isInt v)
  isUInt v := .ok (isUInt v)
  isFloat v := .ok (isFloat v)
  isString v := .ok (isString v)
  isBlob v := .ok (isBlob v)
  isMap v := .ok (isMap v)
  isArray v := .ok (isArray v)
  asBool := asBool
  asInt64 := asInt64
  asUInt64 := asUInt64
  asDouble := asDouble
  asString := asString
  asStringView := asString
  asBlob := asBlob
  mapKeys := mapKeys
  contains := contains
  getKey := getKey
  arraySize := arraySize
  getIdx := getIdx

end Doc

/-- What a NUL-terminated string denotes. -/
def cstr (s : Bytes) : Bytes := s.takeWhile (fun c => decide (c ≠ 0))

end Zer.Flex
