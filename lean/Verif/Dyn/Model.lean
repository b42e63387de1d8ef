import Verif.Proto
import Verif.Float

/-!
# Values given to `serialize`: C++ values, builders and dynamic values

Model of `internals/serializers.hpp`, `zbuilders.hpp` and `dynamic.hpp`. `Src` is everything that can
be handed to `serialize<P>(...)`; `ser` transcribes what the `serialize` overloads and the builders do
with a writer.
-/

namespace Zer.Dyn

/-! ## The type-erased writer, dynamic.hpp:22-68 -/

/-- `WriterView`, dynamic.hpp:22-35; `ctx` is the state of the writer behind it. -/
structure WriterView (σ : Type) where
  null_fn : σ → Res σ
  bool_fn : σ → Bool → Res σ
  i64_fn : σ → Int64 → Res σ
  u64_fn : σ → UInt64 → Res σ
  dbl_fn : σ → UInt64 → Res σ
  str_fn : σ → Bytes → Res σ
  bin_fn : σ → Bytes → Res σ
  key_fn : σ → Bytes → Res σ
  begin_arr_fn : σ → Nat → Res σ
  end_arr_fn : σ → Res σ
  begin_map_fn : σ → Nat → Res σ
  end_map_fn : σ → Res σ

/-- `WriterView::make`, dynamic.hpp:37-54 (positional initialisation) -/
def WriterView.make {σ : Type} (W : Writer σ) : WriterView σ :=
  ⟨fun c => W.step c .null,
   fun c b => W.step c (.bool b),
   fun c v => W.step c (.int v),
   fun c v => W.step c (.uint v),
   fun c v => W.step c (.dbl v),
   fun c s => W.step c (.str s),
   fun c s => W.step c (.blob s),
   fun c s => W.step c (.key s),
   fun c n => W.step c (.beginArr n),
   fun c => W.step c .endArr,
   fun c n => W.step c (.beginMap n),
   fun c => W.step c .endMap⟩

/-- The member functions, dynamic.hpp:56-67 -/
def WriterView.writer {σ : Type} (V : WriterView σ) : Writer σ where
  step c
    | .null => V.null_fn c
    | .bool b => V.bool_fn c b
    | .int v => V.i64_fn c v
    | .uint v => V.u64_fn c v
    | .dbl v => V.dbl_fn c v
    | .str s => V.str_fn c s
    | .blob s => V.bin_fn c s
    | .key s => V.key_fn c s
    | .beginArr n => V.begin_arr_fn c n
    | .endArr => V.end_arr_fn c
    | .beginMap n => V.begin_map_fn c n
    | .endMap => V.end_map_fn c

/-! ## What can be serialized -/

/-- Sequence containers with an overload, serializers.hpp:56-94 -/
inductive Seq where
  | list | vector | array | initList
  deriving DecidableEq, Repr

mutual
/-- An argument of `serialize(v, w)` or of a builder.
* `sint w x`, `uint w x`: `char` to `unsigned long long`, serializers.hpp:32-42, as bit patterns;
* `cstr`: a `const char*`, as the memory from the pointer to the end of its allocation, or a null pointer;
* `str`: `std::string`, `std::string_view`; `blob`: `vector<byte>`, `span<const byte>`;
* `smap`, `umap`: `std::map`, `std::unordered_map` with string keys, entries in the order of iteration;
* `zvec`, `zmap`: builders while their arguments are alive (`Dyn/Builder.lean` treats lifetimes);
* `custom es`: a type with a user-defined `serialize` that makes the calls `es`. -/
inductive Src where
  | null
  | bool (b : Bool)
  | sint (w : Nat) (x : BitVec w)
  | uint (w : Nat) (x : BitVec w)
  | flt (bits : UInt32)
  | dbl (bits : UInt64)
  | cstr (mem : Option Bytes)
  | str (s : Bytes)
  | blob (s : Bytes)
  | seq (c : Seq) (xs : List Src)
  | smap (ms : List (Bytes × Src))
  | umap (ms : List (Bytes × Src))
  | zvec (xs : List Src)
  | zmap (ms : List (Bytes × Src))
  | dyn (d : DVal)
  | custom (es : List Ev)
/-- `dyn::Value`, dynamic.hpp:105-172: the alternatives of its variant. -/
inductive DVal where
  | null
  | bool (b : Bool)
  | int (i : Int64)
  | uint (n : UInt64)
  | dbl (bits : UInt64)
  | str (s : Bytes)
  | blob (s : Bytes)
  | arr (xs : List DVal)
  | map (ms : List (Bytes × DVal))
  | ser (s : Src)
end

/-- `static_cast<std::int64_t>` of a signed integer of at most 64 bits. -/
def toI64 {w : Nat} (x : BitVec w) : Int64 := Int64.ofInt x.toInt
/-- `static_cast<std::uint64_t>` of an unsigned integer of at most 64 bits. -/
def toU64 {w : Nat} (x : BitVec w) : UInt64 := UInt64.ofNat x.toNat
/-- The conversion of a `float` to `double`. -/
def toF64 (x : UInt32) : UInt64 := UInt64.ofNat (widen32 x.toNat)

/-- Length of a NUL-terminated string; reading past the allocation or from a null pointer is
undefined. -/
def strlen : Option Bytes → Res Bytes
  | none => .ub
  | some mem => if (0 : UInt8) ∈ mem then .ok (mem.takeWhile (· ≠ 0)) else .ub

mutual
/-- `serialize(v, w)` (serializers.hpp:30-116), `v(w)` for builders (zbuilders.hpp:59-79, 94-121) and
`serialize(dyn::Value, w)` for dynamic values. -/
def ser {σ : Type} (W : Writer σ) (s : σ) : Src → Res σ
  | .null => W.step s .null
  | .bool b => W.step s (.bool b)
  | .sint _ x => W.step s (.int (toI64 x))
  | .uint _ x => W.step s (.uint (toU64 x))
  | .flt x => W.step s (.dbl (toF64 x))
  | .dbl x => W.step s (.dbl x)
  | .cstr m => strlen m >>= fun t => W.step s (.str t)
  | .str t => W.step s (.str t)
  | .blob b => W.step s (.blob b)
  | .seq _ xs => do
    let s ← W.step s (.beginArr xs.length)
    let s ← serList W s xs
    W.step s .endArr
  | .smap ms => do
    let s ← W.step s (.beginMap ms.length)
    let s ← serEntries W s ms
    W.step s .endMap
  | .umap ms => do
    let s ← W.step s (.beginMap ms.length)
    let s ← serEntries W s ms
    W.step s .endMap
  | .zvec xs => do
    let s ← W.step s (.beginArr xs.length)
    let s ← serList W s xs
    W.step s .endArr
  | .zmap ms => do
    let s ← W.step s (.beginMap ms.length)
    let s ← serEntries W s ms
    W.step s .endMap
  | .dyn d => serDyn W s d
  | .custom es => W.run s es
/-- `for (const auto& item : c) serialize(item, w);` and `tuple_for_each`, tuple_for_each.hpp:20-26 -/
def serList {σ : Type} (W : Writer σ) (s : σ) : List Src → Res σ
  | [] => .ok s
  | x :: xs => ser W s x >>= fun s => serList W s xs
/-- `w.key(key); serialize(val, w);` for every entry -/
def serEntries {σ : Type} (W : Writer σ) (s : σ) : List (Bytes × Src) → Res σ
  | [] => .ok s
  | (k, x) :: ms => do
    let s ← W.step s (.key k)
    let s ← ser W s x
    serEntries W s ms
/-- `dyn::serialize`, dynamic.hpp:192-230; a `Serializable` is emitted through a `WriterView`,
dynamic.hpp:79-90. -/
def serDyn {σ : Type} (W : Writer σ) (s : σ) : DVal → Res σ
  | .null => W.step s .null
  | .bool b => W.step s (.bool b)
  | .int i => W.step s (.int i)
  | .uint n => W.step s (.uint n)
  | .dbl x => W.step s (.dbl x)
  | .str t => W.step s (.str t)
  | .blob b => W.step s (.blob b)
  | .arr xs => do
    let s ← W.step s (.beginArr xs.length)
    let s ← serDynList W s xs
    W.step s .endArr
  | .map ms => do
    let s ← W.step s (.beginMap ms.length)
    let s ← serDynEntries W s ms
    W.step s .endMap
  | .ser x => ser (WriterView.make W).writer s x
def serDynList {σ : Type} (W : Writer σ) (s : σ) : List DVal → Res σ
  | [] => .ok s
  | x :: xs => serDyn W s x >>= fun s => serDynList W s xs
def serDynEntries {σ : Type} (W : Writer σ) (s : σ) : List (Bytes × DVal) → Res σ
  | [] => .ok s
  | (k, x) :: ms => do
    let s ← W.step s (.key k)
    let s ← serDyn W s x
    serDynEntries W s ms
end

/-- `serialize<P>(v)`, serialize.hpp:40-58 -/
def serialize (P : Proto) (x : Src) : Res Bytes := ser P.writer P.init x >>= P.finish

/-! ## Construction of dynamic values, dynamic.hpp:111-141 -/

def DVal.ofSInt {w : Nat} (x : BitVec w) : DVal := .int (toI64 x)
def DVal.ofUInt {w : Nat} (x : BitVec w) : DVal := .uint (toU64 x)
def DVal.ofFloat (x : UInt32) : DVal := .dbl (toF64 x)

/-! ## `std::map` -/

/-- Insertion into a `std::map<std::string, V>`: an existing entry stays, a new one goes to its place
in the order of the keys. -/
def insertKey {α : Type} (k : Bytes) (x : α) : List (Bytes × α) → List (Bytes × α)
  | [] => [(k, x)]
  | (k', x') :: ms =>
    if k = k' then (k', x') :: ms
    else if k < k' then (k, x) :: (k', x') :: ms
    else (k', x') :: insertKey k x ms

/-- `std::map{{k, v}, ...}` -/
def stdMap {α : Type} (ins : List (Bytes × α)) : List (Bytes × α) :=
  ins.foldl (fun m p => insertKey p.1 p.2 m) []

end Zer.Dyn
