import Verif.Proto
import Verif.Dyn.Model

/-!
# Tensors

Model of `include/zerialize/tensor/utils.hpp`, `xtensor.hpp`, `eigen.hpp` and `view_info.hpp`, over an
arbitrary `Reader`. xtensor and Eigen containers are modelled by what the code uses of them: the memory
behind `data()`, the shape, and the strides and offset with which the library indexes that memory.
-/

namespace Zer.Tensor

/-! ## Element types, utils.hpp:14-68 -/

/-- Element types. `other` stands for every type without a specialisation of `tensor_dtype_index`, such as
`bool`, `char`, `long long` (which is not `int64_t` on LP64 systems) or `long double`. -/
inductive DType where
  | i8 | i16 | i32 | i64 | u8 | u16 | u32 | u64 | f32 | f64 | c32 | c64 | half
  | other (id size align : Nat)
  deriving DecidableEq, Repr

/-- `tensor_dtype_index<T>`, utils.hpp:14-28 -/
def DType.code : DType → Int
  | i8 => 0 | i16 => 1 | i32 => 2 | i64 => 3
  | u8 => 4 | u16 => 5 | u32 => 6 | u64 => 7
  | f32 => 10 | f64 => 11 | c32 => 12 | c64 => 13 | half => 14
  | other _ _ _ => -1

/-- `tensor_dtype_name<T>`, utils.hpp:30-44 -/
def DType.name : DType → String
  | i8 => "int8" | i16 => "int16" | i32 => "int32" | i64 => "int64"
  | u8 => "uint8" | u16 => "uint16" | u32 => "uint32" | u64 => "uint64"
  | f32 => "float" | f64 => "double" | c32 => "complex<float>" | c64 => "complex<double>"
  | half => "xtl::half_float"
  | other _ _ _ => ""

/-- `type_name_from_code`, utils.hpp:51-68 -/
def typeNameFromCode (c : Int) : String :=
  if c = 0 then "int8" else if c = 1 then "int16" else if c = 2 then "int32" else if c = 3 then "int64"
  else if c = 4 then "uint8" else if c = 5 then "uint16" else if c = 6 then "uint32"
  else if c = 7 then "uint64" else if c = 10 then "float" else if c = 11 then "double"
  else if c = 12 then "complex<float>" else if c = 13 then "complex<double>"
  else if c = 14 then "xtl::half_float" else "unknown"

/-- `sizeof(T)` -/
def DType.size : DType → Nat
  | i8 | u8 => 1 | i16 | u16 | half => 2 | i32 | u32 | f32 => 4 | i64 | u64 | f64 | c32 => 8 | c64 => 16
  | other _ s _ => s

/-- `alignof(T)`; a complex number is aligned like its parts. -/
def DType.align : DType → Nat
  | i8 | u8 => 1 | i16 | u16 | half => 2 | i32 | u32 | f32 | c32 => 4 | i64 | u64 | f64 | c64 => 8
  | other _ _ a => a

/-- The type has a code of its own. -/
def DType.Supported : DType → Prop
  | other _ _ _ => False
  | _ => True

/-! ## Reading -/

/-- What tensor code needs of a reader beyond the accessors of `Reader`: `asInt8`/`asInt32` (`asIntN 8`,
`asIntN 32`), whether `asBlob()` returns a span or an owning vector (a property of the protocol, decided
with `std::is_same_v`, xtensor.hpp:174, eigen.hpp:177), and the address of the first byte of the blob of a
position. -/
structure TReader (ρ : Type) extends Reader ρ where
  asIntN : Nat → ρ → Res Int
  span : Bool
  addr : ρ → Nat

variable {ρ : Type}

/-- `isTensor<T>`, utils.hpp:138-155; the branch for `TensorIsMap` does not compile. -/
def isTensor (R : TReader ρ) (dt : DType) (r : ρ) : Res Bool := do
  if !(← R.isArray r) then return false
  if (← R.arraySize r) < 3 then return false
  if !(← R.isInt (← R.getIdx r 0)) then return false
  if (← R.asIntN 8 (← R.getIdx r 0)) ≠ dt.code then return false
  if !(← R.isArray (← R.getIdx r 1)) then return false
  R.isBlob (← R.getIdx r 2)

/-- The body of the loop of `tensor_shape`, utils.hpp:93-110 -/
def shapeElem (R : Reader ρ) (e : ρ) : Res Nat := do
  if ← R.isUInt e then do
    let x ← R.asUInt64 e
    if x.toNat > u32max then .err .deser else pure x.toNat
  else if ← R.isInt e then do
    let x ← R.asInt64 e
    if x.toInt < 0 then .err .deser
    else if x.toInt > u32max then .err .deser
    else pure x.toInt.toNat
  else .err .deser

/-- `for (i = start; i < start + n; i++)`, utils.hpp:91 -/
def shapeLoop (R : Reader ρ) (r : ρ) : Nat → Nat → Res (List Nat)
  | 0, _ => pure []
  | n + 1, i => do
    let d ← shapeElem R (← R.getIdx r i)
    let ds ← shapeLoop R r n (i + 1)
    pure (d :: ds)

/-- `tensor_shape`, utils.hpp:85-113. For the failure of `reserve` see `Verif/Memory.lean`. -/
def tensorShape (R : Reader ρ) (r : ρ) : Res (List Nat) := do
  Res.require (← R.isArray r) .deser
  shapeLoop R r (← R.arraySize r) 0

/-- `checked_element_count`, xtensor.hpp:94-105 -/
def checkedCount : (count : Nat) → List Nat → Res Nat
  | c, [] => pure c
  | c, d :: ds =>
    if d = 0 then pure 0
    else if c > (2 ^ 64 - 1) / d then .err .deser
    else checkedCount (c * d) ds

/-- `TensorViewReason`, view_info.hpp:9-13 -/
inductive Reason where
  | ok | notSpanBacked | misaligned
  deriving DecidableEq, Repr

/-- `XTensorView<T>` (xtensor.hpp:48-90), `EigenMatrixView` (eigen.hpp:49-103) with `TensorViewInfo`
(view_info.hpp:17-24). `bytes` is the memory behind the element pointer, the span or the owned copy. -/
structure View where
  shape : List Nat
  count : Nat
  bytes : Bytes
  zeroCopy : Bool
  reason : Reason
  required : Nat
  address : Nat
  byteSize : Nat
  deriving DecidableEq, Repr

/-- Product of the dimensions. -/
def prod (ds : List Nat) : Nat := ds.foldr (· * ·) 1

/-- An owning container of `n` elements of `size` bytes that receives a copy of `bytes`
(`from_shape` + `memcpy`, xtensor.hpp:153-161, 189-196; eigen.hpp:165-173, 190-198). The allocation is
refused if the number of bytes is no `size_t`; `memcpy` writes no more than the container holds because the
sizes were compared modulo 2^64. Memory that is not written is unspecified, here zero. -/
def ownedCopy (n size : Nat) (bytes : Bytes) : Res Bytes :=
  if n * size < 2 ^ 64 then
    if bytes.length ≤ n * size then pure (bytes ++ List.replicate (n * size - bytes.length) 0) else .ub
  else .err .badAlloc

/-- The last part of both functions, xtensor.hpp:151-202, eigen.hpp:158-207. -/
def makeView (span : Bool) (addr : Nat) (dt : DType) (shape : List Nat) (count : Nat) (bytes : Bytes) :
    Res View :=
  if span = false then do
    let own ← ownedCopy count dt.size bytes
    pure ⟨shape, count, own, false, .notSpanBacked, dt.align, addr, bytes.length⟩
  else if addr % dt.align ≠ 0 then do
    let own ← ownedCopy count dt.size bytes
    pure ⟨shape, count, own, false, .misaligned, dt.align, addr, bytes.length⟩
  else
    pure ⟨shape, count, bytes, true, .ok, dt.align, addr, bytes.length⟩

/-- `asXTensorView<T, D>`, xtensor.hpp:119-203; `D = none` is the default -1. -/
def asXTensorView (R : TReader ρ) (dt : DType) (D : Option Nat) (r : ρ) : Res View := do
  Res.require (← isTensor R dt r) .deser
  let dtype ← R.asIntN 32 (← R.getIdx r 0)
  if dtype ≠ dt.code then .err .deser
  else do
    let shape ← tensorShape R.toReader (← R.getIdx r 1)
    if (match D with | none => false | some d => decide (shape.length ≠ d)) then .err .deser
    else do
      let data ← R.getIdx r 2
      let bytes ← R.asBlob data
      let count ← checkedCount 1 shape
      let expected := u64 (count * dt.size)
      if bytes.length ≠ expected then .err .deser
      else makeView R.span (R.addr data) dt shape count bytes

/-- `asEigenMatrixView<T, NRows, NCols>`, eigen.hpp:105-208; `none` is `Eigen::Dynamic`. -/
def asEigenMatrixView (R : TReader ρ) (dt : DType) (nr nc : Option Nat) (r : ρ) : Res View := do
  Res.require (← isTensor R dt r) .deser
  let dtype ← R.asIntN 32 (← R.getIdx r 0)
  if dtype ≠ dt.code then .err .deser
  else do
    let shape ← tensorShape R.toReader (← R.getIdx r 1)
    match shape with
    | [rows, cols] =>
      if (match nr with | none => false | some d => decide (rows ≠ d)) then .err .deser
      else if (match nc with | none => false | some d => decide (cols ≠ d)) then .err .deser
      else do
        let data ← R.getIdx r 2
        let bytes ← R.asBlob data
        let expected := u64 (u64 (rows * cols) * dt.size)
        if bytes.length ≠ expected then .err .deser
        else makeView R.span (R.addr data) dt [rows, cols] (rows * cols) bytes
    | _ => .err .deser

/-! ## Elements -/

/-- Element number `k` behind an element pointer. -/
def element (size : Nat) (mem : Bytes) (k : Nat) : Res Bytes := sliceAt mem (k * size) size

/-- `Σ idx[i] * strides[i]` -/
def dot : List Nat → List Nat → Nat
  | i :: is, s :: ss => i * s + dot is ss
  | _, _ => 0

/-- Strides of a row-major container. -/
def rowStrides : List Nat → List Nat
  | [] => []
  | _ :: ds => prod ds :: rowStrides ds

/-- Strides of a column-major container, of which the preceding dimensions have `k` elements. -/
def colStridesFrom : Nat → List Nat → List Nat
  | _, [] => []
  | k, d :: ds => k :: colStridesFrom (k * d) ds
def colStrides (ds : List Nat) : List Nat := colStridesFrom 1 ds

/-- An index is inside a shape. -/
def Inside : List Nat → List Nat → Prop
  | [], [] => True
  | i :: is, d :: ds => i < d ∧ Inside is ds
  | _, _ => False

instance : ∀ (is ds : List Nat), Decidable (Inside is ds)
  | [], [] => .isTrue trivial
  | i :: is, d :: ds => by unfold Inside; exact @instDecidableAnd _ _ _ (instDecidableInside is ds)
  | [], _ :: _ => .isFalse (by simp [Inside])
  | _ :: _, [] => .isFalse (by simp [Inside])

/-- The element at an index of a view: `view.tensor()(i...)` (xtensor.hpp:67-70: `xt::adapt` with the default
layout, row-major) -/
def View.at (v : View) (dt : DType) (idx : List Nat) : Res Bytes :=
  element dt.size v.bytes (dot idx (rowStrides v.shape))

/-- `view.map()(i, j)`, eigen.hpp:67-74, `rowMajor` from `Options`. -/
def View.atEigen (v : View) (dt : DType) (rowMajor : Bool) (idx : List Nat) : Res Bytes :=
  element dt.size v.bytes (dot idx (if rowMajor then rowStrides v.shape else colStrides v.shape))

/-- `XTensorView::array()`, xtensor.hpp:73-78, and with it `asXTensor`; `EigenMatrixView::matrix()`,
eigen.hpp:77-88: an owning copy of the memory. -/
def View.owned (v : View) (dt : DType) : Res Bytes :=
  if v.zeroCopy then ownedCopy v.count dt.size v.bytes else pure v.bytes

/-! ## Writing -/

/-- A container: memory from `data()` to the end of the allocation, shape, and where element `idx` is:
number `offset + Σ idx[i] * strides[i]` from `data()`. For views of xtensor `data()` is the start of the
underlying container and the offset need not be zero. -/
structure Cont where
  mem : Bytes
  shape : List Nat
  strides : List Nat
  offset : Nat
  deriving DecidableEq, Repr

/-- The element that the user sees at an index. -/
def Cont.at (c : Cont) (dt : DType) (idx : List Nat) : Res Bytes :=
  element dt.size c.mem (c.offset + dot idx c.strides)

/-- `span_from_data_of`, utils.hpp:122-129: `size()` elements from `data()` on. -/
def spanFromDataOf (c : Cont) (dt : DType) : Res Bytes := sliceAt c.mem 0 (prod c.shape * dt.size)

/-- The bit pattern of the `int` that the code is. -/
def codeBits (dt : DType) : BitVec 32 := BitVec.ofInt 32 dt.code

/-- `xt::serialize`, xtensor.hpp:22-30, with `shape_of_sizet`, utils.hpp:77-83 (dimensions are truncated). -/
def xtSrc (c : Cont) (dt : DType) : Res Dyn.Src := do
  let bytes ← spanFromDataOf c dt
  pure (.zvec [.sint 32 (codeBits dt), .seq .vector (c.shape.map fun d => .uint 32 (BitVec.ofNat 32 d)),
    .blob bytes])

/-- `Eigen::serialize`, eigen.hpp:17-29: the shape is an array of `size_t`. -/
def eigenSrc (c : Cont) (dt : DType) : Res Dyn.Src := do
  let bytes ← spanFromDataOf c dt
  pure (.zvec [.sint 32 (codeBits dt), .seq .array (c.shape.map fun d => .uint 64 (BitVec.ofNat 64 d)),
    .blob bytes])

end Zer.Tensor
