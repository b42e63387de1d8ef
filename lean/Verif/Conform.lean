import Verif.Props.Aligned
import Verif.Props.Tensor
import Verif.Flex.Agree

/-!
# The project's own tests, run on the model

Not a property: a check of the transcription. Every case of test/test_zerialize.cpp is restated line by line and evaluated by the kernel in the
five models. Where the C++ tests pass, so must these; a model that was transcribed wrongly would fail some of them. In JSON the text is left
out: the reader gets the document that the writer built, with non-negative integers as UINT, as yyjson reads them back (`Json.Text.Law`).
-/

namespace Zer.Conform

open Dyn (Src DVal)
open Tensor (TReader TProto DType Cont)

/-- The bytes of a string literal in UTF-8. -/
scoped macro:max "b!" s:str : term => do
  let es ← s.getString.toUTF8.toList.mapM fun x => `(($(Lean.quote x.toNat) : UInt8))
  `(([$(es.toArray),*] : Bytes))

/-- A protocol of which tests are run: `close` is `finish()` and a reader of the bytes. -/
structure Impl where
  σ : Type
  ρ : Type
  writer : Writer σ
  init : σ
  close : σ → Res ρ
  R : TReader ρ

/-- `serialize<P>(x)`, and a reader of the result, testing_utils.hpp:28-40 -/
def Impl.made (I : Impl) (x : Src) : Res I.ρ := Dyn.ser I.writer I.init x >>= I.close

/-- `translate<P>(r)`, translate.hpp:77-100 -/
def Impl.translated (I : Impl) {ρ : Type} (R : Reader ρ) (r : ρ) : Res I.ρ := writeValue R I.writer 20 r I.init >>= I.close

def Impl.of (P : TProto) (addr : P.ρ → Nat) : Impl := ⟨P.σ, P.ρ, P.writer, P.init, fun s => P.finish s >>= P.opn, P.treader addr⟩

def zera : Impl := .of Tensor.zera (Tensor.blobAddr 16)
def msgpack : Impl := .of Tensor.msgpack fun _ => 0
def cbor : Impl := .of (Tensor.cbor (fun _ => true) 1024 1000) fun _ => 0
def flex : Impl := .of (Tensor.flex Flex.std true) fun _ => 0
def json : Impl := ⟨Json.RS, Val, Json.writer true, {}, fun s => .ok (Json.doc s).canon,
  { Json.reader with asIntN := Json.asIntN, span := false, addr := fun _ => 0 }⟩

/-- The test passes in all formats. -/
def passes (t : Impl → Res Bool) : Bool :=
  [json, flex, msgpack, cbor, zera].all fun I => match t I with
    | .ok b => b
    | _ => false

/-- `a && b` -/
def also (a b : Res Bool) : Res Bool := do if ← a then b else pure false
local infixr:35 " ⩓ " => also

/-- `a == b` -/
def eq {α : Type} [DecidableEq α] (a : Res α) (b : α) : Res Bool := do
  let x ← a
  pure (decide (x = b))
local infix:50 " =? " => eq

/-- `expect_deserialization_error`, test_zerialize.cpp:37-46 -/
def raises {α : Type} : Res α → Res Bool
  | .err .deser => .ok true
  | .ub => .ub
  | .diverge => .diverge
  | _ => .ok false

section
variable (I : Impl)
local notation:max v "⟦" k "⟧" => (v >>= fun r => Reader.getKey (TReader.toReader (Impl.R I)) r k)
local notation:max v "⟪" i "⟫" => (v >>= fun r => Reader.getIdx (TReader.toReader (Impl.R I)) r i)
variable (v : Res I.ρ)
def int := v >>= I.R.asInt64
def uint := v >>= I.R.asUInt64
def dbl := v >>= I.R.asDouble
def text := v >>= I.R.asString
def view := v >>= I.R.asStringView
def blob := v >>= I.R.asBlob
def bool := v >>= I.R.asBool
def isMap := v >>= I.R.isMap
def isArray := v >>= I.R.isArray
def isInt := v >>= I.R.isInt
def isUInt := v >>= I.R.isUInt
def isNull := v >>= I.R.isNull
def size := v >>= I.R.arraySize
def keys := v >>= I.R.mapKeys
/-- `asXTensor<double, D>` / `asEigenMatrix<double, r, c>`: shape and memory. -/
def xt (D : Option Nat) : Res (List Nat × Bytes) := do
  let w ← Tensor.asXTensorView I.R .f64 D (← v)
  pure (w.shape, ← w.owned .f64)
def eig (r c : Option Nat) : Res (List Nat × Bytes) := do
  let w ← Tensor.asEigenMatrixView I.R .f64 r c (← v)
  pure (w.shape, ← w.owned .f64)
end

/-- The memory of an array of small whole numbers as doubles. -/
def dbls (xs : List UInt64) : Bytes := xs.flatMap fun (x : UInt64) => (List.range 8).map fun i => (x >>> UInt64.ofNat (8 * i)).toUInt8
def one : UInt64 := 0x3FF0000000000000
def two : UInt64 := 0x4000000000000000
def three : UInt64 := 0x4008000000000000
def four : UInt64 := 0x4010000000000000
def five : UInt64 := 0x4014000000000000
def six : UInt64 := 0x4018000000000000

/-- `xt::xtensor<double, 2>{{1, 2}, {3, 4}, {5, 6}}`; row-major. -/
def tens : Cont := ⟨dbls [one, two, three, four, five, six], [3, 2], [2, 1], 0⟩
/-- `Eigen::Matrix<double, 3, 2>` with the same elements; column-major. -/
def mat : Cont := ⟨dbls [one, three, five, two, four, six], [3, 2], [1, 3], 0⟩

def lit (s : Bytes) : Src := .cstr (some (s ++ [0]))
def i32 (x : Int) : Src := .sint 32 (BitVec.ofInt 32 x)

local notation:max v "⟦" I ";" k "⟧" => (v >>= fun r => Reader.getKey (TReader.toReader (Impl.R I)) r k)
local notation:max v "⟪" I ";" i "⟫" => (v >>= fun r => Reader.getIdx (TReader.toReader (Impl.R I)) r i)

/-! ## `test_protocol_dsl`, test_zerialize.cpp:49-216 -/

/-- :56-64 -/
def dsl1 (I : Impl) : Res Bool :=
  let v := I.made (.zmap [(b!"key1", i32 42), (b!"key2", lit b!"yo")])
  isMap I v ⩓ int I v⟦I; b!"key1"⟧ =? 42 ⩓ text I v⟦I; b!"key2"⟧ =? b!"yo"
example : passes dsl1 = true := by decide +kernel

/-- :67-76 -/
def dsl2 (I : Impl) : Res Bool :=
  let v := I.made (.zvec [i32 1, i32 2, i32 3])
  isArray I v ⩓ size I v =? 3 ⩓ int I v⟪I; 0⟫ =? 1 ⩓ int I v⟪I; 1⟫ =? 2 ⩓ int I v⟪I; 2⟫ =? 3
example : passes dsl2 = true := by decide +kernel

/-- :79-94 -/
def dsl3 (I : Impl) : Res Bool :=
  let v := I.made (.zmap [(b!"a", i32 7), (b!"b", .zvec [lit b!"x", .zmap [(b!"n", i32 44)]])])
  let b := v⟦I; b!"b"⟧
  isMap I v ⩓ isInt I v⟦I; b!"a"⟧ ⩓ int I v⟦I; b!"a"⟧ =? 7 ⩓ isArray I b ⩓ size I b =? 2 ⩓ text I b⟪I; 0⟫ =? b!"x" ⩓
    isMap I b⟪I; 1⟫ ⩓ int I b⟪I; 1⟫⟦I; b!"n"⟧ =? 44
example : passes dsl3 = true := by decide +kernel

/-- :97-106 -/
def dsl4 (I : Impl) : Res Bool :=
  let v := I.made (.zmap [(b!"t", .bool true), (b!"f", .bool false), (b!"n", .null)])
  isMap I v ⩓ bool I v⟦I; b!"t"⟧ =? true ⩓ bool I v⟦I; b!"f"⟧ =? false ⩓ isNull I v⟦I; b!"n"⟧
example : passes dsl4 = true := by decide +kernel

/-- :109-123 -/
def dsl5 (I : Impl) : Res Bool :=
  let v := I.made (.zmap [(b!"i8", .sint 8 (-5)), (b!"u8", .uint 8 200), (b!"i32", .sint 32 (-123456)), (b!"u32", .uint 32 987654321),
    (b!"i64", .sint 64 (-7777777777)), (b!"u64", .uint 64 9999999999), (b!"d", .dbl 0x400A000000000000)])
  isMap I v ⩓ int I v⟦I; b!"i8"⟧ =? -5 ⩓ uint I v⟦I; b!"u8"⟧ =? 200 ⩓ int I v⟦I; b!"i32"⟧ =? -123456 ⩓ uint I v⟦I; b!"u32"⟧ =? 987654321 ⩓
    int I v⟦I; b!"i64"⟧ =? -7777777777 ⩓ uint I v⟦I; b!"u64"⟧ =? 9999999999 ⩓ dbl I v⟦I; b!"d"⟧ =? 0x400A000000000000
example : passes dsl5 = true := by decide +kernel

/-- :126-141 -/
def dsl6 (I : Impl) : Res Bool :=
  let v := I.made (.zvec [.str b!"héllo", .str [97, 0, 98], .str b!"汉字"])
  isArray I v ⩓ size I v =? 3 ⩓ text I v⟪I; 0⟫ =? b!"héllo" ⩓ view I v⟪I; 1⟫ =? [97, 0, 98] ⩓ text I v⟪I; 2⟫ =? b!"汉字"
example : passes dsl6 = true := by decide +kernel

/-- :144-154, with 40 elements instead of 256 (longer than the short forms of array headers). -/
def dsl7 (I : Impl) : Res Bool :=
  let r := I.made (.seq .array ((List.range 40).map fun (i : Nat) => i32 i))
  match r with
  | .ok v => isArray I r ⩓ size I r =? 40 ⩓ (List.range 40).foldr (fun i b => (I.R.getIdx v i >>= I.R.asInt64) =? Int64.ofNat i ⩓ b) (.ok true)
  | _ => .ok false
example : passes dsl7 = true := by decide +kernel

/-- :157-166; the order in which the keys are listed is left open by the test. -/
def dsl8 (I : Impl) : Res Bool :=
  let v := I.made (.zmap [(b!"alpha", i32 1), (b!"beta", i32 2), (b!"gamma", i32 3)])
  isMap I v ⩓ (do
    let ks ← keys I v
    pure (decide (ks.length = 3) && decide (b!"alpha" ∈ ks) && decide (b!"beta" ∈ ks) && decide (b!"gamma" ∈ ks)))
example : passes dsl8 = true := by decide +kernel

/-- :169-186 -/
def dsl9 (I : Impl) : Res Bool :=
  let v := I.made (.zvec [.zmap [(b!"id", i32 1), (b!"name", lit b!"a")], .zmap [(b!"id", i32 2), (b!"name", lit b!"b")],
    .zmap [(b!"id", i32 3), (b!"name", lit b!"c")]])
  isArray I v ⩓ size I v =? 3 ⩓ isMap I v⟪I; 0⟫ ⩓ int I v⟪I; 0⟫⟦I; b!"id"⟧ =? 1 ⩓ isMap I v⟪I; 1⟫ ⩓ int I v⟪I; 1⟫⟦I; b!"id"⟧ =? 2 ⩓
    isMap I v⟪I; 2⟫ ⩓ int I v⟪I; 2⟫⟦I; b!"id"⟧ =? 3 ⩓ text I v⟪I; 0⟫⟦I; b!"name"⟧ =? b!"a" ⩓ text I v⟪I; 1⟫⟦I; b!"name"⟧ =? b!"b" ⩓
    text I v⟪I; 2⟫⟦I; b!"name"⟧ =? b!"c"
example : passes dsl9 = true := by decide +kernel

def pi : UInt64 := 0x400921F9F01B866E

/-- :189-201 -/
def dsl10 (I : Impl) : Res Bool := do
  let v := I.made (.zmap [(b!"key1", i32 42), (b!"key2", .dbl pi), (b!"key3", ← Tensor.xtSrc tens .f64)])
  (v⟦I; b!"key1"⟧ >>= I.R.asIntN 32) =? 42 ⩓ dbl I v⟦I; b!"key2"⟧ =? pi ⩓ xt I v⟦I; b!"key3"⟧ none =? (tens.shape, tens.mem)
example : passes dsl10 = true := by decide +kernel

/-- :204-218 -/
def dsl11 (I : Impl) : Res Bool := do
  let v := I.made (.zmap [(b!"key1", i32 42), (b!"key2", .dbl pi), (b!"key3", ← Tensor.eigenSrc mat .f64)])
  (v⟦I; b!"key1"⟧ >>= I.R.asIntN 32) =? 42 ⩓ dbl I v⟦I; b!"key2"⟧ =? pi ⩓ eig I v⟦I; b!"key3"⟧ (some 3) (some 2) =? (mat.shape, mat.mem)
example : passes dsl11 = true := by decide +kernel

/-! ## `test_dynamic_serialization`, test_zerialize.cpp:224-290 -/

def dyn1 (I : Impl) : Res Bool :=
  let v := I.made (.dyn (.map [(b!"id", .ofSInt (w := 32) 99), (b!"name", .str b!"dynamic"),
    (b!"tags", .arr [.str b!"alpha", .str b!"beta", .ofSInt (w := 32) 3])]))
  let tags := v⟦I; b!"tags"⟧
  isMap I v ⩓ int I v⟦I; b!"id"⟧ =? 99 ⩓ text I v⟦I; b!"name"⟧ =? b!"dynamic" ⩓ isArray I tags ⩓ size I tags =? 3 ⩓
    text I tags⟪I; 0⟫ =? b!"alpha" ⩓ text I tags⟪I; 1⟫ =? b!"beta" ⩓ int I tags⟪I; 2⟫ =? 3
example : passes dyn1 = true := by decide +kernel

def tens23 : Cont := ⟨dbls [one, two, three, four, five, six], [2, 3], [3, 1], 0⟩
def dyn2 (I : Impl) : Res Bool := do
  let v := I.made (.dyn (.ser (← Tensor.xtSrc tens23 .f64)))
  isArray I v ⩓ xt I v (some 2) =? (tens23.shape, tens23.mem)
example : passes dyn2 = true := by decide +kernel

def dyn3 (I : Impl) : Res Bool := do
  let v := I.made (.dyn (.ser (← Tensor.eigenSrc mat .f64)))
  isArray I v ⩓ eig I v (some 3) (some 2) =? (mat.shape, mat.mem)
example : passes dyn3 = true := by decide +kernel

def tens22 : Cont := ⟨dbls [0x4024000000000000, 0x4034000000000000, 0x403E000000000000, 0x4044000000000000], [2, 2], [2, 1], 0⟩
def dyn4 (I : Impl) : Res Bool := do
  let v := I.made (.dyn (.map [(b!"meta", .map [(b!"id", .ofSInt (w := 32) 7)]), (b!"tensor", .ser (← Tensor.xtSrc tens22 .f64))]))
  isMap I v ⩓ isMap I v⟦I; b!"meta"⟧ ⩓ int I v⟦I; b!"meta"⟧⟦I; b!"id"⟧ =? 7 ⩓ xt I v⟦I; b!"tensor"⟧ (some 2) =? (tens22.shape, tens22.mem)
example : passes dyn4 = true := by decide +kernel

/-! ## `test_translate_dsl`, test_zerialize.cpp:294-372, between all pairs of formats -/

def passes2 (t : Impl → Impl → Res Bool) : Bool :=
  [json, flex, msgpack, cbor, zera].all fun I => passes fun J => t I J

def xlate1 (I J : Impl) : Res Bool := do
  let d := (I.made (.zmap [(b!"a", i32 11), (b!"b", lit b!"yo")])) >>= J.translated I.R.toReader
  let v := J.made (.zmap [(b!"a", .sint 64 (← int J d⟦J; b!"a"⟧).toBitVec), (b!"b", .str (← text J d⟦J; b!"b"⟧))])
  isMap J v ⩓ int J v⟦J; b!"a"⟧ =? 11 ⩓ text J v⟦J; b!"b"⟧ =? b!"yo"
example : passes2 xlate1 = true := by decide +kernel

/-- With the checks that the C++ test leaves out (it returns `true` first). -/
def xlate2 (I J : Impl) : Res Bool := do
  let d := (I.made (.zmap [(b!"outer", .zvec [.zmap [(b!"n", i32 44)], .zvec [lit b!"A", lit b!"B"]])])) >>= J.translated I.R.toReader
  let o := d⟦J; b!"outer"⟧
  let v := J.made (.zmap [(b!"outer", .zvec [.zmap [(b!"n", .sint 64 (← int J o⟪J; 0⟫⟦J; b!"n"⟧).toBitVec)],
    .zvec [.str (← text J o⟪J; 1⟫⟪J; 0⟫), .str (← text J o⟪J; 1⟫⟪J; 1⟫)]])])
  let o := v⟦J; b!"outer"⟧
  isMap J v ⩓ isArray J o ⩓ size J o =? 2 ⩓ isMap J o⟪J; 0⟫ ⩓ int J o⟪J; 0⟫⟦J; b!"n"⟧ =? 44 ⩓ isArray J o⟪J; 1⟫ ⩓ size J o⟪J; 1⟫ =? 2 ⩓
    text J o⟪J; 1⟫⟪J; 0⟫ =? b!"A" ⩓ text J o⟪J; 1⟫⟪J; 1⟫ =? b!"B"
example : passes2 xlate2 = true := by decide +kernel

/-- The tensor of the C++ test has sixteen elements. -/
def xlate3 (I J : Impl) : Res Bool := do
  let d := (I.made (.zmap [(b!"outer", .zvec [.zmap [(b!"n", i32 44)], .zvec [lit b!"A", ← Tensor.xtSrc tens .f64]])])) >>=
    J.translated I.R.toReader
  let o := d⟦J; b!"outer"⟧
  int J o⟪J; 0⟫⟦J; b!"n"⟧ =? 44 ⩓ text J o⟪J; 1⟫⟪J; 0⟫ =? b!"A" ⩓ xt J o⟪J; 1⟫⟪J; 1⟫ (some 2) =? (tens.shape, tens.mem)
example : passes2 xlate3 = true := by decide +kernel

/-! ## `test_custom_structs`, test_zerialize.cpp:374-478: overloads that call builders -/

def user (name : Bytes) (age : Int) : Src := .zmap [(b!"name", .str name), (b!"age", i32 age)]
def company (name : Bytes) (value : UInt64) (users : List Src) : Src := .zmap [(b!"name", .str name), (b!"value", .dbl value), (b!"users", .seq .vector users)]

def custom1 (I : Impl) : Res Bool :=
  let v := I.made (user b!"Alice" 30)
  isMap I v ⩓ text I v⟦I; b!"name"⟧ =? b!"Alice" ⩓ int I v⟦I; b!"age"⟧ =? 30
example : passes custom1 = true := by decide +kernel

/-- 1000000.50 -/
def million : UInt64 := 0x412E848100000000
def custom2 (I : Impl) : Res Bool :=
  let v := I.made (company b!"TechCorp" million [user b!"Alice" 30, user b!"Bob" 25])
  let us := v⟦I; b!"users"⟧
  isMap I v ⩓ text I v⟦I; b!"name"⟧ =? b!"TechCorp" ⩓ dbl I v⟦I; b!"value"⟧ =? million ⩓ isArray I us ⩓ size I us =? 2 ⩓
    isMap I us⟪I; 0⟫ ⩓ text I us⟪I; 0⟫⟦I; b!"name"⟧ =? b!"Alice" ⩓ int I us⟪I; 0⟫⟦I; b!"age"⟧ =? 30 ⩓
    isMap I us⟪I; 1⟫ ⩓ text I us⟪I; 1⟫⟦I; b!"name"⟧ =? b!"Bob" ⩓ int I us⟪I; 1⟫⟦I; b!"age"⟧ =? 25
example : passes custom2 = true := by decide +kernel

/-- 50000.0 -/
def fifty : UInt64 := 0x40E86A0000000000
def custom3 (I : Impl) : Res Bool :=
  let v := I.made (.zmap [(b!"id", i32 42), (b!"company", company b!"StartupInc" fifty [user b!"Charlie" 35]), (b!"active", .bool true)])
  let c := v⟦I; b!"company"⟧
  let us := c⟦I; b!"users"⟧
  isMap I v ⩓ int I v⟦I; b!"id"⟧ =? 42 ⩓ bool I v⟦I; b!"active"⟧ ⩓ isMap I c ⩓ text I c⟦I; b!"name"⟧ =? b!"StartupInc" ⩓
    dbl I c⟦I; b!"value"⟧ =? fifty ⩓ isArray I us ⩓ size I us =? 1 ⩓ isMap I us⟪I; 0⟫ ⩓ text I us⟪I; 0⟫⟦I; b!"name"⟧ =? b!"Charlie" ⩓
    int I us⟪I; 0⟫⟦I; b!"age"⟧ =? 35
example : passes custom3 = true := by decide +kernel

/-! ## `test_failure_modes` and the tests of single formats, test_zerialize.cpp:481-584 -/

def fail1 (I : Impl) : Res Bool := raises (int I (I.made (.zmap [(b!"value", lit b!"not an int")]))⟦I; b!"value"⟧)
example : passes fail1 = true := by decide +kernel

def fail2 (I : Impl) : Res Bool := raises (blob I (I.made (.zmap [(b!"value", i32 42)]))⟦I; b!"value"⟧)
example : passes fail2 = true := by decide +kernel

def fail3 (I : Impl) : Res Bool := raises (I.made (.zvec [i32 1, i32 2]))⟪I; 2⟫
example : passes fail3 = true := by decide +kernel

/-- `["~b","!!!!","base64"]` -/
example : raises (Json.reader.asBlob (.arr [.str b!"~b", .str b!"!!!!", .str b!"base64"])) = .ok true := by decide +kernel

/-- An array of one element that is not there. -/
example : raises (MsgPack.reader.getIdx [0x91] 0) = .ok true := by decide +kernel

def big : UInt64 := 2 ^ 63 + 5
example : (let v := zera.made (.zmap [(b!"big", .uint 64 big.toBitVec)])
    let b := v⟦zera; b!"big"⟧
    isMap zera v ⩓ isUInt zera b ⩓ uint zera b =? big ⩓ raises (int zera b)) = .ok true := by decide +kernel

/-! ## Alignment of tensors, test_zerialize.cpp:586-668: the message `off` bytes after the start of memory that is aligned to 16 bytes -/

def sweep (src : Res Src) (get : TReader Zera.View → Zera.View → Res Tensor.View) (mem : Bytes) (off : Nat) : Res (Bool × Bool) := do
  let b ← src >>= Dyn.serialize Zera.proto
  let v ← Zera.initFrom b
  let w ← get (Tensor.zera.treader (Tensor.blobAddr (16 + off))) v
  pure (w.zeroCopy, w.required == 8 && w.byteSize == mem.length && (← w.owned .f64) == mem &&
    (if w.zeroCopy then w.reason == .ok && w.address % 8 == 0 else w.reason == .misaligned && w.address % 8 != 0))

def sweeps (src : Res Src) (get : TReader Zera.View → Zera.View → Res Tensor.View) (mem : Bytes) : Nat × Nat :=
  let rs := (List.range 16).map (sweep src get mem)
  (rs.countP fun r => match r with | .ok (z, good) => z && good | _ => false,
    rs.countP fun r => match r with | .ok (z, good) => !z && good | _ => false)

example : sweeps (Tensor.xtSrc tens22 .f64) (fun R => Tensor.asXTensorView R .f64 (some 2)) tens22.mem = (2, 14) := by decide +kernel
example : sweeps (Tensor.eigenSrc mat .f64) (fun R => Tensor.asEigenMatrixView R .f64 (some 3) (some 2)) mat.mem = (2, 14) := by decide +kernel

end Zer.Conform
