import Verif.Props.Flex
import Verif.Props.Json
import Verif.Props.Translate

/-!
# C98: which exceptions are raised

errors.hpp:9-20 declares `SerializationError` and `DeserializationError`, both of them `std::runtime_error`s. A program that reads
untrusted bytes catches the second. `Only E x` says that nothing but exceptions of `E` leaves `x`; where `x` is undefined or does
not end is the subject of other properties. Failing allocations (`std::bad_alloc`, `std::length_error`) are those of
`Verif/Memory.lean` and not repeated here.
-/

namespace Zer

/-- `DeserializationError`, errors.hpp:16-19. -/
def IsDeser (e : Err) : Prop := e = .deser

/-- Nothing but exceptions of `E` is raised. (Undefined behaviour and endless loops are other properties.) -/
class Only (E : Err → Prop) {α : Type} (x : Res α) : Prop where
  only : ∀ e, x = .err e → E e

namespace Only

variable {E : Err → Prop} {α β : Type}

instance ok (a : α) : Only E (Res.ok a) := ⟨fun _ h => by cases h⟩
instance pure (a : α) : Only E (Pure.pure a : Res α) := ⟨fun _ h => by cases h⟩
instance ub : Only E (Res.ub : Res α) := ⟨fun _ h => by cases h⟩
instance diverge : Only E (Res.diverge : Res α) := ⟨fun _ h => by cases h⟩
theorem err {e : Err} (h : E e) : Only E (Res.err e : Res α) := ⟨fun _ h' => by cases h'; exact h⟩
theorem require {e : Err} (h : E e) (c : Bool) : Only E (Res.require c e) := by
  cases c
  · exact err h
  · exact ok ()
theorem bind {x : Res α} {f : α → Res β} (hx : Only E x) (hf : ∀ a, Only E (f a)) : Only E (x >>= f) := by
  refine ⟨fun e h => ?_⟩
  cases x with
  | ok a => exact (hf a).only e h
  | err e' => cases h; exact hx.only _ rfl
  | ub => cases h
  | diverge => cases h
theorem ite {c : Prop} [Decidable c] {x y : Res α} (hx : Only E x) (hy : Only E y) : Only E (if c then x else y) := by
  split <;> assumption
theorem mono {F : Err → Prop} {x : Res α} (hx : Only E x) (h : ∀ e, E e → F e) : Only F x := ⟨fun e he => h e (hx.only e he)⟩

instance deserErr : Only IsDeser (Res.err .deser : Res α) := err rfl
instance deserReq (c : Bool) : Only IsDeser (Res.require c .deser) := require (E := IsDeser) (e := .deser) rfl c

end Only

/-- `DeserializationError` and nothing else. -/
abbrev Deser {α : Type} (x : Res α) : Prop := Only IsDeser x

/-- Follows the structure of a function that raises in places known already. -/
macro "only" : tactic => `(tactic| repeat' (first | infer_instance | assumption | (dsimp only) | (refine Only.bind ?_ (fun _ => ?_)) | (refine Only.ite ?_ ?_) | split))

/-- Reading at any position raises `DeserializationError` only. -/
structure Reader.RaisesDeser {ρ : Type} (R : Reader ρ) : Prop where
  isNull : ∀ r, Deser (R.isNull r)
  isBool : ∀ r, Deser (R.isBool r)
  isInt : ∀ r, Deser (R.isInt r)
  isUInt : ∀ r, Deser (R.isUInt r)
  isFloat : ∀ r, Deser (R.isFloat r)
  isString : ∀ r, Deser (R.isString r)
  isBlob : ∀ r, Deser (R.isBlob r)
  isMap : ∀ r, Deser (R.isMap r)
  isArray : ∀ r, Deser (R.isArray r)
  asBool : ∀ r, Deser (R.asBool r)
  asInt64 : ∀ r, Deser (R.asInt64 r)
  asUInt64 : ∀ r, Deser (R.asUInt64 r)
  asDouble : ∀ r, Deser (R.asDouble r)
  asString : ∀ r, Deser (R.asString r)
  asStringView : ∀ r, Deser (R.asStringView r)
  asBlob : ∀ r, Deser (R.asBlob r)
  mapKeys : ∀ r, Deser (R.mapKeys r)
  contains : ∀ r k, Deser (R.contains r k)
  getKey : ∀ r k, Deser (R.getKey r k)
  arraySize : ∀ r, Deser (R.arraySize r)
  getIdx : ∀ r i, Deser (R.getIdx r i)

instance (b : Bytes) (p : Nat) : Deser (byteAt b p) := by unfold byteAt; only
instance (b : Bytes) (p n : Nat) : Deser (sliceAt b p n) := by unfold sliceAt; only

/-! ## MessagePack -/

namespace MsgPack

instance (v : Bytes) (p : Nat) : Deser (readBe16 v p) := by unfold readBe16; only
instance (v : Bytes) (p : Nat) : Deser (readBe32 v p) := by unfold readBe32; only
instance (v : Bytes) (p : Nat) : Deser (readBe64 v p) := by unfold readBe64; only
instance (v : Bytes) (p : Nat) : Deser (subspan v p) := by unfold subspan; only
instance (v : Bytes) (p : Nat) : Deser (first v p) := by unfold first; only

instance skipLoop_deser (rec : Bytes → Res Nat) [h : ∀ v, Deser (rec v)] (v : Bytes) : ∀ n off, Deser (skipLoop rec v n off)
  | 0, off => by unfold skipLoop; only
  | n + 1, off => by
    have := skipLoop_deser rec v n
    unfold skipLoop; only

instance mpSkip_deser : ∀ f v, Deser (mpSkip f v)
  | 0, v => by unfold mpSkip; only
  | f + 1, v => by
    have := mpSkip_deser f
    unfold mpSkip
    only

instance (v : Bytes) : Deser (skip v) := by unfold skip; only
instance (v : Bytes) : Deser (strInfo v) := by unfold strInfo; only
instance (v : Bytes) : Deser (binInfo v) := by unfold binInfo; only
instance (v : Bytes) : Deser (arrInfo v) := by unfold arrInfo; only
instance (v : Bytes) : Deser (mapInfo v) := by unfold mapInfo; only
instance (v : Bytes) : Deser (asInt64 v) := by unfold asInt64; only
instance (v : Bytes) : Deser (asUInt64 v) := by unfold asUInt64; only
instance (w : Nat) (v : Bytes) : Deser (asIntN w v) := by unfold asIntN; only
instance (w : Nat) (v : Bytes) : Deser (asUIntN w v) := by unfold asUIntN; only
instance (v : Bytes) : Deser (asDouble v) := by unfold asDouble; only
instance (v : Bytes) : Deser (asBool v) := by unfold asBool; only
instance (v : Bytes) : Deser (asStringView v) := by unfold asStringView; only
instance (v : Bytes) : Deser (asString v) := by unfold asString; only
instance (v : Bytes) : Deser (asBlob v) := by unfold asBlob; only
instance (v : Bytes) (o : Nat) : Deser (keyDeref v o) := by unfold keyDeref; only
instance (v : Bytes) (o : Nat) : Deser (keyNext v o) := by unfold keyNext; only
instance (v : Bytes) (n o : Nat) : Deser (keysEnd v n o) := by unfold keysEnd; only
instance keysFrom_deser (v : Bytes) (c e : Nat) : ∀ f i o, Deser (keysFrom v c e f i o)
  | 0, _, _ => by unfold keysFrom; only
  | f + 1, i, o => by have := keysFrom_deser v c e f; unfold keysFrom; only
instance (v : Bytes) : Deser (mapKeys v) := by unfold mapKeys; only
instance (a b : Bytes) : Deser (keyHit a b) := by unfold keyHit; only
instance containsFrom_deser (v k : Bytes) : ∀ n o, Deser (containsFrom v k n o)
  | 0, _ => by unfold containsFrom; only
  | n + 1, o => by have := containsFrom_deser v k n; unfold containsFrom; only
instance (v k : Bytes) : Deser (contains v k) := by unfold contains; only
instance getKeyFrom_deser (v k : Bytes) : ∀ n o, Deser (getKeyFrom v k n o)
  | 0, _ => by unfold getKeyFrom; only
  | n + 1, o => by have := getKeyFrom_deser v k n; unfold getKeyFrom; only
instance (v k : Bytes) : Deser (getKey v k) := by unfold getKey; only
instance (v : Bytes) : Deser (arraySize v) := by unfold arraySize; only
instance (v : Bytes) (i : Nat) : Deser (getIdx v i) := by unfold getIdx; only

/-- C98 for MessagePack: reading any bytes raises `DeserializationError` only, and writing raises nothing. -/
theorem c98_msgpack : reader.RaisesDeser ∧ (∀ w v, Deser (asIntN w v) ∧ Deser (asUIntN w v)) ∧ (∀ b, Deser (proto.opn b)) ∧
    ∀ es : List Ev, ∃ b, proto.bytesOf es = .ok b := by
  refine ⟨?_, fun w v => ⟨inferInstance, inferInstance⟩, fun b => ?_, fun es => ⟨pack es, ?_⟩⟩
  · constructor <;> intros <;> dsimp only [reader] <;> only
  · exact Only.ok _
  · show (writer.run ([] : Bytes) es >>= Res.ok) = _
    rw [run_pack]; rfl

end MsgPack

/-! ## CBOR -/

namespace Cbor

instance getBe_deser (v : Bytes) : ∀ n p acc, Deser (getBe v p n acc)
  | 0, _, _ => by unfold getBe; only
  | n + 1, p, _ => by have := getBe_deser v n; unfold getBe; only
instance (raw c : Bool) : Deser (ensure raw c) := by unfold ensure; only
instance (raw : Bool) (v : Bytes) (p : Nat) : Deser (readHead raw v p) := by unfold readHead; only
instance items_deser (rec : Nat → Res Nat) [h : ∀ q, Deser (rec q)] : ∀ n q, Deser (items rec n q)
  | 0, _ => by unfold items; only
  | n + 1, _ => by have := items_deser rec n; unfold items; only
instance untilBreak_deser (raw : Bool) (v : Bytes) (rec : Nat → Res Nat) [h : ∀ q, Deser (rec q)] (k : Nat) : ∀ f q, Deser (untilBreak raw v rec k f q)
  | 0, _ => by unfold untilBreak; only
  | f + 1, _ => by have := untilBreak_deser raw v rec k f; unfold untilBreak; only
instance chunks_deser (raw : Bool) (v : Bytes) (m : Nat) : ∀ f q, Deser (chunks raw v m f q)
  | 0, _ => by unfold chunks; only
  | f + 1, _ => by have := chunks_deser raw v m f; unfold chunks; only
instance skip_deser (raw : Bool) (v : Bytes) : ∀ f q, Deser (skip raw v f q)
  | 0, _ => by unfold skip; only
  | f + 1, _ => by have := skip_deser raw v f; unfold skip; only

namespace View

instance (r : View) : Deser r.head := by unfold head; only
instance (r : View) : Deser r.isNull := by unfold isNull; only
instance (r : View) : Deser r.isBool := by unfold isBool; only
instance (r : View) : Deser r.isInt := by unfold isInt; only
instance (r : View) : Deser r.isUInt := by unfold isUInt; only
instance (r : View) : Deser r.isFloat := by unfold isFloat; only
instance (r : View) : Deser r.isString := by unfold isString; only
instance (r : View) : Deser r.isBlob := by unfold isBlob; only
instance (r : View) : Deser r.isMap := by unfold isMap; only
instance (r : View) : Deser r.isArray := by unfold isArray; only
instance (r : View) : Deser r.asInt64 := by unfold asInt64; only
instance (r : View) : Deser r.asUInt64 := by unfold asUInt64; only
instance (w : Nat) (r : View) : Deser (asIntN w r) := by unfold asIntN; only
instance (w : Nat) (r : View) : Deser (asUIntN w r) := by unfold asUIntN; only
instance (r : View) : Deser r.asDouble := by unfold asDouble; only
instance (r : View) : Deser r.asBool := by unfold asBool; only
instance (hard : Bool) (v : Bytes) (q n : Nat) : Deser (range hard v q n) := by unfold range; only
instance gather_deser (hard : Bool) (v : Bytes) (m : Nat) : ∀ f q, Deser (gather hard v m f q)
  | 0, _ => by unfold gather; only
  | f + 1, _ => by have := gather_deser hard v m f; unfold gather; only
instance (hard : Bool) (v : Bytes) (h : Head) (q : Nat) : Deser (definite hard v h q) := by unfold definite; only
instance (hard : Bool) (f : Nat) (r : View) : Deser (asString hard f r) := by unfold asString; only
instance (hard : Bool) (r : View) : Deser (asStringView hard r) := by unfold asStringView; only
instance (hard : Bool) (r : View) : Deser (asBlob hard r) := by unfold asBlob; only
instance (hard : Bool) (f : Nat) (r : View) : Deser (asBlobVec hard f r) := by unfold asBlobVec; only
instance (hard : Bool) (f : Nat) (v : Bytes) (q : Nat) : Deser (keyAt hard f v q) := by unfold keyAt; only
instance containsN_deser (hard : Bool) (f : Nat) (v k : Bytes) : ∀ n q, Deser (containsN hard f v k n q)
  | 0, _ => by unfold containsN; only
  | n + 1, _ => by have := containsN_deser hard f v k n; unfold containsN; only
instance containsB_deser (hard : Bool) (f : Nat) (v k : Bytes) : ∀ n q, Deser (containsB hard f v k n q)
  | 0, _ => by unfold containsB; only
  | n + 1, _ => by have := containsB_deser hard f v k n; unfold containsB; only
instance (hard : Bool) (f : Nat) (r : View) (k : Bytes) : Deser (contains hard f r k) := by unfold contains; only
instance (f : Nat) (v : Bytes) (q : Nat) : Deser (keysEnd f v q) := by unfold keysEnd; only
instance (hard : Bool) (f : Nat) (v : Bytes) (q : Nat) : Deser (keyDeref hard f v q) := by unfold keyDeref; only
instance (f : Nat) (v : Bytes) (i : Bool) (q n : Nat) : Deser (keyNext f v i q n) := by unfold keyNext; only
instance keysFrom_deser (hard : Bool) (f : Nat) (v : Bytes) (i : Bool) (stop : Nat) : ∀ g q n, Deser (keysFrom hard f v i stop g q n)
  | 0, _, _ => by unfold keysFrom; only
  | g + 1, _, _ => by have := keysFrom_deser hard f v i stop g; unfold keysFrom; only
instance (hard : Bool) (f : Nat) (r : View) : Deser (mapKeys hard f r) := by unfold mapKeys; only
instance getKeyN_deser (hard : Bool) (f : Nat) (v k : Bytes) : ∀ n q, Deser (getKeyN hard f v k n q)
  | 0, _ => by unfold getKeyN; only
  | n + 1, _ => by have := getKeyN_deser hard f v k n; unfold getKeyN; only
instance getKeyB_deser (hard : Bool) (f : Nat) (v k : Bytes) : ∀ n q, Deser (getKeyB hard f v k n q)
  | 0, _ => by unfold getKeyB; only
  | n + 1, _ => by have := getKeyB_deser hard f v k n; unfold getKeyB; only
instance (hard : Bool) (f : Nat) (r : View) (k : Bytes) : Deser (getKey hard f r k) := by unfold getKey; only
instance countB_deser (f : Nat) (v : Bytes) : ∀ n q, Deser (countB f v n q)
  | 0, _ => by unfold countB; only
  | n + 1, _ => by have := countB_deser f v n; unfold countB; only
instance (f : Nat) (r : View) : Deser (arraySize f r) := by unfold arraySize; only
instance getIdxB_deser (f : Nat) (v : Bytes) (i : Nat) : ∀ n j q, Deser (getIdxB f v i n j q)
  | 0, _, _ => by unfold getIdxB; only
  | n + 1, _, _ => by have := getIdxB_deser f v i n; unfold getIdxB; only
instance (f : Nat) (r : View) (i : Nat) : Deser (getIdx f r i) := by unfold getIdx; only

end View

theorem reader_raises (hard : Bool) (f : Nat) : (reader hard f).RaisesDeser := by
  constructor <;> intros <;> dsimp only [reader] <;> only

end Cbor

/-! ## ZERA -/

namespace Zera

instance (v : Bytes) (p : Nat) : Deser (readU16 v p) := by unfold readU16; only
instance (v : Bytes) (p : Nat) : Deser (readU32 v p) := by unfold readU32; only
instance (v : Bytes) (p : Nat) : Deser (readU64 v p) := by unfold readU64; only
instance (v : Bytes) : Deser (parseHeader v) := by unfold parseHeader; only

namespace View

instance (v : View) : Deser v.requireVr := by unfold requireVr; only
instance (v : View) : Deser v.tag := by unfold tag; only
instance (v : View) : Deser v.flags := by unfold flags; only
instance (v : View) : Deser v.aux := by unfold aux; only
instance (v : View) : Deser v.a := by unfold a; only
instance (v : View) : Deser v.b := by unfold b; only
instance (v : View) : Deser v.c := by unfold c; only
instance (v : View) (n : Nat) : Deser (v.inlineBytes n) := by unfold inlineBytes; only
instance (v : View) (n m : Nat) : Deser (v.arenaBytes n m) := by unfold arenaBytes; only
instance (v : View) (n m : Nat) : Deser (v.envPtrAt n m) := by unfold envPtrAt; only
instance (v : View) : Deser v.requireFlagsOk := by unfold requireFlagsOk; only
instance (v : View) : Deser v.isNull := by unfold isNull; only
instance (v : View) : Deser v.isBool := by unfold isBool; only
instance (v : View) : Deser v.isInt := by unfold isInt; only
instance (v : View) : Deser v.isUInt := by unfold isUInt; only
instance (v : View) : Deser v.isFloat := by unfold isFloat; only
instance (v : View) : Deser v.isString := by unfold isString; only
instance (v : View) : Deser v.isArray := by unfold isArray; only
instance (v : View) : Deser v.isMap := by unfold isMap; only
instance (v : View) : Deser v.isBlob := by unfold isBlob; only
instance (v : View) : Deser v.asBool := by unfold asBool; only
instance (v : View) : Deser v.bits := by unfold bits; only
instance (v : View) : Deser v.asInt64 := by unfold asInt64; only
instance (v : View) : Deser v.asUInt64 := by unfold asUInt64; only
instance (v : View) : Deser v.asDouble := by unfold asDouble; only
instance (w : Nat) (v : View) : Deser (asIntN w v) := by unfold asIntN; only
instance (w : Nat) (v : View) : Deser (asUIntN w v) := by unfold asUIntN; only
instance (v : View) : Deser v.stringRange := by unfold stringRange; only
instance (v : View) : Deser v.asStringView := by unfold asStringView; only
instance (v : View) : Deser v.asString := by unfold asString; only
instance (v : View) : Deser v.blobRange := by unfold blobRange; only
instance (v : View) : Deser v.asBlob := by unfold asBlob; only
instance (v : View) : Deser v.arraySize := by unfold arraySize; only
instance (v : View) (p : Nat) : Deser (v.keyDeref p) := by unfold keyDeref; only
instance (v : View) (p : Nat) : Deser (v.keyNext p) := by unfold keyNext; only
instance keysFrom_deser (v : View) : ∀ n p, Deser (v.keysFrom n p)
  | 0, _ => by unfold keysFrom; only
  | n + 1, _ => by have := keysFrom_deser v n; unfold keysFrom; only
instance (v : View) : Deser v.mapKeys := by unfold mapKeys; only
instance (v : View) (k : Bytes) (p n : Nat) : Deser (v.keyHit k p n) := by unfold keyHit; only
instance containsFrom_deser (v : View) (k : Bytes) : ∀ n p, Deser (v.containsFrom k n p)
  | 0, _ => by unfold containsFrom; only
  | n + 1, _ => by have := containsFrom_deser v k n; unfold containsFrom; only
instance (v : View) (k : Bytes) : Deser (v.contains k) := by unfold contains; only
instance (v : View) (i : Nat) : Deser (v.getIdx i) := by unfold getIdx; only
instance getKeyFrom_deser (v : View) (k : Bytes) : ∀ n p, Deser (v.getKeyFrom k n p)
  | 0, _ => by unfold getKeyFrom; only
  | n + 1, _ => by have := getKeyFrom_deser v k n; unfold getKeyFrom; only
instance (v : View) (k : Bytes) : Deser (v.getKey k) := by unfold getKey; only
instance (v : View) : Deser v.toStringOutcome := by unfold toStringOutcome; only

end View

instance (b : Bytes) : Deser (initFrom b) := by unfold initFrom; only

theorem reader_raises : reader.RaisesDeser := by
  constructor <;> intros <;> dsimp only [reader] <;> only

end Zera

/-! ## JSON -/

namespace Base64

instance decLoop_deser : ∀ b n s, Deser (decLoop b n s)
  | _, _, [] => by unfold decLoop; only
  | _, _, _ :: cs => by have := fun b n => decLoop_deser b n cs; unfold decLoop; only
instance (s : Bytes) : Deser (decode s) := by unfold decode; only

end Base64

namespace Json

instance (v : Val) : Deser (asString v) := by unfold asString; only
instance (v : Val) : Deser (arraySize v) := by unfold arraySize; only
instance (v : Val) (i : Nat) : Deser (getIdx v i) := by unfold getIdx; only
instance (v : Val) : Deser (isBlob v) := by unfold isBlob; only
instance (v : Val) : Deser (asInt64 v) := by unfold asInt64; only
instance (v : Val) : Deser (asUInt64 v) := by unfold asUInt64; only
instance (w : Nat) (v : Val) : Deser (asIntN w v) := by unfold asIntN; only
instance (w : Nat) (v : Val) : Deser (asUIntN w v) := by unfold asUIntN; only
instance (v : Val) : Deser (asDouble v) := by unfold asDouble; only
instance (v : Val) : Deser (asBool v) := by unfold asBool; only
instance (v : Val) : Deser (asBlob v) := by unfold asBlob; only
instance (v : Val) (k : Bytes) : Deser (contains v k) := by unfold contains; only
instance (v : Val) : Deser (mapKeys v) := by unfold mapKeys; only
instance (v : Val) (k : Bytes) : Deser (getKey v k) := by unfold getKey; only
instance (T : Text) (b : Bytes) : Deser (opn T b) := by unfold opn; only

theorem reader_raises : reader.RaisesDeser := by
  constructor <;> intros <;> dsimp only [reader] <;> only

end Json

/-! ## Flex -/

namespace Flex

instance (b : Bytes) (p w : Nat) : Deser (readU b p w) := by unfold readU; only
instance (b : Bytes) (p w : Nat) : Deser (readI b p w) := by unfold readI; only
instance (b : Bytes) (p w : Nat) : Deser (readF b p w) := by unfold readF; only
instance (b : Bytes) (p w : Nat) : Deser (indirect b p w) := by unfold indirect; only
instance (b : Bytes) (p w : Nat) : Deser (sizeAt b p w) := by unfold sizeAt; only
instance (b : Bytes) (p : Nat) : Deser (cstrAt b p) := by unfold cstrAt; only
instance (b : Bytes) : Deser (getRoot b) := by unfold getRoot; only
instance (r : Ref) : Deser r.int64 := by unfold Ref.int64; only
instance (r : Ref) : Deser r.uint64 := by unfold Ref.uint64; only
instance (r : Ref) : Deser r.double := by unfold Ref.double; only
instance (r : Ref) : Deser r.sized := by unfold Ref.sized; only
instance (r : Ref) : Deser r.vector := by unfold Ref.vector; only
instance (b : Bytes) (p w n i : Nat) : Deser (elemAt b p w n i) := by unfold elemAt; only
instance (b : Bytes) (p w : Nat) : Deser (keysAt b p w) := by unfold keysAt; only
instance (b : Bytes) (p w n i : Nat) : Deser (keyAt b p w n i) := by unfold keyAt; only
instance (r : Ref) : Deser (asInt64 r) := by unfold asInt64; only
instance (r : Ref) : Deser (asUInt64 r) := by unfold asUInt64; only
instance (w : Nat) (r : Ref) : Deser (asIntN w r) := by unfold asIntN; only
instance (w : Nat) (r : Ref) : Deser (asUIntN w r) := by unfold asUIntN; only
instance (r : Ref) : Deser (asDouble r) := by unfold asDouble; only
instance (r : Ref) : Deser (asBool r) := by unfold asBool; only
instance (r : Ref) : Deser (asString r) := by unfold asString; only
instance (r : Ref) : Deser (asBlob r) := by unfold asBlob; only
instance keysFrom_deser (b : Bytes) (kp kw kn : Nat) : ∀ i n, Deser (keysFrom b kp kw kn i n)
  | _, 0 => by unfold keysFrom; only
  | i, n + 1 => by have := keysFrom_deser b kp kw kn (i + 1) n; unfold keysFrom; only
instance (r : Ref) : Deser (mapKeys r) := by unfold mapKeys; only
instance loop_deser (b : Bytes) (kp kw kn : Nat) (k : Bytes) : ∀ f lo hi, Deser (loop b kp kw kn k f lo hi)
  | 0, _, _ => by unfold loop; only
  | f + 1, _, _ => by have := loop_deser b kp kw kn k f; unfold loop; only
instance (r : Ref) (k : Bytes) : Deser (contains r k) := by unfold contains; generalize loopFuel = F; only
instance (r : Ref) (k : Bytes) : Deser (getKey r k) := by unfold getKey; generalize loopFuel = F; only
instance (r : Ref) : Deser (arraySize r) := by unfold arraySize; only
instance (r : Ref) (i : Nat) : Deser (getIdx r i) := by unfold getIdx; only
instance (b : Bytes) : Deser (opn b) := by unfold opn; only

theorem reader_raises : reader.RaisesDeser := by
  constructor <;> intros <;> dsimp only [reader] <;> only

end Flex

/-! ## Writing -/

theorem Writer.run_only {σ : Type} {W : Writer σ} {E : Err → Prop} {I : σ → Prop} (h : ∀ s, I s → ∀ e, Only E (W.step s e) ∧ ∀ t, W.step s e = .ok t → I t) :
    ∀ (es : List Ev) (s : σ), I s → Only E (W.run s es) ∧ ∀ t, W.run s es = .ok t → I t
  | [], s, hs => ⟨Only.ok s, fun t ht => by cases ht; exact hs⟩
  | e :: es, s, hs => by
    have h1 := h s hs e
    have hr : W.run s (e :: es) = W.step s e >>= fun t => W.run t es := rfl
    rw [hr]
    cases hx : W.step s e with
    | ok u => exact Writer.run_only h es u (h1.2 u hx)
    | err x => exact ⟨⟨fun y hy => by cases hy; exact h1.1.only _ hx⟩, fun t ht => by cases ht⟩
    | ub => exact ⟨⟨fun y hy => by cases hy⟩, fun t ht => by cases ht⟩
    | diverge => exact ⟨⟨fun y hy => by cases hy⟩, fun t ht => by cases ht⟩

/-- `SerializationError`, errors.hpp:11-14. -/
def IsSer (e : Err) : Prop := e = .ser

/-- What `catch (const std::runtime_error&)` catches. -/
def IsRuntime (e : Err) : Prop := e = .deser ∨ e = .ser ∨ e = .runtime

namespace Zera

instance : Only IsSer (Res.err .ser : Res α) := Only.err rfl

def Ctx.bytes : Ctx → Bytes
  | .arr p _ => p
  | .map p _ _ => p

/-- Where the next value goes. -/
def Ctx.at : Ctx → Nat
  | .map _ _ (some pos) => pos
  | c => c.bytes.length

/-- Every open container has its count in front. -/
def Fronted (s : RS) : Prop := ∀ c ∈ s.st, 4 ≤ c.bytes.length ∧ 4 ≤ c.at

instance (s : RS) (b : Bytes) : Only IsSer (appendEnv s b) := by unfold appendEnv; only
instance (s : RS) (b : Bytes) (n : Nat) : Only IsSer (arenaPut s b n) := by unfold arenaPut; only
instance (s : RS) (b : Bytes) : Only IsSer (writeRootVr s b) := by unfold writeRootVr; only
instance (s : RS) (b : Bytes) : Only IsSer (deliverVr s b) := by unfold deliverVr; only

theorem appendEnv_st {s : RS} {b : Bytes} {x : RS × Nat} (h : appendEnv s b = .ok x) : x.1.st = s.st := by
  unfold appendEnv at h
  dsimp only at h
  split at h
  · cases h
  · cases h; rfl

theorem arenaPut_st {s : RS} {b : Bytes} {n : Nat} {x : RS × Nat} (h : arenaPut s b n = .ok x) : x.1.st = s.st := by
  unfold arenaPut at h
  dsimp only at h
  split at h
  · cases h
  · split at h
    · cases h
    · cases h; rfl

theorem deliverVr_fronted {s t : RS} {b : Bytes} (hs : Fronted s) (h : deliverVr s b = .ok t) : Fronted t := by
  unfold deliverVr at h
  split at h
  · rename_i h0
    unfold writeRootVr at h
    split at h
    · cases h
    · obtain ⟨x, hx, h⟩ := Res.bind_eq_ok.1 h
      cases h
      intro c hc
      simp only [appendEnv_st hx, h0] at hc
      cases hc
  · rename_i p n st h0
    cases h
    intro c hc
    simp only [List.mem_cons] at hc
    rcases hc with rfl | hc
    · have := hs (.arr p n) (by rw [h0]; simp)
      simp only [Ctx.at, Ctx.bytes, List.length_append] at this ⊢
      omega
    · exact hs c (by rw [h0]; simp [hc])
  · cases h
  · rename_i p n pos st h0
    split at h
    · cases h
    · rename_i hp
      cases h
      intro c hc
      simp only [List.mem_cons] at hc
      rcases hc with rfl | hc
      · have := hs (.map p n (some pos)) (by rw [h0]; simp)
        simp only [Ctx.at, Ctx.bytes, List.length_append, List.length_take, List.length_drop] at this ⊢
        omega
      · exact hs c (by rw [h0]; simp [hc])

theorem writeU32At_four {p : Bytes} {n : Nat} (h : 4 ≤ p.length) : ∃ q, writeU32At p 0 n = .ok q := by
  unfold writeU32At
  rw [if_pos (by omega)]
  exact ⟨_, rfl⟩

theorem step_fronted (s : RS) (hs : Fronted s) (e : Ev) : Only IsSer (step s e) ∧ ∀ t, step s e = .ok t → Fronted t := by
  have push : ∀ (s : RS), Fronted s → ∀ b, Only IsSer (deliverVr s b) ∧ ∀ t, deliverVr s b = .ok t → Fronted t :=
    fun s hs b => ⟨inferInstance, fun t h => deliverVr_fronted hs h⟩
  have close : ∀ (c : Ctx) (st : List Ctx) (n : Nat) (g : Nat → Bytes), s.st = c :: st →
      Only IsSer (writeU32At c.bytes 0 n >>= fun p' => appendEnv { s with st := st } p' >>= fun x => deliverVr x.1 (g x.2)) ∧
      ∀ t, (writeU32At c.bytes 0 n >>= fun p' => appendEnv { s with st := st } p' >>= fun x => deliverVr x.1 (g x.2)) = .ok t → Fronted t := by
    intro c st n g h0
    obtain ⟨q, hq⟩ := writeU32At_four (n := n) (hs c (by rw [h0]; simp)).1
    rw [hq]
    simp only [Res.ok_bind]
    refine ⟨by only, fun t h => ?_⟩
    obtain ⟨x, hx, h⟩ := Res.bind_eq_ok.1 h
    refine deliverVr_fronted ?_ h
    intro d hd
    rw [appendEnv_st hx] at hd
    exact hs d (by rw [h0]; simp [show d ∈ st from hd])
  cases e with
  | null => exact push s hs _
  | bool b => exact push s hs _
  | int b => exact push s hs _
  | uint b => exact push s hs _
  | dbl b => exact push s hs _
  | str sv =>
    simp only [step]
    split
    · exact push s hs _
    · split
      · exact ⟨inferInstance, fun t h => by cases h⟩
      · refine ⟨by only, fun t h => ?_⟩
        obtain ⟨x, hx, h⟩ := Res.bind_eq_ok.1 h
        refine deliverVr_fronted ?_ h
        intro c hc
        exact hs c (by rw [← arenaPut_st hx]; exact hc)
  | blob b =>
    simp only [step]
    split
    · exact ⟨inferInstance, fun t h => by cases h⟩
    · refine ⟨by only, fun t h => ?_⟩
      obtain ⟨x, hx, h⟩ := Res.bind_eq_ok.1 h
      obtain ⟨y, hy, h⟩ := Res.bind_eq_ok.1 h
      refine deliverVr_fronted ?_ h
      intro c hc
      exact hs c (by rw [← arenaPut_st hx, ← appendEnv_st hy]; exact hc)
  | key k =>
    simp only [step]
    split
    · rename_i p n pend st h0
      split
      · exact ⟨inferInstance, fun t h => by cases h⟩
      · split
        · exact ⟨inferInstance, fun t h => by cases h⟩
        · refine ⟨inferInstance, fun t h => ?_⟩
          cases h
          intro c hc
          simp only [List.mem_cons] at hc
          rcases hc with rfl | hc
          · have := hs _ (by rw [h0]; exact List.mem_cons_self)
            simp only [Ctx.at, Ctx.bytes, List.length_append] at this ⊢
            omega
          · exact hs c (by rw [h0]; simp [hc])
    · exact ⟨inferInstance, fun t h => by cases h⟩
  | beginArr n =>
    refine ⟨by unfold step; only, fun t h => ?_⟩
    cases h
    intro c hc
    simp only [List.mem_cons] at hc
    rcases hc with rfl | hc
    · exact ⟨Nat.le_of_eq rfl, Nat.le_of_eq rfl⟩
    · exact hs c hc
  | beginMap n =>
    refine ⟨by unfold step; only, fun t h => ?_⟩
    cases h
    intro c hc
    simp only [List.mem_cons] at hc
    rcases hc with rfl | hc
    · exact ⟨Nat.le_of_eq rfl, Nat.le_of_eq rfl⟩
    · exact hs c hc
  | endArr =>
    simp only [step]
    split
    · rename_i p n st h0
      exact close (.arr p n) st n (fun o => makeVr tArray 0 0 o 0 0) h0
    · exact ⟨inferInstance, fun t h => by cases h⟩
  | endMap =>
    simp only [step]
    split
    · rename_i p n pend st h0
      split
      · exact ⟨inferInstance, fun t h => by cases h⟩
      · exact close (.map p n none) st n (fun o => makeVr tObject 0 0 o 0 0) h0
    · exact ⟨inferInstance, fun t h => by cases h⟩

instance (s : RS) : Only IsSer (finish s) := by unfold finish; only

theorem writer_raises : ∀ (es : List Ev) (s : RS), Fronted s → Only IsSer (writer.run s es) ∧ ∀ t, writer.run s es = .ok t → Fronted t :=
  Writer.run_only step_fronted

theorem fronted_new (thr : Nat) : Fronted { thr := thr } := fun _ h => by cases h

/-- C98 for ZERA: whatever is read, `DeserializationError` is all that is raised, and whatever calls are made on a writer,
`SerializationError` is. (The `std::out_of_range` of `out.at` in `write_u32_le_at` never comes up.) -/
theorem c98_zera : reader.RaisesDeser ∧ (∀ w v, Deser (View.asIntN w v) ∧ Deser (View.asUIntN w v)) ∧ (∀ v, Deser (View.toStringOutcome v)) ∧
    (∀ b, Deser (proto.opn b)) ∧ (∀ es, Only IsSer (proto.bytesOf es)) ∧ ∀ thr es, Only IsSer (serializeEvs thr es) := by
  refine ⟨reader_raises, fun w v => ⟨inferInstance, inferInstance⟩, inferInstance, fun b => ?_, fun es => ?_, fun thr es => ?_⟩
  · show Deser (initFrom b); only
  · refine Only.bind (writer_raises es _ (fronted_new _)).1 (fun s => ?_)
    exact (inferInstance : ∀ s : RS, Only IsSer (finish s)) s
  · unfold serializeEvs setThreshold
    split
    · exact (inferInstance : Only IsSer (Res.err .ser : Res Bytes))
    · show Only IsSer (writer.run { thr := thr } es >>= finish)
      exact Only.bind (writer_raises es { thr := thr } (fronted_new thr)).1 (fun s => inferInstance)

end Zera

/-! ### CBOR -/

namespace Cbor

/-- `jsoncons::ser_error`, a `std::runtime_error`. -/
def IsJsoncons (e : Err) : Prop := e = .runtime

instance : Only IsJsoncons (Res.err .runtime : Res α) := Only.err rfl

variable (utf8 : Bytes → Bool) (m : Nat)

instance (s : WS) (b : Bytes) : Only IsJsoncons (scalar s b) := by unfold scalar; only
instance (t : Bytes) : Only IsJsoncons (textBytes utf8 t) := by unfold textBytes; only
instance (s : WS) (o : Bool) (j n : Nat) : Only IsJsoncons (openC m s o j n) := by unfold openC; only
instance (s : WS) : Only IsJsoncons (closeC s) := by unfold closeC; only
instance (s : WS) (e : Ev) : Only IsJsoncons (step utf8 m s e) := by unfold step; only

theorem writer_raises (es : List Ev) (s : WS) : Only IsJsoncons ((writer utf8 m).run s es) :=
  (Writer.run_only (W := writer utf8 m) (I := fun _ => True) (fun s _ e => ⟨(inferInstance : Only IsJsoncons (step utf8 m s e)), fun _ _ => trivial⟩) es s trivial).1

/-- C98 for CBOR, as far as it holds: reading raises `DeserializationError` only; writing lets the exceptions of jsoncons through. -/
theorem c98_cbor_partial (hard : Bool) (f : Nat) : (reader hard f).RaisesDeser ∧
    (∀ w v, Deser (View.asIntN w v) ∧ Deser (View.asUIntN w v)) ∧ (∀ v, Deser (View.asBlobVec hard f v)) ∧
    (∀ b, Deser ((proto utf8 m hard f).opn b)) ∧ ∀ es, Only IsJsoncons ((proto utf8 m hard f).bytesOf es) := by
  refine ⟨reader_raises hard f, fun w v => ⟨inferInstance, inferInstance⟩, inferInstance, fun b => Only.ok _, fun es => ?_⟩
  exact Only.bind (writer_raises utf8 m es _) (fun s => Only.ok _)

/-- C98 is false of CBOR: a text that is not UTF-8 raises something that is not a `SerializationError`. -/
theorem c98_cbor_refuted (hard : Bool) (f : Nat) {t : Bytes} (ht : utf8 t = false) :
    (proto utf8 m hard f).serialize (.str t) = .err .runtime ∧ ¬ Only IsSer ((proto utf8 m hard f).serialize (.str t)) := by
  have h : (proto utf8 m hard f).serialize (.str t) = .err .runtime := by
    show ((step utf8 m {} (.str t)) >>= fun s => (writer utf8 m).run s []) >>= _ = _
    simp only [step, textBytes, ht]
    rfl
  refine ⟨h, fun hh => ?_⟩
  have := hh.only _ h
  cases this

end Cbor

/-! ### JSON -/

namespace Json

/-- `std::logic_error`, and the `std::runtime_error` of `finish`. -/
def IsLogic (e : Err) : Prop := e = .logic ∨ e = .runtime

instance : Only IsLogic (Res.err .runtime : Res α) := Only.err (Or.inr rfl)
instance : Only IsLogic (Res.err .logic : Res α) := Only.err (Or.inl rfl)

variable (dbg : Bool) (T : Text)

instance (s : RS) : Only IsLogic (slot dbg s) := by unfold slot; only
instance (s : RS) (v : Val) : Only IsLogic (push dbg s v) := by unfold push; only
instance (o : Bool) (s : RS) : Only IsLogic (openC dbg o s) := by unfold openC; only
instance (s : RS) : Only IsLogic (endArr s) := by unfold endArr; only
instance (s : RS) : Only IsLogic (endMap s) := by unfold endMap; only
instance (s : RS) (k : Bytes) : Only IsLogic (key s k) := by unfold key; only
instance (s : RS) (b : Bytes) : Only IsLogic (binary dbg s b) := by unfold binary; only
instance (s : RS) (e : Ev) : Only IsLogic (step dbg s e) := by unfold step; only
instance (s : RS) : Only IsLogic (finish T s) := by unfold finish; only

theorem writer_raises (es : List Ev) (s : RS) : Only IsLogic ((writer dbg).run s es) :=
  (Writer.run_only (W := writer dbg) (I := fun _ => True) (fun s _ e => ⟨(inferInstance : Only IsLogic (step dbg s e)), fun _ _ => trivial⟩) es s trivial).1

/-- C98 for JSON, as far as it holds: reading raises `DeserializationError` only; writing raises `std::logic_error` and
`std::runtime_error`. -/
theorem c98_json_partial : reader.RaisesDeser ∧ (∀ w v, Deser (asIntN w v) ∧ Deser (asUIntN w v)) ∧
    (∀ b, Deser ((proto T dbg).opn b)) ∧ ∀ es, Only IsLogic ((proto T dbg).bytesOf es) := by
  refine ⟨reader_raises, fun w v => ⟨inferInstance, inferInstance⟩, fun b => ?_, fun es => ?_⟩
  · show Deser (opn T b); only
  · refine Only.bind (writer_raises dbg es _) (fun s => ?_)
    exact (inferInstance : ∀ s : RS, Only IsLogic (finish T s)) s

/-- C98 is false of JSON: an empty key raises what is not even a `std::runtime_error`. -/
theorem c98_json_refuted : (proto T dbg).serialize (.map [([], .null)]) = .err .logic ∧
    ¬ Only IsRuntime ((proto T dbg).serialize (.map [([], .null)])) := by
  have h : (proto T dbg).serialize (.map [([], .null)]) = .err .logic := rfl
  refine ⟨h, fun hh => ?_⟩
  have := hh.only _ h
  rcases this with h | h | h <;> cases h

end Json

/-! ### Flex -/

namespace Flex

/-- `std::logic_error`, and, in a debug build, the end of the process. -/
def IsMisuse (dbg : Bool) (e : Err) : Prop := e = .logic ∨ (dbg = true ∧ e = .abort)

instance (dbg : Bool) : Only (IsMisuse dbg) (Res.err .logic : Res α) := Only.err (Or.inl rfl)

variable (L : Lib) (dbg : Bool) (E : Err → Prop)

instance cstrAt_only (b : Bytes) (p : Nat) : Only E (cstrAt b p) := by unfold cstrAt; only
instance findKey_only (b : Bytes) (n : Nat) : ∀ ps, Only E (findKey b n ps)
  | [] => by unfold findKey; only
  | _ :: ps => by have := findKey_only b n ps; unfold findKey; only
instance (b : Bytes) (p : List Nat) (k : Bytes) : Only E (createKey b p k) := by unfold createKey; only
instance keyStrings_only (b : Bytes) : ∀ ps, Only E (keyStrings b ps)
  | [] => by unfold keyStrings; only
  | _ :: ps => by have := keyStrings_only b ps; unfold keyStrings; only
instance (b : Bytes) (ps : List (BV × BV)) : Only E (sortPairs L b ps) := by unfold sortPairs; only
instance (s : RS) (k : Bytes) : Only E (keyBytes s k) := by unfold keyBytes; only
instance (b : Bytes) (vs : List BV) : Only (IsMisuse dbg) (buildMap L dbg b vs) := by
  unfold buildMap
  split
  · rename_i h; exact Only.err (Or.inr ⟨h.1, rfl⟩)
  · only
instance (s : RS) : Only (IsMisuse dbg) (endArr s) := by unfold endArr; only
instance (s : RS) : Only (IsMisuse dbg) (endMap L dbg s) := by unfold endMap; only
instance (s : RS) (e : Ev) : Only (IsMisuse dbg) (step L dbg s e) := by unfold step; only
instance (s : RS) : Only (IsMisuse dbg) (finish dbg s) := by
  unfold finish
  dsimp only
  generalize (if s.wrote = true then s.stack else s.stack ++ [⟨0, 0, 0⟩]) = k
  split
  · rename_i h; exact Only.err (Or.inr ⟨h.1, rfl⟩)
  · only

theorem writer_raises (es : List Ev) (s : RS) : Only (IsMisuse dbg) ((writer L dbg).run s es) :=
  (Writer.run_only (W := writer L dbg) (I := fun _ => True) (fun s _ e => ⟨(inferInstance : Only (IsMisuse dbg) (step L dbg s e)), fun _ _ => trivial⟩) es s trivial).1

/-- Nothing is raised, and what comes out satisfies `Q`. -/
def Fine {α : Type} (x : Res α) (Q : α → Prop) : Prop := (∀ e, x ≠ .err e) ∧ ∀ a, x = .ok a → Q a

theorem Fine.ok {α : Type} {a : α} {Q : α → Prop} (h : Q a) : Fine (.ok a) Q := ⟨fun _ h => (by cases h), fun _ h' => (by cases h'; exact h)⟩
theorem Fine.bind {α β : Type} {x : Res α} {f : α → Res β} {Q : α → Prop} {P : β → Prop} (hx : Fine x Q) (hf : ∀ a, Q a → Fine (f a) P) :
    Fine (x >>= f) P := by
  cases x with
  | ok a => exact hf a (hx.2 a rfl)
  | err e => exact absurd rfl (hx.1 e)
  | ub => exact ⟨fun _ h => (by cases h), fun _ h => (by cases h)⟩
  | diverge => exact ⟨fun _ h => (by cases h), fun _ h => (by cases h)⟩

/-- What writing a value does to the stacks of the writer. -/
def Adds (s t : RS) : Prop := t.st = s.st ∧ t.wrote = true ∧ ∃ x, t.stack = s.stack ++ [x]

/-- What writing elements does. -/
def AddsN (s t : RS) : Prop := t.st = s.st ∧ (s.wrote = true → t.wrote = true) ∧ ∃ l, t.stack = s.stack ++ l

/-- What writing entries does. -/
def AddsPairs (s t : RS) : Prop := t.st = s.st ∧ (s.wrote = true → t.wrote = true) ∧
  ∃ l, t.stack = s.stack ++ l ∧ l.length % 2 = 0 ∧ ∀ v ∈ evens l, v.ty = 4

theorem createKey_only (b : Bytes) (p : List Nat) (k : Bytes) : Fine (createKey b p k) (fun _ => True) :=
  ⟨fun e h => ((inferInstance : Only (fun _ => False) (createKey b p k)).only e h).elim, fun _ _ => trivial⟩

theorem key_adds (s : RS) (k : Bytes) : Fine (keyBytes s k) (fun t => t.st = s.st ∧ ∃ u, t.stack = s.stack ++ [⟨4, u, 0⟩]) := by
  unfold keyBytes
  exact Fine.bind (createKey_only _ _ _) (fun c _ => Fine.ok ⟨rfl, _, rfl⟩)

theorem endArr_adds {s t : RS} (h : AddsN (openC false s) t) : Fine (endArr t) (Adds s) := by
  obtain ⟨h1, h2, l, h3⟩ := h
  have h1' : t.st = (false, s.stack.length) :: s.st := h1
  unfold endArr
  rw [h1']
  have h3' : t.stack = s.stack ++ l := h3
  have key : ∀ c, t.stack.take s.stack.length ++ [c] = s.stack ++ [c] := fun c => by
    rw [h3', List.take_left']; rfl
  exact Fine.ok ⟨rfl, h2 rfl, _, key _⟩

theorem endMap_adds {s t : RS} (h : AddsPairs (openC true s) t) : Fine (endMap L dbg t) (Adds s) := by
  obtain ⟨h1, h2, l, h3, h4, h5⟩ := h
  have h1' : t.st = (true, s.stack.length) :: s.st := h1
  have h3' : t.stack = s.stack ++ l := h3
  unfold endMap
  rw [h1']
  dsimp only
  rw [h3', List.drop_left']
  · unfold buildMap
    rw [if_neg (by
      rintro ⟨-, h | h⟩
      · omega
      · simp only [List.any_eq_true] at h
        obtain ⟨v, hv, hd⟩ := h
        simp [h5 v hv] at hd)]
    have hs : Fine (sortPairs L t.buf (pairs l)) (fun _ => True) :=
      ⟨fun e h => ((inferInstance : Only (fun _ => False) (sortPairs L t.buf (pairs l))).only e h).elim, fun _ _ => trivial⟩
    refine Fine.bind (Fine.bind hs (fun ps _ => Fine.ok (Q := fun _ => True) trivial)) (fun c _ => ?_)
    refine Fine.ok ⟨rfl, h2 rfl, c.2, ?_⟩
    show List.take s.stack.length (s.stack ++ l) ++ [c.2] = _
    rw [List.take_left']
    rfl
  · rfl

theorem finish_adds {t : RS} (h : Adds {} t) : ∃ b, finish dbg t = .ok b := by
  obtain ⟨-, h2, x, h3⟩ := h
  unfold finish
  have h3' : t.stack = [x] := h3
  simp only [h2, h3', if_true, List.length_singleton, ne_eq, not_true, and_false, if_false]
  exact ⟨_, rfl⟩

theorem run_cons (s : RS) (e : Ev) (es : List Ev) : (writer L dbg).run s (e :: es) = step L dbg s e >>= fun t => (writer L dbg).run t es := rfl

mutual
theorem emit_fine : ∀ (v : Val) (s : RS), Fine ((writer L dbg).run s (emit v)) (Adds s)
  | .null, s => Fine.ok ⟨rfl, rfl, _, rfl⟩
  | .bool _, s => Fine.ok ⟨rfl, rfl, _, rfl⟩
  | .int _, s => Fine.ok ⟨rfl, rfl, _, rfl⟩
  | .uint _, s => Fine.ok ⟨rfl, rfl, _, rfl⟩
  | .dbl _, s => Fine.ok ⟨rfl, rfl, _, rfl⟩
  | .str _, s => Fine.ok ⟨rfl, rfl, _, rfl⟩
  | .blob _, s => Fine.ok ⟨rfl, rfl, _, rfl⟩
  | .arr xs, s => by
    have e : (writer L dbg).run s (emit (.arr xs)) =
        (writer L dbg).run (openC false s) (emitList xs) >>= fun t => endArr t >>= fun u => .ok u := by
      simp only [emit, run_cons, Writer.run_append]
      rfl
    rw [e]
    refine Fine.bind (emitList_fine xs _) (fun t ht => ?_)
    rw [Res.bind_ok_self]
    exact endArr_adds ht
  | .map ms, s => by
    have e : (writer L dbg).run s (emit (.map ms)) =
        (writer L dbg).run (openC true s) (emitEntries ms) >>= fun t => endMap L dbg t >>= fun u => .ok u := by
      simp only [emit, run_cons, Writer.run_append]
      rfl
    rw [e]
    refine Fine.bind (emitEntries_fine ms _) (fun t ht => ?_)
    rw [Res.bind_ok_self]
    exact endMap_adds L dbg ht
theorem emitList_fine : ∀ (xs : List Val) (s : RS), Fine ((writer L dbg).run s (emitList xs)) (AddsN s)
  | [], s => Fine.ok ⟨rfl, id, [], by simp⟩
  | x :: xs, s => by
    simp only [emitList, Writer.run_append]
    refine Fine.bind (emit_fine x s) (fun t ht => ?_)
    obtain ⟨h1, h2, a, h3⟩ := ht
    obtain ⟨f1, f2⟩ := emitList_fine xs t
    refine ⟨f1, fun u hu => ?_⟩
    obtain ⟨g1, g2, l, g3⟩ := f2 u hu
    exact ⟨g1.trans h1, fun _ => g2 h2, a :: l, by rw [g3, h3]; simp⟩
theorem emitEntries_fine : ∀ (ms : List (Bytes × Val)) (s : RS), Fine ((writer L dbg).run s (emitEntries ms)) (AddsPairs s)
  | [], s => Fine.ok ⟨rfl, id, [], by simp, rfl, fun _ h => by cases h⟩
  | (k, v) :: ms, s => by
    simp only [emitEntries, Writer.run_append, run_cons]
    show Fine (keyBytes s (k ++ [0]) >>= _) _
    refine Fine.bind (key_adds s (k ++ [0])) (fun r hr => ?_)
    obtain ⟨r1, u, r2⟩ := hr
    refine Fine.bind (emit_fine v r) (fun t ht => ?_)
    obtain ⟨h1, h2, a, h3⟩ := ht
    obtain ⟨f1, f2⟩ := emitEntries_fine ms t
    refine ⟨f1, fun w hw => ?_⟩
    obtain ⟨g1, g2, l, g3, g4, g5⟩ := f2 w hw
    refine ⟨g1.trans (h1.trans r1), fun _ => g2 h2, ⟨4, u, 0⟩ :: a :: l, by rw [g3, h3, r2]; simp, ?_, ?_⟩
    · simp only [List.length_cons]; omega
    · intro x hx
      simp only [evens, List.mem_cons] at hx
      rcases hx with rfl | hx
      · rfl
      · exact g5 x hx
end

/-- C98 for Flex, as far as it holds: reading raises `DeserializationError` only, writing a value raises nothing, and the calls of a
writer in some other order raise `std::logic_error` (or end the process, in a debug build). -/
theorem c98_flex_partial : reader.RaisesDeser ∧ (∀ w v, Deser (asIntN w v) ∧ Deser (asUIntN w v)) ∧
    (∀ b, Deser ((proto L dbg).opn b)) ∧ (∀ es, Only (IsMisuse dbg) ((proto L dbg).bytesOf es)) ∧
    ∀ v e, (proto L dbg).serialize v ≠ .err e := by
  refine ⟨reader_raises, fun w v => ⟨inferInstance, inferInstance⟩, fun b => ?_, fun es => ?_, fun v => ?_⟩
  · show Deser (opn b); only
  · refine Only.bind (writer_raises L dbg es _) (fun s => ?_)
    exact (inferInstance : ∀ s : RS, Only (IsMisuse dbg) (finish dbg s)) s
  · refine (Fine.bind (P := fun _ => True) (emit_fine L dbg v {}) (fun t ht => ?_)).1
    obtain ⟨b, hb⟩ := finish_adds dbg ht
    show Fine (finish dbg t) _
    rw [hb]
    exact Fine.ok trivial

/-- C98 is false of Flex: closing what is not open raises what is not even a `std::runtime_error`. -/
theorem c98_flex_refuted : (proto L dbg).bytesOf [.endArr] = .err .logic ∧ ¬ Only IsRuntime ((proto L dbg).bytesOf [.endArr]) := by
  have h : (proto L dbg).bytesOf [.endArr] = .err .logic := rfl
  refine ⟨h, fun hh => ?_⟩
  have := hh.only _ h
  rcases this with h | h | h <;> cases h

end Flex

/-! ## Translating -/

/-- What a translation raises on its own: what reading raises, and `std::runtime_error` for a value of no known kind,
translate.hpp:71. -/
def IsSource (e : Err) : Prop := e = .deser ∨ e = .runtime

/-- Nothing but `E` is raised, and what comes out satisfies `Q`. -/
def Confined (E : Err → Prop) {α : Type} (x : Res α) (Q : α → Prop) : Prop := Only E x ∧ ∀ a, x = .ok a → Q a

namespace Confined

variable {E : Err → Prop} {α β : Type}

theorem ok {a : α} {Q : α → Prop} (h : Q a) : Confined E (.ok a) Q := ⟨Only.ok a, fun _ h' => by cases h'; exact h⟩

theorem bind {x : Res α} {f : α → Res β} {Q : α → Prop} {P : β → Prop} (hx : Confined E x Q) (hf : ∀ a, Q a → Confined E (f a) P) :
    Confined E (x >>= f) P := by
  cases x with
  | ok a => exact hf a (hx.2 a rfl)
  | err e => exact ⟨⟨fun e' h => hx.1.only _ (by cases h; rfl)⟩, fun _ h => by cases h⟩
  | ub => exact ⟨Only.ub, fun _ h => by cases h⟩
  | diverge => exact ⟨Only.diverge, fun _ h => by cases h⟩

theorem read {x : Res α} (h : Deser x) (hE : ∀ e, IsSource e → E e) : Confined E x (fun _ => True) :=
  ⟨h.mono (fun e he => hE e (Or.inl he)), fun _ _ => trivial⟩

theorem ite {x y : Res α} {Q : α → Prop} {b : Bool} (hx : Confined E x Q) (hy : Confined E y Q) : Confined E (if b = true then x else y) Q := by
  split <;> assumption

theorem ofFine {x : Res α} {Q : α → Prop} (h : Flex.Fine x Q) : Confined E x Q := ⟨⟨fun e he => absurd he (h.1 e)⟩, h.2⟩

end Confined

section
variable {ρ σ : Type} {R : Reader ρ} {W : Writer σ} {E : Err → Prop} {I : σ → Prop}

theorem writeElems_raises (hR : R.RaisesDeser) (hE : ∀ e, IsSource e → E e) {rec : ρ → σ → Res σ} (hrec : ∀ r s, I s → Confined E (rec r s) I) (r : ρ) :
    ∀ n i s, I s → Confined E (writeElems R rec r n i s) I
  | 0, _, s, hs => Confined.ok hs
  | n + 1, i, s, hs => by
    unfold writeElems
    refine Confined.bind (Confined.read (hR.getIdx r i) hE) (fun c _ => ?_)
    exact Confined.bind (hrec c s hs) (fun t ht => writeElems_raises hR hE hrec r n _ t ht)

theorem writeEntries_raises (hR : R.RaisesDeser) (hE : ∀ e, IsSource e → E e) (hW : ∀ s, I s → ∀ e, Confined E (W.step s e) I)
    {rec : ρ → σ → Res σ} (hrec : ∀ r s, I s → Confined E (rec r s) I) (r : ρ) :
    ∀ ks s, I s → Confined E (writeEntries R W rec r ks s) I
  | [], s, hs => Confined.ok hs
  | k :: ks, s, hs => by
    unfold writeEntries
    refine Confined.bind (hW s hs _) (fun t ht => ?_)
    refine Confined.bind (Confined.read (hR.getKey r k) hE) (fun c _ => ?_)
    exact Confined.bind (hrec c t ht) (fun u hu => writeEntries_raises hR hE hW hrec r ks u hu)

theorem writeValue_raises (hR : R.RaisesDeser) (hE : ∀ e, IsSource e → E e) (hW : ∀ s, I s → ∀ e, Confined E (W.step s e) I) :
    ∀ f r s, I s → Confined E (writeValue R W f r s) I
  | 0, _, _, _ => ⟨Only.diverge, fun _ h => by cases h⟩
  | f + 1, r, s, hs => by
    have ih := writeValue_raises hR hE hW f
    unfold writeValue
    have hread : ∀ {α : Type} {x : Res α} (_ : Deser x) {g : α → Res σ} (_ : ∀ a, Confined E (g a) I), Confined E (x >>= g) I :=
      fun hx _ hg => Confined.bind (Confined.read hx hE) (fun a _ => hg a)
    refine hread (hR.isNull r) (fun b => Confined.ite (hW s hs _) ?_)
    refine hread (hR.isBool r) (fun b => Confined.ite (hread (hR.asBool r) (fun _ => hW s hs _)) ?_)
    refine hread (hR.isInt r) (fun b => Confined.ite (hread (hR.asInt64 r) (fun _ => hW s hs _)) ?_)
    refine hread (hR.isUInt r) (fun b => Confined.ite (hread (hR.asUInt64 r) (fun _ => hW s hs _)) ?_)
    refine hread (hR.isFloat r) (fun b => Confined.ite (hread (hR.asDouble r) (fun _ => hW s hs _)) ?_)
    refine hread (hR.isString r) (fun b => Confined.ite (hread (hR.asStringView r) (fun _ => hW s hs _)) ?_)
    refine hread (hR.isBlob r) (fun b => Confined.ite (hread (hR.asBlob r) (fun _ => hW s hs _)) ?_)
    refine hread (hR.isMap r) (fun b => Confined.ite (hread (hR.mapKeys r) (fun ks => ?_)) ?_)
    · refine Confined.bind (hW s hs _) (fun t ht => ?_)
      exact Confined.bind (writeEntries_raises hR hE hW ih r ks t ht) (fun u hu => hW u hu _)
    · refine hread (hR.isArray r) (fun b => Confined.ite (hread (hR.arraySize r) (fun n => ?_)) ?_)
      · refine Confined.bind (hW s hs _) (fun t ht => ?_)
        exact Confined.bind (writeElems_raises hR hE ih r n 0 t ht) (fun u hu => hW u hu _)
      · exact ⟨Only.err (hE _ (Or.inr rfl)), fun _ h => by cases h⟩

end

namespace Flex

section
variable {ρ : Type} {R : Reader ρ} (L : Lib) (dbg : Bool)

theorem writeElems_adds (hR : R.RaisesDeser) {rec : ρ → RS → Res RS} (hrec : ∀ r s, Confined IsSource (rec r s) (Adds s)) (r : ρ) :
    ∀ n i s, Confined IsSource (writeElems R rec r n i s) (AddsN s)
  | 0, _, s => Confined.ok ⟨rfl, id, [], by simp⟩
  | n + 1, i, s => by
    unfold writeElems
    refine Confined.bind (Confined.read (hR.getIdx r i) (fun _ h => h)) (fun c _ => ?_)
    refine Confined.bind (hrec c s) (fun t ht => ?_)
    obtain ⟨h1, h2, a, h3⟩ := ht
    obtain ⟨f1, f2⟩ := writeElems_adds hR hrec r n (i + 1) t
    refine ⟨f1, fun u hu => ?_⟩
    obtain ⟨g1, g2, l, g3⟩ := f2 u hu
    exact ⟨g1.trans h1, fun _ => g2 h2, a :: l, by rw [g3, h3]; simp⟩

theorem writeEntries_adds (hR : R.RaisesDeser) {rec : ρ → RS → Res RS} (hrec : ∀ r s, Confined IsSource (rec r s) (Adds s)) (r : ρ) :
    ∀ ks s, Confined IsSource (writeEntries R (writer L dbg) rec r ks s) (AddsPairs s)
  | [], s => Confined.ok ⟨rfl, id, [], by simp, rfl, fun _ h => by cases h⟩
  | k :: ks, s => by
    unfold writeEntries
    refine Confined.bind (Confined.ofFine (key_adds s (k ++ [0]))) (fun q hq => ?_)
    obtain ⟨r1, u, r2⟩ := hq
    refine Confined.bind (Confined.read (hR.getKey r k) (fun _ h => h)) (fun c _ => ?_)
    refine Confined.bind (hrec c q) (fun t ht => ?_)
    obtain ⟨h1, h2, a, h3⟩ := ht
    obtain ⟨f1, f2⟩ := writeEntries_adds hR hrec r ks t
    refine ⟨f1, fun w hw => ?_⟩
    obtain ⟨g1, g2, l, g3, g4, g5⟩ := f2 w hw
    refine ⟨g1.trans (h1.trans r1), fun _ => g2 h2, ⟨4, u, 0⟩ :: a :: l, by rw [g3, h3, r2]; simp, ?_, ?_⟩
    · simp only [List.length_cons]; omega
    · intro x hx
      simp only [evens, List.mem_cons] at hx
      rcases hx with rfl | hx
      · rfl
      · exact g5 x hx

theorem writeValue_adds (hR : R.RaisesDeser) : ∀ f r s, Confined IsSource (writeValue R (writer L dbg) f r s) (Adds s)
  | 0, _, _ => ⟨Only.diverge, fun _ h => by cases h⟩
  | f + 1, r, s => by
    have ih := writeValue_adds hR f
    unfold writeValue
    have hread : ∀ {α : Type} {x : Res α} (_ : Deser x) {g : α → Res RS} (_ : ∀ a, Confined IsSource (g a) (Adds s)), Confined IsSource (x >>= g) (Adds s) :=
      fun hx _ hg => Confined.bind (Confined.read hx (fun _ h => h)) (fun a _ => hg a)
    refine hread (hR.isNull r) (fun b => Confined.ite (Confined.ok ⟨rfl, rfl, _, rfl⟩) ?_)
    refine hread (hR.isBool r) (fun b => Confined.ite (hread (hR.asBool r) (fun _ => Confined.ok ⟨rfl, rfl, _, rfl⟩)) ?_)
    refine hread (hR.isInt r) (fun b => Confined.ite (hread (hR.asInt64 r) (fun _ => Confined.ok ⟨rfl, rfl, _, rfl⟩)) ?_)
    refine hread (hR.isUInt r) (fun b => Confined.ite (hread (hR.asUInt64 r) (fun _ => Confined.ok ⟨rfl, rfl, _, rfl⟩)) ?_)
    refine hread (hR.isFloat r) (fun b => Confined.ite (hread (hR.asDouble r) (fun _ => Confined.ok ⟨rfl, rfl, _, rfl⟩)) ?_)
    refine hread (hR.isString r) (fun b => Confined.ite (hread (hR.asStringView r) (fun _ => Confined.ok ⟨rfl, rfl, _, rfl⟩)) ?_)
    refine hread (hR.isBlob r) (fun b => Confined.ite (hread (hR.asBlob r) (fun _ => Confined.ok ⟨rfl, rfl, _, rfl⟩)) ?_)
    refine hread (hR.isMap r) (fun b => Confined.ite (hread (hR.mapKeys r) (fun ks => ?_)) ?_)
    · show Confined IsSource (writeEntries R (writer L dbg) _ r ks (openC true s) >>= _) _
      exact Confined.bind (writeEntries_adds L dbg hR ih r ks _) (fun u hu => Confined.ofFine (endMap_adds L dbg hu))
    · refine hread (hR.isArray r) (fun b => Confined.ite (hread (hR.arraySize r) (fun n => ?_)) ?_)
      · show Confined IsSource (writeElems R _ r n 0 (openC false s) >>= _) _
        exact Confined.bind (writeElems_adds hR ih r n 0 _) (fun u hu => Confined.ofFine (endArr_adds hu))
      · exact ⟨Only.err (Or.inr rfl), fun _ h => by cases h⟩

end

end Flex

/-- C98 for translations, from whatever reads as C98 says: into MessagePack, CBOR and Flex they raise what reading raises or
`std::runtime_error`, into ZERA `SerializationError` besides, into JSON `std::logic_error` besides. -/
theorem c98_translate {ρ : Type} {R : Reader ρ} (hR : R.RaisesDeser) (f : Nat) (r : ρ) :
    Only IsSource (MsgPack.proto.translate R f r) ∧
    (∀ utf8 m hard g, Only IsSource ((Cbor.proto utf8 m hard g).translate R f r)) ∧
    (∀ L dbg, Only IsSource ((Flex.proto L dbg).translate R f r)) ∧
    Only IsRuntime (Zera.proto.translate R f r) ∧
    ∀ T dbg, Only (fun e => IsSource e ∨ e = .logic) ((Json.proto T dbg).translate R f r) := by
  refine ⟨?_, fun utf8 m hard g => ?_, fun L dbg => ?_, ?_, fun T dbg => ?_⟩
  · refine Only.bind (writeValue_raises (W := MsgPack.writer) (I := fun _ => True) hR (fun _ h => h) (fun s _ e => ?_) f r _ trivial).1 (fun s => ?_)
    · obtain ⟨b, hb⟩ := MsgPack.c98_msgpack.2.2.2 [e]
      exact ⟨by cases e <;> exact Only.ok _, fun _ _ => trivial⟩
    · exact Only.bind (Only.ok _) (fun b => Only.ok _)
  · refine Only.bind (writeValue_raises (W := Cbor.writer utf8 m) (I := fun _ => True) hR (fun _ h => h) (fun s _ e => ?_) f r _ trivial).1 (fun s => ?_)
    · exact ⟨(inferInstance : Only Cbor.IsJsoncons (Cbor.step utf8 m s e)).mono (fun _ h => Or.inr h), fun _ _ => trivial⟩
    · exact Only.bind (Only.ok _) (fun b => Only.ok _)
  · refine (Confined.bind (P := fun _ => True) (Flex.writeValue_adds L dbg hR f r {}) (fun s hs => ?_)).1
    obtain ⟨b, hb⟩ := Flex.finish_adds dbg hs
    show Confined IsSource (Flex.finish dbg s >>= Flex.opn) _
    rw [hb]
    exact ⟨(inferInstance : Deser (Flex.opn b)).mono (fun _ h => Or.inl h), fun _ _ => trivial⟩
  · refine Only.bind (writeValue_raises (W := Zera.writer) (I := Zera.Fronted) hR (fun e h => ?_) (fun s hs e => ?_) f r _ (Zera.fronted_new _)).1 (fun s => ?_)
    · rcases h with h | h
      · exact Or.inl h
      · exact Or.inr (Or.inr h)
    · have := Zera.step_fronted s hs e
      exact ⟨this.1.mono (fun _ h => Or.inr (Or.inl h)), this.2⟩
    · refine Only.bind ?_ (fun b => ?_)
      · exact ((inferInstance : ∀ s : Zera.RS, Only IsSer (Zera.finish s)) s).mono (fun _ h => Or.inr (Or.inl h))
      · exact ((inferInstance : ∀ b, Deser (Zera.initFrom b)) b).mono (fun _ h => Or.inl h)
  · have hl : ∀ e, Json.IsLogic e → IsSource e ∨ e = .logic := fun e h => by
      rcases h with h | h
      · exact Or.inr h
      · exact Or.inl (Or.inr h)
    refine Only.bind (writeValue_raises (W := Json.writer dbg) (I := fun _ => True) hR (fun _ h => Or.inl h) (fun s _ e => ?_) f r _ trivial).1 (fun s => ?_)
    · exact ⟨(inferInstance : Only Json.IsLogic (Json.step dbg s e)).mono hl, fun _ _ => trivial⟩
    · refine Only.bind ?_ (fun b => ?_)
      · exact ((inferInstance : ∀ s : Json.RS, Only Json.IsLogic (Json.finish T s)) s).mono hl
      · exact ((inferInstance : ∀ b, Deser (Json.opn T b)) b).mono (fun _ h => Or.inl (Or.inl h))

/-- All five readers read as C98 says, so `c98_translate` is about every pair of protocols. -/
theorem c98_readers (hard : Bool) (f : Nat) : MsgPack.reader.RaisesDeser ∧ (Cbor.reader hard f).RaisesDeser ∧ Zera.reader.RaisesDeser ∧
    Json.reader.RaisesDeser ∧ Flex.reader.RaisesDeser :=
  ⟨MsgPack.c98_msgpack.1, Cbor.reader_raises hard f, Zera.reader_raises, Json.reader_raises, Flex.reader_raises⟩

/-- A translation that meets the byte MessagePack never uses raises `std::runtime_error` and nothing more precise, whatever it
translates into. -/
theorem c98_translate_refuted (P : Proto) (f : Nat) : P.translate MsgPack.reader (f + 1) [0xc1] = .err .runtime ∧
    ¬ Only (fun e => e = .deser ∨ e = .ser) (P.translate MsgPack.reader (f + 1) [0xc1]) := by
  have h : P.translate MsgPack.reader (f + 1) [0xc1] = .err .runtime := rfl
  refine ⟨h, fun hh => ?_⟩
  rcases hh.only _ h with h | h <;> cases h

/-- A MessagePack document with an empty key, translated into JSON, raises what `catch (const std::runtime_error&)` lets pass. -/
theorem c98_translate_json_refuted (T : Json.Text) (dbg : Bool) (f : Nat) : (Json.proto T dbg).translate MsgPack.reader (f + 2) [0x81, 0xa0, 0xc0] = .err .logic ∧
    ¬ Only IsRuntime ((Json.proto T dbg).translate MsgPack.reader (f + 2) [0x81, 0xa0, 0xc0]) := by
  have h : (Json.proto T dbg).translate MsgPack.reader (f + 2) [0x81, 0xa0, 0xc0] = .err .logic := rfl
  refine ⟨h, fun hh => ?_⟩
  rcases hh.only _ h with h | h | h <;> cases h

/-- Reading a text as a number, an absent key, an index past the end, bytes that are no document. -/
example : MsgPack.asInt64 [0xa1, 0x61] = .err .deser ∧ MsgPack.getKey [0x80] [0x61] = .err .deser ∧
    Cbor.View.getIdx 9 ⟨[0x81, 0x01], 0⟩ 1 = .err .deser ∧ Zera.initFrom [0x5a] = .err .deser := by decide +kernel

/-- Writing a text that is not UTF-8 as CBOR, and leaving a container of ZERA open. -/
example : (Cbor.proto (fun t => decide (t ≠ [0xff])) 1024 true 9).serialize (.arr [.str [0xff]]) = .err .runtime ∧
    Zera.proto.bytesOf [.beginArr 1, .null] = .err .ser := ⟨rfl, rfl⟩

/-! ## C55 and C58, where they fail -/

namespace MsgPack

/-- C55 is false of MessagePack: an empty view (a reader of no bytes, say) is of no kind, but these accessors do not raise, they read
outside of it. -/
theorem c55_msgpack_wrong_kind_refuted : isString [] = false ∧ isBlob [] = false ∧ isArray [] = false ∧
    asString [] = .ub ∧ asStringView [] = .ub ∧ asBlob [] = .ub ∧ arraySize [] = .ub ∧ ∀ i, getIdx [] i = .ub :=
  ⟨rfl, rfl, rfl, rfl, rfl, rfl, rfl, fun _ => rfl⟩

/-- The accessors that do raise on an empty view. -/
theorem c55_msgpack_empty : asBool [] = .err .deser ∧ asInt64 [] = .err .deser ∧ asUInt64 [] = .err .deser ∧ asDouble [] = .err .deser ∧
    mapKeys [] = .err .deser ∧ ∀ k, getKey [] k = .err .deser ∧ contains [] k = .ok false :=
  ⟨rfl, rfl, rfl, rfl, rfl, fun _ => ⟨rfl, rfl⟩⟩

end MsgPack

namespace Cbor

theorem definite_ub {b : Bytes} {h : Head} {q : Nat} (hb : b.length < 2 ^ 63) (hq : q ≤ b.length) (hv : h.val < 2 ^ 64) :
    View.definite false b h q = .ub ↔ 2 ^ 64 ≤ q + h.val ∧ q + h.val - 2 ^ 64 ≤ b.length := by
  unfold View.definite View.range sliceAt
  by_cases h1 : u64 (q + h.val) ≤ b.length
  · simp only [Res.require, h1, decide_true, Res.ok_bind, Bool.false_eq_true, false_and, if_false, if_true]
    simp only [u64] at h1
    split
    · constructor
      · intro h; cases h
      · intro h; omega
    · constructor
      · intro _; omega
      · intro _; rfl
  · simp only [Res.require, h1, decide_false]
    simp only [u64] at h1
    constructor
    · intro h; cases h
    · intro h; omega

theorem viewed_ub (m : Nat) {b : Bytes} {p : Nat} (hb : b.length < 2 ^ 63) :
    (View.head ⟨b, p⟩ >>= fun h => Res.require (decide (h.major = m)) .deser >>= fun _ => Res.require (!h.indef) .deser >>= fun _ =>
      View.definite false b h (p + h.hlen)) = .ub ↔ ∃ h, readHead false b p = .ok h ∧ h.major = m ∧ h.indef = false ∧
      2 ^ 64 ≤ p + h.hlen + h.val ∧ p + h.hlen + h.val - 2 ^ 64 ≤ b.length := by
  obtain ⟨hc, ho⟩ := readHead_clean b p
  unfold View.head
  dsimp only
  rcases hc with ⟨h, e⟩ | e
  · obtain ⟨-, -, h3, -, h5, -⟩ := ho h e
    rw [e]
    simp only [Res.ok_bind, Res.ok.injEq]
    by_cases h1 : h.major = m
    · cases h2 : h.indef with
      | true =>
        simp only [h1, decide_true, Res.require, Bool.not_true]
        constructor
        · intro x; cases x
        · rintro ⟨h', rfl, -, h7, -⟩; rw [h2] at h7; cases h7
      | false =>
        simp only [h1, decide_true, Res.require, Bool.not_false, if_true, Res.ok_bind]
        rw [definite_ub hb h3 h5]
        constructor
        · rintro ⟨x, y⟩; exact ⟨h, rfl, h1, h2, x, y⟩
        · rintro ⟨h', rfl, -, -, x, y⟩; exact ⟨x, y⟩
    · simp only [h1, decide_false, Res.require]
      constructor
      · intro x; cases x
      · rintro ⟨h', rfl, h7, -⟩; exact absurd h7 h1
  · rw [e]
    constructor
    · intro x; cases x
    · rintro ⟨h', x, -⟩; cases x

/-- C58 for views, exactly: the call is undefined if and only if the length announced by a head of the right kind takes the end of the
string past 2^64 and back into the input; otherwise the view is part of the input, or the call raises. -/
theorem c58_cbor_views_exact {b : Bytes} {p : Nat} (hb : b.length < 2 ^ 63) :
    (View.asStringView false ⟨b, p⟩ = .ub ↔ ∃ h, readHead false b p = .ok h ∧ h.major = 3 ∧ h.indef = false ∧
      2 ^ 64 ≤ p + h.hlen + h.val ∧ p + h.hlen + h.val - 2 ^ 64 ≤ b.length) ∧
    (View.asBlob false ⟨b, p⟩ = .ub ↔ ∃ h, readHead false b p = .ok h ∧ h.major = 2 ∧ h.indef = false ∧
      2 ^ 64 ≤ p + h.hlen + h.val ∧ p + h.hlen + h.val - 2 ^ 64 ≤ b.length) :=
  ⟨viewed_ub 3 hb, viewed_ub 2 hb⟩

/-- C58 is false of CBOR: a position with such a length can be reached, and its text is no part of the input. -/
theorem c58_cbor_views_refuted (f : Nat) : ∃ b r, (reader false (f + 1)).Reach ⟨b, 0⟩ r ∧ View.asStringView false r = .ub :=
  ⟨[0x81, 0x7b, 255, 255, 255, 255, 255, 255, 255, 0xf7], ⟨_, 1⟩, .idx 0 .refl rfl, by decide +kernel⟩


end Cbor

end Zer
