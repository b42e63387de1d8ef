import Verif.Zera.Model
import Verif.Translate

/-!
# Every call of the ZERA reader returns

The reader (zera.hpp:100-520) has no recursion and its loops are bounded by a count of 32 bits.
-/

namespace Zer.Zera

theorem returns_ite {α : Type} {c : Prop} [Decidable c] {x y : Res α} (hx : Returns x) (hy : Returns y) :
    Returns (if c then x else y) := by split <;> assumption

theorem returns_readU16 (b : Bytes) (p : Nat) : Returns (readU16 b p) :=
  .bind (returns_byteAt _ _) fun _ _ => .bind (returns_byteAt _ _) fun _ _ => returns_pure _

theorem returns_readU32 (b : Bytes) (p : Nat) : Returns (readU32 b p) :=
  .bind (returns_byteAt _ _) fun _ _ => .bind (returns_byteAt _ _) fun _ _ =>
    .bind (returns_byteAt _ _) fun _ _ => .bind (returns_byteAt _ _) fun _ _ => returns_pure _

theorem returns_readU64 (b : Bytes) (p : Nat) : Returns (readU64 b p) :=
  .bind (returns_readU32 _ _) fun _ _ => .bind (returns_readU32 _ _) fun _ _ => returns_pure _

namespace View

variable (v : View)

theorem returns_requireVr : Returns v.requireVr := by
  unfold requireVr
  split
  · exact returns_err _
  · exact .bind (returns_require _ _) fun _ _ => returns_pure _

theorem returns_envPtrAt (o n : Nat) : Returns (v.envPtrAt o n) :=
  .bind (returns_require _ _) fun _ _ => .bind (returns_require _ _) fun _ _ =>
    .bind (returns_require _ _) fun _ _ => returns_pure _

theorem returns_arenaBytes (o n : Nat) : Returns (v.arenaBytes o n) :=
  .bind (returns_require _ _) fun _ _ => .bind (returns_require _ _) fun _ _ =>
    .bind (returns_require _ _) fun _ _ => returns_pure _

theorem returns_tag : Returns v.tag := .bind v.returns_requireVr fun _ _ => returns_byteAt _ _
theorem returns_flags : Returns v.flags := .bind v.returns_requireVr fun _ _ => returns_byteAt _ _
theorem returns_aux : Returns v.aux := .bind v.returns_requireVr fun _ _ => returns_readU16 _ _
theorem returns_a : Returns v.a := .bind v.returns_requireVr fun _ _ => returns_readU32 _ _
theorem returns_b : Returns v.b := .bind v.returns_requireVr fun _ _ => returns_readU32 _ _
theorem returns_c : Returns v.c := .bind v.returns_requireVr fun _ _ => returns_readU32 _ _

theorem returns_inlineBytes (n : Nat) : Returns (v.inlineBytes n) :=
  .bind (returns_require _ _) fun _ _ => .bind v.returns_requireVr fun _ _ => returns_pure _

theorem returns_requireFlagsOk : Returns v.requireFlagsOk :=
  .bind v.returns_tag fun _ _ => .bind v.returns_flags fun _ _ => returns_ite (returns_require _ _) (returns_require _ _)

theorem returns_isBlob : Returns v.isBlob :=
  .bind v.returns_tag fun _ _ => returns_ite (.bind v.returns_aux fun _ _ => returns_pure _) (returns_pure _)

theorem returns_bits : Returns v.bits := .bind v.returns_a fun _ _ => .bind v.returns_b fun _ _ => returns_pure _

theorem returns_asBool : Returns v.asBool :=
  .bind v.returns_tag fun _ _ => .bind (returns_require _ _) fun _ _ => .bind v.returns_requireFlagsOk fun _ _ =>
    .bind v.returns_aux fun _ _ => .bind (returns_require _ _) fun _ _ => returns_pure _

theorem returns_asInt64 : Returns v.asInt64 :=
  .bind v.returns_tag fun _ _ => .bind (returns_require _ _) fun _ _ => .bind v.returns_requireFlagsOk fun _ _ =>
    .bind v.returns_bits fun _ _ => .bind v.returns_tag fun _ _ =>
      returns_ite (.bind (returns_require _ _) fun _ _ => returns_pure _) (returns_pure _)

theorem returns_asUInt64 : Returns v.asUInt64 :=
  .bind v.returns_tag fun _ _ => .bind (returns_require _ _) fun _ _ => .bind v.returns_requireFlagsOk fun _ _ =>
    .bind v.returns_bits fun _ _ => .bind v.returns_tag fun _ _ =>
      returns_ite (.bind (returns_require _ _) fun _ _ => returns_pure _) (returns_pure _)

theorem returns_asDouble : Returns v.asDouble :=
  .bind v.returns_tag fun _ _ => .bind (returns_require _ _) fun _ _ => .bind v.returns_requireFlagsOk fun _ _ =>
    .bind v.returns_bits fun _ _ => returns_pure _

theorem returns_asStringView : Returns v.asStringView := by
  refine .bind (x := v.stringRange) ?_ fun x _ => ?_
  · exact .bind v.returns_tag fun _ _ => .bind (returns_require _ _) fun _ _ => .bind v.returns_requireFlagsOk fun _ _ =>
      .bind v.returns_flags fun _ _ => returns_ite
        (.bind v.returns_aux fun _ _ => .bind (returns_require _ _) fun _ _ => v.returns_inlineBytes _)
        (.bind v.returns_a fun _ _ => .bind v.returns_b fun _ _ => v.returns_arenaBytes _ _)
  · exact returns_sliceAt _ _ _

theorem returns_asBlob : Returns v.asBlob := by
  refine .bind (x := v.blobRange) ?_ fun x _ => ?_
  · exact .bind v.returns_isBlob fun _ _ => .bind (returns_require _ _) fun _ _ => .bind v.returns_requireFlagsOk fun _ _ =>
      .bind v.returns_c fun _ _ => .bind (v.returns_envPtrAt _ _) fun _ _ => .bind (returns_readU32 _ _) fun _ _ =>
      .bind (returns_require _ _) fun _ _ => .bind (returns_require _ _) fun _ _ => .bind (v.returns_envPtrAt _ _) fun _ _ =>
      .bind (returns_readU64 _ _) fun _ _ => .bind v.returns_b fun _ _ => .bind (returns_require _ _) fun _ _ =>
      .bind v.returns_a fun _ _ => v.returns_arenaBytes _ _
  · exact returns_sliceAt _ _ _

theorem returns_arraySize : Returns v.arraySize :=
  .bind v.returns_tag fun _ _ => .bind (returns_require _ _) fun _ _ => .bind v.returns_requireFlagsOk fun _ _ =>
    .bind v.returns_a fun _ _ => .bind (v.returns_envPtrAt _ _) fun _ _ => .bind (returns_readU32 _ _) fun _ _ =>
    .bind (v.returns_envPtrAt _ _) fun _ _ => returns_pure _

theorem returns_keysFrom : ∀ n cur, Returns (v.keysFrom n cur)
  | 0, _ => returns_pure _
  | n + 1, cur =>
    .bind (.bind (returns_readU16 _ _) fun _ _ => .bind (v.returns_envPtrAt _ _) fun _ _ => returns_sliceAt _ _ _) fun _ _ =>
    .bind (.bind (returns_readU16 _ _) fun _ _ => v.returns_envPtrAt _ _) fun _ _ =>
    .bind (returns_keysFrom n _) fun _ _ => returns_pure _

theorem returns_mapKeys : Returns v.mapKeys :=
  .bind v.returns_tag fun _ _ => .bind (returns_require _ _) fun _ _ => .bind v.returns_requireFlagsOk fun _ _ =>
    .bind v.returns_a fun _ _ => .bind (v.returns_envPtrAt _ _) fun _ _ => .bind (returns_readU32 _ _) fun _ _ =>
    .bind (v.returns_envPtrAt _ _) fun _ _ => v.returns_keysFrom _ _

theorem returns_keyHit (key : Bytes) (kp n : Nat) : Returns (v.keyHit key kp n) :=
  returns_ite (.bind (returns_sliceAt _ _ _) fun _ _ => returns_pure _) (returns_pure _)

theorem returns_containsFrom (key : Bytes) : ∀ n ofs, Returns (v.containsFrom key n ofs)
  | 0, _ => returns_pure _
  | n + 1, ofs =>
    .bind (v.returns_envPtrAt _ _) fun _ _ => .bind (returns_readU16 _ _) fun _ _ => .bind (returns_readU16 _ _) fun _ _ =>
    .bind (v.returns_envPtrAt _ _) fun _ _ => .bind (v.returns_keyHit _ _ _) fun _ _ => returns_ite (returns_pure _)
      (.bind (v.returns_envPtrAt _ _) fun _ _ => returns_containsFrom key n _)

theorem returns_contains (key : Bytes) : Returns (v.contains key) :=
  .bind (.bind v.returns_tag fun _ _ => returns_pure _) fun _ _ => returns_ite (returns_pure _)
    (.bind v.returns_requireFlagsOk fun _ _ => .bind v.returns_a fun _ _ => .bind (v.returns_envPtrAt _ _) fun _ _ =>
      .bind (returns_readU32 _ _) fun _ _ => v.returns_containsFrom _ _ _)

theorem returns_getIdx (i : Nat) : Returns (v.getIdx i) :=
  .bind v.returns_tag fun _ _ => .bind (returns_require _ _) fun _ _ => .bind v.returns_requireFlagsOk fun _ _ =>
    .bind v.returns_a fun _ _ => .bind (v.returns_envPtrAt _ _) fun _ _ => .bind (returns_readU32 _ _) fun _ _ =>
    .bind (returns_require _ _) fun _ _ => .bind (v.returns_envPtrAt _ _) fun _ _ => returns_pure _

theorem returns_getKeyFrom (key : Bytes) : ∀ n ofs, Returns (v.getKeyFrom key n ofs)
  | 0, _ => returns_err _
  | n + 1, ofs =>
    .bind (v.returns_envPtrAt _ _) fun _ _ => .bind (returns_readU16 _ _) fun _ _ => .bind (returns_readU16 _ _) fun _ _ =>
    .bind (v.returns_envPtrAt _ _) fun _ _ => .bind (v.returns_envPtrAt _ _) fun _ _ =>
    .bind (v.returns_keyHit _ _ _) fun _ _ => returns_ite (returns_pure _)
      (.bind (v.returns_envPtrAt _ _) fun _ _ => returns_getKeyFrom key n _)

theorem returns_getKey (key : Bytes) : Returns (v.getKey key) :=
  .bind v.returns_tag fun _ _ => .bind (returns_require _ _) fun _ _ => .bind v.returns_requireFlagsOk fun _ _ =>
    .bind v.returns_a fun _ _ => .bind (v.returns_envPtrAt _ _) fun _ _ => .bind (returns_readU32 _ _) fun _ _ =>
    v.returns_getKeyFrom _ _ _

end View

theorem reader_total : reader.Total (fun _ => True) where
  isNull v _ := .bind v.returns_tag fun _ _ => returns_pure _
  isBool v _ := .bind v.returns_tag fun _ _ => returns_pure _
  isInt v _ := .bind v.returns_tag fun _ _ => returns_pure _
  isUInt v _ := .bind v.returns_tag fun _ _ => returns_pure _
  isFloat v _ := .bind v.returns_tag fun _ _ => returns_pure _
  isString v _ := .bind v.returns_tag fun _ _ => returns_pure _
  isBlob v _ := v.returns_isBlob
  isMap v _ := .bind v.returns_tag fun _ _ => returns_pure _
  isArray v _ := .bind v.returns_tag fun _ _ => returns_pure _
  asBool v _ := v.returns_asBool
  asInt64 v _ := v.returns_asInt64
  asUInt64 v _ := v.returns_asUInt64
  asDouble v _ := v.returns_asDouble
  asString v _ := v.returns_asStringView
  asStringView v _ := v.returns_asStringView
  asBlob v _ := v.returns_asBlob
  mapKeys v _ := v.returns_mapKeys
  contains v k _ _ _ := v.returns_contains k
  getKey v k _ _ _ := v.returns_getKey k
  arraySize v _ := v.returns_arraySize
  getIdx v i _ := v.returns_getIdx i

end Zer.Zera
