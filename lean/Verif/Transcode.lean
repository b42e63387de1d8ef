import Verif.Props.Flex
import Verif.Props.JsonText
import Verif.Tensor.Proto

/-!
# From bytes to bytes: translation as a map on messages, and routes through several formats
-/

namespace Zer

namespace Proto

/-- The bytes of `translate<Q>(typename P::Deserializer(b))`, translate.hpp:77-100: the buffer `out` from which the result is
constructed (translate.hpp:88). -/
def recode (P Q : Proto) (f : Nat) (b : Bytes) : Res Bytes :=
  P.opn b >>= fun r => writeValue P.reader Q.writer f r Q.init >>= Q.finish

/-- One translation after another: the bytes that come out of the last. -/
def route (f : Nat) : Proto → List Proto → Bytes → Res Bytes
  | _, [], b => .ok b
  | P, Q :: Qs, b => P.recode Q f b >>= route f Q Qs

/-- The translation opens the bytes of `recode`. -/
theorem translate_recode (P Q : Proto) (f : Nat) (b : Bytes) :
    (P.opn b >>= fun r => Q.translate P.reader f r) = (P.recode Q f b >>= Q.opn) := by
  simp only [recode, translate, bind_assoc]

/-- `P` writes the value and every value equal to it up to integer signedness, and reads what it wrote. -/
def Carries (P : Proto) (v : Val) : Prop :=
  ∀ w : Val, w.Same v → ∃ b r, P.serialize w = .ok b ∧ P.opn b = .ok r ∧ P.reader.Agrees r w

/-- `P` writes the value, and reads what it wrote with the signedness of integers. -/
def Keeps (P : Proto) (v : Val) : Prop :=
  ∃ b r, P.serialize v = .ok b ∧ P.opn b = .ok r ∧ P.reader.AgreesStrictly r v

/-- The bytes of `P` do not tell signed integers from unsigned ones. -/
def Blind (P : Proto) : Prop := ∀ {v w : Val}, v.Same w → P.serialize v = P.serialize w

theorem Carries.same {P : Proto} {v w : Val} (h : P.Carries v) (e : w.Same v) : P.Carries w :=
  fun x hx => h x (Eq.trans hx e)

/-- A position that presents a value is translated into the serialization of one value. -/
theorem recode_run {P : Proto} {p : Prop} (Q : Proto) {b : Bytes} {r : P.ρ} {v : Val} (ho : P.opn b = .ok r)
    (ha : P.reader.AgreesW p r v) (hd : v.Distinct) {f : Nat} (hf : v.depth ≤ f) :
    ∃ v', v'.Same v ∧ (p → v' = v) ∧ P.recode Q f b = Q.serialize v' := by
  obtain ⟨v', h1, h2, h3⟩ := writeValue_run v r ha
  rw [Val.firstWins_of_distinct v hd] at h1 h2
  refine ⟨v', h1, h2, ?_⟩
  simp only [recode, ho, Res.ok_bind, h3 _ Q.writer f hf Q.init]
  rfl

end Proto

/-! ## What signedness does not change -/

mutual
theorem Val.depth_canon : ∀ v : Val, v.canon.depth = v.depth
  | .null | .bool _ | .uint _ | .dbl _ | .str _ | .blob _ => rfl
  | .int i => by simp only [Val.canon]; split <;> rfl
  | .arr xs => by simp only [Val.canon, Val.depth, Val.depthList_canon xs]
  | .map ms => by simp only [Val.canon, Val.depth, Val.depthEntries_canon ms]
theorem Val.depthList_canon : ∀ xs : List Val, Val.depthList (Val.canonList xs) = Val.depthList xs
  | [] => rfl
  | x :: xs => by simp only [Val.canonList, Val.depthList, Val.depth_canon x, Val.depthList_canon xs]
theorem Val.depthEntries_canon : ∀ ms : List (Bytes × Val), Val.depthEntries (Val.canonEntries ms) = Val.depthEntries ms
  | [] => rfl
  | (k, v) :: ms => by simp only [Val.canonEntries, Val.depthEntries, Val.depth_canon v, Val.depthEntries_canon ms]
end

theorem Val.depth_same {v w : Val} (h : v.Same w) : v.depth = w.depth := by
  rw [← Val.depth_canon v, ← Val.depth_canon w, show v.canon = w.canon from h]

theorem Val.Same.toNat {i : Int64} (h : 0 ≤ i.toInt) : i.toUInt64.toNat = i.toInt.toNat := by
  have := Int64.toNat_toUInt64_of_le (x := i) (Int64.le_iff_toInt_le.2 (by simpa using h))
  rw [this]; rfl

namespace Zera

mutual
theorem costs_canon : ∀ v : Val, envCost v.canon = envCost v ∧ (v.canon.ShortKeys ↔ v.ShortKeys) ∧ ∀ a, arenaAfter 12 a v.canon = arenaAfter 12 a v
  | .null | .bool _ | .uint _ | .dbl _ | .str _ | .blob _ => ⟨rfl, Iff.rfl, fun _ => rfl⟩
  | .int i => by simp only [Val.canon]; split <;> exact ⟨rfl, Iff.rfl, fun _ => rfl⟩
  | .arr xs => by
    obtain ⟨h1, h2, h3⟩ := costsList_canon xs
    have : (Val.canonList xs).length = xs.length := by simp [Val.canonList_eq]
    exact ⟨by simp only [Val.canon, envCost, h1, this], by simp only [Val.canon, Val.ShortKeys, h2], fun a => by simp only [Val.canon, arenaAfter, h3]⟩
  | .map ms => by
    obtain ⟨h1, h2, h3, h4⟩ := costsEntries_canon ms
    exact ⟨by simp only [Val.canon, envCost, h1, h4], by simp only [Val.canon, Val.ShortKeys, h2], fun a => by simp only [Val.canon, arenaAfter, h3]⟩
theorem costsList_canon : ∀ xs : List Val, envCostList (Val.canonList xs) = envCostList xs ∧
    (Val.shortKeysList (Val.canonList xs) ↔ Val.shortKeysList xs) ∧ ∀ a, arenaAfterList 12 a (Val.canonList xs) = arenaAfterList 12 a xs
  | [] => ⟨rfl, Iff.rfl, fun _ => rfl⟩
  | x :: xs => by
    obtain ⟨h1, h2, h3⟩ := costs_canon x
    obtain ⟨j1, j2, j3⟩ := costsList_canon xs
    exact ⟨by simp only [Val.canonList, envCostList, h1, j1], by simp only [Val.canonList, Val.shortKeysList, h2, j2],
      fun a => by simp only [Val.canonList, arenaAfterList, h3, j3]⟩
theorem costsEntries_canon : ∀ ms : List (Bytes × Val), envCostEntries (Val.canonEntries ms) = envCostEntries ms ∧
    (Val.shortKeysEntries (Val.canonEntries ms) ↔ Val.shortKeysEntries ms) ∧
    (∀ a, arenaAfterEntries 12 a (Val.canonEntries ms) = arenaAfterEntries 12 a ms) ∧ entriesLen (Val.canonEntries ms) = entriesLen ms
  | [] => ⟨rfl, Iff.rfl, fun _ => rfl, rfl⟩
  | (k, x) :: ms => by
    obtain ⟨h1, h2, h3⟩ := costs_canon x
    obtain ⟨j1, j2, j3, j4⟩ := costsEntries_canon ms
    exact ⟨by simp only [Val.canonEntries, envCostEntries, h1, j1], by simp only [Val.canonEntries, Val.shortKeysEntries, h2, j2],
      fun a => by simp only [Val.canonEntries, arenaAfterEntries, h3, j3], by simp only [Val.canonEntries, entriesLen, j4]⟩
end

theorem serialize_ok_iff (v : Val) : (∃ b, proto.serialize v = .ok b) ↔
    v.ShortKeys ∧ alignUp (20 + (16 + envCost v)) 16 ≤ u32max ∧ arenaAfter 12 0 v ≤ u32max :=
  serializeEvs_emit_ok_iff (thr := 12) (Nat.le_refl _) v

/-- Whether ZERA writes a value does not depend on the signedness of integers. -/
theorem serialize_ok_same {v w : Val} (h : v.Same w) : (∃ b, proto.serialize v = .ok b) ↔ ∃ b, proto.serialize w = .ok b := by
  obtain ⟨h1, h2, h3⟩ := costs_canon v
  obtain ⟨j1, j2, j3⟩ := costs_canon w
  rw [show v.canon = w.canon from h] at h1 h2 h3
  rw [serialize_ok_iff, serialize_ok_iff, ← h1, ← h2, ← h3, j1, j2, j3]

end Zera

namespace MsgPack

theorem packInt_nonneg {i : Int64} (h : 0 ≤ i.toInt) : packUInt i.toUInt64.toNat = packInt i.toInt := by
  rw [Val.Same.toNat h, packInt, if_neg (by omega), if_neg (by omega)]

mutual
theorem pack_canon : ∀ v : Val, pack (emit v.canon) = pack (emit v)
  | .null | .bool _ | .uint _ | .dbl _ | .str _ | .blob _ => rfl
  | .int i => by
    simp only [Val.canon]; split
    · simp only [emit, pack, List.map_cons, List.map_nil, packEv, packInt_nonneg ‹_›]
    · rfl
  | .arr xs => by
    have : (Val.canonList xs).length = xs.length := by simp [Val.canonList_eq]
    have h := packList_canon xs
    simp only [Val.canon, emit, this]
    rw [← List.singleton_append, pack_append, pack_append, h, ← pack_append, ← pack_append]; rfl
  | .map ms => by
    have : (Val.canonEntries ms).length = ms.length := by simp [Val.canonEntries_eq]
    have h := packEntries_canon ms
    simp only [Val.canon, emit, this]
    rw [← List.singleton_append, pack_append, pack_append, h, ← pack_append, ← pack_append]; rfl
theorem packList_canon : ∀ xs : List Val, pack (emitList (Val.canonList xs)) = pack (emitList xs)
  | [] => rfl
  | x :: xs => by simp only [Val.canonList, emitList, pack_append, pack_canon x, packList_canon xs]
theorem packEntries_canon : ∀ ms : List (Bytes × Val), pack (emitEntries (Val.canonEntries ms)) = pack (emitEntries ms)
  | [] => rfl
  | (k, v) :: ms => by
    simp only [Val.canonEntries, emitEntries]
    rw [← List.singleton_append, pack_append, pack_append, pack_canon v, packEntries_canon ms, ← pack_append, ← pack_append]; rfl
end

/-- The bytes of MessagePack do not tell signed integers from unsigned ones. -/
theorem blind : proto.Blind := by
  intro v w h
  rw [serialize_eq, serialize_eq, ← pack_canon v, ← pack_canon w, show v.canon = w.canon from h]

end MsgPack

namespace Json

theorem writeInt_nonneg {i : Int64} (h : 0 ≤ i.toInt) : writeInt i.toUInt64.toNat = writeInt i.toInt := by
  rw [Val.Same.toNat h, Int.toNat_of_nonneg h]

mutual
theorem printVal_canon (fmt : UInt64 → Bytes) (dbg : Bool) : ∀ v : Val,
    keysB dbg v.canon = keysB dbg v ∧ printVal fmt (domC v.canon) = printVal fmt (domC v)
  | .null | .bool _ | .uint _ | .dbl _ | .str _ | .blob _ => ⟨rfl, rfl⟩
  | .int i => by
    simp only [Val.canon]; split
    · exact ⟨rfl, by simp only [domC, printVal, writeInt_nonneg ‹_›]⟩
    · exact ⟨rfl, rfl⟩
  | .arr xs => by
    obtain ⟨h1, h2⟩ := printList_canon fmt dbg xs
    exact ⟨by simp only [Val.canon, keysB, h1], by simp only [Val.canon, domC, printVal, h2]⟩
  | .map ms => by
    obtain ⟨h1, h2⟩ := printEntries_canon fmt dbg ms
    exact ⟨by simp only [Val.canon, keysB, h1], by simp only [Val.canon, domC, printVal, h2]⟩
theorem printList_canon (fmt : UInt64 → Bytes) (dbg : Bool) : ∀ xs : List Val,
    keysBList dbg (Val.canonList xs) = keysBList dbg xs ∧ printList fmt (domCList (Val.canonList xs)) = printList fmt (domCList xs)
  | [] => ⟨rfl, rfl⟩
  | x :: xs => by
    obtain ⟨h1, h2⟩ := printVal_canon fmt dbg x
    obtain ⟨j1, j2⟩ := printList_canon fmt dbg xs
    have e : (domCList (Val.canonList xs)).isEmpty = (domCList xs).isEmpty := by cases xs <;> rfl
    exact ⟨by simp only [Val.canonList, keysBList, h1, j1], by simp only [Val.canonList, domCList, printList, h2, j2, e]⟩
theorem printEntries_canon (fmt : UInt64 → Bytes) (dbg : Bool) : ∀ ms : List (Bytes × Val),
    keysBEntries dbg (Val.canonEntries ms) = keysBEntries dbg ms ∧
    printEntries fmt (domCEntries (Val.canonEntries ms)) = printEntries fmt (domCEntries ms)
  | [] => ⟨rfl, rfl⟩
  | (k, v) :: ms => by
    obtain ⟨h1, h2⟩ := printVal_canon fmt dbg v
    obtain ⟨j1, j2⟩ := printEntries_canon fmt dbg ms
    have e : (domCEntries (Val.canonEntries ms)).isEmpty = (domCEntries ms).isEmpty := by
      cases ms with
      | nil => rfl
      | cons m ms => cases m; rfl
    exact ⟨by simp only [Val.canonEntries, keysBEntries, h1, j1], by simp only [Val.canonEntries, domCEntries, printEntries, h2, j2, e]⟩
end

/-- The texts of JSON do not tell signed integers from unsigned ones. -/
theorem blind (fmt : UInt64 → Bytes) (dbg : Bool) : (proto (std fmt) dbg).Blind := by
  intro v w h
  obtain ⟨h1, h2⟩ := printVal_canon fmt dbg v
  obtain ⟨j1, j2⟩ := printVal_canon fmt dbg w
  rw [show v.canon = w.canon from h] at h1 h2
  rw [serialize_eq, serialize_eq]
  show (if keysB dbg v then (match printVal fmt (domC v) with | some b => Res.ok b | none => .err .runtime) else .err .logic) =
    (if keysB dbg w then (match printVal fmt (domC w) with | some b => Res.ok b | none => .err .runtime) else .err .logic)
  rw [← h1, ← h2, j1, j2]

end Json

theorem Cbor.blind {utf8 : Bytes → Bool} {maxDepth fuel : Nat} (hard : Bool) : (Cbor.proto utf8 maxDepth hard fuel).Blind :=
  fun h => Cbor.c12_cbor_same h

end Zer
