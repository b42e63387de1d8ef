import Verif.Props.Shortest
import Verif.Props.Look
import Verif.Cost.MsgPackEnc
import Verif.Props.JsonText
import Verif.Props.Base64

/-!
# C97: messages are proportional to what they hold

What a value holds is measured without reference to any format: the number of values and keys in it (`Val.items`), the
bytes of its strings and blobs, the bytes of its keys.
-/

namespace Zer

mutual
/-- The bytes of strings and blobs. -/
def Val.texts : Val → Nat
  | .str s => s.length
  | .blob s => s.length
  | .arr xs => textsList xs
  | .map ms => textsEntries ms
  | _ => 0
def Val.textsList : List Val → Nat
  | [] => 0
  | x :: xs => x.texts + textsList xs
def Val.textsEntries : List (Bytes × Val) → Nat
  | [] => 0
  | (_, v) :: ms => v.texts + textsEntries ms
end

mutual
/-- The bytes of keys. -/
def Val.keyBytes : Val → Nat
  | .arr xs => keyBytesList xs
  | .map ms => keyBytesEntries ms
  | _ => 0
def Val.keyBytesList : List Val → Nat
  | [] => 0
  | x :: xs => x.keyBytes + keyBytesList xs
def Val.keyBytesEntries : List (Bytes × Val) → Nat
  | [] => 0
  | (k, v) :: ms => k.length + v.keyBytes + keyBytesEntries ms
end

mutual
/-- The keys, in order, each as often as it occurs. -/
def Val.allKeys : Val → List Bytes
  | .arr xs => allKeysList xs
  | .map ms => allKeysEntries ms
  | _ => []
def Val.allKeysList : List Val → List Bytes
  | [] => []
  | x :: xs => x.allKeys ++ allKeysList xs
def Val.allKeysEntries : List (Bytes × Val) → List Bytes
  | [] => []
  | (k, v) :: ms => k :: (v.allKeys ++ allKeysEntries ms)
end

/-- Three values and two keys, three bytes of text, two bytes of keys. -/
example : (Val.map [([97], .str [1, 2, 3]), ([98], .null)]).items = 5 ∧ (Val.map [([97], .str [1, 2, 3]), ([98], .null)]).texts = 3 ∧
    (Val.map [([97], .str [1, 2, 3]), ([98], .null)]).keyBytes = 2 := by decide

theorem Val.items_pos (v : Val) : 1 ≤ v.items := by
  cases v <;> simp only [Val.items] <;> omega

/-! ## MessagePack -/

namespace MsgPack

theorem packUInt_size (n : Nat) : 1 ≤ (packUInt n).length ∧ (packUInt n).length ≤ 9 := by
  unfold packUInt
  repeat' split
  all_goals simp [beBytes]

theorem packInt_size (n : Int) : 1 ≤ (packInt n).length ∧ (packInt n).length ≤ 9 := by
  unfold packInt
  repeat' split
  all_goals first
    | exact packUInt_size _
    | simp [beBytes]

theorem packStrHead_size (n : Nat) : 1 ≤ (packStrHead n).length ∧ (packStrHead n).length ≤ 5 := by
  unfold packStrHead
  repeat' split
  all_goals simp [beBytes]

theorem packBinHead_size (n : Nat) : 1 ≤ (packBinHead n).length ∧ (packBinHead n).length ≤ 5 := by
  unfold packBinHead
  repeat' split
  all_goals simp [beBytes]

theorem packArrHead_size (n : Nat) : 1 ≤ (packArrHead n).length ∧ (packArrHead n).length ≤ 5 := by
  unfold packArrHead
  repeat' split
  all_goals simp [beBytes]

theorem packMapHead_size (n : Nat) : 1 ≤ (packMapHead n).length ∧ (packMapHead n).length ≤ 5 := by
  unfold packMapHead
  repeat' split
  all_goals simp [beBytes]

theorem pack_cons (e : Ev) (es : List Ev) : (pack (e :: es)).length = (packEv e).length + (pack es).length := by
  simp [pack]

theorem pack_one (e : Ev) : (pack [e]).length = (packEv e).length := by
  simp [pack]

mutual
theorem pack_size : ∀ v : Val, v.items + v.texts + v.keyBytes ≤ (pack (emit v)).length ∧
    (pack (emit v)).length ≤ 9 * v.items + v.texts + v.keyBytes
  | .null => by decide
  | .bool b => by cases b <;> decide
  | .int i => by
    have := packInt_size i.toInt
    simp only [emit, pack_one, packEv, Val.items, Val.texts, Val.keyBytes]
    omega
  | .uint n => by
    have := packUInt_size n.toNat
    simp only [emit, pack_one, packEv, Val.items, Val.texts, Val.keyBytes]
    omega
  | .dbl d => by
    simp [emit, pack_cons, packEv, pack, Val.items, Val.texts, Val.keyBytes, beBytes]
  | .str s => by
    have := packStrHead_size s.length
    simp only [emit, pack_one, packEv, Val.items, Val.texts, Val.keyBytes, List.length_append]
    omega
  | .blob s => by
    have := packBinHead_size s.length
    simp only [emit, pack_one, packEv, Val.items, Val.texts, Val.keyBytes, List.length_append]
    omega
  | .arr xs => by
    have := packArrHead_size xs.length
    have h := packList_size xs
    simp only [emit, pack_cons, packEv, pack_append, List.length_append, Val.items, Val.texts, Val.keyBytes]
    simp only [pack, List.map_nil, List.flatten_nil, List.length_nil] at h ⊢
    omega
  | .map ms => by
    have := packMapHead_size ms.length
    have h := packEntries_size ms
    simp only [emit, pack_cons, packEv, pack_append, List.length_append, Val.items, Val.texts, Val.keyBytes]
    simp only [pack, List.map_nil, List.flatten_nil, List.length_nil] at h ⊢
    omega
theorem packList_size : ∀ xs : List Val, Val.itemsList xs + Val.textsList xs + Val.keyBytesList xs ≤ (pack (emitList xs)).length ∧
    (pack (emitList xs)).length ≤ 9 * Val.itemsList xs + Val.textsList xs + Val.keyBytesList xs
  | [] => by decide
  | x :: xs => by
    have h1 := pack_size x
    have h2 := packList_size xs
    simp only [emitList, pack_append, List.length_append, Val.itemsList, Val.textsList, Val.keyBytesList]
    omega
theorem packEntries_size : ∀ ms : List (Bytes × Val),
    Val.itemsEntries ms + Val.textsEntries ms + Val.keyBytesEntries ms ≤ (pack (emitEntries ms)).length ∧
    (pack (emitEntries ms)).length ≤ 9 * Val.itemsEntries ms + Val.textsEntries ms + Val.keyBytesEntries ms
  | [] => by decide
  | (k, v) :: ms => by
    have h1 := pack_size v
    have h2 := packEntries_size ms
    have h3 := packStrHead_size k.length
    simp only [emitEntries, pack_cons, packEv, pack_append, List.length_append, Val.itemsEntries, Val.textsEntries, Val.keyBytesEntries]
    omega
end

/-- C97 for MessagePack, every value: the bytes of what it holds and one to nine more for every value and key. -/
theorem c97_msgpack {v : Val} {b : Bytes} (h : proto.serialize v = .ok b) :
    v.items + v.texts + v.keyBytes ≤ b.length ∧ b.length ≤ 9 * v.items + v.texts + v.keyBytes := by
  rw [serialize_eq] at h
  injection h with h; subst h
  exact pack_size v

end MsgPack

/-! ## CBOR -/

namespace Cbor

theorem headBytes_size (m n : Nat) : 1 ≤ (headBytes m n).length ∧ (headBytes m n).length ≤ 9 := by
  rw [headBytes_length]
  repeat' split
  all_goals omega

theorem dblBytes_size (d : UInt64) : 1 ≤ (dblBytes d).length ∧ (dblBytes d).length ≤ 9 := by
  unfold dblBytes
  split <;> simp [beBytes]

mutual
theorem encB_size : ∀ v : Val, v.items + v.texts + v.keyBytes ≤ (encB v).length ∧
    (encB v).length ≤ 9 * v.items + v.texts + v.keyBytes
  | .null => by decide
  | .bool b => by cases b <;> decide
  | .int i => by
    simp only [encB, intBytes, Val.items, Val.texts, Val.keyBytes]
    split
    · have := headBytes_size 0 i.toInt.toNat; omega
    · have := headBytes_size 1 (-1 - i.toInt).toNat; omega
  | .uint n => by
    have := headBytes_size 0 n.toNat
    simp only [encB, Val.items, Val.texts, Val.keyBytes]; omega
  | .dbl d => by
    have := dblBytes_size d
    simp only [encB, Val.items, Val.texts, Val.keyBytes]; omega
  | .str s => by
    have := headBytes_size 3 s.length
    simp only [encB, List.length_append, Val.items, Val.texts, Val.keyBytes]; omega
  | .blob s => by
    have := headBytes_size 2 s.length
    simp only [encB, List.length_append, Val.items, Val.texts, Val.keyBytes]; omega
  | .arr xs => by
    have := headBytes_size 4 xs.length
    have h := encL_size xs
    simp only [encB, List.length_append, Val.items, Val.texts, Val.keyBytes]; omega
  | .map ms => by
    have := headBytes_size 5 ms.length
    have h := encE_size ms
    simp only [encB, List.length_append, Val.items, Val.texts, Val.keyBytes]; omega
theorem encL_size : ∀ xs : List Val, Val.itemsList xs + Val.textsList xs + Val.keyBytesList xs ≤ (encL xs).flatten.length ∧
    (encL xs).flatten.length ≤ 9 * Val.itemsList xs + Val.textsList xs + Val.keyBytesList xs
  | [] => by decide
  | x :: xs => by
    have h1 := encB_size x
    have h2 := encL_size xs
    simp only [encL, List.flatten_cons, List.length_append, Val.itemsList, Val.textsList, Val.keyBytesList]
    omega
theorem encE_size : ∀ ms : List (Bytes × Val),
    Val.itemsEntries ms + Val.textsEntries ms + Val.keyBytesEntries ms ≤ (encE ms).flatten.length ∧
    (encE ms).flatten.length ≤ 9 * Val.itemsEntries ms + Val.textsEntries ms + Val.keyBytesEntries ms
  | [] => by decide
  | (k, v) :: ms => by
    have h1 := encB_size v
    have h2 := encE_size ms
    have h3 := headBytes_size 3 k.length
    simp only [encE, List.flatten_cons, List.length_append, Val.itemsEntries, Val.textsEntries, Val.keyBytesEntries]
    omega
end

/-- C97 for CBOR, every value that can be written: the bytes of what it holds and one to nine more for every value and key. -/
theorem c97_cbor {utf8 : Bytes → Bool} {maxDepth fuel : Nat} {hard : Bool} {v : Val} {b : Bytes}
    (h : (proto utf8 maxDepth hard fuel).serialize v = .ok b) :
    v.items + v.texts + v.keyBytes ≤ b.length ∧ b.length ≤ 9 * v.items + v.texts + v.keyBytes := by
  obtain ⟨rfl, _⟩ := serialize_ok h
  exact encB_size v

end Cbor

/-! ## ZERA -/

namespace Zera

mutual
theorem env_size (thr : Nat) : ∀ (v : Val) (a : Nat),
    a + 4 * v.items + v.texts + v.keyBytes ≤ 16 + envCost v + arenaAfter thr a v ∧
    envCost v + arenaAfter thr a v + 16 ≤ a + 43 * v.items + v.texts + v.keyBytes
  | .null, a | .bool _, a | .int _, a | .uint _, a | .dbl _, a => by
    simp only [Val.items, Val.texts, Val.keyBytes, envCost, arenaAfter]; omega
  | .str s, a => by
    simp only [Val.items, Val.texts, Val.keyBytes, envCost, arenaAfter]
    split
    · rename_i h; have : min thr 12 ≤ 12 := Nat.min_le_right _ _; omega
    · omega
  | .blob s, a => by
    have h1 := alignUp_ge a 16
    have h2 := alignUp_lt a (a := 16) (by decide)
    simp only [Val.items, Val.texts, Val.keyBytes, envCost, arenaAfter]; omega
  | .arr xs, a => by
    have h := envList_size thr xs a
    simp only [Val.items, Val.texts, Val.keyBytes, envCost, arenaAfter]; omega
  | .map ms, a => by
    have h := envEntries_size thr ms a
    simp only [Val.items, Val.texts, Val.keyBytes, envCost, arenaAfter]; omega
theorem envList_size (thr : Nat) : ∀ (xs : List Val) (a : Nat),
    a + 4 * Val.itemsList xs + Val.textsList xs + Val.keyBytesList xs ≤ envCostList xs + 16 * xs.length + arenaAfterList thr a xs ∧
    envCostList xs + arenaAfterList thr a xs + 16 * xs.length ≤ a + 43 * Val.itemsList xs + Val.textsList xs + Val.keyBytesList xs
  | [], a => by simp [Val.itemsList, Val.textsList, Val.keyBytesList, envCostList, arenaAfterList]
  | x :: xs, a => by
    have h1 := env_size thr x a
    have h2 := envList_size thr xs (arenaAfter thr a x)
    simp only [Val.itemsList, Val.textsList, Val.keyBytesList, envCostList, arenaAfterList, List.length_cons]; omega
theorem envEntries_size (thr : Nat) : ∀ (ms : List (Bytes × Val)) (a : Nat),
    a + 4 * Val.itemsEntries ms + Val.textsEntries ms + Val.keyBytesEntries ms ≤
      envCostEntries ms + entriesLen ms + arenaAfterEntries thr a ms ∧
    envCostEntries ms + arenaAfterEntries thr a ms + entriesLen ms ≤
      a + 43 * Val.itemsEntries ms + Val.textsEntries ms + Val.keyBytesEntries ms
  | [], a => by simp [Val.itemsEntries, Val.textsEntries, Val.keyBytesEntries, envCostEntries, arenaAfterEntries, entriesLen]
  | (k, v) :: ms, a => by
    have h1 := env_size thr v a
    have h2 := envEntries_size thr ms (arenaAfter thr a v)
    simp only [Val.itemsEntries, Val.textsEntries, Val.keyBytesEntries, envCostEntries, arenaAfterEntries, entriesLen]; omega
end

/-- C97 for ZERA, every value that can be written, every inline threshold: the bytes of what it holds, at least four more for every
value and key and twenty for the header, at most 43 more for every value and key and 35. -/
theorem c97_zera {thr : Nat} (hthr : thr ≤ 12) {v : Val} {b : Bytes} (h : serializeEvs thr (emit v) = .ok b) :
    20 + 4 * v.items + v.texts + v.keyBytes ≤ b.length ∧ b.length ≤ 35 + 43 * v.items + v.texts + v.keyBytes := by
  have h1 := c08_zera_length hthr h
  have h2 := env_size thr v 0
  have h3 := alignUp_ge (36 + envCost v) 16
  have h4 := alignUp_lt (36 + envCost v) (a := 16) (by decide)
  omega

end Zera

/-! ## JSON -/

namespace Json

theorem escByte_size (a : UInt8) : 1 ≤ (escByte a).length ∧ (escByte a).length ≤ 6 := by
  unfold escByte
  repeat' split
  all_goals simp

theorem writeStr_size (s : Bytes) : s.length + 2 ≤ (writeStr s).length ∧ (writeStr s).length ≤ 6 * s.length + 2 := by
  have h : s.length ≤ (s.flatMap escByte).length ∧ (s.flatMap escByte).length ≤ 6 * s.length := by
    induction s with
    | nil => simp
    | cons a s ih =>
      have := escByte_size a
      simp only [List.flatMap_cons, List.length_append, List.length_cons]
      omega
  simp only [writeStr, List.length_cons, List.length_append, List.length_nil]
  omega

theorem digitsFuel_size : ∀ (f n k : Nat), n < 10 ^ k → 0 < k → (digitsFuel f n).length ≤ k
  | 0, n, k, _, _ => by simp [digitsFuel]
  | f + 1, n, k, h, hk => by
    unfold digitsFuel
    split
    · simp; omega
    · obtain ⟨k, rfl⟩ : ∃ j, k = j + 1 := ⟨k - 1, by omega⟩
      have h' : n / 10 < 10 ^ k := by rw [Nat.pow_succ] at h; omega
      have hk' : 0 < k := by
        rcases Nat.eq_zero_or_pos k with rfl | h0
        · simp at h; omega
        · exact h0
      have := digitsFuel_size f (n / 10) k h' hk'
      simp; omega

theorem writeInt_size {i : Int} (h1 : -(2 ^ 63) ≤ i) (h2 : i < 2 ^ 64) : 1 ≤ (writeInt i).length ∧ (writeInt i).length ≤ 20 := by
  have hne := (decDigits_spec i.natAbs).2.2.1
  have hpos : 1 ≤ (decDigits i.natAbs).length := by
    cases h : decDigits i.natAbs with
    | nil => exact absurd h hne
    | cons _ _ => simp
  have hd : (digs (decDigits i.natAbs)).length = (decDigits i.natAbs).length := by simp [digs]
  have e : (writeInt i).length = (if decide (i < 0) then 1 else 0) + (decDigits i.natAbs).length := by
    simp only [writeInt, intDec, Dec.text, List.length_append, hd]
    cases decide (i < 0) <;> simp [fracText, expText]
  rw [e]
  by_cases hn : i < 0
  · have := digitsFuel_size (Nat.log2 i.natAbs + 1) i.natAbs 19 (by omega) (by omega)
    simp only [decide_eq_true hn, if_true]
    unfold decDigits at hpos ⊢
    omega
  · have := digitsFuel_size (Nat.log2 i.natAbs + 1) i.natAbs 20 (by omega) (by omega)
    simp only [decide_eq_false hn, Bool.false_eq_true, if_false]
    unfold decDigits at hpos ⊢
    omega

theorem esc_letter : ∀ d < 64, escByte (Base64.letter d) = [Base64.letter d] := by decide

theorem writeStr_base64 (s : Bytes) : (writeStr (Base64.encode s)).length = 4 * ((s.length + 2) / 3) + 2 := by
  obtain ⟨h1, body, k, h2, -, h3⟩ := Base64.c14_base64_shape s
  have e : (Base64.encode s).flatMap escByte = Base64.encode s := by
    have hall : ∀ c ∈ Base64.encode s, escByte c = [c] := by
      intro c hc
      rw [h2, List.mem_append] at hc
      rcases hc with hc | hc
      · obtain ⟨d, hd, rfl⟩ := h3 c hc
        exact esc_letter d hd
      · rw [(List.mem_replicate.mp hc).2]; decide
    generalize Base64.encode s = l at hall
    induction l with
    | nil => rfl
    | cons a l ih =>
      rw [List.flatMap_cons, hall a (by simp), ih (fun c hc => hall c (by simp [hc]))]; rfl
  simp only [writeStr, e, List.length_cons, List.length_append, List.length_nil, h1]

theorem cstr_length_le (k : Bytes) : (cstr k).length ≤ k.length := (List.takeWhile_sublist _).length_le

theorem keyB_cstr {k : Bytes} (h : keyB true k = true) : cstr k = k := by
  refine cstr_ok ?_
  have := of_decide_eq_true h
  exact fun hk => this.2 ⟨rfl, hk⟩

variable {fmt : UInt64 → Bytes} {D : Nat}

mutual
theorem print_size (hf : ∀ d, finiteBits d = true → 1 ≤ (fmt d).length) (hD : ∀ d, finiteBits d = true → (fmt d).length ≤ D)
    (h20 : 20 ≤ D) : ∀ {v : Val} {b : Bytes}, printVal fmt (domC v) = some b →
    v.items + v.texts ≤ b.length ∧ (keysB true v = true → v.items + v.texts + v.keyBytes ≤ b.length) ∧
    b.length + 1 ≤ (D + 1) * v.items + 6 * v.texts + 6 * v.keyBytes
  | .null, b, h => by
    simp only [domC, printVal, Option.some.injEq] at h; subst h
    simp [Val.items, Val.texts, Val.keyBytes]; omega
  | .bool true, b, h | .bool false, b, h => by
    simp only [domC, printVal, Option.some.injEq] at h; subst h
    simp [Val.items, Val.texts, Val.keyBytes]; omega
  | .int i, b, h => by
    simp only [domC, printVal, Option.some.injEq] at h; subst h
    have h1 := i.le_toInt
    have h2 := i.toInt_lt
    have := writeInt_size (i := i.toInt) (by omega) (by omega)
    simp only [Val.items, Val.texts, Val.keyBytes]; omega
  | .uint n, b, h => by
    simp only [domC, printVal, Option.some.injEq] at h; subst h
    have h2 := n.toNat_lt
    have := writeInt_size (i := n.toNat) (by omega) (by omega)
    simp only [Val.items, Val.texts, Val.keyBytes]; omega
  | .dbl d, b, h => by
    simp only [domC, printVal] at h
    split at h
    · rename_i hd
      simp only [Option.some.injEq] at h; subst h
      have := hf d hd
      have := hD d hd
      simp only [Val.items, Val.texts, Val.keyBytes]; omega
    · exact absurd h (by simp)
  | .str s, b, h => by
    simp only [domC, printVal] at h
    split at h
    · simp only [Option.some.injEq] at h; subst h
      have := writeStr_size s
      simp only [Val.items, Val.texts, Val.keyBytes]; omega
    · exact absurd h (by simp)
  | .blob s, b, h => by
    have hl : b.length = 18 + 4 * ((s.length + 2) / 3) := by
      have e1 : isUtf8 blobTag = true := by decide
      have e2 : isUtf8 blobEncoding = true := by decide
      have e3 : (writeStr blobTag).length = 4 := by decide
      have e4 : (writeStr blobEncoding).length = 8 := by decide
      have e5 := writeStr_base64 s
      simp only [domC, printVal, printList, e1, e2, if_true] at h
      by_cases hu : isUtf8 (Base64.encode s) = true
      · simp only [hu, if_true, Option.map_some, Option.some.injEq] at h
        subst h
        simp only [List.length_cons, List.length_append, List.length_nil, List.isEmpty_cons, List.isEmpty_nil, Bool.false_eq_true,
          if_false, if_true, e3, e4, e5]
        omega
      · simp [hu] at h
    simp only [Val.items, Val.texts, Val.keyBytes]; omega
  | .arr xs, b, h => by
    simp only [domC, printVal, Option.map_eq_some_iff] at h
    obtain ⟨c, hc, rfl⟩ := h
    have ih := printList_size hf hD h20 hc
    simp only [Val.items, Val.texts, Val.keyBytes, keysB, Nat.mul_add, List.length_cons, List.length_append, List.length_nil] at ih ⊢
    refine ⟨by omega, fun hk => ?_, by omega⟩
    have := ih.2.1 hk
    omega
  | .map ms, b, h => by
    simp only [domC, printVal, Option.map_eq_some_iff] at h
    obtain ⟨c, hc, rfl⟩ := h
    have ih := printEntries_size hf hD h20 hc
    simp only [Val.items, Val.texts, Val.keyBytes, keysB, Nat.mul_add, List.length_cons, List.length_append, List.length_nil] at ih ⊢
    refine ⟨by omega, fun hk => ?_, by omega⟩
    have := ih.2.1 hk
    omega
theorem printList_size (hf : ∀ d, finiteBits d = true → 1 ≤ (fmt d).length) (hD : ∀ d, finiteBits d = true → (fmt d).length ≤ D)
    (h20 : 20 ≤ D) : ∀ {xs : List Val} {b : Bytes}, printList fmt (domCList xs) = some b →
    Val.itemsList xs + Val.textsList xs ≤ b.length ∧
    (keysBList true xs = true → Val.itemsList xs + Val.textsList xs + Val.keyBytesList xs ≤ b.length) ∧
    b.length ≤ (D + 1) * Val.itemsList xs + 6 * Val.textsList xs + 6 * Val.keyBytesList xs
  | [], b, h => by
    simp only [domCList, printList, Option.some.injEq] at h; subst h
    simp [Val.itemsList, Val.textsList, Val.keyBytesList]
  | x :: xs, b, h => by
    simp only [domCList, printList] at h
    split at h
    · rename_i b1 b2 hb1 hb2
      simp only [Option.some.injEq] at h; subst h
      have h1 := print_size hf hD h20 hb1
      have h2 := printList_size hf hD h20 hb2
      have h3 : (if (domCList xs).isEmpty then b2 else 0x2c :: b2).length ≤ b2.length + 1 ∧
          b2.length ≤ (if (domCList xs).isEmpty then b2 else 0x2c :: b2).length := by
        split <;> simp
      simp only [Val.itemsList, Val.textsList, Val.keyBytesList, keysBList, Nat.mul_add, List.length_append, Bool.and_eq_true] at h1 h2 h3 ⊢
      refine ⟨by omega, fun hk => ?_, by omega⟩
      have h4 := h1.2.1 hk.1
      have h5 := h2.2.1 hk.2
      omega
    · exact absurd h (by simp)
theorem printEntries_size (hf : ∀ d, finiteBits d = true → 1 ≤ (fmt d).length) (hD : ∀ d, finiteBits d = true → (fmt d).length ≤ D)
    (h20 : 20 ≤ D) : ∀ {ms : List (Bytes × Val)} {b : Bytes}, printEntries fmt (domCEntries ms) = some b →
    Val.itemsEntries ms + Val.textsEntries ms ≤ b.length ∧
    (keysBEntries true ms = true → Val.itemsEntries ms + Val.textsEntries ms + Val.keyBytesEntries ms ≤ b.length) ∧
    b.length ≤ (D + 1) * Val.itemsEntries ms + 6 * Val.textsEntries ms + 6 * Val.keyBytesEntries ms
  | [], b, h => by
    simp only [domCEntries, printEntries, Option.some.injEq] at h; subst h
    simp [Val.itemsEntries, Val.textsEntries, Val.keyBytesEntries]
  | (k, v) :: ms, b, h => by
    simp only [domCEntries, printEntries] at h
    split at h
    · split at h
      · rename_i b1 b2 hb1 hb2
        simp only [Option.some.injEq] at h; subst h
        have h1 := print_size hf hD h20 hb1
        have h2 := printEntries_size hf hD h20 hb2
        have h3 : (if (domCEntries ms).isEmpty then b2 else 0x2c :: b2).length ≤ b2.length + 1 ∧
            b2.length ≤ (if (domCEntries ms).isEmpty then b2 else 0x2c :: b2).length := by
          split <;> simp
        have h6 := writeStr_size (cstr k)
        have h7 := cstr_length_le k
        simp only [Val.itemsEntries, Val.textsEntries, Val.keyBytesEntries, keysBEntries, Nat.mul_add, List.length_append,
          List.length_cons, Bool.and_eq_true] at h1 h2 h3 ⊢
        refine ⟨by omega, fun hk => ?_, by omega⟩
        have h4 := h1.2.1 hk.1.2
        have h5 := h2.2.1 hk.2
        have h8 := keyB_cstr hk.1.1
        rw [h8] at h6 ⊢
        omega
      · exact absurd h (by simp)
    · exact absurd h (by simp)
end

theorem fmt_pos (hf : FmtOk fmt) (d : UInt64) (hd : finiteBits d = true) : 1 ≤ (fmt d).length := by
  obtain ⟨n, hn, ht, -⟩ := hf d hd
  have hne := hn.ne
  rw [← ht]
  cases hi : n.int with
  | nil => exact absurd hi hne
  | cons a l => simp [Dec.text, digs, hi]; omega

theorem keysB_of_ok : ∀ {v : Val}, KeysOk v → keysB true v = true := by
  intro v
  induction v using Val.ind with
  | arr xs ih =>
    intro h
    have h1 := h.arr
    simp only [keysB]
    clear h
    induction xs with
    | nil => rfl
    | cons x xs ihx =>
      simp only [keysBList, Bool.and_eq_true]
      exact ⟨ih x (by simp) (h1 x (by simp)), ihx (fun y hy => ih y (by simp [hy])) (fun y hy => h1 y (by simp [hy]))⟩
  | map ms ih =>
    intro h
    have h1 := h.map
    simp only [keysB]
    clear h
    induction ms with
    | nil => rfl
    | cons p ms ihm =>
      obtain ⟨k, v⟩ := p
      simp only [keysBEntries, Bool.and_eq_true]
      refine ⟨⟨?_, ih (k, v) (by simp) (h1 (k, v) (by simp)).2⟩, ihm (fun y hy => ih y (by simp [hy])) (fun y hy => h1 y (by simp [hy]))⟩
      have := (h1 (k, v) (by simp)).1
      exact decide_eq_true ⟨this.1, fun hh => this.2 hh.2⟩
  | _ => intro _; rfl

/-- C97 for JSON, every value that can be written, where the text of a double has at most `D` characters (24 in yyjson): at most six
bytes for every byte held and `D + 1` more for every value and key; at least a byte for every value, every key and every byte of
strings and blobs. Keys are cut at NUL in release builds: see `c97_json_keys`. -/
theorem c97_json (hf : FmtOk fmt) (hD : ∀ d, finiteBits d = true → (fmt d).length ≤ D) (h20 : 20 ≤ D) {dbg : Bool} {v : Val} {b : Bytes}
    (h : (proto (std fmt) dbg).serialize v = .ok b) :
    v.items + v.texts ≤ b.length ∧ b.length < (D + 1) * v.items + 6 * v.texts + 6 * v.keyBytes := by
  rw [serialize_eq] at h
  split at h
  · cases hp : printVal fmt (domC v) with
    | none => simp [std, hp] at h
    | some c =>
      simp only [std, hp, Res.ok.injEq] at h; subst h
      have := print_size (fmt_pos hf) hD h20 hp
      omega
  · exact absurd h (by simp)

/-- C97 for JSON: the bytes of keys are there too when no key holds a NUL. -/
theorem c97_json_keys (hf : FmtOk fmt) (hD : ∀ d, finiteBits d = true → (fmt d).length ≤ D) (h20 : 20 ≤ D) {dbg : Bool} {v : Val} {b : Bytes}
    (hk : KeysOk v) (h : (proto (std fmt) dbg).serialize v = .ok b) :
    v.items + v.texts + v.keyBytes ≤ b.length := by
  rw [serialize_eq] at h
  split at h
  · cases hp : printVal fmt (domC v) with
    | none => simp [std, hp] at h
    | some c =>
      simp only [std, hp, Res.ok.injEq] at h; subst h
      exact (print_size (fmt_pos hf) hD h20 hp).2.1 (keysB_of_ok hk)
  · exact absurd h (by simp)

theorem units_size : dblUnits (2047 * 2 ^ 52) * 5 ^ 1074 < 10 ^ 1384 := by decide +kernel

/-- The hypotheses are met: doubles written exactly take at most 1391 characters. -/
example : FmtOk (fun d => (exactDec d).text) ∧ (∀ d, finiteBits d = true → (exactDec d).text.length ≤ 1391) ∧
    KeysOk (.map [([0x61], .blob [1, 2]), ([0x62], .dbl 0x3ff8000000000000)]) := by
  refine ⟨exact_fmtOk, fun d hd => ?_, ?_⟩
  · have hm : mag d < 2047 * 2 ^ 52 := by
      have hd' := of_decide_eq_true hd
      have := d.toNat_lt
      unfold mag
      omega
    have h1 : (decDigits (dblUnits (mag d) * 5 ^ 1074)).length ≤ 1384 := by
      refine digitsFuel_size _ _ 1384 (Nat.lt_of_lt_of_le ?_ (Nat.le_of_lt units_size)) (by omega)
      exact Nat.mul_lt_mul_of_pos_right (dblUnits_lt hm) (Nat.pow_pos (by decide))
    have h2 : (digs (decDigits (dblUnits (mag d) * 5 ^ 1074))).length = (decDigits (dblUnits (mag d) * 5 ^ 1074)).length := by simp [digs]
    generalize hx : decDigits (dblUnits (mag d) * 5 ^ 1074) = l at *
    simp only [exactDec, Dec.text, hx, List.length_append, h2, fracText, expText]
    split <;> simp [digs, signText] <;> omega
  · simp [KeysOk, Val.Each, Val.eachEntries, KeyOk]

end Json

/-! ## Flex -/

namespace Flex

theorem weigh_size : ∀ v : Val, (weigh v + 9 ≤ 55 * v.items + v.texts + v.keyBytes) := by
  intro v
  induction v using Val.ind with
  | arr xs ih =>
    have : weighList xs + 9 * xs.length ≤ 55 * Val.itemsList xs + Val.textsList xs + Val.keyBytesList xs := by
      induction xs with
      | nil => simp [weighList, Val.itemsList, Val.textsList, Val.keyBytesList]
      | cons x xs ihx =>
        have h1 := ih x (by simp)
        have h2 := ihx (fun y hy => ih y (by simp [hy]))
        have h3 := x.items_pos
        simp only [weighList, Val.itemsList, Val.textsList, Val.keyBytesList, List.length_cons]
        omega
    simp only [weigh, Val.items, Val.texts, Val.keyBytes]
    omega
  | map ms ih =>
    have : weighEntries ms + 17 * ms.length ≤ 55 * Val.itemsEntries ms + Val.textsEntries ms + Val.keyBytesEntries ms := by
      induction ms with
      | nil => simp [weighEntries, Val.itemsEntries, Val.textsEntries, Val.keyBytesEntries]
      | cons x ms ihx =>
        obtain ⟨k, x⟩ := x
        have h1 := ih (k, x) (by simp)
        have h2 := ihx (fun y hy => ih y (by simp [hy]))
        simp only [weighEntries, Val.itemsEntries, Val.textsEntries, Val.keyBytesEntries, List.length_cons] at h1 ⊢
        omega
    simp only [weigh, Val.items, Val.texts, Val.keyBytes]
    omega
  | _ => simp only [weigh, Val.items, Val.texts, Val.keyBytes]; omega

mutual
/-- What a value takes in the buffer at least, without the place that refers to it. -/
def least : Val → Nat
  | .str s => s.length + 2
  | .blob s => s.length + 1
  | .arr xs => leastList xs + 2 * xs.length + 1
  | .map ms => leastEntries ms + 3 * ms.length + 4
  | _ => 0
def leastList : List Val → Nat
  | [] => 0
  | x :: xs => least x + leastList xs
def leastEntries : List (Bytes × Val) → Nat
  | [] => 0
  | (_, v) :: ms => least v + leastEntries ms
end

theorem leastList_append (xs ys : List Val) : leastList (xs ++ ys) = leastList xs + leastList ys := by
  induction xs with
  | nil => simp [leastList]
  | cons x xs ih => simp [leastList, ih, Nat.add_assoc]

theorem leastEntries_append (xs ys : List (Bytes × Val)) : leastEntries (xs ++ ys) = leastEntries xs + leastEntries ys := by
  induction xs with
  | nil => simp [leastEntries]
  | cons x xs ih => obtain ⟨k, v⟩ := x; simp [leastEntries, ih, Nat.add_assoc]

/-- What an open container has added to the buffer at least. -/
def frameLeast : Frame → Nat
  | .arr xs => leastList xs
  | .map ms _ => leastEntries ms

/-- What has been added to the buffer at least. -/
def treeLeast (root : Option Val) : List Frame → Nat
  | [] => root.elim 0 least
  | f :: fs => treeLeast root fs + frameLeast f

theorem deliver_least {t t' : Tree} {v : Val} (h : t.deliver v = some t') :
    treeLeast t'.root t'.stack = treeLeast t.root t.stack + least v := by
  obtain ⟨st, root⟩ := t
  match st, root, h with
  | [], none, h => simp only [Tree.deliver] at h; injection h with h; subst h; simp [treeLeast]
  | .arr xs :: st, root, h =>
    simp only [Tree.deliver] at h; injection h with h; subst h
    simp [treeLeast, frameLeast, leastList_append, leastList, Nat.add_assoc]
  | .map ms (some k) :: st, root, h =>
    simp only [Tree.deliver] at h; injection h with h; subst h
    simp only [treeLeast, frameLeast, leastEntries_append, leastEntries]
    omega

theorem createBlob_least (b : Bytes) (ty : Nat) (s tail : Bytes) :
    b.length + 1 + s.length + tail.length ≤ (createBlob b ty s tail).1.length := by
  simp only [createBlob, List.length_append, align_length, le_length]
  have := Nat.two_pow_pos (widthU s.length)
  omega

theorem Layout.least {b : Bytes} {vals : List BV} {len step : Nat} {typed : Bool} {keys : Option BV} {B : Bytes} {v : BV}
    (Y : Layout b vals len step typed keys B v) :
    b.length + prefixLen keys + vals.length + (if typed then 0 else vals.length) ≤ B.length := by
  have h1 := Y.pos
  have h2 := Y.total
  have h3 := Nat.two_pow_pos v.w
  have h4 := Nat.le_mul_of_pos_right (prefixLen keys) h3
  have h5 := Nat.le_mul_of_pos_right vals.length h3
  omega

theorem buildMap_least {N : Prop} (H : L.Law) {b : Bytes} {ps : List (BV × BV)} {es : List (Bytes × Doc)} {dbg : Bool}
    (h : All2 (PairOk N b) ps es) {c : Bytes × BV} (hc : buildMap L dbg b (unpairs ps) = .ok c) :
    b.length + 3 * ps.length + 4 ≤ c.1.length := by
  obtain ⟨ps', h1, h2⟩ := sortPairs_ok L h
  have hn : ps'.length = ps.length := by rw [h2.length, H.sort_length, h.length]
  unfold buildMap at hc
  rw [evens_unpairs, evens_any h, unpairs_length, pairs_unpairs, leftover_unpairs, h1] at hc
  rw [if_neg (by intro hc; rcases hc.2 with e | e
                 · omega
                 · cases e)] at hc
  simp only [Res.ok_bind, List.append_nil, evens_unpairs, odds_unpairs, Res.pure_eq, Res.ok.injEq] at hc
  have K := (createVector_layout b (ps'.map Prod.fst) ps'.length 2 true none).least
  generalize createVector b (ps'.map Prod.fst) ps'.length 2 true none = kv at K hc
  have Y := (createVector_layout kv.1 (ps'.map Prod.snd) ps'.length 2 false (some kv.2)).least
  rw [hc] at Y
  simp only [prefixLen, List.length_map, if_true, Bool.false_eq_true, if_false] at K Y
  omega

theorem step_least {N : Prop} (H : L.Law) {dbg : Bool} {t t' : Tree} {s s' : RS} {e : Ev} (hr : Rel N L t s) (h : t.step e = some t')
    (hs : step L dbg s e = .ok s') (hl : treeLeast t.root t.stack ≤ s.buf.length) : treeLeast t'.root t'.stack ≤ s'.buf.length := by
  cases e with
  | null | bool b | int i | uint n | dbl d =>
    have hd := deliver_least h
    injection hs with hs; subst hs
    rw [hd]
    exact hl
  | str b =>
    have hd := deliver_least h
    injection hs with hs; subst hs
    rw [hd]
    refine Nat.le_trans ?_ (createBlob_least s.buf 5 b [0])
    simp only [least, List.length_cons, List.length_nil]
    omega
  | blob b =>
    have hd := deliver_least h
    injection hs with hs; subst hs
    rw [hd]
    refine Nat.le_trans ?_ (createBlob_least s.buf 25 b [])
    simp only [least, List.length_nil]
    omega
  | key k =>
    obtain ⟨st, root⟩ := t
    match st, h with
    | .map ms none :: st, h =>
      simp only [Tree.step] at h; injection h with h; subst h
      obtain ⟨tail, ht⟩ := cstr_split k
      obtain ⟨c, u, pool, h1, ⟨suf, h2⟩, -, -, -⟩ := createKey_ok (N := N) (cstr_no_nul k) tail hr.pool
      simp only [step, keyBytes, ht, h1, Res.ok_bind, Res.pure_eq, Res.ok.injEq] at hs
      subst hs
      simp only [treeLeast, frameLeast, h2, List.length_append] at hl ⊢
      omega
  | beginArr n | beginMap n =>
    simp only [Tree.step] at h; injection h with h; subst h
    injection hs with hs; subst hs
    simpa [openC, treeLeast, frameLeast, leastList, leastEntries] using hl
  | endArr =>
    obtain ⟨st, root⟩ := t
    match st, h, hr with
    | .arr xs :: st, h, hr =>
      simp only [Tree.step] at h
      have e1 := hr.st
      have e2 := hr.stack
      simp only [ctxs, Frame.isObj] at e1
      simp only [stackDocs, frameDocs] at e2
      obtain ⟨-, g2⟩ := e2.split
      have Y := (createVector_layout s.buf (s.stack.drop (stackDocs L root st).length)
        (s.stack.drop (stackDocs L root st).length).length 1 false none).least
      have hn := g2.length
      simp only [toDocList_eq, List.length_map] at hn
      simp only [step, endArr, e1] at hs
      injection hs with hs; subst hs
      rw [deliver_least h]
      simp only [treeLeast, frameLeast, least, prefixLen, Bool.false_eq_true, if_false] at hl Y ⊢
      omega
  | endMap =>
    obtain ⟨st, root⟩ := t
    match st, h, hr with
    | .map ms none :: st, h, hr =>
      simp only [Tree.step] at h
      have e1 := hr.st
      have e2 := hr.stack
      simp only [ctxs, Frame.isObj] at e1
      simp only [stackDocs, frameDocs] at e2
      obtain ⟨-, g2⟩ := e2.split
      obtain ⟨ps, p1, p2⟩ := inter_good g2
      obtain ⟨c, c1, -⟩ := good_map L dbg p2
      have Y := buildMap_least H p2 c1
      have hn := p2.length
      simp only [toDocEntries_eq, List.length_map] at hn
      rw [← p1] at c1
      simp only [step, endMap, e1, c1, Res.ok_bind, Res.pure_eq, Res.ok.injEq] at hs
      subst hs
      rw [deliver_least h]
      simp only [treeLeast, frameLeast, least] at hl ⊢
      omega

theorem run_least {N : Prop} (H : L.Law) {dbg : Bool} : ∀ (es : List Ev) {t t' : Tree} {s s' : RS}, Rel N L t s → t.run es = some t' →
    (writer L dbg).run s es = .ok s' → treeLeast t.root t.stack ≤ s.buf.length → treeLeast t'.root t'.stack ≤ s'.buf.length
  | [], t, t', s, s', hr, h, hs, hl => by
    simp only [Tree.run] at h; injection h with h; subst h
    injection hs with hs; subst hs
    exact hl
  | e :: es, t, t', s, s', hr, h, hs, hl => by
    simp only [Tree.run, Option.bind_eq_bind, Option.bind_eq_some_iff] at h
    obtain ⟨t1, h1, h2⟩ := h
    obtain ⟨s1, hs1, hr1⟩ := step_rel H (dbg := dbg) hr h1
    simp only [Writer.run_cons] at hs
    rw [show (writer L dbg).step s e = .ok s1 from hs1] at hs
    exact run_least H es hr1 h2 hs (step_least H hr h1 hs1 hl)

theorem finishRoot_least (b : Bytes) (v : BV) : b.length + 3 ≤ (finishRoot b v).length := by
  have := Nat.two_pow_pos (v.elemWidth b.length 0)
  simp only [finishRoot, List.length_append, align_length, bytes_length, List.length_cons, List.length_nil]
  omega

theorem least_size : ∀ v : Val, v.items + v.texts ≤ least v + 1 := by
  intro v
  induction v using Val.ind with
  | arr xs ih =>
    have : Val.itemsList xs + Val.textsList xs ≤ leastList xs + xs.length := by
      induction xs with
      | nil => simp [leastList, Val.itemsList, Val.textsList]
      | cons x xs ihx =>
        have h1 := ih x (by simp)
        have h2 := ihx (fun y hy => ih y (by simp [hy]))
        simp only [leastList, Val.itemsList, Val.textsList, List.length_cons]
        omega
    simp only [least, Val.items, Val.texts]
    omega
  | map ms ih =>
    have : Val.itemsEntries ms + Val.textsEntries ms ≤ leastEntries ms + 2 * ms.length := by
      induction ms with
      | nil => simp [leastEntries, Val.itemsEntries, Val.textsEntries]
      | cons x ms ihx =>
        obtain ⟨k, x⟩ := x
        have h1 := ih (k, x) (by simp)
        have h2 := ihx (fun y hy => ih y (by simp [hy]))
        simp only [leastEntries, Val.itemsEntries, Val.textsEntries, List.length_cons] at h1 ⊢
        omega
    simp only [least, Val.items, Val.texts]
    omega
  | _ => simp only [least, Val.items, Val.texts]; omega

theorem bytesOf_least (H : L.Law) {dbg : Bool} {es : List Ev} {v : Val} {b : Bytes} (h : Tree.eval es = some v)
    (hb : (proto L dbg).bytesOf es = .ok b) : least v + 3 ≤ b.length := by
  simp only [Tree.eval, Option.bind_eq_some_iff] at h
  obtain ⟨t, h1, h2⟩ := h
  obtain ⟨s, hs, hr⟩ := run_rel (N := True) H (dbg := dbg) es rel_init h1
  have hl := run_least (N := True) H (dbg := dbg) es rel_init h1 hs (Nat.zero_le _)
  simp only [Proto.bytesOf] at hb
  rw [show (proto L dbg).writer.run (proto L dbg).init es = .ok s from hs] at hb
  obtain ⟨st, root⟩ := t
  match st, h2 with
  | [], h2 =>
    simp only [Tree.finish] at h2; injection h2 with h2; subst h2
    have hfin : ∃ x, b = finishRoot s.buf x := by
      have hb' : finish dbg s = .ok b := hb
      unfold finish at hb'
      dsimp only at hb'
      generalize (if s.wrote = true then s.stack else s.stack ++ [⟨0, 0, 0⟩]) = l at hb'
      split at hb'
      · exact absurd hb' (by simp)
      · split at hb'
        · exact ⟨_, (Res.ok.inj hb').symm⟩
        · exact absurd hb' (by simp)
    obtain ⟨x, rfl⟩ := hfin
    have := finishRoot_least s.buf x
    cases root with
    | none => simp only [Option.getD_none, least]; omega
    | some v => simp only [treeLeast, Option.elim_some, Option.getD_some] at hl ⊢; omega

/-- C97 for Flex, every value: at least a byte for every value, every key and every byte of strings and blobs, and two more; at
most 55 for every value and key, eight more and the bytes held. Missing: the bytes of keys in the lower bound, since equal keys are
written once (`c97_flex_keys_once`, `c97_flex_grows_refuted`). -/
theorem c97_flex_partial (H : L.Law) {dbg : Bool} {v : Val} {b : Bytes} (h : (proto L dbg).serialize v = .ok b) :
    v.items + v.texts + 2 ≤ b.length ∧ b.length ≤ 8 + 55 * v.items + v.texts + v.keyBytes := by
  obtain ⟨c, h1, h2, -⟩ := bytesOf_holding H dbg (Tree.eval_emit v)
  have h3 := bytesOf_least H (Tree.eval_emit v) h
  obtain rfl : c = b := by
    rw [show (proto L dbg).bytesOf (emit v) = (proto L dbg).serialize v from rfl, h] at h1
    exact (Res.ok.inj h1).symm
  have h4 := weigh_size v
  have h5 := least_size v
  omega

/-! ### Keys are written once -/

mutual
/-- What a value takes in the buffer at most, without its keys and the place that refers to it. -/
def bare : Val → Nat
  | .str s => s.length + 16
  | .blob s => s.length + 15
  | .arr xs => bareList xs + 9 * xs.length + 15
  | .map ms => bareEntries ms + 17 * ms.length + 46
  | _ => 0
def bareList : List Val → Nat
  | [] => 0
  | x :: xs => bare x + bareList xs
def bareEntries : List (Bytes × Val) → Nat
  | [] => 0
  | (_, v) :: ms => bare v + bareEntries ms
end

theorem bareList_append (xs ys : List Val) : bareList (xs ++ ys) = bareList xs + bareList ys := by
  induction xs with
  | nil => simp [bareList]
  | cons x xs ih => simp [bareList, ih, Nat.add_assoc]

theorem bareEntries_append (xs ys : List (Bytes × Val)) : bareEntries (xs ++ ys) = bareEntries xs + bareEntries ys := by
  induction xs with
  | nil => simp [bareEntries]
  | cons x xs ih => obtain ⟨k, v⟩ := x; simp [bareEntries, ih, Nat.add_assoc]

def frameBare : Frame → Nat
  | .arr xs => bareList xs
  | .map ms _ => bareEntries ms

def treeBare (root : Option Val) : List Frame → Nat
  | [] => root.elim 0 bare
  | f :: fs => treeBare root fs + frameBare f

theorem deliver_bare {t t' : Tree} {v : Val} (h : t.deliver v = some t') :
    treeBare t'.root t'.stack = treeBare t.root t.stack + bare v := by
  obtain ⟨st, root⟩ := t
  match st, root, h with
  | [], none, h => simp only [Tree.deliver] at h; injection h with h; subst h; simp [treeBare]
  | .arr xs :: st, root, h =>
    simp only [Tree.deliver] at h; injection h with h; subst h
    simp [treeBare, frameBare, bareList_append, bareList, Nat.add_assoc]
  | .map ms (some k) :: st, root, h =>
    simp only [Tree.deliver] at h; injection h with h; subst h
    simp only [treeBare, frameBare, bareEntries_append, bareEntries]
    omega

/-- What keys take, each with its NUL. -/
def keysLen : List Bytes → Nat
  | [] => 0
  | k :: ks => k.length + 1 + keysLen ks

/-- The keys of the pool are `us`, which are what the calls so far have named, and the buffer is as long as their number and what
else has been written allow. -/
structure Pooled (t : Tree) (s : RS) (us : List Bytes) : Prop where
  nodup : us.Nodup
  has : ∀ u ∈ us, ∃ p ∈ s.pool, At s.buf p (u ++ [0])
  only : ∀ p ∈ s.pool, ∃ u ∈ us, (0 : UInt8) ∉ u ∧ At s.buf p (u ++ [0])
  low : treeLeast t.root t.stack + keysLen us ≤ s.buf.length
  high : s.buf.length ≤ treeBare t.root t.stack + keysLen us

theorem findKey_finds {b : Bytes} {sloc : Nat} {k : Bytes} (h0 : (0 : UInt8) ∉ k) (hk : At b sloc (k ++ [0])) :
    ∀ {pool : List Nat}, PoolOk b pool → (∃ p ∈ pool, At b p (k ++ [0])) → ∃ p, findKey b sloc pool = .ok (some p)
  | [], _, h => by obtain ⟨p, hp, _⟩ := h; cases hp
  | q :: ps, h, hp => by
    obtain ⟨x, x0, xa⟩ := h q (by simp)
    rw [findKey, cstrAt_at x0 xa, cstrAt_at h0 hk]
    simp only [Res.ok_bind]
    by_cases e : x = k
    · rw [if_pos e]; exact ⟨q, rfl⟩
    · rw [if_neg e]
      refine findKey_finds h0 hk (fun p hp => h p (by simp [hp])) ?_
      obtain ⟨p, hp, ha⟩ := hp
      rcases List.mem_cons.1 hp with rfl | hp
      · have := cstrAt_at x0 xa
        rw [cstrAt_at h0 ha] at this
        exact absurd (Res.ok.inj this).symm e
      · exact ⟨p, hp, ha⟩

theorem findKey_misses {b : Bytes} {sloc : Nat} {k : Bytes} (h0 : (0 : UInt8) ∉ k) (hk : At b sloc (k ++ [0])) :
    ∀ {pool : List Nat}, PoolOk b pool → (∀ p ∈ pool, ¬ At b p (k ++ [0])) → findKey b sloc pool = .ok none
  | [], _, _ => rfl
  | q :: ps, h, hp => by
    obtain ⟨x, x0, xa⟩ := h q (by simp)
    rw [findKey, cstrAt_at x0 xa, cstrAt_at h0 hk]
    simp only [Res.ok_bind]
    rw [if_neg (by rintro rfl; exact hp q (by simp) xa)]
    exact findKey_misses h0 hk (fun p hp => h p (by simp [hp])) fun p hp' => hp p (by simp [hp'])

theorem Pooled.ext {t t' : Tree} {s s' : RS} {us : List Bytes} {e : Bytes} (h : Pooled t s us) (hb : s'.buf = s.buf ++ e) (hp : s'.pool = s.pool)
    (h1 : treeLeast t'.root t'.stack ≤ treeLeast t.root t.stack + e.length)
    (h2 : treeBare t.root t.stack + e.length ≤ treeBare t'.root t'.stack) : Pooled t' s' us := by
  have l := h.low
  have u := h.high
  refine ⟨h.nodup, fun x hx => ?_, fun p hq => ?_, ?_, ?_⟩
  · obtain ⟨p, q1, q2⟩ := h.has x hx
    exact ⟨p, by rw [hp]; exact q1, by rw [hb]; exact q2.append_right e⟩
  · obtain ⟨u, q1, q2, q3⟩ := h.only p (by rw [hp] at hq; exact hq)
    exact ⟨u, q1, q2, by rw [hb]; exact q3.append_right e⟩
  · rw [hb, List.length_append]; omega
  · rw [hb, List.length_append]; omega

/-- What a call adds to the keys of the pool. -/
def addKey (us : List Bytes) : Ev → List Bytes
  | .key k => if k ∈ us then us else k :: us
  | _ => us

theorem ext_of_length {b c : Bytes} (h : ∃ e, c = b ++ e) {m n : Nat} (h1 : b.length + m ≤ c.length) (h2 : c.length ≤ b.length + n) :
    ∃ e, c = b ++ e ∧ m ≤ e.length ∧ e.length ≤ n := by
  obtain ⟨e, rfl⟩ := h
  rw [List.length_append] at h1 h2
  exact ⟨e, rfl, by omega, by omega⟩

theorem step_pooled {N : Prop} (H : L.Law) {dbg : Bool} {t t' : Tree} {s s' : RS} {e : Ev} {us : List Bytes} (hr : Rel N L t s)
    (h : t.step e = some t') (hs : step L dbg s e = .ok s') (hn : ∀ k, e = .key k → (0 : UInt8) ∉ k) (hp : Pooled t s us) :
    Pooled t' s' (addKey us e) := by
  cases e with
  | null | bool b | int i | uint n | dbl d =>
    have h1 := deliver_least h
    have h2 := deliver_bare h
    injection hs with hs; subst hs
    exact hp.ext (e := []) (by simp [push]) rfl (by rw [h1]; exact Nat.le_refl _) (by rw [h2]; exact Nat.le_refl _)
  | str b =>
    have h1 := deliver_least h
    have h2 := deliver_bare h
    injection hs with hs; subst hs
    obtain ⟨e, e1, e2, e3⟩ := ext_of_length (createBlob_ext s.buf 5 b [0]) (m := 1 + b.length + 1) (n := 15 + b.length + 1)
      (by have := createBlob_least s.buf 5 b [0]; simp only [List.length_cons, List.length_nil] at this; omega)
      (by have := createBlob_length s.buf 5 b [0]; simp only [List.length_cons, List.length_nil] at this; omega)
    exact hp.ext (e := e) e1 rfl (by rw [h1]; simp only [least]; omega) (by rw [h2]; simp only [bare]; omega)
  | blob b =>
    have h1 := deliver_least h
    have h2 := deliver_bare h
    injection hs with hs; subst hs
    obtain ⟨e, e1, e2, e3⟩ := ext_of_length (createBlob_ext s.buf 25 b []) (m := 1 + b.length) (n := 15 + b.length)
      (by have := createBlob_least s.buf 25 b []; simp only [List.length_nil] at this; omega)
      (by have := createBlob_length s.buf 25 b []; simp only [List.length_nil] at this; omega)
    exact hp.ext (e := e) e1 rfl (by rw [h1]; simp only [least]; omega) (by rw [h2]; simp only [bare]; omega)
  | key k =>
    obtain ⟨st, root⟩ := t
    match st, h with
    | .map ms none :: st, h =>
      simp only [Tree.step] at h; injection h with h; subst h
      have h0 := hn k rfl
      have hat : At (s.buf ++ (k ++ [0])) s.buf.length (k ++ [0]) := At.self_end _ _
      have hl := hp.low
      have hh := hp.high
      simp only [treeLeast, treeBare, frameLeast, frameBare] at hl hh
      by_cases hk : k ∈ us
      · obtain ⟨p, q1, q2⟩ := hp.has k hk
        obtain ⟨o, ho⟩ := findKey_finds h0 hat (hr.pool.mono (k ++ [0])) ⟨p, q1, q2.append_right _⟩
        simp only [step, keyBytes, createKey, ho, Res.ok_bind, Res.pure_eq, Res.ok.injEq] at hs
        subst hs
        rw [addKey, if_pos hk]
        exact ⟨hp.nodup, hp.has, hp.only, by simpa only [treeLeast, frameLeast] using hl, by simpa only [treeBare, frameBare] using hh⟩
      · have hm := findKey_misses h0 hat (hr.pool.mono (k ++ [0])) (pool := s.pool) (fun p hpp ha => by
          obtain ⟨u, u1, u2, u3⟩ := hp.only p hpp
          have e1 := cstrAt_at u2 (u3.append_right (k ++ [0]))
          rw [cstrAt_at h0 ha] at e1
          rw [Res.ok.inj e1] at hk
          exact hk u1)
        simp only [step, keyBytes, createKey, hm, Res.ok_bind, Res.pure_eq, Res.ok.injEq] at hs
        subst hs
        rw [addKey, if_neg hk]
        refine ⟨List.nodup_cons.2 ⟨hk, hp.nodup⟩, ?_, ?_, ?_, ?_⟩
        · intro u hu
          rcases List.mem_cons.1 hu with rfl | hu
          · exact ⟨_, List.mem_cons_self .., hat⟩
          · obtain ⟨p, q1, q2⟩ := hp.has u hu
            exact ⟨p, List.mem_cons_of_mem _ q1, q2.append_right _⟩
        · intro p hq
          rcases List.mem_cons.1 hq with rfl | hq
          · exact ⟨k, List.mem_cons_self .., h0, hat⟩
          · obtain ⟨u, q1, q2, q3⟩ := hp.only p hq
            exact ⟨u, List.mem_cons_of_mem _ q1, q2, q3.append_right _⟩
        · simp only [treeLeast, frameLeast, keysLen, List.length_append, List.length_cons, List.length_nil]; omega
        · simp only [treeBare, frameBare, keysLen, List.length_append, List.length_cons, List.length_nil]; omega
  | beginArr n | beginMap n =>
    simp only [Tree.step] at h; injection h with h; subst h
    injection hs with hs; subst hs
    exact hp.ext (e := []) (by simp [openC]) rfl
      (by simp [treeLeast, frameLeast, leastList, leastEntries]) (by simp [treeBare, frameBare, bareList, bareEntries])
  | endArr =>
    obtain ⟨st, root⟩ := t
    match st, h, hr with
    | .arr xs :: st, h, hr =>
      simp only [Tree.step] at h
      have e1 := hr.st
      have e2 := hr.stack
      simp only [ctxs, Frame.isObj] at e1
      simp only [stackDocs, frameDocs] at e2
      obtain ⟨-, g2⟩ := e2.split
      have Y0 := createVector_layout s.buf (s.stack.drop (stackDocs L root st).length)
        (s.stack.drop (stackDocs L root st).length).length 1 false none
      have Y := Y0.least
      have Y2 := Y0.length_le (good_vec g2).w_le
      have hn := g2.length
      simp only [toDocList_eq, List.length_map] at hn
      simp only [step, endArr, e1] at hs
      injection hs with hs; subst hs
      simp only [prefixLen, Bool.false_eq_true, if_false] at Y Y2
      obtain ⟨e, x1, x2, x3⟩ := ext_of_length Y0.ext (m := 2 * xs.length + 1) (n := 9 * xs.length + 15) (by omega) (by omega)
      refine hp.ext (e := e) x1 rfl ?_ ?_
      · rw [deliver_least h]; simp only [treeLeast, frameLeast, least]; omega
      · rw [deliver_bare h]; simp only [treeBare, frameBare, bare]; omega
  | endMap =>
    obtain ⟨st, root⟩ := t
    match st, h, hr with
    | .map ms none :: st, h, hr =>
      simp only [Tree.step] at h
      have e1 := hr.st
      have e2 := hr.stack
      simp only [ctxs, Frame.isObj] at e1
      simp only [stackDocs, frameDocs] at e2
      obtain ⟨-, g2⟩ := e2.split
      obtain ⟨ps, p1, p2⟩ := inter_good g2
      obtain ⟨c, c1, cx, -, c3⟩ := good_map L dbg p2
      have Y := buildMap_least H p2 c1
      have hn := p2.length
      rw [H.sort_length] at c3
      simp only [toDocEntries_eq, List.length_map] at hn c3
      rw [← p1] at c1
      simp only [step, endMap, e1, c1, Res.ok_bind, Res.pure_eq, Res.ok.injEq] at hs
      subst hs
      obtain ⟨e, x1, x2, x3⟩ := ext_of_length cx (m := 3 * ms.length + 4) (n := 17 * ms.length + 46) (by omega) (by omega)
      refine hp.ext (e := e) x1 rfl ?_ ?_
      · rw [deliver_least h]; simp only [treeLeast, frameLeast, least]; omega
      · rw [deliver_bare h]; simp only [treeBare, frameBare, bare]; omega

theorem mem_addKey {us : List Bytes} {e : Ev} {k : Bytes} : k ∈ addKey us e ↔ k ∈ us ∨ e = .key k := by
  cases e with
  | key j =>
    simp only [addKey, Ev.key.injEq]
    split
    · exact ⟨.inl, fun h => h.elim id fun e => e ▸ ‹_›⟩
    · rw [List.mem_cons]
      exact ⟨fun h => h.elim (fun e => .inr e.symm) .inl, fun h => h.elim .inr fun e => .inl e.symm⟩
  | _ => simp [addKey]

theorem run_pooled {N : Prop} (H : L.Law) {dbg : Bool} : ∀ (es : List Ev) {t t' : Tree} {s s' : RS} {us : List Bytes}, Rel N L t s →
    t.run es = some t' → (writer L dbg).run s es = .ok s' → (∀ k, .key k ∈ es → (0 : UInt8) ∉ k) → Pooled t s us →
    ∃ us', Pooled t' s' us' ∧ ∀ k, k ∈ us' ↔ k ∈ us ∨ Ev.key k ∈ es
  | [], t, t', s, s', us, hr, h, hs, hn, hp => by
    simp only [Tree.run] at h; injection h with h; subst h
    injection hs with hs; subst hs
    exact ⟨us, hp, by simp⟩
  | e :: es, t, t', s, s', us, hr, h, hs, hn, hp => by
    simp only [Tree.run, Option.bind_eq_bind, Option.bind_eq_some_iff] at h
    obtain ⟨t1, h1, h2⟩ := h
    obtain ⟨s1, hs1, hr1⟩ := step_rel H (dbg := dbg) hr h1
    simp only [Writer.run_cons] at hs
    rw [show (writer L dbg).step s e = .ok s1 from hs1] at hs
    obtain ⟨us', k1, k2⟩ := run_pooled H es hr1 h2 hs (fun k hk => hn k (List.mem_cons_of_mem _ hk))
      (step_pooled H hr h1 hs1 (fun k hk => hn k (by rw [hk]; exact List.mem_cons_self ..)) hp)
    refine ⟨us', k1, fun k => ?_⟩
    rw [k2, mem_addKey, List.mem_cons, or_assoc, eq_comm (a := e)]

mutual
theorem key_mem_emit (k : Bytes) : ∀ v : Val, Ev.key k ∈ emit v ↔ k ∈ v.allKeys
  | .null | .bool _ | .int _ | .uint _ | .dbl _ | .str _ | .blob _ => by simp [emit, Val.allKeys]
  | .arr xs => by simp [emit, Val.allKeys, key_mem_emitList k xs]
  | .map ms => by simp [emit, Val.allKeys, key_mem_emitEntries k ms]
theorem key_mem_emitList (k : Bytes) : ∀ xs : List Val, Ev.key k ∈ emitList xs ↔ k ∈ Val.allKeysList xs
  | [] => by simp [emitList, Val.allKeysList]
  | x :: xs => by simp [emitList, Val.allKeysList, key_mem_emit k x, key_mem_emitList k xs]
theorem key_mem_emitEntries (k : Bytes) : ∀ ms : List (Bytes × Val), Ev.key k ∈ emitEntries ms ↔ k ∈ Val.allKeysEntries ms
  | [] => by simp [emitEntries, Val.allKeysEntries]
  | (j, v) :: ms => by simp [emitEntries, Val.allKeysEntries, key_mem_emit k v, key_mem_emitEntries k ms]
end

theorem bare_size : ∀ v : Val, bare v + 9 ≤ 55 * v.items + v.texts := by
  intro v
  induction v using Val.ind with
  | arr xs ih =>
    have : bareList xs + 9 * xs.length ≤ 55 * Val.itemsList xs + Val.textsList xs := by
      induction xs with
      | nil => simp [bareList, Val.itemsList, Val.textsList]
      | cons x xs ihx =>
        have h1 := ih x (by simp)
        have h2 := ihx (fun y hy => ih y (by simp [hy]))
        simp only [bareList, Val.itemsList, Val.textsList, List.length_cons]
        omega
    simp only [bare, Val.items, Val.texts]
    omega
  | map ms ih =>
    have : bareEntries ms + 17 * ms.length ≤ 55 * Val.itemsEntries ms + Val.textsEntries ms := by
      induction ms with
      | nil => simp [bareEntries, Val.itemsEntries, Val.textsEntries]
      | cons x ms ihx =>
        obtain ⟨k, x⟩ := x
        have h1 := ih (k, x) (by simp)
        have h2 := ihx (fun y hy => ih y (by simp [hy]))
        simp only [bareEntries, Val.itemsEntries, Val.textsEntries, List.length_cons] at h1 ⊢
        omega
    simp only [bare, Val.items, Val.texts]
    omega
  | _ => simp only [bare, Val.items, Val.texts]; omega

/-- C97 for Flex, every value whose keys hold no NUL: the bytes of strings and blobs, every key once with a NUL behind it however
often it occurs, at least one byte more for every value and key and two, at most 55 and eight. -/
theorem c97_flex_keys_once (H : L.Law) {dbg : Bool} {v : Val} {b : Bytes} (hn : ∀ k ∈ v.allKeys, (0 : UInt8) ∉ k)
    (h : (proto L dbg).serialize v = .ok b) :
    ∃ us : List Bytes, us.Nodup ∧ (∀ k, k ∈ us ↔ k ∈ v.allKeys) ∧
      v.items + v.texts + keysLen us + 2 ≤ b.length ∧ b.length ≤ 8 + 55 * v.items + v.texts + keysLen us := by
  have he := Tree.eval_emit v
  simp only [Tree.eval, Option.bind_eq_some_iff] at he
  obtain ⟨t, h1, h2⟩ := he
  obtain ⟨s, hs, hr⟩ := run_rel (N := True) H (dbg := dbg) (emit v) rel_init h1
  obtain ⟨us, hp, hu⟩ := run_pooled (N := True) H (dbg := dbg) (us := []) (emit v) rel_init h1 hs
    (fun k hk => hn k ((key_mem_emit k v).1 hk)) ⟨List.nodup_nil, by simp, by simp, Nat.zero_le _, Nat.zero_le _⟩
  refine ⟨us, hp.nodup, fun k => by rw [hu, key_mem_emit]; simp, ?_⟩
  have hb : finish dbg s = .ok b := by
    have h' := h
    simp only [Proto.serialize, Proto.bytesOf] at h'
    rw [show (proto L dbg).writer.run (proto L dbg).init (emit v) = .ok s from hs] at h'
    exact h'
  have hlow := hp.low
  have hhigh := hp.high
  have hls := least_size v
  have hbs := bare_size v
  obtain ⟨st, root⟩ := t
  match st, h2 with
  | [], h2 =>
    simp only [Tree.finish] at h2; injection h2 with h2
    have e := hr.stack
    have w := hr.wrote
    simp only [stackDocs, treeLeast, treeBare, ne_eq, not_true_eq_false, false_or] at e w hlow hhigh
    have hfin : ∃ x, b = finishRoot s.buf x ∧ x.w ≤ 3 := by
      cases root with
      | none =>
        simp only [not_true_eq_false, iff_false, Bool.not_eq_true] at w
        simp only [Option.toList_none, List.map_nil] at e
        have es : s.stack = [] := by cases hx : s.stack with
          | nil => rfl
          | cons _ _ => rw [hx] at e; cases e
        refine ⟨⟨0, 0, 0⟩, ?_, by decide⟩
        simp [finish, w, es] at hb
        exact hb.symm
      | some v =>
        simp only [reduceCtorEq, not_false_eq_true, iff_true] at w
        simp only [Option.toList_some, List.map_cons, List.map_nil] at e
        cases hx : s.stack with
        | nil => rw [hx] at e; cases e
        | cons x xs =>
          rw [hx] at e
          cases e with
          | cons g e =>
            cases e
            refine ⟨x, ?_, g.w_le⟩
            simp [finish, w, hx] at hb
            exact hb.symm
    obtain ⟨x, rfl, hx⟩ := hfin
    have k1 := finishRoot_least s.buf x
    have k2 := finishRoot_length (b := s.buf) hx
    cases root with
    | none => simp only [Option.getD_none] at h2; subst h2; simp only [Option.elim_none, least, bare, Val.items, Val.texts] at *; omega
    | some u => simp only [Option.getD_some] at h2; subst h2; simp only [Option.elim_some] at *; omega

/-- An array of maps that all have the same key. -/
def manyMaps (n : Nat) : Val := .arr (List.replicate n (.map [(List.replicate n 0x61, .null)]))

theorem manyMaps_measures (n : Nat) : (manyMaps n).items = 1 + 3 * n ∧ (manyMaps n).texts = 0 ∧ (manyMaps n).keyBytes = n * n ∧
    ∀ k ∈ (manyMaps n).allKeys, k = List.replicate n 0x61 := by
  have : ∀ m, Val.itemsList (List.replicate m (.map [(List.replicate n 0x61, .null)])) = 3 * m ∧
      Val.textsList (List.replicate m (.map [(List.replicate n 0x61, .null)])) = 0 ∧
      Val.keyBytesList (List.replicate m (.map [(List.replicate n 0x61, .null)])) = m * n ∧
      ∀ k ∈ Val.allKeysList (List.replicate m (.map [(List.replicate n 0x61, .null)])), k = List.replicate n 0x61 := by
    intro m
    induction m with
    | zero => simp [Val.itemsList, Val.textsList, Val.keyBytesList, Val.allKeysList]
    | succ m ih =>
      obtain ⟨h1, h2, h3, h4⟩ := ih
      simp only [List.replicate_succ, Val.itemsList, Val.textsList, Val.keyBytesList, Val.allKeysList, Val.items, Val.texts,
        Val.keyBytes, Val.allKeys, Val.itemsEntries, Val.textsEntries, Val.keyBytesEntries, Val.allKeysEntries, h1, h2, h3,
        List.length_replicate, Nat.succ_mul]
      refine ⟨by omega, trivial, by omega, ?_⟩
      intro k hk
      simp only [List.nil_append, List.cons_append, List.mem_cons] at hk
      exact hk.elim id (h4 k)
  obtain ⟨h1, h2, h3, h4⟩ := this n
  simp only [manyMaps, Val.items, Val.texts, Val.keyBytes, Val.allKeys, h1, h2, h3]
  exact ⟨trivial, trivial, trivial, h4⟩

/-- C97 fails from Flex to the other formats: messages of Flex can become larger by any factor when they are translated, since
equal keys are written once in Flex and every time in the others. -/
theorem c97_flex_grows_refuted (H : L.Law) (dbg : Bool) : ∀ K : Nat, ∃ (v : Val) (b c : Bytes), (∀ k ∈ v.allKeys, (0 : UInt8) ∉ k) ∧
    (proto L dbg).serialize v = .ok b ∧ MsgPack.proto.serialize v = .ok c ∧ K * b.length < c.length := by
  intro K
  obtain ⟨m1, m2, m3, m4⟩ := manyMaps_measures (230 * K + 1)
  have h0 : ∀ k ∈ (manyMaps (230 * K + 1)).allKeys, (0 : UInt8) ∉ k := by
    intro k hk h
    rw [m4 k hk] at h
    exact absurd (List.mem_replicate.1 h).2 (by decide)
  obtain ⟨b, hb, -⟩ := bytesOf_holding H dbg (Tree.eval_emit (manyMaps (230 * K + 1)))
  refine ⟨manyMaps (230 * K + 1), b, _, h0, hb, MsgPack.serialize_eq _, ?_⟩
  obtain ⟨us, u1, u2, -, u4⟩ := c97_flex_keys_once H h0 hb
  have hu : keysLen us ≤ 230 * K + 1 + 1 := by
    have hall : ∀ k ∈ us, k = List.replicate (230 * K + 1) 0x61 := fun k hk => m4 k ((u2 k).1 hk)
    match us, u1, hall with
    | [], _, _ => simp [keysLen]
    | [k], _, hall => rw [hall k (by simp)]; simp [keysLen]
    | k :: j :: us, u1, hall =>
      have e1 := hall k (by simp)
      have e2 := hall j (by simp)
      rw [e1, e2] at u1
      simp at u1
  have hc := (MsgPack.pack_size (manyMaps (230 * K + 1))).1
  rw [m1, m2, m3] at hc
  rw [m1, m2] at u4
  generalize hN : 230 * K + 1 = n at *
  have hb2 : b.length ≤ 230 * n := by omega
  have : K * b.length ≤ K * (230 * n) := Nat.mul_le_mul_left _ hb2
  have e : K * (230 * n) = (230 * K) * n := by rw [← Nat.mul_assoc, Nat.mul_comm K 230]
  have e2 : n * n = (230 * K) * n + n := by rw [← hN, Nat.add_mul, Nat.one_mul]
  omega

/-! ### Steps of a translation out of Flex, by the length of the message (C85) -/

theorem itemsList_eq (xs : List Val) : Val.itemsList xs = (xs.map Val.items).sum := by
  induction xs with
  | nil => rfl
  | cons x xs ih => simp [Val.itemsList, ih]

theorem itemsEntries_eq (ms : List (Bytes × Val)) : Val.itemsEntries ms = (ms.map (fun m => 1 + m.2.items)).sum := by
  induction ms with
  | nil => rfl
  | cons m ms ih => obtain ⟨k, v⟩ := m; simp [Val.itemsEntries, ih]

theorem items_sortKeys : ∀ v : Val, v.sortKeys.items = v.items := by
  intro v
  induction v using Val.ind with
  | arr xs ih =>
    simp only [Val.sortKeys, Val.items, Val.sortKeysList_eq, itemsList_eq, List.map_map]
    rw [show xs.map (Val.items ∘ Val.sortKeys) = xs.map Val.items from List.map_congr_left fun x hx => ih x hx]
  | map ms ih =>
    simp only [Val.sortKeys, Val.items, itemsEntries_eq]
    have hp := (List.mergeSort_perm (Val.sortKeysEntries ms) keyLe).map (fun m => 1 + m.2.items)
    rw [hp.sum_nat, Val.sortKeysEntries_eq, List.map_map]
    rw [show ms.map ((fun m => 1 + m.2.items) ∘ fun m => (m.1, m.2.sortKeys)) =
      ms.map (fun m => 1 + m.2.items) from List.map_congr_left fun m hm => by simp [ih m hm]]
  | _ => rfl

mutual
theorem emit_items : ∀ v : Val, (emit v).length ≤ 2 * v.items
  | .null | .bool _ | .int _ | .uint _ | .dbl _ | .str _ | .blob _ => by simp [emit, Val.items]
  | .arr xs => by have := emitList_items xs; simp [emit, Val.items]; omega
  | .map ms => by have := emitEntries_items ms; simp [emit, Val.items]; omega
theorem emitList_items : ∀ xs : List Val, (emitList xs).length ≤ 2 * Val.itemsList xs
  | [] => by simp [emitList]
  | x :: xs => by have := emit_items x; have := emitList_items xs; simp [emitList, Val.itemsList]; omega
theorem emitEntries_items : ∀ ms : List (Bytes × Val), (emitEntries ms).length ≤ 2 * Val.itemsEntries ms
  | [] => by simp [emitEntries]
  | (k, v) :: ms => by have := emit_items v; have := emitEntries_items ms; simp [emitEntries, Val.itemsEntries]; omega
end

/-- C85 for messages that Flex has written: translating one of `n` bytes takes at most `2 n` times the number of binary digits of
`n` (and two more, and eleven at least). -/
theorem c85_flex_written (H : L.Law) (dbg : Bool) {v : Val} (hd : v.Distinct) (hn : v.NulFree) (hF : weigh v + 17 < 2 ^ 60) :
    ∃ b r, (proto L dbg).serialize v = .ok b ∧ opn b = .ok r ∧ ∀ f, v.sortKeys.depth ≤ f →
      (writeValueC reader costs counter f r 0).res = .ok (emit v.sortKeys).length ∧
      (writeValueC reader costs counter f r 0).cost ≤ ((max 255 b.length).log2 + 3) * (2 * b.length) := by
  have hF' : Fits v := Nat.lt_of_lt_of_le hF (Nat.pow_le_pow_right (by decide) (by decide))
  obtain ⟨b, r, h1, h2, h3⟩ := c35_flex_round_trip H dbg hd hn hF'
  refine ⟨b, r, h1, h2, fun f hf => ?_⟩
  obtain ⟨v', _, k2, k3⟩ := writeValue_run _ r h3
  have := k2 trivial; subst this
  rw [Val.firstWins_of_distinct _ hd.sortKeys] at k3
  have hc := k3 _ counter f hf 0
  rw [counter_run, Nat.zero_add] at hc
  have hlen : b.length < 2 ^ 60 := by
    obtain ⟨c, q1, q2, -⟩ := bytesOf_holding H dbg (Tree.eval_emit v)
    have : c = b := by
      rw [show (proto L dbg).bytesOf (emit v) = (proto L dbg).serialize v from rfl, h1] at q1
      exact (Res.ok.inj q1).symm
    subst this
    omega
  obtain ⟨q1, q2⟩ := c85_flex_calls_partial hlen h2 hc
  refine ⟨q1, Nat.le_trans q2 (Nat.mul_le_mul_left _ ?_)⟩
  have e1 := emit_items v.sortKeys
  rw [items_sortKeys] at e1
  have e2 := (c97_flex_partial H h1).1
  omega

end Flex

/-! ## From one format to another -/

/-- C97 between formats: a message of `n` bytes in MessagePack, CBOR, ZERA or JSON (that holds `n` bytes at most, as stated above)
is, in any of the formats, longer by a constant factor at most. -/
theorem c97_between {v : Val} {n : Nat} (hn : v.items + v.texts + v.keyBytes ≤ n) :
    (∀ c, MsgPack.proto.serialize v = .ok c → c.length ≤ 9 * n) ∧
    (∀ utf8 maxDepth hard fuel c, (Cbor.proto utf8 maxDepth hard fuel).serialize v = .ok c → c.length ≤ 9 * n) ∧
    (∀ c, Zera.proto.serialize v = .ok c → c.length ≤ 43 * n + 35) ∧
    (∀ L : Flex.Lib, L.Law → ∀ dbg c, (Flex.proto L dbg).serialize v = .ok c → c.length ≤ 55 * n + 8) ∧
    (∀ fmt D dbg c, Json.FmtOk fmt → (∀ d, Json.finiteBits d = true → (fmt d).length ≤ D) → 20 ≤ D →
      (Json.proto (Json.std fmt) dbg).serialize v = .ok c → c.length < (D + 1) * n) := by
  refine ⟨fun c h => ?_, fun _ _ _ _ c h => ?_, fun c h => ?_, fun L H dbg c h => ?_, fun fmt D dbg c hf hD h20 h => ?_⟩
  · have := (MsgPack.c97_msgpack h).2; omega
  · have := (Cbor.c97_cbor h).2; omega
  · have := (Zera.c97_zera (thr := 12) (by decide) h).2; omega
  · have := (Flex.c97_flex_partial H h).2; omega
  · have h1 := (Json.c97_json hf hD h20 h).2
    have h2 : (D + 1) * (v.items + v.texts + v.keyBytes) ≤ (D + 1) * n := Nat.mul_le_mul_left _ hn
    have h3 : 6 * v.texts ≤ (D + 1) * v.texts := Nat.mul_le_mul_right _ (by omega)
    have h4 : 6 * v.keyBytes ≤ (D + 1) * v.keyBytes := Nat.mul_le_mul_right _ (by omega)
    rw [Nat.mul_add, Nat.mul_add] at h2
    omega

/-- The measures of a small value, and its length in MessagePack. -/
example : (Val.map [([97], .str [1, 2, 3]), ([98], .null)]).items + (Val.map [([97], .str [1, 2, 3]), ([98], .null)]).texts +
    (Val.map [([97], .str [1, 2, 3]), ([98], .null)]).keyBytes = 10 ∧
    (MsgPack.pack (emit (Val.map [([97], .str [1, 2, 3]), ([98], .null)]))).length = 10 := by decide

end Zer
