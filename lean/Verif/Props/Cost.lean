import Verif.Cost.MsgPackEnc
import Verif.Cost.CborItem
import Verif.Props.Amplify

/-!
# C84 and C85: the time of skipping, of lookups and of translations

Steps are calls of `mp_skip` (msgpack.hpp), and calls of `skip` and rounds over chunks (cbor.hpp); everything between two such
steps is a bounded number of reads and comparisons, apart from comparing and copying strings.
-/

namespace Zer

namespace MsgPack

/-! ## C84 -/

/-- C84 for `mp_skip` on bytes without a length of `2 ^ 32 - 5` or more: at most one call for every byte, and one more when it
fails; when it succeeds, at most the size it returns. Missing: bytes with such a length. -/
theorem c84_msgpack_skip_partial {v : Bytes} (h : NoWrap v) :
    (skipC v).res = skip v ∧ (skipC v).cost ≤ v.length + 1 ∧ ∀ s, skip v = .ok s → (skipC v).cost ≤ s := by
  obtain ⟨h1, h2⟩ := skipC_noWrap h
  refine ⟨skipC_res v, by omega, fun s hs => ?_⟩
  have := h2 s (by rw [skipC_res]; exact hs)
  omega

example : NoWrap [0x92, 0x81, 0xa1, 0x61, 0xc0, 0xdb, 0x00, 0x00, 0x00, 0x01] := by
  intro o hw
  have ho : o < 10 := by
    apply Nat.lt_of_not_le
    intro ho
    rw [List.drop_of_length_le (by simpa using ho)] at hw
    rcases hw with ⟨h | h, _⟩ <;> cases h
  obtain ⟨h1, n, h2, h3⟩ := hw
  have e : ∀ o, o < 10 → (byteAt ([0x92, 0x81, 0xa1, 0x61, 0xc0, 0xdb, 0x00, 0x00, 0x00, 0x01].drop o) 0 = .ok 0xdb ∨
      byteAt ([0x92, 0x81, 0xa1, 0x61, 0xc0, 0xdb, 0x00, 0x00, 0x00, 0x01].drop o) 0 = .ok 0xc6) → o = 5 := by decide +kernel
  have := e o ho h1
  subst this
  have h4 : readBe32 ([0x92, 0x81, 0xa1, 0x61, 0xc0, 0xdb, 0x00, 0x00, 0x00, 0x01].drop 5) 1 = .ok 1 := by decide +kernel
  rw [h4] at h2
  injection h2 with h2
  omega

/-- For bytes of every kind the time is still linear, with a factor of `2 ^ 34`. -/
theorem c84_msgpack_skip_any_partial (v : Bytes) : (skipC v).res = skip v ∧ (skipC v).cost ≤ 1 + 2 ^ 34 * (v.length + 1) :=
  ⟨skipC_res v, skipC_any v⟩

/-- C84 for encodings, whatever follows: exactly one call for every value and every key inside, at most one for every byte. -/
theorem c84_msgpack_enc_partial {v : Val} (hb : v.Below (2 ^ 32 - 5)) {b : Bytes} (h : Enc v b) (rest : Bytes) :
    skipC (b ++ rest) = ⟨v.items, .ok b.length⟩ ∧ v.items ≤ b.length :=
  ⟨(Enc.takes v hb h).skipC rest, (Enc.takes v hb h).1⟩

/-- C84 is false with a factor of one or of any size below `2 ^ 32 / 11`: ten bytes take `2 ^ 32` calls. -/
theorem c84_msgpack_refuted : ∃ b : Bytes, b.length = 10 ∧ skip b = .ok 5 ∧ (skipC b).cost = 2 ^ 32 :=
  ⟨stall, rfl, by rw [← skipC_res, stall_skip], by rw [stall_skip]⟩

/-- C84 for lookups: linear in the bytes of the container. -/
theorem c84_msgpack_lookups_partial {v : Bytes} (h : NoWrap v) (key : Bytes) (i : Nat) :
    ((containsC v key).res = contains v key ∧ (containsC v key).cost ≤ v.length + 1) ∧
    ((getKeyC v key).res = getKey v key ∧ (getKeyC v key).cost ≤ v.length + 1) ∧
    ((getIdxC v i).res = getIdx v i ∧ (getIdxC v i).cost ≤ v.length + 1) ∧
    ((mapKeysC v).res = mapKeys v ∧ (mapKeysC v).cost ≤ 3 * (v.length + 1)) :=
  ⟨⟨containsC_res v key, h.map.contains key⟩, ⟨costs_of.getKey v key, h.map.getKey key⟩, ⟨costs_of.getIdx v i, h.arr.getIdx i⟩,
    costs_of.mapKeys v, h.map.mapKeys⟩

/-! ## C85 -/

/-- C85 is false: an array of `n` nulls, of `n + 5` bytes, takes `n * (n + 1) / 2` calls to translate, because every element is
looked up from the start. -/
theorem c85_msgpack_refuted {n : Nat} (hn : n < 2 ^ 32) : ∃ b : Bytes, b.length = n + 5 ∧ Enc (.arr (List.replicate n .null)) b ∧
    ∀ f, 2 ≤ f → writeValue reader counter f b 0 = .ok (n + 2) ∧ 2 * (writeValueC reader costs counter f b 0).cost = n * (n + 1) := by
  refine ⟨nulls n, by simp [nulls]; omega, ?_, fun f hf => ?_⟩
  · refine ⟨0xdd :: be 4 n, List.replicate n [0xc0], ?_, ?_, ?_⟩
    · simpa using ArrHead.a32 hn
    · clear hn
      induction n with
      | zero => rfl
      | succ n ih => exact ⟨_, _, rfl, ih, rfl⟩
    · rw [flatten_null]; rfl
  · obtain ⟨g, rfl⟩ : ∃ g, f = g + 2 := ⟨f - 2, by omega⟩
    obtain ⟨h1, h2⟩ := nulls_cost hn g
    exact ⟨by rw [← writeValueC_res costs_of]; exact h1, h2⟩

/-- C85 with a bound that is not linear: a translation that makes `e` calls of the writer takes at most `4 * e` times the
length of the source. Missing: linear time; bytes with lengths of `2 ^ 32 - 5` or more. -/
theorem c85_msgpack_calls_partial {b : Bytes} (h : NoWrap b) {f e : Nat} (hr : writeValue reader counter f b 0 = .ok e) :
    (writeValueC reader costs counter f b 0).cost ≤ 4 * ((b.length + 1) * e) := by
  obtain ⟨e', h1, h2⟩ := writeValueC_within (within_noWrap b.length) f b 0 e ⟨h, Nat.le_refl _⟩ (by rw [writeValueC_res costs_of]; exact hr)
  obtain rfl : e' = e := by omega
  omega

/-- C85 for encodings of values without repeated keys: at most eight times the square of the length. -/
theorem c85_msgpack_partial {v : Val} (hb : v.Below (2 ^ 32 - 5)) (hd : v.Distinct) {b : Bytes} (h : Enc v b) {f : Nat} (hf : v.depth ≤ f) :
    (writeValueC reader costs counter f b 0).res = writeValue reader counter f b 0 ∧
    (writeValueC reader costs counter f b 0).cost ≤ 8 * (b.length * (b.length + 1)) := by
  obtain ⟨n, h1, h2⟩ := c77_msgpack_partial hb hd h [] hf
  rw [List.append_nil] at h1
  refine ⟨writeValueC_res costs_of _ _ _, ?_⟩
  obtain ⟨e, h3, h4⟩ := writeValueC_within (within_enc b.length) f b 0 n ⟨v, b, [], hb, h, (List.append_nil b).symm, Nat.le_refl _⟩
    (by rw [writeValueC_res costs_of]; exact h1)
  obtain rfl : e = n := by omega
  have := Nat.mul_le_mul_left (b.length + 1) h2
  have e2 : (b.length + 1) * (2 * b.length) = 2 * (b.length * (b.length + 1)) := by
    rw [Nat.mul_left_comm, Nat.mul_comm (b.length + 1)]
  omega

end MsgPack

namespace Cbor

/-! ## C84 -/

/-- C84 for `skip` and `skip_at_raw` (`raw`) on bytes without a head that announces a number near `2 ^ 64`: at most one step for
every byte from `p` on, and one more when it fails; when it succeeds, at most the bytes skipped. Missing: such heads. -/
theorem c84_cbor_skip_partial (raw : Bool) {v : Bytes} (hn : NoHugeAll v) (hv : v.length < 2 ^ 63) (f p : Nat) :
    (skipC raw v f p).res = skip raw v f p ∧ (skipC raw v f p).cost ≤ v.length - p + 1 ∧
    ∀ r, skip raw v f p = .ok r → p + (skipC raw v f p).cost ≤ r := by
  obtain ⟨h1, h2⟩ := skipC_cheap (raw := raw) hn hv f p
  refine ⟨skipC_res f p, h1, fun r hr => ?_⟩
  have := (h2 r (by rw [skipC_res]; exact hr)).1
  omega

/-- C84 for a well-formed item wherever it stands: at most one step for every byte of it. -/
theorem c84_cbor_item_partial (raw : Bool) {b : Bytes} (h : Item b) {v : Bytes} (hv : v.length < 2 ^ 64) {p : Nat} (ha : At v p b) {f : Nat}
    (hf : b.length ≤ f) : (skipC raw v f p).res = .ok (p + b.length) ∧ (skipC raw v f p).cost ≤ b.length :=
  ⟨by rw [skipC_res]; exact h.skip raw hv ha hf, h.cost raw hv ha hf⟩

example : Item [0x9f, 0x81, 0x03, 0xff] :=
  .arr (ind := true) (cs := [[0x81, 0x03]])
    (fun c hc => by
      obtain rfl : c = [0x81, 0x03] := by simpa using hc
      exact .arr (ind := false) (cs := [[0x03]]) (fun c hc => by
        obtain rfl : c = [0x03] := by simpa using hc
        exact .num (m := 0) (n := 3) (by omega) (.imm (by omega))) (.definite (.imm (by decide))))
    (.indef rfl)

/-- C84 is false: eighteen bytes take `2 ^ 64` steps. -/
theorem c84_cbor_refuted (raw : Bool) : ∃ b : Bytes, b.length = 18 ∧
    ∀ f, 2 ≤ f → skip raw b f 0 = .ok 9 ∧ (skipC raw b f 0).cost = 2 ^ 64 := by
  refine ⟨stall, by simp [stall], fun f hf => ?_⟩
  obtain ⟨g, rfl⟩ : ∃ g, f = g + 2 := ⟨f - 2, by omega⟩
  exact ⟨by rw [← skipC_res, stall_skip], by rw [stall_skip]⟩

/-- C84 for lookups, at every position of the buffer: linear in its length. -/
theorem c84_cbor_lookups_partial {v : Bytes} (hn : NoHugeAll v) (hv : v.length < 2 ^ 63) (hard : Bool) (f p : Nat) (key : Bytes) (i : Nat) :
    ((containsC hard f ⟨v, p⟩ key).res = View.contains hard f ⟨v, p⟩ key ∧ (containsC hard f ⟨v, p⟩ key).cost ≤ 2 * (v.length + 1)) ∧
    ((getKeyC hard f ⟨v, p⟩ key).res = View.getKey hard f ⟨v, p⟩ key ∧ (getKeyC hard f ⟨v, p⟩ key).cost ≤ 2 * (v.length + 1)) ∧
    ((getIdxC f ⟨v, p⟩ i).res = View.getIdx f ⟨v, p⟩ i ∧ (getIdxC f ⟨v, p⟩ i).cost ≤ v.length + 1) ∧
    ((arraySizeC f ⟨v, p⟩).res = View.arraySize f ⟨v, p⟩ ∧ (arraySizeC f ⟨v, p⟩).cost ≤ v.length + 1) ∧
    ((mapKeysC hard f ⟨v, p⟩).res = View.mapKeys hard f ⟨v, p⟩ ∧ (mapKeysC hard f ⟨v, p⟩).cost ≤ 3 * (v.length + 1)) :=
  have hv' : v.length < 2 ^ 64 := by omega
  ⟨⟨containsC_res .., (hn.walks hv false f 2 p).contains hv' hard key⟩,
    ⟨(costs_of hard f).getKey _ key, (hn.walks hv false f 2 p).getKey hv' hard key⟩,
    ⟨(costs_of hard f).getIdx _ i, (hn.walks hv false f 1 p).getIdx i⟩,
    ⟨(costs_of hard f).arraySize _, (hn.walks hv false f 1 p).arraySize⟩,
    (costs_of hard f).mapKeys _, (hn.walks hv true f 2 p).mapKeys hv' hard⟩

/-! ## C85 -/

/-- C85 is false: an array of `n` nulls, of `n + 9` bytes, takes `n * (n - 1) / 2` steps to translate. -/
theorem c85_cbor_refuted {n : Nat} (hn : n < 2 ^ 64) : ∃ b : Bytes, b.length = n + 9 ∧ Enc false (.arr (List.replicate n .null)) b ∧
    ∀ f g, 1 ≤ f → 2 ≤ g → writeValue (reader false f) counter g ⟨b, 0⟩ 0 = .ok (n + 2) ∧
      2 * (writeValueC (reader false f) (costs false f) counter g ⟨b, 0⟩ 0).cost + n = n * n := by
  refine ⟨nulls n, by simp [nulls]; omega, ?_, fun f g hf hg => ?_⟩
  · have e : ∀ n, (List.replicate n [(0xf6 : UInt8)]).flatten = List.replicate n 0xf6 := by
      intro n
      induction n with
      | zero => rfl
      | succ n ih => rw [List.replicate_succ, List.flatten_cons, ih]; rfl
    refine ⟨List.replicate n [0xf6], ?_, ?_⟩
    · clear hn
      induction n with
      | zero => rfl
      | succ n ih => exact ⟨_, _, rfl, ih, rfl⟩
    · rw [e]
      simpa [nulls] using Group.definite (ind := false) (c := List.replicate n 0xf6) (Hd.w8 (m := 4) hn)
  · obtain ⟨f, rfl⟩ : ∃ f', f = f' + 1 := ⟨f - 1, by omega⟩
    obtain ⟨g, rfl⟩ : ∃ g', g = g' + 2 := ⟨g - 2, by omega⟩
    obtain ⟨h1, h2⟩ := nulls_cost hn f g
    exact ⟨by rw [← writeValueC_res (costs_of false (f + 1))]; exact h1, h2⟩

/-- C85 with a bound that is not linear: a translation that makes `e` calls of the writer takes at most `8 * e` times the
length of the buffer. Missing: linear time; heads that announce numbers near `2 ^ 64`. -/
theorem c85_cbor_calls_partial {b : Bytes} (hn : NoHugeAll b) (hv : b.length < 2 ^ 63) {hard : Bool} {f g p e : Nat}
    (hr : writeValue (reader hard f) counter g ⟨b, p⟩ 0 = .ok e) :
    (writeValueC (reader hard f) (costs hard f) counter g ⟨b, p⟩ 0).cost ≤ 8 * ((b.length + 1) * e) := by
  obtain ⟨e', h1, h2⟩ := writeValueC_within (within_noHuge hn hv hard f) g ⟨b, p⟩ 0 e rfl (by rw [writeValueC_res (costs_of hard f)]; exact hr)
  obtain rfl : e' = e := by omega
  rw [Nat.mul_assoc 2] at h2
  omega

/-- C85 for definite encodings of values without repeated keys: at most sixteen times the square of the length. -/
theorem c85_cbor_partial {f : Nat} {v : Val} {b : Bytes} (hl : b.length < 2 ^ 64) (hf : b.length < f) (hs : v.Small) (hd : v.Distinct)
    (h : Enc false v b) {g : Nat} (hg : v.depth ≤ g) :
    (writeValueC (reader false f) (costs false f) counter g ⟨b, 0⟩ 0).res = writeValue (reader false f) counter g ⟨b, 0⟩ 0 ∧
    (writeValueC (reader false f) (costs false f) counter g ⟨b, 0⟩ 0).cost ≤ 16 * (b.length * (b.length + 1)) := by
  obtain ⟨n, h1, h2⟩ := c77_cbor_partial hl (Nat.le_of_lt hf) hs hd h hg
  refine ⟨writeValueC_res (costs_of false f) _ _ _, ?_⟩
  obtain ⟨e, h3, h4⟩ := writeValueC_within (within_items hl hf) g ⟨b, 0⟩ 0 n ⟨rfl, b, Enc.item v h, ⟨[], [], by simp, rfl⟩⟩
    (by rw [writeValueC_res (costs_of false f)]; exact h1)
  obtain rfl : e = n := by omega
  have := Nat.mul_le_mul_left (b.length + 1) h2
  have e2 : (b.length + 1) * (2 * b.length) = 2 * (b.length * (b.length + 1)) := by
    rw [Nat.mul_left_comm, Nat.mul_comm (b.length + 1)]
  rw [Nat.mul_assoc 2] at h4
  omega

end Cbor

end Zer
