import Verif.TreeInv
import Verif.Zera.Size
import Verif.Zera.Safety
import Verif.Zera.Det

/-!
# Properties of the ZERA protocol (C01-C12, C53, C54)

Each theorem is followed by an `example` that meets its hypotheses.
-/

namespace Zer.Zera

/-! ### A small specification vocabulary -/

/-- `n` as `k` little-endian bytes. -/
def le : Nat → Nat → Bytes
  | _, 0 => []
  | n, k + 1 => UInt8.ofNat (n % 256) :: le (n / 256) k

/-- The number two's complement assigns to a 64-bit pattern. -/
def signed (n : Nat) : Int := if n < 2 ^ 63 then n else (n : Int) - 2 ^ 64

theorem and_ff (n : Nat) : n &&& 0xff = n % 256 := Nat.and_two_pow_sub_one_eq_mod n 8

theorem le16_le (n : Nat) : le16 n = le n 2 := by
  simp only [le16, le, and_ff, Nat.shiftRight_eq_div_pow]

theorem le32_le (n : Nat) : le32 n = le n 4 := by
  simp only [le32, le, and_ff, Nat.shiftRight_eq_div_pow, Nat.div_div_eq_div_mul]

/-- A sample value: nested containers, both integer kinds, short and long strings, a blob, an
empty key, a repeated key. -/
def sample : Val :=
  .map [([0x61], .arr [.int (-5), .uint 7, .dbl 0x3ff0000000000000, .null, .bool true]),
        ([], .str (List.replicate 20 0x78)), ([0x62], .blob [1, 2, 3]), ([0x61], .str [0x79]),
        ([0x63], .map [])]

/-! ### C01, C03: round trip and misuse -/

/-- C03: any sequence of writer calls, then `finish()`: either the calls spell a value and the
buffer presents it, or a SerializationError is raised. -/
theorem c03_zera_calls (thr : Nat) (es : List Ev) :
    (∃ b v r, serializeEvs thr es = .ok b ∧ Tree.eval es = some v ∧ initFrom b = .ok r ∧
      reader.AgreesStrictly r v) ∨
    serializeEvs thr es = .err .ser := by
  by_cases ht : thr > InlineMax
  · right; simp [serializeEvs, setThreshold, ht]
  have h0 : setThreshold {} thr = .ok { thr := thr } := by simp [setThreshold, ht]
  simp only [serializeEvs, h0, Res.ok_bind]
  rcases run_sim es (rel_init thr) with ⟨s', t', h1, h2, R, _⟩ | h1
  · rw [h1, Res.ok_bind]
    rcases finish_sim R with ⟨b, v, env, arena, root, ao, vr, f1, f2, F, hat, hr⟩ | hf
    · left
      obtain ⟨o1, o2⟩ := F.opens hat hr.length
      refine ⟨b, v, _, f1, ?_, o1, agrees_of_aligned (hr.agreesAligned v o2 rfl hat)⟩
      simp [Tree.eval, h2, f2]
    · right; exact hf
  · right; simp [h1]

/-- C03: a malformed sequence (value without key, dangling key, mismatched end, second root,
open container) is a SerializationError. -/
theorem c03_zera_malformed (thr : Nat) {es : List Ev} (h : Tree.eval es = none) :
    serializeEvs thr es = .err .ser := by
  rcases c03_zera_calls thr es with ⟨_, _, _, _, h', _⟩ | h'
  · rw [h] at h'; cases h'
  · exact h'

example : Tree.eval [.beginMap 1, .key [0x61], .endMap] = none := rfl
example : Tree.eval [.beginArr 0, .null, .endMap] = none := rfl
example : Tree.eval [.null, .null] = none := rfl

/-- C01: round trip. -/
theorem c01_zera_round_trip (thr : Nat) (v : Val) {b : Bytes}
    (h : serializeEvs thr (emit v) = .ok b) :
    ∃ r, initFrom b = .ok r ∧ reader.AgreesStrictly r v := by
  rcases c03_zera_calls thr (emit v) with ⟨b', v', r, h1, h2, h3, h4⟩ | h'
  · rw [h] at h1; injection h1 with h1; subst h1
    rw [Tree.eval_emit] at h2; injection h2 with h2; subst h2
    exact ⟨r, h3, h4⟩
  · rw [h] at h'; cases h'

/-- C01 for the default threshold, i.e. `serialize<Zera>(v)`. -/
theorem c01_zera_round_trip_default (v : Val) {b : Bytes} (h : serialize v = .ok b) :
    ∃ r, initFrom b = .ok r ∧ reader.AgreesStrictly r v := c01_zera_round_trip 12 v h

example : ∃ b, serialize sample = .ok b := by
  have h : (match serialize sample with | .ok _ => true | _ => false) = true := by decide +kernel
  cases hs : serialize sample with
  | ok b => exact ⟨b, rfl⟩
  | _ => rw [hs] at h; cases h

/-! ### C02: success within the limits -/

theorem step_erase (s : RS) (e : Ev) : step s e.erase = step s e := by cases e <;> rfl

theorem run_erase : ∀ (es : List Ev) (s : RS), writer.run s (es.map Ev.erase) = writer.run s es
  | [], _ => rfl
  | e :: es, s => by
    simp only [List.map_cons, Writer.run_cons, writer, step_erase]
    congr 1; funext s'; exact run_erase es s'

/-- Announced sizes do not matter: every call sequence that spells `v` gives the same result. -/
theorem serializeEvs_eval (thr : Nat) {es : List Ev} {v : Val} (h : Tree.eval es = some v) :
    serializeEvs thr es = serializeEvs thr (emit v) := by
  rcases (Tree.eval_iff es v).1 h with ⟨rfl, rfl⟩ | h
  · simp only [serializeEvs]
    cases hs : setThreshold {} thr with
    | ok s0 =>
      have : s0 = { thr := thr } := by
        simp only [setThreshold] at hs
        split at hs
        · cases hs
        · injection hs with hs; exact hs.symm
      subst this; rfl
    | _ => rfl
  · simp only [serializeEvs]
    congr 1; funext s
    rw [← run_erase es, h, run_erase]

/-- C02/C03: with an admissible threshold, a call sequence succeeds exactly if it spells a value
with keys of at most 65535 bytes whose envelope (with header and padding) and arena fit 32 bits. -/
theorem c02_zera_success_iff {thr : Nat} (hthr : thr ≤ 12) (es : List Ev) :
    (∃ b, serializeEvs thr es = .ok b) ↔
      ∃ v, Tree.eval es = some v ∧ v.ShortKeys ∧
        alignUp (36 + envCost v) 16 < 2 ^ 32 ∧ arenaAfter thr 0 v < 2 ^ 32 := by
  have key : ∀ v : Val, Tree.eval es = some v → ((∃ b, serializeEvs thr es = .ok b) ↔
      v.ShortKeys ∧ alignUp (36 + envCost v) 16 < 2 ^ 32 ∧ arenaAfter thr 0 v < 2 ^ 32) := by
    intro v hv
    rw [serializeEvs_eval thr hv, serializeEvs_emit_ok_iff hthr v]
    have e : 20 + (16 + envCost v) = 36 + envCost v := by omega
    rw [e]
    have hm : u32max = 2 ^ 32 - 1 := rfl
    rw [hm]
    constructor
    · rintro ⟨h1, h2, h3⟩; exact ⟨h1, by omega, by omega⟩
    · rintro ⟨h1, h2, h3⟩; exact ⟨h1, by omega, by omega⟩
  constructor
  · intro h
    cases hv : Tree.eval es with
    | none => obtain ⟨b, hb⟩ := h; rw [c03_zera_malformed thr hv] at hb; cases hb
    | some v => exact ⟨v, rfl, (key v hv).1 h⟩
  · rintro ⟨v, hv, h⟩; exact (key v hv).2 h

/-- C02: a key longer than 65535 bytes anywhere in the value is a SerializationError. -/
theorem c02_zera_long_key {thr : Nat} (hthr : thr ≤ 12) {v : Val} (h : ¬ v.ShortKeys) :
    serializeEvs thr (emit v) = .err .ser := by
  rcases c03_zera_calls thr (emit v) with ⟨b, _, _, h1, _⟩ | h'
  · exact (h (((serializeEvs_emit_ok_iff hthr v).1 ⟨b, h1⟩).1)).elim
  · exact h'

example (k : Bytes) (h : k.length = 65536) : ¬ (Val.arr [.map [(k, .null)]]).ShortKeys := by
  simp [Val.ShortKeys, Val.shortKeysList, Val.shortKeysEntries, h]
example (k : Bytes) (h : k.length = 65535) : (Val.arr [.map [(k, .null)]]).ShortKeys := by
  simp [Val.ShortKeys, Val.shortKeysList, Val.shortKeysEntries, h]

/-- C02, C08: the exact length of a serialization. -/
theorem c08_zera_length {thr : Nat} (hthr : thr ≤ 12) {v : Val} {b : Bytes}
    (h : serializeEvs thr (emit v) = .ok b) :
    b.length = alignUp (36 + envCost v) 16 + arenaAfter thr 0 v := by
  have := serializeEvs_emit_length hthr h
  have e : 20 + (16 + envCost v) = 36 + envCost v := by omega
  rwa [e] at this

/-! ### C04: arbitrary bytes -/

/-- Every accessor except key iteration returns or raises a DeserializationError. -/
structure AllClean (v : View) : Prop where
  isNull : v.isNull.Clean
  isBool : v.isBool.Clean
  isInt : v.isInt.Clean
  isUInt : v.isUInt.Clean
  isFloat : v.isFloat.Clean
  isString : v.isString.Clean
  isBlob : v.isBlob.Clean
  isMap : v.isMap.Clean
  isArray : v.isArray.Clean
  asBool : v.asBool.Clean
  asInt64 : v.asInt64.Clean
  asUInt64 : v.asUInt64.Clean
  asIntN : ∀ w, (v.asIntN w).Clean
  asUIntN : ∀ w, (v.asUIntN w).Clean
  asDouble : v.asDouble.Clean
  asString : v.asString.Clean
  asStringView : v.asStringView.Clean
  asBlob : v.asBlob.Clean
  contains : ∀ k, (v.contains k).Clean
  getKey : ∀ k, (v.getKey k).Clean
  arraySize : v.arraySize.Clean
  getIdx : ∀ i, (v.getIdx i).Clean
  toString : v.toStringOutcome.Clean

theorem allClean_of_inBuf {v : View} (S : InBuf v) : AllClean v where
  isNull := isKind_clean S _
  isBool := isKind_clean S _
  isInt := isKind_clean S _
  isUInt := isKind_clean S _
  isFloat := isKind_clean S _
  isString := isKind_clean S _
  isBlob := isBlob_clean S
  isMap := isKind_clean S _
  isArray := isKind_clean S _
  asBool := asBool_clean S
  asInt64 := asInt64_clean S
  asUInt64 := asUInt64_clean S
  asIntN := asIntN_clean S
  asUIntN := asUIntN_clean S
  asDouble := asDouble_clean S
  asString := asStringView_clean S
  asStringView := asStringView_clean S
  asBlob := asBlob_clean S
  contains := contains_clean S
  getKey := getKey_clean S
  arraySize := arraySize_clean S
  getIdx := getIdx_clean S
  toString := toStringOutcome_clean S

/-- C04: opening any byte string returns or raises a DeserializationError. -/
theorem c04_zera_open_clean (b : Bytes) : (initFrom b).Clean := initFrom_clean b

/-- C04 without the buffers of 4 GiB - 20 bytes and more: after opening, every accessor of every
reachable view returns or raises a DeserializationError. Missing: larger buffers, where the claim
is false (`c04_zera_reader_safe_refuted`). -/
theorem c04_zera_reader_safe_partial {b : Bytes} (hb : b.length < 2 ^ 32 - 20) {v w : View}
    (h : initFrom b = .ok v) (hr : reader.Reach v w) : AllClean w := by
  obtain ⟨p, rfl⟩ := reach_eq hr
  exact allClean_of_inBuf ((initFrom_inBuf hb h).withVr p)

/-- A default-constructed reader is safe as well. -/
theorem c04_zera_default_clean : AllClean defaultView :=
  ⟨.inr rfl, .inr rfl, .inr rfl, .inr rfl, .inr rfl, .inr rfl, .inr rfl, .inr rfl, .inr rfl, .inr rfl,
   .inr rfl, .inr rfl, fun _ => .inr rfl, fun _ => .inr rfl, .inr rfl, .inr rfl, .inr rfl, .inr rfl,
   fun _ => .inr rfl, fun _ => .inr rfl, .inr rfl, fun _ => .inr rfl, .inr rfl⟩

/-- The 20 header bytes. -/
def headerBytes (root es ao : Nat) : Bytes :=
  le32 Magic ++ le16 Version ++ le16 1 ++ le32 root ++ le32 es ++ le32 ao

theorem opens_of_header {b : Bytes} {root es ao : Nat} (h : At b 0 (headerBytes root es ao))
    (h1 : root < 2 ^ 32) (h2 : es < 2 ^ 32) (h3 : ao < 2 ^ 32) (h4 : es ≤ b.length)
    (h5 : root + 16 ≤ es) (h6 : ao ≤ b.length) (h7 : ao % 16 = 0) (h8 : u32 (HeaderSize + es) ≤ ao) :
    initFrom b = .ok ⟨b, es, ao, some (HeaderSize + root)⟩ := by
  have hb := h.bound
  have hl : HeaderSize ≤ b.length := by simpa [headerBytes, HeaderSize] using hb
  have r1 := readU32_at h.left.left.left.left.left
  have r2 := readU16_at h.left.left.left.left.right
  have r3 := readU16_at h.left.left.left.right
  have r4 := readU32_at h.left.left.right
  have r5 := readU32_at h.left.right
  have r6 := readU32_at h.right
  simp only [List.length_append, le32_length, le16_length, Nat.zero_add, Nat.reduceAdd] at r1 r2 r3 r4 r5 r6
  rw [Nat.mod_eq_of_lt h1] at r4
  rw [Nat.mod_eq_of_lt h2] at r5
  rw [Nat.mod_eq_of_lt h3] at r6
  have q1 : Magic % 2 ^ 32 = Magic := rfl
  have q2 : Version % 2 ^ 16 = Version := rfl
  have q3 : 1 % 2 ^ 16 = 1 := rfl
  rw [q1] at r1; rw [q2] at r2; rw [q3] at r3
  have q4 : root < es := by omega
  have q5 : root ≤ u64 (es + 2 ^ 64 - 16) := by simp only [u64]; omega
  have q6 : ao % ArenaBaseAlign = 0 := h7
  have q7 : ao ≥ u32 (HeaderSize + es) := h8
  simp only [initFrom, parseHeader, r1, r2, r3, r4, r5, r6, hl, h4, q4, q5, q6, h8, q7, h6, decide_true,
    Res.require_true, Res.ok_bind, Res.pure_eq]

theorem isNull_outside {b : Bytes} {es ao p : Nat} (h1 : HeaderSize ≤ p) (h2 : p + 16 ≤ HeaderSize + es)
    (h3 : b.length ≤ p) : View.isNull ⟨b, es, ao, some p⟩ = .ub := by
  have hu : byteAt b p = .ub := by simp [byteAt, h3]
  have hq : View.requireVr ⟨b, es, ao, some p⟩ = .ok p := by simp [View.requireVr, h1, h2]
  simp only [View.isNull, View.tag, hq, Res.ok_bind, hu, Res.ub_bind]

/-- C04 is false without the size bound: on a buffer of 2^32 - 20 bytes the 32-bit sum in the
header check wraps, the reader opens, and the first access reads past the end. -/
theorem c04_zera_reader_safe_refuted :
    ¬ ∀ (b : Bytes) (v : View), initFrom b = .ok v → AllClean v := by
  intro h
  obtain ⟨n, hn⟩ : ∃ n, n = 2 ^ 32 - 20 := ⟨_, rfl⟩
  obtain ⟨t, ht⟩ : ∃ t : Bytes, t.length = n - 20 := ⟨_, List.length_replicate (a := 0)⟩
  have e20 : HeaderSize = 20 := rfl
  have hl : (headerBytes (n - 16) n 0 ++ t).length = n := by
    have : (headerBytes (n - 16) n 0).length = 20 := rfl
    rw [List.length_append, ht, this]; omega
  have hw : u32 (HeaderSize + n) = 0 := by rw [hn]; rfl
  have hc := (h (headerBytes (n - 16) n 0 ++ t) _ (opens_of_header (root := n - 16) (es := n) (ao := 0)
    ⟨[], t, rfl, rfl⟩ (by omega) (by omega) (by omega) (by omega) (by omega) (by omega) rfl
    (by omega))).isNull
  rw [isNull_outside (by omega) (by omega) (by omega)] at hc
  rcases hc with ⟨_, hc⟩ | hc <;> cases hc

/-! ### C05: key iteration -/

/-- C05 for buffers with at least two bytes after the envelope. Missing: buffers that end with
the envelope, where the claim is false (`c05_zera_keys_refuted`). -/
theorem c05_zera_keys_partial {b : Bytes} (hb : b.length < 2 ^ 32 - 20) {v w : View}
    (h : initFrom b = .ok v) (hr : reader.Reach v w) (h2 : HeaderSize + v.envSize + 2 ≤ b.length) :
    w.mapKeys.Clean := by
  have hv : v.buf = b := by obtain ⟨_, hv, _⟩ := initFrom_eq h; rw [hv]
  obtain ⟨p, rfl⟩ := reach_eq hr
  have S := initFrom_inBuf hb h
  exact mapKeys_clean (S.withVr p) (by rw [hv]; exact h2)

/-- Every buffer with a non-empty arena meets the hypothesis of `c05_zera_keys_partial` up to one
byte; a serialized map with a string in the arena is one. -/
example : ∃ b v, serialize (.map [([0x61], .str (List.replicate 20 0x78))]) = .ok b ∧
    initFrom b = .ok v ∧ HeaderSize + v.envSize + 2 ≤ b.length :=
  ⟨_, _, rfl, rfl, by decide +kernel⟩

/-- A 48-byte buffer whose envelope ends the buffer and holds an object with a count of one but no
entry. -/
def shortMap : Bytes :=
  le32 Magic ++ le16 1 ++ le16 1 ++ le32 0 ++ le32 28 ++ le32 48 ++
  (makeVr tObject 0 0 24 0 0 ++ [0, 0, 0, 0, 0, 0, 0, 0] ++ le32 1)

/-- C05 is false: `KeysView::iterator::operator*` reads the key length before any bound check. -/
theorem c05_zera_keys_refuted :
    ¬ ∀ (b : Bytes) (v : View), initFrom b = .ok v → v.mapKeys.Clean := by
  intro h
  have h1 : initFrom shortMap = .ok ⟨shortMap, 28, 48, some 20⟩ := by decide +kernel
  have h2 : View.mapKeys ⟨shortMap, 28, 48, some 20⟩ = .ub := by decide +kernel
  have := h _ _ h1
  rw [h2] at this
  rcases this with ⟨_, hc⟩ | hc <;> cases hc

/-! ### C06: views into the input -/

/-- C06: strings. -/
theorem c06_zera_string_view {b : Bytes} {v w : View} (h : initFrom b = .ok v)
    (hr : reader.Reach v w) {s : Bytes} (hs : w.asStringView = .ok s) :
    ∃ p, At b p s ∧
      ((20 ≤ p ∧ p + s.length ≤ 20 + v.envSize) ∨ (v.arenaOfs ≤ p ∧ p + s.length ≤ b.length)) := by
  obtain ⟨_, hv, _, _, _, _, _, ha, _⟩ := initFrom_eq h
  obtain ⟨x, rfl⟩ := reach_eq hr
  obtain ⟨⟨p, n⟩, h1, h2⟩ := Res.bind_eq_ok.1 hs
  have hb : v.buf = b := by rw [hv]
  simp only [hb, sliceAt] at h2
  split at h2
  · rename_i hle
    injection h2 with h2
    have hat := At.of_slice hle
    rw [h2] at hat
    have hl : s.length = n := by rw [← h2]; simp; omega
    refine ⟨p, hat, ?_⟩
    rw [hl]
    rcases stringRange_eq h1 with h | h
    · exact .inl h
    · simp only [View.arenaLen, hb] at h
      exact .inr ⟨h.1, by omega⟩
  · cases h2

/-- C06: blobs. -/
theorem c06_zera_blob_view {b : Bytes} {v w : View} (h : initFrom b = .ok v)
    (hr : reader.Reach v w) {s : Bytes} (hs : w.asBlob = .ok s) :
    ∃ p, At b p s ∧ v.arenaOfs ≤ p ∧ p + s.length ≤ b.length := by
  obtain ⟨_, hv, _, _, _, _, _, ha, _⟩ := initFrom_eq h
  obtain ⟨x, rfl⟩ := reach_eq hr
  obtain ⟨⟨p, n⟩, h1, h2⟩ := Res.bind_eq_ok.1 hs
  have hb : v.buf = b := by rw [hv]
  simp only [hb, sliceAt] at h2
  split at h2
  · rename_i hle
    injection h2 with h2
    have hat := At.of_slice hle
    rw [h2] at hat
    have hl : s.length = n := by rw [← h2]; simp; omega
    refine ⟨p, hat, ?_⟩
    rw [hl]
    have h := blobRange_eq h1
    simp only [View.arenaLen, hb] at h
    exact ⟨h.1, by omega⟩
  · cases h2

/-! ### C07: element access -/

/-- What a successful `operator[](i)` read: the array offset `a`, the count `n`, `i < n`. -/
theorem getIdx_spec {v w : View} {i : Nat} (h : v.getIdx i = .ok w) :
    ∃ a n, v.a = .ok a ∧ readU32 v.buf (20 + a) = .ok n ∧ i < n ∧
      u32 (a + 4 + 16 * i) + 16 ≤ v.envSize ∧
      w = { v with vr := some (20 + u32 (a + 4 + 16 * i)) } := by
  obtain ⟨_, _, h⟩ := Res.bind_eq_ok.1 h
  obtain ⟨_, _, h⟩ := Res.bind_eq_ok.1 h
  obtain ⟨_, _, h⟩ := Res.bind_eq_ok.1 h
  obtain ⟨a, ha, h⟩ := Res.bind_eq_ok.1 h
  obtain ⟨p, hp, h⟩ := Res.bind_eq_ok.1 h
  obtain ⟨n, hn, h⟩ := Res.bind_eq_ok.1 h
  obtain ⟨_, hi, h⟩ := Res.bind_eq_ok.1 h
  obtain ⟨q, hq, h⟩ := Res.bind_eq_ok.1 h
  injection h with h
  have hp := envPtrAt_eq hp
  have hq := envPtrAt_eq hq
  have hi := of_decide_eq_true (Res.require_eq_ok.1 hi)
  rw [hp.1] at hn
  exact ⟨a, n, ha, hn, hi, hq.2, by rw [← h, hq.1]; rfl⟩

/-- C07 for indexes whose element offset fits 32 bits (in particular every index below 2^28 - 1 of
an array in the first 16 bytes). Missing: larger indexes, where the claim is false
(`c07_zera_element_refuted`). -/
theorem c07_zera_element_partial {v w : View} {i : Nat} (h : v.getIdx i = .ok w) :
    ∃ a, v.a = .ok a ∧ (a + 4 + 16 * i < 2 ^ 32 →
      w = { v with vr := some (20 + a + 4 + 16 * i) } ∧ a + 4 + 16 * i + 16 ≤ v.envSize) := by
  obtain ⟨a, n, ha, _, _, h1, h2⟩ := getIdx_spec h
  refine ⟨a, ha, fun hlt => ?_⟩
  have e : u32 (a + 4 + 16 * i) = a + 4 + 16 * i := Nat.mod_eq_of_lt hlt
  rw [e] at h1 h2
  exact ⟨by rw [h2]; congr 2; omega, h1⟩

/-- C07 whenever `arraySize()` succeeds: indexes below it give the i-th reference, inside the
envelope, all others a DeserializationError. -/
theorem c07_zera_element_of_size {v : View} {n : Nat} (henv : v.envSize < 2 ^ 32)
    (h : v.arraySize = .ok n) :
    ∃ a, v.a = .ok a ∧ (∀ i, i < n → v.getIdx i = .ok { v with vr := some (20 + a + 4 + 16 * i) } ∧
        a + 4 + 16 * i + 16 ≤ v.envSize) ∧
      (∀ i, n ≤ i → v.getIdx i = .err .deser) := by
  obtain ⟨t, ht, h⟩ := Res.bind_eq_ok.1 h
  obtain ⟨u, hu, h⟩ := Res.bind_eq_ok.1 h
  obtain ⟨f, hf, h⟩ := Res.bind_eq_ok.1 h
  obtain ⟨a, ha, h⟩ := Res.bind_eq_ok.1 h
  obtain ⟨p, hp, h⟩ := Res.bind_eq_ok.1 h
  obtain ⟨c, hc, h⟩ := Res.bind_eq_ok.1 h
  obtain ⟨q, hq, h⟩ := Res.bind_eq_ok.1 h
  injection h with h
  subst h
  have hq' := envPtrAt_eq hq
  refine ⟨a, ha, fun i hi => ?_, fun i hi => ?_⟩
  · have e : u32 (a + 4 + 16 * i) = a + 4 + 16 * i := Nat.mod_eq_of_lt (by omega)
    have hle : a + 4 + 16 * i + 16 ≤ v.envSize := by omega
    refine ⟨?_, hle⟩
    simp only [View.getIdx, ht, hu, hf, ha, hp, hc, Res.ok_bind, hi, decide_true, Res.require_true, e,
      envPtrAt_ok hle, Res.pure_eq, HeaderSize]
    congr 3; omega
  · have : ¬ i < c := by omega
    simp only [View.getIdx, ht, hu, hf, ha, hp, hc, Res.ok_bind, this, decide_false, Res.require_false,
      Res.err_bind]

/-- A corrupt array that claims 2^32 - 1 elements and stores one. -/
def longArr : Bytes :=
  le32 Magic ++ le16 1 ++ le16 1 ++ le32 0 ++ le32 44 ++ le32 64 ++
  (makeVr tArray 0 0 16 0 0 ++ le32 (2 ^ 32 - 1) ++ makeVr tBool 0 1 0 0 0 ++ [0, 0, 0, 0, 0, 0, 0, 0])

/-- C07 is false: index 2^28 of a corrupt array returns element 0, because the element offset is
truncated to 32 bits before the bound check. -/
theorem c07_zera_element_refuted :
    ¬ ∀ (b : Bytes) (v w : View) (i : Nat), initFrom b = .ok v → v.getIdx i = .ok w →
      ∃ a, v.a = .ok a ∧ w.vr = some (20 + a + 4 + 16 * i) := by
  intro h
  have h1 : initFrom longArr = .ok ⟨longArr, 44, 64, some 20⟩ := by decide +kernel
  have h2 : View.getIdx ⟨longArr, 44, 64, some 20⟩ (2 ^ 28) = .ok ⟨longArr, 44, 64, some 40⟩ := by
    decide +kernel
  obtain ⟨a, _, ha⟩ := h _ _ _ _ h1 h2
  injection ha with ha
  omega

/-! ### C08, C09: layout -/

theorem finished_of_ok {thr : Nat} {es : List Ev} {b : Bytes} (h : serializeEvs thr es = .ok b) :
    ∃ v env arena root ao vr, Tree.eval es = some v ∧ Finished b env arena root ao ∧ At env root vr ∧
      Repr env arena vr v := by
  simp only [serializeEvs] at h
  obtain ⟨s0, h0, h⟩ := Res.bind_eq_ok.1 h
  have : s0 = { thr := thr } := by
    simp only [setThreshold] at h0
    split at h0
    · cases h0
    · injection h0 with h0; exact h0.symm
  subst this
  obtain ⟨s, h1, h2⟩ := Res.bind_eq_ok.1 h
  rcases run_sim es (rel_init thr) with ⟨s', t', r1, r2, R, _⟩ | r1
  · rw [h1] at r1; injection r1 with r1; subst r1
    rcases finish_sim R with ⟨b', v, env, arena, root, ao, vr, f1, f2, F, hat, hr⟩ | hf
    · rw [h2] at f1; injection f1 with f1; subst f1
      exact ⟨v, env, arena, root, ao, vr, by simp [Tree.eval, r2, f2], F, hat, hr⟩
    · rw [h2] at hf; cases hf
  · rw [h1] at r1; cases r1

/-- C08: magic "ZENV", version 1, flags 1, root offset, envelope size, arena offset (little-endian),
envelope, zero padding, arena at a multiple of 16; the root reference lies inside the envelope. -/
theorem c08_zera_layout {thr : Nat} {es : List Ev} {b : Bytes} (h : serializeEvs thr es = .ok b) :
    ∃ (env arena : Bytes) (root pad : Nat),
      b = [0x5A, 0x45, 0x4E, 0x56, 1, 0, 1, 0] ++ le root 4 ++ le env.length 4 ++
        le (20 + env.length + pad) 4 ++ env ++ List.replicate pad 0 ++ arena ∧
      pad < 16 ∧ (20 + env.length + pad) % 16 = 0 ∧ root + 16 ≤ env.length ∧
      20 + env.length + pad < 2 ^ 32 ∧ arena.length < 2 ^ 32 := by
  obtain ⟨v, env, arena, root, ao, vr, _, F, hat, hr⟩ := finished_of_ok h
  have hb := hat.bound
  rw [hr.length] at hb
  have h1 := F.arenaOfs_eq
  have h2 := alignUp_ge (HeaderSize + env.length) ArenaBaseAlign
  have h3 := alignUp_lt (HeaderSize + env.length) (a := ArenaBaseAlign) (by decide)
  have h4 := alignUp_dvd (HeaderSize + env.length) (a := ArenaBaseAlign) (by decide)
  rw [← h1] at h2 h3 h4
  have h5 := F.arenaOfsLt
  have e20 : HeaderSize = 20 := rfl
  have e16 : ArenaBaseAlign = 16 := rfl
  rw [e20, e16] at h3; rw [e16] at h4; rw [e20] at h2
  have hao : ao = 20 + env.length + (ao - (20 + env.length)) := by omega
  refine ⟨env, arena, root, ao - (20 + env.length), ?_, by omega, by rw [← hao]; exact h4, hb,
    by omega, F.arenaLt⟩
  rw [F.eq, ← hao]
  simp only [assemble, le32_le root, le32_le env.length, le32_le ao, e20]
  rfl

/-- C09: every blob reachable in a serialization starts at a multiple of 16. -/
theorem c09_zera_blob_aligned {thr : Nat} {es : List Ev} {b : Bytes}
    (h : serializeEvs thr es = .ok b) {v w : View} (hv : initFrom b = .ok v)
    (hr : reader.Reach v w) {p n : Nat} (hb : w.blobRange = .ok (p, n)) : p % 16 = 0 := by
  obtain ⟨val, env, arena, root, ao, vr, _, F, hat, hrep⟩ := finished_of_ok h
  obtain ⟨o1, o2⟩ := F.opens hat hrep.length
  rw [hv] at o1; injection o1 with o1; subst o1
  have ha := hrep.agreesAligned val o2 rfl hat
  obtain ⟨val', hw⟩ := Reader.AgreesStrictly.reach readerAligned_kinded ha (reach_aligned hr)
  have hblob : w.isBlob = .ok true := by
    obtain ⟨x, hx, hb⟩ := Res.bind_eq_ok.1 hb
    obtain ⟨_, hb, _⟩ := Res.bind_eq_ok.1 hb
    have := Res.require_eq_ok.1 hb
    rw [this] at hx; exact hx
  cases hw with
  | blob _ hbl _ =>
    simp only [readerAligned, hb, Res.ok_bind] at hbl
    obtain ⟨_, h1, _⟩ := Res.bind_eq_ok.1 hbl
    exact of_decide_eq_true (Res.require_eq_ok.1 h1)
  | null hs => have := hs.2.2.2.2.2.1; rw [show readerAligned.isBlob w = w.isBlob from rfl, hblob] at this; cases this
  | bool hs => have := hs.2.2.2.2.2.1; rw [show readerAligned.isBlob w = w.isBlob from rfl, hblob] at this; cases this
  | int hs => have := hs.1.2.2.2.2.2.1; rw [show readerAligned.isBlob w = w.isBlob from rfl, hblob] at this; cases this
  | uint hs => have := hs.1.2.2.2.2.2.1; rw [show readerAligned.isBlob w = w.isBlob from rfl, hblob] at this; cases this
  | dbl hs => have := hs.2.2.2.2.2.1; rw [show readerAligned.isBlob w = w.isBlob from rfl, hblob] at this; cases this
  | str hs => have := hs.2.2.2.2.2.1; rw [show readerAligned.isBlob w = w.isBlob from rfl, hblob] at this; cases this
  | arr _ hs => have := hs.2.2.2.2.2.1; rw [show readerAligned.isBlob w = w.isBlob from rfl, hblob] at this; cases this
  | map _ hs => have := hs.2.2.2.2.2.1; rw [show readerAligned.isBlob w = w.isBlob from rfl, hblob] at this; cases this

/-! ### C10, C11: integers -/

/-- A view at 16 bytes of the envelope: tag, flags 0, two aux bytes, eight little-endian bytes of
`n`, four more bytes. -/
structure AtInt (v : View) (tag : UInt8) (n : Nat) : Prop where
  pos : ∃ q aux c, v.vr = some q ∧ 20 ≤ q ∧ q + 16 ≤ 20 + v.envSize ∧ aux.length = 2 ∧ c.length = 4 ∧
    At v.buf q ([tag, 0] ++ aux ++ (le n 8 ++ c))

theorem atInt_reads {v : View} {tag : UInt8} {n : Nat} (hn : n < 2 ^ 64) (h : AtInt v tag n) :
    v.tag = .ok tag.toNat ∧ v.flags = .ok 0 ∧ v.bits = .ok n := by
  obtain ⟨q, aux, c, hv, h1, h2, ha, hc, hat⟩ := h.pos
  have hr : v.requireVr = .ok q := by
    simp only [View.requireVr, hv]
    have : (decide (HeaderSize ≤ q) && decide (q + 16 ≤ HeaderSize + v.envSize)) = true := by
      rw [Bool.and_eq_true]; exact ⟨decide_eq_true h1, decide_eq_true h2⟩
    rw [this]; rfl
  have b0 := hat.left.left.byteAt (i := 0) (by simp)
  have b1 := hat.left.left.byteAt (i := 1) (by simp)
  simp only [Nat.add_zero, List.getElem_cons_zero, List.getElem_cons_succ] at b0 b1
  have hle : At v.buf (q + 4) (le n 8) := by
    have := hat.right.left
    simpa [ha] using this
  have e8 : le n 8 = le32 n ++ le32 (n / 2 ^ 32) := by
    rw [le32_le, le32_le]
    simp [le, Nat.div_div_eq_div_mul]
  rw [e8] at hle
  have ra := readU32_at hle.left
  have rb := readU32_at hle.right
  rw [le32_length] at rb
  refine ⟨by simp only [View.tag, hr, Res.ok_bind, b0], by
    simp only [View.flags, hr, Res.ok_bind, b1]; rfl, ?_⟩
  simp only [View.bits, View.a, View.b, hr, Res.ok_bind, ra, rb, Res.pure_eq]
  rw [or_shift_add (by omega)]
  congr 1; omega

theorem ofNat_toInt {n : Nat} (hn : n < 2 ^ 64) : (UInt64.ofNat n).toInt64.toInt = signed n := by
  have h1 : (UInt64.ofNat n).toNat = n := by simp; omega
  have es : Int64.size = 2 ^ 64 := rfl
  rw [UInt64.toInt64_ofNat', Int64.toInt_ofNat', Int.bmod_def, signed, es]
  have : (n : Int) % (2 ^ 64 : Nat) = n := by omega
  rw [this]
  split <;> split <;> omega

/-- C10, tag I64: `asInt64` returns the stored number, `asUInt64` does so if it is not negative
and raises a DeserializationError otherwise. -/
theorem c10_zera_signed {v : View} {n : Nat} (hn : n < 2 ^ 64) (h : AtInt v 2 n) :
    (∃ x, v.asInt64 = .ok x ∧ x.toInt = signed n) ∧
    (0 ≤ signed n → ∃ y, v.asUInt64 = .ok y ∧ (y.toNat : Int) = signed n) ∧
    (signed n < 0 → v.asUInt64 = .err .deser) := by
  obtain ⟨ht, hf, hb⟩ := atInt_reads hn h
  have hfl : v.requireFlagsOk = .ok () := by
    simp only [View.requireFlagsOk, ht, hf, Res.ok_bind]; rfl
  have hs := ofNat_toInt hn
  refine ⟨⟨(UInt64.ofNat n).toInt64, ?_, hs⟩, fun h0 => ⟨UInt64.ofNat n, ?_, ?_⟩, fun h0 => ?_⟩
  · simp only [View.asInt64, ht, hfl, hb, Res.ok_bind]; rfl
  · simp only [View.asUInt64, ht, hfl, hb, Res.ok_bind]
    simp only [hs, h0]; simp [tI64]
  · have : (UInt64.ofNat n).toNat = n := by simp; omega
    rw [this]; unfold signed at h0 ⊢; split <;> rename_i hh
    · rfl
    · rw [if_neg hh] at h0; omega
  · simp only [View.asUInt64, ht, hfl, hb, Res.ok_bind]
    have : ¬ 0 ≤ signed n := by omega
    simp only [hs, this]; simp [tI64]

/-- C10, tag U64: `asUInt64` returns the stored number, `asInt64` does so if it is below 2^63 and
raises a DeserializationError otherwise. -/
theorem c10_zera_unsigned {v : View} {n : Nat} (hn : n < 2 ^ 64) (h : AtInt v 8 n) :
    (∃ y, v.asUInt64 = .ok y ∧ y.toNat = n) ∧
    (n < 2 ^ 63 → ∃ x, v.asInt64 = .ok x ∧ x.toInt = n) ∧
    (2 ^ 63 ≤ n → v.asInt64 = .err .deser) := by
  obtain ⟨ht, hf, hb⟩ := atInt_reads hn h
  have hfl : v.requireFlagsOk = .ok () := by
    simp only [View.requireFlagsOk, ht, hf, Res.ok_bind]; rfl
  refine ⟨⟨UInt64.ofNat n, ?_, by simp; omega⟩, fun h0 => ⟨(UInt64.ofNat n).toInt64, ?_, ?_⟩, fun h0 => ?_⟩
  · simp only [View.asUInt64, ht, hfl, hb, Res.ok_bind]; rfl
  · simp only [View.asInt64, ht, hfl, hb, Res.ok_bind]
    have : n ≤ 2 ^ 63 - 1 := by omega
    simp [tU64, this]
  · rw [ofNat_toInt hn]; simp [signed, h0]
  · simp only [View.asInt64, ht, hfl, hb, Res.ok_bind]
    have : ¬ n ≤ 2 ^ 63 - 1 := by omega
    simp [tU64, this]

/-- The hypotheses of C10 are met by every integer that is serialized, for instance -5. -/
example : ∃ b v, serialize (.int (-5)) = .ok b ∧ initFrom b = .ok v ∧ AtInt v 2 (2 ^ 64 - 5) := by
  refine ⟨_, _, rfl, rfl, ⟨20, [0, 0], [0, 0, 0, 0], rfl, by decide, by decide, rfl, rfl, ?_⟩⟩
  exact ⟨headerBytes 0 16 48, List.replicate 12 0, by decide +kernel, rfl⟩

/-- C11 for ZERA: the narrow accessors return the 64-bit number if and only if it fits, and raise
a DeserializationError if it does not. -/
theorem c11_zera_narrow_signed (v : View) (w : Nat) (z : Int) :
    v.asIntN w = .ok z ↔
      ∃ x, v.asInt64 = .ok x ∧ x.toInt = z ∧ -(2 ^ (w - 1) : Int) ≤ z ∧ z < (2 ^ (w - 1) : Int) := by
  unfold View.asIntN
  cases h : v.asInt64 with
  | ok x =>
    simp only [Res.ok_bind]
    split
    · rename_i hc
      constructor
      · intro h; cases h
      · rintro ⟨y, hy, rfl, h1, h2⟩; injection hy with hy; subst hy; omega
    · rename_i hc
      constructor
      · intro h; injection h with h; subst h; exact ⟨x, rfl, rfl, by omega, by omega⟩
      · rintro ⟨y, hy, rfl, h1, h2⟩; injection hy with hy; subst hy; rfl
  | _ => simp

theorem c11_zera_narrow_signed_throws {v : View} {w : Nat} {x : Int64} (h : v.asInt64 = .ok x)
    (hx : x.toInt < -(2 ^ (w - 1) : Int) ∨ (2 ^ (w - 1) : Int) ≤ x.toInt) :
    v.asIntN w = .err .deser := by
  unfold View.asIntN
  simp only [h, Res.ok_bind]
  rw [if_pos (by omega)]

theorem c11_zera_narrow_unsigned (v : View) (w : Nat) (n : Nat) :
    v.asUIntN w = .ok n ↔ ∃ x, v.asUInt64 = .ok x ∧ x.toNat = n ∧ n < 2 ^ w := by
  have hp := Nat.two_pow_pos w
  unfold View.asUIntN
  cases h : v.asUInt64 with
  | ok x =>
    simp only [Res.ok_bind]
    split
    · rename_i hc
      constructor
      · intro h; cases h
      · rintro ⟨y, hy, rfl, h1⟩; injection hy with hy; subst hy; omega
    · rename_i hc
      constructor
      · intro h; injection h with h; subst h; exact ⟨x, rfl, rfl, by omega⟩
      · rintro ⟨y, hy, rfl, h1⟩; injection hy with hy; subst hy; rfl
  | _ => simp

theorem c11_zera_narrow_unsigned_throws {v : View} {w : Nat} {x : UInt64} (h : v.asUInt64 = .ok x)
    (hx : 2 ^ w ≤ x.toNat) : v.asUIntN w = .err .deser := by
  have hp := Nat.two_pow_pos w
  unfold View.asUIntN
  simp only [h, Res.ok_bind]
  rw [if_pos (by omega)]

/-! ### C12: injectivity -/

/-- C12 for ZERA: whatever the thresholds, equal buffers come from equal values. -/
theorem c12_zera_injective {thr thr' : Nat} {v w : Val} {b : Bytes}
    (h : serializeEvs thr (emit v) = .ok b) (h' : serializeEvs thr' (emit w) = .ok b) : v = w := by
  obtain ⟨v1, env, arena, root, ao, vr, e1, F, hat, hr⟩ := finished_of_ok h
  obtain ⟨w1, env', arena', root', ao', vr', e2, F', hat', hr'⟩ := finished_of_ok h'
  rw [Tree.eval_emit] at e1 e2
  injection e1 with e1; injection e2 with e2
  subst e1; subst e2
  obtain ⟨rfl, rfl, rfl⟩ := F.det F'
  have := hat.inj hat' (by rw [hr.length, hr'.length])
  subst this
  exact Repr.det F.envLt v hr hr'

/-! ### C53, C54 -/

/-- C53 for ZERA: `finish()` without any call gives a buffer that reads as null. -/
theorem c53_zera_empty_null {thr : Nat} (h : thr ≤ 12) :
    ∃ b r, serializeEvs thr [] = .ok b ∧ initFrom b = .ok r ∧ r.isNull = .ok true := by
  obtain ⟨b, hb⟩ := (c02_zera_success_iff h []).2 ⟨.null, rfl, by
    simp [Val.ShortKeys], by decide, by simp [arenaAfter]⟩
  rcases c03_zera_calls thr [] with ⟨b', v, r, h1, h2, h3, h4⟩ | h'
  · injection h2 with h2; subst h2
    cases h4 with
    | null hs => exact ⟨b', r, h1, h3, hs.1⟩
  · rw [hb] at h'; cases h'

/-- C54 for ZERA: on any bytes, at most one kind predicate holds. -/
theorem c54_zera_kinds_exclusive (v : View) :
    ([v.isNull, v.isBool, v.isInt, v.isUInt, v.isFloat, v.isString, v.isBlob, v.isMap,
      v.isArray].filter (· = .ok true)).length ≤ 1 := by
  cases ht : v.tag with
  | ok t =>
    simp only [View.isNull, View.isBool, View.isInt, View.isUInt, View.isFloat, View.isString,
      View.isBlob, View.isMap, View.isArray, ht, Res.ok_bind]
    by_cases h7 : t = tTyped
    · subst h7
      cases hx : v.aux with
      | ok x => by_cases h2 : x = dtU8 <;>
          simp [h2, tNull, tBool, tI64, tU64, tF64, tString, tTyped, tObject, tArray]
      | _ => simp [tNull, tBool, tI64, tU64, tF64, tString, tTyped, tObject, tArray]
    · simp only [h7, if_false]
      by_cases h0 : t = tNull
      · subst h0; decide
      by_cases h1 : t = tBool
      · subst h1; decide
      by_cases h2 : t = tI64
      · subst h2; decide
      by_cases h3 : t = tU64
      · subst h3; decide
      by_cases h4 : t = tF64
      · subst h4; decide
      by_cases h5 : t = tString
      · subst h5; decide
      by_cases h6 : t = tObject
      · subst h6; decide
      by_cases h8 : t = tArray
      · subst h8; decide
      simp [h0, h1, h2, h3, h4, h5, h6, h8]
  | _ => simp [View.isNull, View.isBool, View.isInt, View.isUInt, View.isFloat, View.isString,
      View.isBlob, View.isMap, View.isArray, ht]

/-! ### C55: accessors of the wrong kind -/

/-- C55 for ZERA, any view of any bytes: an accessor of the wrong kind raises a
DeserializationError (`contains` answers false). -/
theorem c55_zera_wrong_kind (v : View) :
    (v.isBool = .ok false → v.asBool = .err .deser) ∧
    (v.isInt = .ok false → v.isUInt = .ok false →
      v.asInt64 = .err .deser ∧ v.asUInt64 = .err .deser) ∧
    (v.isFloat = .ok false → v.asDouble = .err .deser) ∧
    (v.isString = .ok false → v.asString = .err .deser ∧ v.asStringView = .err .deser) ∧
    (v.isBlob = .ok false → v.asBlob = .err .deser) ∧
    (v.isArray = .ok false → v.arraySize = .err .deser ∧ ∀ i, v.getIdx i = .err .deser) ∧
    (v.isMap = .ok false → v.mapKeys = .err .deser ∧ ∀ k, v.getKey k = .err .deser ∧
      v.contains k = .ok false) := by
  have key : ∀ (t' : Nat), (do let t ← v.tag; pure (decide (t = t')) : Res Bool) = .ok false →
      ∃ t, v.tag = .ok t ∧ t ≠ t' := by
    intro t' h
    obtain ⟨t, h1, h2⟩ := Res.bind_eq_ok.1 h
    exact ⟨t, h1, of_decide_eq_false (by injection h2)⟩
  refine ⟨fun h => ?_, fun h h' => ?_, fun h => ?_, fun h => ?_, fun h => ?_, fun h => ?_, fun h => ?_⟩
  · obtain ⟨t, h1, h2⟩ := key _ h
    simp [View.asBool, h1, h2, Res.require]
  · obtain ⟨t, h1, h2⟩ := key _ h
    obtain ⟨t1, h3, h4⟩ := key _ h'
    rw [h1] at h3; injection h3 with h3; subst h3
    simp [View.asInt64, View.asUInt64, h1, h2, h4, Res.require]
  · obtain ⟨t, h1, h2⟩ := key _ h
    simp [View.asDouble, h1, h2, Res.require]
  · obtain ⟨t, h1, h2⟩ := key _ h
    simp [View.asString, View.asStringView, View.stringRange, h1, h2, Res.require]
  · simp [View.asBlob, View.blobRange, h, Res.require]
  · obtain ⟨t, h1, h2⟩ := key _ h
    simp [View.arraySize, View.getIdx, h1, h2, Res.require]
  · obtain ⟨t, h1, h2⟩ := key _ h
    refine ⟨by simp [View.mapKeys, h1, h2, Res.require], fun k => ⟨?_, by simp [View.contains, h]⟩⟩
    simp [View.getKey, h1, h2, Res.require]

example : ∃ b v, serialize (.int (-5)) = .ok b ∧ initFrom b = .ok v ∧ v.isString = .ok false ∧
    v.isMap = .ok false := ⟨_, _, rfl, rfl, by decide +kernel, by decide +kernel⟩

end Zer.Zera
