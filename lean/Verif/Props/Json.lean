import Verif.Json.Agree
import Verif.Json.Toy
import Verif.Props.Cbor

/-!
# Properties of the JSON protocol

Theorems that mention printed text assume `T.Law`, the documented behaviour of yyjson; `toy_law` shows
that the law can be met.
-/

namespace Zer

/-- Conditions that do not look at the kind of an integer survive a change of kind. -/
theorem Val.each_canon {P : Val → Prop} {K : Bytes → Prop} (hP : ∀ v : Val, P v.canon ↔ P v) :
    ∀ v : Val, v.canon.Each P K ↔ v.Each P K := by
  intro v
  induction v using Val.ind with
  | int i =>
    have := hP (.int i)
    simp only [Val.canon] at this ⊢
    split <;> rename_i h
    · rw [if_pos h] at this; exact this
    · exact Iff.rfl
  | arr xs ih =>
    have := hP (.arr xs)
    simp only [Val.canon, Val.canonList_eq] at this
    simp only [Val.canon, Val.canonList_eq, Val.Each, this, Val.eachList_iff,
      List.mem_map, forall_exists_index, and_imp, forall_apply_eq_imp_iff₂]
    exact and_congr_right fun _ => ⟨fun h x hx => (ih x hx).1 (h x hx), fun h x hx => (ih x hx).2 (h x hx)⟩
  | map ms ih =>
    have := hP (.map ms)
    simp only [Val.canon, Val.canonEntries_eq] at this
    simp only [Val.canon, Val.canonEntries_eq, Val.Each, this, Val.eachEntries_iff,
      List.mem_map, forall_exists_index, and_imp, forall_apply_eq_imp_iff₂]
    exact and_congr_right fun _ => ⟨fun h x hx => ⟨(h x hx).1, (ih x hx).1 (h x hx).2⟩,
      fun h x hx => ⟨(h x hx).1, (ih x hx).2 (h x hx).2⟩⟩
  | _ => exact Iff.rfl

theorem Val.each_same {P : Val → Prop} {K : Bytes → Prop} (hP : ∀ v : Val, P v.canon ↔ P v) {v w : Val}
    (h : v.Same w) (hw : w.Each P K) : v.Each P K := by
  unfold Val.Same at h
  rw [← Val.each_canon hP, h, Val.each_canon hP]; exact hw

namespace Json
variable {T : Text}

/-! ### Domains -/

/-- Text that yyjson writes: finite floats, strings and keys in UTF-8. -/
def Textual (T : Text) (v : Val) : Prop :=
  v.Each (fun v => match v with
    | .dbl b => finiteBits b = true
    | .str s => T.utf8 s = true
    | _ => True) (fun k => T.utf8 k = true)

theorem encode_ascii (b : Bytes) : ∀ c ∈ Base64.encode b, c < 0x80 := by
  intro c hc
  obtain ⟨_, body, k, h, _, hb⟩ := Base64.c14_base64_shape b
  rw [h, List.mem_append] at hc
  rcases hc with hc | hc
  · obtain ⟨d, hd, rfl⟩ := hb c hc
    have : ∀ d : Fin 64, Base64.letter d.1 < 0x80 := by decide
    exact this ⟨d, hd⟩
  · rw [List.mem_replicate] at hc
    rw [hc.2]; decide

theorem printable_toDom (L : T.Law) : ∀ v : Val, Printable T (toDom v) ↔ Textual T v := by
  intro v
  induction v using Val.ind with
  | blob s =>
    simp only [toDom, Printable, Textual, Val.Each, Val.eachList, iff_true, and_true, true_and]
    exact ⟨L.ascii _ (by decide), L.ascii _ (encode_ascii s), L.ascii _ (by decide)⟩
  | arr xs ih =>
    simp only [toDom, toDomList_eq, Printable, Textual, Val.Each, true_and, Val.eachList_iff,
      List.mem_map, forall_exists_index, and_imp, forall_apply_eq_imp_iff₂]
    exact ⟨fun h x hx => (ih x hx).1 (h x hx), fun h x hx => (ih x hx).2 (h x hx)⟩
  | map ms ih =>
    simp only [toDom, toDomEntries_eq, Printable, Textual, Val.Each, true_and, Val.eachEntries_iff,
      List.mem_map, forall_exists_index, and_imp, forall_apply_eq_imp_iff₂]
    exact ⟨fun h x hx => ⟨(h x hx).1, (ih x hx).1 (h x hx).2⟩,
      fun h x hx => ⟨(h x hx).1, (ih x hx).2 (h x hx).2⟩⟩
  | _ => exact Iff.rfl

theorem canon_str {x : Val} {s : Bytes} (h : x.canon = .str s) : x = .str s := by
  cases x <;> simp only [Val.canon] at h <;> try (cases h; done)
  · split at h <;> cases h
  · injection h with h; rw [h]

theorem mimic_map_canon (xs : List Val) : Mimic (xs.map Val.canon) ↔ Mimic xs := by
  constructor
  · rintro ⟨t, h⟩
    match xs, h with
    | [], h => simp at h
    | [_], h => simp at h
    | [_, _], h => simp at h
    | _ :: _ :: _ :: _ :: _, h => simp at h
    | [x, y, z], h =>
      simp only [List.map_cons, List.map_nil, List.cons.injEq, and_true] at h
      rw [canon_str h.1, canon_str h.2.1, canon_str h.2.2]
      exact ⟨t, rfl⟩
  · rintro ⟨t, rfl⟩; exact ⟨t, rfl⟩

theorem plain_same {v w : Val} (h : v.Same w) (hw : Plain w) : Plain v := by
  refine Val.each_same ?_ h hw
  intro v
  cases v <;> simp only [Val.canon, Val.canonList_eq, iff_self]
  · rename_i i
    by_cases h : 0 ≤ i.toInt
    · have h2 : i.toUInt64.toNat = i.toInt.toNat := by
        have := Int64.toNat_toUInt64_of_le (x := i) (Int64.le_iff_toInt_le.2 (by simpa using h))
        rw [this]; rfl
      have := i.toInt_lt
      simp only [if_pos h, iff_true]
      omega
    · simp only [if_neg h]
  · exact not_congr (mimic_map_canon _)

theorem keysOk_same {v w : Val} (h : v.Same w) (hw : KeysOk w) : KeysOk v :=
  Val.each_same (fun _ => Iff.rfl) h hw

theorem textual_same {v w : Val} (h : v.Same w) (hw : Textual T w) : Textual T v := by
  refine Val.each_same ?_ h hw
  intro v
  cases v <;> simp only [Val.canon, iff_self]
  rename_i i
  by_cases h : 0 ≤ i.toInt
  · simp only [if_pos h]
  · simp only [if_neg h]

/-! ### C32: round trip -/

theorem serialize_ok_iff (L : T.Law) {dbg : Bool} {v : Val} (hk : KeysOk v) :
    (Textual T v → ∃ b, (proto T dbg).serialize v = .ok b ∧ T.parse b = some (toDom v).canon) ∧
    (¬ Textual T v → (proto T dbg).serialize v = .err .runtime) := by
  rw [serialize_eq, keysB_ok dbg hk, domC_eq hk, if_pos rfl]
  constructor
  · intro h
    obtain ⟨b, h1, h2⟩ := L.written _ ((printable_toDom L v).2 h)
    exact ⟨b, by rw [h1], h2⟩
  · intro h
    rw [L.refused _ (fun h' => h ((printable_toDom L v).1 h'))]

/-- C32: what is written is read back, for values with finite floats and UTF-8 text. Missing: integers
of 2^63 and more, arrays that look like blobs, empty keys and keys with a NUL
(`c32_json_round_trip_refuted`). -/
theorem c32_json_round_trip_partial (L : T.Law) (dbg : Bool) {v : Val} (ht : Textual T v) (hp : Plain v)
    (hk : KeysOk v) : ∃ b r, (proto T dbg).serialize v = .ok b ∧ opn T b = .ok r ∧ reader.Agrees r v := by
  obtain ⟨b, h1, h2⟩ := (serialize_ok_iff L hk).1 ht
  exact ⟨b, _, h1, by simp only [opn, h2], agrees_dom hp⟩

/-- C32: a value with an infinity, a NaN or text that is not UTF-8 is refused. -/
theorem c32_json_refuses (L : T.Law) (dbg : Bool) {v : Val} (ht : ¬ Textual T v) (hk : KeysOk v) :
    (proto T dbg).serialize v = .err .runtime := (serialize_ok_iff L hk).2 ht

/-- C32 for single integers: the exact condition. -/
theorem c32_json_uint (L : T.Law) (dbg : Bool) (n : UInt64) :
    ∃ b r, (proto T dbg).serialize (.uint n) = .ok b ∧ opn T b = .ok r ∧
      (reader.Agrees r (.uint n) ↔ n.toNat < 2 ^ 63) := by
  obtain ⟨b, h1, h2⟩ := (serialize_ok_iff (dbg := dbg) L (v := .uint n) trivial).1 trivial
  refine ⟨b, .uint n, h1, by simp only [opn, h2]; rfl, fun h => ?_, fun h => agrees_dom (v := .uint n) h⟩
  cases h with
  | uint h _ =>
    obtain ⟨x, hx, hz⟩ := h.2.1 rfl
    cases hx
    have := n.toInt64.toInt_lt
    omega

/-- C32 is false: 2^64 - 1 reads as -1, a three-element array reads as a blob, an empty key cannot be
written; without debug checks two different keys are written as the same one. -/
theorem c32_json_round_trip_refuted (L : T.Law) :
    (∀ dbg, ∃ b r, (proto T dbg).serialize (.uint 0xffffffffffffffff) = .ok b ∧ opn T b = .ok r ∧
      reader.isInt r = .ok true ∧ reader.asInt64 r = .ok (-1)) ∧
    (∀ dbg, ∃ b r, (proto T dbg).serialize (.arr [.str blobTag, .str [0x41], .str blobEncoding]) = .ok b ∧
      opn T b = .ok r ∧ reader.isBlob r = .ok true) ∧
    (∀ dbg, (proto T dbg).serialize (.map [([], .null)]) = .err .logic) ∧
    (∃ b r, (proto T false).serialize (.map [([0x61, 0], .null)]) = .ok b ∧ opn T b = .ok r ∧
      reader.contains r [0x61, 0] = .ok false ∧ reader.contains r [0x61] = .ok true) := by
  refine ⟨fun dbg => ?_, fun dbg => ?_, fun dbg => ?_, ?_⟩
  · obtain ⟨b, h1, h2⟩ := (serialize_ok_iff (dbg := dbg) L (v := .uint 0xffffffffffffffff) trivial).1 trivial
    exact ⟨b, _, h1, by simp only [opn, h2]; rfl, rfl, rfl⟩
  · obtain ⟨b, h1, h2⟩ := (serialize_ok_iff (dbg := dbg) L
      (v := .arr [.str blobTag, .str [0x41], .str blobEncoding]) (by simp [KeysOk, Val.Each, Val.eachList])).1
      ⟨trivial, L.ascii _ (by decide), L.ascii _ (by decide), L.ascii _ (by decide), trivial⟩
    exact ⟨b, _, h1, by simp only [opn, h2]; rfl, rfl⟩
  · rw [serialize_eq]; rfl
  · obtain ⟨b, h1, h2⟩ := L.written (.map [([0x61], .null)]) ⟨trivial, L.ascii _ (by decide), trivial, trivial⟩
    refine ⟨b, .map [([0x61], .null)], ?_, by simp only [opn, h2]; rfl, rfl, rfl⟩
    rw [serialize_eq]
    show (match T.print (.map [([0x61], .null)]) with | some b => Res.ok b | none => .err .runtime) = _
    rw [h1]

/-- A value in the domain of the round trip. -/
def sampleVal : Val := .map [([0x61], .arr [.int (-5), .uint 7, .null, .blob [1, 2, 3], .str [0x7e, 0x62]]),
  ([0x62], .dbl 0x3ff8000000000000)]

example : ∃ T : Text, T.Law ∧ Textual T sampleVal ∧ Plain sampleVal ∧ KeysOk sampleVal :=
  ⟨toy, toy_law, by simp [sampleVal, Textual, Val.Each, Val.eachList, Val.eachEntries, toy]; decide,
    by simp [sampleVal, Plain, Val.Each, Val.eachList, Val.eachEntries, Mimic],
    by simp [sampleVal, KeysOk, Val.Each, Val.eachList, Val.eachEntries, KeyOk]⟩

/-! ### C31: call sequences -/

/-- C31 for call sequences whose keys are usable (not empty, no NUL): if the calls spell a value, the
document is written, or refused for its floats or text; if they do not, an exception is raised or
containers are still open. Missing: other keys, and open containers (`c31_json_calls_refuted`). -/
theorem c31_json_calls_partial (L : T.Law) (dbg : Bool) {es : List Ev} (he : ∀ e ∈ es, EvOk e) :
    (∀ v, Tree.eval es = some v →
      (Textual T v ∧ ∃ b, (proto T dbg).bytesOf es = .ok b ∧ opn T b = .ok (toDom v).canon) ∨
      (¬ Textual T v ∧ (proto T dbg).bytesOf es = .err .runtime)) ∧
    (Tree.eval es = none → (proto T dbg).bytesOf es = .err .logic ∨
      ∃ t, Tree.run {} es = some t ∧ t.stack ≠ []) := by
  rcases run_sim dbg es rel_init he with ⟨s, t, h1, h2, h3⟩ | ⟨h1, h2⟩
  · have e : (proto T dbg).bytesOf es = finish T s := by
      show (writer dbg).run {} es >>= finish T = _
      rw [h1]; rfl
    constructor
    · intro v hv
      have hv' : t.finish = some v := by
        have := hv
        simp only [Tree.eval, h2, Option.bind_some] at this
        exact this
      rw [e, finish, rel_doc h3 hv']
      by_cases ht : Textual T v
      · obtain ⟨b, hb1, hb2⟩ := L.written _ ((printable_toDom L v).2 ht)
        exact .inl ⟨ht, b, by rw [hb1], by rw [opn, hb2]⟩
      · exact .inr ⟨ht, by rw [L.refused _ (fun h' => ht ((printable_toDom L v).1 h'))]⟩
    · intro hv
      refine .inr ⟨t, h2, fun h0 => ?_⟩
      simp only [Tree.eval, h2, Option.bind_some, Tree.finish, h0] at hv
      cases hv
  · constructor
    · intro v hv
      unfold Tree.eval at hv
      rw [h2] at hv
      cases hv
    · intro _
      left
      show (writer dbg).run {} es >>= finish T = _
      rw [h1]; rfl

/-- The hypotheses can be met: a sequence that spells a map, one with a second root, one left open. -/
example : (∀ e ∈ [Ev.beginMap 1, .key [0x61], .null, .endMap], EvOk e) ∧
    Tree.eval [Ev.beginMap 1, .key [0x61], .null, .endMap] = some (.map [([0x61], .null)]) ∧
    Tree.eval [Ev.null, .null] = none ∧ Tree.eval [Ev.beginArr 1, .null] = none :=
  ⟨by simp [EvOk, KeyOk], rfl, rfl, rfl⟩

/-- C31 is false. An open array is written as if it were closed; the empty string is not usable as a
key; a map whose only key has no value is written; in a build without debug checks a key is cut at a
NUL, in one with debug checks it is refused. -/
theorem c31_json_calls_refuted (L : T.Law) :
    (∀ dbg, Tree.eval [Ev.beginArr 1, .null] = none ∧
      (proto T dbg).bytesOf [.beginArr 1, .null] = (proto T dbg).serialize (.arr [.null]) ∧
      ∃ b, (proto T dbg).serialize (.arr [.null]) = .ok b) ∧
    (∀ dbg, Tree.eval [Ev.beginMap 1, .key [], .null, .endMap] = some (.map [([], .null)]) ∧
      (proto T dbg).bytesOf [.beginMap 1, .key [], .null, .endMap] = .err .logic) ∧
    (∀ dbg, Tree.eval [Ev.beginMap 1, .key [], .endMap] = none ∧
      (proto T dbg).bytesOf [.beginMap 1, .key [], .endMap] = (proto T dbg).serialize (.map []) ∧
      ∃ b, (proto T dbg).serialize (.map []) = .ok b) ∧
    ((proto T false).serialize (.map [([0x61, 0, 0x62], .null)]) =
        (proto T false).serialize (.map [([0x61], .null)]) ∧
      (proto T true).serialize (.map [([0x61, 0, 0x62], .null)]) = .err .logic) := by
  refine ⟨fun dbg => ⟨rfl, rfl, ?_⟩, fun dbg => ⟨rfl, rfl⟩, fun dbg => ⟨rfl, rfl, ?_⟩, ?_, ?_⟩
  · obtain ⟨b, h1, _⟩ := (serialize_ok_iff (dbg := dbg) L (v := .arr [.null])
      (by simp [KeysOk, Val.Each, Val.eachList])).1 ⟨trivial, trivial, trivial⟩
    exact ⟨b, h1⟩
  · obtain ⟨b, h1, _⟩ := (serialize_ok_iff (dbg := dbg) L (v := .map [])
      (by simp [KeysOk, Val.Each, Val.eachEntries])).1 ⟨trivial, trivial⟩
    exact ⟨b, h1⟩
  · rw [serialize_eq, serialize_eq]; rfl
  · rw [serialize_eq]; rfl

/-! ### C33: blobs and arrays -/

/-- C33 is false: the array ["~b", "AA==", "base64"] and the blob of one zero byte are written as the
same bytes, and these read as a blob. -/
theorem c33_json_blob_confusion_refuted (L : T.Law) (dbg : Bool) :
    ∃ b r s, (proto T dbg).serialize (.arr [.str blobTag, .str [0x41, 0x41, 0x3d, 0x3d], .str blobEncoding]) = .ok b ∧
      (proto T dbg).serialize (.blob [0]) = .ok b ∧ opn T b = .ok r ∧
      reader.isBlob r = .ok true ∧ reader.asBlob r = .ok s ∧ s = [0] := by
  obtain ⟨b, h1, h2⟩ := (serialize_ok_iff (dbg := dbg) L (v := .blob [0]) trivial).1 trivial
  have e : (proto T dbg).serialize (.arr [.str blobTag, .str [0x41, 0x41, 0x3d, 0x3d], .str blobEncoding]) =
      (proto T dbg).serialize (.blob [0]) := by
    rw [serialize_eq, serialize_eq]; rfl
  exact ⟨b, _, [0], by rw [e, h1], h1, by simp only [opn, h2]; rfl, rfl, rfl, rfl⟩

/-- C33, the exact condition: an array of strings reads as a blob if and only if it has three elements,
the first is "~b" and the last is "base64"; in every case it also reads as an array with its elements.
Missing: excluding the blobs, which is impossible (`c33_json_blob_confusion_refuted`). -/
theorem c33_json_strings_partial (L : T.Law) (dbg : Bool) {ss : List Bytes} (hs : ∀ s ∈ ss, T.utf8 s = true) :
    ∃ b r, (proto T dbg).serialize (.arr (ss.map .str)) = .ok b ∧ opn T b = .ok r ∧
      (reader.isBlob r = .ok true ↔ ∃ t, ss = [blobTag, t, blobEncoding]) ∧
      (reader.isBlob r = .ok true ∨ reader.isBlob r = .ok false) ∧
      reader.isArray r = .ok true ∧ reader.arraySize r = .ok ss.length ∧
      ∀ i (h : i < ss.length), (reader.getIdx r i >>= reader.asString) = .ok ss[i] := by
  have hk : KeysOk (.arr (ss.map .str)) := ⟨trivial, (Val.eachList_iff _).2 (by
    intro x hx; rw [List.mem_map] at hx; obtain ⟨s, _, rfl⟩ := hx; trivial)⟩
  have ht : Textual T (.arr (ss.map .str)) := ⟨trivial, (Val.eachList_iff _).2 (by
    intro x hx; rw [List.mem_map] at hx; obtain ⟨s, h, rfl⟩ := hx; exact hs s h)⟩
  obtain ⟨b, h1, h2⟩ := (serialize_ok_iff (dbg := dbg) L hk).1 ht
  have e : (toDom (.arr (ss.map .str))).canon = .arr (ss.map .str) := by
    rw [toDom_arr, List.map_map]; rfl
  rw [e] at h2
  have hm : Mimic (ss.map .str) ↔ ∃ t, ss = [blobTag, t, blobEncoding] := by
    constructor
    · rintro ⟨t, h⟩
      refine ⟨t, ?_⟩
      match ss, h with
      | [], h => simp at h
      | [_], h => simp at h
      | [_, _], h => simp at h
      | _ :: _ :: _ :: _ :: _, h => simp at h
      | [x, y, z], h => simpa using h
    · rintro ⟨t, rfl⟩; exact ⟨t, rfl⟩
  refine ⟨b, _, h1, by simp only [opn, h2]; rfl, ?_, ?_, rfl, by simp [reader, arraySize], ?_⟩
  · rw [← hm]
    constructor
    · intro h
      by_cases hn : Mimic (ss.map .str)
      · exact hn
      · have := isBlob_arr hn
        simp only [reader] at h
        rw [this] at h; cases h
    · rintro ⟨t, h⟩; rw [h]; exact isBlob_mimic t
  · by_cases hn : Mimic (ss.map .str)
    · obtain ⟨t, h⟩ := hn; rw [h]; exact .inl (isBlob_mimic t)
    · exact .inr (isBlob_arr hn)
  · intro i hi
    simp [reader, getIdx, hi, asString]

example : ∃ T : Text, T.Law ∧ ∀ s ∈ [[0x7e, 0x62], [0x41], [0x42]], T.utf8 s = true :=
  ⟨toy, toy_law, by simp [toy]⟩

/-! ### C11, C59: integer accessors -/

/-- C11 is false for JSON: 300 reads as 44 through `asInt8` and through `asUInt8`. -/
theorem c11_json_narrow_refuted : asIntN 8 (.uint 300) = .ok 44 ∧ asUIntN 8 (.uint 300) = .ok 44 := by
  decide +kernel

/-- C11 for JSON: a number that fits is returned exactly. Missing: numbers that do not fit, which are
reduced modulo 2^w (`c11_json_narrow_refuted`); the second half says so. -/
theorem c11_json_narrow_partial {v : Val} {w : Nat} (hw1 : 1 ≤ w) (hw : w ≤ 32) {z : Int}
    (hz : reader.ShowsInt v z) :
    (isInt v = true → (-(2 ^ (w - 1) : Int) ≤ z → z < 2 ^ (w - 1) → asIntN w v = .ok z) ∧
      ∃ y, asIntN w v = .ok y ∧ (2 ^ w : Int) ∣ z - y) ∧
    (isUInt v = true → (z < 2 ^ w → asUIntN w v = .ok z.toNat) ∧
      ∃ y : Nat, asUIntN w v = .ok y ∧ (2 ^ w : Int) ∣ z - y) := by
  have h2 : (2 : Int) ^ w = 2 * 2 ^ (w - 1) := by
    obtain ⟨k, rfl⟩ : ∃ k, w = k + 1 := ⟨w - 1, by omega⟩
    rw [Int.pow_succ]; simp; omega
  have h3 : ((2 ^ w : Nat) : Int) = 2 ^ w := by norm_cast
  constructor
  · intro hi
    obtain ⟨x, hx, rfl⟩ := hz.2.1 (by simp only [reader, hi])
    have e : asIntN w v = .ok (x.toInt.bmod (2 ^ w)) := by
      simp only [asIntN]; rw [show asInt64 v = .ok x from hx]; rfl
    refine ⟨fun a b => ?_, _, e, ?_⟩
    · rw [e, Int.bmod_eq_of_le] <;> rw [h3] <;> omega
    · rw [← h3]
      exact Int.dvd_of_emod_eq_zero (Int.emod_eq_emod_iff_emod_sub_eq_zero.1 (by rw [Int.bmod_emod]))
  · intro hi
    obtain ⟨x, hx, rfl⟩ := hz.2.2 (by simp only [reader, hi])
    have e : asUIntN w v = .ok (x.toNat % 2 ^ w) := by
      simp only [asUIntN]; rw [show asUInt64 v = .ok x from hx]; rfl
    refine ⟨fun a => ?_, _, e, ?_⟩
    · rw [e, Nat.mod_eq_of_lt (by omega)]; rfl
    · rw [← h3, Int.natCast_emod]
      exact Int.dvd_of_emod_eq_zero (Int.emod_eq_emod_iff_emod_sub_eq_zero.1 (by rw [Int.emod_emod]))

example : reader.ShowsInt (.uint 300) 300 := showsInt_uint (by decide) (by decide)

/-- C59 is false for JSON: `asInt64` wraps numbers of 2^63 and more. -/
theorem c59_json_int64_refuted : reader.asInt64 (.uint 0x8000000000000000) = .ok (-9223372036854775808) := by
  decide +kernel

/-- C59 for JSON: `asUInt64` returns the number or raises, and `asInt64` does for numbers below 2^63.
Missing: larger numbers (`c59_json_int64_refuted`). -/
theorem c59_json_int64_partial (v : Val) :
    (∀ x, reader.asInt64 v = .ok x → v = .int x ∨ ∃ n : UInt64, v = .uint n ∧ (n.toNat < 2 ^ 63 → x.toInt = n.toNat)) ∧
    (∀ x, reader.asUInt64 v = .ok x → v = .uint x) ∧
    ((∃ x, reader.asInt64 v = .ok x) ∨ reader.asInt64 v = .err .deser) ∧
    ((∃ x, reader.asUInt64 v = .ok x) ∨ reader.asUInt64 v = .err .deser) := by
  cases v <;> simp [reader, asInt64, asUInt64]
  rename_i n
  intro hn
  have : n.toInt64.toInt = (n.toNat : Int).bmod (2 ^ 64) := by
    rw [UInt64.toInt64]; exact BitVec.toInt_eq_toNat_bmod _
  rw [this, Int.bmod_eq_of_le] <;> omega

/-! ### C12: different values, different text -/

/-- No array inside looks like a blob. -/
def NoMimic (v : Val) : Prop :=
  v.Each (fun v => match v with | .arr xs => ¬ Mimic xs | _ => True) (fun _ => True)

theorem toDom_inj : ∀ {v w : Val}, NoMimic v → NoMimic w → (toDom v).canon = (toDom w).canon → v.Same w := by
  intro v
  induction v using Val.ind with
  | blob s =>
    intro w _ hw h
    have e : (toDom (.blob s)).canon = .arr [.str blobTag, .str (Base64.encode s), .str blobEncoding] := rfl
    rw [e] at h
    cases w with
    | blob t =>
      have e : (toDom (.blob t)).canon = .arr [.str blobTag, .str (Base64.encode t), .str blobEncoding] := rfl
      rw [e] at h
      simp only [Val.arr.injEq, List.cons.injEq, Val.str.injEq, true_and, and_true] at h
      rw [Base64.c13_base64_injective h]; rfl
    | arr ys =>
      rw [toDom_arr] at h
      injection h with h
      exact absurd (mimic_canon ⟨_, h.symm⟩) hw.1
    | int i => simp only [toDom, Val.canon] at h; split at h <;> cases h
    | _ => cases h
  | arr xs ih =>
    intro w hv hw h
    rw [toDom_arr] at h
    cases w with
    | blob t =>
      have e : (toDom (.blob t)).canon = .arr [.str blobTag, .str (Base64.encode t), .str blobEncoding] := rfl
      rw [e] at h
      injection h with h
      exact absurd (mimic_canon ⟨_, h⟩) hv.1
    | arr ys =>
      rw [toDom_arr] at h
      injection h with h
      have hv' := hv.arr
      have hw' := hw.arr
      have key : xs.map Val.canon = ys.map Val.canon := by
        clear hv hw
        induction xs generalizing ys with
        | nil => cases ys with
          | nil => rfl
          | cons y ys => simp at h
        | cons x xs ih2 => cases ys with
          | nil => simp at h
          | cons y ys =>
            simp only [List.map_cons, List.cons.injEq] at h ⊢
            exact ⟨ih x (List.mem_cons_self ..) (hv' x (List.mem_cons_self ..)) (hw' y (List.mem_cons_self ..)) h.1,
              ih2 (fun x hx => ih x (List.mem_cons_of_mem _ hx)) ys h.2 (fun x hx => hv' x (List.mem_cons_of_mem _ hx))
                (fun x hx => hw' x (List.mem_cons_of_mem _ hx))⟩
      simp only [Val.Same, Val.canon, Val.canonList_eq, key]
    | int i => simp only [toDom, Val.canon] at h; split at h <;> cases h
    | _ => cases h
  | map ms ih =>
    intro w hv hw h
    rw [toDom_map] at h
    cases w with
    | map ns =>
      rw [toDom_map] at h
      injection h with h
      have hv' := hv.map
      have hw' := hw.map
      have key : ms.map (fun m => (m.1, m.2.canon)) = ns.map (fun m => (m.1, m.2.canon)) := by
        clear hv hw
        induction ms generalizing ns with
        | nil => cases ns with
          | nil => rfl
          | cons y ys => simp at h
        | cons x xs ih2 => cases ns with
          | nil => simp at h
          | cons y ys =>
            simp only [List.map_cons, List.cons.injEq, Prod.mk.injEq] at h ⊢
            exact ⟨⟨h.1.1, ih x (List.mem_cons_self ..) (hv' x (List.mem_cons_self ..)).2
                (hw' y (List.mem_cons_self ..)).2 h.1.2⟩,
              ih2 (fun x hx => ih x (List.mem_cons_of_mem _ hx)) ys h.2 (fun x hx => hv' x (List.mem_cons_of_mem _ hx))
                (fun x hx => hw' x (List.mem_cons_of_mem _ hx))⟩
      simp only [Val.Same, Val.canon, Val.canonEntries_eq, key]
    | int i => simp only [toDom, Val.canon] at h; split at h <;> cases h
    | _ => cases h
  | int i =>
    intro w _ _ h
    cases w with
    | arr ys => rw [toDom_arr] at h; simp only [toDom, Val.canon] at h; split at h <;> cases h
    | map ys => rw [toDom_map] at h; simp only [toDom, Val.canon] at h; split at h <;> cases h
    | blob t => simp only [toDom, Val.canon] at h; split at h <;> cases h
    | _ => exact h
  | _ =>
    intro w _ _ h
    cases w with
    | arr ys => rw [toDom_arr] at h; cases h
    | map ys => rw [toDom_map] at h; cases h
    | blob t => cases h
    | _ => exact h

/-- C12 for JSON: two values with usable keys and without arrays that look like blobs are written as
the same bytes only if they are equal up to integer signedness. Missing: such arrays
(`c33_json_blob_confusion_refuted`) and keys with a NUL (`c31_json_calls_refuted`). -/
theorem c12_json_injective_partial (L : T.Law) {dbg : Bool} {v w : Val} (hv : NoMimic v) (hw : NoMimic w)
    (kv : KeysOk v) (kw : KeysOk w) {b : Bytes} (h : (proto T dbg).serialize v = .ok b)
    (h' : (proto T dbg).serialize w = .ok b) : v.Same w := by
  have key : ∀ {v : Val}, KeysOk v → (proto T dbg).serialize v = .ok b → T.parse b = some (toDom v).canon := by
    intro v kv h
    by_cases ht : Textual T v
    · obtain ⟨b', h1, h2⟩ := (serialize_ok_iff L kv).1 ht
      rw [h] at h1; injection h1 with h1; rw [h1]; exact h2
    · rw [(serialize_ok_iff L kv).2 ht] at h; cases h
  have e := key kv h
  rw [key kw h'] at e
  exact toDom_inj hv hw (Option.some.inj e).symm

example : NoMimic sampleVal := by
  simp [sampleVal, NoMimic, Val.Each, Val.eachList, Val.eachEntries, Mimic]

/-! ### C27, C28, C29: translation -/

theorem proto_roundTrips (L : T.Law) (dbg : Bool) :
    (proto T dbg).RoundTrips False (fun v => Plain v ∧ KeysOk v) := by
  intro v b ⟨hp, hk⟩ hb
  by_cases ht : Textual T v
  · obtain ⟨b', r, h1, h2, h3⟩ := c32_json_round_trip_partial L dbg ht hp hk
    rw [hb] at h1; injection h1 with h1; subst h1
    exact ⟨r, h2, h3⟩
  · rw [c32_json_refuses L dbg ht hk] at hb; cases hb

/-- C27 into JSON from any protocol with a round trip. -/
theorem c27_to_json (L : T.Law) (dbg : Bool) (P : Proto) {p : Prop} {D : Val → Prop} (hP : P.RoundTrips p D)
    {v : Val} (hd : v.Distinct) (hD : D v) (ht : Textual T v) (hp : Plain v) (hk : KeysOk v) {b : Bytes}
    (hb : P.serialize v = .ok b) :
    ∃ r, P.opn b = .ok r ∧ ∀ f, v.depth ≤ f →
      ∃ r', (proto T dbg).translate P.reader f r = .ok r' ∧ reader.Agrees r' v := by
  obtain ⟨r, hr, h⟩ := c27_translate_pair P (proto T dbg) hP (proto_roundTrips L dbg) hd hD
    (fun v' h => ⟨plain_same h hp, keysOk_same h hk⟩) hb
  refine ⟨r, hr, fun f hf => ?_⟩
  obtain ⟨v', h1, _, h3, h4⟩ := h f hf
  obtain ⟨c, r', e1, e2, _⟩ := c32_json_round_trip_partial L dbg (textual_same h1 ht) (plain_same h1 hp)
    (keysOk_same h1 hk)
  rw [e1] at h3
  have e : (proto T dbg).translate P.reader f r = .ok r' := by rw [h3]; exact e2
  exact ⟨r', e, (h4 r' e).1⟩

/-- C27 from JSON into any protocol with a round trip: translation is serializing the value up to
integer signedness, and what comes out presents the value. -/
theorem c27_from_json (L : T.Law) (dbg : Bool) (Q : Proto) {q : Prop} {E : Val → Prop} (hQ : Q.RoundTrips q E)
    {v : Val} (hd : v.Distinct) (hp : Plain v) (hk : KeysOk v) (hE : ∀ v' : Val, v'.Same v → E v') {b : Bytes}
    (hb : (proto T dbg).serialize v = .ok b) :
    ∃ r, opn T b = .ok r ∧ ∀ f, v.depth ≤ f →
      ∃ v', v'.Same v ∧ Q.translate reader f r = (Q.serialize v' >>= Q.opn) ∧
        ∀ r', Q.translate reader f r = .ok r' → Q.reader.Agrees r' v := by
  obtain ⟨r, hr, h⟩ := c27_translate_pair (proto T dbg) Q (proto_roundTrips L dbg) hQ hd ⟨hp, hk⟩ hE hb
  refine ⟨r, hr, fun f hf => ?_⟩
  obtain ⟨v', h1, _, h3, h4⟩ := h f hf
  exact ⟨v', h1, h3, fun r' hr' => (h4 r' hr').1⟩

/-- C27 from JSON to ZERA, MessagePack, CBOR and JSON. -/
theorem c27_json_to_all (L : T.Law) (dbg dbg' : Bool) {utf8 : Bytes → Bool} {maxDepth fuel : Nat} {v : Val}
    (hd : v.Distinct) (hp : Plain v) (hk : KeysOk v) {b : Bytes} (hb : (proto T dbg).serialize v = .ok b) :
    ∃ r, opn T b = .ok r ∧ ∀ f, v.depth ≤ f →
      (∀ r', Zera.proto.translate reader f r = .ok r' → Zera.reader.Agrees r' v) ∧
      (v.Sized → v.Below (2 ^ 32 - 5) →
        ∃ c, MsgPack.proto.translate reader f r = .ok c ∧ MsgPack.reader.Agrees c v) ∧
      (∀ c, (Cbor.proto utf8 maxDepth false fuel).serialize v = .ok c → c.length < 2 ^ 64 → c.length ≤ fuel →
        (Cbor.proto utf8 maxDepth false fuel).translate reader f r = .ok ⟨c, 0⟩ ∧
        (Cbor.reader false fuel).Agrees ⟨c, 0⟩ v) ∧
      ∃ r', (proto T dbg').translate reader f r = .ok r' ∧ reader.Agrees r' v := by
  have ht : Textual T v := by
    refine Classical.byContradiction fun ht => ?_
    rw [c32_json_refuses L dbg ht hk] at hb; cases hb
  obtain ⟨r, hr, h1⟩ := c27_from_json L dbg Zera.proto Zera.proto_roundTrips hd hp hk (fun _ _ => trivial) hb
  have ur : ∀ r', opn T b = .ok r' → r' = r := by
    intro r' h; rw [hr] at h; injection h with h; exact h.symm
  refine ⟨r, hr, fun f hf => ⟨?_, fun s1 s2 => ?_, fun c hc hl hcf => ?_, ?_⟩⟩
  · obtain ⟨_, _, _, h⟩ := h1 f hf; exact h
  · obtain ⟨r', hr', h2⟩ := c27_from_json L dbg MsgPack.proto MsgPack.proto_roundTrips hd hp hk
      (fun v' h => MsgPack.sized_same h ⟨s1, s2⟩) hb
    obtain rfl := ur r' hr'
    obtain ⟨v', _, h3, h⟩ := h2 f hf
    rw [MsgPack.serialize_eq] at h3
    exact ⟨_, h3, h _ h3⟩
  · have hs : v.Small := Val.Each.mono (by intro v; cases v <;> simp) (fun _ h => h) hp
    obtain ⟨r', hr', h2⟩ := Cbor.c27_to_cbor (proto T dbg) (proto_roundTrips L dbg) hd ⟨hp, hk⟩ hs hb hc hl hcf
    obtain rfl := ur r' hr'
    exact h2 f hf
  · obtain ⟨r', hr', h2⟩ := c27_to_json L dbg' (proto T dbg) (proto_roundTrips L dbg) hd ⟨hp, hk⟩ ht hp hk hb
    obtain rfl := ur r' hr'
    exact h2 f hf

/-- C27 from ZERA, MessagePack and CBOR to JSON. -/
theorem c27_all_to_json (L : T.Law) (dbg : Bool) {utf8 : Bytes → Bool} {maxDepth fuel : Nat} {v : Val}
    (hd : v.Distinct) (ht : Textual T v) (hp : Plain v) (hk : KeysOk v) {f : Nat} (hf : v.depth ≤ f) :
    (∀ b, Zera.proto.serialize v = .ok b → ∃ r, Zera.initFrom b = .ok r ∧
      ∃ r', (proto T dbg).translate Zera.reader f r = .ok r' ∧ reader.Agrees r' v) ∧
    (v.Sized → v.Below (2 ^ 32 - 5) → ∃ b, MsgPack.proto.serialize v = .ok b ∧
      ∃ r', (proto T dbg).translate MsgPack.reader f b = .ok r' ∧ reader.Agrees r' v) ∧
    (∀ b, (Cbor.proto utf8 maxDepth false fuel).serialize v = .ok b → b.length < 2 ^ 64 → b.length ≤ fuel →
      ∃ r', (proto T dbg).translate (Cbor.reader false fuel) f ⟨b, 0⟩ = .ok r' ∧ reader.Agrees r' v) := by
  refine ⟨fun b hb => ?_, fun s1 s2 => ⟨_, MsgPack.serialize_eq v, ?_⟩, fun b hb hl hbf => ?_⟩
  · obtain ⟨r, hr, h⟩ := c27_to_json L dbg Zera.proto Zera.proto_roundTrips hd trivial ht hp hk hb
    exact ⟨r, hr, h f hf⟩
  · obtain ⟨r, hr, h⟩ := c27_to_json L dbg MsgPack.proto MsgPack.proto_roundTrips hd ⟨s1, s2⟩ ht hp hk
      (MsgPack.serialize_eq v)
    have : r = MsgPack.pack (emit v) := by injection hr with hr; exact hr.symm
    subst this
    exact h f hf
  · have hs : v.Small := Val.Each.mono (by intro v; cases v <;> simp) (fun _ h => h) hp
    have hD' : Cbor.Dom utf8 maxDepth fuel v := ⟨hs, fun b' hb' => by
      rw [hb] at hb'; injection hb' with hb'; subst hb'; exact ⟨hl, hbf⟩⟩
    obtain ⟨r, hr, h⟩ := c27_to_json L dbg (Cbor.proto utf8 maxDepth false fuel) Cbor.proto_roundTrips hd hD' ht hp
      hk hb
    have : r = ⟨b, 0⟩ := by injection hr with hr; exact hr.symm
    subst this
    exact h f hf

example : sampleVal.Distinct := by
  simp [sampleVal, Val.Distinct, Val.distinctEntries, Val.distinctList]

/-- C27 is false for JSON: the array ["~b", "AA==", "base64"] becomes a blob in MessagePack, and comes
out of MessagePack, through JSON, as a blob. -/
theorem c27_json_refuted (L : T.Law) (dbg : Bool) :
    ∃ (v : Val) (b : Bytes) (r : Val), v = .arr [.str blobTag, .str [0x41, 0x41, 0x3d, 0x3d], .str blobEncoding] ∧
      (proto T dbg).serialize v = .ok b ∧ opn T b = .ok r ∧
      MsgPack.proto.translate reader 2 r = MsgPack.proto.serialize (.blob [0]) ∧
      MsgPack.reader.isArray (MsgPack.pack (emit v)) = .ok true ∧
      ∃ r', (proto T dbg).translate MsgPack.reader 2 (MsgPack.pack (emit v)) = .ok r' ∧
        reader.isBlob r' = .ok true := by
  obtain ⟨b', h4, h5⟩ := (serialize_ok_iff (dbg := dbg) L
      (v := .arr [.str blobTag, .str [0x41, 0x41, 0x3d, 0x3d], .str blobEncoding])
      (by simp [KeysOk, Val.Each, Val.eachList])).1
      ⟨trivial, L.ascii _ (by decide), L.ascii _ (by decide), L.ascii _ (by decide), trivial⟩
  refine ⟨_, b', _, rfl, h4, by simp only [opn, h5]; rfl, rfl, rfl,
    .arr [.str blobTag, .str [0x41, 0x41, 0x3d, 0x3d], .str blobEncoding], ?_, isBlob_mimic [0x41, 0x41, 0x3d, 0x3d]⟩
  have e : (proto T dbg).translate MsgPack.reader 2
      (MsgPack.pack (emit (.arr [.str blobTag, .str [0x41, 0x41, 0x3d, 0x3d], .str blobEncoding]))) =
      ((proto T dbg).serialize (.arr [.str blobTag, .str [0x41, 0x41, 0x3d, 0x3d], .str blobEncoding]) >>= opn T) := rfl
  rw [e, h4]
  simp only [Res.ok_bind, opn, h5]
  rfl

theorem isBlob_returns (v : Val) : isBlob v = .ok true ∨ isBlob v = .ok false := by
  cases v with
  | arr xs =>
    by_cases h : Mimic xs
    · obtain ⟨t, rfl⟩ := h; exact .inl (isBlob_mimic t)
    · exact .inr (isBlob_arr h)
  | _ => exact .inr rfl

/-- A result that is a value or a DeserializationError. -/
theorem asBlob_clean (v : Val) : (asBlob v).Clean := by
  rcases isBlob_returns v with h | h
  · cases v with
    | arr xs =>
      have hm : Mimic xs := by
        refine Classical.byContradiction fun hn => ?_
        rw [isBlob_arr hn] at h; cases h
      obtain ⟨t, rfl⟩ := hm
      have : asBlob (.arr [.str blobTag, .str t, .str blobEncoding]) = Base64.decode t := by
        simp only [asBlob, isBlob_mimic, Res.ok_bind, Res.require_true]; rfl
      rw [this]
      cases hd : Base64.digits t with
      | none => rw [Base64.decode_bad hd]; exact .inr rfl
      | some ds => rw [Base64.decode_digits hd]; exact .inl ⟨_, rfl⟩
    | _ => cases h
  · right
    simp only [asBlob, h, Res.ok_bind]; rfl

theorem reader_total : reader.Total (fun _ => True) where
  isNull _ _ := returns_ok _
  isBool _ _ := returns_ok _
  isInt _ _ := returns_ok _
  isUInt _ _ := returns_ok _
  isFloat _ _ := returns_ok _
  isString _ _ := returns_ok _
  isBlob v _ := by
    show Returns (isBlob v)
    rcases isBlob_returns v with h | h <;> rw [h] <;> exact returns_ok _
  isMap _ _ := returns_ok _
  isArray _ _ := returns_ok _
  asBool v _ := by cases v <;> first | exact returns_ok _ | exact returns_err _
  asInt64 v _ := by cases v <;> first | exact returns_ok _ | exact returns_err _
  asUInt64 v _ := by cases v <;> first | exact returns_ok _ | exact returns_err _
  asDouble v _ := by cases v <;> first | exact returns_ok _ | exact returns_err _
  asString v _ := by cases v <;> first | exact returns_ok _ | exact returns_err _
  asStringView v _ := by cases v <;> first | exact returns_ok _ | exact returns_err _
  asBlob v _ := (asBlob_clean v).returns
  mapKeys v _ := by cases v <;> first | exact returns_ok _ | exact returns_err _
  contains v k _ _ _ := by cases v <;> first | exact returns_ok _ | exact returns_err _
  getKey v k _ _ _ := by
    cases v <;> first | exact returns_err _ | skip
    simp only [reader, getKey]; split <;> first | exact returns_ok _ | exact returns_err _
  arraySize v _ := by cases v <;> first | exact returns_ok _ | exact returns_err _
  getIdx v i _ := by
    cases v <;> first | exact returns_err _ | skip
    simp only [reader, getIdx]; split <;> first | exact returns_ok _ | exact returns_err _

theorem getIdx_depth {v c : Val} {i : Nat} (h : getIdx v i = .ok c) : c.depth < v.depth := by
  cases v <;> try (cases h; done)
  simp only [getIdx] at h
  split at h
  · rename_i hx
    injection h with h; subst h
    have := Val.depth_le_list (List.mem_of_getElem? hx)
    simp only [Val.depth]; omega
  · cases h

theorem getKey_depth {v c : Val} {k : Bytes} (h : getKey v k = .ok c) : c.depth < v.depth := by
  cases v <;> try (cases h; done)
  simp only [getKey] at h
  split at h
  · rename_i hx
    injection h with h; subst h
    have := Val.depth_le_entries (firstVal_mem hx)
    simp only [Val.depth]; omega
  · cases h

/-- C28 for JSON sources: on every text that parses, `write_value` recurses no deeper than the
document, into any writer whose calls return. -/
theorem c28_json_source {σ : Type} (W : Writer σ) (hW : ∀ s e, Returns (W.step s e)) (d : Val) (s : σ)
    {f : Nat} (hf : d.depth < f) : writeValue reader W f d s ≠ .diverge :=
  writeValue_returns reader_total hW Val.depth (fun _ _ _ _ h => ⟨trivial, getIdx_depth h⟩)
    (fun _ _ _ _ h => ⟨trivial, getKey_depth h⟩) f d s trivial hf

theorem step_returns (dbg : Bool) (s : RS) (e : Ev) : Returns (step dbg s e) := by
  have hs : ∀ s, Returns (slot dbg s) := by
    intro s; unfold slot
    repeat' split
    all_goals first | exact returns_ok _ | exact returns_err _
  have hp : ∀ s v, Returns (push dbg s v) := fun s v => .bind (hs s) fun _ _ => returns_pure _
  have ho : ∀ s b, Returns (openC dbg b s) := fun s v => .bind (hs s) fun _ _ => returns_pure _
  have he : ∀ s, Returns (endArr s) := by
    intro s; unfold endArr
    repeat' split
    all_goals first | exact returns_ok _ | exact returns_err _
  cases e <;> simp only [step]
  all_goals first
    | exact hp _ _
    | exact ho _ _
    | exact he _
    | skip
  · exact .bind (ho _ _) fun _ _ => .bind (hp _ _) fun _ _ => .bind (hp _ _) fun _ _ => .bind (hp _ _) fun _ _ =>
      he _
  · unfold key
    repeat' split
    all_goals first | exact returns_ok _ | exact returns_err _
  · unfold endMap
    repeat' split
    all_goals first | exact returns_ok _ | exact returns_err _

/-- C28 for JSON to ZERA, MessagePack, CBOR and JSON; and for MessagePack to JSON. -/
theorem c28_json_to_all (dbg : Bool) {utf8 : Bytes → Bool} {maxDepth fuel : Nat} (d : Val) {f : Nat}
    (hf : d.depth < f) :
    Zera.proto.translate reader f d ≠ .diverge ∧ MsgPack.proto.translate reader f d ≠ .diverge ∧
    (Cbor.proto utf8 maxDepth false fuel).translate reader f d ≠ .diverge ∧
    (proto T dbg).translate reader f d ≠ .diverge ∧
    ∀ (b : Bytes) (g : Nat), b.length < g → (proto T dbg).translate MsgPack.reader g b ≠ .diverge := by
  have hfin : ∀ s, Returns (finish T s >>= opn T) := by
    intro s
    refine .bind ?_ fun _ _ => ?_
    · unfold finish; split <;> first | exact returns_ok _ | exact returns_err _
    · unfold opn; split <;> first | exact returns_ok _ | exact returns_err _
  refine ⟨?_, ?_, ?_, ?_, fun b g hg => ?_⟩
  · exact Returns.bind (c28_json_source Zera.writer MsgPack.zeraStep_returns d _ hf)
      fun s _ => MsgPack.zeraFinish_returns s
  · exact Returns.bind (c28_json_source MsgPack.writer (fun _ _ => returns_ok _) d _ hf)
      fun s _ => Returns.bind (returns_ok _) fun _ _ => returns_ok _
  · exact Returns.bind (c28_json_source (Cbor.writer utf8 maxDepth) Cbor.step_returns d _ hf)
      fun s _ => Returns.bind (returns_ok _) fun _ _ => returns_ok _
  · exact Returns.bind (c28_json_source (writer dbg) (step_returns dbg) d _ hf) fun s _ => hfin s
  · exact Returns.bind (MsgPack.c28_msgpack_source (writer dbg) (step_returns dbg) b _ hg) fun s _ => hfin s

/-- C29 is false for JSON sources: 2^64 - 1, written as an unsigned integer, is translated to -1. -/
theorem c29_json_uint_refuted (L : T.Law) (dbg : Bool) :
    ∃ (n : UInt64) (b : Bytes) (r : Val), (proto T dbg).serialize (.uint n) = .ok b ∧ opn T b = .ok r ∧
      MsgPack.proto.translate reader 1 r = MsgPack.proto.serialize (.int (-1)) := by
  obtain ⟨b, h1, h2⟩ := (serialize_ok_iff (dbg := dbg) L (v := .uint 0xffffffffffffffff) trivial).1 trivial
  exact ⟨_, b, _, h1, by simp only [opn, h2]; rfl, rfl⟩

/-- C29 for JSON sources and numbers below 2^63, into any protocol with a round trip. -/
theorem c29_json_uint_partial (L : T.Law) (dbg : Bool) (Q : Proto) {q : Prop} {E : Val → Prop}
    (hQ : Q.RoundTrips q E) (n : UInt64) (hn : n.toNat < 2 ^ 63) (hE : ∀ v' : Val, v'.Same (.uint n) → E v') :
    ∃ b r, (proto T dbg).serialize (.uint n) = .ok b ∧ opn T b = .ok r ∧
      ∀ r', Q.translate reader 1 r = .ok r' → Q.reader.Agrees r' (.uint n) := by
  obtain ⟨b, h1, _⟩ := (serialize_ok_iff (dbg := dbg) L (v := .uint n) trivial).1 trivial
  obtain ⟨r, hr, h⟩ := c27_from_json L dbg Q hQ (v := .uint n) trivial hn trivial hE h1
  obtain ⟨_, _, _, h'⟩ := h 1 (Nat.le_refl _)
  exact ⟨b, r, h1, hr, h'⟩

/-! ### C53, C54, C55 -/

/-- C53 for JSON: a serialization without any call reads as null. -/
theorem c53_json_empty (L : T.Law) (dbg : Bool) :
    ∃ b r, (proto T dbg).bytesOf [] = .ok b ∧ opn T b = .ok r ∧ reader.Agrees r .null := by
  obtain ⟨b, h1, h2⟩ := L.written .null trivial
  refine ⟨b, .null, ?_, by simp only [opn, h2]; rfl, agrees_dom (v := .null) trivial⟩
  show finish T {} = _
  have : finish T {} = match T.print .null with | some b => .ok b | none => .err .runtime := rfl
  rw [this, h1]

/-- C54 is false for JSON: a blob is also an array. -/
theorem c54_json_kinds_refuted (L : T.Law) (dbg : Bool) (s : Bytes) :
    ∃ b r, (proto T dbg).serialize (.blob s) = .ok b ∧ opn T b = .ok r ∧
      reader.isBlob r = .ok true ∧ reader.isArray r = .ok true ∧ reader.arraySize r = .ok 3 := by
  obtain ⟨b, h1, h2⟩ := (serialize_ok_iff (dbg := dbg) L (v := .blob s) trivial).1 trivial
  refine ⟨b, _, h1, by simp only [opn, h2]; rfl, ?_, rfl, rfl⟩
  exact isBlob_mimic (Base64.encode s)

/-- C54 for JSON, any document: exactly one kind other than blob holds, counting isInt and isUInt as
one (of a document from yyjson, which has no raw blobs), and a blob is an array. Missing: blob and
array exclude each other, which is false (`c54_json_kinds_refuted`). -/
theorem c54_json_kinds_partial (v : Val) :
    ((∀ s, v ≠ .blob s) → ([isNull v, isBool v, isInt v || isUInt v, isFloat v, isString v, isMap v,
      isArray v].filter id).length = 1) ∧
    (isBlob v = .ok true → isArray v = true) ∧ (isBlob v = .ok true ∨ isBlob v = .ok false) := by
  refine ⟨fun h => ?_, fun h => ?_, isBlob_returns v⟩
  · cases v <;> first | rfl | exact absurd rfl (h _)
  · cases v <;> first | rfl | cases h

/-- C55 for JSON, any document: an accessor of the wrong kind raises a DeserializationError
(`contains` answers false), and every accessor returns a value or raises a DeserializationError. -/
theorem c55_json_wrong_kind (v : Val) :
    (isBool v = false → asBool v = .err .deser) ∧
    (isInt v = false → asInt64 v = .err .deser ∧ ∀ w, asIntN w v = .err .deser) ∧
    (isUInt v = false → asUInt64 v = .err .deser ∧ ∀ w, asUIntN w v = .err .deser) ∧
    (isFloat v = false → asDouble v = .err .deser) ∧
    (isString v = false → asString v = .err .deser) ∧
    (isBlob v = .ok false → asBlob v = .err .deser) ∧
    (isArray v = false → arraySize v = .err .deser ∧ ∀ i, getIdx v i = .err .deser) ∧
    (isMap v = false → mapKeys v = .err .deser ∧ ∀ k, getKey v k = .err .deser ∧ contains v k = .ok false) := by
  refine ⟨fun h => ?_, fun h => ?_, fun h => ?_, fun h => ?_, fun h => ?_, fun h => ?_, fun h => ?_, fun h => ?_⟩
  · cases v <;> first | rfl | cases h
  · cases v <;> first | exact ⟨rfl, fun _ => rfl⟩ | cases h
  · cases v <;> first | exact ⟨rfl, fun _ => rfl⟩ | cases h
  · cases v <;> first | rfl | cases h
  · cases v <;> first | rfl | cases h
  · simp only [asBlob, h, Res.ok_bind]; rfl
  · cases v <;> first | exact ⟨rfl, fun _ => rfl⟩ | cases h
  · cases v <;> first | exact ⟨rfl, fun _ => ⟨rfl, rfl⟩⟩ | cases h

end Json
end Zer
