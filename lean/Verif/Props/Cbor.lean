import Verif.Cbor.Term
import Verif.Cbor.Unique
import Verif.Props.MsgPack

/-!
# Properties of the CBOR protocol (C11, C12, C21-C29, C53-C55, C57, C58)

In every theorem `f` is the fuel of the reader (see `Cbor/Model.lean`): any number above the length
of the buffer will do. Buffers are shorter than 2^63 or 2^64 bytes, as every buffer in memory is.
-/

namespace Zer.Cbor

open MsgPack (be be_length)

theorem at_append (b rest : Bytes) : At (b ++ rest) 0 b := at_zero b rest

/-! ### C21: every valid definite-length encoding -/

/-- C21 when `&buf[size]` is the past-the-end pointer: whatever follows the encoding and whatever
head widths it uses, the reader presents the value. Missing: hardened libraries, where the claim is
false (`c21_cbor_hardened_refuted`). -/
theorem c21_cbor_reader_partial {w : Val} {b rest : Bytes} (h : Enc false w b) (hs : w.Small)
    (hl : (b ++ rest).length < 2 ^ 64) {f : Nat} (hf : (b ++ rest).length ≤ f) :
    (reader false f).Agrees ⟨b ++ rest, 0⟩ w :=
  Enc.agrees (ind := false) hl hf w h (at_append b rest) hs (fineF _ _ _)

/-- C21 under a hardened library: if the value holds no empty string, blob or key, or any byte
follows the encoding. -/
theorem c21_cbor_reader_hardened_partial {w : Val} {b rest : Bytes} (h : Enc false w b) (hs : w.Small)
    (hr : rest ≠ [] ∨ w.NoEmpty) (hl : (b ++ rest).length < 2 ^ 64) {f : Nat}
    (hf : (b ++ rest).length ≤ f) : (reader true f).Agrees ⟨b ++ rest, 0⟩ w := by
  refine Enc.agrees (ind := false) hl hf w h (at_append b rest) hs (fun _ => ?_)
  rcases hr with hr | hr
  · left
    have := List.length_pos_iff.2 hr
    simp only [List.length_append]; omega
  · exact .inr hr

/-- C21 is false under a hardened library: an empty string at the end of the buffer. -/
theorem c21_cbor_hardened_refuted :
    Enc false (.str []) [0x60] ∧ (∀ f, View.asString true f ⟨[0x60], 0⟩ = .ub) ∧
      View.asStringView true ⟨[0x60], 0⟩ = .ub ∧ View.asBlob true ⟨[0x40], 0⟩ = .ub :=
  ⟨by simp only [Enc]; exact .definite (.imm (by decide)), fun _ => by rfl, by decide +kernel, by decide +kernel⟩

/-- A non-minimal encoding: map head of two bytes, key head of one, array head of one, -1 in four
bytes, 1.5 as a half. -/
def sampleBytes : Bytes :=
  [0xb9, 0, 1, 0x78, 1, 0x61, 0x98, 2, 0x3a, 0, 0, 0, 0, 0xf9, 0x3e, 0]
def sampleVal : Val := .map [([0x61], .arr [.int (-1), .dbl 0x3ff8000000000000])]

theorem sample_enc : Enc false sampleVal sampleBytes := by
  simp only [sampleVal, Enc, EncEntries, EncList]
  refine ⟨[[0x78, 1, 0x61], [0x98, 2, 0x3a, 0, 0, 0, 0, 0xf9, 0x3e, 0]], ?_,
    .definite (h := [0xb9, 0, 1]) (.w2 (by decide))⟩
  refine ⟨[0x78, 1, 0x61], _, [], .definite (h := [0x78, 1]) (.w1 (by decide)),
    ⟨[[0x3a, 0, 0, 0, 0], [0xf9, 0x3e, 0]], ?_, .definite (h := [0x98, 2]) (.w1 (by decide))⟩, rfl, rfl⟩
  refine ⟨_, [[0xf9, 0x3e, 0]], .inr ⟨by decide, .w4 (by decide)⟩, ⟨_, [], ?_, rfl, rfl⟩, rfl⟩
  exact .f16 (f := 0x3e00) (by decide) (by decide +kernel)

example : Enc false sampleVal sampleBytes ∧ sampleVal.Small ∧ sampleVal.NoEmpty :=
  ⟨sample_enc, by simp [sampleVal, Val.Small, Val.Each, Val.eachEntries, Val.eachList],
    by simp [sampleVal, Val.NoEmpty, Val.Each, Val.eachEntries, Val.eachList]⟩

/-! ### C22: indefinite lengths -/

/-- C22 for kinds, scalars, `asString`, `asBlobVec`, `contains`, both `operator[]` and `arraySize`:
in an encoding with indefinite lengths anywhere, they present the value; key iteration yields all
keys before it raises (`readerI true`). Missing: `asStringView` and `asBlob` of chunked strings and
the end of key iteration, where the claim is false. -/
theorem c22_cbor_indefinite_partial {w : Val} {b rest : Bytes} (h : Enc true w b) (hs : w.Small)
    (hl : (b ++ rest).length < 2 ^ 64) {f : Nat} (hf : (b ++ rest).length ≤ f) :
    (readerI true false f).Agrees ⟨b ++ rest, 0⟩ w :=
  Enc.agrees (ind := true) hl hf w h (at_append b rest) hs (fineF _ _ _)

/-- C22 is false for key iteration: over every map of indefinite length it ends with an exception,
although the same map of definite length yields its keys. -/
theorem c22_cbor_keys_refuted {ms : List (Bytes × Val)} {cs : List Bytes}
    (he : EncEntries true ms cs) (rest : Bytes)
    (hl : (indefHd 5 :: (cs.flatten ++ [0xff]) ++ rest).length < 2 ^ 64) {f : Nat}
    (hf : (indefHd 5 :: (cs.flatten ++ [0xff]) ++ rest).length ≤ f) :
    Enc true (.map ms) (indefHd 5 :: (cs.flatten ++ [0xff])) ∧
    View.mapKeys false f ⟨indefHd 5 :: (cs.flatten ++ [0xff]) ++ rest, 0⟩ = .err .deser := by
  have hg : Group true 5 ms.length cs.flatten (indefHd 5 :: (cs.flatten ++ [0xff])) := .indef rfl
  refine ⟨by simp only [Enc]; exact ⟨cs, he, hg⟩, ?_⟩
  have ha := at_append (indefHd 5 :: (cs.flatten ++ [0xff])) rest
  exact (keysSeen_at he hg hl ha hf).2 (indef_read (by omega) false ha)

/-- C22 is false for `asStringView` and `asBlob`: they refuse every chunked string. -/
theorem c22_cbor_views_refuted {s c : Bytes} (rest : Bytes) :
    (Chunks 3 s c → Enc true (.str s) (indefHd 3 :: (c ++ [0xff])) ∧
      View.asStringView false ⟨indefHd 3 :: (c ++ [0xff]) ++ rest, 0⟩ = .err .deser) ∧
    (Chunks 2 s c → Enc true (.blob s) (indefHd 2 :: (c ++ [0xff])) ∧
      View.asBlob false ⟨indefHd 2 :: (c ++ [0xff]) ++ rest, 0⟩ = .err .deser) := by
  constructor
  · intro h
    refine ⟨by simp only [Enc]; exact .chunked rfl h, ?_⟩
    have hr := indef_read (m := 3) (by omega) false (at_append (indefHd 3 :: (c ++ [0xff])) rest)
    simp only [View.asStringView, View.head, hr]; rfl
  · intro h
    refine ⟨by simp only [Enc]; exact .chunked rfl h, ?_⟩
    have hr := indef_read (m := 2) (by omega) false (at_append (indefHd 2 :: (c ++ [0xff])) rest)
    simp only [View.asBlob, View.head, hr]; rfl

/-- The string "abc" in two chunks as the only value of an indefinite map under the key "k". -/
example : Enc true (.map [([0x6b], .str [0x61, 0x62, 0x63])])
    (indefHd 5 :: ([[0x61, 0x6b], [0x7f, 0x62, 0x61, 0x62, 0x61, 0x63, 0xff]].flatten ++ [0xff])) := by
  simp only [Enc, EncEntries]
  refine ⟨_, ⟨_, _, [], .definite (h := [0x61]) (.imm (by decide)), ?_, rfl, rfl⟩, .indef rfl⟩
  exact .chunked (b := [0x62, 0x61, 0x62, 0x61, 0x63]) rfl
    (.cons (h := [0x62]) (s := [0x61, 0x62]) (t := [0x63]) (b := [0x61, 0x63]) (.imm (by decide))
      (.cons (h := [0x61]) (s := [0x63]) (t := []) (b := []) (.imm (by decide)) .nil))

/-! ### C23: round trip -/

section
variable {utf8 : Bytes → Bool} {maxDepth f : Nat}

/-- C23: the writer accepts exactly the values whose strings and keys pass the UTF-8 check and whose
nesting is within the limit; for all others the encoder's exception comes out. -/
theorem c23_cbor_accepts {hard : Bool} (v : Val) :
    ((∃ b, (proto utf8 maxDepth hard f).serialize v = .ok b) ↔ v.TextOk utf8 ∧ v.nest ≤ maxDepth) ∧
    (¬ (v.TextOk utf8 ∧ v.nest ≤ maxDepth) →
      (proto utf8 maxDepth hard f).serialize v = .err .runtime) := by
  refine ⟨⟨fun ⟨b, hb⟩ => ?_, fun h => ⟨_, serialize_eq h.1 h.2⟩⟩, serialize_bad⟩
  refine Classical.byContradiction fun h => ?_
  rw [serialize_bad h] at hb; cases hb

theorem serialize_ok {hard : Bool} {v : Val} {b : Bytes}
    (h : (proto utf8 maxDepth hard f).serialize v = .ok b) :
    b = encB v ∧ v.TextOk utf8 ∧ v.nest ≤ maxDepth := by
  obtain ⟨h1, h2⟩ := (c23_cbor_accepts (f := f) (hard := hard) v).1.1 ⟨b, h⟩
  rw [serialize_eq h1 h2] at h
  injection h with h
  exact ⟨h.symm, h1, h2⟩

/-- C23 for integers below 2^63: what was written reads back. Missing: larger integers, where the
claim is false (`c23_cbor_round_trip_refuted`). -/
theorem c23_cbor_round_trip_partial {v : Val} (hs : v.Small) {b : Bytes}
    (hb : (proto utf8 maxDepth false f).serialize v = .ok b) (hl : b.length < 2 ^ 64)
    (hf : b.length ≤ f) : (reader false f).Agrees ⟨b, 0⟩ v := by
  obtain ⟨rfl, _⟩ := serialize_ok hb
  exact encB_agrees hl hf hs (by simp)

/-- C23, the format written: a definite-length encoding of the value, whatever its integers. -/
theorem c23_cbor_format {hard : Bool} {v : Val} {b : Bytes}
    (hb : (proto utf8 maxDepth hard f).serialize v = .ok b) (hl : b.length < 2 ^ 64) :
    Enc false v b := by
  obtain ⟨rfl, _⟩ := serialize_ok hb
  exact encB_enc v hl

/-- C23 for every unsigned integer: `isUInt` holds and `asUInt64` returns it. -/
theorem c23_cbor_uint (n : UInt64) :
    ∃ b, (proto utf8 maxDepth false f).serialize (.uint n) = .ok b ∧
      View.isUInt ⟨b, 0⟩ = .ok true ∧ View.asUInt64 ⟨b, 0⟩ = .ok n := by
  have hn : headBytes 0 n.toNat = encB (.uint n) := rfl
  refine ⟨encB (.uint n), serialize_eq trivial (Nat.zero_le _), ?_⟩
  obtain ⟨a, hr⟩ := (headBytes_hd (m := 0) n.toNat_lt).read (by omega) false (at_append _ [])
  rw [List.append_nil, hn] at hr
  constructor
  · simp [View.isUInt, View.head, hr]
  · simp [View.asUInt64, View.head, hr]

/-- C23 is false: 2^64 - 1 is written correctly and presented as -1, because `isInt` holds too. -/
theorem c23_cbor_round_trip_refuted :
    ∃ (n : UInt64) (b : Bytes), (proto utf8 maxDepth false f).serialize (.uint n) = .ok b ∧
      View.isInt ⟨b, 0⟩ = .ok true ∧ View.asInt64 ⟨b, 0⟩ = .ok (-1) ∧
      ¬ (reader false f).Agrees ⟨b, 0⟩ (.uint n) := by
  refine ⟨0xffffffffffffffff, [0x1b, 255, 255, 255, 255, 255, 255, 255, 255], ?_, by decide +kernel,
    by decide +kernel, ?_⟩
  · rw [serialize_eq (v := .uint 0xffffffffffffffff) trivial (Nat.zero_le _)]; decide +kernel
  · intro h
    cases h with | uint h _ =>
    obtain ⟨x, h1, h2⟩ := h.2.1 (show View.isInt _ = _ by decide +kernel)
    have : (reader false f).asInt64 ⟨[0x1b, 255, 255, 255, 255, 255, 255, 255, 255], 0⟩ = .ok (-1) := by
      show View.asInt64 _ = _
      decide +kernel
    rw [this] at h1; injection h1 with h1; subst h1
    exact absurd h2 (by decide +kernel)

example : ∃ b, (proto (fun _ => true) 1024 false 100).serialize sampleVal = .ok b ∧
    sampleVal.Small ∧ b.length ≤ 100 := by
  have h1 : sampleVal.TextOk (fun _ => true) := by
    simp [sampleVal, Val.TextOk, Val.Each, Val.eachEntries, Val.eachList]
  have h2 : sampleVal.nest ≤ 1024 := by decide +kernel
  exact ⟨_, serialize_eq h1 h2, by simp [sampleVal, Val.Small, Val.Each, Val.eachEntries, Val.eachList],
    by decide +kernel⟩

/-! ### C12: injectivity -/

/-- C12 for CBOR: equal bytes come from values that differ at most in the signedness of integers. -/
theorem c12_cbor_injective {hard : Bool} {v w : Val} {b : Bytes} (hl : b.length < 2 ^ 64)
    (h : (proto utf8 maxDepth hard f).serialize v = .ok b)
    (h' : (proto utf8 maxDepth hard f).serialize w = .ok b) : v.Same w :=
  (enc_unique v w b b [] [] (c23_cbor_format h hl) (c23_cbor_format h' hl) rfl).1

/-- C12: values that differ only in the signedness of integers do have equal bytes. -/
theorem serialize_canon : ∀ v : Val,
    (v.canon.TextOk utf8 ↔ v.TextOk utf8) ∧ v.canon.nest = v.nest := by
  intro v
  induction v using Val.ind with
  | int i => simp only [Val.canon]; split <;> simp [Val.TextOk, Val.Each, Val.nest]
  | arr xs ih =>
    have h1 : (Val.canon (.arr xs)).TextOk utf8 ↔ (Val.arr xs).TextOk utf8 := by
      simp only [Val.canon, Val.canonList_eq, Val.TextOk, Val.Each, true_and, Val.eachList_iff,
        List.mem_map, forall_exists_index, and_imp, forall_apply_eq_imp_iff₂]
      exact ⟨fun h x hx => ((ih x hx).1).1 (h x hx), fun h x hx => ((ih x hx).1).2 (h x hx)⟩
    refine ⟨h1, ?_⟩
    have : ∀ l : List Val, (∀ x ∈ l, x.canon.nest = x.nest) → Val.nestList (Val.canonList l) = Val.nestList l := by
      intro l
      induction l with
      | nil => intro _; rfl
      | cons x l ihl =>
        intro h
        simp only [Val.canonList, Val.nestList, h x (by simp), ihl (fun y hy => h y (by simp [hy]))]
    simp only [Val.canon, Val.nest, this xs (fun x hx => (ih x hx).2)]
  | map ms ih =>
    have h1 : (Val.canon (.map ms)).TextOk utf8 ↔ (Val.map ms).TextOk utf8 := by
      simp only [Val.canon, Val.canonEntries_eq, Val.TextOk, Val.Each, true_and, Val.eachEntries_iff,
        List.mem_map, forall_exists_index, and_imp, forall_apply_eq_imp_iff₂]
      exact ⟨fun h x hx => ⟨(h x hx).1, ((ih x hx).1).1 (h x hx).2⟩,
        fun h x hx => ⟨(h x hx).1, ((ih x hx).1).2 (h x hx).2⟩⟩
    refine ⟨h1, ?_⟩
    have : ∀ l : List (Bytes × Val), (∀ x ∈ l, x.2.canon.nest = x.2.nest) →
        Val.nestEntries (Val.canonEntries l) = Val.nestEntries l := by
      intro l
      induction l with
      | nil => intro _; rfl
      | cons x l ihl =>
        intro h
        obtain ⟨k, x⟩ := x
        simp only [Val.canonEntries, Val.nestEntries, h (k, x) (by simp),
          ihl (fun y hy => h y (by simp [hy]))]
    simp only [Val.canon, Val.nest, this ms (fun x hx => (ih x hx).2)]
  | _ => simp [Val.canon]

theorem c12_cbor_same {hard : Bool} {v w : Val} (h : v.Same w) :
    (proto utf8 maxDepth hard f).serialize v = (proto utf8 maxDepth hard f).serialize w := by
  have hv := serialize_canon (utf8 := utf8) v
  have hw := serialize_canon (utf8 := utf8) w
  unfold Val.Same at h
  rw [h] at hv
  have e1 : v.TextOk utf8 ↔ w.TextOk utf8 := hv.1.symm.trans hw.1
  have e2 : v.nest = w.nest := hv.2.symm.trans hw.2
  by_cases hc : v.TextOk utf8 ∧ v.nest ≤ maxDepth
  · rw [serialize_eq hc.1 hc.2, serialize_eq (e1.1 hc.1) (e2 ▸ hc.2), encB_same h]
  · rw [serialize_bad hc, serialize_bad (fun h => hc ⟨e1.2 h.1, e2 ▸ h.2⟩)]

/-- C12: no encoding is a proper prefix of another, whichever of the permitted forms is used. -/
theorem c12_cbor_prefix_free {ind ind' : Bool} {v w : Val} {b c r : Bytes} (h : Enc ind v b)
    (h' : Enc ind' w c) (e : b ++ r = c) : v.Same w ∧ r = [] := by
  obtain ⟨h1, h2⟩ := enc_unique v w b c r [] h h' (by simpa using e)
  refine ⟨h1, ?_⟩
  subst h2
  simpa using e

example : (Val.int 5).Same (.uint 5) ∧ Enc false (.int 5) [0x18, 5] ∧ Enc false (.uint 5) [0x05] :=
  ⟨rfl, by simp only [Enc]; exact .inl ⟨by decide, .w1 (by decide)⟩,
    by simp only [Enc]; exact .inl ⟨by decide, .imm (by decide)⟩⟩

end

/-! ### C24: arbitrary bytes -/

/-- Every accessor returns or raises a DeserializationError. -/
structure AllClean (f : Nat) (r : View) : Prop where
  kinds : r.isNull.Clean ∧ r.isBool.Clean ∧ r.isInt.Clean ∧ r.isUInt.Clean ∧ r.isFloat.Clean ∧
    r.isString.Clean ∧ r.isBlob.Clean ∧ r.isMap.Clean ∧ r.isArray.Clean
  asBool : r.asBool.Clean
  asInt64 : r.asInt64.Clean
  asUInt64 : r.asUInt64.Clean
  asIntN : ∀ w, (r.asIntN w).Clean
  asUIntN : ∀ w, (r.asUIntN w).Clean
  asDouble : r.asDouble.Clean
  asString : (r.asString false f).Clean
  asStringView : (r.asStringView false).Clean
  asBlob : (r.asBlob false).Clean
  asBlobVec : (r.asBlobVec false f).Clean
  mapKeys : (r.mapKeys false f).Clean
  contains : ∀ k, (r.contains false f k).Clean
  getKey : ∀ k, (r.getKey false f k).Clean
  arraySize : (r.arraySize f).Clean
  getIdx : ∀ i, (r.getIdx f i).Clean

theorem head_clean (r : View) : r.head.Clean := (readHead_clean r.buf r.pos).1

theorem asInt64_clean (r : View) : r.asInt64.Clean := by
  refine .bind (head_clean r) fun h _ => .bind (.require _) fun _ _ => ?_
  split
  · exact .pure _
  · exact .bind (.require _) fun _ _ => .pure _

theorem asUInt64_clean (r : View) : r.asUInt64.Clean :=
  .bind (head_clean r) fun _ _ => .bind (.require _) fun _ _ => .pure _

/-- C24 for kinds, booleans and integers of any bytes at any position. -/
theorem c24_cbor_scalars (r : View) :
    (r.isNull.Clean ∧ r.isBool.Clean ∧ r.isInt.Clean ∧ r.isUInt.Clean ∧ r.isFloat.Clean ∧
      r.isString.Clean ∧ r.isBlob.Clean ∧ r.isMap.Clean ∧ r.isArray.Clean) ∧
    r.asBool.Clean ∧ r.asInt64.Clean ∧ r.asUInt64.Clean ∧ (∀ w, (r.asIntN w).Clean) ∧
    (∀ w, (r.asUIntN w).Clean) := by
  have hp : ∀ g : Head → Bool, Res.Clean (r.head >>= fun h => pure (g h)) :=
    fun g => .bind (head_clean r) fun _ _ => .pure _
  refine ⟨⟨hp _, hp _, hp _, hp _, hp _, hp _, hp _, hp _, hp _⟩, ?_, asInt64_clean r,
    asUInt64_clean r, fun w => ?_, fun w => ?_⟩
  · exact .bind (head_clean r) fun _ _ => .bind (.require _) fun _ _ => .pure _
  · refine .bind (asInt64_clean r) fun x _ => ?_
    split
    · exact .inr rfl
    · exact .pure _
  · refine .bind (asUInt64_clean r) fun x _ => ?_
    split
    · exact .inr rfl
    · exact .pure _

/-- C24 for well-formed input of any kind (tags, any nesting, indefinite lengths, any map keys; any
bytes may follow): every accessor of every view reached by lookups returns or raises a
DeserializationError. Missing: malformed input, where the claim is false
(`c24_cbor_reader_safe_refuted`). -/
theorem c24_cbor_wellformed_partial {b : Bytes} (h : Item b) (t : Bytes)
    (hl : (b ++ t).length < 2 ^ 64) {f : Nat} (hf : (b ++ t).length ≤ f) {r : View}
    (hr : (reader false f).Reach ⟨b ++ t, 0⟩ r) : AllClean f r := by
  obtain ⟨v, hv⟩ : ∃ v, v = b ++ t := ⟨_, rfl⟩
  have ha0 := at_append b t
  rw [← hv] at hl hf hr ha0
  have key : ∃ q c, r = ⟨v, q⟩ ∧ Item c ∧ At v q c := by
    clear hv
    induction hr with
    | refl => exact ⟨0, b, rfl, h, ha0⟩
    | idx i _ hi ih =>
      obtain ⟨q, c, rfl, hc, ha⟩ := ih
      rcases hc.getIdx hl hf ha i with he | ⟨q', c', he, h1, h2, _⟩
      · rw [show (reader false f).getIdx ⟨v, q⟩ i = View.getIdx f ⟨v, q⟩ i from rfl, he] at hi; cases hi
      · rw [show (reader false f).getIdx ⟨v, q⟩ i = View.getIdx f ⟨v, q⟩ i from rfl, he] at hi
        injection hi with hi; subst hi
        exact ⟨q', c', rfl, h1, h2⟩
    | key k _ hi ih =>
      obtain ⟨q, c, rfl, hc, ha⟩ := ih
      rcases hc.getKey hl hf ha k with he | ⟨q', c', he, h1, h2, _⟩
      · rw [show (reader false f).getKey ⟨v, q⟩ k = View.getKey false f ⟨v, q⟩ k from rfl, he] at hi
        cases hi
      · rw [show (reader false f).getKey ⟨v, q⟩ k = View.getKey false f ⟨v, q⟩ k from rfl, he] at hi
        injection hi with hi; subst hi
        exact ⟨q', c', rfl, h1, h2⟩
  obtain ⟨q, c, rfl, hc, ha⟩ := key
  obtain ⟨k1, k2, k3, k4, k5, k6⟩ := c24_cbor_scalars ⟨v, q⟩
  obtain ⟨s1, s2, s3⟩ := hc.strings hl hf ha
  have hat : ∀ {x : Res View}, AtItem v q x → x.Clean := by
    intro x hx
    rcases hx with hx | ⟨_, _, hx, _⟩
    · exact .inr hx
    · exact .inl ⟨_, hx⟩
  exact ⟨k1, k2, k3, k4, k5, k6, hc.asDouble ha, hc.asString hl hf ha, s1, s2, s3,
    hc.mapKeys hl hf ha, fun k => hc.contains hl hf ha k, fun k => hat (hc.getKey hl hf ha k),
    hc.arraySize hl hf ha, fun i => hat (hc.getIdx hl hf ha i)⟩

/-- A tagged array of indefinite length holding `undefined` and a map with an integer key. -/
example : Item ([0xc1] ++ (indefHd 4 :: ([[0xf7], [0xa1] ++ [[0x05], [0x40]].flatten].flatten ++ [0xff]))) := by
  refine .tag (.imm (n := 1) (by decide)) (.arr (ind := true) ?_ (.indef rfl))
  intro c hc
  rcases List.mem_cons.1 hc with rfl | hc
  · exact .simple (n := 23) (by decide)
  · rcases List.mem_cons.1 hc with rfl | hc
    · refine .map (ind := false) (n := 1) (cs := [[0x05], [0x40]]) rfl ?_ (.definite (.imm (by decide)))
      intro c hc
      rcases List.mem_cons.1 hc with rfl | hc
      · exact .num (m := 0) (n := 5) (by decide) (.imm (by decide))
      · rcases List.mem_cons.1 hc with rfl | hc
        · exact .str (ind := false) (m := 2) (s := []) (.inl rfl) (.definite (h := [0x40]) (.imm (by decide)))
        · cases hc
    · cases hc

/-- C24 for arbitrary bytes in which no string head announces a length of nearly 2^64: lookups,
string and blob accessors of every view reached by lookups return or raise a DeserializationError,
and views stay inside the buffer. Missing: `asDouble`, `contains` and `mapKeys`, and huge lengths,
where the claim is false (`c24_cbor_reader_safe_refuted`). -/
theorem c24_cbor_checked_partial {b : Bytes} (hn : NoHuge b) (hv : b.length < 2 ^ 63) {f : Nat}
    (hf : b.length < f) {r : View} (hr : (reader false f).Reach ⟨b, 0⟩ r) :
    r.buf = b ∧ r.pos ≤ b.length ∧ (r.asString false f).Clean ∧ (r.asStringView false).Clean ∧
      (r.asBlob false).Clean ∧ (r.asBlobVec false f).Clean ∧ (r.arraySize f).Clean ∧
      (∀ i, (r.getIdx f i).Clean) ∧ (∀ k, (r.getKey false f k).Clean) := by
  have key : r.buf = b ∧ r.pos ≤ b.length := by
    induction hr with
    | refl => exact ⟨rfl, Nat.zero_le _⟩
    | @idx r' r'' i _ hi ih =>
      obtain ⟨v, p⟩ := r'
      obtain ⟨rfl, _⟩ := ih
      obtain ⟨h1, _, h2⟩ := (getIdx_within hn hv hf p i).2 _ hi
      exact ⟨h1, h2⟩
    | @key r' r'' k _ hi ih =>
      obtain ⟨v, p⟩ := r'
      obtain ⟨rfl, _⟩ := ih
      obtain ⟨h1, _, h2⟩ := (getKey_within hn hv hf p k).2 _ hi
      exact ⟨h1, h2⟩
  obtain ⟨v, p⟩ := r
  obtain ⟨rfl, hp⟩ := key
  exact ⟨rfl, hp, asString_clean hn hv hf p, asStringView_clean hn hv p, asBlob_clean hn hv p,
    asBlobVec_clean hn hv hf p, arraySize_clean hn hv hf p, fun i => (getIdx_within hn hv hf p i).1,
    fun k => (getKey_within hn hv hf p k).1⟩

/-- A truncated array of a truncated string has no huge heads. -/
example : NoHuge [0x82, 0x65, 0x61] := by
  intro p n _ h
  exfalso
  have : 9 ≤ [0x82, 0x65, 0x61].length := by
    rcases h with h | h <;>
    · have := h.bound
      simp only [List.length_cons, be_length] at this ⊢
      omega
  exact absurd this (by decide)

/-- C24 is false. A string of length 2^64 - 9 passes the bound check because the sum wraps; a float
head without its bytes and the keys of truncated maps are read without a check. -/
theorem c24_cbor_reader_safe_refuted :
    View.asStringView false ⟨[0x7b, 255, 255, 255, 255, 255, 255, 255, 0xf7], 0⟩ = .ub ∧
    View.asBlob false ⟨[0x5b, 255, 255, 255, 255, 255, 255, 255, 0xf7], 0⟩ = .ub ∧
    View.asDouble ⟨[0xfb], 0⟩ = .ub ∧ View.asDouble ⟨[0xf9, 0x3c], 0⟩ = .ub ∧
    (∀ f key, View.contains false f ⟨[0xa1, 0x65], 0⟩ key = .ub) ∧
    (∀ f, View.mapKeys false (f + 1) ⟨[0xa1], 0⟩ = .ub) ∧
    (∀ f, View.mapKeys false (f + 3) ⟨[0xa1, 0x65, 0x61], 0⟩ = .ub) := by
  refine ⟨by decide +kernel, by decide +kernel, by decide +kernel, by decide +kernel, fun f key => ?_,
    fun f => ?_, fun f => ?_⟩
  · rfl
  · rfl
  · rfl

/-! ### C25: termination -/

/-- C25 for arbitrary bytes in which no string head announces a length of nearly 2^64: locating an
element, a key or the end of an item returns. Missing: such heads, where the claim is false
(`c25_cbor_terminates_refuted`). -/
theorem c25_cbor_terminates_partial {b : Bytes} (hn : NoHuge b) (hv : b.length < 2 ^ 63) {f : Nat}
    (hf : b.length < f) (p : Nat) :
    skip false b f p ≠ .diverge ∧ (∀ i, View.getIdx f ⟨b, p⟩ i ≠ .diverge) ∧
      (∀ k, View.getKey false f ⟨b, p⟩ k ≠ .diverge) ∧
      (∀ k, View.contains false f ⟨b, p⟩ k ≠ .diverge) ∧ View.arraySize f ⟨b, p⟩ ≠ .diverge :=
  ⟨(skip_clean hn hv hf p).returns, fun i => (getIdx_within hn hv hf p i).1.returns,
    fun k => (getKey_within hn hv hf p k).1.returns, fun k => returns_contains hn hv hf p k,
    (arraySize_clean hn hv hf p).returns⟩

/-- C25 for key iteration, which does not check bounds: if no head at all announces a number of
nearly 2^64. -/
theorem c25_cbor_keys_terminate_partial {b : Bytes} (hn : NoHugeAll b) (hv : b.length < 2 ^ 63)
    {f : Nat} (hf : b.length < f) (p : Nat) : View.mapKeys false f ⟨b, p⟩ ≠ .diverge :=
  returns_mapKeys hn hv hf p

example : NoHugeAll [0xa2, 0x61, 0x61, 0x9f] := by
  intro p x n _ _ h
  have := h.bound
  simp only [List.length_cons, be_length, List.length_nil] at this
  omega

/-- Eleven bytes: an array whose first element is an indefinite blob with a chunk of 2^64 - 9
bytes. -/
def loopArr : Bytes := [0x82, 0x5f, 0x5b, 255, 255, 255, 255, 255, 255, 255, 0xf7]
/-- Thirteen bytes: a map with the same blob under the key "a". -/
def loopMap : Bytes := [0xa1, 0x61, 0x61, 0x5f, 0x5b, 255, 255, 255, 255, 255, 255, 255, 0xf7]

theorem loop_chunks (raw : Bool) {v : Bytes} {q : Nat} (hq : decide (q < v.length) = true)
    (h1 : byteAt v q = .ok 0x5b)
    (h2 : readHead raw v q = .ok ⟨2, 27, 2 ^ 64 - 9, 9, false⟩) (hb : q < 2 ^ 64) :
    ∀ f, chunks raw v 2 f q = .diverge
  | 0 => rfl
  | f + 1 => by
    have e : u64 (q + (9 + (2 ^ 64 - 9))) = q := by
      unfold u64
      rw [show 9 + (2 ^ 64 - 9) = 2 ^ 64 from rfl, Nat.add_mod_right, Nat.mod_eq_of_lt hb]
    have ih := loop_chunks raw hq h1 h2 hb f
    have he : ∀ b, ensure raw (!b) = ensure raw (!b) := fun _ => rfl
    simp only [chunks, h1, h2, Res.ok_bind, hq, e, ih, decide_true, Bool.not_false]
    cases raw <;> rfl

/-- C25 is false: on eleven bytes, `operator[](1)` does not return; on thirteen bytes, neither does
`mapKeys`. -/
theorem c25_cbor_terminates_refuted :
    (∀ f, View.getIdx f ⟨loopArr, 0⟩ 1 = .diverge) ∧
    (∀ hard f, View.mapKeys hard f ⟨loopMap, 0⟩ = .diverge) := by
  have s1 : ∀ f, skip false loopArr f 1 = .diverge := by
    intro f
    cases f with
    | zero => rfl
    | succ f =>
      have hr : readHead false loopArr 1 = .ok ⟨2, 31, 0, 1, true⟩ := by decide +kernel
      simp only [skip, hr, Res.ok_bind]
      exact loop_chunks false (by decide) (by decide) (by decide +kernel) (by decide) f
  have s2 : ∀ f, skip true loopMap f 3 = .diverge := by
    intro f
    cases f with
    | zero => rfl
    | succ f =>
      have hr : readHead true loopMap 3 = .ok ⟨2, 31, 0, 1, true⟩ := by decide +kernel
      simp only [skip, hr, Res.ok_bind]
      exact loop_chunks true (by decide) (by decide) (by decide +kernel) (by decide) f
  constructor
  · intro f
    have hr : readHead false loopArr 0 = .ok ⟨4, 2, 2, 1, false⟩ := by decide +kernel
    simp only [View.getIdx, View.head, hr, Res.ok_bind]
    show (do let q ← items (skip false loopArr f) 1 1; _) = _
    simp only [items, s1]; rfl
  · intro hard f
    have hr : ∀ raw, readHead raw loopMap 0 = .ok ⟨5, 1, 1, 1, false⟩ := by decide +kernel
    have hk : ∀ g, skip true loopMap (g + 1) 1 = .ok 3 := by
      intro g
      have hr : readHead true loopMap 1 = .ok ⟨3, 1, 1, 1, false⟩ := by decide +kernel
      simp only [skip, hr, Res.ok_bind]; rfl
    simp only [View.mapKeys, View.head, hr, Res.ok_bind, View.keysEnd]
    cases f with
    | zero => rfl
    | succ g =>
      show (do let stop ← items (skip true loopMap (g + 1)) 2 1; _) = _
      simp only [items, hk, s2, Res.ok_bind]; rfl

/-! ### C26, C11: integers -/

theorem asInt64_enc {z : Int} {b : Bytes} (h : EncInt z b) (rest : Bytes) :
    View.asInt64 ⟨b ++ rest, 0⟩ = if z < -2 ^ 63 then .err .deser else .ok (Int64.ofInt z) := by
  rcases h with ⟨h0, h⟩ | ⟨h0, h⟩
  · obtain ⟨a, hr⟩ := h.read (by omega) false (at_append b rest)
    have := h.lt
    rw [if_neg (by omega)]
    simp only [View.asInt64, View.head, hr, Res.ok_bind]
    rw [show ((z.toNat : Nat) : Int) = z by omega]; rfl
  · obtain ⟨a, hr⟩ := h.read (by omega) false (at_append b rest)
    have := h.lt
    simp only [View.asInt64, View.head, hr, Res.ok_bind]
    by_cases hz : z < -2 ^ 63
    · rw [if_pos hz, decide_eq_false (show ¬ (-1 - z).toNat ≤ 2 ^ 63 - 1 by omega)]
      rfl
    · rw [if_neg hz, decide_eq_true (show (-1 - z).toNat ≤ 2 ^ 63 - 1 by omega),
        show (-1 - (((-1 - z).toNat : Nat) : Int)) = z by omega]
      rfl

theorem asUInt64_enc {z : Int} {b : Bytes} (h : EncInt z b) (rest : Bytes) :
    View.asUInt64 ⟨b ++ rest, 0⟩ = if z < 0 then .err .deser else .ok (UInt64.ofNat z.toNat) := by
  rcases h with ⟨h0, h⟩ | ⟨h0, h⟩
  · obtain ⟨a, hr⟩ := h.read (by omega) false (at_append b rest)
    rw [if_neg (by omega)]
    simp only [View.asUInt64, View.head, hr, Res.ok_bind]; rfl
  · obtain ⟨a, hr⟩ := h.read (by omega) false (at_append b rest)
    rw [if_pos h0]
    simp only [View.asUInt64, View.head, hr, Res.ok_bind]; rfl

theorem encInt_range {z : Int} {b : Bytes} (h : EncInt z b) : -2 ^ 64 ≤ z ∧ z < 2 ^ 64 := by
  rcases h with ⟨h0, h⟩ | ⟨h0, h⟩ <;> have := h.lt <;> constructor <;> omega

/-- C26 for integers below 2^63: exactly the stored number if it is representable, an exception
otherwise, for every head width. `asUInt64` is exact or raises for every integer. Missing: `asInt64`
of integers from 2^63 on, where the claim is false (`c26_cbor_int_refuted`). -/
theorem c26_cbor_int_partial {z : Int} {b : Bytes} (h : EncInt z b) (rest : Bytes) :
    (-2 ^ 63 ≤ z → z < 2 ^ 63 → ∃ x, View.asInt64 ⟨b ++ rest, 0⟩ = .ok x ∧ x.toInt = z) ∧
    (z < -2 ^ 63 → View.asInt64 ⟨b ++ rest, 0⟩ = .err .deser) ∧
    (0 ≤ z → ∃ y, View.asUInt64 ⟨b ++ rest, 0⟩ = .ok y ∧ (y.toNat : Int) = z) ∧
    (z < 0 → View.asUInt64 ⟨b ++ rest, 0⟩ = .err .deser) := by
  have hr := encInt_range h
  rw [asInt64_enc h, asUInt64_enc h]
  refine ⟨fun h1 h2 => ?_, fun h1 => if_pos h1, fun h1 => ?_, fun h1 => if_pos h1⟩
  · rw [if_neg (by omega)]; exact ⟨_, rfl, i64_toInt h1 h2⟩
  · rw [if_neg (by omega)]
    exact ⟨_, rfl, by rw [u64_toNat (by omega)]; omega⟩

example : EncInt (-300) [0x39, 0x01, 0x2b] ∧ EncInt (-2 ^ 64) [0x3b, 255, 255, 255, 255, 255, 255, 255, 255] :=
  ⟨.inr ⟨by decide, .w2 (by decide)⟩, .inr ⟨by decide, .w8 (by decide)⟩⟩

/-- C26 is false: `asInt64` of the stored number 2^64 - 1 is -1. -/
theorem c26_cbor_int_refuted :
    ∃ b, EncInt (2 ^ 64 - 1) b ∧ View.asInt64 ⟨b, 0⟩ = .ok (-1) :=
  ⟨[0x1b, 255, 255, 255, 255, 255, 255, 255, 255], .inl ⟨by decide, .w8 (by decide)⟩, by decide +kernel⟩

/-- C26, malformed heads: an integer head of "indefinite length", which the format forbids, reads as
0 or -1. -/
theorem c26_cbor_malformed :
    View.asInt64 ⟨[0x1f], 0⟩ = .ok 0 ∧ View.asInt64 ⟨[0x3f], 0⟩ = .ok (-1) := by decide +kernel

/-- C11 for CBOR: the narrow accessors return what the 64-bit accessors returned if and only if it
fits. -/
theorem c11_cbor_narrow_signed (r : View) (w : Nat) (z : Int) :
    r.asIntN w = .ok z ↔
      ∃ x, r.asInt64 = .ok x ∧ x.toInt = z ∧ -(2 ^ (w - 1) : Int) ≤ z ∧ z < (2 ^ (w - 1) : Int) := by
  unfold View.asIntN
  cases h : r.asInt64 with
  | ok x =>
    simp only [Res.ok_bind]
    split
    · rename_i hc
      constructor
      · intro h; cases h
      · rintro ⟨y, hy, rfl, h1, h2⟩; injection hy with hy; subst hy; omega
    · rename_i hc
      constructor
      · intro h; injection h with h; subst h; exact ⟨x, rfl, rfl, by omega, by omega⟩
      · rintro ⟨y, hy, rfl, h1, h2⟩; injection hy with hy; subst hy; rfl
  | _ => simp

theorem c11_cbor_narrow_unsigned (r : View) (w : Nat) (n : Nat) :
    r.asUIntN w = .ok n ↔ ∃ x, r.asUInt64 = .ok x ∧ x.toNat = n ∧ n < 2 ^ w := by
  have hp := Nat.two_pow_pos w
  unfold View.asUIntN
  cases h : r.asUInt64 with
  | ok x =>
    simp only [Res.ok_bind]
    split
    · rename_i hc
      constructor
      · intro h; cases h
      · rintro ⟨y, hy, rfl, h1⟩; injection hy with hy; subst hy; omega
    · rename_i hc
      constructor
      · intro h; injection h with h; subst h; exact ⟨x, rfl, rfl, by omega⟩
      · rintro ⟨y, hy, rfl, h1⟩; injection hy with hy; subst hy; rfl
  | _ => simp

/-- C11 for CBOR: whatever integer is stored, a narrow unsigned accessor returns it exactly or raises
a DeserializationError; a signed one does so for integers below 2^64 - 2^31. -/
theorem c11_cbor_narrow_stored {z : Int} {b : Bytes} (h : EncInt z b) (rest : Bytes) {w : Nat}
    (hw1 : 1 ≤ w) (hw : w ≤ 32) :
    (0 ≤ z → z < 2 ^ w → View.asUIntN w ⟨b ++ rest, 0⟩ = .ok z.toNat) ∧
    (z < 0 ∨ 2 ^ w ≤ z → View.asUIntN w ⟨b ++ rest, 0⟩ = .err .deser) ∧
    (-(2 ^ (w - 1) : Int) ≤ z → z < 2 ^ (w - 1) → View.asIntN w ⟨b ++ rest, 0⟩ = .ok z) ∧
    (z < -(2 ^ (w - 1) : Int) ∨ 2 ^ (w - 1) ≤ z → z < 2 ^ 64 - 2 ^ 31 →
      View.asIntN w ⟨b ++ rest, 0⟩ = .err .deser) := by
  have hr := encInt_range h
  have p1 : (2 : Int) ^ w ≤ 2 ^ 32 := by
    have : (2 : Nat) ^ w ≤ 2 ^ 32 := Nat.pow_le_pow_right (by decide) hw
    exact_mod_cast this
  have p2 : (2 : Int) ^ (w - 1) ≤ 2 ^ 31 := by
    have : (2 : Nat) ^ (w - 1) ≤ 2 ^ 31 := Nat.pow_le_pow_right (by decide) (by omega)
    exact_mod_cast this
  have p3 : ((2 ^ w : Nat) : Int) = 2 ^ w := by norm_cast
  have p4 : (0 : Int) < 2 ^ w := by have := Nat.two_pow_pos w; omega
  have ai := asInt64_enc h rest
  have au := asUInt64_enc h rest
  refine ⟨fun h1 h2 => ?_, fun h1 => ?_, fun h1 h2 => ?_, fun h1 h2 => ?_⟩
  · rw [c11_cbor_narrow_unsigned]
    rw [if_neg (by omega)] at au
    exact ⟨_, au, u64_toNat (by omega), by omega⟩
  · unfold View.asUIntN
    rw [au]
    by_cases h0 : z < 0
    · rw [if_pos h0]; rfl
    · rw [if_neg h0]
      simp only [Res.ok_bind]
      rw [u64_toNat (by omega), if_pos (by omega)]
  · rw [c11_cbor_narrow_signed]
    rw [if_neg (by omega)] at ai
    exact ⟨_, ai, i64_toInt (by omega) (by omega), h1, h2⟩
  · unfold View.asIntN
    rw [ai]
    by_cases h0 : z < -2 ^ 63
    · rw [if_pos h0]; rfl
    · rw [if_neg h0]
      simp only [Res.ok_bind]
      have : (Int64.ofInt z).toInt < -(2 ^ (w - 1) : Int) ∨ (2 ^ (w - 1) : Int) ≤ (Int64.ofInt z).toInt := by
        by_cases h3 : z < 2 ^ 63
        · rw [i64_toInt (by omega) h3]; exact h1
        · have : (Int64.ofInt z).toInt = z - 2 ^ 64 := by
            rw [Int64.toInt_ofInt, Int.bmod_def]
            have : Int64.size = 2 ^ 64 := rfl
            rw [this]; split <;> omega
          omega
      rw [if_pos (by omega)]

/-- C11 is false for CBOR: a stored 2^64 - 1 reads as -1 through `asInt8`. -/
theorem c11_cbor_narrow_refuted : ∃ b, EncInt (2 ^ 64 - 1) b ∧ View.asIntN 8 ⟨b, 0⟩ = .ok (-1) :=
  ⟨[0x1b, 255, 255, 255, 255, 255, 255, 255, 255], .inl ⟨by decide, .w8 (by decide)⟩, by decide +kernel⟩

/-! ### C27, C28, C29: translation -/

section
variable {utf8 : Bytes → Bool} {maxDepth fuel : Nat}

/-- Values CBOR round-trips: no integer of 2^63 or more, and bytes that fit in memory. -/
def Dom (utf8 : Bytes → Bool) (maxDepth fuel : Nat) (v : Val) : Prop :=
  v.Small ∧ ∀ b, (proto utf8 maxDepth false fuel).serialize v = .ok b → b.length < 2 ^ 64 ∧ b.length ≤ fuel

theorem proto_roundTrips : (proto utf8 maxDepth false fuel).RoundTrips False (Dom utf8 maxDepth fuel) := by
  intro v b hv hb
  exact ⟨⟨b, 0⟩, rfl, c23_cbor_round_trip_partial hv.1 hb (hv.2 b hb).1 (hv.2 b hb).2⟩

theorem small_canon : ∀ v : Val, v.canon.Small ↔ v.Small := by
  intro v
  induction v using Val.ind with
  | int i =>
    simp only [Val.canon]
    split
    · rename_i h
      have := Int64.toNat_toUInt64_of_le (x := i) (Int64.le_iff_toInt_le.2 (by simpa using h))
      have h2 : i.toUInt64.toNat = i.toInt.toNat := by rw [this]; rfl
      have := i.toInt_lt
      simp only [Val.Small, Val.Each, iff_true]
      omega
    · simp
  | arr xs ih =>
    simp only [Val.canon, Val.canonList_eq, Val.Small, Val.Each, true_and, Val.eachList_iff,
      List.mem_map, forall_exists_index, and_imp, forall_apply_eq_imp_iff₂]
    exact ⟨fun h x hx => (ih x hx).1 (h x hx), fun h x hx => (ih x hx).2 (h x hx)⟩
  | map ms ih =>
    simp only [Val.canon, Val.canonEntries_eq, Val.Small, Val.Each, true_and, Val.eachEntries_iff,
      List.mem_map, forall_exists_index, and_imp, forall_apply_eq_imp_iff₂]
    exact ⟨fun h x hx => (ih x hx).1 (h x hx), fun h x hx => (ih x hx).2 (h x hx)⟩
  | _ => simp [Val.canon]

theorem dom_same {v w : Val} (h : v.Same w) (hw : Dom utf8 maxDepth fuel w) : Dom utf8 maxDepth fuel v := by
  refine ⟨?_, fun b hb => hw.2 b (c12_cbor_same h ▸ hb)⟩
  have := small_canon w
  unfold Val.Same at h
  rw [← h, small_canon] at this
  exact this.2 hw.1

/-- C27 into CBOR from any protocol with a round trip: if CBOR can serialize the value, to `c`, then
translation produces exactly these bytes, and they present the value. -/
theorem c27_to_cbor (P : Proto) {p : Prop} {D : Val → Prop} (hP : P.RoundTrips p D) {v : Val}
    (hd : v.Distinct) (hD : D v) (hs : v.Small) {b c : Bytes} (hb : P.serialize v = .ok b)
    (hc : (proto utf8 maxDepth false fuel).serialize v = .ok c) (hl : c.length < 2 ^ 64)
    (hf : c.length ≤ fuel) :
    ∃ r, P.opn b = .ok r ∧ ∀ f, v.depth ≤ f →
      (proto utf8 maxDepth false fuel).translate P.reader f r = .ok ⟨c, 0⟩ ∧
      (reader false fuel).Agrees ⟨c, 0⟩ v := by
  have hD' : Dom utf8 maxDepth fuel v := ⟨hs, fun b' hb' => by
    rw [hc] at hb'; injection hb' with hb'; subst hb'; exact ⟨hl, hf⟩⟩
  obtain ⟨r, hr, h⟩ := c27_translate_pair P (proto utf8 maxDepth false fuel) hP proto_roundTrips hd hD
    (fun v' h => dom_same h hD') hb
  refine ⟨r, hr, fun f hf => ?_⟩
  obtain ⟨v', h1, _, h3, h4⟩ := h f hf
  rw [c12_cbor_same h1, hc] at h3
  have e : (proto utf8 maxDepth false fuel).translate P.reader f r = .ok ⟨c, 0⟩ := h3
  exact ⟨e, (h4 ⟨c, 0⟩ e).1⟩

/-- C27 from CBOR into any protocol with a round trip: translation is serializing the value up to
integer signedness, and what comes out presents the value. -/
theorem c27_from_cbor (Q : Proto) {q : Prop} {E : Val → Prop} (hQ : Q.RoundTrips q E) {v : Val}
    (hd : v.Distinct) (hs : v.Small) (hE : ∀ v' : Val, v'.Same v → E v') {b : Bytes}
    (hb : (proto utf8 maxDepth false fuel).serialize v = .ok b) (hl : b.length < 2 ^ 64)
    (hf : b.length ≤ fuel) {f : Nat} (hdep : v.depth ≤ f) :
    ∃ v', v'.Same v ∧ Q.translate (reader false fuel) f ⟨b, 0⟩ = (Q.serialize v' >>= Q.opn) ∧
      ∀ r', Q.translate (reader false fuel) f ⟨b, 0⟩ = .ok r' → Q.reader.Agrees r' v := by
  have hD' : Dom utf8 maxDepth fuel v := ⟨hs, fun b' hb' => by
    rw [hb] at hb'; injection hb' with hb'; subst hb'; exact ⟨hl, hf⟩⟩
  obtain ⟨r, hr, h⟩ := c27_translate_pair (proto utf8 maxDepth false fuel) Q proto_roundTrips hQ hd hD'
    hE hb
  have : r = ⟨b, 0⟩ := by injection hr with hr; exact hr.symm
  subst this
  obtain ⟨v', h1, _, h3, h4⟩ := h f hdep
  exact ⟨v', h1, h3, fun r' hr' => (h4 r' hr').1⟩

/-- C27 from CBOR to ZERA, to MessagePack and to CBOR. -/
theorem c27_cbor_to_all {v : Val} (hd : v.Distinct) (hs : v.Small) {b : Bytes}
    (hb : (proto utf8 maxDepth false fuel).serialize v = .ok b) (hl : b.length < 2 ^ 64)
    (hf : b.length ≤ fuel) {f : Nat} (hdep : v.depth ≤ f) :
    (∀ r', Zera.proto.translate (reader false fuel) f ⟨b, 0⟩ = .ok r' → Zera.reader.Agrees r' v) ∧
    (v.Sized → v.Below (2 ^ 32 - 5) →
      ∃ c, MsgPack.proto.translate (reader false fuel) f ⟨b, 0⟩ = .ok c ∧ MsgPack.reader.Agrees c v) ∧
    (proto utf8 maxDepth false fuel).translate (reader false fuel) f ⟨b, 0⟩ = .ok ⟨b, 0⟩ := by
  refine ⟨?_, fun h1 h2 => ?_, ?_⟩
  · obtain ⟨_, _, _, h⟩ := c27_from_cbor Zera.proto Zera.proto_roundTrips hd hs (fun _ _ => trivial) hb hl
      hf hdep
    exact h
  · obtain ⟨v', _, h3, h⟩ := c27_from_cbor MsgPack.proto MsgPack.proto_roundTrips hd hs
      (fun v' h => MsgPack.sized_same h ⟨h1, h2⟩) hb hl hf hdep
    rw [MsgPack.serialize_eq] at h3
    exact ⟨_, h3, h _ h3⟩
  · have hD' : Dom utf8 maxDepth fuel v := ⟨hs, fun b' hb' => by
      rw [hb] at hb'; injection hb' with hb'; subst hb'; exact ⟨hl, hf⟩⟩
    obtain ⟨r, hr, h⟩ := c27_to_cbor (proto utf8 maxDepth false fuel) proto_roundTrips hd hD' hs hb hb hl hf
    have : r = ⟨b, 0⟩ := by injection hr with hr; exact hr.symm
    subst this
    exact (h f hdep).1

/-- C27 from ZERA and from MessagePack to CBOR: the bytes CBOR itself would have written. -/
theorem c27_all_to_cbor {v : Val} (hd : v.Distinct) (hs : v.Small) {c : Bytes}
    (hc : (proto utf8 maxDepth false fuel).serialize v = .ok c) (hl : c.length < 2 ^ 64)
    (hf : c.length ≤ fuel) :
    (∀ b, Zera.proto.serialize v = .ok b → ∃ r, Zera.initFrom b = .ok r ∧ ∀ f, v.depth ≤ f →
      (proto utf8 maxDepth false fuel).translate Zera.reader f r = .ok ⟨c, 0⟩) ∧
    (v.Sized → v.Below (2 ^ 32 - 5) → ∃ b, MsgPack.proto.serialize v = .ok b ∧ ∀ f, v.depth ≤ f →
      (proto utf8 maxDepth false fuel).translate MsgPack.reader f b = .ok ⟨c, 0⟩) := by
  refine ⟨fun b hb => ?_, fun h1 h2 => ⟨_, MsgPack.serialize_eq v, fun f hdep => ?_⟩⟩
  · obtain ⟨r, hr, h⟩ := c27_to_cbor Zera.proto Zera.proto_roundTrips hd trivial hs hb hc hl hf
    exact ⟨r, hr, fun f hdep => (h f hdep).1⟩
  · obtain ⟨r, hr, h⟩ := c27_to_cbor MsgPack.proto MsgPack.proto_roundTrips hd ⟨h1, h2⟩ hs
      (MsgPack.serialize_eq v) hc hl hf
    have : r = MsgPack.pack (emit v) := by injection hr with hr; exact hr.symm
    subst this
    exact (h f hdep).1

example : sampleVal.Distinct ∧ sampleVal.Small ∧ sampleVal.Sized := by
  simp [sampleVal, Val.Distinct, Val.distinctEntries, Val.distinctList, Val.Sized, Val.sizedEntries,
    Val.sizedList, Val.Small, Val.Each, Val.eachEntries, Val.eachList]

theorem step_returns (s : WS) (e : Ev) : Returns (step utf8 maxDepth s e) := by
  have ht : ∀ t, Returns (textBytes utf8 t) := by
    intro t; unfold textBytes; split
    · exact returns_ok _
    · exact returns_err _
  have ho : ∀ b m n, Returns (openC maxDepth s b m n) := by
    intro b m n; unfold openC; split
    · exact returns_err _
    · exact returns_ok _
  have hc : Returns (closeC s) := by
    unfold closeC; split
    · exact fun h => by cases h
    · repeat' split
      all_goals first
        | exact returns_ok _
        | exact returns_err _
  cases e <;> simp only [step, scalar]
  all_goals first
    | exact returns_ok _
    | exact ho _ _ _
    | exact hc
    | exact .bind (ht _) fun _ _ => returns_ok _

theorem reader_total {b : Bytes} (hn : NoHugeAll b) (hv : b.length < 2 ^ 63) {f : Nat}
    (hf : b.length < f) : (reader false f).Total (fun r => r.buf = b) where
  isNull r _ := (c24_cbor_scalars r).1.1.returns
  isBool r _ := (c24_cbor_scalars r).1.2.1.returns
  isInt r _ := (c24_cbor_scalars r).1.2.2.1.returns
  isUInt r _ := (c24_cbor_scalars r).1.2.2.2.1.returns
  isFloat r _ := (c24_cbor_scalars r).1.2.2.2.2.1.returns
  isString r _ := (c24_cbor_scalars r).1.2.2.2.2.2.1.returns
  isBlob r _ := (c24_cbor_scalars r).1.2.2.2.2.2.2.1.returns
  isMap r _ := (c24_cbor_scalars r).1.2.2.2.2.2.2.2.1.returns
  isArray r _ := (c24_cbor_scalars r).1.2.2.2.2.2.2.2.2.returns
  asBool r _ := (c24_cbor_scalars r).2.1.returns
  asInt64 r _ := (asInt64_clean r).returns
  asUInt64 r _ := (asUInt64_clean r).returns
  asDouble r _ := by
    refine .bind (returns_readHead _ _ _) fun h _ => .bind ?_ fun _ _ => .bind ?_ fun _ _ => ?_
    · exact (c24_cbor_scalars r).1.2.2.2.2.1.returns
    · exact (Res.Clean.require _).returns
    · dsimp only
      split
      · exact .bind (returns_byteAt _ _) fun _ _ => .bind (returns_byteAt _ _) fun _ _ => returns_pure _
      · split
        · exact .bind (returns_getBe _ _ _ _) fun _ _ => returns_pure _
        · exact .bind (returns_getBe _ _ _ _) fun _ _ => returns_pure _
  asString r h := by obtain ⟨v, p⟩ := r; cases h; exact (asString_clean hn.noHuge hv hf p).returns
  asStringView r h := by obtain ⟨v, p⟩ := r; cases h; exact (asStringView_clean hn.noHuge hv p).returns
  asBlob r h := by obtain ⟨v, p⟩ := r; cases h; exact (asBlob_clean hn.noHuge hv p).returns
  mapKeys r h := by obtain ⟨v, p⟩ := r; cases h; exact returns_mapKeys hn hv hf p
  contains r k _ h _ := by obtain ⟨v, p⟩ := r; cases h; exact returns_contains hn.noHuge hv hf p k
  getKey r k _ h _ := by obtain ⟨v, p⟩ := r; cases h; exact (getKey_within hn.noHuge hv hf p k).1.returns
  arraySize r h := by obtain ⟨v, p⟩ := r; cases h; exact (arraySize_clean hn.noHuge hv hf p).returns
  getIdx r k h := by obtain ⟨v, p⟩ := r; cases h; exact (getIdx_within hn.noHuge hv hf p k).1.returns

/-- C28 for CBOR sources in which no head announces a number of nearly 2^64: into any writer whose
calls return, the recursion of `write_value` is no deeper than the number of bytes. Missing: such
heads, where the claim is false (`c28_cbor_source_refuted`). -/
theorem c28_cbor_source_partial {σ : Type} (W : Writer σ) (hW : ∀ s e, Returns (W.step s e)) {b : Bytes}
    (hn : NoHugeAll b) (hv : b.length < 2 ^ 63) (hf : b.length < fuel) (s : σ) {f : Nat}
    (hf' : b.length < f) : writeValue (reader false fuel) W f ⟨b, 0⟩ s ≠ .diverge := by
  refine writeValue_returns (reader_total hn hv hf) hW (fun r => b.length - r.pos) ?_ ?_ f ⟨b, 0⟩ s rfl
    (by simpa using hf')
  · rintro ⟨v, p⟩ i c rfl hc
    obtain ⟨h1, h2, h3⟩ := (getIdx_within hn.noHuge hv hf p i).2 c hc
    dsimp only at h3 hf' ⊢
    exact ⟨h1, by omega⟩
  · rintro ⟨v, p⟩ i c rfl hc
    obtain ⟨h1, h2, h3⟩ := (getKey_within hn.noHuge hv hf p i).2 c hc
    dsimp only at h3 hf' ⊢
    exact ⟨h1, by omega⟩

/-- C28 is false for CBOR sources: thirteen bytes on which translation, into any protocol, does not
return. -/
theorem c28_cbor_source_refuted (Q : Proto) (hard : Bool) (fuel f : Nat) :
    Q.translate (reader hard fuel) f ⟨loopMap, 0⟩ = .diverge := by
  have h : writeValue (reader hard fuel) Q.writer f ⟨loopMap, 0⟩ Q.init = .diverge := by
    cases f with
    | zero => rfl
    | succ f =>
      have h1 : (reader hard fuel).isNull ⟨loopMap, 0⟩ = .ok false := by
        show View.isNull _ = _; decide +kernel
      have h2 : (reader hard fuel).isBool ⟨loopMap, 0⟩ = .ok false := by
        show View.isBool _ = _; decide +kernel
      have h3 : (reader hard fuel).isInt ⟨loopMap, 0⟩ = .ok false := by
        show View.isInt _ = _; decide +kernel
      have h4 : (reader hard fuel).isUInt ⟨loopMap, 0⟩ = .ok false := by
        show View.isUInt _ = _; decide +kernel
      have h5 : (reader hard fuel).isFloat ⟨loopMap, 0⟩ = .ok false := by
        show View.isFloat _ = _; decide +kernel
      have h6 : (reader hard fuel).isString ⟨loopMap, 0⟩ = .ok false := by
        show View.isString _ = _; decide +kernel
      have h7 : (reader hard fuel).isBlob ⟨loopMap, 0⟩ = .ok false := by
        show View.isBlob _ = _; decide +kernel
      have h8 : (reader hard fuel).isMap ⟨loopMap, 0⟩ = .ok true := by
        show View.isMap _ = _; decide +kernel
      have h9 : (reader hard fuel).mapKeys ⟨loopMap, 0⟩ = .diverge :=
        c25_cbor_terminates_refuted.2 hard fuel
      simp only [writeValue, h1, h2, h3, h4, h5, h6, h7, h8, h9, Res.ok_bind, Bool.false_eq_true,
        if_false, if_true]
      rfl
  simp only [Proto.translate, h]
  rfl

/-- C29 is false for CBOR sources: 2^64 - 1, written as an unsigned integer, is translated to -1. -/
theorem c29_cbor_uint_refuted :
    ∃ (n : UInt64) (b : Bytes), (proto utf8 maxDepth false fuel).serialize (.uint n) = .ok b ∧
      MsgPack.proto.translate (reader false fuel) 1 ⟨b, 0⟩ = MsgPack.proto.serialize (.int (-1)) := by
  refine ⟨0xffffffffffffffff, [0x1b, 255, 255, 255, 255, 255, 255, 255, 255], ?_, ?_⟩
  · rw [serialize_eq (v := .uint 0xffffffffffffffff) trivial (Nat.zero_le _)]; decide +kernel
  · rfl

/-- C29 for CBOR sources and numbers below 2^63, into any protocol with a round trip: if translation
succeeds, the result presents the number. -/
theorem c29_cbor_uint_partial (Q : Proto) {q : Prop} {E : Val → Prop} (hQ : Q.RoundTrips q E)
    (n : UInt64) (hn : n.toNat < 2 ^ 63) (hE : ∀ v' : Val, v'.Same (.uint n) → E v')
    (hf : 9 ≤ fuel) {b : Bytes} (hb : (proto utf8 maxDepth false fuel).serialize (.uint n) = .ok b)
    {r' : Q.ρ} (hr : Q.translate (reader false fuel) 1 ⟨b, 0⟩ = .ok r') :
    Q.reader.Agrees r' (.uint n) := by
  have hb9 : b.length ≤ 9 := by
    obtain ⟨rfl, _⟩ := serialize_ok hb
    simp only [encB, headBytes]
    repeat' split
    all_goals simp [beBytes]
  obtain ⟨_, _, _, h⟩ := c27_from_cbor Q hQ (v := .uint n) trivial hn hE hb (by omega) (by omega)
    (f := 1) (Nat.le_refl _)
  exact h r' hr

end

/-- C29 for ZERA sources: every unsigned integer, into any protocol with a round trip. -/
theorem _root_.Zer.Zera.c29_zera_uint (Q : Proto) {q : Prop} {E : Val → Prop} (hQ : Q.RoundTrips q E)
    (n : UInt64) (hE : E (.uint n)) {b : Bytes} (hb : Zera.proto.serialize (.uint n) = .ok b) :
    ∃ r, Zera.initFrom b = .ok r ∧
      Q.translate Zera.reader 1 r = (Q.serialize (.uint n) >>= Q.opn) ∧
      ∀ r', Q.translate Zera.reader 1 r = .ok r' → Q.reader.Agrees r' (.uint n) := by
  obtain ⟨r, hr, ha⟩ := Zera.proto_roundTrips (.uint n) b trivial hb
  refine ⟨r, hr, ?_⟩
  obtain ⟨v', h1, h2, h3⟩ := writeValue_run _ r ha
  have := h2 trivial
  have e : v' = .uint n := by rw [this]; rfl
  subst e
  have e : Q.translate Zera.reader 1 r = (Q.serialize (.uint n) >>= Q.opn) := by
    simp only [Proto.translate, Proto.serialize, Proto.bytesOf, bind_assoc]
    show (writeValue Zera.proto.reader Q.writer 1 r Q.init >>= _) = _
    rw [h3 _ Q.writer 1 (Nat.le_refl _) Q.init]
  refine ⟨e, fun r' hr' => ?_⟩
  rw [e] at hr'
  obtain ⟨c, hc, ho⟩ := Res.bind_eq_ok.1 hr'
  obtain ⟨r'', ho', hag⟩ := hQ _ _ hE hc
  rw [ho] at ho'; injection ho' with ho'; subst ho'
  exact hag.agrees

/-- C29 for MessagePack sources: every unsigned integer, into any protocol with a round trip. -/
theorem _root_.Zer.MsgPack.c29_msgpack_uint (Q : Proto) {q : Prop} {E : Val → Prop}
    (hQ : Q.RoundTrips q E) (n : UInt64) (hE : ∀ v' : Val, v'.Same (.uint n) → E v') :
    ∃ b, MsgPack.proto.serialize (.uint n) = .ok b ∧
      ∀ r', Q.translate MsgPack.reader 1 b = .ok r' → Q.reader.Agrees r' (.uint n) := by
  have hb := MsgPack.serialize_eq (.uint n)
  refine ⟨_, hb, ?_⟩
  obtain ⟨r, hr, h⟩ := c27_translate_pair MsgPack.proto Q MsgPack.proto_roundTrips hQ (v := .uint n) trivial
    ⟨trivial, trivial⟩ hE hb
  have : r = MsgPack.pack (emit (.uint n)) := by injection hr with hr; exact hr.symm
  subst this
  obtain ⟨_, _, _, _, h4⟩ := h 1 (Nat.le_refl _)
  exact fun r' hr' => (h4 r' hr').1

/-! ### C53, C54, C55 -/

/-- C53 for CBOR: a serialization without any call reads as null. -/
theorem c53_cbor_empty (utf8 : Bytes → Bool) (maxDepth : Nat) (hard : Bool) (f : Nat) :
    ∃ b, (proto utf8 maxDepth hard f).bytesOf [] = .ok b ∧ (reader hard f).Agrees ⟨b, 0⟩ .null :=
  ⟨[0xf6], rfl, .null (shows_of_head (hard := hard) (ind := false) (f := f)
    (h := ⟨7, 22, 0, 1, false⟩) (by decide +kernel))⟩

/-- C54 for CBOR: on any bytes at any position either every kind predicate raises, or they all answer
and at most one kind holds, counting isInt and isUInt as one. -/
theorem c54_cbor_kinds_exclusive (hard : Bool) (f : Nat) (r : View) :
    (∃ a b c d e g h i, (reader hard f).Shows r a b c d e g h i ∧
      ([a, b, c, d, e, g, h, i].filter id).length ≤ 1) ∨
    (r.isNull = .err .deser ∧ r.isBool = .err .deser ∧ r.isInt = .err .deser ∧ r.isUInt = .err .deser ∧
      r.isFloat = .err .deser ∧ r.isString = .err .deser ∧ r.isBlob = .err .deser ∧
      r.isMap = .err .deser ∧ r.isArray = .err .deser) := by
  rcases head_clean r with ⟨h, hr⟩ | hr
  · left
    refine ⟨_, _, _, _, _, _, _, _, shows_of_head (ind := false) hr, ?_⟩
    rcases Nat.lt_or_ge 7 h.major with h7 | h7
    · simp [show ¬ h.major = 7 by omega, show ¬ h.major = 0 by omega, show ¬ h.major = 1 by omega,
        show ¬ h.major = 3 by omega, show ¬ h.major = 2 by omega, show ¬ h.major = 5 by omega,
        show ¬ h.major = 4 by omega]
    · have key : ∀ m : Fin 8, ∀ a : Nat,
          ([decide (m.1 = 7 ∧ a = 22), decide (m.1 = 7 ∧ (a = 20 ∨ a = 21)),
            decide (m.1 = 0 ∨ m.1 = 1), decide (m.1 = 7 ∧ (a = 25 ∨ a = 26 ∨ a = 27)),
            decide (m.1 = 3), decide (m.1 = 2), decide (m.1 = 5), decide (m.1 = 4)].filter id).length ≤ 1 := by
        intro m a
        rcases m with ⟨_ | _ | _ | _ | _ | _ | _ | _ | m, hm⟩
        all_goals try (simp; done)
        · by_cases h1 : a = 22
          · simp [h1]
          · by_cases h2 : a = 20 ∨ a = 21
            · have h3 : ¬ (a = 25 ∨ a = 26 ∨ a = 27) := by omega
              simp [h1, h2, h3]
            · by_cases h3 : a = 25 ∨ a = 26 ∨ a = 27 <;> simp [h1, h2, h3]
      exact key ⟨h.major, by omega⟩ h.addl
  · right
    simp [View.isNull, View.isBool, View.isInt, View.isUInt, View.isFloat, View.isString, View.isBlob,
      View.isMap, View.isArray, hr]

/-- C55 for CBOR: on any bytes at any position an accessor of the wrong kind raises a
DeserializationError (`contains` answers false). -/
theorem c55_cbor_wrong_kind (r : View) (hard : Bool) (f : Nat) :
    (r.isBool = .ok false → r.asBool = .err .deser) ∧
    (r.isInt = .ok false → r.asInt64 = .err .deser) ∧
    (r.isUInt = .ok false → r.asUInt64 = .err .deser) ∧
    (r.isFloat = .ok false → r.asDouble = .err .deser) ∧
    (r.isString = .ok false → r.asString hard f = .err .deser ∧ r.asStringView hard = .err .deser) ∧
    (r.isBlob = .ok false → r.asBlob hard = .err .deser ∧ r.asBlobVec hard f = .err .deser) ∧
    (r.isArray = .ok false → r.arraySize f = .err .deser ∧ ∀ i, r.getIdx f i = .err .deser) ∧
    (r.isMap = .ok false → r.mapKeys hard f = .err .deser ∧ ∀ k, r.getKey hard f k = .err .deser ∧
      r.contains hard f k = .ok false) := by
  rcases head_clean r with ⟨h, hr⟩ | hr
  · have hp : ∀ {c : Prop} [Decidable c], (Res.ok (decide c) : Res Bool) = .ok false → decide c = false := by
      intro c _ h; injection h
    refine ⟨fun e => ?_, fun e => ?_, fun e => ?_, fun e => ?_, fun e => ?_, fun e => ?_, fun e => ?_,
      fun e => ?_⟩
    · simp only [View.isBool, hr, Res.ok_bind] at e
      simp only [View.asBool, hr, Res.ok_bind, hp e]; rfl
    · simp only [View.isInt, hr, Res.ok_bind] at e
      simp only [View.asInt64, hr, Res.ok_bind, hp e]; rfl
    · simp only [View.isUInt, hr, Res.ok_bind] at e
      simp only [View.asUInt64, hr, Res.ok_bind, hp e]; rfl
    · simp only [View.asDouble, hr, Res.ok_bind, e]; rfl
    · simp only [View.isString, hr, Res.ok_bind] at e
      simp only [View.asString, View.asStringView, hr, Res.ok_bind, hp e]; exact ⟨rfl, rfl⟩
    · simp only [View.isBlob, hr, Res.ok_bind] at e
      simp only [View.asBlob, View.asBlobVec, hr, Res.ok_bind, hp e]; exact ⟨rfl, rfl⟩
    · simp only [View.isArray, hr, Res.ok_bind] at e
      simp only [View.arraySize, View.getIdx, hr, Res.ok_bind, hp e]; exact ⟨rfl, fun _ => rfl⟩
    · simp only [View.isMap, hr, Res.ok_bind] at e
      have := of_decide_eq_false (hp e)
      simp only [View.mapKeys, View.getKey, View.contains, hr, Res.ok_bind, hp e, if_neg this]
      exact ⟨rfl, fun _ => ⟨rfl, rfl⟩⟩
  · refine ⟨?_, ?_, ?_, ?_, ?_, ?_, ?_, ?_⟩ <;> intro e <;>
      simp only [View.isBool, View.isInt, View.isUInt, View.isFloat, View.isString, View.isBlob,
        View.isMap, View.isArray, hr] at e <;> cases e

/-! ### C57: skipping -/

/-- C57 for all items except simple values in a separate byte: the checked skip and the unchecked one
pass exactly the item, whatever follows. Missing: those simple values, where the claim is false
(`c57_cbor_skip_refuted`). -/
theorem c57_cbor_skip_partial {b : Bytes} (h : Item b) (rest : Bytes) (raw : Bool)
    (hl : (b ++ rest).length < 2 ^ 64) {f : Nat} (hf : b.length ≤ f) :
    skip raw (b ++ rest) f 0 = .ok b.length := by
  have := h.skip raw hl (at_append b rest) hf
  simpa using this

/-- C57 is false: the two bytes of a simple value are passed as three. In the array
[simple(32), 5, 7], element 1 is reported to be 7, and a simple value at the end of the buffer cannot
be passed at all. -/
theorem c57_cbor_skip_refuted :
    (∀ f, skip false [0xf8, 0x20, 0x05, 0x07] (f + 1) 0 = .ok 3) ∧
    (∀ f, skip true [0xf8, 0x20, 0x05, 0x07] (f + 1) 0 = .ok 2) ∧
    (∀ f, (View.getIdx (f + 1) ⟨[0x83, 0xf8, 0x20, 0x05, 0x07], 0⟩ 1 >>= View.asInt64) = .ok 7) ∧
    (∀ f, skip false [0xf8, 0x20] (f + 1) 0 = .err .deser) :=
  ⟨fun _ => rfl, fun _ => rfl, fun _ => rfl, fun _ => rfl⟩

/-! ### C58: positions stay inside -/

theorem chunks_le {v : Bytes} {m : Nat} : ∀ (f : Nat) {q r : Nat}, chunks false v m f q = .ok r → r ≤ v.length
  | 0, _, _, h => by cases h
  | f + 1, q, r, h => by
    simp only [chunks] at h
    obtain ⟨_, h1, h⟩ := Res.bind_eq_ok.1 h
    have hq := of_decide_eq_true (Res.require_eq_ok.1 h1)
    obtain ⟨b, _, h⟩ := Res.bind_eq_ok.1 h
    split at h
    · injection h with h; omega
    · obtain ⟨ch, _, h⟩ := Res.bind_eq_ok.1 h
      obtain ⟨_, _, h⟩ := Res.bind_eq_ok.1 h
      obtain ⟨_, _, h⟩ := Res.bind_eq_ok.1 h
      exact chunks_le f h

theorem items_le {v : Bytes} {rec : Nat → Res Nat} (hr : ∀ q r, rec q = .ok r → r ≤ v.length) :
    ∀ (n : Nat) {q r : Nat}, q ≤ v.length → items rec n q = .ok r → r ≤ v.length
  | 0, q, r, hq, h => by injection h with h; omega
  | n + 1, q, r, _, h => by
    obtain ⟨q', h1, h⟩ := Res.bind_eq_ok.1 h
    exact items_le hr n (hr _ _ h1) h

theorem untilBreak_le {v : Bytes} {rec : Nat → Res Nat} {k : Nat} :
    ∀ (f : Nat) {q r : Nat}, untilBreak false v rec k f q = .ok r → r ≤ v.length
  | 0, _, _, h => by cases h
  | f + 1, q, r, h => by
    simp only [untilBreak] at h
    obtain ⟨_, h1, h⟩ := Res.bind_eq_ok.1 h
    have hq := of_decide_eq_true (Res.require_eq_ok.1 h1)
    obtain ⟨b, _, h⟩ := Res.bind_eq_ok.1 h
    split at h
    · injection h with h; omega
    · obtain ⟨q', _, h⟩ := Res.bind_eq_ok.1 h
      exact untilBreak_le f h

theorem skip_le {v : Bytes} : ∀ (f : Nat) {p r : Nat}, skip false v f p = .ok r → r ≤ v.length
  | 0, _, _, h => by cases h
  | f + 1, p, r, h => by
    simp only [skip] at h
    obtain ⟨hd, h1, h⟩ := Res.bind_eq_ok.1 h
    have hq := ((readHead_clean v p).2 hd h1).2.2.1
    have hrec : ∀ q r, skip false v f q = .ok r → r ≤ v.length := fun q r => skip_le f
    have req : ∀ {c : Prop} [Decidable c] {x : Nat}, (do ensure false (decide c); pure x : Res Nat) = .ok r →
        c ∧ x = r := by
      intro c _ x h
      obtain ⟨_, h1, h⟩ := Res.bind_eq_ok.1 h
      injection h with h
      exact ⟨of_decide_eq_true (Res.require_eq_ok.1 h1), h⟩
    repeat' split at h
    all_goals first
      | exact chunks_le f h
      | exact untilBreak_le f h
      | exact skip_le f h
      | exact items_le hrec _ hq h
      | (cases h; exact hq)
      | (obtain ⟨h1, h2⟩ := req h; omega)

theorem getIdx_le {f : Nat} {r s : View} {i : Nat} (h : r.getIdx f i = .ok s) :
    s.buf = r.buf ∧ s.pos ≤ r.buf.length := by
  obtain ⟨v, p⟩ := r
  simp only [View.getIdx] at h
  obtain ⟨hd, h1, h⟩ := Res.bind_eq_ok.1 h
  have hq := ((readHead_clean v p).2 hd h1).2.2.1
  obtain ⟨_, _, h⟩ := Res.bind_eq_ok.1 h
  split at h
  · have key : ∀ (g i0 q : Nat), View.getIdxB f v i g i0 q = .ok s → s.buf = v ∧ s.pos ≤ v.length := by
      intro g
      induction g with
      | zero => intro _ _ h; cases h
      | succ g ih =>
        intro i0 q h
        simp only [View.getIdxB] at h
        obtain ⟨_, h1, h⟩ := Res.bind_eq_ok.1 h
        have hq := of_decide_eq_true (Res.require_eq_ok.1 h1)
        obtain ⟨_, _, h⟩ := Res.bind_eq_ok.1 h
        split at h
        · cases h
        · split at h
          · injection h with h; subst h; exact ⟨rfl, by dsimp only; omega⟩
          · obtain ⟨_, _, h⟩ := Res.bind_eq_ok.1 h
            exact ih _ _ h
    exact key _ _ _ h
  · obtain ⟨_, _, h⟩ := Res.bind_eq_ok.1 h
    obtain ⟨q, h1, h⟩ := Res.bind_eq_ok.1 h
    injection h with h; subst h
    exact ⟨rfl, items_le (v := v) (rec := skip false v f) (fun _ _ => skip_le f) _ hq h1⟩

theorem getKey_le {hard : Bool} {f : Nat} {r s : View} {k : Bytes} (h : r.getKey hard f k = .ok s) :
    s.buf = r.buf ∧ s.pos ≤ r.buf.length := by
  obtain ⟨v, p⟩ := r
  simp only [View.getKey] at h
  obtain ⟨hd, h1, h⟩ := Res.bind_eq_ok.1 h
  obtain ⟨_, _, h⟩ := Res.bind_eq_ok.1 h
  split at h
  · have key : ∀ (g q : Nat), View.getKeyB hard f v k g q = .ok s → s.buf = v ∧ s.pos ≤ v.length := by
      intro g
      induction g with
      | zero => intro _ h; cases h
      | succ g ih =>
        intro q h
        simp only [View.getKeyB] at h
        obtain ⟨_, _, h⟩ := Res.bind_eq_ok.1 h
        obtain ⟨_, _, h⟩ := Res.bind_eq_ok.1 h
        split at h
        · cases h
        · obtain ⟨_, _, h⟩ := Res.bind_eq_ok.1 h
          obtain ⟨q', h1, h⟩ := Res.bind_eq_ok.1 h
          split at h
          · injection h with h; subst h; exact ⟨rfl, skip_le f h1⟩
          · obtain ⟨_, _, h⟩ := Res.bind_eq_ok.1 h
            exact ih _ h
    exact key _ _ h
  · have key : ∀ (g q : Nat), View.getKeyN hard f v k g q = .ok s → s.buf = v ∧ s.pos ≤ v.length := by
      intro g
      induction g with
      | zero => intro _ h; cases h
      | succ g ih =>
        intro q h
        simp only [View.getKeyN] at h
        obtain ⟨_, _, h⟩ := Res.bind_eq_ok.1 h
        obtain ⟨q', h1, h⟩ := Res.bind_eq_ok.1 h
        split at h
        · injection h with h; subst h; exact ⟨rfl, skip_le f h1⟩
        · obtain ⟨_, _, h⟩ := Res.bind_eq_ok.1 h
          exact ih _ h
    exact key _ _ h

/-- C58 for positions: whatever the bytes, a view reached by lookups is a position of the input, at
most its end. -/
theorem c58_cbor_positions {hard : Bool} {f : Nat} {b : Bytes} {r : View}
    (hr : (reader hard f).Reach ⟨b, 0⟩ r) : r.buf = b ∧ r.pos ≤ b.length := by
  induction hr with
  | refl => exact ⟨rfl, Nat.zero_le _⟩
  | idx i _ hi ih => obtain ⟨h1, h2⟩ := getIdx_le hi; rw [h1, ih.1]; exact ⟨rfl, ih.1 ▸ h2⟩
  | key k _ hi ih => obtain ⟨h1, h2⟩ := getKey_le hi; rw [h1, ih.1]; exact ⟨rfl, ih.1 ▸ h2⟩

/-- C58 for views: a string or blob handed out is a contiguous part of the input, unless the call is
undefined (`c24_cbor_reader_safe_refuted`). If no string head announces a length of nearly 2^64, it
always is, or the call raises. -/
theorem c58_cbor_views_partial {f : Nat} {b : Bytes} {r : View} (hr : (reader false f).Reach ⟨b, 0⟩ r) :
    (∀ s, r.asStringView false = .ok s → ∃ p, At b p s) ∧ (∀ s, r.asBlob false = .ok s → ∃ p, At b p s) ∧
    (NoHuge b → b.length < 2 ^ 63 → (r.asStringView false).Clean ∧ (r.asBlob false).Clean) := by
  obtain ⟨v, p⟩ := r
  obtain ⟨rfl, _⟩ := c58_cbor_positions hr
  have key : ∀ {h : Head} {q : Nat} {s : Bytes}, View.definite false v h q = .ok s → ∃ p, At v p s := by
    intro h q s e
    obtain ⟨_, _, e⟩ := Res.bind_eq_ok.1 e
    unfold View.range at e
    split at e
    · cases e
    · exact ⟨q, MsgPack.sliceAt_at e⟩
  refine ⟨fun s h => ?_, fun s h => ?_, fun hn hv => ⟨asStringView_clean hn hv p, asBlob_clean hn hv p⟩⟩
  · obtain ⟨_, _, h⟩ := Res.bind_eq_ok.1 h
    obtain ⟨_, _, h⟩ := Res.bind_eq_ok.1 h
    obtain ⟨_, _, h⟩ := Res.bind_eq_ok.1 h
    exact key h
  · obtain ⟨_, _, h⟩ := Res.bind_eq_ok.1 h
    obtain ⟨_, _, h⟩ := Res.bind_eq_ok.1 h
    obtain ⟨_, _, h⟩ := Res.bind_eq_ok.1 h
    exact key h

example : ∃ r, (reader false 9).Reach ⟨[0x82, 0x61, 0x61, 0x42, 0x05, 0x06], 0⟩ r ∧
    r.asBlob false = .ok [5, 6] :=
  ⟨⟨_, 3⟩, .idx 1 .refl rfl, rfl⟩

/-! ### C28: into every modelled protocol -/

/-- C28 for CBOR to ZERA, MessagePack and CBOR, under the condition of `c28_cbor_source_partial`. -/
theorem c28_cbor_to_all_partial {utf8 : Bytes → Bool} {maxDepth fuel : Nat} {b : Bytes} (hn : NoHugeAll b)
    (hv : b.length < 2 ^ 63) (hf : b.length < fuel) {f : Nat} (hf' : b.length < f) :
    Zera.proto.translate (reader false fuel) f ⟨b, 0⟩ ≠ .diverge ∧
    MsgPack.proto.translate (reader false fuel) f ⟨b, 0⟩ ≠ .diverge ∧
    (proto utf8 maxDepth false fuel).translate (reader false fuel) f ⟨b, 0⟩ ≠ .diverge := by
  refine ⟨?_, ?_, ?_⟩
  · exact Returns.bind (c28_cbor_source_partial Zera.writer MsgPack.zeraStep_returns hn hv hf _ hf')
      fun s _ => MsgPack.zeraFinish_returns s
  · exact Returns.bind (c28_cbor_source_partial MsgPack.writer (fun _ _ => returns_ok _) hn hv hf _ hf')
      fun s _ => Returns.bind (returns_ok _) fun _ _ => returns_ok _
  · exact Returns.bind (c28_cbor_source_partial (writer utf8 maxDepth) step_returns hn hv hf _ hf')
      fun s _ => Returns.bind (returns_ok _) fun _ _ => returns_ok _

end Zer.Cbor
