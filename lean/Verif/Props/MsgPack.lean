import Verif.MsgPack.Write
import Verif.MsgPack.Safe
import Verif.Props.Translate

/-!
# Properties of the MessagePack protocol (C11, C12, C16-C20, C27, C28, C53-C56)
-/

namespace Zer.MsgPack

/-! ### C16: every valid encoding -/

/-- C16 for strings, blobs and keys shorter than 2^32 - 5 bytes: whatever follows the encoding,
the reader presents the value. Missing: longer ones, where the claim is false
(`c16_msgpack_reader_refuted`). -/
theorem c16_msgpack_reader_partial {v : Val} {b : Bytes} (hv : v.Below (2 ^ 32 - 5)) (h : Enc v b)
    (rest : Bytes) : reader.Agrees (b ++ rest) v := agrees_of_enc v b rest hv h

/-- A non-minimal encoding: map 32 with one entry, the key as str 16, the value an array 16 of -1 as
int 64 and 1.5 as float 32. -/
def sampleBytes : Bytes :=
  [0xdf, 0, 0, 0, 1, 0xda, 0, 1, 0x61, 0xdc, 0, 2, 0xd3, 255, 255, 255, 255, 255, 255, 255, 255,
   0xca, 0x3f, 0xc0, 0, 0]
def sampleVal : Val := .map [([0x61], .arr [.int (-1), .dbl 0x3ff8000000000000])]

theorem sample_enc : Enc sampleVal sampleBytes := by
  simp only [sampleVal, Enc, EncEntries, EncList]
  refine ⟨[0xdf, 0, 0, 0, 1], [[0xda, 0, 1, 0x61], [0xdc, 0, 2, 0xd3, 255, 255, 255, 255, 255, 255,
    255, 255, 0xca, 0x3f, 0xc0, 0, 0]], .m32 (by decide), ?_, rfl⟩
  refine ⟨[0xda, 0, 1], _, [], .s16 (by decide), ⟨[0xdc, 0, 2],
    [[0xd3, 255, 255, 255, 255, 255, 255, 255, 255], [0xca, 0x3f, 0xc0, 0, 0]], .a16 (by decide),
    ?_, rfl⟩, rfl, rfl⟩
  refine ⟨_, [[0xca, 0x3f, 0xc0, 0, 0]], .i64 (by decide) (by decide), ⟨_, [], ?_, rfl, rfl⟩, rfl⟩
  exact .f32 (f := 0x3fc00000) (by decide) (by decide +kernel)

example : sampleVal.Below (2 ^ 32 - 5) ∧ Enc sampleVal sampleBytes :=
  ⟨by simp [sampleVal, Val.Below, Val.Below.belowEntries, Val.Below.belowList], sample_enc⟩

/-- An array holding one string of 2^32 - 5 bytes. -/
theorem long_enc {s : Bytes} (hs : s.length = 2 ^ 32 - 5) :
    Enc (.arr [.str s]) ([0x91] ++ ((0xdb :: be 4 (2 ^ 32 - 5)) ++ s)) := by
  simp only [Enc, EncList]
  refine ⟨[0x91], [(0xdb :: be 4 (2 ^ 32 - 5)) ++ s], .fix (n := 1) (by decide), ?_, by simp⟩
  refine ⟨_, [], ⟨0xdb :: be 4 (2 ^ 32 - 5), ?_, rfl⟩, rfl, rfl⟩
  rw [hs]
  exact .s32 (by omega)

/-- Its only element is presented as an empty view: `5 + length` wraps to 0 in 32 bits. -/
theorem long_getIdx (s : Bytes) : getIdx ([0x91] ++ ((0xdb :: be 4 (2 ^ 32 - 5)) ++ s)) 0 = .ok [] := by
  have hb : be 4 (2 ^ 32 - 5) = [0xff, 0xff, 0xff, 0xfb] := by decide +kernel
  rw [hb]
  have h1 : skip (0xdb :: 0xff :: 0xff :: 0xff :: 0xfb :: s) = .ok 0 := by
    simp [skip, mpSkip, readBe32]
  have h2 : subspan (0x91 :: 0xdb :: 0xff :: 0xff :: 0xff :: 0xfb :: s) 1 =
      .ok (0xdb :: 0xff :: 0xff :: 0xff :: 0xfb :: s) := by simp [subspan]
  have h3 : arrInfo (0x91 :: 0xdb :: 0xff :: 0xff :: 0xff :: 0xfb :: s) = .ok (1, 1) := by
    simp [arrInfo]
  simp only [List.cons_append, List.nil_append, getIdx, h3, Res.ok_bind, skipLoop, Res.pure_eq, h2, h1]
  rfl

theorem long_not_agrees {s : Bytes} : ¬ reader.Agrees ([0x91] ++ ((0xdb :: be 4 (2 ^ 32 - 5)) ++ s))
    (.arr [.str s]) := by
  intro h
  cases h with
  | arr child _ _ h3 _ h5 =>
    have h0 := h3 0 (by simp)
    have : reader.getIdx ([0x91] ++ ((0xdb :: be 4 (2 ^ 32 - 5)) ++ s)) 0 = .ok [] := long_getIdx s
    rw [this] at h0
    injection h0 with h0
    have h6 := h5 0 (by simp)
    rw [← h0] at h6
    cases h6 with
    | str hs => have := hs.2.2.2.2.1; cases this

/-- C16 is false: for every string of 2^32 - 5 bytes, the array holding it is misread. -/
theorem c16_msgpack_reader_refuted :
    ¬ ∀ (v : Val) (b : Bytes), Enc v b → reader.Agrees b v := by
  intro h
  obtain ⟨s, hs⟩ : ∃ s : Bytes, s.length = 2 ^ 32 - 5 := ⟨_, List.length_replicate (a := 0)⟩
  exact long_not_agrees (h _ _ (long_enc hs))

/-! ### C17: round trip -/

/-- C17 for strings, blobs and keys shorter than 2^32 - 5 bytes and fewer than 2^32 elements per
container. Missing: longer strings, where the claim is false (`c17_msgpack_round_trip_refuted`). -/
theorem c17_msgpack_round_trip_partial {v : Val} (hs : v.Sized) (hb : v.Below (2 ^ 32 - 5)) :
    ∃ b, proto.serialize v = .ok b ∧ proto.opn b = .ok b ∧ reader.Agrees b v := by
  refine ⟨_, serialize_eq v, rfl, ?_⟩
  simpa using agrees_of_enc v _ [] hb (enc_pack v hs)

example : Zera.sample.Sized ∧ Zera.sample.Below (2 ^ 32 - 5) := by
  simp [Zera.sample, Val.Sized, Val.sizedEntries, Val.sizedList, Val.Below, Val.Below.belowEntries,
    Val.Below.belowList]

/-- C17: a string or blob at the root may have any length below 2^32. -/
theorem c17_msgpack_root_string {s : Bytes} (hs : s.length < 2 ^ 32) :
    (∃ b, proto.serialize (.str s) = .ok b ∧ reader.Agrees b (.str s)) ∧
    (∃ b, proto.serialize (.blob s) = .ok b ∧ reader.Agrees b (.blob s)) := by
  refine ⟨⟨_, serialize_eq _, ?_⟩, ⟨_, serialize_eq _, ?_⟩⟩
  · have h := enc_pack (.str s) (by simpa only [Val.Sized] using hs)
    have e : (.ok (MsgPack.asStringView (pack (emit (.str s)))) : Res _) = .ok (.ok s) := by
      simp only [Enc] at h
      obtain ⟨hd, H, e⟩ := h
      rw [e]; simpa using asStringView_head H []
    injection e with e
    have := enc_shows h []
    rw [List.append_nil] at this
    exact .str this e e
  · have h := enc_pack (.blob s) (by simpa only [Val.Sized] using hs)
    have e : (.ok (MsgPack.asBlob (pack (emit (.blob s)))) : Res _) = .ok (.ok s) := by
      simp only [Enc] at h
      obtain ⟨hd, H, e⟩ := h
      rw [e]; simpa using asBlob_head H []
    injection e with e
    have := enc_shows h []
    rw [List.append_nil] at this
    exact .blob this e (fun _ => rfl)

/-- C17 is false: an array of one string of 2^32 - 5 bytes does not read back. -/
theorem c17_msgpack_round_trip_refuted :
    ∃ v : Val, v.Sized ∧ ∃ b, proto.serialize v = .ok b ∧ ¬ reader.Agrees b v := by
  obtain ⟨n, hn⟩ : ∃ n, n = 2 ^ 32 - 5 := ⟨_, rfl⟩
  obtain ⟨s, hs⟩ : ∃ s : Bytes, s.length = n := ⟨_, List.length_replicate (a := 0)⟩
  refine ⟨.arr [.str s], ?_, _, serialize_eq _, ?_⟩
  · simp only [Val.Sized, Val.sizedList, and_true, List.length_cons, List.length_nil]
    omega
  · have h1 : packStrHead s.length = 0xdb :: be 4 (2 ^ 32 - 5) := by
      rw [hs, packStrHead, if_neg (by omega), if_neg (by omega), if_neg (by omega), beBytes_four, hn]
    have h2 : packArrHead 1 = [0x91] := by decide
    have : pack (emit (.arr [.str s])) = [0x91] ++ ((0xdb :: be 4 (2 ^ 32 - 5)) ++ s) := by
      simp [pack, emit, emitList, packEv, h1, h2]
    rw [this]
    exact long_not_agrees

/-- C17 as a contract of the protocol. -/
theorem proto_roundTrips : proto.RoundTrips False (fun v => v.Sized ∧ v.Below (2 ^ 32 - 5)) := by
  intro v b hv hb
  obtain ⟨b', h1, h2, h3⟩ := c17_msgpack_round_trip_partial hv.1 hv.2
  rw [hb] at h1; injection h1 with h1; subst h1
  exact ⟨b, h2, h3⟩

/-- C17: the number of bytes is the sum over the calls, announced sizes included; nothing is
buffered or reordered. -/
theorem c17_msgpack_concat (es fs : List Ev) {b c : Bytes} (hb : proto.bytesOf es = .ok b)
    (hc : proto.bytesOf fs = .ok c) : proto.bytesOf (es ++ fs) = .ok (b ++ c) := by
  have h : ∀ es, proto.bytesOf es = .ok (pack es) := fun es => by
    show (writer.run ([] : Bytes) es >>= Res.ok) = _
    rw [run_pack]; rfl
  rw [h] at hb hc ⊢
  injection hb with hb; injection hc with hc
  rw [pack_append, hb, hc]

/-! ### C12: injectivity -/

/-- C12 for MessagePack, within the format's limits: equal bytes come from values that differ at
most in the signedness of integers. Missing: lengths of 2^32 and more, where the claim is false
(`c12_msgpack_injective_refuted`). -/
theorem c12_msgpack_injective_partial {v w : Val} (hv : v.Sized) (hw : w.Sized) {b : Bytes}
    (h : proto.serialize v = .ok b) (h' : proto.serialize w = .ok b) : v.Same w := by
  rw [serialize_eq] at h h'
  injection h with h; injection h' with h'
  exact (enc_unique v w _ _ [] [] (enc_pack v hv) (enc_pack w hw) (by rw [h, h'])).1

/-- No encoding is a proper prefix of another, whichever of the permitted forms is used. -/
theorem c12_msgpack_prefix_free {v w : Val} {b c r : Bytes} (h : Enc v b) (h' : Enc w c)
    (e : b ++ r = c) : v.Same w ∧ r = [] := by
  obtain ⟨h1, h2⟩ := enc_unique v w b c r [] h h' (by simpa using e)
  refine ⟨h1, ?_⟩
  subst h2
  simpa using e

example : Enc (.int 5) [0x05] ∧ Enc (.uint 5) [0xcc, 0x05] :=
  ⟨by simp only [Enc]; exact .posfix (by decide) (by decide), by simp only [Enc]; exact .u8 (by decide) (by decide)⟩

/-- C12 is false for strings of 2^32 bytes and more, whose length the writer truncates: two
different pairs of strings give the same bytes. -/
theorem c12_msgpack_injective_refuted :
    ∃ (v w : Val) (b : Bytes), proto.serialize v = .ok b ∧ proto.serialize w = .ok b ∧ ¬ v.Same w := by
  obtain ⟨n, hn⟩ : ∃ n, n = 2 ^ 32 := ⟨_, rfl⟩
  obtain ⟨x, hx⟩ : ∃ s : Bytes, s.length = n := ⟨_, List.length_replicate (a := 0)⟩
  obtain ⟨y, hy⟩ : ∃ s : Bytes, s.length = n - 5 := ⟨_, List.length_replicate (a := 0)⟩
  have head : ∀ m, n ≤ m → m % n = 0 → packStrHead m = [0xdb, 0, 0, 0, 0] := by
    intro m h1 h2
    rw [packStrHead, if_neg (by omega), if_neg (by omega), if_neg (by omega)]
    rw [hn] at h2
    have d : ∀ k, k ≤ 3 → UInt8.ofNat (m / 2 ^ (8 * k)) = 0 := by
      intro k hk
      have : m / 2 ^ (8 * k) % 256 = 0 := by
        rcases (by omega : k = 0 ∨ k = 1 ∨ k = 2 ∨ k = 3) with rfl | rfl | rfl | rfl <;> simp <;> omega
      rw [← of8, this]; rfl
    simp only [beBytes]
    rw [d 3 (by omega), d 2 (by omega), d 1 (by omega), d 0 (by omega)]
  refine ⟨.arr [.str x, .str (y ++ [0xdb, 0, 0, 0, 0] ++ x)],
    .arr [.str (x ++ [0xdb, 0, 0, 0, 0] ++ y), .str x], _, serialize_eq _, ?_, ?_⟩
  · rw [serialize_eq]
    have h1 := head x.length (by omega) (by rw [hx, Nat.mod_self])
    have l1 : (y ++ [0xdb, 0, 0, 0, 0] ++ x).length = 2 * n := by
      simp only [List.length_append, hx, hy, List.length_cons, List.length_nil]; omega
    have l2 : (x ++ [0xdb, 0, 0, 0, 0] ++ y).length = 2 * n := by
      simp only [List.length_append, hx, hy, List.length_cons, List.length_nil]; omega
    have h2 := head (2 * n) (by omega) (Nat.mul_mod_left 2 n)
    have e1 : pack (emit (.arr [.str x, .str (y ++ [0xdb, 0, 0, 0, 0] ++ x)])) =
        packArrHead 2 ++ (packStrHead x.length ++ x ++
          (packStrHead (y ++ [0xdb, 0, 0, 0, 0] ++ x).length ++ (y ++ [0xdb, 0, 0, 0, 0] ++ x))) := by
      simp [pack, emit, emitList, packEv]
    have e2 : pack (emit (.arr [.str (x ++ [0xdb, 0, 0, 0, 0] ++ y), .str x])) =
        packArrHead 2 ++ (packStrHead (x ++ [0xdb, 0, 0, 0, 0] ++ y).length ++
          (x ++ [0xdb, 0, 0, 0, 0] ++ y) ++ (packStrHead x.length ++ x)) := by
      simp [pack, emit, emitList, packEv]
    rw [e1, e2, h1, l1, l2, h2]
    simp
  · intro h
    simp only [Val.Same, Val.canon, Val.canonList] at h
    injection h with h
    injection h with h _
    injection h with h
    have := congrArg List.length h
    simp only [List.length_append, hy, hx, List.length_cons, List.length_nil] at this
    omega

/-! ### C18: arbitrary bytes -/

/-- C18: on any bytes, the kind predicates and the scalar accessors return or raise a
DeserializationError. (The predicates of the model are total functions.) -/
theorem c18_msgpack_scalars (v : Bytes) :
    (asBool v).Clean ∧ (asInt64 v).Clean ∧ (asUInt64 v).Clean ∧ (asDouble v).Clean ∧
      (∀ w, (asIntN w v).Clean) ∧ (∀ w, (asUIntN w v).Clean) :=
  ⟨asBool_clean v, asInt64_clean v, asUInt64_clean v, asDouble_clean v, fun w => asIntN_clean w v,
    fun w => asUIntN_clean w v⟩

/-- Every accessor returns or raises a DeserializationError. -/
structure AllClean (v : Bytes) : Prop where
  asBool : (asBool v).Clean
  asInt64 : (asInt64 v).Clean
  asUInt64 : (asUInt64 v).Clean
  asDouble : (asDouble v).Clean
  asIntN : ∀ w, (asIntN w v).Clean
  asUIntN : ∀ w, (asUIntN w v).Clean
  asString : (asString v).Clean
  asStringView : (asStringView v).Clean
  asBlob : (asBlob v).Clean
  mapKeys : (mapKeys v).Clean
  contains : ∀ k, (contains v k).Clean
  getKey : ∀ k, (getKey v k).Clean
  arraySize : (arraySize v).Clean
  getIdx : ∀ i, (getIdx v i).Clean

theorem Elem.allClean {b : Bytes} (h : Elem Lim b) (t : Bytes) : AllClean (b ++ t) where
  asBool := asBool_clean _
  asInt64 := asInt64_clean _
  asUInt64 := asUInt64_clean _
  asDouble := asDouble_clean _
  asIntN := fun w => asIntN_clean w _
  asUIntN := fun w => asUIntN_clean w _
  asString := h.asStringView t
  asStringView := h.asStringView t
  asBlob := h.asBlob t
  mapKeys := h.mapKeys t
  contains := h.contains t
  getKey := fun k => by
    rcases h.getKey t k with ⟨c, hc, _⟩ | hc
    · exact .inl ⟨c, hc⟩
    · exact .inr hc
  arraySize := h.arraySize t
  getIdx := fun i => by
    rcases h.getIdx t i with ⟨c, hc, _⟩ | hc
    · exact .inl ⟨c, hc⟩
    · exact .inr hc

/-- C18 for bytes that start with one well-formed element (any integers, floats and nesting; map
keys of any type; strings and blobs shorter than 2^32 - 5): every accessor of every reachable view
returns or raises a DeserializationError. Missing: truncated input, where the claim is false
(`c18_msgpack_reader_safe_refuted`). -/
theorem c18_msgpack_reader_safe_partial {b : Bytes} (h : Elem (2 ^ 32 - 5) b) (t : Bytes) {w : Bytes}
    (hr : reader.Reach (b ++ t) w) : AllClean w := by
  have key : ∃ c u, w = c ++ u ∧ Elem Lim c := by
    induction hr with
    | refl => exact ⟨b, t, rfl, h⟩
    | idx i _ hi ih =>
      obtain ⟨c, u, rfl, hc⟩ := ih
      rcases hc.getIdx u i with ⟨d, hd, hd'⟩ | hd
      · rw [show reader.getIdx (c ++ u) i = getIdx (c ++ u) i from rfl, hd] at hi
        injection hi with hi; subst hi
        exact ⟨d, [], by simp, hd'⟩
      · rw [show reader.getIdx (c ++ u) i = getIdx (c ++ u) i from rfl, hd] at hi; cases hi
    | key k _ hi ih =>
      obtain ⟨c, u, rfl, hc⟩ := ih
      rcases hc.getKey u k with ⟨d, hd, hd'⟩ | hd
      · rw [show reader.getKey (c ++ u) k = getKey (c ++ u) k from rfl, hd] at hi
        injection hi with hi; subst hi
        exact ⟨d, [], by simp, hd'⟩
      · rw [show reader.getKey (c ++ u) k = getKey (c ++ u) k from rfl, hd] at hi; cases hi
  obtain ⟨c, u, rfl, hc⟩ := key
  exact hc.allClean u

/-- A map with an integer key is a well-formed element. -/
example : Elem (2 ^ 32 - 5) ([0x81] ++ [[0x05], [0xa1, 0x78]].flatten) :=
  .map (n := 1) (.fix (by decide)) rfl (by
    intro c hc
    rcases List.mem_cons.1 hc with rfl | hc
    · exact .single (by decide)
    · rcases List.mem_cons.1 hc with rfl | hc
      · exact .str (h := [0xa1]) (s := [0x78]) (.fix (by decide)) (by decide)
      · cases hc)

/-- C18 is false: on truncated input the reader leaves the buffer. A string header without its
bytes, a string header without its length, an empty view, an element after a truncated one, a
key of a truncated map. -/
theorem c18_msgpack_reader_safe_refuted :
    asStringView [0xa5, 0x61] = .ub ∧ asBlob [0xc4] = .ub ∧ arraySize [] = .ub ∧
      getIdx [0x92, 0xa5, 0x61] 1 = .ub ∧ mapKeys [0x81, 0xa1] = .ub ∧
      contains [0x81, 0xa1] [0x61] = .ub ∧ getKey [0x81, 0xa1] [0x61] = .ub := by
  decide +kernel

/-! ### C19: termination -/

/-- C19: on any bytes, `mp_skip` returns: a recursion depth of the length of the buffer plus one is
enough and more does not change the result. -/
theorem c19_msgpack_skip_terminates (v : Bytes) {f : Nat} (hf : v.length < f) :
    mpSkip f v ≠ .diverge ∧ mpSkip f v = skip v :=
  ⟨mpSkip_ne_diverge f v hf, mpSkip_fuel f _ v hf (Nat.lt_succ_self _)⟩

/-- C19: on any bytes, every accessor that locates elements or keys returns. -/
theorem c19_msgpack_locating_terminates (v : Bytes) :
    (∀ i, getIdx v i ≠ .diverge) ∧ (∀ k, getKey v k ≠ .diverge) ∧ (∀ k, contains v k ≠ .diverge) ∧
      mapKeys v ≠ .diverge :=
  ⟨returns_getIdx v, returns_getKey v, returns_contains v, returns_mapKeys v⟩

/-- Sums of offsets cannot wrap in `size_t`: an element is reported to end at most 2^32 bytes after
the end of the buffer. -/
theorem c19_msgpack_skip_bound {v : Bytes} {n : Nat} (h : skip v = .ok n) : n ≤ v.length + 2 ^ 32 :=
  skip_le h

/-! ### C20, C11: integers -/

/-- C20 for representable numbers: the accessor returns exactly the stored number, in each of the
ten encodings. Missing: numbers that are not representable, for which no exception is raised
(`c20_msgpack_int_refuted`). -/
theorem c20_msgpack_int_partial {z : Int} {b : Bytes} (h : EncInt z b) (rest : Bytes) :
    (-2 ^ 63 ≤ z → z < 2 ^ 63 → ∃ x, asInt64 (b ++ rest) = .ok x ∧ x.toInt = z) ∧
    (0 ≤ z → z < 2 ^ 64 → ∃ y, asUInt64 (b ++ rest) = .ok y ∧ (y.toNat : Int) = z) := by
  refine ⟨fun h1 h2 => ⟨_, asInt64_enc h rest, i64_toInt h1 h2⟩, fun h1 _ => asUInt64_enc h h1 rest⟩

example : EncInt (-300) [0xd1, 0xfe, 0xd4] := .i16 (by decide) (by decide)

/-- C20 is false: a stored 2^64 - 1 reads as -1 through `asInt64`, a stored -1 reads as 2^64 - 1
through `asUInt64`. -/
theorem c20_msgpack_int_refuted :
    (∃ b, EncInt (2 ^ 64 - 1) b ∧ asInt64 b = .ok (-1)) ∧
    (∃ b, EncInt (-1) b ∧ asUInt64 b = .ok (UInt64.ofNat (2 ^ 64 - 1))) :=
  ⟨⟨[0xcf, 255, 255, 255, 255, 255, 255, 255, 255], .u64 (by decide) (by decide), by decide +kernel⟩,
   ⟨[0xff], .negfix (by decide) (by decide), by decide +kernel⟩⟩

/-- C11 for MessagePack: the narrow accessors return what `asInt64` returned if and only if it
fits. -/
theorem c11_msgpack_narrow_signed (v : Bytes) (w : Nat) (z : Int) :
    asIntN w v = .ok z ↔
      ∃ x, asInt64 v = .ok x ∧ x.toInt = z ∧ -(2 ^ (w - 1) : Int) ≤ z ∧ z < (2 ^ (w - 1) : Int) := by
  unfold asIntN
  cases h : asInt64 v with
  | ok x =>
    simp only [Res.ok_bind]
    split
    · rename_i hc
      constructor
      · intro h; cases h
      · rintro ⟨y, hy, rfl, h1, h2⟩; injection hy with hy; subst hy; omega
    · rename_i hc
      constructor
      · intro h; injection h with h; subst h; exact ⟨x, rfl, rfl, by omega, by omega⟩
      · rintro ⟨y, hy, rfl, h1, h2⟩; injection hy with hy; subst hy; rfl
  | _ => simp

theorem c11_msgpack_narrow_unsigned (v : Bytes) (w : Nat) (n : Nat) :
    asUIntN w v = .ok n ↔ ∃ x, asUInt64 v = .ok x ∧ x.toNat = n ∧ n < 2 ^ w := by
  have hp := Nat.two_pow_pos w
  unfold asUIntN
  cases h : asUInt64 v with
  | ok x =>
    simp only [Res.ok_bind]
    split
    · rename_i hc
      constructor
      · intro h; cases h
      · rintro ⟨y, hy, rfl, h1⟩; injection hy with hy; subst hy; omega
    · rename_i hc
      constructor
      · intro h; injection h with h; subst h; exact ⟨x, rfl, rfl, by omega⟩
      · rintro ⟨y, hy, rfl, h1⟩; injection hy with hy; subst hy; rfl
  | _ => simp

/-- C11 for MessagePack: whatever integer is stored, a narrow accessor returns it exactly or raises
a DeserializationError. The unsigned accessors do so for every stored number: a negative number
wraps to at least 2^63 and is refused. The signed ones do so for numbers below 2^64 - 2^31. -/
theorem c11_msgpack_narrow_stored {z : Int} {b : Bytes} (h : EncInt z b) (rest : Bytes) {w : Nat}
    (hw1 : 1 ≤ w) (hw : w ≤ 32) :
    (0 ≤ z → z < 2 ^ w → asUIntN w (b ++ rest) = .ok z.toNat) ∧
    (z < 0 ∨ 2 ^ w ≤ z → asUIntN w (b ++ rest) = .err .deser) ∧
    (-(2 ^ (w - 1) : Int) ≤ z → z < 2 ^ (w - 1) → asIntN w (b ++ rest) = .ok z) ∧
    (z < -(2 ^ (w - 1) : Int) ∨ 2 ^ (w - 1) ≤ z → z < 2 ^ 64 - 2 ^ 31 →
      asIntN w (b ++ rest) = .err .deser) := by
  have hr : -2 ^ 63 ≤ z ∧ z < 2 ^ 64 := by cases h <;> constructor <;> omega
  have p1 : (2 : Int) ^ w ≤ 2 ^ 32 := by
    have : (2 : Nat) ^ w ≤ 2 ^ 32 := Nat.pow_le_pow_right (by decide) hw
    exact_mod_cast this
  have p2 : (2 : Int) ^ (w - 1) ≤ 2 ^ 31 := by
    have : (2 : Nat) ^ (w - 1) ≤ 2 ^ 31 := Nat.pow_le_pow_right (by decide) (by omega)
    exact_mod_cast this
  have p3 : ((2 ^ w : Nat) : Int) = 2 ^ w := by norm_cast
  have p4 : (0 : Int) < 2 ^ w := by have := Nat.two_pow_pos w; omega
  have ai := asInt64_enc h rest
  have neg : z < 0 → asUInt64 (b ++ rest) = .ok (i64 z).toUInt64 := by
    intro h0
    have hb : ∃ m t, b = m :: t ∧ (0xe0 ≤ m.toNat ∨ 0xd0 ≤ m.toNat ∧ m.toNat ≤ 0xd3) := by
      cases h with
      | posfix h1 => omega
      | negfix h1 h2 =>
        refine ⟨_, _, rfl, .inl ?_⟩
        rw [UInt8.toNat_ofNat']; omega
      | u8 h1 => omega
      | u16 h1 => omega
      | u32 h1 => omega
      | u64 h1 => omega
      | i8 => exact ⟨_, _, rfl, .inr (by decide)⟩
      | i16 => exact ⟨_, _, rfl, .inr (by decide)⟩
      | i32 => exact ⟨_, _, rfl, .inr (by decide)⟩
      | i64 => exact ⟨_, _, rfl, .inr (by decide)⟩
    obtain ⟨m, t, rfl, hm⟩ := hb
    unfold asUInt64
    rw [ai]
    simp only [List.cons_append, byteAt_zero, Res.ok_bind]
    rw [if_neg (by omega), if_neg (by omega), if_neg (by omega), if_neg (by omega), if_neg (by omega)]
    rfl
  have wrapped : z < 0 → 2 ^ 63 ≤ (i64 z).toUInt64.toNat := by
    intro h0
    have e := i64_toInt hr.1 (by omega)
    have h1 : (i64 z).toUInt64.toNat = ((i64 z).toInt % 2 ^ 64).toNat := by
      rw [← Int64.toNat_toBitVec, ← Int64.toInt_toBitVec, BitVec.toInt_eq_toNat_bmod]
      have := (i64 z).toBitVec.isLt
      rw [Int.bmod_def]; split <;> omega
    rw [h1, e]; omega
  refine ⟨fun h1 h2 => ?_, fun h1 => ?_, fun h1 h2 => ?_, fun h1 h2 => ?_⟩
  · rw [c11_msgpack_narrow_unsigned]
    obtain ⟨y, h3, h4⟩ := asUInt64_enc h h1 rest
    exact ⟨y, h3, by omega, by omega⟩
  · rcases h1 with h1 | h1
    · have := wrapped h1
      simp only [asUIntN, neg h1, Res.ok_bind]
      rw [if_pos (by omega)]
    · obtain ⟨y, h3, h4⟩ := asUInt64_enc h (by omega) rest
      simp only [asUIntN, h3, Res.ok_bind]
      rw [if_pos (by omega)]
  · rw [c11_msgpack_narrow_signed]
    exact ⟨_, ai, i64_toInt (by omega) (by omega), h1, h2⟩
  · simp only [asIntN, ai, Res.ok_bind]
    have : (i64 z).toInt < -(2 ^ (w - 1) : Int) ∨ (2 ^ (w - 1) : Int) ≤ (i64 z).toInt := by
      by_cases h3 : z < 2 ^ 63
      · rw [i64_toInt (by omega) h3]; exact h1
      · have : (i64 z).toInt = z - 2 ^ 64 := by
          unfold i64
          rw [Int64.toInt_ofInt, Int.bmod_def]
          have : Int64.size = 2 ^ 64 := rfl
          rw [this]; split <;> omega
        omega
    rw [if_pos (by omega)]

/-- C11 is false for MessagePack: a stored 2^64 - 1 reads as -1 through `asInt8`. -/
theorem c11_msgpack_narrow_refuted : ∃ b, EncInt (2 ^ 64 - 1) b ∧ asIntN 8 b = .ok (-1) :=
  ⟨[0xcf, 255, 255, 255, 255, 255, 255, 255, 255], .u64 (by decide) (by decide), by decide +kernel⟩

/-! ### C53, C54 -/

/-- C53 is false for MessagePack: a serialization without any call is an empty buffer, and the
reader of an empty buffer reports no kind at all. -/
theorem c53_msgpack_empty_refuted :
    proto.bytesOf [] = .ok [] ∧ isNull [] = false ∧ isBool [] = false ∧ isInt [] = false ∧
      isUInt [] = false ∧ isFloat [] = false ∧ isString [] = false ∧ isBlob [] = false ∧
      isArray [] = false ∧ isMap [] = false := by decide

/-- C54 for MessagePack: on any bytes at most one kind holds, counting isInt and isUInt as one. -/
theorem c54_msgpack_kinds_exclusive (v : Bytes) :
    ([isNull v, isBool v, isInt v || isUInt v, isFloat v, isString v, isBlob v, isMap v,
      isArray v].filter id).length ≤ 1 := by
  cases v with
  | nil => decide
  | cons m t =>
    have key : ∀ m : Fin 256,
        ([decide (m.1 = 0xc0), decide (m.1 = 0xc2 ∨ m.1 = 0xc3),
          decide (m.1 ≤ 0x7f ∨ m.1 ≥ 0xe0 ∨ m.1 = 0xd0 ∨ m.1 = 0xd1 ∨ m.1 = 0xd2 ∨ m.1 = 0xd3) ||
          decide (m.1 ≤ 0x7f ∨ m.1 = 0xcc ∨ m.1 = 0xcd ∨ m.1 = 0xce ∨ m.1 = 0xcf),
          decide (m.1 = 0xca ∨ m.1 = 0xcb),
          decide (m.1 &&& 0xe0 = 0xa0 ∨ m.1 = 0xd9 ∨ m.1 = 0xda ∨ m.1 = 0xdb),
          decide (m.1 = 0xc4 ∨ m.1 = 0xc5 ∨ m.1 = 0xc6),
          decide (m.1 &&& 0xf0 = 0x80 ∨ m.1 = 0xde ∨ m.1 = 0xdf),
          decide (m.1 &&& 0xf0 = 0x90 ∨ m.1 = 0xdc ∨ m.1 = 0xdd)].filter id).length ≤ 1 := by
      decide +kernel
    exact key ⟨m.toNat, UInt8.toNat_lt m⟩

/-- C54: the writer never leaves a value without a kind. -/
theorem c54_msgpack_some_kind (v : Val) (hs : v.Sized) (rest : Bytes) :
    ∃ b, proto.serialize v = .ok b ∧
      reader.Shows (b ++ rest) (v.kind == 0) (v.kind == 1) (v.kind == 2) (v.kind == 3) (v.kind == 4)
        (v.kind == 5) (v.kind == 6) (v.kind == 7) :=
  ⟨_, serialize_eq v, enc_shows (enc_pack v hs) rest⟩

/-! ### C55: accessors of the wrong kind -/

/-- C55 for MessagePack, non-empty views: an accessor of the wrong kind raises a
DeserializationError (`contains` answers false). Missing: the empty view, where `asString`,
`asBlob`, `arraySize` and `operator[](i)` read outside (`c18_msgpack_reader_safe_refuted`). -/
theorem c55_msgpack_wrong_kind_partial {v : Bytes} (hv : v ≠ []) :
    (isBool v = false → asBool v = .err .deser) ∧
    (isInt v = false → isUInt v = false → asInt64 v = .err .deser ∧ asUInt64 v = .err .deser) ∧
    (isFloat v = false → asDouble v = .err .deser) ∧
    (isString v = false → asString v = .err .deser ∧ asStringView v = .err .deser) ∧
    (isBlob v = false → asBlob v = .err .deser) ∧
    (isArray v = false → arraySize v = .err .deser ∧ ∀ i, getIdx v i = .err .deser) ∧
    (isMap v = false → mapKeys v = .err .deser ∧ ∀ k, getKey v k = .err .deser ∧
      contains v k = .ok false) := by
  obtain ⟨m, t, rfl⟩ : ∃ m t, v = m :: t := by
    cases v with
    | nil => exact absurd rfl hv
    | cons m t => exact ⟨m, t, rfl⟩
  refine ⟨fun h => by simp [asBool, h], fun h1 h2 => ?_, fun h => by simp [asDouble, h], fun h => ?_,
    fun h => by simp [asBlob, binInfo_no h], fun h => ?_, fun h => ?_⟩
  · have k1 := of_decide_eq_false h1
    have k2 := of_decide_eq_false h2
    simp only [not_or] at k1 k2
    have hi : asInt64 (m :: t) = .err .deser := by
      unfold asInt64
      rw [require_ne]
      simp only [Res.ok_bind, byteAt_zero]
      rw [if_neg k1.1, if_neg k1.2.1, if_neg k1.2.2.1, if_neg k1.2.2.2.1, if_neg k1.2.2.2.2.1,
        if_neg k1.2.2.2.2.2, if_neg k2.2.1, if_neg k2.2.2.1, if_neg k2.2.2.2.1, if_neg k2.2.2.2.2]
    refine ⟨hi, ?_⟩
    unfold asUInt64
    rw [require_ne, hi]
    simp only [Res.ok_bind, byteAt_zero]
    rw [if_neg k2.1, if_neg k2.2.1, if_neg k2.2.2.1, if_neg k2.2.2.2.1, if_neg k2.2.2.2.2]
    rfl
  · have : asStringView (m :: t) = .err .deser := by simp [asStringView, strInfo_no h]
    exact ⟨this, this⟩
  · exact ⟨by simp [arraySize, arrInfo_no h], fun i => by simp [getIdx, arrInfo_no h]⟩
  · exact ⟨by simp [mapKeys, h], fun k => ⟨by simp [getKey, h], by simp [contains, h]⟩⟩

/-! ### C56: views stay inside their parent -/

theorem first_at {v w : Bytes} {n : Nat} (h : first v n = .ok w) : At v 0 w := by
  unfold first at h
  split at h
  · injection h with h; subst h
    exact ⟨[], v.drop n, by simp, rfl⟩
  · cases h

theorem subspan_at {v w : Bytes} {off : Nat} (h : subspan v off = .ok w) : At v off w := by
  unfold subspan at h
  split at h
  · injection h with h; subst h
    exact ⟨v.take off, [], by simp, by simp; omega⟩
  · cases h

theorem sliceAt_at {v s : Bytes} {p n : Nat} (h : sliceAt v p n = .ok s) : At v p s := by
  unfold sliceAt at h
  split at h
  · injection h with h; subst h; exact At.of_slice ‹_›
  · cases h

theorem getIdx_at {v w : Bytes} {i : Nat} (h : getIdx v i = .ok w) : ∃ p, 1 ≤ p ∧ At v p w := by
  obtain ⟨⟨n, off⟩, h0, h⟩ := Res.bind_eq_ok.1 h
  obtain ⟨_, _, h⟩ := Res.bind_eq_ok.1 h
  obtain ⟨off', h1, h⟩ := Res.bind_eq_ok.1 h
  obtain ⟨u, h2, h⟩ := Res.bind_eq_ok.1 h
  obtain ⟨sz, _, h⟩ := Res.bind_eq_ok.1 h
  have ho : 1 ≤ off := by
    obtain ⟨m, _, h0⟩ := Res.bind_eq_ok.1 h0
    split at h0
    · injection h0 with h0; injection h0; omega
    split at h0
    · obtain ⟨_, _, h0⟩ := Res.bind_eq_ok.1 h0; injection h0 with h0; injection h0; omega
    split at h0
    · obtain ⟨_, _, h0⟩ := Res.bind_eq_ok.1 h0; injection h0 with h0; injection h0; omega
    · cases h0
  have mono : ∀ n off off', skipLoop skip v n off = .ok off' → off ≤ off' := by
    intro n
    induction n with
    | zero => intro off off' h; injection h with h; omega
    | succ n ih =>
      intro off off' h
      obtain ⟨_, _, h⟩ := Res.bind_eq_ok.1 h
      obtain ⟨s, _, h⟩ := Res.bind_eq_ok.1 h
      have := ih _ _ h; omega
  have := mono _ _ _ h1
  exact ⟨off' + 0, by omega, (subspan_at h2).trans (first_at h)⟩

theorem getKeyFrom_at {v key w : Bytes} : ∀ {n off : Nat}, 1 ≤ off → getKeyFrom v key n off = .ok w →
    ∃ p, 1 ≤ p ∧ At v p w
  | 0, _, _, h => by cases h
  | n + 1, off, ho, h => by
    obtain ⟨ks, _, h⟩ := Res.bind_eq_ok.1 h
    obtain ⟨ksz, _, h⟩ := Res.bind_eq_ok.1 h
    obtain ⟨kd, _, h⟩ := Res.bind_eq_ok.1 h
    obtain ⟨vs, h1, h⟩ := Res.bind_eq_ok.1 h
    obtain ⟨vsz, _, h⟩ := Res.bind_eq_ok.1 h
    obtain ⟨hit, _, h⟩ := Res.bind_eq_ok.1 h
    split at h
    · exact ⟨off + ksz + 0, by omega, (subspan_at h1).trans (first_at h)⟩
    · exact getKeyFrom_at (by omega) h

theorem getKey_at {v key w : Bytes} (h : getKey v key = .ok w) : ∃ p, 1 ≤ p ∧ At v p w := by
  obtain ⟨_, _, h⟩ := Res.bind_eq_ok.1 h
  obtain ⟨⟨n, off⟩, h0, h⟩ := Res.bind_eq_ok.1 h
  refine getKeyFrom_at ?_ h
  obtain ⟨m, _, h0⟩ := Res.bind_eq_ok.1 h0
  split at h0
  · injection h0 with h0; injection h0; omega
  split at h0
  · obtain ⟨_, _, h0⟩ := Res.bind_eq_ok.1 h0; injection h0 with h0; injection h0; omega
  split at h0
  · obtain ⟨_, _, h0⟩ := Res.bind_eq_ok.1 h0; injection h0 with h0; injection h0; omega
  · cases h0

/-- C56: every view reachable from any bytes, and every string or blob it hands out, is a
contiguous part of those bytes. -/
theorem c56_msgpack_views_inside {v w : Bytes} (h : reader.Reach v w) :
    (∃ p, At v p w) ∧ (∀ s, asStringView w = .ok s → ∃ p, At v p s) ∧
      (∀ s, asBlob w = .ok s → ∃ p, At v p s) := by
  have key : ∃ p, At v p w := by
    induction h with
    | refl => exact ⟨0, [], [], by simp, rfl⟩
    | idx i _ hi ih =>
      obtain ⟨p, hp⟩ := ih
      obtain ⟨q, _, hq⟩ := getIdx_at hi
      exact ⟨_, hp.trans hq⟩
    | key k _ hi ih =>
      obtain ⟨p, hp⟩ := ih
      obtain ⟨q, _, hq⟩ := getKey_at hi
      exact ⟨_, hp.trans hq⟩
  obtain ⟨p, hp⟩ := key
  refine ⟨⟨p, hp⟩, fun s hs => ?_, fun s hs => ?_⟩
  · obtain ⟨q, _, hs⟩ := Res.bind_eq_ok.1 hs
    exact ⟨_, hp.trans (sliceAt_at hs)⟩
  · obtain ⟨q, _, hs⟩ := Res.bind_eq_ok.1 hs
    exact ⟨_, hp.trans (sliceAt_at hs)⟩

/-! ### C28: translation from MessagePack terminates -/

theorem zeraStep_returns (s : Zera.RS) (e : Ev) : Returns (Zera.writer.step s e) := by
  have hA : ∀ s b, Returns (Zera.appendEnv s b) := by
    intro s b; simp only [Zera.appendEnv]; split
    · exact returns_err _
    · exact returns_ok _
  have hP : ∀ s b a, Returns (Zera.arenaPut s b a) := by
    intro s b a; simp only [Zera.arenaPut]
    repeat' split
    · exact returns_err _
    · exact returns_err _
    · exact returns_ok _
  have hU : ∀ p q n, Returns (Zera.writeU32At p q n) := by
    intro p q n; unfold Zera.writeU32At; split
    · exact returns_ok _
    · exact returns_err _
  have hD : ∀ s b, Returns (Zera.deliverVr s b) := by
    intro s b; unfold Zera.deliverVr
    split
    · unfold Zera.writeRootVr
      split
      · exact returns_err _
      · exact .bind (hA _ _) fun _ _ => returns_pure _
    · exact returns_ok _
    · exact returns_err _
    · split
      · exact returns_err _
      · exact returns_ok _
  show Returns (Zera.step s e)
  cases e <;> simp only [Zera.step] <;> repeat' split
  all_goals first
    | exact hD _ _
    | exact returns_err _
    | exact returns_ok _
    | exact .bind (hP _ _ _) fun _ _ => hD _ _
    | exact .bind (hP _ _ _) fun _ _ => .bind (hA _ _) fun _ _ => hD _ _
    | exact .bind (hU _ _ _) fun _ _ => .bind (hA _ _) fun _ _ => hD _ _

theorem reader_total : reader.Total (fun _ => True) where
  isNull _ _ := returns_ok _
  isBool _ _ := returns_ok _
  isInt _ _ := returns_ok _
  isUInt _ _ := returns_ok _
  isFloat _ _ := returns_ok _
  isString _ _ := returns_ok _
  isBlob _ _ := returns_ok _
  isMap _ _ := returns_ok _
  isArray _ _ := returns_ok _
  asBool r _ := (asBool_clean r).returns
  asInt64 r _ := (asInt64_clean r).returns
  asUInt64 r _ := (asUInt64_clean r).returns
  asDouble r _ := (asDouble_clean r).returns
  asString r _ := returns_asStringView r
  asStringView r _ := returns_asStringView r
  asBlob r _ := by
    refine .bind ?_ fun _ _ => returns_sliceAt _ _ _
    refine .bind (returns_byteAt _ _) fun m _ => ?_
    repeat' split
    · exact .bind (returns_byteAt _ _) fun _ _ => returns_pure _
    · exact .bind (returns_be16 _ _) fun _ _ => returns_pure _
    · exact .bind (returns_be32 _ _) fun _ _ => returns_pure _
    · exact returns_err _
  mapKeys r _ := returns_mapKeys r
  contains r k _ _ _ := returns_contains r k
  getKey r k _ _ _ := returns_getKey r k
  arraySize r _ := .bind (returns_arrInfo r) fun _ _ => returns_pure _
  getIdx r k _ := returns_getIdx r k

/-- C28 for MessagePack sources: on any bytes, into any writer whose calls return, the recursion of
`write_value` is no deeper than the number of bytes. -/
theorem c28_msgpack_source {σ : Type} (W : Writer σ) (hW : ∀ s e, Returns (W.step s e)) (b : Bytes)
    (s : σ) {f : Nat} (hf : b.length < f) : writeValue reader W f b s ≠ .diverge := by
  refine writeValue_returns reader_total hW List.length ?_ ?_ f b s trivial hf
  · intro r i c _ hc
    refine ⟨trivial, ?_⟩
    obtain ⟨p, hp, hat⟩ := getIdx_at hc
    have := hat.bound; omega
  · intro r i c _ hc
    refine ⟨trivial, ?_⟩
    obtain ⟨p, hp, hat⟩ := getKey_at hc
    have := hat.bound; omega

theorem zeraFinish_returns (s : Zera.RS) : Returns (Zera.finish s >>= Zera.initFrom) := by
  refine Returns.bind ?_ fun b _ => (Zera.initFrom_clean b).returns
  show Returns (Zera.finish s)
  unfold Zera.finish
  have hA : ∀ s b, Returns (Zera.appendEnv s b) := by
    intro s b; simp only [Zera.appendEnv]; split
    · exact returns_err _
    · exact returns_ok _
  have hF : ∀ s : Zera.RS, Returns (do
      if s.env.length > u32max then Res.err Err.ser
      else
        if s.arena.length > u32max then Res.err Err.ser
        else
          let envSize := u32 s.env.length
          let arenaOfs := Zera.alignUp (Zera.HeaderSize + envSize) Zera.ArenaBaseAlign
          if arenaOfs > u32max then Res.err Err.ser
          else Res.ok (Zera.assemble s.env s.arena (s.root.getD 0) arenaOfs)) := by
    intro s
    simp only
    repeat' split
    all_goals first | exact returns_err _ | exact returns_ok _
  split
  · exact returns_err _
  · simp only
    split
    · refine .bind ?_ fun s _ => hF s
      unfold Zera.writeRootVr
      split
      · exact returns_err _
      · exact .bind (hA _ _) fun _ _ => returns_pure _
    · exact .bind (returns_pure _) fun s _ => hF s

/-- C28 for MessagePack to ZERA and MessagePack to MessagePack. -/
theorem c28_msgpack_to_zera (b : Bytes) {f : Nat} (hf : b.length < f) :
    Zera.proto.translate reader f b ≠ .diverge ∧ proto.translate reader f b ≠ .diverge := by
  constructor
  · exact Returns.bind (c28_msgpack_source Zera.writer zeraStep_returns b _ hf) fun s _ =>
      zeraFinish_returns s
  · refine Returns.bind (c28_msgpack_source writer (fun _ _ => returns_ok _) b _ hf) fun s _ => ?_
    exact Returns.bind (returns_ok _) fun _ _ => returns_ok _

/-! ### C57: skipping -/

/-- C57 for every complete element whose strings are shorter than 2^32 - 5 bytes: it is passed
exactly, whatever follows. Missing: longer strings, where the claim is false
(`c16_msgpack_reader_refuted`). -/
theorem c57_msgpack_skip_partial {b : Bytes} (h : Elem (2 ^ 32 - 5) b) (t : Bytes) :
    skip (b ++ t) = .ok b.length := h.skip t

example : Elem (2 ^ 32 - 5) [0x92, 0xcd, 1, 2, 0xa1, 0x61] :=
  .arr (h := [0x92]) (cs := [[0xcd, 1, 2], [0xa1, 0x61]]) (.fix (by decide)) (by
    intro c hc
    simp only [List.mem_cons, List.not_mem_nil, or_false] at hc
    rcases hc with rfl | rfl
    · exact .fixed (by decide)
    · exact .str (h := [0xa1]) (s := [0x61]) (.fix (by decide)) (by decide))

/-! ### C27: translation between ZERA and MessagePack -/

theorem sized_canon : ∀ v : Val, v.canon.Sized ↔ v.Sized := by
  intro v
  induction v using Val.ind with
  | int i => simp only [Val.canon]; split <;> simp [Val.Sized]
  | arr xs ih =>
    have : ∀ l : List Val, (∀ x ∈ l, x.canon.Sized ↔ x.Sized) →
        (Val.sizedList (Val.canonList l) ↔ Val.sizedList l) := by
      intro l
      induction l with
      | nil => simp [Val.canonList]
      | cons x l ihl =>
        intro h
        simp only [Val.canonList, Val.sizedList, h x (by simp), ihl (fun y hy => h y (by simp [hy]))]
    have e : (Val.canonList xs).length = xs.length := by simp [Val.canonList_eq]
    simp only [Val.canon, Val.Sized, this xs ih, e]
  | map ms ih =>
    have : ∀ l : List (Bytes × Val), (∀ x ∈ l, x.2.canon.Sized ↔ x.2.Sized) →
        (Val.sizedEntries (Val.canonEntries l) ↔ Val.sizedEntries l) := by
      intro l
      induction l with
      | nil => simp [Val.canonEntries]
      | cons x l ihl =>
        intro h
        obtain ⟨k, x⟩ := x
        simp only [Val.canonEntries, Val.sizedEntries, h (k, x) (by simp),
          ihl (fun y hy => h y (by simp [hy]))]
    have e : (Val.canonEntries ms).length = ms.length := by simp [Val.canonEntries_eq]
    simp only [Val.canon, Val.Sized, this ms ih, e]
  | _ => simp [Val.canon]

theorem below_canon (n : Nat) : ∀ v : Val, v.canon.Below n ↔ v.Below n := by
  intro v
  induction v using Val.ind with
  | int i => simp only [Val.canon]; split <;> simp [Val.Below]
  | arr xs ih =>
    have : ∀ l : List Val, (∀ x ∈ l, x.canon.Below n ↔ x.Below n) →
        (Val.Below.belowList n (Val.canonList l) ↔ Val.Below.belowList n l) := by
      intro l
      induction l with
      | nil => simp [Val.canonList]
      | cons x l ihl =>
        intro h
        simp only [Val.canonList, Val.Below.belowList, h x (by simp), ihl (fun y hy => h y (by simp [hy]))]
    simp only [Val.canon, Val.Below, this xs ih]
  | map ms ih =>
    have : ∀ l : List (Bytes × Val), (∀ x ∈ l, x.2.canon.Below n ↔ x.2.Below n) →
        (Val.Below.belowEntries n (Val.canonEntries l) ↔ Val.Below.belowEntries n l) := by
      intro l
      induction l with
      | nil => simp [Val.canonEntries]
      | cons x l ihl =>
        intro h
        obtain ⟨k, x⟩ := x
        simp only [Val.canonEntries, Val.Below.belowEntries, h (k, x) (by simp),
          ihl (fun y hy => h y (by simp [hy]))]
    simp only [Val.canon, Val.Below, this ms ih]
  | _ => simp [Val.canon]

theorem sized_same {v w : Val} (h : v.Same w) (hw : w.Sized ∧ w.Below (2 ^ 32 - 5)) :
    v.Sized ∧ v.Below (2 ^ 32 - 5) := by
  unfold Val.Same at h
  rw [← sized_canon, ← below_canon, h, sized_canon, below_canon]
  exact hw

/-- C27 into MessagePack from any protocol with a round trip: translation succeeds, and the result
presents the value. -/
theorem c27_to_msgpack (P : Proto) {p : Prop} {D : Val → Prop} (hP : P.RoundTrips p D) {v : Val}
    (hd : v.Distinct) (hD : D v) (hs : v.Sized) (hl : v.Below (2 ^ 32 - 5)) {b : Bytes}
    (hb : P.serialize v = .ok b) :
    ∃ r, P.opn b = .ok r ∧ ∀ f, v.depth ≤ f →
      ∃ r', proto.translate P.reader f r = .ok r' ∧ reader.Agrees r' v := by
  obtain ⟨r, hr, h⟩ := c27_translate_pair P proto hP proto_roundTrips hd hD
    (fun v' h => sized_same h ⟨hs, hl⟩) hb
  refine ⟨r, hr, fun f hf => ?_⟩
  obtain ⟨v', _, _, h3, h4⟩ := h f hf
  rw [serialize_eq] at h3
  exact ⟨_, h3, (h4 _ h3).1⟩

/-- C27 from ZERA to MessagePack: the bytes are the ones MessagePack itself would have written for
the value. -/
theorem c27_zera_to_msgpack {v : Val} (hd : v.Distinct) (hs : v.Sized) (hl : v.Below (2 ^ 32 - 5))
    {b : Bytes} (hb : Zera.proto.serialize v = .ok b) :
    ∃ r, Zera.initFrom b = .ok r ∧ ∀ f, v.depth ≤ f →
      ∃ c, proto.translate Zera.reader f r = .ok c ∧ proto.serialize v = .ok c ∧ reader.Agrees c v := by
  obtain ⟨r, hr, h⟩ := c27_translate_pair Zera.proto proto Zera.proto_roundTrips proto_roundTrips hd
    trivial (fun v' h => sized_same h ⟨hs, hl⟩) hb
  refine ⟨r, hr, fun f hf => ?_⟩
  obtain ⟨v', _, h2, h3, h4⟩ := h f hf
  have := h2 trivial; subst this
  rw [serialize_eq] at h3
  exact ⟨_, h3, serialize_eq _, (h4 _ h3).1⟩

/-- C27 from MessagePack to ZERA: if ZERA can hold the value (C02), the result presents it. -/
theorem c27_msgpack_to_zera {v : Val} (hd : v.Distinct) (hs : v.Sized) (hl : v.Below (2 ^ 32 - 5)) :
    ∃ b, proto.serialize v = .ok b ∧ ∀ f, v.depth ≤ f →
      ∃ v', v'.Same v ∧ Zera.proto.translate reader f b = (Zera.proto.serialize v' >>= Zera.initFrom) ∧
        ∀ r', Zera.proto.translate reader f b = .ok r' → Zera.reader.Agrees r' v := by
  refine ⟨_, serialize_eq v, fun f hf => ?_⟩
  obtain ⟨r, hr, h⟩ := c27_translate_pair proto Zera.proto proto_roundTrips Zera.proto_roundTrips hd
    ⟨hs, hl⟩ (fun _ _ => trivial) (serialize_eq v)
  have : r = pack (emit v) := by injection hr with hr; exact hr.symm
  subst this
  obtain ⟨v', h1, _, h3, h4⟩ := h f hf
  exact ⟨v', h1, h3, fun r' hr' => (h4 r' hr').1⟩

/-- C27 there and back: MessagePack to MessagePack gives bytes that present the same value. -/
theorem c27_msgpack_to_msgpack {v : Val} (hd : v.Distinct) (hs : v.Sized) (hl : v.Below (2 ^ 32 - 5))
    {f : Nat} (hf : v.depth ≤ f) :
    ∃ b c, proto.serialize v = .ok b ∧ proto.translate reader f b = .ok c ∧ reader.Agrees c v := by
  obtain ⟨r, hr, h⟩ := c27_to_msgpack proto proto_roundTrips hd ⟨hs, hl⟩ hs hl (serialize_eq v)
  have : r = pack (emit v) := by injection hr with hr; exact hr.symm
  subst this
  obtain ⟨c, h1, h2⟩ := h f hf
  exact ⟨_, c, serialize_eq v, h1, h2⟩

example : sampleVal.Distinct ∧ sampleVal.Sized := by
  simp [sampleVal, Val.Distinct, Val.distinctEntries, Val.distinctList, Val.Sized, Val.sizedEntries,
    Val.sizedList]

end Zer.MsgPack
