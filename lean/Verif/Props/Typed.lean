import Verif.TypedProto

/-!
# Properties C80, C81, C82: typed access
-/

namespace Zer.Typed

open Zer Zer.Dyn

/-! ### C80: what was written reads back through the accessor of its type -/

/-- What C80 says of an opened reader: every part of `x` is where the subscripts lead, and comes back through the accessor of its
C++ type; integers also through the accessors of the other types in whose range they lie. -/
def Comes {ρ : Type} (A : Acc ρ) (r : ρ) (x : Src) : Prop :=
  ∀ p (y : Src), valAt x.val p = some y.val →
    ∃ c, readAt A.toReader r p = .ok c ∧ Reads A c y ∧ (y.val.kind = 2 → ReadsNum A c y.val.num)

theorem comes_of {P : AProto} {D : Val → Prop} (H : P.TypedRoundTrips D) {x : Src} (hx : x.Ok) (hD : D x.val) {b : Bytes}
    (hb : serialize P.toProto x = .ok b) : ∃ r, P.opn b = .ok r ∧ Comes P.acc r x := by
  rw [(c36_same_bytes P.toProto hx hx rfl).2] at hb
  obtain ⟨r, hr, h⟩ := H x.val b hD hb
  refine ⟨r, hr, fun p y e => ?_⟩
  obtain ⟨c, h1, h2⟩ := h p y.val e
  exact ⟨c, h1, reads_of_readsVal h2.1, h2.2⟩

/-- C80 for ZERA. -/
theorem c80_zera {x : Src} (hx : x.Ok) {b : Bytes} (hb : serialize Zera.proto x = .ok b) :
    ∃ r, Zera.initFrom b = .ok r ∧ Comes zera.acc r x := comes_of zera_typed hx trivial hb

/-- C80 for MessagePack, sizes within the format. -/
theorem c80_msgpack {x : Src} (hx : x.Ok) (hs : x.val.Sized) (hl : x.val.Below (2 ^ 32 - 5)) :
    ∃ b, serialize MsgPack.proto x = .ok b ∧ Comes msgpack.acc b x := by
  have hb : serialize MsgPack.proto x = .ok (MsgPack.pack (emit x.val)) := by
    rw [(c36_same_bytes MsgPack.proto hx hx rfl).2]; exact MsgPack.serialize_eq _
  obtain ⟨r, hr, h⟩ := comes_of msgpack_typed hx ⟨hs, hl⟩ hb
  injection hr with hr
  subst hr
  exact ⟨_, hb, h⟩

/-- C80 for CBOR, for every value: unlike C23 it includes integers of 2^63 and more. -/
theorem c80_cbor {utf8 : Bytes → Bool} {maxDepth fuel : Nat} {x : Src} (hx : x.Ok) {b : Bytes}
    (hb : serialize (Cbor.proto utf8 maxDepth false fuel) x = .ok b) (hl : b.length < 2 ^ 64) (hf : b.length ≤ fuel) :
    Comes (cbor utf8 maxDepth fuel).acc ⟨b, 0⟩ x := by
  have hb' := hb
  rw [(c36_same_bytes (Cbor.proto utf8 maxDepth false fuel) hx hx rfl).2] at hb'
  obtain ⟨r, hr, h⟩ := comes_of (P := cbor utf8 maxDepth fuel) (cbor_typed utf8 maxDepth fuel) hx
    (fun b' e => by rw [hb'] at e; injection e with e; subst e; exact ⟨hl, hf⟩) hb
  injection hr with hr
  subst hr
  exact h

/-- C80 for JSON, for values it round-trips. -/
theorem c80_json {T : Json.Text} (L : T.Law) (dbg : Bool) {x : Src} (hx : x.Ok) (hp : Json.Plain x.val) (hk : Json.KeysOk x.val)
    {b : Bytes} (hb : serialize (Json.proto T dbg) x = .ok b) : ∃ r, Json.opn T b = .ok r ∧ Comes (json T dbg).acc r x :=
  comes_of (json_typed L dbg) hx ⟨hp, hk⟩ hb

/-- What C80 says for Flex: integers only through the accessors of the sign they were written with; keys are listed in order. -/
def ComesSorted {ρ : Type} (A : Acc ρ) (r : ρ) (x : Src) : Prop :=
  ∀ p (y : Src), valAt x.val p = some y.val →
    ∃ c, readAt A.toReader r p = .ok c ∧ (y.val.kind ≠ 6 → Reads A c y) ∧
      (∀ ms, y.val = .map ms → A.isMap c = .ok true ∧ ∃ ks, A.mapKeys c = .ok ks ∧ ks.Perm (ms.map Prod.fst))

theorem comesSorted_of {L : Flex.Lib} {dbg : Bool} {x : Src} {r : Flex.Ref} (hd : x.val.Distinct)
    (ha : Flex.reader.AgreesStrictly r x.val.sortKeys) : ComesSorted (flex L dbg).acc r x := by
  intro p y e
  have e' := valAt_sortKeys p hd
  rw [e, Option.map_some] at e'
  obtain ⟨c, h1, -, h3⟩ := readAt_agrees (R := Flex.reader) (Q := fun _ => True) (fun _ _ => trivial) (fun _ _ => trivial) trivial ha e'
  have h4 : ReadsVal (flex L dbg).acc c y.val.sortKeys := readsVal_strict (A := (flex L dbg).acc) (flex_narrows L dbg) h3
  refine ⟨c, h1, fun hk => reads_of_readsVal ?_, fun ms hm => ?_⟩
  · cases hv : y.val with
    | map ms => rw [hv] at hk; exact absurd rfl hk
    | arr xs =>
      rw [hv] at h4
      simpa [ReadsVal, Val.sortKeys, Val.sortKeysList_eq] using h4
    | _ => rw [hv] at h4; exact h4
  · rw [hm] at h4
    refine ⟨h4.1, _, h4.2, ?_⟩
    rw [← Val.sortKeysEntries_keys ms]
    exact (List.mergeSort_perm _ _).map _

/-- C80 for Flex. -/
theorem c80_flex {L : Flex.Lib} (H : L.Law) (dbg : Bool) {x : Src} (hx : x.Ok) (hd : x.val.Distinct) (hn : x.val.NulFree)
    (hf : Flex.Fits x.val) : ∃ b r, serialize (Flex.proto L dbg) x = .ok b ∧ Flex.opn b = .ok r ∧ ComesSorted (flex L dbg).acc r x := by
  obtain ⟨b, r, h1, h2, h3⟩ := Flex.c35_flex_round_trip H dbg hd hn hf
  refine ⟨b, r, ?_, h2, comesSorted_of hd h3⟩
  rw [(c36_same_bytes (Flex.proto L dbg) hx hx rfl).2]; exact h1

/-- A C++ map of a vector of `int16_t`, a `float` and a `uint64_t` beyond 2^63. -/
def sampleSrc : Src := .smap [([0x61], .seq .vector [.sint 16 (-300), .sint 16 200]), ([0x62], .flt 0x40490fdb),
  ([0x63], .uint 64 (BitVec.ofNat 64 (2 ^ 63 + 5)))]

example : sampleSrc.Ok ∧ valAt sampleSrc.val [.key [0x61], .idx 1] = some (Src.sint 16 200).val ∧
    valAt sampleSrc.val [.key [0x62]] = some (Src.flt 0x40490fdb).val ∧ sampleSrc.val.Distinct ∧ sampleSrc.val.NulFree ∧
    Flex.Fits sampleSrc.val := by
  refine ⟨by simp [sampleSrc, Src.Ok, Src.okEntries, Src.okList], rfl, rfl, ?_, ?_, ?_⟩
  · simp [sampleSrc, Src.val, Src.valEntries, Src.valList, Val.Distinct, Val.distinctEntries, Val.distinctList]
  · simp [sampleSrc, Src.val, Src.valEntries, Src.valList, Val.NulFree, Val.Each, Val.eachEntries, Val.eachList]
  · simp [sampleSrc, Src.val, Src.valEntries, Src.valList, Flex.Fits, Flex.weigh, Flex.weighList, Flex.weighEntries]

example : sampleSrc.val.Sized ∧ sampleSrc.val.Below (2 ^ 32 - 5) := by
  constructor
  · simp [sampleSrc, Src.val, Src.valEntries, Src.valList, Val.Sized, Val.sizedEntries, Val.sizedList]
  · simp [sampleSrc, Src.val, Src.valEntries, Src.valList, Val.Below, Val.Below.belowEntries, Val.Below.belowList]

example : (match serialize Zera.proto sampleSrc with | .ok _ => true | _ => false) = true := by decide +kernel

/-- C80 does not extend to the kind: MessagePack presents a signed 200 as unsigned only. -/
theorem c80_msgpack_kind_refuted : ∃ b, serialize MsgPack.proto (.sint 32 200) = .ok b ∧ MsgPack.isInt b = false ∧
    MsgPack.isUInt b = true ∧ msgpack.acc.asSigned 32 b = .ok 200 :=
  ⟨[0xcc, 0xc8], by decide +kernel, by decide, by decide, by decide +kernel⟩

/-- C80 for the kind in ZERA: a signed integer is presented as signed, an unsigned one as unsigned, everywhere in the value. -/
theorem c80_zera_kind {x : Src} (hx : x.Ok) {b : Bytes} (hb : serialize Zera.proto x = .ok b) : ∃ r, Zera.initFrom b = .ok r ∧
    ∀ p, (∀ i, valAt x.val p = some (.int i) → ∃ c, readAt Zera.reader r p = .ok c ∧ c.isInt = .ok true ∧ c.isUInt = .ok false) ∧
      (∀ n, valAt x.val p = some (.uint n) → ∃ c, readAt Zera.reader r p = .ok c ∧ c.isInt = .ok false ∧ c.isUInt = .ok true) := by
  rw [(c36_same_bytes Zera.proto hx hx rfl).2] at hb
  obtain ⟨r, hr, ha⟩ := Zera.proto_roundTrips x.val b trivial hb
  refine ⟨r, hr, fun p => ⟨fun i e => ?_, fun n e => ?_⟩⟩
  · obtain ⟨c, h1, -, h3⟩ := readAt_agrees (Q := fun _ => True) (fun _ _ => trivial) (fun _ _ => trivial) trivial ha e
    cases h3 with | int _ hs => exact ⟨c, h1, hs trivial⟩
  · obtain ⟨c, h1, -, h3⟩ := readAt_agrees (Q := fun _ => True) (fun _ _ => trivial) (fun _ _ => trivial) trivial ha e
    cases h3 with | uint _ hs => exact ⟨c, h1, hs trivial⟩

/-- C80 for the kind in Flex. -/
theorem c80_flex_kind {L : Flex.Lib} (H : L.Law) (dbg : Bool) {x : Src} (hx : x.Ok) (hd : x.val.Distinct) (hn : x.val.NulFree)
    (hf : Flex.Fits x.val) : ∃ b r, serialize (Flex.proto L dbg) x = .ok b ∧ Flex.opn b = .ok r ∧
    ∀ p, (∀ i, valAt x.val p = some (.int i) → ∃ c, readAt Flex.reader r p = .ok c ∧ Flex.isInt c = true ∧ Flex.isUInt c = false) ∧
      (∀ n, valAt x.val p = some (.uint n) → ∃ c, readAt Flex.reader r p = .ok c ∧ Flex.isInt c = false ∧ Flex.isUInt c = true) := by
  obtain ⟨b, r, h1, h2, ha⟩ := Flex.c35_flex_round_trip H dbg hd hn hf
  refine ⟨b, r, by rw [(c36_same_bytes (Flex.proto L dbg) hx hx rfl).2]; exact h1, h2, fun p => ?_⟩
  have e' := valAt_sortKeys p hd
  refine ⟨fun i e => ?_, fun n e => ?_⟩
  · rw [e] at e'
    obtain ⟨c, h1, -, h3⟩ := readAt_agrees (Q := fun _ => True) (fun _ _ => trivial) (fun _ _ => trivial) trivial ha e'
    cases h3 with
    | int _ hs =>
      obtain ⟨k1, k2⟩ := hs trivial
      injection k1 with k1; injection k2 with k2
      exact ⟨c, h1, k1, k2⟩
  · rw [e] at e'
    obtain ⟨c, h1, -, h3⟩ := readAt_agrees (Q := fun _ => True) (fun _ _ => trivial) (fun _ _ => trivial) trivial ha e'
    cases h3 with
    | uint _ hs =>
      obtain ⟨k1, k2⟩ := hs trivial
      injection k1 with k1; injection k2 with k2
      exact ⟨c, h1, k1, k2⟩

/-! ### C81: asFloat -/

/-- The single `g` is the double `d` rounded to nearest, ties to the even pattern; beyond the largest single by half a unit or more
it is an infinity. Numbers are counted in units of 2^-1074; `overflowAt` is (2^24 - 1/2) * 2^104 in these. -/
def Nearest (d g : Nat) : Prop :=
  match dblVal d with
  | .nan => sglVal g = .nan
  | .inf neg => sglVal g = .inf neg
  | .fin neg u =>
    (u < overflowAt → ∃ w, sglVal g = .fin neg w ∧ ∀ h < 2 ^ 32, ∀ w', sglVal h = .fin neg w' →
      dist w u < dist w' u ∨ w' = w ∨ (dist w u = dist w' u ∧ g % 2 = 0)) ∧
    (overflowAt ≤ u → sglVal g = .inf neg)

theorem narrow32_nearest {d : Nat} (hd : d < 2 ^ 64) : Nearest d (narrow32 d) := by
  unfold Nearest
  cases h : dblVal d with
  | nan => exact narrow32_nan hd h
  | inf neg => exact narrow32_inf hd h
  | fin neg u =>
    rw [narrow32_fin hd h]
    dsimp only
    refine ⟨fun hu => ?_, fun hu => ?_⟩
    · obtain ⟨hlt, hn⟩ := roundUnits_low hu
      refine ⟨_, sglVal_eq neg hlt, fun k hk w' hw' => ?_⟩
      obtain ⟨n, h1, h2, h3⟩ := sglVal_fin hk hw'
      rw [h3]
      rcases hn n with h | h | ⟨h, h'⟩
      · exact .inl h
      · exact .inr (.inl (by rw [h]))
      · exact .inr (.inr ⟨h, by cases neg <;> simp <;> omega⟩)
    · rw [roundUnits_high hu]
      have := sgl_special neg 0 (by omega)
      rwa [Nat.add_zero, if_pos rfl] at this

/-- C81: for every reader, `asFloat` raises what `asDouble` raises, and otherwise gives the nearest single to what `asDouble` gives. -/
theorem c81_as_float {ρ : Type} (A : Acc ρ) (r : ρ) :
    (∀ d, A.asDouble r = .ok d → ∃ g, A.asFloat r = .ok g ∧ Nearest d.toNat g.toNat) ∧
    (∀ e, A.asDouble r = .err e → A.asFloat r = .err e) := by
  refine ⟨fun d h => ⟨UInt32.ofNat (narrow32 d.toNat), by simp only [Acc.asFloat, h, Res.ok_bind, Res.pure_eq], ?_⟩,
    fun e h => by simp only [Acc.asFloat, h]; rfl⟩
  have hd : d.toNat < 2 ^ 64 := d.toNat_lt
  rw [UInt32.toNat_ofNat', Nat.mod_eq_of_lt (narrow32_lt hd)]
  exact narrow32_nearest hd

/-- C81: nothing is lost on a double that is the value of a single. -/
theorem c81_exact {ρ : Type} (A : Acc ρ) {r : ρ} {d : UInt64} (h : A.asDouble r = .ok d) {f : Nat} (hf : f < 2 ^ 32)
    (hv : dblVal d.toNat = sglVal f) (hn : sglVal f ≠ .nan) : ∃ g, A.asFloat r = .ok g ∧ sglVal g.toNat = sglVal f := by
  obtain ⟨g, h1, h2⟩ := (c81_as_float A r).1 d h
  refine ⟨g, h1, ?_⟩
  unfold Nearest at h2
  rw [hv] at h2
  cases hs : sglVal f with
  | nan => exact absurd hs hn
  | inf neg => rw [hs] at h2; exact h2
  | fin neg u =>
    rw [hs] at h2
    obtain ⟨n, k1, k2, k3⟩ := sglVal_fin hf hs
    have hu : u < overflowAt := by
      have h3 := overflowAt_mid
      have h4 := sglUnits_lt (show 255 * 2 ^ 23 - 1 < 255 * 2 ^ 23 by omega)
      have h5 := sglUnits_le (Nat.le_sub_one_of_lt k1)
      rw [← k3] at h5
      generalize sglUnits (255 * 2 ^ 23 - 1) = x at *
      generalize sglUnits (255 * 2 ^ 23) = y at *
      generalize overflowAt = t at *
      omega
    obtain ⟨w, e1, e2⟩ := h2.1 hu
    rw [e1]
    rcases e2 f hf u hs with h | h | ⟨h, -⟩
    · unfold dist at h; omega
    · rw [h]
    · have : w = u := by unfold dist at h; omega
      rw [this]

/-- 0.1 has no single; the nearest is 0x3dcccccd. 1e39 is too large for a single. 16777217 lies half way between two singles. -/
example : narrow32 0x3fb999999999999a = 0x3dcccccd ∧ narrow32 0x48078287f49c4a1d = 0x7f800000 ∧
    narrow32 0x4170000010000000 = 0x4b800000 ∧ narrow32 0x8000000000000001 = 0x80000000 ∧
    narrow32 0x4170000030000000 = 0x4b800002 := by decide +kernel

/-! ### C82: typed access after translation -/

/-- C82: translate what was written in any protocol with a round trip into a protocol whose typed accessors give back what was
written. If translation succeeds, then every part of the value comes back through the accessor of the type it was first written
with. -/
theorem c82_translate {P : Proto} {p : Prop} {D : Val → Prop} (hP : P.RoundTrips p D) {Q : AProto} {E : Val → Prop}
    (hQ : Q.TypedRoundTrips E) {x : Src} (hx : x.Ok) (hD : D x.val) (hE : ∀ v' : Val, v'.Same x.val.firstWins → E v') {b : Bytes}
    (hb : serialize P x = .ok b) {f : Nat} (hf : x.val.depth ≤ f) :
    ∃ r, P.opn b = .ok r ∧ ∀ r', Q.translate P.reader f r = .ok r' → Comes Q.acc r' x := by
  rw [(c36_same_bytes P hx hx rfl).2] at hb
  obtain ⟨r, hr, ha⟩ := hP x.val b hD hb
  refine ⟨r, hr, fun r' ht q y e => ?_⟩
  obtain ⟨v', h1, -, h3⟩ := writeValue_run x.val r ha
  have et : Q.toProto.translate P.reader f r = (Q.serialize v' >>= Q.opn) := by
    simp only [Proto.translate, Proto.serialize, Proto.bytesOf, h3 _ Q.writer f hf Q.init, bind_assoc]
  rw [et] at ht
  obtain ⟨c, hc, ho⟩ := Res.bind_eq_ok.1 ht
  obtain ⟨r'', ho', h⟩ := hQ v' c (hE v' h1) hc
  rw [ho] at ho'; injection ho' with ho'; subst ho'
  have e1 := valAt_firstWins q x.val
  rw [e, Option.map_some] at e1
  obtain ⟨u', e2, hs⟩ := valAt_same h1 e1
  obtain ⟨c', k1, k2⟩ := h q u' e2
  have k3 := (k2.same hs).of_firstWins
  exact ⟨c', k1, reads_of_readsVal k3.1, k3.2⟩

/-- C82 into ZERA, MessagePack, CBOR and JSON. -/
theorem c82_to_all {P : Proto} {p : Prop} {D : Val → Prop} (hP : P.RoundTrips p D) {T : Json.Text} (L : T.Law) (dbg : Bool)
    {utf8 : Bytes → Bool} {maxDepth fuel : Nat} {x : Src} (hx : x.Ok) (hD : D x.val) (hd : x.val.Distinct) {b : Bytes}
    (hb : serialize P x = .ok b) {f : Nat} (hf : x.val.depth ≤ f) : ∃ r, P.opn b = .ok r ∧
      (∀ r', Zera.proto.translate P.reader f r = .ok r' → Comes zera.acc r' x) ∧
      (x.val.Sized → x.val.Below (2 ^ 32 - 5) → ∀ r', MsgPack.proto.translate P.reader f r = .ok r' → Comes msgpack.acc r' x) ∧
      ((∀ c, (Cbor.proto utf8 maxDepth false fuel).serialize x.val = .ok c → c.length < 2 ^ 64 ∧ c.length ≤ fuel) →
        ∀ r', (Cbor.proto utf8 maxDepth false fuel).translate P.reader f r = .ok r' → Comes (cbor utf8 maxDepth fuel).acc r' x) ∧
      (Json.Plain x.val → Json.KeysOk x.val → ∀ r', (Json.proto T dbg).translate P.reader f r = .ok r' →
        Comes (json T dbg).acc r' x) := by
  have e := Val.firstWins_of_distinct x.val hd
  obtain ⟨r, hr, h1⟩ := c82_translate hP zera_typed hx hD (fun _ _ => trivial) hb hf
  have ur : ∀ r', P.opn b = .ok r' → r' = r := by
    intro r' h; rw [hr] at h; injection h with h; exact h.symm
  refine ⟨r, hr, h1, fun s1 s2 => ?_, fun hc => ?_, fun j1 j2 => ?_⟩
  · obtain ⟨r', hr', h⟩ := c82_translate hP msgpack_typed hx hD (fun v' h => MsgPack.sized_same (e ▸ h) ⟨s1, s2⟩) hb hf
    obtain rfl := ur r' hr'
    exact h
  · obtain ⟨r', hr', h⟩ := c82_translate hP (cbor_typed utf8 maxDepth fuel) hx hD
      (fun v' h c hc' => hc c (by rw [← Cbor.c12_cbor_same (e ▸ h)]; exact hc')) hb hf
    obtain rfl := ur r' hr'
    exact h
  · obtain ⟨r', hr', h⟩ := c82_translate hP (json_typed L dbg) hx hD
      (fun v' h => ⟨Json.plain_same (e ▸ h) j1, Json.keysOk_same (e ▸ h) j2⟩) hb hf
    obtain rfl := ur r' hr'
    exact h

/-- C82 into Flex from a protocol that keeps the signs (ZERA, Flex). -/
theorem c82_to_flex_partial {P : Proto} {D : Val → Prop} (hP : P.RoundTrips True D) {L : Flex.Lib} (H : L.Law) (dbg : Bool) {x : Src}
    (hx : x.Ok) (hD : D x.val) (hd : x.val.Distinct) (hn : x.val.NulFree) (hF : Flex.Fits x.val) {b : Bytes}
    (hb : serialize P x = .ok b) {f : Nat} (hf : x.val.depth ≤ f) : ∃ r, P.opn b = .ok r ∧ ∃ r', (Flex.proto L dbg).translate P.reader f r = .ok r' ∧
      ComesSorted (flex L dbg).acc r' x := by
  rw [(c36_same_bytes P hx hx rfl).2] at hb
  obtain ⟨r, hr, ha⟩ := hP x.val b hD hb
  obtain ⟨r', h1, -, h3⟩ := Flex.c27_to_flex H dbg ha hd hn hF hf
  exact ⟨r, hr, r', h1, comesSorted_of hd (h3 trivial)⟩

/-- C82 is false into Flex: an `int32_t` 200 written to MessagePack and translated raises in `asInt32`. -/
theorem c82_msgpack_flex_refuted {L : Flex.Lib} (H : L.Law) (dbg : Bool) : ∃ b r, serialize MsgPack.proto (.sint 32 200) = .ok b ∧
    (Flex.proto L dbg).translate MsgPack.reader 1 b = .ok r ∧ msgpack.acc.asSigned 32 b = .ok 200 ∧
    (flex L dbg).acc.asSigned 32 r = .err .deser := by
  obtain ⟨b', r, k1, _, k2, k3⟩ := Flex.serialize_holds H dbg (v := .uint 200) (show 0 + 17 < 2 ^ 64 by decide)
  refine ⟨[0xcc, 0xc8], r, by decide +kernel, ?_, by decide +kernel, ?_⟩
  · have e : (Flex.proto L dbg).translate MsgPack.reader 1 [0xcc, 0xc8] = ((Flex.proto L dbg).serialize (.uint 200) >>= Flex.opn) := by
      rfl
    rw [e, k1]
    exact k2
  · have e : Flex.asInt64 r = .err .deser := k3.same.asInt64
    show Flex.asIntN 32 r = _
    unfold Flex.asIntN
    rw [e]; rfl

/-- C82 is false into Flex: a `uint64_t` 5 written to JSON and translated raises in `asUInt64`. -/
theorem c82_json_flex_refuted {T : Json.Text} (J : T.Law) {L : Flex.Lib} (H : L.Law) (dbg dbg' : Bool) : ∃ b r r',
    serialize (Json.proto T dbg') (.uint 64 5) = .ok b ∧ Json.opn T b = .ok r ∧
    (Flex.proto L dbg).translate Json.reader 1 r = .ok r' ∧ (json T dbg').acc.asUnsigned 64 r = .ok 5 ∧
    (flex L dbg).acc.asUnsigned 64 r' = .err .deser := by
  obtain ⟨b, h1, h2⟩ := (Json.serialize_ok_iff (dbg := dbg') J (v := .uint 5) (by simp [Json.KeysOk, Val.Each])).1
    (by simp [Json.Textual, Val.Each])
  obtain ⟨b', r, k1, _, k2, k3⟩ := Flex.serialize_holds H dbg (v := .int 5) (show 0 + 17 < 2 ^ 64 by decide)
  refine ⟨b, .uint 5, r, ?_, ?_, ?_, rfl, ?_⟩
  · rw [(c36_same_bytes (Json.proto T dbg') (x := .uint 64 5) (y := .uint 64 5) trivial trivial rfl).2]; exact h1
  · unfold Json.opn; rw [h2]; rfl
  · have e : (Flex.proto L dbg).translate Json.reader 1 (.uint 5) = ((Flex.proto L dbg).serialize (.int 5) >>= Flex.opn) := by
      rfl
    rw [e, k1]
    exact k2
  · have e : Flex.asUInt64 r = .err .deser := k3.same.asUInt64
    show (Flex.asUInt64 r >>= _) = _
    rw [e]; rfl

end Zer.Typed
