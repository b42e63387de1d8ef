import Verif.Transcode
import Verif.Sound

/-!
# Property C89: there and back again

Translating a message into its own format, directly or by way of other formats, gives back its bytes.
-/

namespace Zer

open Proto

/-- C89, any route: if every format on the way carries the value, the translations succeed and the last gives the bytes it would have
given for the value itself, up to the signedness of integers. -/
theorem c89_route {v : Val} (hd : v.Distinct) {f : Nat} (hf : v.depth ≤ f) : ∀ (Qs : List Proto) (P : Proto) {w : Val} {b : Bytes},
    w.Same v → (∀ Q ∈ P :: Qs, Q.Carries v) → P.serialize w = .ok b →
    ∃ w' c, w'.Same v ∧ route f P Qs b = .ok c ∧ ((P :: Qs).getLast (by simp)).serialize w' = .ok c
  | [], P, w, b, hw, _, hb => ⟨w, b, hw, rfl, hb⟩
  | Q :: Qs, P, w, b, hw, hc, hb => by
    obtain ⟨b', r, h1, h2, h3⟩ := hc P (by simp) w hw
    rw [hb] at h1; injection h1 with h1; subst h1
    obtain ⟨w', k1, _, k3⟩ := recode_run Q h2 h3 (Flex.distinct_same hw hd) (f := f) (by rw [Val.depth_same hw]; exact hf)
    have hw' : w'.Same v := Eq.trans k1 hw
    obtain ⟨c, _, j1, _⟩ := hc Q (by simp) w' hw'
    obtain ⟨x, d, e1, e2, e3⟩ := c89_route hd hf Qs Q hw' (fun R hR => hc R (by simp [hR])) j1
    refine ⟨x, d, e1, ?_, ?_⟩
    · simp only [route, k3, j1, Res.ok_bind, e2]
    · simpa using e3

/-- C89: starting from a format whose bytes do not show signedness, every route through formats that carry the value leads back to
the same bytes. -/
theorem c89_return {P : Proto} (hP : P.Blind) {v : Val} (hd : v.Distinct) {f : Nat} (hf : v.depth ≤ f) {Qs : List Proto}
    (hc : P.Carries v) (hcs : ∀ Q ∈ Qs, Q.Carries v) {b : Bytes} (hb : P.serialize v = .ok b) : route f P (Qs ++ [P]) b = .ok b := by
  obtain ⟨w, c, h1, h2, h3⟩ := c89_route hd hf (Qs ++ [P]) P rfl (by
    intro Q hQ
    simp only [List.mem_cons, List.mem_append, List.not_mem_nil, or_false] at hQ
    rcases hQ with rfl | hQ | rfl
    · exact hc
    · exact hcs Q hQ
    · exact hc) hb
  have e : (P :: (Qs ++ [P])).getLast (by simp) = P := by
    rw [List.getLast_cons (by simp)]; exact List.getLast_append_of_ne_nil _ (by simp)
  rw [e, hP h1, hb] at h3
  injection h3 with h3
  rw [h2, h3]

/-- C89, formats that keep the signedness: the bytes at the end are those of the value itself. -/
theorem c89_route_strict {v : Val} (hd : v.Distinct) {f : Nat} (hf : v.depth ≤ f) : ∀ (Qs : List Proto) (P : Proto) {b : Bytes},
    (∀ Q ∈ P :: Qs, Q.Keeps v) → P.serialize v = .ok b → route f P Qs b = ((P :: Qs).getLast (by simp)).serialize v
  | [], P, b, _, hb => hb.symm
  | Q :: Qs, P, b, hk, hb => by
    obtain ⟨b', r, h1, h2, h3⟩ := hk P (by simp)
    rw [hb] at h1; injection h1 with h1; subst h1
    obtain ⟨w', _, k2, k3⟩ := recode_run Q h2 h3 hd hf
    have := k2 trivial; subst this
    obtain ⟨c, _, j1, _⟩ := hk Q (by simp)
    simp only [route, k3, j1, Res.ok_bind]
    rw [c89_route_strict hd hf Qs Q (fun R hR => hk R (by simp [hR])) j1]
    simp

/-! ## The formats -/

/-- ZERA carries every value it writes, -/
theorem Zera.carries {v : Val} {b : Bytes} (hb : Zera.proto.serialize v = .ok b) : Zera.proto.Carries v := by
  intro w hw
  obtain ⟨c, hc⟩ := (Zera.serialize_ok_same hw).2 ⟨b, hb⟩
  obtain ⟨r, h1, h2⟩ := Zera.proto_roundTrips w c trivial hc
  exact ⟨c, r, hc, h1, Reader.AgreesW.agrees h2⟩

/-- and keeps it. -/
theorem Zera.keeps {v : Val} {b : Bytes} (hb : Zera.proto.serialize v = .ok b) : Zera.proto.Keeps v := by
  obtain ⟨r, h1, h2⟩ := Zera.proto_roundTrips v b trivial hb
  exact ⟨b, r, hb, h1, h2⟩

theorem MsgPack.carries {v : Val} (hs : v.Sized) (hl : v.Below (2 ^ 32 - 5)) : MsgPack.proto.Carries v := by
  intro w hw
  have h := MsgPack.sized_same hw ⟨hs, hl⟩
  obtain ⟨b, h1, h2, h3⟩ := MsgPack.c17_msgpack_round_trip_partial h.1 h.2
  exact ⟨b, b, h1, h2, h3⟩

theorem Cbor.carries {utf8 : Bytes → Bool} {maxDepth fuel : Nat} {v : Val} (hs : v.Small) {c : Bytes}
    (hc : (Cbor.proto utf8 maxDepth false fuel).serialize v = .ok c) (hl : c.length < 2 ^ 64) (hf : c.length ≤ fuel) :
    (Cbor.proto utf8 maxDepth false fuel).Carries v := by
  intro w hw
  have e := Cbor.blind (utf8 := utf8) (maxDepth := maxDepth) (fuel := fuel) false hw
  rw [hc] at e
  have h : Cbor.Dom utf8 maxDepth fuel w := Cbor.dom_same hw ⟨hs, fun b hb => by
    rw [hc] at hb; injection hb with hb; subst hb; exact ⟨hl, hf⟩⟩
  exact ⟨c, ⟨c, 0⟩, e, rfl, Cbor.c23_cbor_round_trip_partial h.1 e hl hf⟩

theorem Json.carries {T : Json.Text} (L : T.Law) (dbg : Bool) {v : Val} (ht : Json.Textual T v) (hp : Json.Plain v) (hk : Json.KeysOk v) :
    (Json.proto T dbg).Carries v := fun _ hw =>
  Json.c32_json_round_trip_partial L dbg (Json.textual_same hw ht) (Json.plain_same hw hp) (Json.keysOk_same hw hk)

theorem Flex.carries {L : Flex.Lib} (H : L.Law) (dbg : Bool) {v : Val} (hd : v.Distinct) (hn : v.NulFree) (hs : v.Sorted) (hf : Flex.Fits v) :
    (Flex.proto L dbg).Carries v := by
  intro w hw
  obtain ⟨b, r, h1, h2, h3⟩ := Flex.c35_flex_round_trip H dbg (Flex.distinct_same hw hd) (Flex.nulFree_same hw hn) (Flex.fits_same hw hf)
  rw [Val.sortKeys_of_sorted (Tensor.sorted_same hw hs)] at h3
  exact ⟨b, r, h1, h2, Reader.AgreesW.agrees h3⟩

theorem Flex.keeps {L : Flex.Lib} (H : L.Law) (dbg : Bool) {v : Val} (hd : v.Distinct) (hn : v.NulFree) (hs : v.Sorted) (hf : Flex.Fits v) :
    (Flex.proto L dbg).Keeps v := by
  obtain ⟨b, r, h1, h2, h3⟩ := Flex.c35_flex_round_trip H dbg hd hn hf
  rw [Val.sortKeys_of_sorted hs] at h3
  exact ⟨b, r, h1, h2, h3⟩

/-! ## Into its own format -/

theorem route_one (f : Nat) (P Q : Proto) (b : Bytes) : route f P [Q] b = P.recode Q f b := by
  show (P.recode Q f b >>= fun c => Res.ok c) = _
  cases P.recode Q f b <;> rfl

/-- C89 for ZERA: a message translated into ZERA again is the same bytes. -/
theorem c89_zera {v : Val} (hd : v.Distinct) {b : Bytes} (hb : Zera.proto.serialize v = .ok b) {f : Nat} (hf : v.depth ≤ f) :
    Zera.proto.recode Zera.proto f b = .ok b := by
  have := c89_route_strict hd hf [Zera.proto] Zera.proto (fun Q hQ => by
    simp only [List.mem_cons, List.not_mem_nil, or_false, or_self] at hQ
    subst hQ; exact Zera.keeps hb) hb
  rw [route_one] at this
  rw [this]; exact hb

/-- C89 for MessagePack: directly, and by way of any formats that carry the value. -/
theorem c89_msgpack {v : Val} (hd : v.Distinct) (hs : v.Sized) (hl : v.Below (2 ^ 32 - 5)) {f : Nat} (hf : v.depth ≤ f)
    {Qs : List Proto} (hcs : ∀ Q ∈ Qs, Q.Carries v) {b : Bytes} (hb : MsgPack.proto.serialize v = .ok b) :
    MsgPack.proto.recode MsgPack.proto f b = .ok b ∧ route f MsgPack.proto (Qs ++ [MsgPack.proto]) b = .ok b :=
  ⟨route_one f _ _ b ▸ c89_return MsgPack.blind hd hf (Qs := []) (MsgPack.carries hs hl) (by simp) hb,
    c89_return MsgPack.blind hd hf (MsgPack.carries hs hl) hcs hb⟩

/-- C89 for CBOR. -/
theorem c89_cbor {utf8 : Bytes → Bool} {maxDepth fuel : Nat} {v : Val} (hd : v.Distinct) (hs : v.Small) {f : Nat} (hf : v.depth ≤ f)
    {Qs : List Proto} (hcs : ∀ Q ∈ Qs, Q.Carries v) {b : Bytes} (hb : (Cbor.proto utf8 maxDepth false fuel).serialize v = .ok b)
    (hl : b.length < 2 ^ 64) (hg : b.length ≤ fuel) :
    (Cbor.proto utf8 maxDepth false fuel).recode (Cbor.proto utf8 maxDepth false fuel) f b = .ok b ∧
      route f (Cbor.proto utf8 maxDepth false fuel) (Qs ++ [Cbor.proto utf8 maxDepth false fuel]) b = .ok b :=
  ⟨route_one f _ _ b ▸ c89_return (Cbor.blind false) hd hf (Qs := []) (Cbor.carries hs hb hl hg) (by simp) hb,
    c89_return (Cbor.blind false) hd hf (Cbor.carries hs hb hl hg) hcs hb⟩

/-- C89 for JSON. -/
theorem c89_json {fmt : UInt64 → Bytes} (hfmt : Json.FmtOk fmt) (dbg : Bool) {v : Val} (hd : v.Distinct) (hp : Json.Plain v)
    (hk : Json.KeysOk v) {f : Nat} (hf : v.depth ≤ f) {Qs : List Proto} (hcs : ∀ Q ∈ Qs, Q.Carries v) {b : Bytes}
    (hb : (Json.proto (Json.std fmt) dbg).serialize v = .ok b) :
    (Json.proto (Json.std fmt) dbg).recode (Json.proto (Json.std fmt) dbg) f b = .ok b ∧
      route f (Json.proto (Json.std fmt) dbg) (Qs ++ [Json.proto (Json.std fmt) dbg]) b = .ok b := by
  have ht : Json.Textual (Json.std fmt) v := Classical.byContradiction fun h => by
    have := Json.c32_json_refuses (Json.std_law hfmt) dbg h hk
    rw [hb] at this; cases this
  have hc := Json.carries (Json.std_law hfmt) dbg ht hp hk
  exact ⟨route_one f _ _ b ▸ c89_return (Json.blind fmt dbg) hd hf (Qs := []) hc (by simp) hb,
    c89_return (Json.blind fmt dbg) hd hf hc hcs hb⟩

theorem Val.depth_sortKeys : ∀ v : Val, v.sortKeys.depth ≤ v.depth := by
  intro v
  induction v using Val.ind with
  | arr xs ih =>
    simp only [Val.sortKeys, Val.depth, Val.sortKeysList_eq]
    refine Nat.add_le_add_right (depthList_le fun x hx => ?_) 1
    obtain ⟨y, hy, rfl⟩ := List.mem_map.1 hx
    exact Nat.le_trans (ih y hy) (Val.depth_le_list hy)
  | map ms ih =>
    simp only [Val.sortKeys, Val.depth]
    refine Nat.add_le_add_right (depthEntries_le fun k x hx => ?_) 1
    rw [(List.mergeSort_perm (Val.sortKeysEntries ms) keyLe).mem_iff, Val.sortKeysEntries_eq, List.mem_map] at hx
    obtain ⟨⟨k', y⟩, hy, e⟩ := hx
    injection e with _ e; subst e
    exact Nat.le_trans (ih _ hy) (Val.depth_le_entries hy)
  | _ => exact Nat.le_refl _

theorem Val.nulFree_sortKeys : ∀ {v : Val}, v.NulFree → v.sortKeys.NulFree := by
  intro v
  induction v using Val.ind with
  | arr xs ih =>
    intro h
    refine ⟨trivial, (Val.eachList_iff _).2 fun x hx => ?_⟩
    rw [Val.sortKeysList_eq] at hx
    obtain ⟨y, hy, rfl⟩ := List.mem_map.1 hx
    exact ih y hy (h.arr y hy)
  | map ms ih =>
    intro h
    refine ⟨trivial, (Val.eachEntries_iff _).2 fun m hm => ?_⟩
    rw [(List.mergeSort_perm (Val.sortKeysEntries ms) keyLe).mem_iff, Val.sortKeysEntries_eq, List.mem_map] at hm
    obtain ⟨m', hy, rfl⟩ := hm
    have := h.map m' hy
    exact ⟨this.1, ih m' hy this.2⟩
  | _ => intro h; exact h

/-- C89 for Flex: a message comes back with its keys in order; translated a second time it does not change. A message whose keys were
in order does not change at all, even by way of ZERA. Missing: messages whose keys were not in order (`c89_flex_refuted`), routes by
way of formats that lose the signedness (`c89_signs_refuted`). -/
theorem c89_flex_partial {L : Flex.Lib} (H : L.Law) (dbg : Bool) {v : Val} (hd : v.Distinct) (hn : v.NulFree) (hF : Flex.Fits v)
    {f : Nat} (hf : v.depth ≤ f) {b : Bytes} (hb : (Flex.proto L dbg).serialize v = .ok b) :
    (∃ c, (Flex.proto L dbg).recode (Flex.proto L dbg) f b = .ok c ∧ (Flex.proto L dbg).serialize v.sortKeys = .ok c ∧
      (Flex.proto L dbg).recode (Flex.proto L dbg) f c = .ok c) ∧
    (v.Sorted → (Flex.proto L dbg).recode (Flex.proto L dbg) f b = .ok b ∧
      ∀ z, Zera.proto.serialize v = .ok z → (Flex.proto L dbg).recode Zera.proto f b = .ok z ∧ Zera.proto.recode (Flex.proto L dbg) f z = .ok b) := by
  have own : ∀ {w : Val} {c : Bytes}, w.Distinct → w.NulFree → w.Sorted → Flex.Fits w → w.depth ≤ f → (Flex.proto L dbg).serialize w = .ok c →
      (Flex.proto L dbg).recode (Flex.proto L dbg) f c = .ok c := by
    intro w c h1 h2 h3 h4 h5 h6
    have := c89_route_strict h1 h5 [Flex.proto L dbg] (Flex.proto L dbg) (fun Q hQ => by
      simp only [List.mem_cons, List.not_mem_nil, or_false, or_self] at hQ
      subst hQ; exact Flex.keeps H dbg h1 h2 h3 h4) h6
    rw [route_one] at this
    rw [this]; exact h6
  have hdep := Nat.le_trans (Val.depth_sortKeys v) hf
  obtain ⟨b', r, h1, h2, h3⟩ := Flex.c35_flex_round_trip H dbg hd hn hF
  rw [hb] at h1; injection h1 with h1; subst h1
  refine ⟨?_, fun hs => ⟨own hd hn hs hF hf hb, fun z hz => ⟨?_, ?_⟩⟩⟩
  · obtain ⟨c, _, k1, _⟩ := Flex.c35_flex_round_trip H dbg hd.sortKeys (Val.nulFree_sortKeys hn) (Flex.fits_sortKeys hF)
    obtain ⟨w, _, j2, j3⟩ := recode_run (P := Flex.proto L dbg) (Flex.proto L dbg) h2 h3 hd.sortKeys hdep
    rw [j2 trivial, k1] at j3
    exact ⟨c, j3, k1, own hd.sortKeys (Val.nulFree_sortKeys hn) (Val.sorted_sortKeys v) (Flex.fits_sortKeys hF) hdep k1⟩
  · have := c89_route_strict hd hf [Zera.proto] (Flex.proto L dbg) (fun Q hQ => by
      simp only [List.mem_cons, List.not_mem_nil, or_false] at hQ
      rcases hQ with rfl | rfl
      · exact Flex.keeps H dbg hd hn hs hF
      · exact Zera.keeps hz) hb
    rw [route_one] at this
    rw [this]; exact hz
  · have := c89_route_strict hd hf [Flex.proto L dbg] Zera.proto (fun Q hQ => by
      simp only [List.mem_cons, List.not_mem_nil, or_false] at hQ
      rcases hQ with rfl | rfl
      · exact Zera.keeps hz
      · exact Flex.keeps H dbg hd hn hs hF) hz
    rw [route_one] at this
    rw [this]; exact hb

/-- C89 is false for Flex: keys that were not in order are put in order. -/
theorem c89_flex_refuted : ∃ b c, (Flex.proto Flex.std false).serialize (.map [([0x62], .uint 2), ([0x61], .uint 1)]) = .ok b ∧
    (Flex.proto Flex.std false).recode (Flex.proto Flex.std false) 2 b = .ok c ∧ c ≠ b :=
  ⟨_, _, rfl, rfl, by decide +kernel⟩

/-- C89 is false by way of formats that do not show the signedness: the number 200, written as signed into ZERA, comes back from
MessagePack as unsigned, and the bytes differ. The number 5, written as unsigned, comes back from CBOR as signed. -/
theorem c89_signs_refuted :
    (∃ b c, Zera.proto.serialize (.int 200) = .ok b ∧ route 1 Zera.proto [MsgPack.proto, Zera.proto] b = .ok c ∧ c ≠ b) ∧
    (∃ b c, Zera.proto.serialize (.uint 5) = .ok b ∧
      route 1 Zera.proto [Cbor.proto (fun _ => true) 9 false 9, Zera.proto] b = .ok c ∧ c ≠ b) :=
  ⟨⟨_, _, rfl, rfl, by decide +kernel⟩, ⟨_, _, rfl, rfl, by decide +kernel⟩⟩

/-- C89 is false for repeated keys: the second value under a key becomes the first. -/
theorem c89_repeated_refuted : ∃ b c, MsgPack.proto.serialize (.map [([0x61], .uint 1), ([0x61], .uint 2)]) = .ok b ∧
    MsgPack.proto.recode MsgPack.proto 2 b = .ok c ∧ c ≠ b :=
  ⟨_, _, rfl, rfl, by decide +kernel⟩

/-! ## A value that all five formats carry -/

/-- `{"a": [-5, true, "xy"], "b": 200}` -/
def travelVal : Val := .map [([0x61], .arr [.int (-5), .bool true, .str [0x78, 0x79]]), ([0x62], .uint 200)]

theorem travelVal_distinct : travelVal.Distinct := by simp [travelVal, Val.Distinct, Val.distinctEntries, Val.distinctList]

theorem travelVal_carried : ∀ Q ∈ [Zera.proto, MsgPack.proto, Cbor.proto (fun _ => true) 9 false 99,
    Json.proto (Json.std fun d => (Json.exactDec d).text) true, Flex.proto Flex.std true], Q.Carries travelVal := by
  intro Q hQ
  simp only [List.mem_cons, List.not_mem_nil, or_false] at hQ
  rcases hQ with rfl | rfl | rfl | rfl | rfl
  · exact Zera.carries (b := _) rfl
  · exact MsgPack.carries (by simp [travelVal, Val.Sized, Val.sizedEntries, Val.sizedList])
      (by simp [travelVal, Val.Below, Val.Below.belowEntries, Val.Below.belowList])
  · exact Cbor.carries (c := _) (by simp [travelVal, Val.Small, Val.Each, Val.eachEntries, Val.eachList]) rfl (by decide +kernel) (by decide +kernel)
  · exact Json.carries (Json.std_law Json.exact_fmtOk) true
      (by simp [travelVal, Json.Textual, Val.Each, Val.eachEntries, Val.eachList, Json.std]; decide +kernel)
      (by simp [travelVal, Json.Plain, Val.Each, Val.eachEntries, Val.eachList, Json.Mimic])
      (by simp [travelVal, Json.KeysOk, Val.Each, Val.eachEntries, Val.eachList, Json.KeyOk])
  · exact Flex.carries Flex.std_law true travelVal_distinct (by simp [travelVal, Val.NulFree, Val.Each, Val.eachEntries, Val.eachList])
      (by simp [travelVal, Val.Sorted, Val.Each, Val.eachEntries, Val.eachList]; decide) (by unfold Flex.Fits; decide)

/-- Once around: MessagePack, ZERA, CBOR, JSON, Flex, MessagePack. -/
example : ∃ b, MsgPack.proto.serialize travelVal = .ok b ∧
    route 3 MsgPack.proto [Zera.proto, Cbor.proto (fun _ => true) 9 false 99,
      Json.proto (Json.std fun d => (Json.exactDec d).text) true, Flex.proto Flex.std true, MsgPack.proto] b = .ok b :=
  ⟨_, rfl, (c89_msgpack (Qs := [Zera.proto, Cbor.proto (fun _ => true) 9 false 99,
      Json.proto (Json.std fun d => (Json.exactDec d).text) true, Flex.proto Flex.std true]) travelVal_distinct
    (by simp [travelVal, Val.Sized, Val.sizedEntries, Val.sizedList])
    (by simp [travelVal, Val.Below, Val.Below.belowEntries, Val.Below.belowList]) (by decide)
    (fun Q hQ => travelVal_carried Q (by simp only [List.mem_cons, List.not_mem_nil, or_false] at hQ ⊢; rcases hQ with h | h | h | h <;> simp [h])) rfl).2⟩

/-! ## Other spellings -/

/-- C89 for MessagePack, any spelling: whatever encoding of a value the format permits, and whatever follows it, the translation into
MessagePack is what MessagePack writes for the value; from then on nothing changes. -/
theorem c89_msgpack_normal {v : Val} (hd : v.Distinct) (hs : v.Sized) (hl : v.Below (2 ^ 32 - 5)) {b : Bytes} (h : MsgPack.Enc v b)
    (rest : Bytes) {f : Nat} (hf : v.depth ≤ f) :
    ∃ c, MsgPack.proto.recode MsgPack.proto f (b ++ rest) = .ok c ∧ MsgPack.proto.serialize v = .ok c ∧
      MsgPack.proto.recode MsgPack.proto f c = .ok c := by
  obtain ⟨w, k1, _, k3⟩ := recode_run (P := MsgPack.proto) MsgPack.proto (b := b ++ rest) rfl
    (MsgPack.c16_msgpack_reader_partial hl h rest) hd hf
  obtain ⟨c, hc, _⟩ := MsgPack.c17_msgpack_round_trip_partial hs hl
  rw [MsgPack.blind k1, hc] at k3
  exact ⟨c, k3, hc, (c89_msgpack hd hs hl hf (Qs := []) (by simp) hc).1⟩

/-- C89 for CBOR, any spelling with definite lengths. -/
theorem c89_cbor_normal {utf8 : Bytes → Bool} {maxDepth fuel : Nat} {v : Val} (hd : v.Distinct) (hs : v.Small) {b rest c : Bytes}
    (h : Cbor.Enc false v b) (hl : (b ++ rest).length < 2 ^ 64) (hg : (b ++ rest).length ≤ fuel) {f : Nat} (hf : v.depth ≤ f)
    (hc : (Cbor.proto utf8 maxDepth false fuel).serialize v = .ok c) (hl' : c.length < 2 ^ 64) (hg' : c.length ≤ fuel) :
    (Cbor.proto utf8 maxDepth false fuel).recode (Cbor.proto utf8 maxDepth false fuel) f (b ++ rest) = .ok c ∧
      (Cbor.proto utf8 maxDepth false fuel).recode (Cbor.proto utf8 maxDepth false fuel) f c = .ok c := by
  obtain ⟨w, k1, _, k3⟩ := recode_run (P := Cbor.proto utf8 maxDepth false fuel) (Cbor.proto utf8 maxDepth false fuel) (b := b ++ rest) rfl
    (Cbor.c21_cbor_reader_partial h hs hl hg) hd hf
  rw [Cbor.blind false k1, hc] at k3
  exact ⟨k3, (c89_cbor hd hs hf (Qs := []) (by simp) hc hl' hg').1⟩

/-- C89 for JSON, any spelling: white space, escapes, forms of numbers. -/
theorem c89_json_normal {fmt : UInt64 → Bytes} (hfmt : Json.FmtOk fmt) (dbg : Bool) {v : Val} {b : Bytes} (h : Json.IsText b v)
    (hd : v.Distinct) (hp : Json.Plain v) (hk : Json.KeysOk v) {f : Nat} (hf : v.depth ≤ f) :
    ∃ c, (Json.proto (Json.std fmt) dbg).recode (Json.proto (Json.std fmt) dbg) f b = .ok c ∧
      (Json.proto (Json.std fmt) dbg).serialize v = .ok c ∧
      (Json.proto (Json.std fmt) dbg).recode (Json.proto (Json.std fmt) dbg) f c = .ok c := by
  obtain ⟨d, h1, h2⟩ := Json.c86_json_reader_partial fmt h hp
  obtain ⟨w, k1, _, k3⟩ := recode_run (P := Json.proto (Json.std fmt) dbg) (Json.proto (Json.std fmt) dbg) h1 h2 hd hf
  have ht : Json.Textual (Json.std fmt) v := Val.Each.mono (fun v h => by
    cases v <;> first | exact h | trivial) (fun _ h => h) (Json.isText_printable (fmt := fmt) h)
  obtain ⟨c, _, hc, _⟩ := Json.c32_json_round_trip_partial (Json.std_law hfmt) dbg ht hp hk
  rw [Json.blind fmt dbg k1, hc] at k3
  exact ⟨c, k3, hc, (c89_json hfmt dbg hd hp hk hf (Qs := []) (by simp) hc).1⟩

end Zer
