import Verif.Props.Again
import Verif.Props.Route

/-!
# Property C117: the translation of a part is the part of the translation

A member of a message can be translated alone, or found in the translation of the whole message: it is the same.
-/

namespace Zer

theorem Val.depth_at : ∀ (p : List Hop) {v w : Val}, v.at p = some w → w.depth ≤ v.depth := by
  intro p
  induction p with
  | nil => intro v w h; cases h; exact Nat.le_refl _
  | cons s p ih =>
    intro v w h
    cases s with
    | idx i =>
      cases v with
      | arr xs =>
        simp only [Val.at] at h
        split at h
        · have := ih h
          have := Val.depth_le_list (List.getElem_mem (l := xs) (by assumption))
          simp only [Val.depth]; omega
        · cases h
      | _ => cases h
    | key k =>
      cases v with
      | map ms =>
        simp only [Val.at] at h
        cases hf : firstVal ms k with
        | none => rw [hf] at h; cases h
        | some x =>
          rw [hf] at h
          have := ih h
          have := Val.depth_le_entries (firstVal_mem hf)
          simp only [Val.depth]; omega
      | _ => cases h

/-- A value can be gone into wherever its canonical form can. -/
theorem Val.at_of_canon : ∀ (p : List Hop) {v c : Val}, v.canon.at p = some c → ∃ x, v.at p = some x := by
  intro p
  induction p with
  | nil => intro v c _; exact ⟨v, rfl⟩
  | cons s p ih =>
    intro v c h
    cases s with
    | idx i =>
      cases v with
      | arr xs =>
        simp only [Val.canon, Val.canonList_eq, Val.at] at h ⊢
        by_cases hi : i < xs.length
        · rw [dif_pos (by simpa using hi), List.getElem_map] at h
          rw [dif_pos hi]
          exact ih h
        · rw [dif_neg (by simpa using hi)] at h; cases h
      | int j => simp only [Val.canon] at h; split at h <;> cases h
      | _ => cases h
    | key k =>
      cases v with
      | map ms =>
        simp only [Val.canon, Val.at, firstVal_canonEntries] at h ⊢
        cases hf : firstVal ms k with
        | none => rw [hf] at h; cases h
        | some x => rw [hf] at h; exact ih h
      | int j => simp only [Val.canon] at h; split at h <;> cases h
      | _ => cases h

theorem Val.Same.at_some {p : List Hop} {v w y : Val} (h : v.Same w) (hy : w.at p = some y) : ∃ x, v.at p = some x :=
  Val.at_of_canon p (by rw [show v.canon = w.canon from h]; exact Val.at_canon p hy)

/-- Every position that presents a value presents, in the order of questions of `write_value`, one value with its signs. -/
theorem Reader.Agrees.settles {ρ : Type} {R : Reader ρ} : ∀ {r : ρ} {v : Val}, R.Agrees r v →
    ∃ x, x.Same v.firstWins ∧ R.settled.AgreesStrictly r x := by
  have shows : ∀ {r : ρ} {a b n f s bl m ar : Bool}, R.Shows r a b n f s bl m ar → R.settled.Shows r a b n f s bl m (ar && !bl) := by
    intro r a b n f s bl m ar ⟨h1, h2, ⟨i, u, h3, h4, h5⟩, h6, h7, h8, h9, h10⟩
    refine ⟨h1, h2, ⟨i, u && !i, h3, ?_, by revert h5; cases i <;> cases u <;> cases n <;> decide⟩, h6, h7, h8, h9, ?_⟩
    · show (R.isInt r >>= fun t => if t = true then pure false else R.isUInt r) = _
      rw [h3]; cases i
      · simpa using h4
      · simp
    · show (R.isBlob r >>= fun t => if t = true then pure false else R.isArray r) = _
      rw [h8]; cases bl
      · simpa using h10
      · simp
  have sint : ∀ {r : ρ} {z : Int} {t : Bool}, R.ShowsInt r z → R.isInt r = .ok t →
      R.settled.ShowsInt r z ∧ R.settled.isInt r = .ok t ∧ R.settled.isUInt r = .ok (!t) := by
    intro r z t ⟨h1, h2, h3⟩ ht
    have hu : R.settled.isUInt r = .ok (!t) := by
      show (R.isInt r >>= fun t => if t = true then pure false else R.isUInt r) = _
      rw [ht]
      cases t
      · obtain ⟨-, -, ⟨i, u, k1, k2, k3⟩, -⟩ := h1
        rw [ht] at k1; cases k1
        simp only [Bool.false_or] at k3; subst k3
        simpa using k2
      · simp
    refine ⟨⟨shows h1, h2, fun h => ?_⟩, ht, hu⟩
    rw [hu] at h
    cases t
    · obtain ⟨-, -, ⟨i, u, k1, k2, k3⟩, -⟩ := h1
      rw [ht] at k1; cases k1
      simp only [Bool.false_or] at k3; subst k3
      exact h3 k2
    · cases h
  intro r v h
  induction h with
  | null h => exact ⟨.null, rfl, .null (shows h)⟩
  | bool h h' => exact ⟨_, rfl, .bool (shows h) h'⟩
  | @int r i h _ =>
    obtain ⟨t, ht⟩ : ∃ t, R.isInt r = .ok t := by obtain ⟨⟨_, _, ⟨t, _, k, _⟩, _⟩, _⟩ := h; exact ⟨t, k⟩
    obtain ⟨s1, s2, s3⟩ := sint h ht
    cases t
    · obtain ⟨y, -, hy⟩ := s1.2.2 s3
      exact ⟨.uint y, Val.canon_int_of hy, .uint (by rw [hy]; exact s1) fun _ => ⟨s2, s3⟩⟩
    · exact ⟨.int i, rfl, .int s1 fun _ => ⟨s2, s3⟩⟩
  | @uint r n h _ =>
    obtain ⟨t, ht⟩ : ∃ t, R.isInt r = .ok t := by obtain ⟨⟨_, _, ⟨t, _, k, _⟩, _⟩, _⟩ := h; exact ⟨t, k⟩
    obtain ⟨s1, s2, s3⟩ := sint h ht
    cases t
    · exact ⟨.uint n, rfl, .uint s1 fun _ => ⟨s2, s3⟩⟩
    · obtain ⟨y, -, hy⟩ := s1.2.1 s2
      exact ⟨.int y, Val.canon_int_eq hy, .int (by rw [hy]; exact s1) fun _ => ⟨s2, s3⟩⟩
  | dbl h h' => exact ⟨_, rfl, .dbl (shows h) h'⟩
  | str h h' h'' => exact ⟨_, rfl, .str (shows h) h' h''⟩
  | blob h h' h'' => exact ⟨_, rfl, .blob (shows h) h' fun _ => by simp⟩
  | @arr r xs c h1 h2 h3 h4 _ ih =>
    have hex : ∀ i : Nat, ∃ w : Val, ∀ hi : i < xs.length, w.Same xs[i].firstWins ∧ R.settled.AgreesStrictly (c i) w := by
      intro i
      by_cases hi : i < xs.length
      · obtain ⟨w, hw⟩ := ih i hi
        exact ⟨w, fun _ => hw⟩
      · exact ⟨.null, fun h => absurd h hi⟩
    let g : Nat → Val := fun i => Classical.choose (hex i)
    have hgs := fun i => Classical.choose_spec (hex i)
    have hl : ((List.range' 0 xs.length).map g).length = xs.length := by simp
    refine ⟨.arr ((List.range' 0 xs.length).map g), ?_, .arr c (shows h1) (by rw [hl]; exact h2) (by rw [hl]; exact h3) (by rw [hl]; exact h4)
      fun i hi => ?_⟩
    · simp only [Val.Same, Val.firstWins_arr, Val.canon, Val.canonList_eq]
      congr 1
      apply List.ext_getElem (by simp)
      intro i hi hi'
      simp only [List.length_map] at hi'
      have := (hgs i hi').1
      simpa [g, Val.Same] using this
    · have := (hgs i (by rw [hl] at hi; exact hi)).2
      simpa [g] using this
  | @map r ms c h1 h2 h3 h4 h5 _ ih =>
    have hex : ∀ k : Bytes, ∃ w : Val, ∀ v, firstVal ms k = some v → w.Same v.firstWins ∧ R.settled.AgreesStrictly (c k) w := by
      intro k
      cases hv : firstVal ms k with
      | some v =>
        obtain ⟨w, hw⟩ := ih k v hv
        exact ⟨w, fun v' e => by injection e with e; subst e; exact hw⟩
      | none => exact ⟨.null, fun _ h => by cases h⟩
    let g : Bytes → Val := fun i => Classical.choose (hex i)
    have hgs := fun i => Classical.choose_spec (hex i)
    have e : List.map Prod.fst (List.map (fun k => (k, g k)) (ms.map Prod.fst)) = ms.map Prod.fst := by
      rw [List.map_map]; exact List.map_id _
    refine ⟨.map ((ms.map Prod.fst).map (fun k => (k, g k))), ?_, .map c (shows h1) (by rw [e]; exact h2) (by rw [e]; exact h3)
      (by rw [e]; exact h4) (by rw [e]; exact h5) fun k v hv => ?_⟩
    · rw [Val.firstWins_map]
      simp only [Val.Same, Val.canon, Val.canonEntries_eq, List.map_map]
      congr 1
      apply List.map_congr_left
      intro m hm
      obtain ⟨v, hv⟩ := firstVal_isSome.1 (List.mem_map_of_mem (f := Prod.fst) hm)
      have := (hgs m.1 v hv).1
      simpa [g, Val.Same, hv] using this
    · have hk : k ∈ ms.map Prod.fst := by
        have := firstVal_isSome.2 ⟨v, hv⟩
        rwa [e] at this
      rw [firstVal_mapKeys hk] at hv
      obtain rfl := Option.some.inj hv
      obtain ⟨v, hv⟩ := firstVal_isSome.1 hk
      exact (hgs k v hv).2

theorem Proto.rewrite_settled (P : Proto) {ρ : Type} (R : Reader ρ) (f : Nat) (r : ρ) : P.rewrite R.settled f r = P.rewrite R f r := by
  rw [Proto.rewrite, writeValue_settled]; rfl

/-- **C117** A message of any format is translated, and a part of it is translated alone: the same part of the translation, translated into the same
format, gives the same bytes, or is refused alike. For targets whose bytes do not show the signedness of integers, or sources and targets that both
do. -/
theorem c117_part {P : Proto} {q : Prop} {D : Val → Prop} (hP : P.RoundTrips q D) {ρ : Type} {R : Reader ρ} {p : Prop} (hB : P.Blind ∨ (p ∧ q))
    {r : ρ} {v : Val} (h : R.AgreesW p r v) {f : Nat} (hf : v.depth ≤ f) {b : Bytes} (hb : P.rewrite R f r = .ok b)
    (hD : ∀ x : Val, x.Same v.firstWins → P.serialize x = .ok b → D x) {path : List Hop} {w : Val} (hw : v.at path = some w) :
    ∃ part whole there, R.goto path r = .ok part ∧ P.opn b = .ok whole ∧ P.reader.goto path whole = .ok there ∧
      P.rewrite P.reader f there = P.rewrite R f part := by
  obtain ⟨part, h1, h2⟩ := Reader.AgreesW.at path h hw
  obtain ⟨x, k1, k2, k3⟩ := P.rewrite_run h hf
  rw [hb] at k3
  obtain ⟨whole, h3, h4⟩ := hP x b (hD x k1 k3.symm) k3.symm
  have hw' := Val.at_firstWins path hw
  have dw : w.firstWins.depth ≤ f := Nat.le_trans (Val.depth_firstWins w) (Nat.le_trans (Val.depth_at path hw) hf)
  rcases hB with hB | ⟨hp, hq⟩
  · obtain ⟨there, h5, h6⟩ := Reader.AgreesW.at path (Reader.Agrees.same _ (h4.weaken False.elim) k1) hw'
    exact ⟨part, whole, there, h1, h3, h5, c99_same hB h6 (h2.weaken False.elim).firstWins dw dw⟩
  · obtain rfl := k2 hp
    obtain ⟨there, h5, h6⟩ := Reader.AgreesW.at path h4 hw'
    exact ⟨part, whole, there, h1, h3, h5, c99_same_strict P (h6.weaken fun _ => hq) (h2.weaken fun _ => hp).firstWins dw dw⟩

/-- **C117**, any bytes in any format, translated into any format whose bytes do not show the signedness of integers or whose reader does. -/
theorem c117_any {P : Proto} {q : Prop} {D : Val → Prop} (hP : P.RoundTrips q D) (hB : P.Blind ∨ q) {ρ : Type} {R : Reader ρ} {I : ρ → Prop}
    (H : R.Fits I) {r : ρ} (hI : I r) {f : Nat} {b : Bytes} (hb : P.rewrite R f r = .ok b) (hD : ∀ x, R.Agrees r x → P.serialize x = .ok b → D x) :
    ∃ v, R.Agrees r v ∧ ∀ path w, v.at path = some w → ∃ part whole there, R.goto path r = .ok part ∧ P.opn b = .ok whole ∧
      P.reader.goto path whole = .ok there ∧ P.rewrite P.reader f there = P.rewrite R f part := by
  obtain ⟨s, hs, -⟩ := Res.bind_eq_ok.1 hb
  obtain ⟨v, hv, dv⟩ := presents_of_writeValue H hI hs
  refine ⟨v, hv, fun path w hw => ?_⟩
  rcases hB with hB | hq
  · exact c117_part hP (.inl hB) hv dv hb (fun z hz e => hD z (Reader.Agrees.same _ hv.firstWins (Eq.symm hz)) e) hw
  · obtain ⟨x, h1, h2⟩ := hv.settles
    obtain ⟨y, hy⟩ := h1.at_some (Val.at_firstWins path hw)
    obtain ⟨part, whole, there, k1, k2, k3, k4⟩ := c117_part (R := R.settled) (p := True) hP (.inr ⟨trivial, hq⟩) h2
      (by rw [Val.depth_same h1]; exact Nat.le_trans (Val.depth_firstWins v) dv) (by rw [Proto.rewrite_settled]; exact hb)
      (fun z hz e => hD z (Reader.Agrees.same _ (Reader.Agrees.same _ hv.firstWins (Eq.symm h1)).firstWins (Eq.symm hz)) e) hy
    refine ⟨part, whole, there, by rw [← Reader.goto_settled]; exact k1, k2, k3, ?_⟩
    rw [k4, Proto.rewrite_settled]

/-! ## The formats -/

/-- C117 into ZERA, from any bytes in any format; there is no condition. -/
theorem Zera.c117_zera {ρ : Type} {R : Reader ρ} {I : ρ → Prop} (H : R.Fits I) {r : ρ} (hI : I r) {f : Nat} {b : Bytes}
    (h : Zera.proto.rewrite R f r = .ok b) : ∃ v, R.Agrees r v ∧ ∀ path w, v.at path = some w → ∃ part whole there,
      R.goto path r = .ok part ∧ Zera.initFrom b = .ok whole ∧ Zera.reader.goto path whole = .ok there ∧
      Zera.proto.rewrite Zera.reader f there = Zera.proto.rewrite R f part :=
  c117_any Zera.proto_roundTrips (.inr trivial) H hI h fun _ _ _ => trivial

/-- C117 into MessagePack, from any bytes in any format, if less than 4 GiB - 5 come out. -/
theorem MsgPack.c117_msgpack {ρ : Type} {R : Reader ρ} {I : ρ → Prop} (H : R.Fits I) {r : ρ} (hI : I r) {f : Nat} {b : Bytes}
    (h : MsgPack.proto.rewrite R f r = .ok b) (hb : b.length < 2 ^ 32 - 5) : ∃ v, R.Agrees r v ∧ ∀ path w, v.at path = some w →
      ∃ part there, R.goto path r = .ok part ∧ MsgPack.reader.goto path b = .ok there ∧
        MsgPack.proto.rewrite MsgPack.reader f there = MsgPack.proto.rewrite R f part := by
  obtain ⟨v, h1, h2⟩ := c117_any MsgPack.proto_roundTrips (.inl MsgPack.blind) H hI h fun x _ e => by
    have := (MsgPack.c97_msgpack e).1
    exact ⟨MsgPack.sized_of_size x (by omega), MsgPack.below_of_size x (by omega)⟩
  refine ⟨v, h1, fun path w hw => ?_⟩
  obtain ⟨part, whole, there, k1, k2, k3, k4⟩ := h2 path w hw
  obtain rfl : b = whole := Res.ok.inj k2
  exact ⟨part, there, k1, k3, k4⟩

/-- C117 into CBOR, from any bytes in any format, if no unsigned number from 2^63 on is presented. -/
theorem Cbor.c117_cbor_partial {utf8 : Bytes → Bool} {maxDepth fuel : Nat} {ρ : Type} {R : Reader ρ} {I : ρ → Prop} (H : R.Fits I) {r : ρ} (hI : I r)
    {f : Nat} {b : Bytes} (h : (Cbor.proto utf8 maxDepth false fuel).rewrite R f r = .ok b) (hb : b.length < 2 ^ 64) (hf : b.length ≤ fuel)
    (hs : ∀ v, R.Agrees r v → v.Small) : ∃ v, R.Agrees r v ∧ ∀ path w, v.at path = some w → ∃ part there,
      R.goto path r = .ok part ∧ (Cbor.reader false fuel).goto path ⟨b, 0⟩ = .ok there ∧
      (Cbor.proto utf8 maxDepth false fuel).rewrite (Cbor.reader false fuel) f there = (Cbor.proto utf8 maxDepth false fuel).rewrite R f part := by
  obtain ⟨v, h1, h2⟩ := c117_any Cbor.proto_roundTrips (.inl (Cbor.blind false)) H hI h fun x hx e =>
    ⟨hs x hx, fun b' e' => by rw [e] at e'; obtain rfl := Res.ok.inj e'; exact ⟨hb, hf⟩⟩
  refine ⟨v, h1, fun path w hw => ?_⟩
  obtain ⟨part, whole, there, k1, k2, k3, k4⟩ := h2 path w hw
  obtain rfl := Res.ok.inj k2
  exact ⟨part, there, k1, k3, k4⟩

/-- C117 into JSON, from any bytes in any format that present nothing JSON cannot carry (C32). -/
theorem Json.c117_json_partial {fmt : UInt64 → Bytes} (hfmt : Json.FmtOk fmt) (dbg : Bool) {ρ : Type} {R : Reader ρ} {I : ρ → Prop} (H : R.Fits I)
    {r : ρ} (hI : I r) {f : Nat} {b : Bytes} (h : (Json.proto (Json.std fmt) dbg).rewrite R f r = .ok b)
    (hs : ∀ v, R.Agrees r v → Json.Plain v ∧ Json.KeysOk v) : ∃ v, R.Agrees r v ∧ ∀ path w, v.at path = some w → ∃ part whole there,
      R.goto path r = .ok part ∧ Json.opn (Json.std fmt) b = .ok whole ∧ Json.reader.goto path whole = .ok there ∧
      (Json.proto (Json.std fmt) dbg).rewrite Json.reader f there = (Json.proto (Json.std fmt) dbg).rewrite R f part :=
  c117_any (Json.proto_roundTrips (Json.std_law hfmt) dbg) (.inl (Json.blind fmt dbg)) H hI h fun x hx _ => hs x hx

/-- C117 into Flex, from any bytes in any format that present documents with distinct keys in order and without NUL. Missing: keys that are not in order
(`c117_flex_refuted`). -/
theorem Flex.c117_flex_partial {L : Flex.Lib} (HL : L.Law) (dbg : Bool) {ρ : Type} {R : Reader ρ} {I : ρ → Prop} (H : R.Fits I) {r : ρ} (hI : I r)
    {f : Nat} {b : Bytes} (h : (Flex.proto L dbg).rewrite R f r = .ok b)
    (hs : ∀ v, R.Agrees r v → v.Distinct ∧ v.NulFree ∧ v.Sorted ∧ Flex.Fits v) : ∃ v, R.Agrees r v ∧ ∀ path w, v.at path = some w →
      ∃ part whole there, R.goto path r = .ok part ∧ Flex.opn b = .ok whole ∧ Flex.reader.goto path whole = .ok there ∧
      (Flex.proto L dbg).rewrite Flex.reader f there = (Flex.proto L dbg).rewrite R f part :=
  c117_any (Flex.proto_roundTrips HL dbg) (.inr trivial) H hI h fun x hx _ => hs x hx

/-- `[{"a": 5, "a": 7}, true]` in MessagePack, with a number longer than it need be, into ZERA: the member, found in the translation, and translated
alone. -/
example : (do
      let b ← Zera.proto.rewrite MsgPack.reader 4 [0x92, 0x82, 0xa1, 0x61, 0xcd, 0, 5, 0xa1, 0x61, 0x07, 0xc3]
      let whole ← Zera.initFrom b
      let there ← Zera.reader.goto [.idx 0] whole
      Zera.proto.rewrite Zera.reader 4 there) =
    Zera.proto.rewrite MsgPack.reader 4 [0x82, 0xa1, 0x61, 0xcd, 0, 5, 0xa1, 0x61, 0x07] := by decide +kernel

/-- C117 is false into Flex: the member `{"b": 2, "a": 1}` of an array, translated alone, has its values in the order of the source; found in the
translation, in the order of its keys. -/
theorem Flex.c117_flex_refuted : ∃ b whole there c d, (Flex.proto Flex.std false).rewrite MsgPack.reader 3 [0x91, 0x82, 0xa1, 0x62, 0x02, 0xa1, 0x61, 0x01] = .ok b ∧
    Flex.opn b = .ok whole ∧ Flex.reader.goto [.idx 0] whole = .ok there ∧
    (Flex.proto Flex.std false).rewrite Flex.reader 3 there = .ok c ∧
    (Flex.proto Flex.std false).rewrite MsgPack.reader 3 [0x82, 0xa1, 0x62, 0x02, 0xa1, 0x61, 0x01] = .ok d ∧ c ≠ d :=
  ⟨_, _, _, _, _, rfl, rfl, rfl, rfl, rfl, by decide +kernel⟩

end Zer
