import Verif.Props.Sound
import Verif.Props.Transcode
import Verif.Depth.Translate

/-!
# Property C99: messages compared by their translations

Two messages, in whatever formats, are translated into the same bytes exactly if they present the same document.
-/

namespace Zer

/-- The bytes of `translate<P>(r)`, translate.hpp:83-88, before they are opened. -/
def Proto.rewrite (P : Proto) {ρ : Type} (R : Reader ρ) (f : Nat) (r : ρ) : Res Bytes :=
  writeValue R P.writer f r P.init >>= P.finish

theorem Proto.translate_rewrite (P : Proto) {ρ : Type} (R : Reader ρ) (f : Nat) (r : ρ) :
    P.translate R f r = (P.rewrite R f r >>= P.opn) := by
  simp only [Proto.rewrite, Proto.translate, bind_assoc]

/-- A position that presents a value presents it with the first value under every repeated key. -/
theorem Reader.AgreesW.firstWins {ρ : Type} {R : Reader ρ} {p : Prop} {r : ρ} {v : Val} (h : R.AgreesW p r v) :
    R.AgreesW p r v.firstWins := by
  induction h with
  | null h => exact .null h
  | bool h h' => exact .bool h h'
  | int h h' => exact .int h h'
  | uint h h' => exact .uint h h'
  | dbl h h' => exact .dbl h h'
  | str h h' h'' => exact .str h h' h''
  | blob h h' h'' => exact .blob h h' h''
  | @arr r xs c h1 h2 h3 h4 _ ih =>
    rw [Val.firstWins_arr]
    refine .arr c h1 (by rw [List.length_map]; exact h2) (by rw [List.length_map]; exact h3) (by rw [List.length_map]; exact h4)
      fun i hi => ?_
    rw [List.getElem_map]
    exact ih i (by simpa using hi)
  | @map r ms c h1 h2 h3 h4 h5 _ ih =>
    rw [Val.firstWins_map]
    have e : List.map Prod.fst (List.map (fun k => (k, ((firstVal ms k).getD .null).firstWins)) (ms.map Prod.fst)) = ms.map Prod.fst := by
      rw [List.map_map]; exact List.map_id _
    refine .map c h1 (by rw [e]; exact h2) (by rw [e]; exact h3) (by rw [e]; exact h4) (by rw [e]; exact h5) fun k v hv => ?_
    by_cases hk : k ∈ ms.map Prod.fst
    · rw [firstVal_mapKeys hk] at hv
      have hv := Option.some.inj hv
      subst hv
      cases hf : firstVal ms k with
      | some x => exact ih k x hf
      | none =>
        obtain ⟨_, this⟩ := firstVal_isSome.1 hk
        rw [hf] at this; cases this
    · rw [firstVal_none (by rw [e]; exact hk)] at hv; cases hv

theorem Val.depth_firstWins : ∀ v : Val, v.firstWins.depth ≤ v.depth := by
  intro v
  induction v using Val.ind with
  | arr xs ih =>
    rw [Val.firstWins_arr]
    simp only [Val.depth, Nat.add_le_add_iff_right]
    refine Val.depthList_le.2 fun x hx => ?_
    obtain ⟨y, hy, rfl⟩ := List.mem_map.1 hx
    exact Nat.le_trans (ih y hy) (Val.depth_le_list hy)
  | map ms ih =>
    rw [Val.firstWins_map]
    simp only [Val.depth, Nat.add_le_add_iff_right]
    refine Val.depthEntries_le.2 fun m hm => ?_
    obtain ⟨k, hk, rfl⟩ := List.mem_map.1 hm
    dsimp only
    cases hf : firstVal ms k with
    | some x =>
      have hx := firstVal_mem hf
      exact Nat.le_trans (ih _ hx) (Val.depth_le_entries hx)
    | none =>
      obtain ⟨_, this⟩ := firstVal_isSome.1 hk
      rw [hf] at this; cases this
  | _ => exact Nat.le_refl _

/-- A position that presents a value is rewritten as one value. -/
theorem Proto.rewrite_run (P : Proto) {ρ : Type} {R : Reader ρ} {p : Prop} {r : ρ} {v : Val} (h : R.AgreesW p r v) {f : Nat} (hf : v.depth ≤ f) :
    ∃ v', v'.Same v.firstWins ∧ (p → v' = v.firstWins) ∧ P.rewrite R f r = P.serialize v' := by
  obtain ⟨v', h1, h2, h3⟩ := writeValue_run v r h
  exact ⟨v', h1, h2, by rw [Proto.rewrite, h3 _ P.writer f hf P.init]; rfl⟩

/-- C99, same documents: two positions, of any two readers, that present the same value are translated into the same bytes, or refused
alike, by every format whose bytes do not show the signedness of integers. -/
theorem c99_same {P : Proto} (hP : P.Blind) {ρ ρ' : Type} {R : Reader ρ} {R' : Reader ρ'} {r : ρ} {r' : ρ'} {v : Val}
    (h : R.Agrees r v) (h' : R'.Agrees r' v) {f f' : Nat} (hf : v.depth ≤ f) (hf' : v.depth ≤ f') :
    P.rewrite R f r = P.rewrite R' f' r' := by
  obtain ⟨x, h1, -, h2⟩ := P.rewrite_run h hf
  obtain ⟨y, k1, -, k2⟩ := P.rewrite_run h' hf'
  rw [h2, k2]
  exact hP (Eq.trans h1 (Eq.symm k1))

/-- C99, same documents, any format: if the readers present the signedness too. -/
theorem c99_same_strict (P : Proto) {ρ ρ' : Type} {R : Reader ρ} {R' : Reader ρ'} {r : ρ} {r' : ρ'} {v : Val}
    (h : R.AgreesStrictly r v) (h' : R'.AgreesStrictly r' v) {f f' : Nat} (hf : v.depth ≤ f) (hf' : v.depth ≤ f') :
    P.rewrite R f r = P.rewrite R' f' r' := by
  obtain ⟨x, -, h1, h2⟩ := P.rewrite_run h hf
  obtain ⟨y, -, k1, k2⟩ := P.rewrite_run h' hf'
  rw [h2, k2, h1 trivial, k1 trivial]

/-- C99, same bytes: two positions, of any two readers whose answers fit together, that are translated into the same bytes present the
same value, if the format writes different values differently. -/
theorem c99_equal {P : Proto} {D : Val → Prop} (hP : ∀ {v w : Val} {b : Bytes}, D v → D w → P.serialize v = .ok b → P.serialize w = .ok b → v.Same w)
    {ρ ρ' : Type} {R : Reader ρ} {R' : Reader ρ'} {I : ρ → Prop} {I' : ρ' → Prop} (H : R.Fits I) (H' : R'.Fits I')
    {r : ρ} {r' : ρ'} (hI : I r) (hI' : I' r') {b : Bytes}
    (hD : ∀ v, R.Agrees r v → P.serialize v = .ok b → D v) (hD' : ∀ v, R'.Agrees r' v → P.serialize v = .ok b → D v)
    {f f' : Nat} (h : P.rewrite R f r = .ok b) (h' : P.rewrite R' f' r' = .ok b) :
    ∃ v, R.Agrees r v ∧ R'.Agrees r' v := by
  obtain ⟨s, hs, -⟩ := Res.bind_eq_ok.1 h
  obtain ⟨s', hs', -⟩ := Res.bind_eq_ok.1 h'
  obtain ⟨v, hv, dv⟩ := presents_of_writeValue H hI hs
  obtain ⟨w, hw, dw⟩ := presents_of_writeValue H' hI' hs'
  obtain ⟨x, h1, -, h2⟩ := P.rewrite_run hv dv
  obtain ⟨y, k1, -, k2⟩ := P.rewrite_run hw dw
  rw [h] at h2; rw [h'] at k2
  have ax : R.Agrees r x := Reader.Agrees.same _ hv.firstWins (Eq.symm h1)
  have ay : R'.Agrees r' y := Reader.Agrees.same _ hw.firstWins (Eq.symm k1)
  have e : x.Same y := hP (hD x ax h2.symm) (hD' y ay k2.symm) h2.symm k2.symm
  exact ⟨x, ax, Reader.Agrees.same _ ay (Eq.symm e)⟩

/-- C99, both directions: two translations that succeed give the same bytes exactly if there is a value that both sources present. -/
theorem c99_iff {P : Proto} (hB : P.Blind) {D : Val → Prop}
    (hP : ∀ {v w : Val} {b : Bytes}, D v → D w → P.serialize v = .ok b → P.serialize w = .ok b → v.Same w)
    {ρ ρ' : Type} {R : Reader ρ} {R' : Reader ρ'} {I : ρ → Prop} {I' : ρ' → Prop} (H : R.Fits I) (H' : R'.Fits I')
    {r : ρ} {r' : ρ'} (hI : I r) (hI' : I' r') {b b' : Bytes}
    (hD : ∀ v, R.Agrees r v → P.serialize v = .ok b → D v) (hD' : ∀ v, R'.Agrees r' v → P.serialize v = .ok b' → D v)
    {f f' : Nat} (h : P.rewrite R f r = .ok b) (h' : P.rewrite R' f' r' = .ok b') :
    b = b' ↔ ∃ v, R.Agrees r v ∧ R'.Agrees r' v := by
  constructor
  · rintro rfl
    exact c99_equal hP H H' hI hI' hD hD' h h'
  · rintro ⟨v, hv, hv'⟩
    have deep : ∀ {ρ : Type} {R : Reader ρ} {I : ρ → Prop} {r : ρ} {f : Nat} {b : Bytes}, R.Fits I → I r → R.Agrees r v →
        P.rewrite R f r = .ok b → v.firstWins.depth ≤ f := by
      intro ρ R I r f b H hI hv h
      obtain ⟨s, hs, -⟩ := Res.bind_eq_ok.1 h
      obtain ⟨w, hw, dw⟩ := presents_of_writeValue H hI hs
      rw [Val.depth_same (hv.determined hw).1]
      exact Nat.le_trans (Val.depth_firstWins w) dw
    have e := c99_same hB hv.firstWins hv'.firstWins (deep H hI hv h) (deep H' hI' hv' h')
    rw [h, h'] at e
    exact Res.ok.inj e

/-! ## Into CBOR, MessagePack, JSON -/

/-- C99 into CBOR, from any two readers whose answers fit together. -/
theorem Cbor.c99_into_cbor {utf8 : Bytes → Bool} {maxDepth g : Nat} {hard : Bool} {ρ ρ' : Type} {R : Reader ρ} {R' : Reader ρ'}
    {I : ρ → Prop} {I' : ρ' → Prop} (H : R.Fits I) (H' : R'.Fits I') {r : ρ} {r' : ρ'} (hI : I r) (hI' : I' r') {f f' : Nat} {b b' : Bytes}
    (h : (Cbor.proto utf8 maxDepth hard g).rewrite R f r = .ok b) (h' : (Cbor.proto utf8 maxDepth hard g).rewrite R' f' r' = .ok b')
    (hb : b.length < 2 ^ 64) (hb' : b'.length < 2 ^ 64) : b = b' ↔ ∃ v, R.Agrees r v ∧ R'.Agrees r' v :=
  c99_iff (Cbor.blind hard) (D := fun v => ∀ b, (Cbor.proto utf8 maxDepth hard g).serialize v = .ok b → b.length < 2 ^ 64)
    (fun hv _ e e' => Cbor.c12_cbor_injective (hv _ e) e e') H H' hI hI'
    (fun _ _ e _ e' => by rw [e] at e'; exact Res.ok.inj e' ▸ hb) (fun _ _ e _ e' => by rw [e] at e'; exact Res.ok.inj e' ▸ hb') h h'

/-- C99 into MessagePack, from any two readers whose answers fit together and documents within the limits of MessagePack. -/
theorem MsgPack.c99_into_msgpack {ρ ρ' : Type} {R : Reader ρ} {R' : Reader ρ'}
    {I : ρ → Prop} {I' : ρ' → Prop} (H : R.Fits I) (H' : R'.Fits I') {r : ρ} {r' : ρ'} (hI : I r) (hI' : I' r') {f f' : Nat} {b b' : Bytes}
    (h : MsgPack.proto.rewrite R f r = .ok b) (h' : MsgPack.proto.rewrite R' f' r' = .ok b')
    (hs : ∀ v, R.Agrees r v → v.Sized) (hs' : ∀ v, R'.Agrees r' v → v.Sized) : b = b' ↔ ∃ v, R.Agrees r v ∧ R'.Agrees r' v :=
  c99_iff MsgPack.blind (D := Val.Sized) (fun hv hw e e' => MsgPack.c12_msgpack_injective_partial hv hw e e') H H' hI hI'
    (fun v a _ => hs v a) (fun v a _ => hs' v a) h h'

/-- C99 into JSON, from any two readers whose answers fit together and documents without NUL in keys and without arrays that look like
blobs. Missing: those (`c33_json_blob_confusion_refuted`). -/
theorem Json.c99_into_json_partial {fmt : UInt64 → Bytes} (hfmt : Json.FmtOk fmt) (dbg : Bool) {ρ ρ' : Type} {R : Reader ρ} {R' : Reader ρ'}
    {I : ρ → Prop} {I' : ρ' → Prop} (H : R.Fits I) (H' : R'.Fits I') {r : ρ} {r' : ρ'} (hI : I r) (hI' : I' r') {f f' : Nat} {b b' : Bytes}
    (h : (Json.proto (Json.std fmt) dbg).rewrite R f r = .ok b) (h' : (Json.proto (Json.std fmt) dbg).rewrite R' f' r' = .ok b')
    (hs : ∀ v, R.Agrees r v → Json.NoMimic v ∧ Json.KeysOk v) (hs' : ∀ v, R'.Agrees r' v → Json.NoMimic v ∧ Json.KeysOk v) :
    b = b' ↔ ∃ v, R.Agrees r v ∧ R'.Agrees r' v :=
  c99_iff (Json.blind fmt dbg) (D := fun v => Json.NoMimic v ∧ Json.KeysOk v)
    (fun hv hw e e' => Json.c12_json_injective_partial (Json.std_law hfmt) hv.1 hw.1 hv.2 hw.2 e e') H H' hI hI'
    (fun v a _ => hs v a) (fun v a _ => hs' v a) h h'

/-- C99 into ZERA, same bytes: the documents are the same. Missing: the converse, if the formats they came from do not show the
signedness (`c99_zera_refuted`). -/
theorem Zera.c99_into_zera_partial {ρ ρ' : Type} {R : Reader ρ} {R' : Reader ρ'}
    {I : ρ → Prop} {I' : ρ' → Prop} (H : R.Fits I) (H' : R'.Fits I') {r : ρ} {r' : ρ'} (hI : I r) (hI' : I' r') {f f' : Nat} {b : Bytes}
    (h : Zera.proto.rewrite R f r = .ok b) (h' : Zera.proto.rewrite R' f' r' = .ok b) : ∃ v, R.Agrees r v ∧ R'.Agrees r' v :=
  c99_equal (D := fun _ => True) (fun _ _ e e' => by
    have := Zera.c12_zera_injective (thr := 12) (thr' := 12) e e'
    subst this; rfl) H H' hI hI' (fun _ _ _ => trivial) (fun _ _ _ => trivial) h h'

/-! ## From arbitrary bytes -/

/-- C99 for any two byte strings read as MessagePack and compared as CBOR. -/
theorem MsgPack.c99_msgpack {utf8 : Bytes → Bool} {maxDepth g : Nat} {hard : Bool} {x y b c : Bytes} {f f' : Nat}
    (h : MsgPack.proto.recode (Cbor.proto utf8 maxDepth hard g) f x = .ok b) (h' : MsgPack.proto.recode (Cbor.proto utf8 maxDepth hard g) f' y = .ok c)
    (hb : b.length < 2 ^ 64) (hc : c.length < 2 ^ 64) :
    b = c ↔ ∃ v, MsgPack.reader.Agrees x v ∧ MsgPack.reader.Agrees y v :=
  Cbor.c99_into_cbor MsgPack.fits MsgPack.fits trivial trivial h h' hb hc

/-- C99 for any bytes read as MessagePack and any bytes read as ZERA. -/
theorem MsgPack.c99_msgpack_zera {utf8 : Bytes → Bool} {maxDepth g : Nat} {hard : Bool} {x y b c : Bytes} {f f' : Nat} {r : Zera.View}
    (ho : Zera.initFrom y = .ok r) (h : MsgPack.proto.recode (Cbor.proto utf8 maxDepth hard g) f x = .ok b)
    (h' : Zera.proto.recode (Cbor.proto utf8 maxDepth hard g) f' y = .ok c) (hb : b.length < 2 ^ 64) (hc : c.length < 2 ^ 64) :
    b = c ↔ ∃ v, MsgPack.reader.Agrees x v ∧ Zera.reader.Agrees r v := by
  have e : Zera.proto.recode (Cbor.proto utf8 maxDepth hard g) f' y = (Cbor.proto utf8 maxDepth hard g).rewrite Zera.reader f' r := by
    show (Zera.initFrom y >>= _) = _
    rw [ho]; rfl
  exact Cbor.c99_into_cbor MsgPack.fits Zera.fits trivial ⟨y, r, ho, .refl⟩ h (e ▸ h') hb hc

/-- `{"a": 5}`, the number in one byte and in two, and with bytes behind it: the same CBOR. `{"a": 6}`: another. -/
example : ∃ b c, MsgPack.proto.recode (Cbor.proto (fun _ => true) 9 false 99) 2 [0x81, 0xa1, 0x61, 0x05] = .ok b ∧
    MsgPack.proto.recode (Cbor.proto (fun _ => true) 9 false 99) 2 [0xde, 0, 1, 0xd9, 1, 0x61, 0xcc, 0x05, 0xc1] = .ok b ∧
    MsgPack.proto.recode (Cbor.proto (fun _ => true) 9 false 99) 2 [0x81, 0xa1, 0x61, 0x06] = .ok c ∧ b ≠ c :=
  ⟨_, _, rfl, rfl, rfl, by decide +kernel⟩

/-- C99 is false of ZERA as the common format, and of Flex: the number 5 in one byte of MessagePack is translated as signed, in two bytes
as unsigned. -/
theorem c99_zera_refuted : (∃ v, MsgPack.reader.Agrees [0x05] v ∧ MsgPack.reader.Agrees [0xcc, 0x05] v) ∧
    (∃ b c, Zera.proto.rewrite MsgPack.reader 1 [0x05] = .ok b ∧ Zera.proto.rewrite MsgPack.reader 1 [0xcc, 0x05] = .ok c ∧ b ≠ c) ∧
    ∃ b c, (Flex.proto Flex.std false).rewrite MsgPack.reader 1 [0x05] = .ok b ∧
      (Flex.proto Flex.std false).rewrite MsgPack.reader 1 [0xcc, 0x05] = .ok c ∧ b ≠ c := by
  have h1 := MsgPack.c16_msgpack_reader_partial (v := .uint 5) (b := [0x05]) (by simp [Val.Below])
    (by simp only [MsgPack.Enc]; exact .posfix (by decide) (by decide)) []
  have h2 := MsgPack.c16_msgpack_reader_partial (v := .uint 5) (b := [0xcc, 0x05]) (by simp [Val.Below])
    (by simp only [MsgPack.Enc]; exact .u8 (by decide) (by decide)) []
  exact ⟨⟨_, h1, h2⟩, ⟨_, _, rfl, rfl, by decide +kernel⟩, ⟨_, _, rfl, rfl, by decide +kernel⟩⟩

/-- C99 is false of CBOR as a source: a map that contains a key is translated into the bytes of the empty map, whatever the format. -/
theorem Cbor.c99_from_cbor_refuted (hard : Bool) (P : Proto) : ∃ x, View.contains hard 20 ⟨x, 0⟩ [0x61] = .ok true ∧
    P.rewrite (reader hard 20) 20 ⟨x, 0⟩ = P.rewrite (reader hard 20) 20 ⟨[0xa0], 0⟩ ∧
    View.contains hard 20 ⟨[0xa0], 0⟩ [0x61] = .ok false := by
  have run : ∀ (f : Nat) (x : Bytes), x = [0xa1, 0x61, 0x61, 0x7b, 0xff, 0xff, 0xff, 0xff, 0xff, 0xff, 0xff, 0xf5] ∨ x = [0xa0] →
      P.rewrite (reader hard 20) (f + 1) ⟨x, 0⟩ = (P.writer.step P.init (.beginMap 0) >>= fun s => P.writer.step s .endMap) >>= P.finish := by
    intro f x hx
    have k : (reader hard 20).isNull ⟨x, 0⟩ = .ok false ∧ (reader hard 20).isBool ⟨x, 0⟩ = .ok false ∧
        (reader hard 20).isInt ⟨x, 0⟩ = .ok false ∧ (reader hard 20).isUInt ⟨x, 0⟩ = .ok false ∧
        (reader hard 20).isFloat ⟨x, 0⟩ = .ok false ∧ (reader hard 20).isString ⟨x, 0⟩ = .ok false ∧
        (reader hard 20).isBlob ⟨x, 0⟩ = .ok false ∧ (reader hard 20).isMap ⟨x, 0⟩ = .ok true ∧
        (reader hard 20).mapKeys ⟨x, 0⟩ = .ok [] := by
      rcases hx with rfl | rfl <;> cases hard <;> decide +kernel
    obtain ⟨k1, k2, k3, k4, k5, k6, k7, k8, k9⟩ := k
    simp [Proto.rewrite, writeValue, k1, k2, k3, k4, k5, k6, k7, k8, k9, writeEntries]
  exact ⟨[0xa1, 0x61, 0x61, 0x7b, 0xff, 0xff, 0xff, 0xff, 0xff, 0xff, 0xff, 0xf5], by cases hard <;> decide +kernel,
    (run 19 _ (.inl rfl)).trans (run 19 _ (.inr rfl)).symm, by cases hard <;> decide +kernel⟩

/-- C99 is false of JSON as a source: the texts 18446744073709551615 and -1 are translated into the same bytes, whatever the format, and
every number above `INT64_MAX` into the bytes of a negative one; as unsigned numbers they are read as they are. -/
theorem Json.c99_from_json_refuted (n : UInt64) (hn : 2 ^ 63 ≤ n.toNat) (P : Proto) :
    P.rewrite Json.reader 1 (.uint n) = P.rewrite Json.reader 1 (.int n.toInt64) ∧ n.toInt64.toInt < 0 ∧ Json.asUInt64 (.uint n) = .ok n := by
  have e1 : n.toInt64.toInt = n.toNat - 2 ^ 64 := by
    have : n.toInt64.toInt = (n.toNat : Int).bmod (2 ^ 64) := BitVec.toInt_eq_toNat_bmod _
    have h2 := n.toNat_lt
    rw [this, Int.bmod_def]
    omega
  refine ⟨?_, ?_, rfl⟩
  · simp [Proto.rewrite, writeValue, Json.reader, Json.isNull, Json.isBool, Json.isInt, Json.asInt64]
  · have := n.toNat_lt; omega

example : (0xffffffffffffffff : UInt64).toInt64 = -1 := by decide

end Zer
