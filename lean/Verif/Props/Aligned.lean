import Verif.Props.Nested

/-!
# Property C101: tensors in ZERA messages are viewed without copying

README.md:162-164: "For ZERA, tensor payload bytes are stored in a 16-byte-aligned arena and each arena allocation is aligned, so if the
message buffer itself is properly aligned then tensor views will also be aligned (and therefore zero-copy when size/type checks pass)."
-/

namespace Zer.Tensor

/-- The address of the first byte of the blob at a position of a ZERA message that lies at `base`: the data pointer of the span that
`asBlob` returns, zera.hpp:323-337. -/
def blobAddr (base : Nat) (r : Zera.View) : Nat := match r.blobRange with
  | .ok (p, _) => base + p
  | _ => 0

/-- Where the blob at a position of a written message lies. -/
theorem blob_place {thr : Nat} {es : List Ev} {b : Bytes} (h : Zera.serializeEvs thr es = .ok b) {v w : Zera.View} (hv : Zera.initFrom b = .ok v)
    (hr : Zera.reader.Reach v w) {s : Bytes} (hs : w.asBlob = .ok s) (base : Nat) :
    ∃ p, p % 16 = 0 ∧ blobAddr base w = base + p ∧ At b p s ∧ p + s.length ≤ b.length := by
  obtain ⟨⟨p, n⟩, h1, h2⟩ := Res.bind_eq_ok.1 hs
  obtain ⟨_, e, _⟩ := Zera.initFrom_eq hv
  have hb : v.buf = b := by rw [e]
  have hw : w.buf = b := by
    obtain ⟨x, rfl⟩ := Zera.reach_eq hr
    exact hb
  refine ⟨p, Zera.c09_zera_blob_aligned h hv hr h1, by rw [blobAddr, h1], ?_⟩
  simp only [hw, sliceAt] at h2
  split at h2
  · rename_i hle
    injection h2 with h2
    have hat := At.of_slice hle
    rw [h2] at hat
    have hl : s.length = n := by rw [← h2]; simp; omega
    exact ⟨hat, by omega⟩
  · cases h2

/-- C101 for xtensor: in a message that was written by any calls of the ZERA writer and lies at `base`, every tensor view of a type whose
alignment divides 16, at any position, is a view of the bytes of the message themselves exactly if `base` is aligned for the type. -/
theorem c101_zera {thr : Nat} {es : List Ev} {b : Bytes} (h : Zera.serializeEvs thr es = .ok b) {v w : Zera.View} (hv : Zera.initFrom b = .ok v)
    (hr : Zera.reader.Reach v w) (base : Nat) {dt : DType} (ha : dt.align ∣ 16) {D : Option Nat} {t : View}
    (ht : asXTensorView (zera.treader (blobAddr base)) dt D w = .ok t) :
    (t.zeroCopy = true ↔ base % dt.align = 0) ∧ (base % dt.align = 0 → t.reason = .ok) ∧
      ∃ p, p % 16 = 0 ∧ t.address = base + p ∧ At b p t.bytes ∧ p + t.bytes.length ≤ b.length := by
  obtain ⟨e2, blob, h1, h2, h3, -, -, h6, h7, h8⟩ := c39_xtensor_zero_copy ht
  obtain ⟨p, k1, k2, k3, k4⟩ := blob_place h hv (.idx 2 hr h1) h2 base
  have e : blobAddr base e2 % dt.align = base % dt.align := by
    obtain ⟨m, hm⟩ := ha
    have : p % dt.align = 0 := Nat.mod_eq_zero_of_dvd (Nat.dvd_trans ⟨m, hm⟩ (Nat.dvd_of_mod_eq_zero k1))
    rw [k2, Nat.add_mod, this, Nat.add_zero, Nat.mod_mod]
  have hb : t.bytes = blob := by
    cases hz : t.zeroCopy
    · exact (h8 hz).1
    · exact (h7 hz).1
  have hz : t.zeroCopy = true ↔ base % dt.align = 0 := by
    rw [h6, ← e]
    exact ⟨fun h => h.2, fun h => ⟨rfl, h⟩⟩
  refine ⟨hz, fun h => (h7 (hz.2 h)).2, p, k1, by rw [h3, ← k2]; rfl, by rw [hb]; exact k3, by rw [hb]; exact k4⟩

/-- C101 for Eigen. -/
theorem c101_zera_matrix {thr : Nat} {es : List Ev} {b : Bytes} (h : Zera.serializeEvs thr es = .ok b) {v w : Zera.View}
    (hv : Zera.initFrom b = .ok v) (hr : Zera.reader.Reach v w) (base : Nat) {dt : DType} (ha : dt.align ∣ 16) {nr nc : Option Nat} {t : View}
    (ht : asEigenMatrixView (zera.treader (blobAddr base)) dt nr nc w = .ok t) :
    (t.zeroCopy = true ↔ base % dt.align = 0) ∧ (base % dt.align = 0 → t.reason = .ok) ∧
      ∃ p, p % 16 = 0 ∧ t.address = base + p ∧ At b p t.bytes ∧ p + t.bytes.length ≤ b.length := by
  obtain ⟨e2, blob, h1, h2, h3, -, -, h6, h7, h8⟩ := c39_eigen_zero_copy ht
  obtain ⟨p, k1, k2, k3, k4⟩ := blob_place h hv (.idx 2 hr h1) h2 base
  have e : blobAddr base e2 % dt.align = base % dt.align := by
    obtain ⟨m, hm⟩ := ha
    have : p % dt.align = 0 := Nat.mod_eq_zero_of_dvd (Nat.dvd_trans ⟨m, hm⟩ (Nat.dvd_of_mod_eq_zero k1))
    rw [k2, Nat.add_mod, this, Nat.add_zero, Nat.mod_mod]
  have hb : t.bytes = blob := by
    cases hz : t.zeroCopy
    · exact (h8 hz).1
    · exact (h7 hz).1
  have hz : t.zeroCopy = true ↔ base % dt.align = 0 := by
    rw [h6, ← e]
    exact ⟨fun h => h.2, fun h => ⟨rfl, h⟩⟩
  refine ⟨hz, fun h => (h7 (hz.2 h)).2, p, k1, by rw [h3, ← k2]; rfl, by rw [hb]; exact k3, by rw [hb]; exact k4⟩

/-- Every type with a code of its own is of such an alignment. -/
theorem supported_align {dt : DType} (h : dt.Supported) : dt.align ∣ 16 := by
  cases dt <;> first | (exact absurd h id) | decide

/-- The lookups of a path reach a position. -/
theorem goto_reach {ρ : Type} {R : Reader ρ} : ∀ (p : List Hop) {r₀ r s : ρ}, R.Reach r₀ r → R.goto p r = .ok s → R.Reach r₀ s := by
  intro p
  induction p with
  | nil => intro r₀ r s h e; cases e; exact h
  | cons x p ih =>
    intro r₀ r s h e
    cases x with
    | idx i =>
      obtain ⟨c, h1, h2⟩ := Res.bind_eq_ok.1 e
      exact ih (.idx i h h1) h2
    | key k =>
      obtain ⟨c, h1, h2⟩ := Res.bind_eq_ok.1 e
      exact ih (.key k h h1) h2

/-- C101, README.md:164: a document with a tensor of a supported type at any path, written as ZERA into memory aligned for the type: the
view of the tensor is of its shape and type, has its bytes, and is the bytes of the message themselves. Missing: shapes whose leading
dimensions multiply to 2^64 or more before a zero (C37). -/
theorem c101_document_partial {v : Val} {b : Bytes} (hb : Zera.proto.serialize v = .ok b) {p : List Hop} {dt : DType} (hs : dt.Supported)
    {dims : List Nat} {bytes : Bytes} (hw : v.at p = some (tval dt.code dims bytes)) (hd : ∀ d ∈ dims, d < 2 ^ 32)
    (hc : ∀ p q, dims = p ++ q → 0 ∉ p → p.foldr (· * ·) 1 < 2 ^ 64)
    (hl : bytes.length = dims.foldr (· * ·) 1 * dt.size) (hn : bytes.length < 2 ^ 64) {base : Nat} (ha : base % dt.align = 0) :
    ∃ r s t, Zera.initFrom b = .ok r ∧ Zera.reader.goto p r = .ok s ∧
      asXTensorView (zera.treader (blobAddr base)) dt none s = .ok t ∧ t.shape = dims ∧ t.bytes = bytes ∧ t.zeroCopy = true ∧
      ∃ q, t.address = base + q ∧ At b q bytes ∧ q + bytes.length ≤ b.length := by
  obtain ⟨-, b', r, h1, h2, -⟩ := Zera.c100_zera hb v rfl
  have h1 : Zera.proto.serialize v = .ok b' := h1
  rw [hb] at h1; cases h1
  have A : ArrivesDoc zeraT r none v := .written (T := zeraT) (Zera.c100_zera hb) hb h2
  obtain ⟨s, k1, k2, -⟩ := c37_nested_partial A hw hd hc hl hn (blobAddr base) none
  obtain ⟨t, t1, t2, -, t4⟩ := k2 (.inl rfl)
  obtain ⟨z1, -, q, -, z3, z4, z5⟩ := c101_zera (thr := 12) (es := emit v) hb h2 (goto_reach p .refl k1) base (supported_align hs) t1
  rw [t4] at z4 z5
  exact ⟨r, s, t, h2, k1, t1, t2, t4, z1.2 ha, q, z3, z4, z5⟩

/-- The document of `nestVal` at address 4096. -/
example : ∃ b r s t, Zera.proto.serialize nestVal = .ok b ∧ Zera.initFrom b = .ok r ∧ Zera.reader.goto [.key [0x77], .idx 1] r = .ok s ∧
    asXTensorView (zera.treader (blobAddr 4096)) .i16 none s = .ok t ∧ t.zeroCopy = true := by
  obtain ⟨b, hb⟩ : ∃ z, Zera.proto.serialize nestVal = .ok z := isOk_iff.1 (by decide +kernel)
  obtain ⟨r, s, t, h1, h2, h3, -, -, h4, -⟩ := c101_document_partial hb (p := [.key [0x77], .idx 1]) (dt := .i16) trivial (dims := [2, 1])
    (bytes := [1, 0, 2, 0]) rfl (by decide) (countable_of_ok (n := 2) rfl) (by decide) (by decide) (base := 4096) (by decide)
  exact ⟨b, r, s, t, hb, h1, h2, h3, h4⟩

/-- A tensor `[7]` of 16-bit integers as ZERA, with its blob moved by one byte: no writer of this library makes it. -/
def movedMsg : Res Bytes := Zera.proto.serialize (tval DType.i16.code [1] [7, 9]) >>= fun b => .ok (b.set 92 1 ++ [0])

/-- C101 is false of messages of other writers: the reader accepts blobs at any place of the arena, and views of them are copies however
the message is aligned. -/
theorem c101_foreign_refuted : ∃ b r t, movedMsg = .ok b ∧ Zera.initFrom b = .ok r ∧
    asXTensorView (zera.treader (blobAddr 4096)) .i16 none r = .ok t ∧ t.bytes = [9, 0] ∧ t.zeroCopy = false := by
  have h : (movedMsg >>= fun b => Zera.initFrom b >>= fun r => asXTensorView (zera.treader (blobAddr 4096)) .i16 none r >>= fun t =>
      Res.ok (t.bytes, t.zeroCopy)) = .ok ([9, 0], false) := by decide +kernel
  obtain ⟨b, h1, h⟩ := Res.bind_eq_ok.1 h
  obtain ⟨r, h2, h⟩ := Res.bind_eq_ok.1 h
  obtain ⟨t, h3, h⟩ := Res.bind_eq_ok.1 h
  have h := Res.ok.inj h
  injection h with h4 h5
  exact ⟨b, r, t, h1, h2, h3, h4, h5⟩

/-- The data pointers of the blobs of a message at `base`: each lies inside the message, at its bytes. -/
def PlacedAt {ρ : Type} (R : Reader ρ) (root : ρ) (b : Bytes) (base : Nat) (addr : ρ → Nat) : Prop :=
  ∀ e s, R.Reach root e → R.asBlob e = .ok s → ∃ p, At b p s ∧ addr e = base + p

/-- If the bytes of a blob stand in a message at one place only, which is not aligned, the view is a copy. -/
theorem copied_of_place {P : TProto} {b : Bytes} {root : P.ρ} {base : Nat} {addr : P.ρ → Nat} (hA : PlacedAt P.reader root b base addr)
    {dt : DType} {D : Option Nat} {t : View} (ht : asXTensorView (P.treader addr) dt D root = .ok t)
    (hp : ∀ p, At b p t.bytes → (base + p) % dt.align ≠ 0) : t.zeroCopy = false := by
  obtain ⟨e2, blob, h1, h2, h3, -, -, h6, h7, h8⟩ := c39_xtensor_zero_copy ht
  cases hz : t.zeroCopy with
  | false => rfl
  | true =>
    obtain ⟨p, k1, k2⟩ := hA e2 blob (.idx 2 .refl h1) h2
    rw [← (h7 hz).1] at k1
    have k3 : addr e2 % dt.align = 0 := (h6.1 hz).2
    rw [k2] at k3
    exact absurd k3 (hp p k1)

/-- The tensor `[x]` of doubles, `x` of eight different bytes. -/
def oneVal : Val := tval DType.f64.code [1] [1, 2, 3, 4, 5, 6, 7, 8]

theorem copied_one {P : TProto} {q : Prop} {D : Val → Prop} (L : P.Law q D) (hD : D oneVal) {b : Bytes} {r : P.ρ}
    (hb : P.serialize oneVal = .ok b) (hr : P.opn b = .ok r) (hp : ∀ p, p ≤ b.length → sliceAt b p 8 = .ok [1, 2, 3, 4, 5, 6, 7, 8] → p % 8 ≠ 0)
    {base : Nat} (ha : base % 16 = 0) {addr : P.ρ → Nat} (hA : PlacedAt P.reader r b base addr) :
    ∃ t, asXTensorView (P.treader addr) .f64 none r = .ok t ∧ t.bytes = [1, 2, 3, 4, 5, 6, 7, 8] ∧ t.zeroCopy = false := by
  obtain ⟨t, h1, -, -, h2⟩ := (c37_tensor_round_trip_partial (dt := .f64) (P := P) (.written L hD hb hr) (by decide)
    (countable_of_ok (n := 1) rfl) (by decide) (by decide) addr none).1 (.inl rfl)
  refine ⟨t, h1, h2, copied_of_place hA h1 fun p h => ?_⟩
  rw [h2] at h
  have h3 := hp p (by have := h.bound; omega) h.sliceAt
  show (base + p) % 8 ≠ 0
  omega

/-- C101 is a property of ZERA: a tensor of doubles in a MessagePack message, in a CBOR message and in a Flex message that lie at
multiples of 16 is copied. -/
theorem c101_others_refuted :
    (∃ b, msgpack.serialize oneVal = .ok b ∧ ∀ base addr, base % 16 = 0 → PlacedAt msgpack.reader b b base addr →
      ∃ t, asXTensorView (msgpack.treader addr) .f64 none b = .ok t ∧ t.bytes = [1, 2, 3, 4, 5, 6, 7, 8] ∧ t.zeroCopy = false) ∧
    (∃ b r, (cbor (fun _ => true) 9 99).serialize oneVal = .ok b ∧ (cbor (fun _ => true) 9 99).opn b = .ok r ∧
      ∀ base addr, base % 16 = 0 → PlacedAt (cbor (fun _ => true) 9 99).reader r b base addr →
      ∃ t, asXTensorView ((cbor (fun _ => true) 9 99).treader addr) .f64 none r = .ok t ∧ t.bytes = [1, 2, 3, 4, 5, 6, 7, 8] ∧ t.zeroCopy = false) ∧
    (∃ b r, (flex Flex.std false).serialize oneVal = .ok b ∧ (flex Flex.std false).opn b = .ok r ∧
      ∀ base addr, base % 16 = 0 → PlacedAt (flex Flex.std false).reader r b base addr →
      ∃ t, asXTensorView ((flex Flex.std false).treader addr) .f64 none r = .ok t ∧ t.bytes = [1, 2, 3, 4, 5, 6, 7, 8] ∧ t.zeroCopy = false) := by
  refine ⟨⟨[147, 11, 145, 1, 196, 8, 1, 2, 3, 4, 5, 6, 7, 8], by decide +kernel, fun base addr ha hA => ?_⟩,
    ⟨[131, 11, 129, 1, 72, 1, 2, 3, 4, 5, 6, 7, 8], _, by decide +kernel, rfl, fun base addr ha hA => ?_⟩, ?_⟩
  · exact copied_one msgpack_law ⟨by simp [oneVal, tval, Val.Sized, Val.sizedList], by simp [oneVal, tval, Val.Below, Val.Below.belowList]⟩
      (by decide +kernel) rfl (by decide +kernel) ha hA
  · have hb : (cbor (fun _ => true) 9 99).serialize oneVal = .ok [131, 11, 129, 1, 72, 1, 2, 3, 4, 5, 6, 7, 8] := by decide +kernel
    refine copied_one (cbor_law (fun _ => true) 9 99) ⟨by simp [oneVal, tval, Val.Small, Val.Each, Val.eachList], fun b h => ?_⟩
      hb rfl (by decide +kernel) ha hA
    have e : (cbor (fun _ => true) 9 99).serialize oneVal = .ok b := h
    rw [hb] at e; cases e
    decide
  · have hb : (flex Flex.std false).serialize oneVal = .ok [1, 1, 8, 8, 1, 2, 3, 4, 5, 6, 7, 8, 3, 11, 13, 11, 4, 40, 100, 6, 40, 1] := by
      decide +kernel
    obtain ⟨r, hr⟩ : ∃ r, (flex Flex.std false).opn [1, 1, 8, 8, 1, 2, 3, 4, 5, 6, 7, 8, 3, 11, 13, 11, 4, 40, 100, 6, 40, 1] = .ok r :=
      ⟨_, rfl⟩
    refine ⟨_, r, hb, hr, fun base addr ha hA => ?_⟩
    refine copied_one (flex_law Flex.std_law false) ⟨?_, ?_, ?_, ?_⟩ hb hr (by decide +kernel) ha hA
    · simp [oneVal, tval, Val.Distinct, Val.distinctList]
    · simp [oneVal, tval, Val.NulFree, Val.Each, Val.eachList]
    · simp [oneVal, tval, Val.Sorted, Val.Each, Val.eachList]
    · unfold Flex.Fits; decide

/-- Such data pointers exist for every MessagePack message, wherever it lies. -/
theorem msgpack_placed (b : Bytes) (base : Nat) : ∃ addr, PlacedAt msgpack.reader b b base addr := by
  classical
  refine ⟨fun e => if h : ∃ p, ∃ s, MsgPack.asBlob e = .ok s ∧ At b p s then base + h.choose else 0, fun e s hr hs => ?_⟩
  have h : ∃ p, ∃ s, MsgPack.asBlob e = .ok s ∧ At b p s := by
    obtain ⟨p, hp⟩ := (MsgPack.c56_msgpack_views_inside hr).2.2 s hs
    exact ⟨p, s, hs, hp⟩
  obtain ⟨s', h1, h2⟩ := h.choose_spec
  have e' : MsgPack.asBlob e = .ok s := hs
  rw [h1] at e'; cases e'
  exact ⟨h.choose, h2, dif_pos h⟩

end Zer.Tensor
