import Verif.Props.Settle
import Verif.Props.Tensor

/-!
# C37 for tensors inside documents

A document holds tensors anywhere: `zmap<"weights">(zvec(t1, t2))`. It is written, read, translated as a whole or in parts, and the
tensors are read where they stand.
-/

namespace Zer.Tensor

/-- A protocol with the rule for the signs of its integers: small numbers are signed, and the narrow accessors give them. -/
structure Terminal where
  P : TProto
  g : Signs
  narrow : ∀ addr, Narrow (P.treader addr)
  small : ∀ z : Int, -1 ≤ z → z ≤ 14 → (g.map fun g => g z) ≠ some false

/-- The terminal as a station of translations. -/
def Terminal.station (T : Terminal) : Station := ⟨T.P.toProto, T.g⟩

/-- Positions at which a document arrives: written and read, translated, and cut out of a document that arrived. -/
inductive ArrivesDoc : (T : Terminal) → T.P.ρ → Signs → Val → Prop where
  | written {T : Terminal} {v : Val} {b : Bytes} {r : T.P.ρ} (hT : T.station.Takes v) (hb : T.P.serialize v = .ok b) (hr : T.P.opn b = .ok r) :
      ArrivesDoc T r T.g v
  | translated {T U : Terminal} {v : Val} {a : Signs} {r : T.P.ρ} {s : U.P.ρ} {f : Nat} (h : ArrivesDoc T r a v) (hd : v.Distinct)
      (hU : U.station.Takes v) (hf : v.depth ≤ f) (ht : U.P.translate T.P.reader f r = .ok s) : ArrivesDoc U s (U.g <|> a) v
  | inside {T : Terminal} {v w : Val} {a : Signs} {r s : T.P.ρ} {p : List Hop} (h : ArrivesDoc T r a v) (hw : v.at p = some w)
      (hs : T.P.reader.goto p r = .ok s) : ArrivesDoc T s a w

/-- What arrives is presented, with signs by the last rule. -/
theorem ArrivesDoc.presented {T : Terminal} {r : T.P.ρ} {a : Signs} {v : Val} (h : ArrivesDoc T r a v) :
    T.P.reader.Agrees r v ∧ T.P.reader.settled.AgreesStrictly r (v.signed a) ∧ (v.signed a).Same v ∧
      ∀ z : Int, -1 ≤ z → z ≤ 14 → (a.map fun g => g z) ≠ some false := by
  induction h with
  | @written T v b r hT hb hr =>
    obtain ⟨h0, b', r', h1, h2, h3, h4⟩ := hT v rfl
    have h1 : T.P.serialize v = .ok b' := h1
    have h2 : T.P.opn b' = .ok r' := h2
    rw [hb] at h1; cases h1
    rw [hr] at h2; cases h2
    exact ⟨h3, h4, h0, T.small⟩
  | @translated T U v a r s f _ hd hU hf ht ih =>
    obtain ⟨i1, i2, hs, i3⟩ := ih
    obtain ⟨v', k1, k2, k3⟩ := writeValue_run _ r i2
    have k := k3 _ U.P.writer f (by rw [Val.depth_same hs]; exact hf) U.P.init
    rw [writeValue_settled, k2 trivial, Val.firstWins_of_distinct _ (Flex.distinct_same hs hd)] at k
    obtain ⟨h0, b, r', h1, h2, h3, h4⟩ := hU _ hs
    have e0 := Val.signed_signed (g := U.g) hs
    have e : U.P.translate T.P.reader f r = (U.P.serialize (v.signed a) >>= U.P.opn) := by
      simp only [Proto.translate, Proto.serialize, Proto.bytesOf, k, bind_assoc]
    have h1 : U.P.serialize (v.signed a) = .ok b := h1
    have h2 : U.P.opn b = .ok r' := h2
    rw [e, h1, Res.ok_bind, h2] at ht; cases ht
    refine ⟨h3.same _ hs, by rw [← e0]; exact h4, by rw [← e0]; exact h0, ?_⟩
    · intro z h1 h2
      have := U.small z h1 h2
      cases hg : U.g with
      | none => exact i3 z h1 h2
      | some g => rw [hg] at this; exact this
  | @inside T v w a r s p _ hw hs ih =>
    obtain ⟨i1, i2, i0, i3⟩ := ih
    obtain ⟨c, h1, h2⟩ := Reader.AgreesW.at p i1 hw
    obtain ⟨c', k1, k2⟩ := Reader.AgreesW.at p i2 (Val.at_signed hw)
    rw [hs] at h1; cases h1
    rw [Reader.goto_settled, hs] at k1; cases k1
    exact ⟨h2, k2, Val.Same.at i0 (Val.at_signed hw) hw, i3⟩

/-- Where a tensor stands in a document that arrived, the lookups arrive at a position that presents it. -/
theorem ArrivesDoc.tensor {T : Terminal} {r : T.P.ρ} {a : Signs} {v : Val} (h : ArrivesDoc T r a v) {p : List Hop} {c : Int}
    (hc : -1 ≤ c ∧ c ≤ 14) {dims : List Nat} {bytes : Bytes} (hw : v.at p = some (tval c dims bytes)) :
    ∃ s, T.P.reader.goto p r = .ok s ∧ Presents T.P.reader s c dims bytes := by
  obtain ⟨h1, h2, -, h3⟩ := h.presented
  obtain ⟨s, k1, k2⟩ := Reader.AgreesW.at p h1 hw
  obtain ⟨s', j1, j2⟩ := Reader.AgreesW.at p h2 (Val.at_signed hw)
  rw [Reader.goto_settled, k1] at j1; cases j1
  refine ⟨s, k1, k2, fun e he => ?_⟩
  have hs : (Val.int (Int64.ofInt c)).signed a = .int (Int64.ofInt c) := by
    cases a with
    | none => rfl
    | some g =>
      have := h3 c hc.1 hc.2
      simp only [Val.signed, Val.signs, ofInt_code hc]
      cases e : g c with
      | true => rfl
      | false => rw [Option.map_some, e] at this; exact absurd rfl this
  obtain ⟨e', g1, g2⟩ := Reader.AgreesW.at [.idx 0] j2 (w := (Val.int (Int64.ofInt c)).signed a) (by
    exact Val.at_signed (g := a) (p := [.idx 0]) (v := tval c dims bytes) (w := .int (Int64.ofInt c)) rfl)
  rw [hs] at g2
  have : e' = e := by
    have g1 : (T.P.reader.getIdx s 0 >>= fun c => Res.ok c) = .ok e' := g1
    rw [he] at g1
    exact (Res.ok.inj g1).symm
  subst this
  cases g2 with
  | int _ h => exact (h trivial).1

/-- C37 inside documents, for xtensor: wherever a tensor stands in a document that was written to any of the protocols, translated
between them any number of times, as a whole or in parts, it is read at its place with the same shape and the same bytes, as the type
that was written and as no type with another code. Missing: shapes whose leading dimensions multiply to 2^64 or more before a zero
(`c37_tensor_empty_refuted`). -/
theorem c37_nested_partial {T : Terminal} {r : T.P.ρ} {a : Signs} {v : Val} (h : ArrivesDoc T r a v) {p : List Hop} {dt : DType}
    {dims : List Nat} {bytes : Bytes} (hw : v.at p = some (tval dt.code dims bytes)) (hd : ∀ d ∈ dims, d < 2 ^ 32)
    (hc : ∀ p q, dims = p ++ q → 0 ∉ p → p.foldr (· * ·) 1 < 2 ^ 64)
    (hb : bytes.length = dims.foldr (· * ·) 1 * dt.size) (hn : bytes.length < 2 ^ 64) (addr : T.P.ρ → Nat) (D : Option Nat) :
    ∃ s, T.P.reader.goto p r = .ok s ∧
      (D = none ∨ D = some dims.length →
        ∃ v, asXTensorView (T.P.treader addr) dt D s = .ok v ∧ v.shape = dims ∧ v.count = dims.foldr (· * ·) 1 ∧ v.bytes = bytes) ∧
      ∀ dt' : DType, isTensor (T.P.treader addr) dt' s = .ok (decide (dt'.code = dt.code)) ∧
        (dt'.code ≠ dt.code → asXTensorView (T.P.treader addr) dt' D s = .err .deser) := by
  obtain ⟨s, h1, h2⟩ := h.tensor (code_range dt) hw
  exact ⟨s, h1, xtensor_of_presents h2 hd hc hb hn (T.narrow addr) D⟩

/-- C37 inside documents, for Eigen. -/
theorem c37_nested_matrix {T : Terminal} {r : T.P.ρ} {a : Signs} {v : Val} (h : ArrivesDoc T r a v) {p : List Hop} {dt : DType}
    {rows cols : Nat} {bytes : Bytes} (hw : v.at p = some (tval dt.code [rows, cols] bytes)) (hr : rows < 2 ^ 32) (hc : cols < 2 ^ 32)
    (hb : bytes.length = rows * cols * dt.size) (hn : bytes.length < 2 ^ 64) (addr : T.P.ρ → Nat) (nr nc : Option Nat) :
    ∃ s, T.P.reader.goto p r = .ok s ∧
      ((nr = none ∨ nr = some rows) ∧ (nc = none ∨ nc = some cols) →
        ∃ v, asEigenMatrixView (T.P.treader addr) dt nr nc s = .ok v ∧ v.shape = [rows, cols] ∧ v.count = rows * cols ∧ v.bytes = bytes) ∧
      (¬ ((nr = none ∨ nr = some rows) ∧ (nc = none ∨ nc = some cols)) → asEigenMatrixView (T.P.treader addr) dt nr nc s = .err .deser) ∧
      ∀ dt' : DType, dt'.code ≠ dt.code → asEigenMatrixView (T.P.treader addr) dt' nr nc s = .err .deser := by
  obtain ⟨s, h1, h2⟩ := h.tensor (code_range dt) hw
  exact ⟨s, h1, matrix_of_presents h2 hr hc hb hn (T.narrow addr) nr nc⟩

/-! ## The five protocols -/

def zeraT : Terminal := ⟨zera, none, zera_law.narrow, fun _ _ _ h => by cases h⟩
def msgpackT : Terminal := ⟨msgpack, some fun z => decide (z < 128), msgpack_law.narrow, fun z _ h2 h => by
  have h := Option.some.inj h
  exact absurd (of_decide_eq_false h) (by omega)⟩
def cborT (utf8 : Bytes → Bool) (maxDepth fuel : Nat) : Terminal := ⟨cbor utf8 maxDepth fuel, some fun _ => true,
  (cbor_law utf8 maxDepth fuel).narrow, fun _ _ _ h => by cases h⟩
def jsonT {X : Json.Text} (L : X.Law) (dbg : Bool) : Terminal := ⟨json X dbg, some fun _ => true, (json_law L dbg).narrow,
  fun _ _ _ h => by cases h⟩
def flexT {L : Flex.Lib} (H : L.Law) (dbg : Bool) : Terminal := ⟨flex L dbg, none, (flex_law H dbg).narrow, fun _ _ _ h => by cases h⟩

/-- The stations are those of C100, where it is proved what each takes. -/
theorem stations : zeraT.station = Zera.station ∧ msgpackT.station = MsgPack.station ∧
    (∀ u d f, (cborT u d f).station = Cbor.station u d f) ∧ (∀ {X : Json.Text} (L : X.Law) dbg, (jsonT L dbg).station = Json.station X dbg) ∧
    ∀ {L : Flex.Lib} (H : L.Law) dbg, (flexT H dbg).station = Flex.station L dbg :=
  ⟨rfl, rfl, fun _ _ _ => rfl, fun _ _ => rfl, fun _ _ => rfl⟩

/-- `{"w": [7, <2×1 tensor of 16-bit integers>]}` -/
def nestVal : Val := .map [([0x77], .arr [.uint 7, tval DType.i16.code [2, 1] [1, 0, 2, 0]])]

/-- The document written to MessagePack and translated to ZERA arrives there, and the tensor stands in it. -/
example : ∃ r s, ArrivesDoc msgpackT r (some fun z => decide (z < 128)) nestVal ∧ zera.translate msgpack.reader 9 r = .ok s ∧
    ArrivesDoc zeraT s (some fun z => decide (z < 128)) nestVal ∧
    nestVal.at [.key [0x77], .idx 1] = some (tval DType.i16.code [2, 1] [1, 0, 2, 0]) := by
  have h1 : msgpackT.station.Takes nestVal := MsgPack.c100_msgpack
    (by simp [nestVal, tval, Val.Sized, Val.sizedEntries, Val.sizedList]) (by simp [nestVal, tval, Val.Below, Val.Below.belowEntries, Val.Below.belowList])
  obtain ⟨z, hz⟩ : ∃ z, Zera.proto.serialize nestVal = .ok z := isOk_iff.1 (by decide +kernel)
  have h2 : zeraT.station.Takes nestVal := Zera.c100_zera hz
  obtain ⟨-, b, r, k1, k2, -⟩ := h1 nestVal rfl
  have A : ArrivesDoc msgpackT r (some fun z => decide (z < 128)) nestVal := .written h1 k1 k2
  obtain ⟨s, hs⟩ : ∃ s, zera.translate msgpack.reader 9 r = .ok s := by
    have e : b = r := Res.ok.inj k2
    have e' : msgpack.serialize nestVal = .ok b := k1
    rw [show msgpack.toProto = MsgPack.proto from rfl, MsgPack.serialize_eq] at e'
    have e' := Res.ok.inj e'
    subst e; subst e'
    exact isOk_iff.1 (by decide +kernel)
  exact ⟨r, s, A, hs, .translated (T := msgpackT) (U := zeraT) A (by simp [nestVal, tval, Val.Distinct, Val.distinctEntries, Val.distinctList]) h2 (by decide) hs, rfl⟩

end Zer.Tensor
