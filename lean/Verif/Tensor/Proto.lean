import Verif.Tensor.Lemmas
import Verif.Props.Translate
import Verif.Props.MsgPack
import Verif.Props.Cbor
import Verif.Props.Json
import Verif.Props.Flex

/-!
# Tensors through protocols

The contract that tensor code needs of a protocol, its five instances, and its preservation by translation.
-/

namespace Zer.Tensor

/-- A protocol with the narrow integer accessors of its reader and the kind of its blobs. -/
structure TProto extends Proto where
  asIntN : Nat → ρ → Res Int
  span : Bool

/-- The reader of the protocol, with the addresses of its blobs. -/
def TProto.treader (P : TProto) (addr : P.ρ → Nat) : TReader P.ρ :=
  { P.reader with asIntN := P.asIntN, span := P.span, addr := addr }

theorem TProto.treader_toReader (P : TProto) (addr : P.ρ → Nat) : (P.treader addr).toReader = P.reader := rfl

/-- What tensors need: round trips on a domain that does not distinguish signed from unsigned integers;
`asInt8`, `asInt32` agree with `asInt64` on small numbers; a small signed integer at the start of an array
is presented as a signed integer. -/
structure TProto.Law (P : TProto) (q : Prop) (D : Val → Prop) : Prop where
  roundTrips : P.RoundTrips q D
  same : ∀ {v w : Val}, v.Same w → D w → D v
  narrow : ∀ addr, Narrow (P.treader addr)
  head : ∀ {i : Int64} {xs : List Val} {b : Bytes} {r e : P.ρ}, D (.arr (.int i :: xs)) → -1 ≤ i.toInt → i.toInt ≤ 14 →
    P.serialize (.arr (.int i :: xs)) = .ok b → P.opn b = .ok r → P.reader.getIdx r 0 = .ok e →
    P.reader.isInt e = .ok true

/-! ## Instances -/

theorem narrow_checked {ρ : Type} {R : TReader ρ} (h : ∀ w r, R.asIntN w r = (do
      let x ← R.asInt64 r
      if x.toInt < -(2 ^ (w - 1) : Int) ∨ x.toInt > (2 ^ (w - 1) : Int) - 1 then .err .deser
      else pure x.toInt)) : Narrow R := by
  intro w r x _ hx h1 h2
  rw [h, hx]
  simp only [Res.ok_bind]
  rw [if_neg (by omega)]
  rfl

theorem narrow_bmod {ρ : Type} {R : TReader ρ} (h : ∀ w r, R.asIntN w r = (do
      let x ← R.asInt64 r
      pure (x.toInt.bmod (2 ^ w)))) : Narrow R := by
  intro w r x hw hx h1 h2
  rw [h, hx]
  simp only [Res.ok_bind, Res.pure_eq]
  rw [Int.bmod_eq_of_le]
  · rcases hw with rfl | rfl <;> simp at h1 ⊢ <;> omega
  · rcases hw with rfl | rfl <;> simp at h2 ⊢ <;> omega

/-- From a round trip that keeps the signedness. -/
theorem head_of_strict {P : Proto} {D : Val → Prop} (h : P.RoundTrips True D) {i : Int64} {xs : List Val} {b : Bytes}
    {r e : P.ρ} (hD : D (.arr (.int i :: xs))) (hb : P.serialize (.arr (.int i :: xs)) = .ok b) (hr : P.opn b = .ok r)
    (he : P.reader.getIdx r 0 = .ok e) : P.reader.isInt e = .ok true := by
  obtain ⟨r', hr', ha⟩ := h _ b hD hb
  rw [hr] at hr'; injection hr' with hr'; subst hr'
  cases ha with
  | arr child _ _ hg _ hc =>
    have g := hg 0 (by simp)
    rw [he] at g; injection g with g
    have a := hc 0 (by simp)
    rw [← g] at a
    cases a with
    | int _ hs => exact (hs trivial).1

/-- From a reader whose unsigned integers are also signed. -/
theorem head_of_uint {P : Proto} {q : Prop} {D : Val → Prop} (h : P.RoundTrips q D)
    (hu : ∀ r, P.reader.isUInt r = .ok true → P.reader.isInt r = .ok true) {i : Int64} {xs : List Val} {b : Bytes}
    {r e : P.ρ} (hD : D (.arr (.int i :: xs))) (hb : P.serialize (.arr (.int i :: xs)) = .ok b) (hr : P.opn b = .ok r)
    (he : P.reader.getIdx r 0 = .ok e) : P.reader.isInt e = .ok true := by
  obtain ⟨r', hr', ha⟩ := h _ b hD hb
  rw [hr] at hr'; injection hr' with hr'; subst hr'
  cases ha with
  | arr child _ _ hg _ hc =>
    have g := hg 0 (by simp)
    rw [he] at g; injection g with g
    have a := hc 0 (by simp)
    rw [← g] at a
    cases a with
    | int hs _ =>
      obtain ⟨⟨_, _, ⟨i, u, h1, h2, h3⟩, _⟩, _⟩ := hs
      cases u with
      | true => exact hu _ h2
      | false => simp only [Bool.or_false] at h3; rw [h1, h3]

/-- ZERA; `asInt8` is zera.hpp:262-288, `asBlob` returns a span. -/
def zera : TProto := { Zera.proto with asIntN := Zera.View.asIntN, span := true }

theorem zera_law : zera.Law True (fun _ => True) where
  roundTrips := Zera.proto_roundTrips
  same _ _ := trivial
  narrow _ := narrow_checked fun _ _ => rfl
  head hD _ _ hb hr he := head_of_strict Zera.proto_roundTrips hD hb hr he

/-- MessagePack; `asInt8` is msgpack.hpp:281-303, `asBlob` returns a span. -/
def msgpack : TProto := { MsgPack.proto with asIntN := MsgPack.asIntN, span := true }

theorem msgpack_law : msgpack.Law False (fun v => v.Sized ∧ v.Below (2 ^ 32 - 5)) where
  roundTrips := MsgPack.proto_roundTrips
  same h hw := MsgPack.sized_same h hw
  narrow _ := narrow_checked fun _ _ => rfl
  head := by
    intro i xs b r e hD h1 h2 hb hr he
    have hb' : b = MsgPack.pack (emit (.arr (.int i :: xs))) := by
      have := MsgPack.serialize_eq (.arr (.int i :: xs))
      rw [show msgpack.toProto = MsgPack.proto from rfl, this] at hb
      injection hb with hb; exact hb.symm
    have hr' : r = b := by injection hr with hr; exact hr.symm
    have he' : MsgPack.getIdx r 0 = .ok e := he
    have H : MsgPack.ArrHead (xs.length + 1) (MsgPack.packArrHead (xs.length + 1)) := by
      refine MsgPack.packArrHead_ok ?_
      have := hD.1
      simp only [Val.Sized, List.length_cons] at this
      exact this.1
    obtain ⟨x, hx, hm⟩ : ∃ x : UInt8, MsgPack.packInt i.toInt = [x] ∧ (x.toNat ≤ 0x7f ∨ x.toNat ≥ 0xe0) := by
      by_cases h0 : i.toInt < 0
      · have : i.toInt = -1 := by omega
        rw [this]
        exact ⟨0xff, by decide, by decide⟩
      · refine ⟨UInt8.ofNat i.toInt.toNat, ?_, .inl ?_⟩
        · unfold MsgPack.packInt
          rw [if_neg (by omega), if_neg h0]
          unfold MsgPack.packUInt
          rw [if_pos (by omega)]
        · rw [UInt8.toNat_ofNat']; omega
    have hp : r = MsgPack.packArrHead (xs.length + 1) ++ ([x] ++ MsgPack.pack (emitList xs ++ [.endArr])) := by
      rw [hr', hb']
      simp only [emit, emitList, MsgPack.pack, List.length_cons]
      simp [MsgPack.packEv, hx]
      rfl
    have hE : MsgPack.Elem (2 ^ 32 - 5) [x] := by
      refine .single ?_
      rcases hm with hm | hm
      · refine .inl ?_
        rw [UInt8.le_iff_toNat_le]; exact hm
      · refine .inr (.inl ?_)
        rw [UInt8.le_iff_toNat_le]; exact hm
    rw [hp] at he'
    simp only [MsgPack.getIdx, MsgPack.arrInfo_head H, Res.ok_bind, decide_eq_true (Nat.succ_pos xs.length),
      Res.require_true, MsgPack.skipLoop, Res.pure_eq, MsgPack.subspan_append, hE.skip, MsgPack.first_append] at he'
    injection he' with he'
    subst he'
    show Res.ok (MsgPack.isInt [x]) = _
    congr 1
    simp only [MsgPack.isInt, MsgPack.onMarker, decide_eq_true_eq]
    omega

/-- CBOR; `asInt8` is cbor.hpp:245-253, `asBlob` returns a span. -/
def cbor (utf8 : Bytes → Bool) (maxDepth fuel : Nat) : TProto :=
  { Cbor.proto utf8 maxDepth false fuel with asIntN := Cbor.View.asIntN, span := true }

theorem cbor_law (utf8 : Bytes → Bool) (maxDepth fuel : Nat) :
    (cbor utf8 maxDepth fuel).Law False (Cbor.Dom utf8 maxDepth fuel) where
  roundTrips := Cbor.proto_roundTrips
  same h hw := Cbor.dom_same h hw
  narrow _ := narrow_checked fun _ _ => rfl
  head hD _ _ hb hr he := by
    refine head_of_uint (P := Cbor.proto utf8 maxDepth false fuel) Cbor.proto_roundTrips ?_ hD hb hr he
    intro r h
    have h' : Cbor.View.isUInt r = .ok true := h
    show Cbor.View.isInt r = .ok true
    unfold Cbor.View.isUInt at h'
    obtain ⟨hd, h1, h2⟩ := Res.bind_eq_ok.1 h'
    simp only [Res.pure_eq, Res.ok.injEq, decide_eq_true_eq] at h2
    simp [Cbor.View.isInt, h1, h2]

/-- JSON; `asInt8` is json.hpp:158-162, `asBlob` returns a vector. -/
def json (T : Json.Text) (dbg : Bool) : TProto := { Json.proto T dbg with asIntN := Json.asIntN, span := false }

theorem json_law {T : Json.Text} (L : T.Law) (dbg : Bool) :
    (json T dbg).Law False (fun v => Json.Plain v ∧ Json.KeysOk v) where
  roundTrips := Json.proto_roundTrips L dbg
  same h hw := ⟨Json.plain_same h hw.1, Json.keysOk_same h hw.2⟩
  narrow _ := narrow_bmod fun _ _ => rfl
  head hD _ _ hb hr he := by
    refine head_of_uint (P := Json.proto T dbg) (Json.proto_roundTrips L dbg) ?_ hD hb hr he
    intro r h
    have h' : Res.ok (Json.isUInt r) = .ok true := h
    show Res.ok (Json.isInt r) = .ok true
    cases r <;> first | rfl | (simp [Json.isUInt] at h')

/-- Flex; `asInt8` is flex.hpp:222-228, `asBlob` returns a span. -/
def flex (L : Flex.Lib) (dbg : Bool) : TProto := { Flex.proto L dbg with asIntN := Flex.asIntN, span := true }

theorem sorted_same {v w : Val} (h : v.Same w) (hw : w.Sorted) : v.Sorted := by
  refine Val.each_same (fun v => ?_) h hw
  cases v with
  | map ms => simp only [Val.canon, Val.canonEntries_keys]
  | int i => by_cases h : 0 ≤ i.toInt <;> simp [Val.canon, h]
  | _ => exact Iff.rfl

theorem flex_law {L : Flex.Lib} (H : L.Law) (dbg : Bool) :
    (flex L dbg).Law True (fun v => v.Distinct ∧ v.NulFree ∧ v.Sorted ∧ Flex.Fits v) where
  roundTrips := Flex.proto_roundTrips H dbg
  same h hw := ⟨Flex.distinct_same h hw.1, Flex.nulFree_same h hw.2.1, sorted_same h hw.2.2.1, Flex.fits_same h hw.2.2.2⟩
  narrow _ := narrow_bmod fun _ _ => rfl
  head hD _ _ hb hr he := head_of_strict (Flex.proto_roundTrips H dbg) hD hb hr he

/-! ## Translation -/

/-- A writer that looks at the second call only. -/
def probe (i : Int64) : Writer Bool :=
  ⟨fun s e => if s then (if e = .int i then .err .logic else .err .abort) else .ok true⟩

theorem emit_head {v : Val} {i : Int64} {t : List Ev} (h : emit v = .int i :: t) : v = .int i := by
  cases v <;> simp [emit] at h
  rw [h.1]

theorem emit_ne_nil (v : Val) : emit v ≠ [] := by cases v <;> simp [emit]

/-- The value that is written for a position that presents a tensor starts with the signed integer. -/
theorem Presents.written {ρ : Type} {R : Reader ρ} {r : ρ} {c : Int} {dims : List Nat} {bytes : Bytes}
    (h : Presents R r c dims bytes) {x : Val} {xs : List Val} {f : Nat}
    (hw : ∀ (σ : Type) (W : Writer σ) (s : σ), writeValue R W (f + 2) r s = W.run s (emit (.arr (x :: xs)))) :
    x = .int (Int64.ofInt c) := by
  obtain ⟨ha, hh⟩ := h
  cases ha with
  | arr child hs hn hg _ hcs =>
    have g0 := hg 0 (by simp)
    have a0 := hcs 0 (by simp)
    have hi := hh _ g0
    simp only [List.getElem_cons_zero] at a0
    obtain ⟨h1, h2, ⟨ib, ub, h3, h4, hor⟩, h5, h6, h7, h8, h9⟩ := hs
    simp only [Bool.or_eq_false_iff] at hor
    obtain ⟨rfl, rfl⟩ := hor
    have e : writeValue R (probe (Int64.ofInt c)) (f + 1) (child 0) true = .err .logic := by
      cases a0 with
      | int h0 _ =>
        obtain ⟨⟨b1, b2, _⟩, hx, _⟩ := h0
        obtain ⟨y, hy, e⟩ := hx hi
        have := Int64.toInt_inj.1 e
        subst this
        simp [writeValue, b1, b2, hi, hy, probe]
    have e2 : writeValue R (probe (Int64.ofInt c)) (f + 2) r false = .err .logic := by
      rw [writeValue]
      simp only [h1, h2, h3, h4, h5, h6, h7, h8, h9, hn, Res.ok_bind, Bool.false_eq_true, if_false, if_true,
        List.length_cons, List.length_nil]
      have hp : (probe (Int64.ofInt c)).step false (.beginArr (0 + 1 + 1 + 1)) = .ok true := rfl
      rw [hp]
      simp only [Res.ok_bind, writeElems, g0, e, Res.err_bind]
    rw [hw, emit, emitList] at e2
    cases hx : emit x with
    | nil => exact absurd hx (emit_ne_nil x)
    | cons a t =>
      rw [hx] at e2
      by_cases ha : a = .int (Int64.ofInt c)
      · subst ha; exact emit_head hx
      · simp [probe, ha] at e2

theorem same_arr {v : Val} {ys : List Val} (h : v.Same (.arr ys)) :
    ∃ xs, v = .arr xs ∧ xs.map Val.canon = ys.map Val.canon := by
  have hk := Val.same_kind h
  cases v <;> simp [Val.kind] at hk
  rename_i xs
  simp only [Val.Same, Val.canon, Val.canonList_eq] at h
  injection h with h
  exact ⟨xs, rfl, h⟩

theorem tval_distinct (c : Int) (dims : List Nat) (bytes : Bytes) : (tval c dims bytes).Distinct := by
  simp only [tval, Val.Distinct, Val.distinctList, and_true, true_and, Val.distinctList_iff, List.mem_map]
  rintro x ⟨d, _, rfl⟩
  trivial

theorem tval_depth (c : Int) (dims : List Nat) (bytes : Bytes) : 2 ≤ (tval c dims bytes).depth := by
  simp only [tval, Val.depth, Val.depthList]; omega

/-- Writing a tensor and reading it presents it. -/
theorem TProto.Law.presents {P : TProto} {q : Prop} {D : Val → Prop} (L : P.Law q D) {c : Int}
    (hc : -1 ≤ c ∧ c ≤ 14) {dims : List Nat} {bytes : Bytes} (hD : D (tval c dims bytes)) {v b : _}
    (hs : Val.Same v (tval c dims bytes)) (hv : ∃ xs, v = .arr (.int (Int64.ofInt c) :: xs))
    (hb : P.serialize v = .ok b) : ∃ r, P.opn b = .ok r ∧ Presents P.reader r c dims bytes := by
  have hD' := L.same hs hD
  obtain ⟨r, hr, ha⟩ := L.roundTrips _ b hD' hb
  refine ⟨r, hr, ha.agrees.same _ hs, fun e he => ?_⟩
  obtain ⟨xs, rfl⟩ := hv
  exact L.head hD' (by rw [ofInt_code hc]; omega) (by rw [ofInt_code hc]; omega) hb hr he

/-- Translating a tensor presents it again. -/
theorem TProto.Law.translate {ρ : Type} {R : Reader ρ} {r : ρ} {Q : TProto} {q : Prop} {D : Val → Prop}
    (L : Q.Law q D) {c : Int} (hc : -1 ≤ c ∧ c ≤ 14) {dims : List Nat} {bytes : Bytes}
    (hD : D (tval c dims bytes)) (h : Presents R r c dims bytes) {f : Nat} (hf : (tval c dims bytes).depth ≤ f) :
    ∃ v', v'.Same (tval c dims bytes) ∧ (∃ xs, v' = .arr (.int (Int64.ofInt c) :: xs)) ∧
      Q.translate R f r = (Q.serialize v' >>= Q.opn) ∧
      ∀ r', Q.translate R f r = .ok r' → Presents Q.reader r' c dims bytes := by
  obtain ⟨v', h1, _, h3⟩ := writeValue_run _ r h.agrees
  rw [Val.firstWins_of_distinct _ (tval_distinct c dims bytes)] at h1
  have hhead : ∃ xs, v' = .arr (.int (Int64.ofInt c) :: xs) := by
    obtain ⟨xs, rfl, hxs⟩ := same_arr h1
    match xs, hxs with
    | [], hxs => simp at hxs
    | x :: xs, _ =>
      have := tval_depth c dims bytes
      have hx : x = .int (Int64.ofInt c) := h.written (f := f - 2) (fun σ W s => by
        rw [show f - 2 + 2 = f by omega]
        exact h3 σ W f hf s)
      exact ⟨xs, by rw [hx]⟩
  have e : Q.translate R f r = (Q.serialize v' >>= Q.opn) := by
    simp only [Proto.translate, Proto.serialize, Proto.bytesOf, h3 _ Q.writer f hf Q.init, bind_assoc]
  refine ⟨v', h1, hhead, e, fun r' hr => ?_⟩
  rw [e] at hr
  obtain ⟨b, hb, ho⟩ := Res.bind_eq_ok.1 hr
  obtain ⟨r'', hr'', hp⟩ := L.presents hc hD h1 hhead hb
  rw [ho] at hr''; injection hr'' with hr''; subst hr''
  exact hp

/-- Positions at which a tensor arrives: written to a protocol and read, then translated any number of
times. -/
inductive Arrives (c : Int) (dims : List Nat) (bytes : Bytes) : (P : TProto) → P.ρ → Prop where
  | written {P : TProto} {q : Prop} {D : Val → Prop} {b : Bytes} {r : P.ρ} (L : P.Law q D)
      (hD : D (tval c dims bytes)) (hb : P.serialize (tval c dims bytes) = .ok b) (hr : P.opn b = .ok r) :
      Arrives c dims bytes P r
  | translated {P Q : TProto} {q : Prop} {D : Val → Prop} {r : P.ρ} {r' : Q.ρ} {f : Nat} (L : Q.Law q D)
      (hD : D (tval c dims bytes)) (h : Arrives c dims bytes P r) (hf : (tval c dims bytes).depth ≤ f)
      (ht : Q.translate P.reader f r = .ok r') : Arrives c dims bytes Q r'

theorem Arrives.presents {c : Int} (hc : -1 ≤ c ∧ c ≤ 14) {dims : List Nat} {bytes : Bytes} {P : TProto} {r : P.ρ}
    (h : Arrives c dims bytes P r) : Presents P.reader r c dims bytes := by
  induction h with
  | written L hD hb hr =>
    obtain ⟨r', hr', hp⟩ := L.presents hc hD rfl ⟨_, rfl⟩ hb
    rw [hr] at hr'; injection hr' with hr'; subst hr'
    exact hp
  | translated L hD _ hf ht ih => 
    obtain ⟨_, _, _, _, h⟩ := L.translate hc hD ih hf
    exact h _ ht

theorem Arrives.narrow {c : Int} {dims : List Nat} {bytes : Bytes} {P : TProto} {r : P.ρ}
    (h : Arrives c dims bytes P r) (addr : P.ρ → Nat) : Narrow (P.treader addr) := by
  cases h with
  | written L => exact L.narrow addr
  | translated L => exact L.narrow addr

end Zer.Tensor
