import Verif.Typed

/-!
# Typed access in the five protocols
-/

namespace Zer.Typed

open Zer

/-! ## ZERA -/

/-- ZERA; narrow accessors zera.hpp:271-304 -/
def zera : AProto := { Zera.proto with asIntN := Zera.View.asIntN, asUIntN := Zera.View.asUIntN }

theorem zera_bits_lt {v : Zera.View} {n : Nat} (h : v.bits = .ok n) : n < 2 ^ 64 := by
  unfold Zera.View.bits Zera.View.a Zera.View.b at h
  obtain ⟨x, h1, h⟩ := Res.bind_eq_ok.1 h
  obtain ⟨y, h2, h⟩ := Res.bind_eq_ok.1 h
  obtain ⟨_, _, h1⟩ := Res.bind_eq_ok.1 h1
  obtain ⟨_, _, h2⟩ := Res.bind_eq_ok.1 h2
  have hx := Zera.readU32_lt h1
  have hy := Zera.readU32_lt h2
  injection h with h
  subst h
  rw [Nat.shiftLeft_eq]
  exact Nat.or_lt_two_pow (by omega) (by omega)

theorem toInt64_small {n : Nat} (h : n < 2 ^ 63) : (UInt64.ofNat n).toInt64.toInt = n := by
  have e : (UInt64.ofNat n).toInt64.toInt = ((UInt64.ofNat n).toNat : Int).bmod (2 ^ 64) := BitVec.toInt_eq_toNat_bmod _
  rw [e, UInt64.toNat_ofNat', Nat.mod_eq_of_lt (by omega)]
  exact Int.bmod_eq_of_le (by omega) (by omega)

theorem toUInt64_nonneg {i : Int64} (h : 0 ≤ i.toInt) : (i.toUInt64.toNat : Int) = i.toInt := by
  have := Int64.toNat_toUInt64_of_le (x := i) (Int64.le_iff_toInt_le.2 (by simpa using h))
  have h2 : i.toUInt64.toNat = i.toInt.toNat := by rw [this]; rfl
  omega

theorem zera_ints {r : Zera.View} {z : Int} (h : Zera.reader.ShowsInt r z) : Reads64 Zera.reader r z := by
  obtain ⟨⟨-, -, ⟨i, u, hi, hu, hiu⟩, -⟩, h1, h2⟩ := h
  have hi' : r.isInt = .ok i := hi
  have hu' : r.isUInt = .ok u := hu
  simp only [Zera.View.isInt, Zera.View.isUInt] at hi' hu'
  obtain ⟨t, ht, hi'⟩ := Res.bind_eq_ok.1 hi'
  simp only [ht, Res.ok_bind, Res.pure_eq, Res.ok.injEq] at hi' hu'
  cases i with
  | true =>
    have ht' : t = Zera.tI64 := by simpa using hi'
    obtain ⟨x, hx, rfl⟩ := h1 hi
    refine ⟨fun _ => ⟨x, hx, rfl⟩, fun h0 => ?_⟩
    have hx' : r.asInt64 = .ok x := hx
    show ∃ y, r.asUInt64 = .ok y ∧ _
    unfold Zera.View.asInt64 at hx'
    unfold Zera.View.asUInt64
    subst ht'
    have hne : Zera.tI64 ≠ Zera.tU64 := by decide
    simp only [ht, Res.ok_bind, decide_true, Bool.true_or, Bool.or_true, Res.require_true, if_neg hne, if_true] at hx' ⊢
    obtain ⟨f, hf, hx'⟩ := Res.bind_eq_ok.1 hx'
    obtain ⟨b, hb, hx'⟩ := Res.bind_eq_ok.1 hx'
    simp only [Res.pure_eq, Res.ok.injEq] at hx'
    subst hx'
    simp only [hf, hb, Res.ok_bind, decide_eq_true h0, Res.require_true, Res.pure_eq]
    exact ⟨_, rfl, toUInt64_nonneg h0⟩
  | false =>
    have hut : u = true := by simpa using hiu
    subst hut
    have ht' : t = Zera.tU64 := by simpa using hu'
    obtain ⟨y, hy, rfl⟩ := h2 hu
    refine ⟨fun h63 => ?_, fun _ => ⟨y, hy, rfl⟩⟩
    have hy' : r.asUInt64 = .ok y := hy
    show ∃ x, r.asInt64 = .ok x ∧ _
    unfold Zera.View.asUInt64 at hy'
    unfold Zera.View.asInt64
    subst ht'
    have hne : Zera.tU64 ≠ Zera.tI64 := by decide
    simp only [ht, Res.ok_bind, decide_true, Bool.true_or, Bool.or_true, Res.require_true, if_neg hne, if_true] at hy' ⊢
    obtain ⟨f, hf, hy'⟩ := Res.bind_eq_ok.1 hy'
    obtain ⟨b, hb, hy'⟩ := Res.bind_eq_ok.1 hy'
    simp only [Res.pure_eq, Res.ok.injEq] at hy'
    have hlt := zera_bits_lt hb
    have e : y.toNat = b := by rw [← hy', UInt64.toNat_ofNat', Nat.mod_eq_of_lt hlt]
    have hb63 : b < 2 ^ 63 := by omega
    simp only [hf, hb, Res.ok_bind, decide_eq_true (show b ≤ 2 ^ 63 - 1 by omega), Res.require_true, Res.pure_eq]
    exact ⟨_, rfl, by rw [toInt64_small hb63, e]⟩

theorem zera_typed : zera.TypedRoundTrips (fun _ => True) :=
  typed_of_lax (Q := fun _ => True) Zera.proto_roundTrips (checked_narrows (fun _ _ => rfl) fun _ _ => rfl) (fun _ _ => trivial)
    (fun _ _ => trivial) (fun _ _ => trivial) fun _ h => zera_ints h

/-! ## MessagePack -/

/-- MessagePack; narrow accessors msgpack.hpp:268-290, 309-331 -/
def msgpack : AProto := { MsgPack.proto with asIntN := MsgPack.asIntN, asUIntN := MsgPack.asUIntN }

theorem readBe64_lt {v : Bytes} {p n : Nat} (h : MsgPack.readBe64 v p = .ok n) : n < 2 ^ 64 := by
  unfold MsgPack.readBe64 at h
  obtain ⟨x0, h0, h⟩ := Res.bind_eq_ok.1 h
  obtain ⟨x1, h1, h⟩ := Res.bind_eq_ok.1 h
  obtain ⟨x2, h2, h⟩ := Res.bind_eq_ok.1 h
  obtain ⟨x3, h3, h⟩ := Res.bind_eq_ok.1 h
  obtain ⟨x4, h4, h⟩ := Res.bind_eq_ok.1 h
  obtain ⟨x5, h5, h⟩ := Res.bind_eq_ok.1 h
  obtain ⟨x6, h6, h⟩ := Res.bind_eq_ok.1 h
  obtain ⟨x7, h7, h⟩ := Res.bind_eq_ok.1 h
  injection h with h
  have := byteAt_lt h0; have := byteAt_lt h1; have := byteAt_lt h2; have := byteAt_lt h3
  have := byteAt_lt h4; have := byteAt_lt h5; have := byteAt_lt h6; have := byteAt_lt h7
  omega

theorem msgpack_ints {r : Bytes} {z : Int} (h : MsgPack.reader.ShowsInt r z) : Reads64 MsgPack.reader r z := by
  obtain ⟨⟨-, -, ⟨i, u, hi, hu, hiu⟩, -⟩, h1, h2⟩ := h
  cases r with
  | nil =>
    injection hi with hi; injection hu with hu
    subst hi; subst hu; cases hiu
  | cons x t =>
    have hb : byteAt (x :: t) 0 = .ok x.toNat := rfl
    have hl : decide ((x :: t).length ≠ 0) = true := by simp
    have hlt := x.toNat_lt
    injection hi with hi; injection hu with hu
    simp only [MsgPack.isInt, MsgPack.isUInt, MsgPack.onMarker] at hi hu
    have big : ∀ n : Nat, (n : Int) < 2 ^ 63 → (MsgPack.i64 n).toInt = n := by
      intro n hn
      unfold MsgPack.i64
      rw [Int64.toInt_ofInt]
      exact Int.bmod_eq_of_le (by simp [Int64.size]) (by simp [Int64.size]; omega)
    cases i with
    | true =>
      obtain ⟨y, hy, rfl⟩ := h1 (by show Res.ok _ = _; simp only [MsgPack.isInt, MsgPack.onMarker, hi])
      refine ⟨fun _ => ⟨y, hy, rfl⟩, fun h0 => ?_⟩
      show ∃ y', MsgPack.asUInt64 _ = .ok y' ∧ _
      have hy' : MsgPack.asInt64 (x :: t) = .ok y := hy
      cases u with
      | true => exact h2 (by show Res.ok _ = _; simp only [MsgPack.isUInt, MsgPack.onMarker, hu])
      | false =>
        have hn := of_decide_eq_false hu
        unfold MsgPack.asUInt64
        simp only [hl, Res.require_true, Res.ok_bind, hb]
        rw [if_neg (by omega), if_neg (by omega), if_neg (by omega), if_neg (by omega), if_neg (by omega)]
        simp only [hy', Res.ok_bind, Res.pure_eq]
        exact ⟨_, rfl, toUInt64_nonneg h0⟩
    | false =>
      have hut : u = true := by simpa using hiu
      subst hut
      obtain ⟨y, hy, rfl⟩ := h2 (by show Res.ok _ = _; simp only [MsgPack.isUInt, MsgPack.onMarker, hu])
      refine ⟨fun h63 => ?_, fun _ => ⟨y, hy, rfl⟩⟩
      show ∃ x', MsgPack.asInt64 _ = .ok x' ∧ _
      have hy' : MsgPack.asUInt64 (x :: t) = .ok y := hy
      have hn := of_decide_eq_false hi
      have hm := of_decide_eq_true hu
      unfold MsgPack.asUInt64 at hy'
      unfold MsgPack.asInt64
      simp only [hl, Res.require_true, Res.ok_bind, hb] at hy' ⊢
      have fin : ∀ n : Nat, n < 2 ^ 64 → y = UInt64.ofNat n → (MsgPack.i64 n).toInt = y.toNat := by
        rintro n hn rfl
        have e : (UInt64.ofNat n).toNat = n := by rw [UInt64.toNat_ofNat', Nat.mod_eq_of_lt hn]
        rw [e] at h63 ⊢
        exact big n h63
      rcases hm with hm | hm | hm | hm | hm
      · omega
      all_goals
        simp only [hm, if_true, Nat.reduceLeDiff, ge_iff_le, if_false, Nat.reduceEqDiff] at hy' ⊢
        obtain ⟨_, e1, hy'⟩ := Res.bind_eq_ok.1 hy'
        obtain ⟨n, e2, hy'⟩ := Res.bind_eq_ok.1 hy'
        simp only [e1, e2, Res.ok_bind, Res.pure_eq]
        simp only [Res.pure_eq, Res.ok.injEq] at hy'
        refine ⟨_, rfl, fin n ?_ hy'.symm⟩
      · have := byteAt_lt e2; omega
      · have := MsgPack.readBe16_lt e2; omega
      · have := MsgPack.readBe32_lt e2; omega
      · exact readBe64_lt e2

theorem msgpack_typed : msgpack.TypedRoundTrips (fun v => v.Sized ∧ v.Below (2 ^ 32 - 5)) :=
  typed_of_lax (Q := fun _ => True) MsgPack.proto_roundTrips (checked_narrows (fun _ _ => rfl) fun _ _ => rfl) (fun _ _ => trivial)
    (fun _ _ => trivial) (fun _ _ => trivial) fun _ h => msgpack_ints h

/-! ## JSON -/

/-- JSON; narrow accessors json.hpp:159-166 -/
def json (T : Json.Text) (dbg : Bool) : AProto := { Json.proto T dbg with asIntN := Json.asIntN, asUIntN := Json.asUIntN }

/-- What yyjson reads of what it wrote has its non-negative integers as UINT. -/
theorem json_canon {T : Json.Text} (L : T.Law) {dbg : Bool} {v r : Val} {b : Bytes} (hb : (json T dbg).serialize v = .ok b)
    (hr : (json T dbg).opn b = .ok r) : ∃ d : Val, r = d.canon := by
  have hb' : ((Json.writer dbg).run {} (emit v) >>= Json.finish T) = .ok b := hb
  obtain ⟨s, -, hf⟩ := Res.bind_eq_ok.1 hb'
  unfold Json.finish at hf
  by_cases hp : Json.Printable T (Json.doc s)
  · obtain ⟨c, h1, h2⟩ := L.written _ hp
    rw [h1] at hf
    injection hf with hf
    subst hf
    have hr' : Json.opn T c = .ok r := hr
    unfold Json.opn at hr'
    rw [h2] at hr'
    injection hr' with hr'
    exact ⟨_, hr'.symm⟩
  · rw [L.refused _ hp] at hf
    cases hf

theorem canon_num (i : Int64) : (∃ n : UInt64, (Val.int i).canon = .uint n) ∨ ((Val.int i).canon = .int i ∧ i.toInt < 0) := by
  simp only [Val.canon]
  split
  · exact .inl ⟨_, rfl⟩
  · exact .inr ⟨rfl, by omega⟩

theorem json_ints {d : Val} {z : Int} (h : Json.reader.ShowsInt d.canon z) : Reads64 Json.reader d.canon z := by
  obtain ⟨⟨-, -, ⟨i, u, hi, hu, hiu⟩, -⟩, h1, h2⟩ := h
  have key : ∀ n : UInt64, d.canon = .uint n → Reads64 Json.reader d.canon z := by
    intro n e
    rw [e] at h2 ⊢
    obtain ⟨y, hy, rfl⟩ := h2 rfl
    refine ⟨fun h63 => ⟨n.toInt64, rfl, ?_⟩, fun _ => ⟨y, hy, rfl⟩⟩
    injection hy with hy; subst hy
    have := toInt64_small (n := n.toNat) (by omega)
    rwa [UInt64.ofNat_toNat] at this
  cases d with
  | int j =>
    rcases canon_num j with ⟨n, e⟩ | ⟨e, hn⟩
    · exact key n e
    · rw [e] at h1 ⊢
      obtain ⟨x, hx, rfl⟩ := h1 rfl
      injection hx with hx
      subst hx
      exact ⟨fun _ => ⟨_, rfl, rfl⟩, fun h0 => by omega⟩
  | uint n => exact key n rfl
  | _ =>
    injection hi with hi; injection hu with hu
    subst hi; subst hu; cases hiu

theorem json_typed {T : Json.Text} (L : T.Law) (dbg : Bool) : (json T dbg).TypedRoundTrips (fun v => Json.Plain v ∧ Json.KeysOk v) := by
  refine typed_of_lax (P := json T dbg) (Q := fun r : Val => ∃ d : Val, r = d.canon) (Json.proto_roundTrips L dbg)
    (cast_narrows (fun _ _ => rfl) fun _ _ => rfl) (fun hb hr => json_canon L hb hr) ?_ ?_ ?_
  · rintro r i c ⟨d, rfl⟩ h
    have h' : Json.getIdx d.canon i = .ok c := h
    cases d with
    | arr xs =>
      simp only [Val.canon, Val.canonList_eq, Json.getIdx, List.getElem?_map] at h'
      cases e : xs[i]? with
      | none => simp [e] at h'
      | some x =>
        simp only [e, Option.map_some] at h'
        injection h' with h'
        exact ⟨x, h'.symm⟩
    | int j =>
      simp only [Val.canon] at h'
      split at h' <;> cases h'
    | _ => cases h'
  · rintro r k c ⟨d, rfl⟩ h
    have h' : Json.getKey d.canon k = .ok c := h
    cases d with
    | map ms =>
      simp only [Val.canon, Json.getKey, firstVal_canonEntries] at h'
      cases e : firstVal ms k with
      | none => simp [e] at h'
      | some x =>
        simp only [e, Option.map_some] at h'
        injection h' with h'
        exact ⟨x, h'.symm⟩
    | int j =>
      simp only [Val.canon] at h'
      split at h' <;> cases h'
    | _ => cases h'
  · rintro r z ⟨d, rfl⟩ h
    exact json_ints h

/-! ## CBOR -/

/-- CBOR; narrow accessors cbor.hpp:241-243, 254-256 -/
def cbor (utf8 : Bytes → Bool) (maxDepth fuel : Nat) : AProto :=
  { Cbor.proto utf8 maxDepth false fuel with asIntN := Cbor.View.asIntN, asUIntN := Cbor.View.asUIntN }

/-- Every encoded integer reads through the accessors of either sign, also one of 2^63 or more. -/
theorem cbor_ints {z : Int} {b : Bytes} (H : Cbor.EncInt z b) (h1 : -2 ^ 63 ≤ z) (h2 : z < 2 ^ 64) {f : Nat} {v : Bytes} {p : Nat}
    (ha : At v p b) : Reads64 (Cbor.reader false f) ⟨v, p⟩ z := by
  rcases H with ⟨h0, H⟩ | ⟨h0, H⟩
  · obtain ⟨a, hr⟩ := H.read (by omega) false ha
    have e : ((z.toNat : Nat) : Int) = z := by omega
    refine ⟨fun h63 => ⟨Int64.ofInt z, ?_, Cbor.i64_toInt h1 h63⟩, fun _ => ⟨UInt64.ofNat z.toNat, ?_, ?_⟩⟩
    · simp [Cbor.reader, Cbor.View.asInt64, Cbor.View.head, hr, e]
    · simp [Cbor.reader, Cbor.View.asUInt64, Cbor.View.head, hr]
    · rw [UInt64.toNat_ofNat']; omega
  · obtain ⟨a, hr⟩ := H.read (by omega) false ha
    refine ⟨fun h63 => ⟨Int64.ofInt z, ?_, Cbor.i64_toInt h1 h63⟩, fun h => by omega⟩
    have e : -1 - (((-1 - z).toNat : Nat) : Int) = z := by omega
    have h3 : (-1 - z).toNat ≤ 2 ^ 63 - 1 := by omega
    have h10 : (1 : Nat) ≠ 0 := by decide
    simp only [Cbor.reader, Cbor.View.asInt64, Cbor.View.head, hr, Res.ok_bind, e, or_true, decide_true, Res.require_true,
      if_neg h10, decide_eq_true h3, Res.pure_eq]

/-- A subscript leads from an encoded value to an encoded part. -/
theorem cbor_at {v : Bytes} {f : Nat} (hv : v.length < 2 ^ 64) (hf : v.length ≤ f) : ∀ {s : List Step} {w u : Val} {b : Bytes} {p : Nat},
    Cbor.Enc false w b → At v p b → valAt w s = some u →
    ∃ q c, readAt (Cbor.reader false f) ⟨v, p⟩ s = .ok ⟨v, q⟩ ∧ Cbor.Enc false u c ∧ At v q c
  | [], w, u, b, p, he, ha, e => by
    have : w = u := by cases w <;> simpa [valAt] using e
    subst this
    exact ⟨p, b, rfl, he, ha⟩
  | .idx i :: s, w, u, b, p, he, ha, e => by
    cases w <;> simp only [valAt] at e <;> try cases e
    rename_i xs
    split at e
    · rename_i x hx
      obtain ⟨hl', rfl⟩ := List.getElem?_eq_some_iff.1 hx
      simp only [Cbor.Enc] at he
      obtain ⟨cs, hc, hg⟩ := he
      obtain ⟨hl, hi⟩ := Cbor.EncList.item xs hc
      rw [← hl] at hg
      obtain ⟨q, hq1, hq2, haq, hget⟩ := Cbor.getIdx_at hi hg hv ha hf
      have hi2 : i < cs.length := by omega
      obtain ⟨q', c, h1, h2, h3⟩ := cbor_at hv hf (hc.nth i hl' hi2) (Cbor.at_nth haq i hi2) e
      refine ⟨q', c, ?_, h2, h3⟩
      have g : (Cbor.reader false f).getIdx ⟨v, p⟩ i = .ok ⟨v, q + (cs.take i).flatten.length⟩ := by
        show Cbor.View.getIdx f ⟨v, p⟩ i = _
        rw [hget, if_pos hi2]
      simp only [readAt, g, Res.ok_bind, h1]
    · cases e
  | .key k :: s, w, u, b, p, he, ha, e => by
    cases w <;> simp only [valAt] at e <;> try cases e
    rename_i ms
    split at e
    · rename_i x hx
      simp only [Cbor.Enc] at he
      obtain ⟨cs, hc, hg⟩ := he
      obtain ⟨stop, hstop, hkey⟩ := Cbor.getKey_at (hard := false) hc hg hv ha (fun h => by cases h) hf
      have := hkey k
      simp only [Cbor.Found, hx] at this
      obtain ⟨c, q, h, he', ha', hle⟩ := this
      obtain ⟨q', c', h1, h2, h3⟩ := cbor_at hv hf he' ha' e
      refine ⟨q', c', ?_, h2, h3⟩
      have g : (Cbor.reader false f).getKey ⟨v, p⟩ k = .ok ⟨v, q⟩ := h
      simp only [readAt, g, Res.ok_bind, h1]
    · cases e

theorem cbor_typed (utf8 : Bytes → Bool) (maxDepth fuel : Nat) : (cbor utf8 maxDepth fuel).TypedRoundTrips (fun v => ∀ b,
    (Cbor.proto utf8 maxDepth false fuel).serialize v = .ok b → b.length < 2 ^ 64 ∧ b.length ≤ fuel) := by
  intro v b hD hb
  obtain ⟨hl, hf⟩ := hD b hb
  refine ⟨⟨b, 0⟩, rfl, fun s u e => ?_⟩
  have henc := Cbor.c23_cbor_format hb hl
  obtain ⟨q, c, h1, h2, h3⟩ := cbor_at hl hf henc ⟨[], [], by simp, rfl⟩ e
  refine ⟨⟨b, q⟩, h1, ?_⟩
  have N : (cbor utf8 maxDepth fuel).acc.Narrows := checked_narrows (fun _ _ => rfl) fun _ _ => rfl
  have leaf : u.Small → u.kind ≠ 2 → Whole (cbor utf8 maxDepth fuel).acc ⟨b, q⟩ u := by
    intro hs hk
    have ha := Cbor.Enc.agrees (ind := false) (hard := false) hl hf u h2 h3 hs (fun h => by cases h)
    refine ⟨readsVal_of (A := (cbor utf8 maxDepth fuel).acc) ha ?_ ?_, fun h => absurd h hk⟩
    · rintro i rfl; exact absurd rfl hk
    · rintro i rfl; exact absurd rfl hk
  cases u with
  | int i =>
    simp only [Cbor.Enc] at h2
    have := i.le_toInt
    have := i.toInt_lt
    exact whole_int rfl (readsNum_of N (cbor_ints h2 (by omega) (by omega) h3))
  | uint n =>
    simp only [Cbor.Enc] at h2
    have := n.toNat_lt
    exact whole_int rfl (readsNum_of N (cbor_ints h2 (by omega) (by omega) h3))
  | arr xs =>
    simp only [Cbor.Enc] at h2
    obtain ⟨cs, hc, hg⟩ := h2
    obtain ⟨hl', hi⟩ := Cbor.EncList.item xs hc
    rw [← hl'] at hg
    obtain ⟨a, k, l, i, hr, _⟩ := hg.read (by omega) false h3
    have hs := Cbor.head_num (hard := false) (ind := false) (f := fuel) _ _ _ _ _ (by omega) hr
    refine ⟨⟨hs.2.2.2.2.2.2.2, ?_⟩, fun h => by simp [Val.kind] at h⟩
    rw [← hl']
    exact Cbor.arraySize_at hi hg hl h3 hf
  | map ms =>
    simp only [Cbor.Enc] at h2
    obtain ⟨cs, hc, hg⟩ := h2
    obtain ⟨a, k, l, i, hr, _⟩ := hg.read (by omega) false h3
    have hs := Cbor.head_num (hard := false) (ind := false) (f := fuel) _ _ _ _ _ (by omega) hr
    exact ⟨⟨hs.2.2.2.2.2.2.1, Cbor.mapKeys_at (ind := false) (hard := false) hc hg hl h3 hf⟩, fun h => by simp [Val.kind] at h⟩
  | _ => exact leaf (by simp [Val.Small, Val.Each]) (by simp [Val.kind])

/-! ## FlexBuffers -/

/-- Flex; narrow accessors flex.hpp:225-232 -/
def flex (L : Flex.Lib) (dbg : Bool) : AProto := { Flex.proto L dbg with asIntN := Flex.asIntN, asUIntN := Flex.asUIntN }

theorem flex_narrows (L : Flex.Lib) (dbg : Bool) : (flex L dbg).acc.Narrows := cast_narrows (fun _ _ => rfl) fun _ _ => rfl

theorem valAt_sortKeys : ∀ (p : List Step) {v : Val}, v.Distinct → valAt v.sortKeys p = (valAt v p).map Val.sortKeys
  | [], v, _ => by cases v <;> simp [valAt, Val.sortKeys]
  | .idx i :: p, v, hd => by
    cases v with
    | arr xs =>
      simp only [Val.sortKeys, Val.sortKeysList_eq, valAt, List.getElem?_map]
      cases h : xs[i]? with
      | none => rfl
      | some x =>
        simp only [Val.Distinct, Val.distinctList_iff] at hd
        exact valAt_sortKeys p (hd x (List.mem_of_getElem? h))
    | _ => rfl
  | .key k :: p, v, hd => by
    cases v with
    | map ms =>
      simp only [Val.Distinct, Val.distinctEntries_iff] at hd
      have hp := List.mergeSort_perm (Val.sortKeysEntries ms) keyLe
      have e : firstVal ((Val.sortKeysEntries ms).mergeSort keyLe) k = (firstVal ms k).map Val.sortKeys := by
        cases h : firstVal ms k with
        | none =>
          refine firstVal_none fun hk => ?_
          rw [(hp.map Prod.fst).mem_iff, Val.sortKeysEntries_keys] at hk
          obtain ⟨w, hw⟩ := firstVal_isSome.1 hk
          rw [h] at hw; cases hw
        | some x =>
          refine firstVal_of_nodup ?_ ?_
          · rw [(hp.map Prod.fst).nodup_iff, Val.sortKeysEntries_keys]; exact hd.1
          · rw [hp.mem_iff, Val.sortKeysEntries_eq, List.mem_map]
            exact ⟨(k, x), firstVal_mem h, rfl⟩
      simp only [Val.sortKeys, valAt, e]
      cases h : firstVal ms k with
      | none => rfl
      | some x => exact valAt_sortKeys p (hd.2 _ (firstVal_mem h))
    | _ => rfl

end Zer.Typed
