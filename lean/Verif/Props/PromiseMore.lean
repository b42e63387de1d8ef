import Verif.Props.Promise
import Verif.MsgPack.Exact

/-!
# Property C115, continued: strings, blobs and sizes on any bytes

What the questions promise by the first bytes, and what has to be there so that the promise is kept.
-/

namespace Zer

namespace MsgPack

/-- C115 for MessagePack, strings and blobs, any bytes: the accessors return exactly the bytes that follow a complete header of the specification, if
all of them are there; sizes are returned exactly where a complete header is. -/
theorem c115_msgpack_bytes (v : Bytes) :
    (∀ s, asString v = .ok s ↔ ∃ hd r, StrHead s.length hd ∧ v = hd ++ s ++ r) ∧
    (∀ s, asBlob v = .ok s ↔ ∃ hd r, BinHead s.length hd ∧ v = hd ++ s ++ r) ∧
    (∀ n, arraySize v = .ok n ↔ ∃ hd r, ArrHead n hd ∧ v = hd ++ r) := by
  have cut : ∀ hd s r : Bytes, sliceAt (hd ++ (s ++ r)) hd.length s.length = .ok s := by
    intro hd s r
    unfold sliceAt
    rw [if_pos (by simp)]
    simp
  refine ⟨fun s => ⟨asStringView_inv, ?_⟩, fun s => ⟨asBlob_inv, ?_⟩, fun n => ⟨fun h => ?_, ?_⟩⟩
  · rintro ⟨hd, r, h, rfl⟩
    rw [List.append_assoc]
    simp only [asString, asStringView, strInfo_head h, Res.ok_bind]
    exact cut _ _ _
  · rintro ⟨hd, r, h, rfl⟩
    rw [List.append_assoc]
    simp only [asBlob, binInfo_head h, Res.ok_bind]
    exact cut _ _ _
  · obtain ⟨⟨n', p⟩, h1, h2⟩ := Res.bind_eq_ok.1 h
    obtain rfl := Res.ok.inj h2
    obtain ⟨hd, r, h3, h4, _⟩ := arrInfo_inv h1
    exact ⟨hd, r, h3, h4⟩
  · rintro ⟨hd, r, h, rfl⟩
    simp only [arraySize, arrInfo_head h, Res.ok_bind]
    rfl

end MsgPack

namespace Cbor

/-- C115 for CBOR, strings and blobs, any bytes: what says it is one can be viewed if and only if it is not chunked and ends inside of the buffer. -/
theorem c115_cbor_bytes (r : View) {h : Head} (hh : r.head = .ok h) :
    (r.isString = .ok true → ((∃ x, r.asStringView false = .ok x) ↔ h.indef = false ∧ r.pos + h.hlen + h.val ≤ r.buf.length)) ∧
    (r.isBlob = .ok true → ((∃ x, r.asBlob false = .ok x) ↔ h.indef = false ∧ r.pos + h.hlen + h.val ≤ r.buf.length)) := by
  have key : (∃ x, View.definite false r.buf h (r.pos + h.hlen) = .ok x) ↔ r.pos + h.hlen + h.val ≤ r.buf.length := by
    unfold View.definite View.range sliceAt
    have hu : u64 (r.pos + h.hlen + h.val) ≤ r.pos + h.hlen + h.val := Nat.mod_le _ _
    by_cases hl : r.pos + h.hlen + h.val ≤ r.buf.length
    · have : u64 (r.pos + h.hlen + h.val) ≤ r.buf.length := by omega
      simp [this, hl, Res.require]
    · by_cases h2 : u64 (r.pos + h.hlen + h.val) ≤ r.buf.length <;> simp [h2, hl, Res.require]
  constructor
  · intro e
    simp only [View.isString, hh, Res.ok_bind] at e
    have e := Res.ok.inj e
    simp only [View.asStringView, hh, Res.ok_bind, e, Res.require, if_true]
    cases h.indef <;> simp [key]
  · intro e
    simp only [View.isBlob, hh, Res.ok_bind] at e
    have e := Res.ok.inj e
    simp only [View.asBlob, hh, Res.ok_bind, e, Res.require, if_true]
    cases h.indef <;> simp [key]

end Cbor

namespace Zera

theorem fine_u16 (v : Bytes) (p : Nat) : ∀ e, readU16 v p ≠ .err e :=
  MsgPack.fine_bind (MsgPack.fine_byte _ _) fun _ => MsgPack.fine_bind (MsgPack.fine_byte _ _) fun _ _ => by simp

/-- C115 for ZERA, strings, any position of any bytes below 4 GiB - 20: what says it is a string can be read if and only if it is inline, of at most 12
bytes, or not inline and its range ends inside of the arena; no other flag may be set. -/
theorem c115_zera_strings {b : Bytes} (hb : b.length < 2 ^ 32 - 20) {v w : View} (h : initFrom b = .ok v) (hr : reader.Reach v w)
    (hs : w.isString = .ok true) : (∃ x, w.asStringView = .ok x) ↔
      (w.flags = .ok 1 ∧ ∃ n, w.aux = .ok n ∧ n ≤ 12) ∨ (w.flags = .ok 0 ∧ ∃ x y, w.a = .ok x ∧ w.b = .ok y ∧ x + y ≤ w.arenaLen) := by
  have C := c04_zera_reader_safe_partial hb h hr
  obtain ⟨t, ht, e⟩ := Res.bind_eq_ok.1 hs
  obtain rfl : t = tString := of_decide_eq_true (Res.ok.inj e)
  have two : ∀ f < 256, f &&& 0xfe = 0 → f = 0 ∨ f = 1 := by decide +kernel
  constructor
  · rintro ⟨x, hx⟩
    obtain ⟨⟨p, n⟩, hx, _⟩ := Res.bind_eq_ok.1 hx
    simp only [View.stringRange, View.requireFlagsOk, ht, Res.ok_bind, decide_true, Res.require, if_true] at hx
    cases hf : w.flags with
    | ok f =>
      obtain ⟨q, _, hq⟩ := Res.bind_eq_ok.1 hf
      simp only [hf, Res.ok_bind] at hx
      by_cases h0 : f &&& 0xfe = 0
      · rcases two f (byteAt_lt hq) h0 with rfl | rfl
        · simp at hx
          obtain ⟨x, hxa, hx⟩ := Res.bind_eq_ok.1 hx
          obtain ⟨y, hy, hx⟩ := Res.bind_eq_ok.1 hx
          exact .inr ⟨rfl, x, y, hxa, hy, (arenaBytes_eq hx).2⟩
        · simp at hx
          obtain ⟨n, hn, hx⟩ := Res.bind_eq_ok.1 hx
          refine .inl ⟨rfl, n, hn, ?_⟩
          refine Decidable.byContradiction fun hc => ?_
          have : ¬ n ≤ InlineMax := hc
          simp [this] at hx
      · simp [h0] at hx
    | err e => simp [hf] at hx
    | ub => simp [hf] at hx
    | diverge => simp [hf] at hx
  · have fin : ∀ r, w.stringRange = .ok r → ∃ x, w.asStringView = .ok x := by
      intro r hr
      have hc := C.asStringView
      simp only [View.asStringView, hr, Res.ok_bind] at hc ⊢
      unfold sliceAt at hc ⊢
      split at hc
      · exact ⟨_, by rw [if_pos (by assumption)]⟩
      · rcases hc with ⟨_, hc⟩ | hc <;> cases hc
    rintro (⟨hf, n, hn, hl⟩ | ⟨hf, x, y, hx, hy, hl⟩)
    · obtain ⟨p, hp, _⟩ := Res.bind_eq_ok.1 ht
      refine fin (p + 4, n) ?_
      have : n ≤ InlineMax := hl
      simp [View.stringRange, View.requireFlagsOk, ht, hf, hn, this, Res.require, View.inlineBytes, hp]
    · refine fin (w.arenaOfs + x, y) ?_
      have h1 : x ≤ w.arenaLen := by omega
      have h2 : y ≤ w.arenaLen := by omega
      simp [View.stringRange, View.requireFlagsOk, ht, hf, hx, hy, Res.require, View.arenaBytes, h1, h2, hl]

/-- C115 for booleans of ZERA: what says it is one can be read if and only if its flags are zero and its number is 0 or 1. -/
theorem c115_zera_bool (w : View) (hs : w.isBool = .ok true) :
    (∃ x, w.asBool = .ok x) ↔ w.flags = .ok 0 ∧ (w.aux = .ok 0 ∨ w.aux = .ok 1) := by
  obtain ⟨t, ht, e⟩ := Res.bind_eq_ok.1 hs
  obtain rfl : t = tBool := of_decide_eq_true (Res.ok.inj e)
  rw [← flagsOk_iff ht (by decide)]
  simp only [View.asBool, ht, Res.ok_bind, decide_true, Res.require, if_true]
  constructor
  · rintro ⟨x, hx⟩
    obtain ⟨_, h1, hx⟩ := Res.bind_eq_ok.1 hx
    obtain ⟨n, h2, hx⟩ := Res.bind_eq_ok.1 hx
    refine ⟨h1, ?_⟩
    by_cases h0 : n = 0
    · exact .inl (h0 ▸ h2)
    · by_cases h01 : n = 1
      · exact .inr (h01 ▸ h2)
      · simp [h0, h01] at hx
  · rintro ⟨h1, h2 | h2⟩ <;> exact ⟨_, by simp [h1, h2]; rfl⟩

/-- The hypotheses of `c115_zera_strings` can be met, on both sides: a short string is inline, one of 16 bytes is in the arena. -/
example : (do
      let b ← Zera.proto.serialize (.str [104, 105])
      let v ← initFrom b
      let s ← v.isString
      let f ← v.flags
      pure (s, f, v.asStringView)) = .ok (true, 1, .ok [104, 105]) ∧
    (do
      let b ← Zera.proto.serialize (.str [1, 2, 3, 4, 5, 6, 7, 8, 9, 10, 11, 12, 13, 14, 15, 16])
      let v ← initFrom b
      let s ← v.isString
      let f ← v.flags
      pure (s, f, v.asStringView)) = .ok (true, 0, .ok [1, 2, 3, 4, 5, 6, 7, 8, 9, 10, 11, 12, 13, 14, 15, 16]) := by
  decide +kernel

end Zera

namespace Cbor

/-- The hypotheses of `c115_cbor_bytes` can be met: a string that is there, and a chunked one that says it is a string and cannot be viewed. -/
example : View.isString ⟨[0x62, 0x61, 0x62], 0⟩ = .ok true ∧ View.asStringView false ⟨[0x62, 0x61, 0x62], 0⟩ = .ok [0x61, 0x62] ∧
    View.isString ⟨[0x7f, 0x61, 0x61, 0xff], 0⟩ = .ok true ∧ View.asStringView false ⟨[0x7f, 0x61, 0x61, 0xff], 0⟩ = .err .deser := by
  decide +kernel

end Cbor

namespace MsgPack

/-- `c115_msgpack_bytes` on bytes: a string with the longest header, and one of which a byte is missing. -/
example : asString [0xdb, 0, 0, 0, 2, 0x61, 0x62, 0xc0] = .ok [0x61, 0x62] ∧ asString [0xdb, 0, 0, 0, 2, 0x61] = .ub := by decide +kernel

end MsgPack
end Zer
