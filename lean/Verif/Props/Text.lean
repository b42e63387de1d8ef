import Verif.Text.Unique
import Verif.Text.MsgPack
import Verif.Text.Cbor
import Verif.Text.Flex
import Verif.Props.Zera

/-!
# Properties of `to_string()` (C51, C52, C70)

`F` is what `std::ostream` prints for integers and doubles.
-/

namespace Zer.Text

/-- Digits of a number, most significant first; for examples. -/
def digitsOf (n : Nat) : Bytes := (Nat.toDigits 10 n).map (fun c => UInt8.ofNat c.toNat)

/-- A format for examples: decimal integers; doubles by their bits. -/
def toyFmt : Fmt := ⟨fun z => if z < 0 then 0x2d :: digitsOf z.natAbs else digitsOf z.natAbs, fun d => digitsOf d.toNat⟩

/-! ### C51: escaping -/

/-- C51: what `esc` (MsgPack) and `json_escape` (Flex) return is the inside of a JSON string that stands for the
argument. -/
theorem c51_escape_form (s : Bytes) : Body s (esc s) := esc_body s

example : esc [0x61, 0x22, 0x5c, 0x0a, 0x01, 0xc3] =
    [0x61, 0x5c, 0x22, 0x5c, 0x5c, 0x5c, 0x6e, 0x5c, 0x75, 0x30, 0x30, 0x30, 0x31, 0xc3] := by decide +kernel

/-- C51: no control character is left, and a quote only behind a backslash. -/
theorem c51_escape_clean (s : Bytes) :
    (∀ c ∈ esc s, 0x20 ≤ c) ∧ ∀ a r, esc s = a ++ 0x22 :: r → ∃ a', a = a' ++ [0x5c] := by
  refine ⟨(esc_body s).noControl, ?_⟩
  generalize ht : esc s = t
  have h : Body s t := ht ▸ esc_body s
  clear ht
  induction h with
  | nil => intro a r h; simp at h
  | @raw c s t h1 h2 h3 hb ih =>
    intro a r h
    cases a with
    | nil => simp at h; exact absurd h.1 h2
    | cons x a =>
      simp only [List.cons_append, List.cons.injEq] at h
      obtain ⟨a', rfl⟩ := ih a r h.2
      exact ⟨x :: a', rfl⟩
  | @short e c s t hm hb ih =>
    intro a r h
    cases a with
    | nil => simp at h
    | cons x a =>
      simp only [List.cons_append, List.cons.injEq] at h
      cases a with
      | nil => exact ⟨[], by simp [h.1]⟩
      | cons y a =>
        simp only [List.cons_append, List.cons.injEq] at h
        obtain ⟨a', rfl⟩ := ih a r h.2.2
        exact ⟨x :: y :: a', rfl⟩
  | @uni a0 b0 c0 d0 x0 i j s t ha hb hc hd _ _ _ ih =>
    intro a r h
    have nq : ∀ {c : UInt8} {n : Nat}, digit c = some n → c ≠ 0x22 := by
      rintro c n h rfl; simp [digit] at h
    rcases a with _ | ⟨x1, _ | ⟨x2, _ | ⟨x3, _ | ⟨x4, _ | ⟨x5, _ | ⟨x6, a⟩⟩⟩⟩⟩⟩
    · simp at h
    · simp at h
    · simp at h; exact absurd h.2.2.1 (nq ha)
    · simp at h; exact absurd h.2.2.2.1 (nq hb)
    · simp at h; exact absurd h.2.2.2.2.1 (nq hc)
    · simp at h; exact absurd h.2.2.2.2.2.1 (nq hd)
    · simp only [List.cons_append, List.cons.injEq] at h
      obtain ⟨a', rfl⟩ := ih a r h.2.2.2.2.2.2
      exact ⟨x1 :: x2 :: x3 :: x4 :: x5 :: x6 :: a', rfl⟩

/-- C51: different strings escape differently, whatever follows the closing quote. -/
theorem c51_escape_injective {s s' r r' : Bytes} (h : esc s ++ 0x22 :: r = esc s' ++ 0x22 :: r') : s = s' ∧ r = r' :=
  esc_frame h

end Zer.Text

/-! ### C52: MsgPack -/

namespace Zer.MsgPack
open Text

/-- C52 for MsgPack, with strings, blobs and keys shorter than 2^32 - 5 bytes: the text shows the value. Missing: longer
strings, where the claim is false (`c52_msgpack_text_refuted`). -/
theorem c52_msgpack_text_partial (F : Fmt) {v : Val} (hs : v.Sized) (hb : v.Below (2 ^ 32 - 5)) :
    ∃ b t, proto.serialize v = .ok b ∧ toText F b = .ok t ∧ Prints colon F 0 v t := by
  obtain ⟨t, h1, h2⟩ := dump_enc (F := F) v hb (enc_pack v hs) _ (Nat.lt_succ_self _) 0
  exact ⟨_, t, serialize_eq v, h1, h2⟩

example : ∃ b, proto.serialize (.map [([0x61, 0x22], .arr [.int (-3), .blob [1, 2]]), ([], .null)]) = .ok b ∧
    toText toyFmt b = .ok (asc
      "map {\n  \"a\\\"\": arr [\n    int: -3,\n    bin[size=2]\n  ],\n  \"\": null: null\n}") :=
  ⟨_, serialize_eq _, by decide +kernel⟩

/-- C52 is false: a map whose key has 2^32 - 5 bytes is serialized, and `to_string` takes the first byte of an empty
view. -/
theorem c52_msgpack_text_refuted (F : Fmt) : ¬ ∀ v : Val, v.Sized → ∃ b t, proto.serialize v = .ok b ∧ toText F b = .ok t := by
  intro h
  obtain ⟨s, hs⟩ : ∃ s : Bytes, s.length = 2 ^ 32 - 5 := ⟨_, List.length_replicate (a := 0)⟩
  obtain ⟨b, t, h1, h2⟩ := h (.map [(s, .null)]) ⟨by simp, by simp only [Val.sizedEntries, Val.Sized, hs]; decide⟩
  rw [serialize_eq] at h1
  injection h1 with h1
  have hh : packStrHead s.length = 0xdb :: [0xff, 0xff, 0xff, 0xfb] := by rw [hs]; decide +kernel
  have e : b = 0x81 :: 0xdb :: 0xff :: 0xff :: 0xff :: 0xfb :: (s ++ [0xc0]) := by
    rw [← h1]
    simp [pack, emit, emitEntries, packEv, hh, packMapHead]
  rw [e] at h2
  generalize s ++ [0xc0] = u at h2
  have h3 : skip (0xdb :: 0xff :: 0xff :: 0xff :: 0xfb :: u) = .ok 0 := by
    simp [skip, mpSkip, readBe32]
  have h4 : subspan (0x81 :: 0xdb :: 0xff :: 0xff :: 0xff :: 0xfb :: u) 1 =
      .ok (0xdb :: 0xff :: 0xff :: 0xff :: 0xfb :: u) := by simp [subspan]
  have h5 : mapInfo (0x81 :: 0xdb :: 0xff :: 0xff :: 0xff :: 0xfb :: u) = .ok (1, 1) := by
    simp [mapInfo]
  have h6 : child (0x81 :: 0xdb :: 0xff :: 0xff :: 0xff :: 0xfb :: u) 1 = .ok ([], 1) := by
    simp only [child, h4, Res.ok_bind, h3]; rfl
  have h7 : ∀ f, dump F (f + 1) (0x81 :: 0xdb :: 0xff :: 0xff :: 0xff :: 0xfb :: u) 0 = .ub := by
    intro f
    have : isMap (0x81 :: 0xdb :: 0xff :: 0xff :: 0xff :: 0xfb :: u) = true := by simp [isMap, onMarker]
    have n1 : isNull (0x81 :: 0xdb :: 0xff :: 0xff :: 0xff :: 0xfb :: u) = false := by simp [isNull, onMarker]
    simp only [dump, h5, Res.ok_bind, dumpMap, h6]
    simp [isNull, isBool, isInt, isUInt, isFloat, isString, isBlob, isMap, onMarker]
    rfl
  rw [toText, h7] at h2
  cases h2

/-- C52: on any bytes `to_string` returns, raises or has undefined behaviour, but ends. -/
theorem c52_msgpack_text_ends (F : Fmt) (v : Bytes) : Returns (toText F v) := returns_dump _ _ _ (Nat.lt_succ_self _)

/-- C52: on a well-formed element, `to_string` returns or raises a DeserializationError, also when keys are no strings or
items are of a kind the reader does not know. -/
theorem c52_msgpack_text_safe_partial (F : Fmt) {b : Bytes} (h : Elem (2 ^ 32 - 5) b) : (toText F b).Clean :=
  dump_clean _ _ _ (Nat.lt_succ_self _) h

/-- Not on every input: a truncated string. -/
theorem c52_msgpack_text_safe_refuted (F : Fmt) : toText F [0xa5, 0x61] = .ub := rfl

end Zer.MsgPack

/-! ### C52: Flex -/

namespace Zer.Flex
open Text
variable {L : Lib}

/-- C52 for Flex: for values with distinct keys without NUL, the text shows the value with sorted keys. -/
theorem c52_flex_text_partial (F : Fmt) (H : L.Law) (dbg : Bool) {v : Val} (hd : v.Distinct) (hn : v.NulFree) (hF : Fits v) :
    ∃ b r t f₀, (proto L dbg).serialize v = .ok b ∧ opn b = .ok r ∧ Prints bar F 0 v.sortKeys t ∧
      ∀ f, f₀ ≤ f → toText F f r = .ok (asc "Flex " ++ t) := by
  obtain ⟨b, r, h1, _, h2, h3⟩ := serialize_holds H dbg hF
  refine ⟨b, r, _, sizeOf (toDoc L v) + 1, h1, h2, dump_prints H hd hn 0, fun f hf => ?_⟩
  rw [toText, dump_holds h3 f 0 (by omega)]
  rfl

/-- C52 for Flex: `to_string` of whatever was serialized returns, also with duplicate keys. -/
theorem c52_flex_text (F : Fmt) (H : L.Law) (dbg : Bool) {v : Val} (hF : Fits v) :
    ∃ b r t f₀, (proto L dbg).serialize v = .ok b ∧ opn b = .ok r ∧ ∀ f, f₀ ≤ f → toText F f r = .ok t := by
  obtain ⟨b, r, h1, _, h2, h3⟩ := serialize_holds H dbg hF
  refine ⟨b, r, asc "Flex " ++ dumpDoc F 0 (toDoc L v), sizeOf (toDoc L v) + 1, h1, h2, fun f hf => ?_⟩
  rw [toText, dump_holds h3 f 0 (by omega)]
  rfl

/-- Not on every buffer: a string that lies outside of it, and a vector that contains itself. -/
theorem c52_flex_text_safe_refuted (F : Fmt) :
    (∃ r, opn [9, 20, 1] = .ok r ∧ ∀ f, toText F (f + 1) r = .ub) ∧
    ∃ r, opn cycleBuf = .ok r ∧ ∀ f, toText F f r = .diverge := by
  refine ⟨⟨⟨[9, 20, 1], 0, 1, 1, 5⟩, by decide +kernel, fun f => rfl⟩, ⟨cycleBuf, 3, 1, 1, 10⟩, by decide +kernel, ?_⟩
  have inner : ∀ f pad, dump F f pad ⟨cycleBuf, 1, 1, 1, 10⟩ = .diverge := by
    intro f
    induction f with
    | zero => intro pad; rfl
    | succ f ih =>
      intro pad
      have e1 : Ref.vector ⟨cycleBuf, 1, 1, 1, 10⟩ = .ok (1, 1) := by decide +kernel
      have e2 : elemAt cycleBuf 1 1 1 0 = .ok ⟨cycleBuf, 1, 1, 1, 10⟩ := by decide +kernel
      simp [dump, isNull, isBool, isInt, isUInt, isFloat, isString, isBlob, isMap, isArray, e1, e2, dumpElems, ih]
  intro f
  cases f with
  | zero => rfl
  | succ f =>
    have e1 : Ref.vector ⟨cycleBuf, 3, 1, 1, 10⟩ = .ok (1, 1) := by decide +kernel
    have e2 : elemAt cycleBuf 1 1 1 0 = .ok ⟨cycleBuf, 1, 1, 1, 10⟩ := by decide +kernel
    simp [toText, dump, isNull, isBool, isInt, isUInt, isFloat, isString, isBlob, isMap, isArray, e1, e2, dumpElems, inner]

end Zer.Flex

/-! ### C52: ZERA -/

namespace Zer.Zera
open Text

/-- What the ZERA reader prints for a value: a one-line summary. -/
def Summary (F : Fmt) : Val → Bytes
  | .null => asc "Zera(null)"
  | .bool b => asc "Zera(" ++ (if b then asc "true" else asc "false") ++ asc ")"
  | .int i => asc "Zera(" ++ F.dec i.toInt ++ asc ")"
  | .uint n => asc "Zera(" ++ F.dec n.toNat ++ asc ")"
  | .dbl d => asc "Zera(" ++ F.dbl d ++ asc ")"
  | .str s => asc "Zera(str[len=" ++ F.dec s.length ++ asc "])"
  | .blob s => asc "Zera(blob[len=" ++ F.dec s.length ++ asc "])"
  | .arr xs => asc "Zera(arr[n=" ++ F.dec xs.length ++ asc "])"
  | .map _ => asc "Zera(map)"

theorem tag_of {r : View} {n : Nat} (h : (do let t ← r.tag; pure (decide (t = n))) = Res.ok true) : r.tag = .ok n := by
  obtain ⟨t, h1, h2⟩ := Res.bind_eq_ok.1 h
  rw [h1]; simpa using h2

theorem sliceAt_length {b s : Bytes} {p n : Nat} (h : sliceAt b p n = .ok s) : s.length = n := by
  unfold sliceAt at h
  split at h
  · injection h with h; subst h; simp; omega
  · cases h

/-- Every position that presents a value prints its summary. -/
theorem text_agrees (F : Fmt) {r : View} {v : Val} (h : reader.AgreesStrictly r v) : toText F r = .ok (Summary F v) := by
  cases h with
  | null h => have := tag_of h.1; simp only [toText, this, Res.ok_bind]; rfl
  | bool h h' =>
    have := tag_of h.2.1
    have e : r.asBool = _ := h'
    simp only [toText, this, Res.ok_bind, e]; rfl
  | int h h' =>
    have h1 := (h' trivial).1
    obtain ⟨x, h2, h3⟩ := h.2.1 h1
    have := tag_of h1
    have e : r.asInt64 = _ := h2
    simp only [toText, this, Res.ok_bind, e, h3, Summary]; rfl
  | uint h h' =>
    have h1 := (h' trivial).2
    obtain ⟨x, h2, h3⟩ := h.2.2 h1
    have := tag_of h1
    have e : r.asUInt64 = _ := h2
    simp only [toText, this, Res.ok_bind, e, h3, Summary]; rfl
  | dbl h h' =>
    have := tag_of h.2.2.2.1
    have e : r.asDouble = _ := h'
    simp only [toText, this, Res.ok_bind, e, Summary]; rfl
  | str h _ h' =>
    have := tag_of h.2.2.2.2.1
    have e : r.asStringView = _ := h'
    simp only [toText, this, Res.ok_bind, e, Summary, Res.pure_eq]
    simp [tString, tNull, tBool, tI64, tU64, tF64, asc]
  | @blob _ s ar h h' _ =>
    have hb : r.isBlob = .ok true := h.2.2.2.2.2.1
    obtain ⟨t, h1, h2⟩ := Res.bind_eq_ok.1 hb
    have ht : t = tTyped := by
      by_cases ht : t = tTyped
      · exact ht
      · rw [if_neg ht] at h2; cases h2
    subst ht
    have e : r.asBlob = .ok s := h'
    obtain ⟨⟨p, n⟩, h3, h4⟩ := Res.bind_eq_ok.1 e
    have hn : s.length = n := sliceAt_length h4
    have hy : r.b = .ok n := by
      obtain ⟨_, _, h3⟩ := Res.bind_eq_ok.1 h3
      obtain ⟨_, _, h3⟩ := Res.bind_eq_ok.1 h3
      obtain ⟨_, _, h3⟩ := Res.bind_eq_ok.1 h3
      obtain ⟨_, _, h3⟩ := Res.bind_eq_ok.1 h3
      obtain ⟨_, _, h3⟩ := Res.bind_eq_ok.1 h3
      obtain ⟨_, _, h3⟩ := Res.bind_eq_ok.1 h3
      obtain ⟨_, _, h3⟩ := Res.bind_eq_ok.1 h3
      obtain ⟨_, _, h3⟩ := Res.bind_eq_ok.1 h3
      obtain ⟨_, _, h3⟩ := Res.bind_eq_ok.1 h3
      obtain ⟨_, _, h3⟩ := Res.bind_eq_ok.1 h3
      obtain ⟨y, hy, h3⟩ := Res.bind_eq_ok.1 h3
      obtain ⟨_, _, h3⟩ := Res.bind_eq_ok.1 h3
      obtain ⟨x, hx, h3⟩ := Res.bind_eq_ok.1 h3
      rw [hy]
      simp only [View.arenaBytes] at h3
      obtain ⟨_, _, h3⟩ := Res.bind_eq_ok.1 h3
      obtain ⟨_, _, h3⟩ := Res.bind_eq_ok.1 h3
      obtain ⟨_, _, h3⟩ := Res.bind_eq_ok.1 h3
      simp only [Res.pure_eq, Res.ok.injEq, Prod.mk.injEq] at h3
      rw [h3.2]
    simp only [toText, h1, Res.ok_bind, hb, hy, Summary, hn, Res.pure_eq]
    simp [tTyped, tString, tNull, tBool, tI64, tU64, tF64, tArray, tObject, asc]
  | arr c h h' =>
    have := tag_of h.2.2.2.2.2.2.2
    have e : r.arraySize = _ := h'
    simp only [toText, this, Res.ok_bind, e, Summary, Res.pure_eq]
    simp [tString, tNull, tBool, tI64, tU64, tF64, tArray, asc]
  | map c h =>
    have := tag_of h.2.2.2.2.2.2.1
    simp only [toText, this, Res.ok_bind, Summary, Res.pure_eq]
    simp [tString, tNull, tBool, tI64, tU64, tF64, tArray, tObject, asc]

/-- C52 for ZERA: whatever was serialized, also as an element of a container, prints its summary. -/
theorem c52_zera_text (F : Fmt) (thr : Nat) (v : Val) {b : Bytes} (h : serializeEvs thr (emit v) = .ok b) :
    ∃ r, initFrom b = .ok r ∧ toText F r = .ok (Summary F v) := by
  obtain ⟨r, h1, h2⟩ := c01_zera_round_trip thr v h
  exact ⟨r, h1, text_agrees F h2⟩

theorem outcome_text (F : Fmt) (v : View) : v.toStringOutcome = (toText F v >>= fun _ => pure ()) := by
  have key : ∀ {α : Type} {x : Res α} {g : α → Bytes}, (x >>= fun _ => (pure () : Res Unit)) =
      ((x >>= fun a => pure (g a)) >>= fun i => (pure (asc "Zera(" ++ i ++ asc ")") : Res Bytes)) >>= fun _ => pure () := by
    intro α x g; cases x <;> rfl
  unfold View.toStringOutcome toText
  cases v.tag with
  | ok t =>
    simp only [Res.ok_bind]
    by_cases h0 : t = tNull
    · subst h0; rfl
    rw [if_neg h0]
    by_cases h1 : t = tBool
    · rw [if_pos h1, if_pos h1]; exact key
    rw [if_neg h1, if_neg h1]
    by_cases h1 : t = tI64
    · rw [if_pos h1, if_pos h1]; exact key
    rw [if_neg h1, if_neg h1]
    by_cases h1 : t = tU64
    · rw [if_pos h1, if_pos h1]; exact key
    rw [if_neg h1, if_neg h1]
    by_cases h1 : t = tF64
    · rw [if_pos h1, if_pos h1]; exact key
    rw [if_neg h1, if_neg h1]
    by_cases h1 : t = tString
    · rw [if_pos h1, if_pos h1]; exact key
    rw [if_neg h1, if_neg h1]
    by_cases h1 : t = tArray
    · rw [if_pos h1, if_pos h1]; exact key
    rw [if_neg h1, if_neg h1]
    by_cases h1 : t = tObject
    · subst h1; rfl
    rw [if_neg h1]
    by_cases h1 : t = tTyped
    · rw [if_pos h1, if_pos h1]; cases v.isBlob <;> try rfl
      cases v.b <;> rfl
    rw [if_neg h1, if_neg h1]
    rfl
  | _ => rfl

/-- C52 for ZERA: on any bytes below 4 GiB - 20, `to_string` returns or raises a DeserializationError. Missing: larger
buffers, where an accessor may read out of bounds (`c04_zera_reader_safe_refuted`). -/
theorem c52_zera_text_safe_partial (F : Fmt) {b : Bytes} (hb : b.length < 2 ^ 32 - 20) {r w : View} (h : initFrom b = .ok r)
    (hr : reader.Reach r w) : (toText F w).Clean := by
  have := (c04_zera_reader_safe_partial hb h hr).toString
  rw [outcome_text F] at this
  cases ht : toText F w with
  | ok t => exact .ok t
  | err e => rw [ht] at this; rcases this with ⟨_, h⟩ | h <;> simp_all [Res.Clean]
  | ub => rw [ht] at this; rcases this with ⟨_, h⟩ | h <;> simp_all [Res.Clean]
  | diverge => rw [ht] at this; rcases this with ⟨_, h⟩ | h <;> simp_all [Res.Clean]

end Zer.Zera

/-! ### C52: CBOR -/

namespace Zer.Cbor
open Zer.Text
variable {utf8 : Bytes → Bool} {maxDepth : Nat}

/-- C52 for CBOR, as far as it holds: if every array is at least as long as the root array, no map is empty and, under
a hardened library, no string is, then the text shows the value with every array cut to the length of the root array.
Missing: everything else, where the claim is false (`c52_cbor_text_refuted`). -/
theorem c52_cbor_text_partial (F : Fmt) {hard : Bool} {f : Nat} {v : Val} (ht : v.TextOk utf8) (hd : v.nest ≤ maxDepth)
    (hl : (encB v).length < 2 ^ 64) (hf : (encB v).length < f) (hw : v.Showable v.rootLen) (hh : hard = true → v.NoEmpty) :
    ∃ b t, (proto utf8 maxDepth hard f).serialize v = .ok b ∧ toText F hard f ⟨b, 0⟩ = .ok t ∧
      Prints rawBar F 0 (v.cut (v.rootLen.getD 0)) t := by
  have ha : At (encB v) 0 (encB v) := ⟨[], [], by simp, rfl⟩
  have hm : ∀ n, v.rootLen = some n → View.arraySize f ⟨encB v, 0⟩ = .ok n := by
    intro n hn
    cases v with
    | arr xs =>
      simp only [Val.rootLen, Option.some.injEq] at hn
      subst hn
      have he := encB_enc _ hl
      simp only [Enc] at he
      obtain ⟨cs, hc, hg⟩ := he
      obtain ⟨h1, h2⟩ := EncList.item xs hc
      rw [← h1] at hg ⊢
      exact arraySize_at h2 hg hl ha (Nat.le_of_lt hf)
    | _ => cases hn
  obtain ⟨t, h1, h2⟩ := dump_enc (F := F) (hard := hard) (root := ⟨encB v, 0⟩) hl (Nat.le_of_lt hf) hm v hw (encB_enc v hl) f hf ha
    (fun h => .inr (hh h)) 0
  exact ⟨_, t, serialize_eq ht hd, h1, h2⟩

example : (Val.arr [.arr [.str [0x61], .null], .arr [.bool true, .null, .null]]).Showable (some 2) := by
  refine ⟨⟨2, rfl, by decide⟩, ⟨⟨2, rfl, by decide⟩, trivial, trivial, trivial⟩, ⟨⟨2, rfl, by decide⟩, trivial, trivial, trivial, trivial⟩, trivial⟩

theorem Chunks.total {s b : Bytes} (hc : Chunks 2 s b) {v : Bytes} (hv : v.length < 2 ^ 64) {p t : Nat}
    (ha : At v p (b ++ [0xff])) (ht : t + s.length < 2 ^ 64) {f : Nat} (hf : b.length < f) :
    blobTotal v f p t = .ok (t + s.length) := by
  induction hc generalizing p f t with
  | nil =>
    obtain ⟨f, rfl⟩ : ∃ g, f = g + 1 := ⟨f - 1, by omega⟩
    have ha' : At v p [0xff] := ha
    simp [blobTotal, at_byte ha']
  | @cons h s u b hh hc ih =>
    obtain ⟨f, rfl⟩ : ∃ g, f = g + 1 := ⟨f - 1, by omega⟩
    have ha' : At v p ((h ++ s) ++ (b ++ [0xff])) := by simpa using ha
    have hb := ha'.bound
    simp only [List.length_append, List.length_singleton] at hb hf ht
    obtain ⟨a, hr⟩ := hh.read (by omega) false ha'.left.left
    obtain ⟨x, w, hx, hx'⟩ := hh.first (by omega)
    have hxa : At v p (x :: (w ++ s)) := by have := ha'.left; rw [hx] at this; simpa using this
    have e : u64 (p + (h.length + s.length)) = p + (h ++ s).length := by
      rw [List.length_append]; exact u64_of_lt (by omega)
    have e2 : u64 (t + s.length) = t + s.length := u64_of_lt (by omega)
    have := hh.pos
    simp only [blobTotal, Res.ok_bind, at_byte hxa, if_neg (show x.toNat ≠ 0xff by omega), hr, e, e2]
    rw [ih ha'.right (by omega) (by omega), List.length_append, Nat.add_assoc]

theorem Chunks.size {m : Nat} {s b : Bytes} (hc : Chunks m s b) : s.length ≤ b.length := by
  induction hc with
  | nil => exact Nat.le_refl _
  | cons _ _ ih => simp only [List.length_append]; omega

/-- C52 for CBOR, blobs in chunks: wherever one stands in a message, its text shows the number of bytes of all chunks
together. -/
theorem c52_cbor_chunked (F : Fmt) {hard : Bool} {f : Nat} {s b v : Bytes} {p : Nat} (hc : Chunks 2 s b)
    (hv : v.length < 2 ^ 64) (ha : At v p (indefHd 2 :: (b ++ [0xff]))) (hf : v.length < f) :
    toText F hard f ⟨v, p⟩ = .ok (asc "blob[size=" ++ F.dec s.length ++ asc "]") := by
  have hr := indef_read (m := 2) (by omega) false ha
  have ha' : At v (p + 1) (b ++ [0xff]) := (show At v p ([_] ++ (b ++ [0xff])) from ha).right
  have hb := ha'.bound
  simp only [List.length_append, List.length_singleton] at hb
  have hs := hc.size
  have ht := hc.total (t := 0) hv ha' (by omega) (f := f) (by omega)
  unfold toText
  obtain ⟨d, hd⟩ : ∃ d, f = d + 1 := ⟨f - 1, by omega⟩
  rw [show dump F hard f ⟨v, p⟩ f p 0 = dump F hard f ⟨v, p⟩ (d + 1) p 0 by rw [← hd]]
  unfold dump
  simp [hr, ht]

/-- The same of strings. -/
theorem c52_cbor_chunked_string (F : Fmt) {hard : Bool} {f : Nat} {s b v : Bytes} {p : Nat} (hc : Chunks 3 s b)
    (hv : v.length < 2 ^ 64) (ha : At v p (indefHd 3 :: (b ++ [0xff]))) (hf : v.length < f) :
    toText F hard f ⟨v, p⟩ = .ok (asc "str|\"" ++ s ++ asc "\"") := by
  have hr := indef_read (m := 3) (by omega) false ha
  have ha' : At v (p + 1) (b ++ [0xff]) := (show At v p ([_] ++ (b ++ [0xff])) from ha).right
  have hb := ha'.bound
  simp only [List.length_append, List.length_singleton] at hb
  have ht := hc.gather (.inr rfl) hard hv ha' (f := f) (by omega)
  unfold toText
  obtain ⟨d, hd⟩ : ∃ d, f = d + 1 := ⟨f - 1, by omega⟩
  rw [show dump F hard f ⟨v, p⟩ f p 0 = dump F hard f ⟨v, p⟩ (d + 1) p 0 by rw [← hd]]
  unfold dump
  simp [hr, ht, View.asString, View.head]

example : Chunks 2 [1, 2, 3] [0x42, 1, 2, 0x41, 3] :=
  .cons (s := [1, 2]) (h := [0x42]) (.imm (by decide)) (.cons (s := [3]) (t := []) (b := []) (h := [0x41]) (.imm (by decide)) .nil)

/-- C52 is false for CBOR whenever the value contains an array but is none itself: `to_string` never returns a text (it
asks for the array size of the root). -/
theorem c52_cbor_arrays_refuted (F : Fmt) {hard : Bool} {f : Nat} {v : Val} (ht : v.TextOk utf8) (hd : v.nest ≤ maxDepth)
    (hl : (encB v).length < 2 ^ 64) (hf : (encB v).length < f) (hr : v.rootLen = none) (hn : ¬ v.NoArr) :
    ∃ b, (proto utf8 maxDepth hard f).serialize v = .ok b ∧ ∀ t, toText F hard f ⟨b, 0⟩ ≠ .ok t := by
  have ha : At (encB v) 0 (encB v) := ⟨[], [], by simp, rfl⟩
  refine ⟨_, serialize_eq ht hd, ?_⟩
  refine dump_noarr (root := ⟨encB v, 0⟩) hl (Nat.le_of_lt hf) ?_ v (encB_enc v hl) ha hn f 0
  intro n
  have he := encB_enc v hl
  cases v with
  | arr => cases hr
  | map ms =>
    generalize encB (.map ms) = b at *
    simp only [Enc] at he
    obtain ⟨cs, hc, hg⟩ := he
    cases hg with
    | @definite h hh =>
      obtain ⟨a, hr⟩ := hh.read (by omega) false ha.left
      simp [View.arraySize, View.head, hr]
    | indef h => cases h
  | _ => exact absurd trivial hn

example : (Val.map [([0x61], .arr [])]).rootLen = none ∧ ¬ (Val.map [([0x61], .arr [])]).NoArr :=
  ⟨rfl, fun h => h.2.2.1.1⟩

/-- C52 is false for CBOR, with any fuel: an object holding a list raises; so does an empty object; a list of lists of
one element shows what is not there; hardened libraries abort on an empty string; and a truncated string is read out of
bounds. -/
theorem c52_cbor_text_refuted (F : Fmt) (f : Nat) :
    toText F false (f + 100) ⟨encB (.map [([0x61], .arr [])]), 0⟩ = .err .deser ∧
    toText F false (f + 100) ⟨encB (.map []), 0⟩ = .err .deser ∧
    toText F false (f + 100) ⟨encB (.arr [.arr [.null], .bool true]), 0⟩ =
      .ok (asc "arr [\n  arr [\n    null|null,\n    bool| true\n  ],\n  bool| true\n]") ∧
    toText F true (f + 100) ⟨encB (.str []), 0⟩ = .ub ∧
    toText F false (f + 100) ⟨[0x65, 0x61], 0⟩ = .ub :=
  ⟨rfl, rfl, rfl, rfl, rfl⟩

/-- C51 is false for CBOR: strings are printed as they are, so that a list of one string and a list of two have the same
text. -/
theorem c51_cbor_refuted (F : Fmt) (f : Nat) : ∃ v w : Val, v ≠ w ∧ v.TextOk (fun s => s.all (· < 0x80)) ∧
    w.TextOk (fun s => s.all (· < 0x80)) ∧
    ∃ t, toText F false (f + 100) ⟨encB v, 0⟩ = .ok t ∧ toText F false (f + 100) ⟨encB w, 0⟩ = .ok t :=
  ⟨.arr [.str [0x61], .str [0x62]], .arr [.str (asc "a\",\n  str|\"b")], by simp,
    by simp [Val.TextOk, Val.Each, Val.eachList], by simp [Val.TextOk, Val.Each, Val.eachList]; decide,
    asc "arr [\n  str|\"a\",\n  str|\"b\"\n]", rfl, rfl⟩

end Zer.Cbor

/-! ### C70: the text identifies the value -/

namespace Zer.Text

/-- Two values with the same text in the MsgPack style are alike. -/
theorem c70_colon_unique {F : Fmt} (hF : F.Plain) {v w : Val} {t : Bytes} (hv : Prints colon F 0 v t) (hw : Prints colon F 0 w t) :
    Alike F v w :=
  (one hF colon_clear v hv hw (r := []) (r' := []) (.inl rfl) (.inl rfl) rfl).1

/-- Two values with the same text in the Flex style are alike. -/
theorem c70_bar_unique {F : Fmt} (hF : F.Plain) {v w : Val} {t : Bytes} (hv : Prints bar F 0 v t) (hw : Prints bar F 0 w t) :
    Alike F v w :=
  (one hF bar_clear v hv hw (r := []) (r' := []) (.inl rfl) (.inl rfl) rfl).1

/-- A format for examples: integers in unary. -/
def unary : Fmt := ⟨fun z => if z < 0 then 0x2d :: List.replicate z.natAbs 0x31 else List.replicate z.natAbs 0x31,
  fun d => List.replicate d.toNat 0x31⟩

theorem unary_plain : unary.Plain where
  inj a b h := by
    simp only [unary] at h
    split at h <;> split at h
    · have := congrArg List.length h; simp at this; omega
    · cases hb : b.natAbs with
      | zero => simp [hb] at h
      | succ n => simp [hb, List.replicate] at h
    · cases hb : a.natAbs with
      | zero => simp [hb] at h
      | succ n => simp [hb, List.replicate] at h
    · have := congrArg List.length h; simp at this; omega
  dec z c hc := by
    simp only [unary] at hc
    split at hc
    · rcases List.mem_cons.1 hc with rfl | hc
      · decide
      · rw [(List.mem_replicate.1 hc).2]; decide
    · rw [(List.mem_replicate.1 hc).2]; decide
  dbl d c hc := by rw [(List.mem_replicate.1 hc).2]; decide

end Zer.Text

namespace Zer.MsgPack
open Text

/-- C70 for MsgPack (strings shorter than 2^32 - 5 bytes): if `to_string` prints the same for two serialized values, they
are alike. -/
theorem c70_msgpack_text_partial {F : Fmt} (hF : F.Plain) {v w : Val} (hv : v.Sized) (hw : w.Sized) (hbv : v.Below (2 ^ 32 - 5))
    (hbw : w.Below (2 ^ 32 - 5)) {b c : Bytes} (h1 : proto.serialize v = .ok b) (h2 : proto.serialize w = .ok c)
    (h : toText F b = toText F c) : Alike F v w := by
  obtain ⟨b', t, e1, e2, e3⟩ := c52_msgpack_text_partial F hv hbv
  obtain ⟨c', u, e4, e5, e6⟩ := c52_msgpack_text_partial F hw hbw
  rw [h1] at e1; injection e1 with e1; subst e1
  rw [h2] at e4; injection e4 with e4; subst e4
  rw [e2, e5] at h
  injection h with h
  subst h
  exact c70_colon_unique hF e3 e6

example : Fmt.Plain unary := unary_plain

end Zer.MsgPack

namespace Zer.Flex
open Text
variable {L : Lib}

/-- C70 for Flex: values with distinct keys without NUL that print the same are alike once their keys are sorted. -/
theorem c70_flex_text_partial {F : Fmt} (hF : F.Plain) (H : L.Law) (dbg : Bool) {v w : Val} (hv : v.Distinct) (hw : w.Distinct)
    (hnv : v.NulFree) (hnw : w.NulFree) (fv : Fits v) (fw : Fits w) {b c : Bytes} {r q : Ref}
    (h1 : (proto L dbg).serialize v = .ok b) (h2 : (proto L dbg).serialize w = .ok c) (h3 : opn b = .ok r) (h4 : opn c = .ok q)
    {f g : Nat} {t : Bytes} (h5 : toText F f r = .ok t) (h6 : toText F g q = .ok t) : Alike F v.sortKeys w.sortKeys := by
  obtain ⟨b', r', k1, _, k2, k3⟩ := serialize_holds H dbg fv
  obtain ⟨c', q', l1, _, l2, l3⟩ := serialize_holds H dbg fw
  rw [h1] at k1; injection k1 with k1; subst k1
  rw [h2] at l1; injection l1 with l1; subst l1
  rw [h3] at k2; injection k2 with k2; subst k2
  rw [h4] at l2; injection l2 with l2; subst l2
  obtain ⟨x, h5, h7⟩ := Res.bind_eq_ok.1 h5
  obtain ⟨y, h6, h8⟩ := Res.bind_eq_ok.1 h6
  injection h7 with h7; injection h8 with h8
  have hx : x = dumpDoc F 0 (toDoc L v) := dump_det h5 (dump_holds k3 _ 0 (Nat.lt_succ_self _))
  have hy : y = dumpDoc F 0 (toDoc L w) := dump_det h6 (dump_holds l3 _ 0 (Nat.lt_succ_self _))
  have hxy : x = y := List.append_cancel_left (h7.trans h8.symm)
  subst hxy
  have e4 := dump_prints (F := F) H hv hnv 0
  have e8 := dump_prints (F := F) H hw hnw 0
  rw [← hx] at e4
  rw [← hy] at e8
  exact c70_bar_unique hF e4 e8

end Zer.Flex

namespace Zer.Zera
open Text

theorem ok_of {α : Type} {x : Res α} (h : (match x with | .ok _ => true | _ => false) = true) : ∃ a, x = .ok a := by
  cases x <;> first | exact ⟨_, rfl⟩ | cases h

/-- C70 is false for ZERA: `to_string` is a summary. -/
theorem c70_zera_refuted (F : Fmt) : ∃ v w : Val, ¬ Alike F v w ∧ (∃ b, serialize v = .ok b) ∧ (∃ b, serialize w = .ok b) ∧
    Summary F v = Summary F w :=
  ⟨.map [], .map [([0x61], .null)], by simp [Alike, AlikeEntries], ok_of (by decide +kernel),
    ok_of (by decide +kernel), rfl⟩

end Zer.Zera
