import Verif.Memory

/-!
# Property C83: announced sizes do not make the library allocate
-/

namespace Zer

open Zer.Zera (translateM)

/-- C83 for translations to ZERA from any position that presents a value: a limit of sixteen bytes for every call needed to write the
value makes no difference, even with repeated keys. -/
theorem c83_translate_partial {ρ : Type} {R : Reader ρ} {p : Prop} {r : ρ} {v : Val} (h : R.AgreesW p r v) {f limit : Nat}
    (hf : v.depth ≤ f) (hl : 16 * (emit v).length ≤ limit) (h63 : 16 * (emit v).length < 2 ^ 63) :
    translateM limit R f r = Zera.proto.translate R f r := by
  obtain ⟨v', h1, -, h2⟩ := writeValue_run v r h
  have hn : v'.need ≤ 16 * (emit v).length := by
    rw [h1.need]; exact Nat.le_trans (Val.need_firstWins v) (Val.need_le v)
  have := Zera.fine_emit (limit := limit) v' [] (by simp; omega) (by omega) {}
  simp only [translateM, Proto.translate, h2 _ _ f hf]
  show (Zera.writerM limit).run ⟨{}, []⟩ (emit v') >>= _ = Zera.writer.run {} (emit v') >>= _
  rw [this, bind_assoc]
  rfl

/-- C83, how much memory is reserved: a value that can be written can be written with a limit exactly if the reservations of the
containers on every path fit into it together. -/
theorem c83_zera_exact {v : Val} {s : Zera.RS} (h : Zera.writer.run {} (emit v) = .ok s) (h63 : v.need < 2 ^ 63) (limit : Nat) :
    (v.need ≤ limit → (Zera.writerM limit).run {} (emit v) = .ok ⟨s, []⟩) ∧
    (limit < v.need → (Zera.writerM limit).run {} (emit v) = .err .badAlloc) := by
  refine ⟨fun hl => ?_, fun hl => Zera.lack_emit v [] {} s (by simp) (by simpa using hl) h63 h⟩
  have := Zera.fine_emit (limit := limit) v [] (by simpa using hl) h63 {}
  rw [h] at this
  exact this

/-- Two arrays that are open at the same time need 20 and 36 bytes; of two arrays side by side the larger counts. -/
example : (Val.arr [.arr [.null, .null]]).need = 56 ∧ (Val.arr [.arr [.null, .null], .arr [.null]]).need = 72 ∧
    (∃ s, Zera.writer.run {} (emit (.arr [.arr [.null, .null]])) = .ok s) := ⟨by decide, by decide, _, rfl⟩

/-- C83: the shape of a tensor, at any position that presents an array. -/
theorem c83_shape_partial {ρ : Type} {R : Reader ρ} {p : Prop} {r : ρ} {xs : List Val} (h : R.AgreesW p r (.arr xs)) {limit : Nat}
    (hl : 4 * xs.length ≤ limit) (h63 : 4 * xs.length < 2 ^ 63) : Tensor.tensorShapeM limit R r = Tensor.tensorShape R r := by
  cases h with
  | arr child hs hn _ _ _ =>
    simp only [Tensor.tensorShapeM, Tensor.tensorShape, hn, Res.ok_bind]
    rw [if_neg (by omega), if_neg (by omega)]

example : MsgPack.reader.Agrees [0x92, 0x01, 0x91, 0xc0] (.arr [.uint 1, .arr [.null]]) ∧
    (Val.arr [.uint 1, .arr [.null]]).depth = 3 ∧ 16 * (emit (.arr [.uint 1, .arr [.null]])).length = 96 ∧
    (Val.arr [.uint 1, .arr [.null]]).need = 56 := by
  refine ⟨?_, rfl, rfl, rfl⟩
  have := MsgPack.agrees_of_enc (.arr [.uint 1, .arr [.null]]) [0x92, 0x01, 0x91, 0xc0] [] (by simp [Val.Below, Val.Below.belowList])
    ⟨[0x92], [[0x01], [0x91, 0xc0]], .fix (by decide), ⟨_, _, .posfix (by decide) (by decide), ⟨_, _, ⟨[0x91], [[0xc0]], .fix (by decide),
      ⟨_, _, rfl, rfl, rfl⟩, rfl⟩, rfl, rfl⟩, rfl⟩, rfl⟩
  simpa using this

namespace MsgPack

/-- C83 from MessagePack: 32 bytes for every byte of any encoding of any value, whatever follows. -/
theorem c83_msgpack_partial {v : Val} (hb : v.Below (2 ^ 32 - 5)) {b : Bytes} (h : Enc v b) (rest : Bytes) {f limit : Nat}
    (hf : v.depth ≤ f) (hl : 32 * b.length ≤ limit) (h63 : 32 * b.length < 2 ^ 63) :
    translateM limit reader f (b ++ rest) = Zera.proto.translate reader f (b ++ rest) := by
  have := Enc.calls v h
  exact c83_translate_partial (agrees_of_enc v b rest hb h) hf (by omega) (by omega)

/-- C83 is false of MessagePack: five bytes that are no message, and are refused as such if there is memory enough, make the
translation reserve nearly 64 GiB, and reading them as a tensor shape nearly 16 GiB. -/
theorem c83_msgpack_refuted (f limit : Nat) : (limit < 2 ^ 36 - 12 → translateM limit reader (f + 1) [0xdd, 0xff, 0xff, 0xff, 0xff] = .err .badAlloc) ∧
    Zera.proto.translate reader (f + 1) [0xdd, 0xff, 0xff, 0xff, 0xff] = .err .deser ∧
    (limit < 2 ^ 34 - 4 → Tensor.tensorShapeM limit reader [0xdd, 0xff, 0xff, 0xff, 0xff] = .err .badAlloc) := by
  refine ⟨fun h => ?_, ?_, fun h => ?_⟩
  · have e : translateM limit reader (f + 1) [0xdd, 0xff, 0xff, 0xff, 0xff] =
        (Zera.stepM limit {} (.beginArr (2 ^ 32 - 1)) >>= fun s => writeElems reader (writeValue reader (Zera.writerM limit) f)
          [0xdd, 0xff, 0xff, 0xff, 0xff] (2 ^ 32 - 1) 0 s >>= fun s => Zera.stepM limit s .endArr) >>= fun m =>
            Zera.finish m.s >>= Zera.initFrom := rfl
    have e2 : Zera.stepM limit {} (.beginArr (2 ^ 32 - 1)) = .err .badAlloc := by
      have : Zera.reserve limit 0 (2 ^ 36 - 12) = .err .badAlloc := by
        unfold Zera.reserve; rw [if_neg (by omega), if_pos (by omega)]
      have e3 : Zera.reserveOf (.beginArr (2 ^ 32 - 1)) = 2 ^ 36 - 12 := by decide
      simp only [Zera.stepM, List.sum_nil, e3, this]
      rfl
    rw [e, e2]; rfl
  · rfl
  · have e1 : reader.isArray [0xdd, 0xff, 0xff, 0xff, 0xff] = .ok true := rfl
    have e2 : reader.arraySize [0xdd, 0xff, 0xff, 0xff, 0xff] = .ok (2 ^ 32 - 1) := rfl
    simp only [Tensor.tensorShapeM, e1, e2, Res.ok_bind, Res.require, if_true]
    rw [if_neg (by omega), if_pos (by omega)]

end MsgPack

namespace Cbor

/-- C83 from CBOR: 32 bytes for every byte of any encoding. -/
theorem c83_cbor_partial {f : Nat} {v : Val} {b : Bytes} (hs : v.Small) (h : Enc false v b) (hf : b.length ≤ f) {g limit : Nat}
    (hg : v.depth ≤ g) (hl : 32 * b.length ≤ limit) (h63 : 32 * b.length < 2 ^ 63) :
    translateM limit (reader false f) g ⟨b, 0⟩ = Zera.proto.translate (reader false f) g ⟨b, 0⟩ := by
  have ha := c21_cbor_reader_partial (rest := []) h hs (by simp; omega) (f := f) (by simpa using hf)
  rw [List.append_nil] at ha
  have := Enc.calls v h
  exact c83_translate_partial ha hg (by omega) (by omega)

/-- The nine bytes of an array of `2^59 - 1` elements none of which is there. -/
def liar : Bytes := [0x9b, 0x07, 0xff, 0xff, 0xff, 0xff, 0xff, 0xff, 0xff]

/-- The same with `2^60 - 1` elements. -/
def bigLiar : Bytes := [0x9b, 0x0f, 0xff, 0xff, 0xff, 0xff, 0xff, 0xff, 0xff]

/-- C83 is false of CBOR: no limit below `2^63 - 12` is enough for a message of nine bytes, which would be refused otherwise; another
one raises `std::length_error` whatever the limit is. -/
theorem c83_cbor_refuted (f g limit : Nat) : (limit < 2 ^ 63 - 12 → translateM limit (reader false f) (g + 1) ⟨liar, 0⟩ = .err .badAlloc) ∧
    translateM limit (reader false f) (g + 1) ⟨bigLiar, 0⟩ = .err .length ∧
    (limit < 2 ^ 61 - 4 → Tensor.tensorShapeM limit (reader false f) ⟨liar, 0⟩ = .err .badAlloc) := by
  have k1 : ∀ n, limit < n → n ≤ 2 ^ 63 - 1 → Zera.reserve limit 0 n = .err .badAlloc := fun n h1 h2 => by
    unfold Zera.reserve; rw [if_neg (by omega), if_pos (by omega)]
  have k2 : ∀ n, n > 2 ^ 63 - 1 → Zera.reserve limit 0 n = .err .length := fun n h => by
    unfold Zera.reserve; rw [if_pos h]
  have e : ∀ b, b = liar ∨ b = bigLiar → ∀ n, (reader false f).arraySize ⟨b, 0⟩ = .ok n →
      translateM limit (reader false f) (g + 1) ⟨b, 0⟩ = (Zera.stepM limit {} (.beginArr n) >>= fun s =>
        writeElems (reader false f) (writeValue (reader false f) (Zera.writerM limit) g) ⟨b, 0⟩ n 0 s >>= fun s =>
          Zera.stepM limit s .endArr) >>= fun m => Zera.finish m.s >>= Zera.initFrom := by
    intro b hb n hn
    have p1 : (reader false f).isNull ⟨b, 0⟩ = .ok false := by rcases hb with rfl | rfl <;> rfl
    have p2 : (reader false f).isBool ⟨b, 0⟩ = .ok false := by rcases hb with rfl | rfl <;> rfl
    have p3 : (reader false f).isInt ⟨b, 0⟩ = .ok false := by rcases hb with rfl | rfl <;> rfl
    have p4 : (reader false f).isUInt ⟨b, 0⟩ = .ok false := by rcases hb with rfl | rfl <;> rfl
    have p5 : (reader false f).isFloat ⟨b, 0⟩ = .ok false := by rcases hb with rfl | rfl <;> rfl
    have p6 : (reader false f).isString ⟨b, 0⟩ = .ok false := by rcases hb with rfl | rfl <;> rfl
    have p7 : (reader false f).isBlob ⟨b, 0⟩ = .ok false := by rcases hb with rfl | rfl <;> rfl
    have p8 : (reader false f).isMap ⟨b, 0⟩ = .ok false := by rcases hb with rfl | rfl <;> rfl
    have p9 : (reader false f).isArray ⟨b, 0⟩ = .ok true := by rcases hb with rfl | rfl <;> rfl
    simp only [translateM, writeValue, p1, p2, p3, p4, p5, p6, p7, p8, p9, hn, Res.ok_bind, Bool.false_eq_true, if_false, if_true,
      Zera.writerM]
  have n1 : (reader false f).arraySize ⟨liar, 0⟩ = .ok (2 ^ 59 - 1) := rfl
  have n2 : (reader false f).arraySize ⟨bigLiar, 0⟩ = .ok (2 ^ 60 - 1) := rfl
  refine ⟨fun h => ?_, ?_, fun h => ?_⟩
  · rw [e _ (.inl rfl) _ n1]
    have e3 : Zera.reserveOf (.beginArr (2 ^ 59 - 1)) = 2 ^ 63 - 12 := by decide
    simp only [Zera.stepM, List.sum_nil, e3, k1 (2 ^ 63 - 12) h (by omega)]
    rfl
  · rw [e _ (.inr rfl) _ n2]
    have e3 : Zera.reserveOf (.beginArr (2 ^ 60 - 1)) = 2 ^ 64 - 12 := by decide
    simp only [Zera.stepM, List.sum_nil, e3, k2 (2 ^ 64 - 12) (by omega)]
    rfl
  · have e1 : (reader false f).isArray ⟨liar, 0⟩ = .ok true := rfl
    simp only [Tensor.tensorShapeM, e1, n1, Res.ok_bind, Res.require, if_true]
    rw [if_neg (by omega), if_pos (by omega)]

end Cbor

namespace Zera

/-- C83 from ZERA: sixteen bytes for every byte of anything serialized. -/
theorem c83_zera_partial {thr : Nat} (hthr : thr ≤ 12) {v : Val} {b : Bytes} (h : serializeEvs thr (emit v) = .ok b) {f limit : Nat}
    (hf : v.depth ≤ f) (hl : 16 * b.length ≤ limit) (h63 : 16 * b.length < 2 ^ 63) :
    ∃ r, initFrom b = .ok r ∧ translateM limit reader f r = proto.translate reader f r := by
  obtain ⟨r, h1, h2⟩ := c01_zera_round_trip thr v h
  have h3 := c08_zera_length hthr h
  have := alignUp_ge (36 + envCost v) 16
  have := calls_envCost v
  exact ⟨r, h1, c83_translate_partial h2 hf (by omega) (by omega)⟩

theorem keysFrom_count {v : View} (he : v.envSize < 2 ^ 32) : ∀ n cur ks, HeaderSize ≤ cur → cur ≤ HeaderSize + v.envSize → v.keysFrom n cur = .ok ks →
    ks.length = n ∧ (n ≠ 0 → cur + 20 * n ≤ HeaderSize + v.envSize)
  | 0, _, ks, _, _, h => by injection h with h; subst h; simp
  | n + 1, cur, ks, hlo, hhi, h => by
    obtain ⟨k, hk, h⟩ := Res.bind_eq_ok.1 h
    obtain ⟨cur', hc, h⟩ := Res.bind_eq_ok.1 h
    obtain ⟨ks', hks, h⟩ := Res.bind_eq_ok.1 h
    injection h with h
    subst h
    obtain ⟨kl, h1, hk⟩ := Res.bind_eq_ok.1 hk
    obtain ⟨q, h2, hk⟩ := Res.bind_eq_ok.1 hk
    obtain ⟨kl', h3, hc⟩ := Res.bind_eq_ok.1 hc
    rw [h1] at h3; injection h3 with h3; subst h3
    have e1 := envPtrAt_eq h2
    have e2 := envPtrAt_eq hc
    obtain ⟨i1, i2⟩ := keysFrom_count he n cur' ks' (by omega) (by omega) hks
    have hl := readU16_lt h1
    refine ⟨by simp [i1], fun _ => ?_⟩
    by_cases hm : cur - HeaderSize < 2 ^ 32
    · simp only [u32] at e1 e2
      rw [Nat.mod_eq_of_lt hm] at e1 e2
      have a1 : 4 + kl + 16 < 2 ^ 32 := by omega
      rw [Nat.mod_eq_of_lt a1] at e2
      have a2 : cur - HeaderSize + (4 + kl + 16) < 2 ^ 32 := by omega
      rw [Nat.mod_eq_of_lt a2] at e2
      by_cases hn : n = 0
      · subst hn; omega
      · have := i2 hn; omega
    · omega

/-- C83 for single reservations from any ZERA buffer: none exceeds what the envelope has, apart from a factor of two. -/
theorem c83_zera_any {v : View} (he : v.envSize < 2 ^ 32) : (∀ n, v.arraySize = .ok n → reserveOf (.beginArr n) ≤ v.envSize) ∧
    (∀ ks, v.mapKeys = .ok ks → reserveOf (.beginMap ks.length) ≤ 2 * v.envSize) := by
  refine ⟨fun n h => ?_, fun ks h => ?_⟩
  · obtain ⟨t, _, h⟩ := Res.bind_eq_ok.1 h
    obtain ⟨_, _, h⟩ := Res.bind_eq_ok.1 h
    obtain ⟨_, _, h⟩ := Res.bind_eq_ok.1 h
    obtain ⟨o, _, h⟩ := Res.bind_eq_ok.1 h
    obtain ⟨p, _, h⟩ := Res.bind_eq_ok.1 h
    obtain ⟨c, hc, h⟩ := Res.bind_eq_ok.1 h
    obtain ⟨q, hq, h⟩ := Res.bind_eq_ok.1 h
    injection h with h
    subst h
    have := envPtrAt_eq hq
    simp only [reserveOf, u64]
    omega
  · obtain ⟨t, _, h⟩ := Res.bind_eq_ok.1 h
    obtain ⟨_, _, h⟩ := Res.bind_eq_ok.1 h
    obtain ⟨_, _, h⟩ := Res.bind_eq_ok.1 h
    obtain ⟨o, _, h⟩ := Res.bind_eq_ok.1 h
    obtain ⟨p, hp, h⟩ := Res.bind_eq_ok.1 h
    obtain ⟨c, hc, h⟩ := Res.bind_eq_ok.1 h
    obtain ⟨q, hq, h⟩ := Res.bind_eq_ok.1 h
    have e0 := envPtrAt_eq hp
    have e1 := envPtrAt_eq hq
    have e2 : u32 (o + 4) = o + 4 := Nat.mod_eq_of_lt (by omega)
    obtain ⟨h1, h2⟩ := keysFrom_count he c q ks (by omega) (by omega) h
    simp only [reserveOf, u64]
    by_cases hn : c = 0
    · rw [h1, hn]; omega
    · have := h2 hn
      have e3 : ks.length * 28 < 2 ^ 64 := by omega
      have e4 : 4 + ks.length * 28 < 2 ^ 64 := by omega
      rw [Nat.mod_eq_of_lt e3, Nat.mod_eq_of_lt e4]
      omega

end Zera

end Zer
