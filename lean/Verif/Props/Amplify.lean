import Verif.Amplify

/-!
# C77: a translation makes no more calls than were needed to write the source
-/

namespace Zer

/-- C77 for every reader, at every position that presents a value without repeated keys: the translation makes exactly the
calls that write the value. Missing: repeated keys. -/
theorem c77_calls_partial {ρ : Type} {R : Reader ρ} {p : Prop} {r : ρ} {v : Val} (h : R.AgreesW p r v) (hd : v.Distinct) {f : Nat}
    (hf : v.depth ≤ f) : writeValue R counter f r 0 = .ok (emit v).length := by
  rw [count_agrees h hf, Val.firstWins_of_distinct v hd]

/-- C77 is false for every reader: at a position that presents `d` nested maps, written with `5 * d + 1` calls, the
translation makes `2 ^ d` or more. -/
theorem c77_calls_refuted {ρ : Type} {R : Reader ρ} {p : Prop} {r : ρ} {d : Nat} (h : R.AgreesW p r (bomb d)) {f : Nat}
    (hf : d + 1 ≤ f) : (emit (bomb d)).length = 5 * d + 1 ∧ ∃ n, writeValue R counter f r 0 = .ok n ∧ 2 ^ d ≤ n :=
  ⟨bomb_calls d, count_bomb h hf⟩

namespace MsgPack

/-- C77 for MessagePack in bytes: any encoding of a value without repeated keys, whatever follows. -/
theorem c77_msgpack_partial {v : Val} (hb : v.Below (2 ^ 32 - 5)) (hd : v.Distinct) {b : Bytes} (h : Enc v b) (rest : Bytes) {f : Nat}
    (hf : v.depth ≤ f) : ∃ n, writeValue reader counter f (b ++ rest) 0 = .ok n ∧ n ≤ 2 * b.length :=
  ⟨_, c77_calls_partial (agrees_of_enc v b rest hb h) hd hf, Enc.calls v h⟩

example : Enc (.arr [.map [([0x61], .null)], .uint 3]) [0x92, 0x81, 0xa1, 0x61, 0xc0, 0x03] ∧
    (Val.arr [.map [([0x61], .null)], .uint 3]).Distinct := by
  refine ⟨⟨[0x92], [[0x81, 0xa1, 0x61, 0xc0], [0x03]], .fix (by decide), ⟨_, _, ⟨[0x81], [[0xa1, 0x61], [0xc0]], .fix (by decide),
    ⟨[0xa1], [0xc0], [], .fix (by decide), rfl, rfl, rfl⟩, rfl⟩, ⟨_, _, ?_, rfl, rfl⟩, rfl⟩, rfl⟩, by simp [Val.Distinct, Val.distinctList, Val.distinctEntries]⟩
  exact .posfix (by decide) (by decide)

/-- A serialization of `6 * d + 1` bytes takes `2 ^ d` calls or more to translate. -/
theorem c77_msgpack_refuted (d : Nat) : ∃ b, proto.serialize (bomb d) = .ok b ∧ b.length = 6 * d + 1 ∧
    ∀ f, d + 1 ≤ f → ∃ n, writeValue reader counter f b 0 = .ok n ∧ 2 ^ d ≤ n := by
  refine ⟨_, serialize_eq _, bomb_length d, fun f hf => ?_⟩
  have := agrees_of_enc (bomb d) _ [] (bomb_below d) (enc_pack _ (bomb_sized d))
  rw [List.append_nil] at this
  exact count_bomb this hf

end MsgPack

namespace Cbor

/-- C77 for CBOR in bytes: any definite encoding of a value without repeated keys. -/
theorem c77_cbor_partial {f : Nat} {v : Val} {b : Bytes} (hl : b.length < 2 ^ 64) (hf : b.length ≤ f) (hs : v.Small) (hd : v.Distinct)
    (h : Enc false v b) {g : Nat} (hg : v.depth ≤ g) :
    ∃ n, writeValue (reader false f) counter g ⟨b, 0⟩ 0 = .ok n ∧ n ≤ 2 * b.length := by
  have := c21_cbor_reader_partial (rest := []) h hs (by simpa using hl) (f := f) (by simpa using hf)
  rw [List.append_nil] at this
  exact ⟨_, c77_calls_partial this hd hg, Enc.calls v h⟩

/-- A serialization of `6 * d + 1` bytes takes `2 ^ d` calls or more to translate. -/
theorem c77_cbor_refuted {utf8 : Bytes → Bool} {maxDepth : Nat} (hu : utf8 [0x61] = true) (d : Nat) (hd : d ≤ maxDepth) (hl : 6 * d + 1 < 2 ^ 64) :
    ∃ b, (proto utf8 maxDepth false (6 * d + 1)).serialize (bomb d) = .ok b ∧ b.length = 6 * d + 1 ∧
      ∀ f, d + 1 ≤ f → ∃ n, writeValue (reader false (6 * d + 1)) counter f ⟨b, 0⟩ 0 = .ok n ∧ 2 ^ d ≤ n := by
  have hb := serialize_eq (f := 6 * d + 1) (hard := false) (bomb_textOk hu d) (by rw [bomb_nest]; exact hd)
  have hl' := bomb_length d
  exact ⟨_, hb, hl', fun f hf => count_bomb (c23_cbor_round_trip_partial (bomb_small d) hb (by omega) (by omega)) hf⟩

example : 6 * 512 + 1 < 2 ^ 64 := by decide

end Cbor

namespace Zera

/-- C77 for ZERA in bytes: every serialization of a value without repeated keys. -/
theorem c77_zera_partial {thr : Nat} (hthr : thr ≤ 12) {v : Val} (hd : v.Distinct) {b : Bytes}
    (h : serializeEvs thr (emit v) = .ok b) {f : Nat} (hf : v.depth ≤ f) :
    ∃ r n, initFrom b = .ok r ∧ writeValue reader counter f r 0 = .ok n ∧ n ≤ b.length := by
  obtain ⟨r, h1, h2⟩ := c01_zera_round_trip thr v h
  refine ⟨r, _, h1, c77_calls_partial h2 hd hf, ?_⟩
  have h3 := c08_zera_length hthr h
  have := alignUp_ge (36 + envCost v) 16
  have := calls_envCost v
  omega

/-- A serialization of `46 * d + 51` bytes at most takes `2 ^ d` calls or more to translate. -/
theorem c77_zera_refuted {d : Nat} (hd : d < 2 ^ 26) : ∃ b r, serialize (bomb d) = .ok b ∧ b.length ≤ 46 * d + 51 ∧ initFrom b = .ok r ∧
    ∀ f, d + 1 ≤ f → ∃ n, writeValue reader counter f r 0 = .ok n ∧ 2 ^ d ≤ n := by
  have hc := bomb_envCost d
  have hu := alignUp_lt (36 + envCost (bomb d)) (a := 16) (by decide)
  obtain ⟨b, hb⟩ := (c02_zera_success_iff (thr := 12) (by decide) (emit (bomb d))).2
    ⟨bomb d, Tree.eval_emit _, bomb_shortKeys d, by omega, by rw [bomb_arena]; decide⟩
  obtain ⟨r, h1, h2⟩ := c01_zera_round_trip 12 (bomb d) hb
  refine ⟨b, r, hb, ?_, h1, fun f hf => count_bomb h2 hf⟩
  have h3 := c08_zera_length (by decide) hb
  rw [bomb_arena] at h3
  omega

/-- No repeated key is needed: a buffer that is not a serialization, of `36 * d + 51` bytes at most, presents nested arrays
that share their elements. -/
theorem c77_zera_shared_refuted {d : Nat} (hd : d < 2 ^ 26) : ∃ (b : Bytes) (r : View) (v : Val), b.length ≤ 36 * d + 51 ∧ initFrom b = .ok r ∧
    reader.AgreesStrictly r v ∧ v.Distinct ∧ ∀ f, d + 1 ≤ f → ∃ n, writeValue reader counter f r 0 = .ok n ∧ 2 ^ d ≤ n := by
  obtain ⟨r, h1, h2⟩ := laughBuf_agrees hd
  exact ⟨_, r, _, laughBuf_length d, h1, h2, laugh_distinct d, fun f hf =>
    ⟨_, c77_calls_partial h2 (laugh_distinct d) (by rw [laugh_depth]; exact hf), laugh_calls d⟩⟩

end Zera

namespace Json

/-- A document with `2 * d + 1` nodes takes `2 ^ d` calls or more to translate. -/
theorem c77_json_refuted (d : Nat) {f : Nat} (hf : d + 1 ≤ f) : ∃ n, writeValue reader counter f (bomb d) 0 = .ok n ∧ 2 ^ d ≤ n := by
  have := agrees_dom (bomb_plain d)
  rw [bomb_dom] at this
  exact count_bomb this hf

end Json

namespace Flex

/-- A buffer of `5 * d + 8` bytes takes `2 ^ d` calls or more to translate, without any repeated key: elements are stored as
offsets, and two of them may lead to the same place. -/
theorem c77_flex_refuted (d : Nat) {f : Nat} (hf : d + 1 ≤ f) :
    (dag d).length = 5 * d + 8 ∧ ∃ r n, opn (dag d) = .ok r ∧ writeValue reader counter f r 0 = .ok n ∧ 2 ^ d ≤ n := by
  have ho : opn (dag d) = .ok (levelRef (dag d) d 4) := by
    have hl := dagBody_length d
    have e1 : byteAt (dag d) (5 * d + 7) = .ok 1 := by
      rw [byteAt, dag, List.getElem?_append_right (by omega), show 5 * d + 7 - (dagBody d).length = 2 by omega]; rfl
    have e2 : byteAt (dag d) (5 * d + 6) = .ok 40 := by
      rw [byteAt, dag, List.getElem?_append_right (by omega), show 5 * d + 6 - (dagBody d).length = 1 by omega]; rfl
    have hd := dag_length d
    rw [opn, if_neg (by intro h; rw [h] at hd; simp at hd), getRoot, if_neg (by omega), hd,
      show 5 * d + 8 - 1 = 5 * d + 7 by omega, show 5 * d + 8 - 2 = 5 * d + 6 by omega, e1, e2]
    simp only [Res.ok_bind]
    rw [if_pos (by omega)]
    simp only [Res.pure_eq, Ref.ofPacked, levelRef, Res.ok.injEq, Ref.mk.injEq, true_and]
    refine ⟨by omega, by decide⟩
  obtain ⟨n, h1, h2⟩ := count_level d (fun j hj => dagBody_level d j hj [4, 40, 1]) 4 4 f 0 (by
    have hl := dagBody_length d
    rw [List.getElem?_append_right (by omega), show 5 * d + 1 + 4 - (dagBody d).length = 0 by omega]; rfl) rfl hf
  exact ⟨dag_length d, _, n, ho, by rw [Nat.zero_add] at h1; exact h1, h2⟩

end Flex

end Zer
