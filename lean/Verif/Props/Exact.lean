import Verif.Cbor.Dialect
import Verif.Props.MsgPack
import Verif.Props.Cbor

/-!
# C92: nothing but an encoding is read as a value

C16 says that the reader presents every encoding. Here the converse: bytes that the reader presents as a value are an encoding of
that value in the format's own terms, whatever produced them.
-/

namespace Zer.MsgPack

/-- C92 for MessagePack: the reader presents a value exactly where the bytes start with an encoding of it that the specification
permits; keys distinct, strings, blobs and keys shorter than 2^32 - 5 bytes. -/
theorem c92_msgpack_exact {v : Bytes} {x : Val} (hb : x.Below (2 ^ 32 - 5)) (hd : x.Distinct) :
    reader.Agrees v x ↔ ∃ c rest, v = c ++ rest ∧ Enc x c :=
  ⟨fun h => enc_of_agrees x hb hd v h, fun ⟨c, r, e, h⟩ => e ▸ agrees_of_enc x c r hb h⟩

/-- C92, the byte the specification never uses: a view that starts with 0xc1 presents no value, and an empty view none either. -/
theorem c92_msgpack_marker {v : Bytes} {x : Val} (hb : x.Below (2 ^ 32 - 5)) (hd : x.Distinct) (h : reader.Agrees v x) :
    v ≠ [] ∧ v.head? ≠ some 0xc1 := by
  obtain ⟨c, r, rfl, hc⟩ := (c92_msgpack_exact hb hd).1 h
  have hE := (Enc.elem x hb hc).skip r
  cases c with
  | nil =>
    exfalso
    cases x with
    | null => simp [Enc] at hc
    | bool => simp [Enc] at hc
    | int i => simp only [Enc] at hc; cases hc
    | uint n => simp only [Enc] at hc; cases hc
    | dbl d => simp only [Enc] at hc; cases hc
    | str s => simp only [Enc] at hc; obtain ⟨h, H, e⟩ := hc; cases H <;> simp at e
    | blob s => simp only [Enc] at hc; obtain ⟨h, H, e⟩ := hc; cases H <;> simp at e
    | arr xs => simp only [Enc] at hc; obtain ⟨h, cs, H, _, e⟩ := hc; cases H <;> simp at e
    | map ms => simp only [Enc] at hc; obtain ⟨h, cs, H, _, e⟩ := hc; cases H <;> simp at e
  | cons m t =>
    refine ⟨by simp, fun e => ?_⟩
    simp only [List.cons_append, List.head?_cons, Option.some.injEq] at e
    subst e
    have : skip ((0xc1 : UInt8) :: (t ++ r)) = .err .deser := by
      simp [skip, mpSkip, byteAt]
    rw [List.cons_append, this] at hE
    cases hE

example : sampleVal.Distinct ∧ sampleVal.Below (2 ^ 32 - 5) ∧ reader.Agrees (sampleBytes ++ [0xc1]) sampleVal := by
  have hb : sampleVal.Below (2 ^ 32 - 5) := by simp [sampleVal, Val.Below, Val.Below.belowEntries, Val.Below.belowList]
  have hd : sampleVal.Distinct := by simp [sampleVal, Val.Distinct, Val.distinctEntries, Val.distinctList]
  exact ⟨hd, hb, (c92_msgpack_exact hb hd).2 ⟨_, _, rfl, sample_enc⟩⟩

end Zer.MsgPack

namespace Zer.Cbor

/-- C92 for CBOR: a position that presents a value is the start of an encoding of it, lengths definite or not, in the format
extended by the two reserved bytes 0x1f and 0x3f for 0 and -1. Keys distinct, no length in the buffer that wraps a 64-bit offset. -/
theorem c92_cbor_partial {b : Bytes} (hn : NoHugeAll b) (hl : b.length < 2 ^ 63) {f : Nat} (hf : b.length < f) (hard : Bool) {x : Val}
    (hd : x.Distinct) {p : Nat} (h : (reader hard f).Agrees ⟨b, p⟩ x) : ∃ c, At b p c ∧ EncL x c :=
  enc_of_agrees hn hl hf (ind := false) x hd p h

/-- C92 for CBOR, both directions: with the accessors that assemble chunks, a value is presented exactly where an encoding of it in
the dialect starts, its unsigned integers below 2^63. -/
theorem c92_cbor_dialect {b : Bytes} (hn : NoHugeAll b) (hl : b.length < 2 ^ 63) {f : Nat} (hf : b.length < f) {x : Val}
    (hd : x.Distinct) {p : Nat} :
    (readerI true false f).Agrees ⟨b, p⟩ x ↔ x.Small ∧ ∃ c, At b p c ∧ EncL x c :=
  ⟨fun h => ⟨small_of_agrees x hd _ h, enc_of_agrees hn hl hf x hd p h⟩,
    fun ⟨hs, _, h1, h2⟩ => EncL.agrees (by omega) (by omega) x h2 h1 hs (fun e => by cases e)⟩

/-- C92 for CBOR without the two reserved bytes: with the accessors that assemble chunks, a value is presented exactly where an
encoding of it starts. Unsigned integers below 2^63. -/
theorem c92_cbor_exact {b : Bytes} (hn : NoHugeAll b) (hl : b.length < 2 ^ 63) {f : Nat} (hf : b.length < f) (hp : Plain b) {x : Val}
    (hd : x.Distinct) (hs : x.Small) {p : Nat} :
    (readerI true false f).Agrees ⟨b, p⟩ x ↔ ∃ c, At b p c ∧ Enc true x c := by
  constructor
  · intro h
    obtain ⟨c, h1, h2⟩ := enc_of_agrees hn hl hf x hd p h
    refine ⟨c, h1, EncL.enc x h2 (hp.sub ?_)⟩
    obtain ⟨pre, post, rfl, -⟩ := h1
    intro y hy
    simp [hy]
  · rintro ⟨c, h1, h2⟩
    exact Enc.agrees (by omega) (by omega) x h2 h1 hs (fun e => by cases e)

/-- C92 for CBOR and what the library writes: definite lengths. -/
theorem c92_cbor_plain {b : Bytes} (hn : NoHugeAll b) (hl : b.length < 2 ^ 63) {f : Nat} (hf : b.length < f) (hp : Plain b) (hard : Bool)
    {x : Val} (hd : x.Distinct) {p : Nat} (h : (reader hard f).Agrees ⟨b, p⟩ x) : ∃ c, At b p c ∧ Enc true x c := by
  obtain ⟨c, h1, h2⟩ := c92_cbor_partial hn hl hf hard hd h
  refine ⟨c, h1, EncL.enc x h2 (hp.sub ?_)⟩
  obtain ⟨pre, post, rfl, -⟩ := h1
  intro y hy
  simp [hy]

example : ∃ (b : Bytes) (x : Val), NoHugeAll b ∧ Plain b ∧ x.Distinct ∧ x.Small ∧ Enc true x (b.take 6) ∧
    (readerI true false 8).Agrees ⟨b, 0⟩ x := by
  have hn : NoHugeAll [0xbf, 0x61, 0x61, 0x18, 0x07, 0xff, 0x00] := by
    intro p x n hn hx ha
    obtain ⟨pre, post, h, -⟩ := ha
    have h1 := congrArg List.length h
    simp at h1
    omega
  have hd : (Val.map [([0x61], .uint 7)]).Distinct := by simp [Val.Distinct, Val.distinctEntries]
  have hs : (Val.map [([0x61], .uint 7)]).Small := by simp [Val.Small, Val.Each, Val.eachEntries]
  have he : Enc true (.map [([0x61], .uint 7)]) [0xbf, 0x61, 0x61, 0x18, 0x07, 0xff] := by
    simp only [Enc, EncEntries]
    exact ⟨[[0x61, 0x61], [0x18, 0x07]], ⟨_, _, [], .definite (h := [0x61]) (.imm (by decide)), .inl ⟨by decide, .w1 (by decide)⟩,
      rfl, rfl⟩, .indef rfl⟩
  exact ⟨_, _, hn, ⟨by decide, by decide⟩, hd, hs, he,
    (c92_cbor_exact hn (by decide) (by decide) ⟨by decide, by decide⟩ hd hs).2 ⟨_, ⟨[], [0x00], rfl, rfl⟩, he⟩⟩

example : (readerI true false 5).Agrees ⟨[0x82, 0x3f, 0x18, 0x1f], 0⟩ (.arr [.int (-1), .uint 31]) := by
  have hn : NoHugeAll [0x82, 0x3f, 0x18, 0x1f] := by
    intro p x n hn hx ha
    obtain ⟨pre, post, h, -⟩ := ha
    have h1 := congrArg List.length h
    simp at h1
    omega
  refine (c92_cbor_dialect hn (by decide) (by decide) (by simp [Val.Distinct, Val.distinctList])).2
    ⟨by simp [Val.Small, Val.Each, Val.eachList], [0x82, 0x3f, 0x18, 0x1f], ⟨[], [], rfl, rfl⟩, ?_⟩
  simp only [EncL, EncLList]
  exact ⟨[[0x3f], [0x18, 0x1f]], ⟨_, _, .minusOne rfl, ⟨_, [], .std (.inl ⟨by decide, .w1 (by decide)⟩), rfl, rfl⟩, rfl⟩,
    .definite (h := [0x82]) (.imm (by decide))⟩

theorem no_reserved {m n : Nat} (hm : m ≤ 6) {h : Bytes} (H : Hd m n h) : h.head? ≠ some 0x1f := by
  have key : ∀ a, a < 28 → UInt8.ofNat (m * 32 + a) ≠ 0x1f := by
    intro a ha e
    have := congrArg UInt8.toNat e
    rw [ini_toNat (by omega) (by omega)] at this
    have e2 : (0x1f : UInt8).toNat = 31 := rfl
    omega
  cases H <;> simp only [List.head?_cons, ne_eq, Option.some.injEq]
  all_goals exact key _ (by omega)

/-- C92 is false for CBOR as it stands: the byte 0x1f is read as the integer 0, and is not an encoding of anything. -/
theorem c92_cbor_reserved_refuted : (reader false 2).Agrees ⟨[0x1f], 0⟩ (.uint 0) ∧ ¬ ∃ x c, At [0x1f] 0 c ∧ Enc true x c := by
  constructor
  · refine .uint ⟨⟨by decide +kernel, by decide +kernel, ⟨true, true, by decide +kernel, by decide +kernel, rfl⟩, by decide +kernel,
      by decide +kernel, by decide +kernel, by decide +kernel, by decide +kernel⟩, fun _ => ⟨0, by decide +kernel, by decide⟩,
      fun _ => ⟨0, by decide +kernel, by decide⟩⟩ (fun h => h.elim)
  · rintro ⟨x, c, ha, he⟩
    have hc : c = [0x1f] := by
      obtain ⟨pre, post, h, hp⟩ := ha
      have : pre = [] := List.eq_nil_of_length_eq_zero hp
      subst this
      have hpos := (Enc.item x he).pos
      cases c with
      | nil => simp at hpos
      | cons y t =>
        simp only [List.nil_append, List.cons_append, List.cons.injEq] at h
        obtain ⟨rfl, h⟩ := h
        have := List.append_eq_nil_iff.1 h.symm
        rw [this.1]
    subst hc
    have hd : ∀ {m n : Nat} {h t : Bytes}, m ≤ 6 → Hd m n h → h ++ t ≠ [0x1f] := by
      intro m n h t hm H e
      refine no_reserved hm H ?_
      have := H.pos
      cases h with
      | nil => simp at this
      | cons y h => simp only [List.cons_append, List.cons.injEq] at e; simp [e.1]
    have htext : ∀ {m : Nat} {s b : Bytes}, m ≤ 6 → 2 ≤ m → Text true m s b → b ≠ [0x1f] := by
      intro m s b hm h2 H e
      cases H with
      | definite H => exact hd hm H e
      | chunked _ H => simp at e
    have hgrp : ∀ {m n : Nat} {s b : Bytes}, m ≤ 6 → Group true m n s b → b ≠ [0x1f] := by
      intro m n s b hm H e
      cases H with
      | definite H => exact hd hm H e
      | indef _ => simp at e
    cases x with
    | null => simp [Enc] at he
    | bool y => cases y <;> simp [Enc] at he
    | int i =>
      simp only [Enc] at he
      rcases he with ⟨_, H⟩ | ⟨_, H⟩ <;> exact no_reserved (by omega) H rfl
    | uint i =>
      simp only [Enc] at he
      rcases he with ⟨_, H⟩ | ⟨_, H⟩ <;> exact no_reserved (by omega) H rfl
    | dbl d => simp only [Enc] at he; generalize hc : [(0x1f : UInt8)] = c at he; cases he <;> simp at hc
    | str s => simp only [Enc] at he; exact htext (by omega) (by omega) he rfl
    | blob s => simp only [Enc] at he; exact htext (by omega) (by omega) he rfl
    | arr xs => simp only [Enc] at he; obtain ⟨_, _, H⟩ := he; exact hgrp (by omega) H rfl
    | map ms => simp only [Enc] at he; obtain ⟨_, _, H⟩ := he; exact hgrp (by omega) H rfl

/-- A map of two entries with the same key. The length of the second value is 2^64 - 11, so that skipping it leads back behind the
first entry. -/
def loopMessage : Bytes := [0xa2, 0x61, 0x61, 0x01, 0x61, 0x61, 0x7b, 255, 255, 255, 255, 255, 255, 255, 0xf5]

/-- C92 needs the condition on lengths: this message is presented as the map of one entry, though it announces two and the second
is not there. -/
theorem c92_cbor_length_refuted : (reader false 16).Agrees ⟨loopMessage, 0⟩ (.map [([0x61], .uint 1)]) ∧
    ¬ ∃ c, At loopMessage 0 c ∧ EncL (.map [([0x61], .uint 1)]) c := by
  have k1 : View.asString false 16 ⟨loopMessage, 1⟩ = .ok [0x61] := by decide +kernel
  have k2 : View.asString false 16 ⟨loopMessage, 4⟩ = .ok [0x61] := by decide +kernel
  have s1 : skip false loopMessage 16 1 = .ok 3 := by decide +kernel
  have s2 : skip false loopMessage 16 3 = .ok 4 := by decide +kernel
  have s3 : skip false loopMessage 16 4 = .ok 6 := by decide +kernel
  have s4 : skip false loopMessage 16 6 = .ok 4 := by decide +kernel
  have hh : View.head ⟨loopMessage, 0⟩ = .ok ⟨5, 2, 2, 1, false⟩ := by decide +kernel
  constructor
  · refine .map (fun _ => ⟨loopMessage, 3⟩) ⟨by decide +kernel, by decide +kernel, ⟨false, false, by decide +kernel, by decide +kernel, rfl⟩,
      by decide +kernel, by decide +kernel, by decide +kernel, by decide +kernel, by decide +kernel⟩ (by decide +kernel) ?_ ?_ ?_ ?_
    · intro k
      have : View.contains false 16 ⟨loopMessage, 0⟩ k = .ok (decide (k ∈ [[(0x61 : UInt8)]])) := by
        simp only [View.contains, hh, Res.ok_bind, if_true, Bool.false_eq_true, if_false, View.containsN, Nat.zero_add,
          keyAt_of_asString k1, keyAt_of_asString k2, s1, s2, s3, s4]
        by_cases e : [(0x61 : UInt8)] = k
        · subst e; decide
        · simp only [if_neg e, Res.pure_eq, List.mem_singleton, decide_eq_false (Ne.symm e : ¬ k = [0x61])]
      exact this
    · intro k hk
      simp only [List.map_cons, List.map_nil, List.mem_singleton] at hk
      subst hk
      decide +kernel
    · intro k hk
      have hk : ¬ [(0x61 : UInt8)] = k := fun e => hk (by simp [← e])
      have : View.getKey false 16 ⟨loopMessage, 0⟩ k = .err .deser := by
        simp only [View.getKey, hh, Res.ok_bind, decide_true, Res.require_true, Bool.false_eq_true, if_false, View.getKeyN, Nat.zero_add,
          k1, k2, s1, s2, s3, s4, if_neg hk]
      exact this
    · intro k x hx
      have hx : x = .uint 1 := by
        simp only [firstVal] at hx
        split at hx
        · exact (Option.some.inj hx).symm
        · cases hx
      subst hx
      exact .uint ⟨⟨by decide +kernel, by decide +kernel, ⟨true, true, by decide +kernel, by decide +kernel, rfl⟩, by decide +kernel,
        by decide +kernel, by decide +kernel, by decide +kernel, by decide +kernel⟩, fun _ => ⟨1, by decide +kernel, by decide +kernel⟩,
        fun _ => ⟨1, by decide +kernel, by decide +kernel⟩⟩ (fun h => h.elim)
  · rintro ⟨c, ⟨pre, post, h, hp⟩, he⟩
    have : pre = [] := List.eq_nil_of_length_eq_zero hp
    subst this
    simp only [EncL] at he
    obtain ⟨cs, _, H⟩ := he
    have h0 := congrArg List.head? h
    cases H with
    | definite H =>
      simp only [List.length_cons, List.length_nil, Nat.zero_add] at H
      generalize hcs : cs.flatten = d at h0
      cases H <;> revert h0 <;> simp [loopMessage] <;> decide
    | indef _ => revert h0; simp [loopMessage]; decide

end Zer.Cbor
