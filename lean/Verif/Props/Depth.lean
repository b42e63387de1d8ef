import Verif.Depth.Cbor
import Verif.Depth.Translate
import Verif.Depth.Zera
import Verif.Amplify
import Verif.Props.MsgPack
import Verif.Props.Cbor
import Verif.Props.Json
import Verif.Props.Flex
import Verif.Flex.Any

/-!
# C79: how deep a message makes the readers and the translation recurse

A stack with room for `d` nested calls is the budget `d` of the recursive functions; `.diverge` stands for the call there
was no room for.
-/

namespace Zer

/-- `d` arrays of one element around a null. -/
def Val.nested : Nat → Val
  | 0 => .null
  | d + 1 => .arr [nested d]

theorem Val.depth_nested : ∀ d, (Val.nested d).depth = d + 1
  | 0 => rfl
  | d + 1 => by simp [Val.nested, Val.depth, Val.depthList, depth_nested d]

theorem Val.firstWins_nested : ∀ d, (Val.nested d).firstWins = Val.nested d
  | 0 => by simp [Val.nested, Val.firstWins]
  | d + 1 => by simp [Val.nested, firstWins_arr, firstWins_nested d]

theorem counter_accepts : counter.Accepts := fun n _ => ⟨n + 1, rfl⟩

theorem MsgPack.writer_accepts : MsgPack.writer.Accepts := fun _ _ => ⟨_, rfl⟩

/-- C79, what holds of the translation: a position that presents `v` takes exactly as many nested calls of `write_value` as
`v` has levels (where values behind repeated keys are never visited), into any writer that accepts every call. Missing: a
bound that does not grow with the message (`c79_translate_refuted`). -/
theorem c79_translate_partial {ρ σ : Type} {R : Reader ρ} {W : Writer σ} (hW : W.Accepts) {v : Val} {r : ρ} (h : R.Agrees r v)
    (f : Nat) (s : σ) : ((∃ s', writeValue R W f r s = .ok s') ↔ v.firstWins.depth ≤ f) ∧
      (writeValue R W f r s = .diverge ↔ f < v.firstWins.depth) := by
  obtain ⟨h1, h2⟩ := writeValue_within hW v r h f s
  by_cases hd : v.firstWins.depth ≤ f
  · obtain ⟨s', hs⟩ := h1 hd
    exact ⟨⟨fun _ => hd, fun _ => ⟨s', hs⟩⟩, ⟨(fun h => by rw [hs] at h; cases h), fun h => by omega⟩⟩
  · have e := h2 hd
    exact ⟨⟨(fun ⟨s', h⟩ => by rw [e] at h; cases h), fun h => absurd h hd⟩, ⟨fun _ => by omega, fun _ => e⟩⟩

namespace MsgPack

theorem nest_length : ∀ d, (nest d).length = d + 1
  | 0 => rfl
  | d + 1 => by simp [nest, nest_length d]

theorem enc_nest : ∀ d, Enc (.nested d) (nest d)
  | 0 => by simp [Val.nested, nest, Enc]
  | d + 1 => by
    simp only [Val.nested, nest, Enc, EncList]
    exact ⟨[0x91], [nest d], ArrHead.fix (n := 1) (by omega), ⟨_, _, enc_nest d, rfl, rfl⟩, by simp⟩

theorem below_nested {n : Nat} (hn : 1 < n) : ∀ d, (Val.nested d).Below n
  | 0 => by simp [Val.nested, Val.Below]
  | d + 1 => by simp [Val.nested, Val.Below, Val.Below.belowList, below_nested hn d]

/-- C79 is false of `mp_skip`: whatever room there is, a message of one more byte, which is valid and which `mp_skip` accepts
given more room, takes more. -/
theorem c79_msgpack_refuted (d : Nat) : ∃ b : Bytes, b.length = d + 1 ∧ mpSkip d b = .diverge ∧ skip b = .ok b.length := by
  have h := Enc.depth (.nested d) (below_nested (by decide) d) (enc_nest d)
  rw [Val.depth_nested] at h
  refine ⟨nest d, nest_length d, ?_, ?_⟩
  · have := h d []
    rw [List.append_nil, if_neg (by omega)] at this
    exact this
  · have := h (d + 2) []
    rw [List.append_nil, if_pos (by omega)] at this
    rw [skip, nest_length]
    exact this.trans (by rw [nest_length])

/-- C79, what holds of `mp_skip`: on any bytes there is an exact number of nested calls, at most the number of bytes and one.
Missing: a bound that does not grow with the message (`c79_msgpack_refuted`). -/
theorem c79_msgpack_partial (v : Bytes) :
    ∃ d, 1 ≤ d ∧ d ≤ v.length + 1 ∧ ∀ f, mpSkip f v = if d ≤ f then skip v else .diverge := mpSkip_depth v

/-- On the encoding of a value, whatever follows it, that number is the number of levels of the value. -/
theorem c79_msgpack_value {v : Val} {b : Bytes} (hb : v.Below (2 ^ 32 - 5)) (h : Enc v b) (t : Bytes) (f : Nat) :
    mpSkip f (b ++ t) = if v.depth ≤ f then .ok b.length else .diverge := Enc.depth v hb h f t

/-- A map with an array with a map in it: four levels, and three are not enough. -/
example : mpSkip 4 [0x81, 0xa1, 0x61, 0x92, 0x05, 0x81, 0xa1, 0x62, 0xc0, 0xff] = .ok 9 ∧
    mpSkip 3 [0x81, 0xa1, 0x61, 0x92, 0x05, 0x81, 0xa1, 0x62, 0xc0, 0xff] = .diverge := by decide +kernel

/-- Bytes that are no message have a depth as well: a truncated array in an array. -/
example : mpSkip 3 [0x92, 0x92, 0x01] = .err .deser ∧ mpSkip 2 [0x92, 0x92, 0x01] = .diverge := by decide +kernel

/-- C79 is false of translations: whatever room there is, translating a message of one more byte to MessagePack takes more. -/
theorem c79_translate_refuted (d : Nat) : ∃ b : Bytes, b.length = d + 1 ∧ proto.translate reader d b = .diverge ∧
    ∃ r, proto.translate reader (d + 1) b = .ok r := by
  have h := agrees_of_enc (.nested d) (nest d) [] (below_nested (by decide) d) (enc_nest d)
  rw [List.append_nil] at h
  refine ⟨nest d, nest_length d, ?_, ?_⟩
  · have := (c79_translate_partial writer_accepts h d ([] : Bytes)).2.2
      (by rw [Val.firstWins_nested, Val.depth_nested]; omega)
    show (writeValue reader writer d (nest d) ([] : Bytes) >>= _) = _
    rw [this]; rfl
  · obtain ⟨s, hs⟩ := (c79_translate_partial writer_accepts h (d + 1) ([] : Bytes)).1.2
      (by rw [Val.firstWins_nested, Val.depth_nested]; omega)
    refine ⟨s, ?_⟩
    show (writeValue reader writer (d + 1) (nest d) ([] : Bytes) >>= _) = _
    rw [hs]; rfl

/-- A repeated key hides what is nested behind its second occurrence: the value has three levels, two calls do. -/
example : reader.Agrees [0x82, 0xa1, 0x61, 0x01, 0xa1, 0x61, 0x91, 0xc0]
      (.map [([0x61], .int 1), ([0x61], .arr [.null])]) ∧
    (Val.map [([0x61], .int 1), ([0x61], .arr [.null])]).depth = 3 ∧
    writeValue reader writer 2 [0x82, 0xa1, 0x61, 0x01, 0xa1, 0x61, 0x91, 0xc0] ([] : Bytes) =
      .ok [0x82, 0xa1, 0x61, 0x01, 0xa1, 0x61, 0x01] := by
  refine ⟨?_, rfl, by decide +kernel⟩
  refine agrees_of_enc _ [0x82, 0xa1, 0x61, 0x01, 0xa1, 0x61, 0x91, 0xc0] [] ?_ ?_
  · simp [Val.Below, Val.Below.belowList, Val.Below.belowEntries, Lim]
  · simp only [Enc, EncEntries, EncList]
    refine ⟨[0x82], [[0xa1, 0x61], [0x01], [0xa1, 0x61], [0x91, 0xc0]], MapHead.fix (n := 2) (by omega), ?_, rfl⟩
    refine ⟨[0xa1], [0x01], _, StrHead.fix (n := 1) (by omega), ?_, ⟨[0xa1], [0x91, 0xc0], [], StrHead.fix (n := 1) (by omega),
      ⟨[0x91], [[0xc0]], ArrHead.fix (n := 1) (by omega), ⟨_, _, rfl, rfl, rfl⟩, rfl⟩, rfl, rfl⟩, rfl⟩
    exact EncInt.posfix (z := 1) (by omega) (by omega)

end MsgPack

namespace Cbor

/-- `d` arrays of one element around a null. -/
def nest : Nat → Bytes
  | 0 => [0xf6]
  | d + 1 => 0x81 :: nest d

theorem nest_length : ∀ d, (nest d).length = d + 1
  | 0 => rfl
  | d + 1 => by simp [nest, nest_length d]

theorem enc_nest : ∀ d, Enc false (.nested d) (nest d)
  | 0 => by simp [Val.nested, nest, Enc]
  | d + 1 => by
    simp only [Val.nested, nest, Enc, EncList]
    refine ⟨[nest d], ⟨_, _, enc_nest d, rfl, rfl⟩, ?_⟩
    have h : Group false 4 1 (nest d) ([0x81] ++ nest d) := .definite (Hd.imm (n := 1) (by omega))
    simpa using h

/-- `d` tags on a null. -/
def tags : Nat → Bytes
  | 0 => [0xf6]
  | d + 1 => 0xc6 :: tags d

theorem tags_length : ∀ d, (tags d).length = d + 1
  | 0 => rfl
  | d + 1 => by simp [tags, tags_length d]

theorem depth_tags : ∀ d, Depth (tags d) (d + 1)
  | 0 => depth_simple (n := 22) (by omega)
  | d + 1 => depth_tag (n := 6) (h := [0xc6]) (.imm (by omega)) (depth_tags d)

/-- C79 is false of the CBOR `skip`: whatever room there is, a message of one more byte takes more; arrays in arrays, or
tags on tags, where the value is a null all the while. -/
theorem c79_cbor_refuted (raw : Bool) (d : Nat) (hd : d + 1 < 2 ^ 64) {g : Nat} (hg : d + 1 < g) :
    (∃ b : Bytes, b.length = d + 1 ∧ skipIn raw b g d 0 = .diverge ∧ skipIn raw b g (d + 1) 0 = .ok b.length ∧
      Enc false (.nested d) b) ∧
    (∃ b : Bytes, b.length = d + 1 ∧ skipIn raw b g d 0 = .diverge ∧ skipIn raw b g (d + 1) 0 = .ok b.length ∧
      ∃ t, b = t ++ [0xf6] ∧ ∀ x ∈ t, x = 0xc6) := by
  constructor
  · have h := Enc.depth _ (enc_nest d)
    rw [Val.depth_nested] at h
    have h' := h raw (nest d) (by rw [nest_length]; exact hd) g (by rw [nest_length]; exact hg) 0 (by simpa using at_append _ [])
    refine ⟨nest d, nest_length d, ?_, ?_, enc_nest d⟩
    · rw [h', if_neg (by omega)]
    · rw [h', if_pos (by omega), Nat.zero_add]
  · have h' := depth_tags d raw (tags d) (by rw [tags_length]; exact hd) g (by rw [tags_length]; exact hg) 0 (by simpa using at_append _ [])
    refine ⟨tags d, tags_length d, ?_, ?_, List.replicate d 0xc6, ?_, fun x hx => (List.mem_replicate.1 hx).2⟩
    · rw [h', if_neg (by omega)]
    · rw [h', if_pos (by omega), Nat.zero_add]
    · clear h' hg hd
      induction d with
      | zero => rfl
      | succ d ih => rw [tags, ih]; rfl

/-- C79, what holds of the CBOR `skip`: on any bytes in which no head announces a number near 2^64 there is an exact number of
nested calls, at most the number of bytes left and one. Missing: a bound that does not grow with the message
(`c79_cbor_refuted`); heads near 2^64, where `skip` runs in circles (`c25_cbor_terminates_refuted`). -/
theorem c79_cbor_partial {raw : Bool} {v : Bytes} (hn : NoHugeAll v) (hv : v.length < 2 ^ 63) (p : Nat) {g : Nat}
    (hg : v.length < g) : ∃ d, 1 ≤ d ∧ d ≤ v.length - p + 1 ∧
      ∀ f, skipIn raw v g f p = if d ≤ f then skip raw v (v.length + 1) p else .diverge := skipIn_depth hn hv p hg

/-- On the encoding of a value, definite or not, whatever is around it, that number is the number of levels of the value. -/
theorem c79_cbor_value {ind raw : Bool} {w : Val} {b v : Bytes} (h : Enc ind w b) (hv : v.length < 2 ^ 64) {g : Nat}
    (hg : v.length < g) {p : Nat} (hp : At v p b) (f : Nat) :
    skipIn raw v g f p = if w.depth ≤ f then .ok (p + b.length) else .diverge := Enc.depth w h raw v hv g hg p hp f

/-- `skipIn` is `skip` of the model, with separate budgets for nesting and for loops. -/
theorem c79_cbor_same {raw : Bool} {v : Bytes} {f g d p : Nat} (hg : f ≤ g) (hd : f ≤ d) (h : skip raw v f p ≠ .diverge) :
    skipIn raw v g d p = skip raw v f p := more_skipIn hg hd p h

/-- A map with an array of indefinite length with a tagged null in it. -/
example : skipIn false [0xa1, 0x61, 0x61, 0x9f, 0x05, 0xc6, 0xf6, 0xff, 0x00] 10 4 0 = .ok 8 ∧
    skipIn false [0xa1, 0x61, 0x61, 0x9f, 0x05, 0xc6, 0xf6, 0xff, 0x00] 10 3 0 = .diverge := by decide +kernel

variable {ρ : Type} {R : Reader ρ} {utf8 : Bytes → Bool} {m fuel : Nat}

/-- C79 holds of translations to CBOR, whatever is read: the encoder allows `m` levels (1024 in jsoncons), and no more than
`m + 1` nested calls of `write_value` are ever made; more room makes no difference to the outcome. -/
theorem c79_to_cbor {f : Nat} (hf : m + 1 ≤ f) (r : ρ) :
    (proto utf8 m false fuel).translate R f r = (proto utf8 m false fuel).translate R (m + 1) r := by
  have h := writeValue_shallow (R := R) (utf8 := utf8) (m := m) f (m + 1) r {} (by simpa using hf) (by simp)
    (by omega) (by omega)
  show (writeValue R (writer utf8 m) f r {} >>= _) = (writeValue R (writer utf8 m) (m + 1) r {} >>= _)
  rw [h]

/-- The buffer that refers to itself is refused: with a limit of two levels at the third call. -/
example : (match (proto (fun _ => true) 2 false 1).translate Zera.reader 3 ⟨Zera.cyclic, 44, 64, some 20⟩ with
      | .err .runtime => true | _ => false) = true ∧
    (match (proto (fun _ => true) 2 false 1).translate Zera.reader 2 ⟨Zera.cyclic, 44, 64, some 20⟩ with
      | .diverge => true | _ => false) = true := by decide +kernel

theorem translate_returns {I : ρ → Prop} (T : R.Total I) (hI : ∀ r i c, I r → R.getIdx r i = .ok c → I c)
    (hK : ∀ r k c, I r → R.getKey r k = .ok c → I c) {f : Nat} (hf : m + 1 ≤ f) {r : ρ} (hr : I r) :
    (proto utf8 m false fuel).translate R f r ≠ .diverge :=
  Returns.bind (writeValue_returns_cbor step_returns T hI hK f r {} hr (by simpa using hf) (by omega))
    fun s _ => Returns.bind (returns_ok _) fun _ _ => returns_ok _

/-- C28 holds of translations to CBOR from every position in any bytes of ZERA, also of those that refer to themselves
(`Zera.c28_translate_terminates_refuted`), from any bytes of MessagePack, from any JSON document and from every position in any
bytes of Flexbuffers, also of those that refer to themselves (`Flex.c28_flex_source_refuted`): with room for one call more than
the encoder has levels, they return. -/
theorem c28_to_cbor {f : Nat} (hf : m + 1 ≤ f) (r : Zera.View) (b : Bytes) (j : Val) {d : Flex.Ref}
    (hd : d.buf.length < 2 ^ 60) :
    (proto utf8 m false fuel).translate Zera.reader f r ≠ .diverge ∧
    (proto utf8 m false fuel).translate MsgPack.reader f b ≠ .diverge ∧
    (proto utf8 m false fuel).translate Json.reader f j ≠ .diverge ∧
    (proto utf8 m false fuel).translate Flex.reader f d ≠ .diverge :=
  ⟨translate_returns Zera.reader_total (fun _ _ _ _ _ => trivial) (fun _ _ _ _ _ => trivial) hf trivial,
    translate_returns MsgPack.reader_total (fun _ _ _ _ _ => trivial) (fun _ _ _ _ _ => trivial) hf trivial,
    translate_returns Json.reader_total (fun _ _ _ _ _ => trivial) (fun _ _ _ _ _ => trivial) hf trivial,
    translate_returns Flex.reader_total (fun _ _ _ h hc => Nat.lt_of_le_of_lt (Flex.getIdx_buf hc) h)
      (fun _ _ _ h hc => Nat.lt_of_le_of_lt (Flex.getKey_buf hc) h) hf hd⟩

end Cbor

end Zer
