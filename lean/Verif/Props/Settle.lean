import Verif.Settle
import Verif.Props.Transcode

/-!
# Property C100: which sign an integer comes back with

`isInt` and `isUInt` on the integers of a message, and the bytes that translations make of them, exactly.
-/

namespace Zer

open Proto

/-- C100, one translation: what a format writes for a value is translated into exactly the bytes of the value with the signs the first
format gives to its integers (the first value under repeated keys; keys in order for Flex). -/
theorem c100_recode {P : Proto} {s : Val → Val} {D : Val → Prop} (hP : P.Settles s D) {v : Val} (hv : D v) {b : Bytes}
    (hb : P.serialize v = .ok b) (Q : Proto) {f : Nat} (hf : (s v).depth ≤ f) : P.recode Q f b = Q.serialize (s v).firstWins := by
  obtain ⟨r, h1, h2⟩ := hP v b hv hb
  obtain ⟨v', -, k2, k3⟩ := writeValue_run _ r h2
  have k := k3 _ Q.writer f hf Q.init
  rw [writeValue_settled] at k
  simp only [recode, h1, Res.ok_bind, k, k2 trivial]
  rfl

/-! ## Routes -/

/-- The signs of a format's integers: the rule by which a message presents them, or `none` if the message tells them apart as they were
written. -/
abbrev Signs := Option (Int → Bool)

/-- The value as the rule presents it. -/
def Val.signed (v : Val) : Signs → Val
  | none => v
  | some g => v.signs g

/-- A format and its rule. -/
structure Station where
  P : Proto
  g : Signs

/-- The station takes the value, with its integers signed or not: it writes it, and presents it by its rule. -/
def Station.Takes (S : Station) (v : Val) : Prop := ∀ w : Val, w.Same v → (w.signed S.g).Same v ∧
  ∃ b r, S.P.serialize w = .ok b ∧ S.P.opn b = .ok r ∧ S.P.reader.Agrees r w ∧ S.P.reader.settled.AgreesStrictly r (w.signed S.g)

/-- The rule of the last station that has one. -/
def lastRule : List Station → Signs → Signs
  | [], a => a
  | S :: Ss, a => lastRule Ss (S.g <|> a)

theorem Val.signed_signed {v : Val} {a g : Signs} (h : (v.signed a).Same v) : (v.signed a).signed g = v.signed (g <|> a) := by
  cases g with
  | none => rfl
  | some g => exact Val.signs_same g h

/-- C100, any route: the message at the end is the one the last format writes for the value with the signs of the last format before it
that has a rule, and presents its integers with the signs of the last format that has one. -/
theorem c100_route {v : Val} (hd : v.Distinct) {f : Nat} (hf : v.depth ≤ f) : ∀ (Ss : List Station) (S : Station) {a : Signs} {b : Bytes},
    (v.signed a).Same v → (∀ T ∈ S :: Ss, T.Takes v) → S.P.serialize (v.signed a) = .ok b →
    ∃ (c : Bytes) (r : ((S :: Ss).getLast (by simp)).P.ρ),
      route f S.P (Ss.map Station.P) b = .ok c ∧
      ((S :: Ss).getLast (by simp)).P.serialize (v.signed (lastRule (S :: Ss).dropLast a)) = .ok c ∧
      ((S :: Ss).getLast (by simp)).P.opn c = .ok r ∧
      ((S :: Ss).getLast (by simp)).P.reader.Agrees r v ∧
      ((S :: Ss).getLast (by simp)).P.reader.settled.AgreesStrictly r (v.signed (lastRule (S :: Ss) a))
  | [], S, a, b, ha, hT, hb => by
    obtain ⟨-, b', r, h1, h2, h3, h4⟩ := hT S (by simp) _ ha
    rw [hb] at h1; cases h1
    rw [Val.signed_signed ha] at h4
    exact ⟨b, r, rfl, hb, h2, h3.same _ ha, h4⟩
  | T :: Ss, S, a, b, ha, hT, hb => by
    obtain ⟨h0, b', r, h1, h2, h3, h4⟩ := hT S (by simp) _ ha
    rw [hb] at h1; cases h1
    rw [Val.signed_signed ha] at h0 h4
    obtain ⟨v', -, k2, k3⟩ := writeValue_run _ r h4
    have k := k3 _ T.P.writer f (by rw [Val.depth_same h0]; exact hf) T.P.init
    rw [writeValue_settled, k2 trivial, Val.firstWins_of_distinct _ (Flex.distinct_same h0 hd)] at k
    have e : S.P.recode T.P f b = T.P.serialize (v.signed (S.g <|> a)) := by
      simp only [recode, h2, Res.ok_bind, k]; rfl
    obtain ⟨-, c, -, j1, -⟩ := hT T (by simp) _ h0
    obtain ⟨d, r', e1, e2, e3, e4, e5⟩ := c100_route hd hf Ss T h0 (fun X hX => hT X (by simp [hX])) j1
    refine ⟨d, r', ?_, e2, e3, e4, e5⟩
    simp only [List.map_cons, route, e, j1, Res.ok_bind, e1]

/-- What is asked of an integer: `isInt`, `isUInt` as code that asks in the order of `write_value` sees them, and the number itself. -/
def Val.asked (g : Signs) : Val → Bool
  | .int i => match g with | none => true | some g => g i.toInt
  | .uint n => match g with | none => false | some g => g n.toNat
  | _ => false

theorem Val.at_signed {g : Signs} {p : List Hop} {v w : Val} (h : v.at p = some w) : (v.signed g).at p = some (w.signed g) := by
  cases g with
  | none => exact h
  | some g => exact Val.at_signs g p h

/-- C100, what is seen: at the end of a path to a number, `isInt` answers by the rule, and if the answer is no, `isUInt` answers yes. -/
theorem c100_asked {ρ : Type} {R : Reader ρ} {g : Signs} {r : ρ} {v w : Val} (h : R.settled.AgreesStrictly r (v.signed g)) {p : List Hop}
    (hw : v.at p = some w) (hn : w.kind = 2) :
    ∃ c, R.goto p r = .ok c ∧ R.isInt c = .ok (w.asked g) ∧ (w.asked g = false → R.isUInt c = .ok true) := by
  obtain ⟨c, h1, h2⟩ := Reader.AgreesW.at p h (Val.at_signed hw)
  rw [Reader.goto_settled] at h1
  have low : R.isInt c = .ok false → R.settled.isUInt c = .ok true → R.isUInt c = .ok true := by
    intro h1 h2
    have h2 : (R.isInt c >>= fun t => if t = true then pure false else R.isUInt c) = .ok true := h2
    rw [h1] at h2
    simpa using h2
  have sg : ∀ {i : Int64}, R.settled.AgreesStrictly c (.int i) → R.isInt c = .ok true := by
    intro i h; cases h with | int _ h => exact (h trivial).1
  have us : ∀ {n : UInt64}, R.settled.AgreesStrictly c (.uint n) → R.isInt c = .ok false ∧ R.isUInt c = .ok true := by
    intro n h; cases h with | uint _ h => exact ⟨(h trivial).1, low (h trivial).1 (h trivial).2⟩
  refine ⟨c, h1, ?_⟩
  cases w <;> simp [Val.kind] at hn
  · rename_i i
    cases g with
    | none => exact ⟨sg h2, fun h => by cases h⟩
    | some g =>
      simp only [Val.signed, Val.signs] at h2
      simp only [Val.asked]
      cases e : g i.toInt
      · rw [e] at h2; exact ⟨(us h2).1, fun _ => (us h2).2⟩
      · rw [e] at h2; exact ⟨sg h2, fun h => by cases h⟩
  · rename_i n
    cases g with
    | none => exact ⟨(us h2).1, fun _ => (us h2).2⟩
    | some g =>
      simp only [Val.signed, Val.signs] at h2
      simp only [Val.asked]
      cases e : g n.toNat
      · rw [e] at h2; exact ⟨(us h2).1, fun _ => (us h2).2⟩
      · rw [e] at h2; exact ⟨sg h2, fun h => by cases h⟩

/-! ## The formats -/

/-- ZERA tells the signs apart. -/
def Zera.station : Station := ⟨Zera.proto, none⟩
/-- MessagePack: signed exactly below 128. -/
def MsgPack.station : Station := ⟨MsgPack.proto, some fun z => decide (z < 128)⟩
/-- CBOR: all signed. -/
def Cbor.station (utf8 : Bytes → Bool) (maxDepth fuel : Nat) : Station := ⟨Cbor.proto utf8 maxDepth false fuel, some fun _ => true⟩
/-- JSON: all signed. -/
def Json.station (T : Json.Text) (dbg : Bool) : Station := ⟨Json.proto T dbg, some fun _ => true⟩
/-- Flex tells the signs apart. -/
def Flex.station (L : Flex.Lib) (dbg : Bool) : Station := ⟨Flex.proto L dbg, none⟩

/-- C100 for ZERA: every value it writes. -/
theorem Zera.c100_zera {v : Val} {b : Bytes} (hb : Zera.proto.serialize v = .ok b) : Zera.station.Takes v := by
  intro w hw
  obtain ⟨c, r, h1, h2, h3⟩ := Zera.carries hb w hw
  obtain ⟨r', k1, k2⟩ := Zera.settles w c trivial h1
  rw [show Zera.station.P = Zera.proto from rfl]
  rw [h2] at k1; cases k1
  exact ⟨hw, c, r, h1, h2, h3, k2⟩

/-- C100 for MessagePack. -/
theorem MsgPack.c100_msgpack {v : Val} (hs : v.Sized) (hl : v.Below (2 ^ 32 - 5)) : MsgPack.station.Takes v := by
  intro w hw
  obtain ⟨c, r, h1, h2, h3⟩ := MsgPack.carries hs hl w hw
  obtain ⟨r', k1, k2⟩ := MsgPack.settles w c (MsgPack.sized_same hw ⟨hs, hl⟩) h1
  rw [h2] at k1; cases k1
  exact ⟨Eq.trans (Val.same_signs _ (Val.sane_msgpack w)) hw, c, r, h1, h2, h3, k2⟩

/-- C100 for CBOR. -/
theorem Cbor.c100_cbor {utf8 : Bytes → Bool} {maxDepth fuel : Nat} {v : Val} (hs : v.Small) {c : Bytes}
    (hc : (Cbor.proto utf8 maxDepth false fuel).serialize v = .ok c) (hl : c.length < 2 ^ 64) (hf : c.length ≤ fuel) :
    (Cbor.station utf8 maxDepth fuel).Takes v := by
  intro w hw
  obtain ⟨c', r, h1, h2, h3⟩ := Cbor.carries hs hc hl hf w hw
  have hw' : Cbor.Dom utf8 maxDepth fuel w := Cbor.dom_same hw ⟨hs, fun b hb => by
    rw [hc] at hb; cases hb; exact ⟨hl, hf⟩⟩
  obtain ⟨r', k1, k2⟩ := Cbor.settles w c' hw' h1
  rw [h2] at k1; cases k1
  exact ⟨Eq.trans (Val.same_signs _ (Val.sane_small (fun _ _ => rfl) hw'.1)) hw, c', r, h1, h2, h3, k2⟩

/-- C100 for JSON. -/
theorem Json.c100_json {T : Json.Text} (L : T.Law) (dbg : Bool) {v : Val} (ht : Json.Textual T v) (hp : Json.Plain v) (hk : Json.KeysOk v) :
    (Json.station T dbg).Takes v := by
  intro w hw
  obtain ⟨c, r, h1, h2, h3⟩ := Json.carries L dbg ht hp hk w hw
  have hp' := Json.plain_same hw hp
  obtain ⟨r', k1, k2⟩ := Json.settles L dbg w c ⟨hp', Json.keysOk_same hw hk⟩ h1
  rw [h2] at k1; cases k1
  have hs : w.Small := Val.Each.mono (fun v h => by cases v <;> first | exact h | trivial) (fun _ h => h) hp'
  exact ⟨Eq.trans (Val.same_signs _ (Val.sane_small (fun _ _ => rfl) hs)) hw, c, r, h1, h2, h3, k2⟩

/-- C100 for Flex: values with their keys in order. -/
theorem Flex.c100_flex {L : Flex.Lib} (H : L.Law) (dbg : Bool) {v : Val} (hd : v.Distinct) (hn : v.NulFree) (hs : v.Sorted)
    (hf : Flex.Fits v) : (Flex.station L dbg).Takes v := by
  intro w hw
  obtain ⟨c, r, h1, h2, h3⟩ := Flex.carries H dbg hd hn hs hf w hw
  obtain ⟨r', k1, k2⟩ := Flex.settles H dbg w c ⟨Flex.distinct_same hw hd, Flex.nulFree_same hw hn, Flex.fits_same hw hf⟩ h1
  rw [h2] at k1; cases k1
  rw [Val.sortKeys_of_sorted (Tensor.sorted_same hw hs)] at k2
  exact ⟨hw, c, r, h1, h2, h3, k2⟩

/-! ## Consequences -/

/-- C100: once through a format with a rule, further round trips through it and the formats without one change nothing: the bytes after
`S → T → S → T` are those after `S → T`. -/
theorem c100_settled {v : Val} (hd : v.Distinct) {f : Nat} (hf : v.depth ≤ f) {S T : Station} (hT : T.g = none) (hS : S.Takes v)
    (hT' : T.Takes v) {b c : Bytes} (hb : S.P.serialize v = .ok b) (hc : route f S.P [T.P] b = .ok c) :
    route f S.P [T.P, S.P, T.P] b = .ok c := by
  obtain ⟨c', r, h1, h2, -⟩ := c100_route hd hf [T] S (a := none) rfl (by simp [hS, hT']) hb
  obtain ⟨d, r', k1, k2, -⟩ := c100_route hd hf [T, S, T] S (a := none) rfl (by simp [hS, hT']) hb
  rw [show [T].map Station.P = [T.P] from rfl, hc] at h1; cases h1
  have e1 : (S :: [T]).getLast (by simp) = T := rfl
  have e2 : (S :: [T, S, T]).getLast (by simp) = T := rfl
  rw [e1] at h2
  rw [e2] at k2
  have l1 : lastRule (S :: [T]).dropLast none = (S.g <|> none) := rfl
  have l2 : lastRule (S :: [T, S, T]).dropLast none = (S.g <|> (T.g <|> (S.g <|> none))) := rfl
  rw [l1] at h2
  rw [l2, hT] at k2
  have : (S.g <|> ((none : Signs) <|> (S.g <|> none))) = (S.g <|> none) := by cases S.g <;> rfl
  rw [this, h2] at k2
  cases k2
  exact k1

/-- `[-1, 5u, 127, 128, 200u, 2^63 - 1]` -/
def signVal : Val := .arr [.int (-1), .uint 5, .int 127, .int 128, .uint 200, .int 9223372036854775807]

/-- C100, an instance of every rule: what MessagePack and CBOR make of the signs. -/
theorem c100_example :
    (∃ b, MsgPack.proto.serialize signVal = .ok b ∧ MsgPack.proto.recode Zera.proto 2 b =
      Zera.proto.serialize (.arr [.int (-1), .int 5, .int 127, .uint 128, .uint 200, .uint 9223372036854775807])) ∧
    (∃ b, (Cbor.proto (fun _ => true) 9 false 99).serialize signVal = .ok b ∧ (Cbor.proto (fun _ => true) 9 false 99).recode Zera.proto 2 b =
      Zera.proto.serialize (.arr [.int (-1), .int 5, .int 127, .int 128, .int 200, .int 9223372036854775807])) := by
  refine ⟨⟨_, rfl, ?_⟩, ⟨_, rfl, ?_⟩⟩
  · refine (c100_recode MsgPack.settles (v := signVal) ⟨?_, ?_⟩ rfl Zera.proto (by decide)).trans (by decide +kernel)
    · simp [signVal, Val.Sized, Val.sizedList]
    · simp [signVal, Val.Below, Val.Below.belowList]
  · refine (c100_recode (Cbor.settles (utf8 := fun _ => true) (maxDepth := 9) (fuel := 99)) (v := signVal) ⟨?_, ?_⟩ rfl Zera.proto (by decide)).trans (by decide +kernel)
    · simp [signVal, Val.Small, Val.Each, Val.eachList]
    · intro b hb
      have e : (Cbor.proto (fun _ => true) 9 false 99).serialize signVal = .ok _ := rfl
      rw [hb] at e; cases e
      decide

end Zer
