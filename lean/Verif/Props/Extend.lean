import Verif.Prefix.Extend
import Verif.Props.Prefix

/-!
# C75: bytes after a message are not part of it

For arbitrary input bytes, not only for those a writer made. Together with C74 this frames messages: of all prefixes
of a stream that starts with a message, exactly those that contain the message present a value.
-/

namespace Zer.MsgPack

/-- C75 for MessagePack: a buffer that presents a value presents it whatever bytes follow. -/
theorem c75_msgpack {p : Prop} {b : Bytes} {v : Val} (h : reader.AgreesW p b v) (x : Bytes) : reader.AgreesW p (b ++ x) v := by
  cases b with
  | nil => exact absurd (h.weaken False.elim) agrees_nil
  | cons m w => exact reader_extends.agrees h (.inr ⟨m, w, x, rfl, rfl⟩)

/-- … and no other value. -/
theorem c75_msgpack_no_other {b x : Bytes} {v w : Val} (h : reader.Agrees b v) (h' : reader.Agrees (b ++ x) w) (hv : v.Distinct)
    (hw : w.Distinct) : v.Same w := ((c75_msgpack h x).determined_distinct h' hv hw).1

/-- Messages in a stream: the prefixes that present a value are those that contain the first message. -/
theorem c75_msgpack_frames_partial {v : Val} (hs : v.Sized) (hb : v.Below (2 ^ 32 - 5)) (hd : v.Distinct) {b x p t : Bytes}
    (h : proto.serialize v = .ok b) (hp : b ++ x = p ++ t) : (∃ w, reader.Agrees p w) ↔ b.length ≤ p.length := by
  constructor
  · rintro ⟨w, hw⟩
    rcases Nat.lt_or_ge p.length b.length with hl | hl
    · obtain ⟨s, rfl, -⟩ := List.append_eq_append_iff.1 hp |>.resolve_left (by
        rintro ⟨s, rfl, -⟩
        simp at hl; omega)
      exact absurd hw (c74_msgpack_partial hs hb hd h rfl (by rintro rfl; simp at hl) w)
    · exact hl
  · intro hl
    obtain ⟨r, h1, h2⟩ := proto_roundTrips v b ⟨hs, hb⟩ h
    injection h1 with h1
    subst h1
    rcases List.append_eq_append_iff.1 hp with ⟨s, rfl, -⟩ | ⟨s, rfl, -⟩
    · exact ⟨v, c75_msgpack h2 s⟩
    · have : s = [] := List.length_eq_zero_iff.1 (by simp at hl; omega)
      subst this
      rw [List.append_nil] at h2
      exact ⟨v, h2⟩

example : reader.Agrees [0x81, 0xa1, 0x61, 0x92, 0x07, 0xc3] (.map [([0x61], .arr [.uint 7, .bool true])]) := by
  obtain ⟨r, h1, h2⟩ := proto_roundTrips (.map [([0x61], .arr [.uint 7, .bool true])]) [0x81, 0xa1, 0x61, 0x92, 0x07, 0xc3]
    (by simp [Val.Sized, Val.sizedEntries, Val.sizedList, Val.Below, Val.Below.belowEntries, Val.Below.belowList])
    (by rw [serialize_eq]; rfl)
  injection h1 with h1
  subst h1
  exact h2

end Zer.MsgPack

namespace Zer.Cbor

/-- C75 for CBOR: a position of a buffer that presents a value presents it whatever bytes follow. -/
theorem c75_cbor {p : Prop} {hard : Bool} {f : Nat} {b : Bytes} {q : Nat} {v : Val} (h : (reader hard f).AgreesW p ⟨b, q⟩ v) (x : Bytes) :
    (reader hard f).AgreesW p ⟨b ++ x, q⟩ v := (reader_extends hard f).agrees h ⟨x, rfl⟩

/-- … and no other value. -/
theorem c75_cbor_no_other {hard : Bool} {f : Nat} {b x : Bytes} {q : Nat} {v w : Val} (h : (reader hard f).Agrees ⟨b, q⟩ v)
    (h' : (reader hard f).Agrees ⟨b ++ x, q⟩ w) (hv : v.Distinct) (hw : w.Distinct) : v.Same w :=
  ((c75_cbor h x).determined_distinct h' hv hw).1

/-- Messages in a stream, repeated keys or not. Missing: unsigned numbers of 2^63 or more, which are not presented
(`c23_cbor_round_trip_refuted`). -/
theorem c75_cbor_frames_partial {utf8 : Bytes → Bool} {maxDepth f : Nat} {v : Val} (hs : v.Small) {b x p t : Bytes}
    (h : (proto utf8 maxDepth false f).serialize v = .ok b) (hl : b.length < 2 ^ 64) (hf : b.length ≤ f) (hp : b ++ x = p ++ t) :
    (∃ w, (reader false f).Agrees ⟨p, 0⟩ w) ↔ b.length ≤ p.length := by
  constructor
  · rintro ⟨w, hw⟩
    rcases Nat.lt_or_ge p.length b.length with hlt | hge
    · obtain ⟨s, rfl, -⟩ := List.append_eq_append_iff.1 hp |>.resolve_left (by
        rintro ⟨s, rfl, -⟩
        simp at hlt; omega)
      exact absurd hw (c74_cbor h hl hf rfl (by rintro rfl; simp at hlt) w)
    · exact hge
  · intro hge
    have h2 := c23_cbor_round_trip_partial hs h hl hf
    rcases List.append_eq_append_iff.1 hp with ⟨s, rfl, -⟩ | ⟨s, rfl, -⟩
    · exact ⟨v, c75_cbor h2 s⟩
    · have : s = [] := List.length_eq_zero_iff.1 (by simp at hge; omega)
      subst this
      rw [List.append_nil] at h2
      exact ⟨v, h2⟩

example : (reader false 6).Agrees ⟨[0xa1, 0x61, 0x61, 0x82, 0x07, 0xf5], 0⟩ (.map [([0x61], .arr [.uint 7, .bool true])]) :=
  c23_cbor_round_trip_partial (utf8 := fun _ => true) (maxDepth := 1024)
    (by simp [Val.Small, Val.Each, Val.eachEntries, Val.eachList]) (by decide +kernel) (by simp) (by simp)

end Zer.Cbor

namespace Zer.Zera

/-- C75 for ZERA: a buffer that opens and presents a value opens and presents it whatever bytes follow. -/
theorem c75_zera {p : Prop} {b : Bytes} {r : View} {v : Val} (ho : initFrom b = .ok r) (h : reader.AgreesW p r v) (x : Bytes) :
    ∃ s, initFrom (b ++ x) = .ok s ∧ reader.AgreesW p s v :=
  ⟨_, initFrom_more ho x, reader_extends.agrees h ⟨x, rfl⟩⟩

/-- … and no other value. -/
theorem c75_zera_no_other {b x : Bytes} {r s : View} {v w : Val} (ho : initFrom b = .ok r) (h : reader.AgreesStrictly r v)
    (ho' : initFrom (b ++ x) = .ok s) (h' : reader.AgreesStrictly s w) (hv : v.Distinct) (hw : w.Distinct) : v = w := by
  obtain ⟨s', h1, h2⟩ := c75_zera ho h x
  rw [ho'] at h1
  injection h1 with h1
  subst h1
  exact (h2.determined_distinct h' hv hw).2 trivial

/-- Messages in a stream: the prefixes that open and present a value are those that contain the first message. -/
theorem c75_zera_frames_partial {thr : Nat} (hthr : thr ≤ 12) {v : Val} (hd : v.Distinct) {b x p t : Bytes}
    (h : serializeEvs thr (emit v) = .ok b) (hp : b ++ x = p ++ t) :
    (∃ r w, initFrom p = .ok r ∧ reader.Agrees r w) ↔ b.length ≤ p.length := by
  constructor
  · rintro ⟨r, w, hr, hw⟩
    rcases Nat.lt_or_ge p.length b.length with hl | hl
    · obtain ⟨s, rfl, -⟩ := List.append_eq_append_iff.1 hp |>.resolve_left (by
        rintro ⟨s, rfl, -⟩
        simp at hl; omega)
      exact absurd hw (c74_zera_partial hthr hd h rfl (by rintro rfl; simp at hl) hr w)
    · exact hl
  · intro hl
    obtain ⟨r, h1, h2⟩ := c01_zera_round_trip thr v h
    have h2 : reader.Agrees r v := h2.weaken False.elim
    rcases List.append_eq_append_iff.1 hp with ⟨s, rfl, -⟩ | ⟨s, rfl, -⟩
    · obtain ⟨r', h3, h4⟩ := c75_zera h1 h2 s
      exact ⟨r', v, h3, h4⟩
    · have : s = [] := List.length_eq_zero_iff.1 (by simp at hl; omega)
      subst this
      rw [List.append_nil] at h1
      exact ⟨r, v, h1, h2⟩

example : ∃ b r, initFrom b = .ok r ∧ reader.AgreesStrictly r sample := by
  have h : (match serialize sample with | .ok _ => true | _ => false) = true := by decide +kernel
  cases hs : serialize sample with
  | ok b =>
    obtain ⟨r, h1, h2⟩ := c01_zera_round_trip_default sample hs
    exact ⟨b, r, h1, h2⟩
  | _ => rw [hs] at h; cases h

end Zer.Zera
