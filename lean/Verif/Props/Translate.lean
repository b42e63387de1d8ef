import Verif.Proto
import Verif.Props.Zera
import Verif.MsgPack.Model

/-!
# Properties C27, C28, C30: translation between protocols
-/

namespace Zer

/-- C27, C30 for any source reader and any destination protocol with a round trip: translating a
position that presents `v` is serializing one value `v'`, which is `v` up to integer signedness
where later entries under a repeated key got the first one's value. What comes out presents that
value. -/
theorem c27_translate {ρ : Type} {R : Reader ρ} {p q : Prop} (P : Proto) {D : Val → Prop}
    (hP : P.RoundTrips q D) {r : ρ} {v : Val} (h : R.AgreesW p r v)
    (hD : ∀ v' : Val, v'.Same v.firstWins → D v') {f : Nat} (hf : v.depth ≤ f) :
    ∃ v', v'.Same v.firstWins ∧ (p → v' = v.firstWins) ∧
      P.translate R f r = (P.serialize v' >>= P.opn) ∧
      ∀ r', P.translate R f r = .ok r' → P.reader.Agrees r' v.firstWins ∧ P.reader.AgreesW q r' v' := by
  obtain ⟨v', h1, h2, h3⟩ := writeValue_run v r h
  have e : P.translate R f r = (P.serialize v' >>= P.opn) := by
    simp only [Proto.translate, Proto.serialize, Proto.bytesOf, h3 _ P.writer f hf P.init, bind_assoc]
  refine ⟨v', h1, h2, e, fun r' hr => ?_⟩
  rw [e] at hr
  obtain ⟨b, hb, ho⟩ := Res.bind_eq_ok.1 hr
  obtain ⟨r'', ho', ha⟩ := hP v' b (hD v' h1) hb
  rw [ho] at ho'; injection ho' with ho'; subst ho'
  exact ⟨ha.agrees.same v' h1, ha⟩

/-- C27: translating the serialization of a value with distinct keys gives, if the destination can
serialize it, a reader that presents the same value. -/
theorem c27_translate_pair (P Q : Proto) {p q : Prop} {D E : Val → Prop} (hP : P.RoundTrips p D)
    (hQ : Q.RoundTrips q E) {v : Val} (hd : v.Distinct) (hD : D v)
    (hE : ∀ v' : Val, v'.Same v → E v') {b : Bytes} (hb : P.serialize v = .ok b) :
    ∃ r, P.opn b = .ok r ∧ ∀ f, v.depth ≤ f →
      ∃ v', v'.Same v ∧ (p → v' = v) ∧ Q.translate P.reader f r = (Q.serialize v' >>= Q.opn) ∧
        ∀ r', Q.translate P.reader f r = .ok r' → Q.reader.Agrees r' v ∧ Q.reader.AgreesW q r' v' := by
  obtain ⟨r, hr, ha⟩ := hP v b hD hb
  refine ⟨r, hr, fun f hf => ?_⟩
  have e := Val.firstWins_of_distinct v hd
  have := c27_translate Q hQ ha (by rw [e]; exact hE) hf
  rw [e] at this
  exact this

namespace Zera

/-- ZERA as a protocol, zera.hpp:817-822; default inline threshold. -/
def proto : Proto where
  σ := RS
  ρ := View
  writer := writer
  init := {}
  finish := finish
  reader := reader
  opn := initFrom

theorem proto_serialize (v : Val) : proto.serialize v = serialize v := rfl

/-- C01 as a contract of the protocol. -/
theorem proto_roundTrips : proto.RoundTrips True (fun _ => True) :=
  fun v _ _ h => c01_zera_round_trip_default v h

/-- C27 from ZERA to ZERA: the translated buffer holds exactly the value that was written. -/
theorem c27_zera_to_zera {v : Val} (hd : v.Distinct) {b : Bytes} (hb : proto.serialize v = .ok b) :
    ∃ r, initFrom b = .ok r ∧ ∀ f, v.depth ≤ f →
      ∃ r', proto.translate reader f r = .ok r' ∧ reader.AgreesStrictly r' v := by
  obtain ⟨r, hr, h⟩ := c27_translate_pair proto proto proto_roundTrips proto_roundTrips hd trivial
    (fun _ _ => trivial) hb
  refine ⟨r, hr, fun f hf => ?_⟩
  obtain ⟨v', _, h2, h3, h4⟩ := h f hf
  have := h2 trivial; subst this
  obtain ⟨r', hr', _⟩ := proto_roundTrips v' b trivial hb
  have e : proto.translate proto.reader f r = .ok r' := by rw [h3, hb]; exact hr'
  exact ⟨r', e, (h4 r' e).2⟩

example : ∃ b, (Val.map [([0x61], .arr [.int (-5), .uint 7])]).Distinct ∧
    proto.serialize (.map [([0x61], .arr [.int (-5), .uint 7])]) = .ok b :=
  ⟨_, by simp [Val.Distinct, Val.distinctEntries, Val.distinctList], rfl⟩

/-! ### C28 is false: a self-referential array -/

/-- An array of one element; the element is a reference to the same array. -/
def cyclic : Bytes :=
  le32 Magic ++ le16 1 ++ le16 1 ++ le32 0 ++ le32 44 ++ le32 64 ++
  (makeVr tArray 0 0 16 0 0 ++ le32 1 ++ makeVr tArray 0 0 16 0 0 ++ [0, 0, 0, 0, 0, 0, 0, 0])

/-- C28 is false: there is a 72-byte ZERA buffer on which the recursion of `write_value` has no
bound. No depth suffices, into MessagePack (whose writer never refuses a call). -/
theorem c28_translate_terminates_refuted :
    ∃ r, initFrom cyclic = .ok r ∧ ∀ f, MsgPack.proto.translate reader f r = .diverge := by
  have h0 : initFrom cyclic = .ok ⟨cyclic, 44, 64, some 20⟩ := by decide +kernel
  refine ⟨_, h0, ?_⟩
  have step : ∀ p, reader.isNull ⟨cyclic, 44, 64, some p⟩ = .ok false →
      reader.isBool ⟨cyclic, 44, 64, some p⟩ = .ok false →
      reader.isInt ⟨cyclic, 44, 64, some p⟩ = .ok false →
      reader.isUInt ⟨cyclic, 44, 64, some p⟩ = .ok false →
      reader.isFloat ⟨cyclic, 44, 64, some p⟩ = .ok false →
      reader.isString ⟨cyclic, 44, 64, some p⟩ = .ok false →
      reader.isBlob ⟨cyclic, 44, 64, some p⟩ = .ok false →
      reader.isMap ⟨cyclic, 44, 64, some p⟩ = .ok false →
      reader.isArray ⟨cyclic, 44, 64, some p⟩ = .ok true →
      reader.arraySize ⟨cyclic, 44, 64, some p⟩ = .ok 1 →
      reader.getIdx ⟨cyclic, 44, 64, some p⟩ 0 = .ok ⟨cyclic, 44, 64, some 40⟩ →
      ∀ f, (∀ s : Bytes, writeValue reader MsgPack.writer f ⟨cyclic, 44, 64, some 40⟩ s = .diverge) →
      ∀ s : Bytes, writeValue reader MsgPack.writer (f + 1) ⟨cyclic, 44, 64, some p⟩ s = .diverge := by
    intro p h1 h2 h3 h4 h5 h6 h7 h8 h9 h10 h11 f ih s
    simp only [writeValue, h1, h2, h3, h4, h5, h6, h7, h8, h9, h10, Res.ok_bind, Bool.false_eq_true,
      if_false, if_true, MsgPack.writer, writeElems, h11]
    have := ih (s ++ MsgPack.packEv (.beginArr 1))
    simp only [MsgPack.writer] at this
    rw [this]; rfl
  have h40 : ∀ f (s : Bytes),
      writeValue reader MsgPack.writer f ⟨cyclic, 44, 64, some 40⟩ s = .diverge := by
    intro f
    induction f with
    | zero => intro s; rfl
    | succ f ih =>
      exact step 40 (by decide +kernel) (by decide +kernel) (by decide +kernel) (by decide +kernel)
        (by decide +kernel) (by decide +kernel) (by decide +kernel) (by decide +kernel)
        (by decide +kernel) (by decide +kernel) (by decide +kernel) f ih
  intro f
  have : writeValue reader MsgPack.writer f ⟨cyclic, 44, 64, some 20⟩ ([] : Bytes) = .diverge := by
    cases f with
    | zero => rfl
    | succ f =>
      exact step 20 (by decide +kernel) (by decide +kernel) (by decide +kernel) (by decide +kernel)
        (by decide +kernel) (by decide +kernel) (by decide +kernel) (by decide +kernel)
        (by decide +kernel) (by decide +kernel) (by decide +kernel) f (h40 f) []
  show (writeValue reader MsgPack.writer f ⟨cyclic, 44, 64, some 20⟩ ([] : Bytes) >>= _) = _
  rw [this]; rfl

/-- C28 for positions that present a value, from any reader into any writer: a recursion depth of
the depth of the value suffices, more makes no difference. Missing: positions in corrupt buffers
that present no value, where the claim is false (`c28_translate_terminates_refuted`). -/
theorem _root_.Zer.c28_translate_terminates_partial {ρ : Type} {R : Reader ρ} (P : Proto) {r : ρ}
    {v : Val} (h : R.Agrees r v) {f : Nat} (hf : v.depth ≤ f) :
    P.translate R f r = P.translate R v.depth r := by
  obtain ⟨v', _, _, h3⟩ := writeValue_run v r h
  simp only [Proto.translate, h3 _ P.writer f hf P.init, h3 _ P.writer v.depth (Nat.le_refl _) P.init]

/-! ### C30 is false: the first value wins -/

/-- C30 is false: in a map that stores two values under one key, the translation holds the first
value twice. -/
theorem c30_repeated_keys_refuted :
    ∃ b r b', serialize (.map [([0x61], .bool true), ([0x61], .bool false)]) = .ok b ∧
      initFrom b = .ok r ∧
      (writeValue reader writer 2 r {} >>= finish) = .ok b' ∧
      serialize (.map [([0x61], .bool true), ([0x61], .bool true)]) = .ok b' :=
  ⟨_, _, _, rfl, rfl, rfl, rfl⟩

end Zera

/-- C30, what holds: all keys are kept, in order and with repetitions, and each carries the value
stored first under it. Missing: each entry keeping its own value (`c30_repeated_keys_refuted`). -/
theorem c30_repeated_keys_partial {ρ : Type} {R : Reader ρ} {p : Prop} {r : ρ}
    {ms : List (Bytes × Val)} (h : R.AgreesW p r (.map ms)) :
    ∃ ns : List (Bytes × Val), ns.map Prod.fst = ms.map Prod.fst ∧
      (∀ k w, (k, w) ∈ ns → ∃ u, firstVal ms k = some u ∧ w.Same u.firstWins) ∧
      ∀ (σ : Type) (W : Writer σ) (f : Nat), (Val.map ms).depth ≤ f → ∀ s : σ,
        writeValue R W f r s = W.run s (emit (.map ns)) := by
  obtain ⟨v', h1, h2, h3⟩ := writeValue_run _ r h
  clear h2
  have hk := Val.same_kind h1
  rw [Val.firstWins_map] at hk h1
  cases v' <;> simp [Val.kind] at hk
  rename_i ns
  simp only [Val.Same, Val.canon, Val.canonEntries_eq] at h1
  injection h1 with h1
  refine ⟨ns, ?_, ?_, h3⟩
  · have := congrArg (List.map Prod.fst) h1
    simpa [List.map_map, Function.comp_def] using this
  · intro k w hm
    have : (k, w.canon) ∈ ns.map (fun m => (m.1, m.2.canon)) := List.mem_map_of_mem (f := fun m : Bytes × Val => (m.1, m.2.canon)) hm
    rw [h1] at this
    simp only [List.map_map, List.mem_map, Function.comp] at this
    obtain ⟨m, hm', he⟩ := this
    injection he with he1 he2
    subst he1
    obtain ⟨u, hu⟩ := firstVal_isSome.1 (List.mem_map_of_mem (f := Prod.fst) hm')
    refine ⟨u, hu, ?_⟩
    rw [hu] at he2
    exact he2.symm

example : ∃ r, Zera.reader.AgreesStrictly r (.map [([0x61], .bool true), ([0x61], .bool false)]) := by
  obtain ⟨r, _, h⟩ := Zera.c01_zera_round_trip_default
    (.map [([0x61], .bool true), ([0x61], .bool false)]) rfl
  exact ⟨r, h⟩

end Zer
