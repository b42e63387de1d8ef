import Verif.Sound
import Verif.Props.Translate

/-!
# C78: a translation that succeeds wrote what the source presents
-/

namespace Zer

/-- C78 for every reader whose answers fit together and every destination with a round trip: if a translation returns, the
source presents a value, and so does the result: the same one, where later entries under a repeated key got the first one's
value. -/
theorem c78_translate {ρ : Type} {R : Reader ρ} {I : ρ → Prop} (H : R.Fits I) (P : Proto) {q : Prop} {D : Val → Prop}
    (hP : P.RoundTrips q D) {f : Nat} {r : ρ} (hI : I r) {r' : P.ρ} (h : P.translate R f r = .ok r') :
    ∃ v, R.Agrees r v ∧ v.depth ≤ f ∧
      ((∀ v' : Val, v'.Same v.firstWins → D v') → P.reader.Agrees r' v.firstWins) := by
  have h' := h
  obtain ⟨s, hs, -⟩ := Res.bind_eq_ok.1 h'
  obtain ⟨v, hv, hd⟩ := presents_of_writeValue H hI hs
  refine ⟨v, hv, hd, fun hD => ?_⟩
  obtain ⟨_, _, _, _, h4⟩ := c27_translate P hP hv hD hd
  exact (h4 r' h).1

/-- A position can be walked to the end exactly if it presents a value. -/
theorem c78_walk_iff {ρ : Type} {R : Reader ρ} {I : ρ → Prop} (H : R.Fits I) {f : Nat} {r : ρ} (hI : I r) :
    (∃ n, writeValue R counter f r 0 = .ok n) ↔ ∃ v, R.Agrees r v ∧ v.depth ≤ f := by
  constructor
  · rintro ⟨n, h⟩
    exact presents_of_writeValue H hI h
  · rintro ⟨v, hv, hd⟩
    exact ⟨_, count_agrees hv hd⟩

namespace MsgPack

/-- C78 from MessagePack to ZERA: any bytes. -/
theorem c78_msgpack_to_zera {f : Nat} {b : Bytes} {r' : Zera.View} (h : Zera.proto.translate reader f b = .ok r') :
    ∃ v, reader.Agrees b v ∧ v.depth ≤ f ∧ Zera.reader.Agrees r' v.firstWins := by
  obtain ⟨v, h1, h2, h3⟩ := c78_translate fits Zera.proto Zera.proto_roundTrips trivial h
  exact ⟨v, h1, h2, h3 fun _ _ => trivial⟩

/-- C78 from MessagePack to any protocol. -/
theorem c78_msgpack (P : Proto) {q : Prop} {D : Val → Prop} (hP : P.RoundTrips q D) {f : Nat} {b : Bytes} {r' : P.ρ}
    (h : P.translate reader f b = .ok r') : ∃ v, reader.Agrees b v ∧ v.depth ≤ f ∧
      ((∀ v' : Val, v'.Same v.firstWins → D v') → P.reader.Agrees r' v.firstWins) :=
  c78_translate fits P hP trivial h

/-- A map with a repeated key and a number longer than it need be, followed by a byte that is no MessagePack. -/
example : (match Zera.proto.translate reader 3 [0x82, 0xa1, 0x61, 0x93, 0x01, 0xc0, 0xc3, 0xa1, 0x61, 0xcc, 0x05, 0xc1] with
    | .ok _ => true | _ => false) = true := by decide +kernel

end MsgPack

namespace Zera

/-- C78 from ZERA to any protocol: any bytes. -/
theorem c78_zera (P : Proto) {q : Prop} {D : Val → Prop} (hP : P.RoundTrips q D) {f : Nat} {b : Bytes} {r : View}
    (ho : initFrom b = .ok r) {r' : P.ρ}
    (h : P.translate reader f r = .ok r') : ∃ v, reader.Agrees r v ∧ v.depth ≤ f ∧
      ((∀ v' : Val, v'.Same v.firstWins → D v') → P.reader.Agrees r' v.firstWins) :=
  c78_translate fits P hP ⟨b, r, ho, .refl⟩ h

/-- C78 from ZERA to ZERA. -/
theorem c78_zera_to_zera {f : Nat} {b : Bytes} {r r' : View} (ho : initFrom b = .ok r) (h : proto.translate reader f r = .ok r') :
    ∃ v, reader.Agrees r v ∧ v.depth ≤ f ∧ reader.Agrees r' v.firstWins := by
  obtain ⟨v, h1, h2, h3⟩ := c78_zera proto proto_roundTrips ho h
  exact ⟨v, h1, h2, h3 fun _ _ => trivial⟩

end Zera

namespace Flex

/-- C78 from Flex to any protocol: any position in any bytes, valid or not. -/
theorem c78_flex (P : Proto) {q : Prop} {D : Val → Prop} (hP : P.RoundTrips q D) {f : Nat} {r : Ref} (hb : r.buf.length < 2 ^ 60)
    {r' : P.ρ} (h : P.translate reader f r = .ok r') : ∃ v, reader.Agrees r v ∧ v.depth ≤ f ∧
      ((∀ v' : Val, v'.Same v.firstWins → D v') → P.reader.Agrees r' v.firstWins) :=
  c78_translate fits P hP hb h

/-- A map with the keys `a`, `b` and `a`, out of order: the search finds `a` (the first) and `b`. -/
example : (match opn [97, 0, 98, 0, 3, 5, 4, 7, 3, 1, 3, 1, 2, 3, 8, 8, 8, 6, 36, 1] >>= Zera.proto.translate reader 2 with
    | .ok _ => true | _ => false) = true := by decide +kernel

end Flex

namespace Json

/-- C78 from JSON to any protocol: any document without numbers above `INT64_MAX`. Missing: those. -/
theorem c78_json_partial (P : Proto) {q : Prop} {D : Val → Prop} (hP : P.RoundTrips q D) {f : Nat} {d : Val} (hd : Modest d) {r' : P.ρ}
    (h : P.translate reader f d = .ok r') : ∃ v, reader.Agrees d v ∧ v.depth ≤ f ∧
      ((∀ v' : Val, v'.Same v.firstWins → D v') → P.reader.Agrees r' v.firstWins) :=
  c78_translate fits P hP hd h

/-- C78 is false for JSON: a number above `INT64_MAX` is both an `isInt` and an `isUInt`, of different values, and is
translated to the negative one. -/
theorem c78_json_refuted (n : UInt64) (hn : 2 ^ 63 ≤ n.toNat) : ∃ r', Zera.proto.translate reader 1 (.uint n) = .ok r' ∧
    asUInt64 (.uint n) = .ok n ∧ (∃ i, r'.asInt64 = .ok i ∧ i.toInt = n.toNat - 2 ^ 64) ∧ ∀ v, ¬ reader.Agrees (.uint n) v := by
  have e1 : n.toInt64.toInt = n.toNat - 2 ^ 64 := by
    have : n.toInt64.toInt = (n.toNat : Int).bmod (2 ^ 64) := BitVec.toInt_eq_toNat_bmod _
    have h2 := n.toNat_lt
    rw [this, Int.bmod_def]
    omega
  have e0 : ∀ (σ : Type) (W : Writer σ) s, writeValue reader W 1 (.uint n) s = W.run s (emit (.int n.toInt64)) := by
    intro σ W s
    simp only [writeValue, reader, isNull, isBool, isInt, asInt64, Res.ok_bind, emit, Writer.run]
    simp
  have e : Zera.proto.translate reader 1 (.uint n) = (Zera.proto.serialize (.int n.toInt64) >>= Zera.proto.opn) := by
    simp only [Proto.translate, Proto.serialize, Proto.bytesOf, e0, bind_assoc]
  obtain ⟨b, hb⟩ : ∃ b, Zera.proto.serialize (.int n.toInt64) = .ok b :=
    (Zera.c02_zera_success_iff (Nat.le_refl 12) (emit (.int n.toInt64))).2
      ⟨_, Tree.eval_emit _, by simp [Val.ShortKeys], by simp [Zera.envCost, Zera.alignUp], by simp [Zera.arenaAfter]⟩
  obtain ⟨r', h1, h2⟩ := Zera.proto_roundTrips (.int n.toInt64) b trivial hb
  refine ⟨r', ?_, rfl, ?_, ?_⟩
  · rw [e, hb]; exact h1
  · cases h2 with
    | int h3 h4 =>
      obtain ⟨x, h5, h6⟩ := h3.2.1 (h4 trivial).1
      refine ⟨x, h5, ?_⟩
      rw [h6, e1]
  · intro v hv
    cases hv with
    | int h3 _ =>
      obtain ⟨x, h5, h6⟩ := h3.2.1 rfl
      obtain ⟨y, h7, h8⟩ := h3.2.2 rfl
      injection h5 with h5
      injection h7 with h7
      subst h5 h7
      omega
    | uint h3 _ =>
      obtain ⟨x, h5, h6⟩ := h3.2.1 rfl
      obtain ⟨y, h7, h8⟩ := h3.2.2 rfl
      injection h5 with h5
      injection h7 with h7
      subst h5 h7
      omega
    | null h => cases h.1
    | bool h _ => cases h.2.1
    | dbl h _ => cases h.2.2.2.1
    | str h _ _ => cases h.2.2.2.2.1
    | blob h _ _ => cases h.2.2.2.2.2.1
    | map c h => cases h.2.2.2.2.2.2.1
    | arr c h => cases h.2.2.2.2.2.2.2

end Json

namespace Cbor

/-- Whatever presents a value is fair: a number is read as `int64_t` and as `uint64_t`. -/
theorem fair_of_agrees {hard : Bool} {f : Nat} {r : View} {v : Val} (h : (reader hard f).Agrees r v) : Fair hard f r := by
  have map : ∀ {w v}, (reader hard f).Agrees w v → View.isMap w = .ok true → ∃ ms, v = .map ms := by
    intro w v h hw
    have no : View.isMap w = .ok false → ∃ ms, v = .map ms := fun h => by rw [hw] at h; cases h
    cases h with
    | null h => exact no h.2.2.2.2.2.2.1
    | bool h _ => exact no h.2.2.2.2.2.2.1
    | int h _ => exact no h.1.2.2.2.2.2.2.1
    | uint h _ => exact no h.1.2.2.2.2.2.2.1
    | dbl h _ => exact no h.2.2.2.2.2.2.1
    | str h _ _ => exact no h.2.2.2.2.2.2.1
    | blob h _ ha => exact no h.2.2.2.2.2.2.1
    | arr c h _ _ _ _ => exact no h.2.2.2.2.2.2.1
    | map c => exact ⟨_, rfl⟩
  have key : ∀ w, (reader hard f).Reach r w → ∃ v, (reader hard f).Agrees w v := by
    intro w hw
    induction hw with
    | refl => exact ⟨v, h⟩
    | @idx w w' i _ hi ih =>
      obtain ⟨v, hv⟩ := ih
      have hi : View.getIdx f w i = .ok w' := hi
      have hi' := hi
      simp only [View.getIdx] at hi'
      obtain ⟨hd, h1, hi'⟩ := Res.bind_eq_ok.1 hi'
      obtain ⟨_, h2, -⟩ := Res.bind_eq_ok.1 hi'
      have h4 : hd.major = 4 := by simpa using Res.require_eq_ok.1 h2
      have no : View.isArray w = .ok false → ∃ v, (reader hard f).Agrees w' v := by
        intro h
        simp only [View.isArray, h1, Res.ok_bind, h4] at h
        cases h
      cases hv with
      | null h => exact no h.2.2.2.2.2.2.2
      | bool h _ => exact no h.2.2.2.2.2.2.2
      | int h _ => exact no h.1.2.2.2.2.2.2.2
      | uint h _ => exact no h.1.2.2.2.2.2.2.2
      | dbl h _ => exact no h.2.2.2.2.2.2.2
      | str h _ _ => exact no h.2.2.2.2.2.2.2
      | blob h _ _ =>
        have h : View.isBlob w = .ok true := h.2.2.2.2.2.1
        simp only [View.isBlob, h1, Res.ok_bind, h4] at h
        cases h
      | map c h _ _ _ _ _ => exact no h.2.2.2.2.2.2.2
      | @arr _ xs c _ _ h5 h6 h7 =>
        by_cases hlt : i < xs.length
        · have := (h5 i hlt).symm.trans hi
          injection this with this
          subst this
          exact ⟨_, h7 i hlt⟩
        · have := (h6 i (by omega)).symm.trans hi
          cases this
    | @key w w' k _ hk ih =>
      obtain ⟨v, hv⟩ := ih
      have hk : View.getKey hard f w k = .ok w' := hk
      have hk' := hk
      simp only [View.getKey] at hk'
      obtain ⟨hd, h1, hk'⟩ := Res.bind_eq_ok.1 hk'
      obtain ⟨_, h2, -⟩ := Res.bind_eq_ok.1 hk'
      have h4 : hd.major = 5 := by simpa using Res.require_eq_ok.1 h2
      obtain ⟨ms, rfl⟩ := map hv (by simp only [View.isMap, h1, Res.ok_bind, h4]; rfl)
      cases hv with
      | map c _ _ _ h5 h6 h7 =>
        by_cases hmem : k ∈ ms.map Prod.fst
        · have := (h5 k hmem).symm.trans hk
          injection this with this
          subst this
          obtain ⟨v, hv⟩ := firstVal_isSome.1 hmem
          exact ⟨_, h7 k v hv⟩
        · have := (h6 k hmem).symm.trans hk
          cases this
  intro w hw
  obtain ⟨v, hv⟩ := key w hw
  refine ⟨fun ks hks k => ?_, fun n hn => ?_⟩
  · have hks' := hks
    simp only [View.mapKeys] at hks'
    obtain ⟨hd, h1, hks'⟩ := Res.bind_eq_ok.1 hks'
    obtain ⟨_, h2, -⟩ := Res.bind_eq_ok.1 hks'
    have h4 : hd.major = 5 := by simpa using Res.require_eq_ok.1 h2
    obtain ⟨ms, rfl⟩ := map hv (by simp only [View.isMap, h1, Res.ok_bind, h4]; rfl)
    cases hv with
    | map c _ h5 h6 _ _ _ =>
      have h5 := h5.symm.trans hks
      injection h5 with h5
      rw [← h5]
      exact h6 k
  · have hn' := hn
    simp only [View.asUInt64] at hn
    obtain ⟨hd, h1, hn⟩ := Res.bind_eq_ok.1 hn
    obtain ⟨_, h2, hn⟩ := Res.bind_eq_ok.1 hn
    have h4 : hd.major = 0 := by simpa using Res.require_eq_ok.1 h2
    have hu : View.isUInt w = .ok true := by simp only [View.isUInt, h1, Res.ok_bind, h4]; rfl
    have hi : View.isInt w = .ok true := by simp only [View.isInt, h1, Res.ok_bind, h4]; rfl
    have num : ∀ {z}, (reader hard f).ShowsInt w z → n.toNat < 2 ^ 63 := by
      intro z h
      obtain ⟨x, -, h5⟩ := h.2.1 hi
      obtain ⟨y, h6, h7⟩ := h.2.2 hu
      have h6 := h6.symm.trans hn'
      injection h6 with h6
      subst h6
      have := x.toInt_lt
      omega
    have no : ∀ {a b d e g h i}, (reader hard f).Shows w a b false d e g h i → n.toNat < 2 ^ 63 := by
      intro a b d e g h i hs
      obtain ⟨x, y, h5, h6, h7⟩ := hs.2.2.1
      have h5 := h5.symm.trans hi
      injection h5 with h5
      subst h5
      cases h7
    cases hv with
    | null h => exact no h
    | bool h _ => exact no h
    | int h _ => exact num h
    | uint h _ => exact num h
    | dbl h _ => exact no h
    | str h _ _ => exact no h
    | blob h _ _ => exact no h
    | arr c h _ _ _ _ => exact no h
    | map c h => exact no h

/-- C78 from CBOR to any protocol: bytes in which every map lists what it contains and every number fits `int64_t`. Missing:
both. -/
theorem c78_cbor_partial (P : Proto) {q : Prop} {D : Val → Prop} (hP : P.RoundTrips q D) {hard : Bool} {f g : Nat} {b : Bytes}
    (hl : b.length < 2 ^ 64) (hf : b.length ≤ g) (hb : Fair hard g ⟨b, 0⟩) {r' : P.ρ}
    (h : P.translate (reader hard g) f ⟨b, 0⟩ = .ok r') : ∃ v, (reader hard g).Agrees ⟨b, 0⟩ v ∧ v.depth ≤ f ∧
      ((∀ v' : Val, v'.Same v.firstWins → D v') → P.reader.Agrees r' v.firstWins) :=
  c78_translate (fits b hl hf) P hP ⟨rfl, _, hb, .refl⟩ h

example : Fair false 100 ⟨sampleBytes ++ [0x00], 0⟩ ∧
    (match Zera.proto.translate (reader false 100) 9 ⟨sampleBytes ++ [0x00], 0⟩ with | .ok _ => true | _ => false) = true :=
  ⟨fair_of_agrees (c21_cbor_reader_partial (rest := [0x00]) sample_enc (by simp [sampleVal, Val.Small, Val.Each, Val.eachEntries, Val.eachList])
    (by decide +kernel) (by decide +kernel)), by decide +kernel⟩

/-- Part of C78 is false for CBOR: a map whose translation is an empty map contains a key. -/
theorem c78_cbor_refuted (hard : Bool) : ∃ b r', Zera.proto.translate (reader hard 20) 20 ⟨b, 0⟩ = .ok r' ∧ Zera.reader.Agrees r' (.map []) ∧
    View.contains hard 20 ⟨b, 0⟩ [0x61] = .ok true ∧ ∀ v, ¬ (reader hard 20).Agrees ⟨b, 0⟩ v := by
  have hk : View.mapKeys hard 20 ⟨[0xa1, 0x61, 0x61, 0x7b, 0xff, 0xff, 0xff, 0xff, 0xff, 0xff, 0xff, 0xf5], 0⟩ = .ok [] := by
    cases hard <;> decide +kernel
  have hc : View.contains hard 20 ⟨[0xa1, 0x61, 0x61, 0x7b, 0xff, 0xff, 0xff, 0xff, 0xff, 0xff, 0xff, 0xf5], 0⟩ [0x61] = .ok true := by
    cases hard <;> decide +kernel
  have hm : View.isMap ⟨[0xa1, 0x61, 0x61, 0x7b, 0xff, 0xff, 0xff, 0xff, 0xff, 0xff, 0xff, 0xf5], 0⟩ = .ok true := by decide +kernel
  have e : Zera.proto.translate (reader hard 20) 20 ⟨[0xa1, 0x61, 0x61, 0x7b, 0xff, 0xff, 0xff, 0xff, 0xff, 0xff, 0xff, 0xf5], 0⟩ =
      (Zera.proto.serialize (.map []) >>= Zera.proto.opn) := by
    cases hard <;> rfl
  obtain ⟨b, hb⟩ : ∃ b, Zera.proto.serialize (.map []) = .ok b := ⟨_, rfl⟩
  obtain ⟨r', h1, h2⟩ := Zera.proto_roundTrips (.map []) b trivial hb
  refine ⟨_, r', ?_, h2.agrees, hc, fun v hv => ?_⟩
  · rw [e, hb]; exact h1
  · have no : (reader hard 20).isMap ⟨[0xa1, 0x61, 0x61, 0x7b, 0xff, 0xff, 0xff, 0xff, 0xff, 0xff, 0xff, 0xf5], 0⟩ = .ok false → False := by
      intro h
      have h := h.symm.trans hm
      cases h
    cases hv with
    | null h => exact no h.2.2.2.2.2.2.1
    | bool h _ => exact no h.2.2.2.2.2.2.1
    | int h _ => exact no h.1.2.2.2.2.2.2.1
    | uint h _ => exact no h.1.2.2.2.2.2.2.1
    | dbl h _ => exact no h.2.2.2.2.2.2.1
    | str h _ _ => exact no h.2.2.2.2.2.2.1
    | blob h _ ha => exact no h.2.2.2.2.2.2.1
    | arr c h _ _ _ _ => exact no h.2.2.2.2.2.2.1
    | @map _ ms c _ g1 g2 _ _ _ =>
      have g1 := g1.symm.trans hk
      injection g1 with g1
      have g2 := (g2 [0x61]).symm.trans hc
      rw [g1] at g2
      cases g2

end Cbor

end Zer
