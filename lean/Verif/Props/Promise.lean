import Verif.Props.Program

/-!
# Property C115: what a position says it is, it can be read as

The other half of C55: after `if (d.isString())`, `d.asString()` returns (concepts.hpp:68-118). It holds wherever a value is presented, and so for
everything that is written; the questions look at the first bytes of a value only, so that on other bytes they may promise too much.
-/

namespace Zer

/-- Where a question is answered with yes, the accessors of that kind return: strings in both forms, all listed members, all counted elements. -/
structure Reader.Honest {ρ : Type} (R : Reader ρ) (r : ρ) : Prop where
  bool : R.isBool r = .ok true → ∃ x, R.asBool r = .ok x
  int : R.isInt r = .ok true → ∃ x, R.asInt64 r = .ok x
  uint : R.isUInt r = .ok true → ∃ x, R.asUInt64 r = .ok x
  dbl : R.isFloat r = .ok true → ∃ x, R.asDouble r = .ok x
  str : R.isString r = .ok true → ∃ x, R.asString r = .ok x ∧ R.asStringView r = .ok x
  blob : R.isBlob r = .ok true → ∃ x, R.asBlob r = .ok x
  arr : R.isArray r = .ok true → R.isBlob r = .ok false → ∃ n, R.arraySize r = .ok n ∧ ∀ i, i < n → ∃ c, R.getIdx r i = .ok c
  map : R.isMap r = .ok true → ∃ ks, R.mapKeys r = .ok ks ∧ ∀ k ∈ ks, R.contains r k = .ok true ∧ ∃ c, R.getKey r k = .ok c

/-- **C115** At any position that presents a value, and at every position inside it: what it says it is, it can be read as. -/
theorem c115_presented {ρ : Type} {R : Reader ρ} {q : Prop} {r : ρ} {v w : Val} (h : R.AgreesW q r v) {p : List Hop} (hw : v.at p = some w) :
    ∃ c, R.goto p r = .ok c ∧ R.Honest c := by
  obtain ⟨c, h1, h2⟩ := Reader.AgreesW.at p h hw
  refine ⟨c, h1, ?_⟩
  have key : ∀ {nul boo num flt str blb mp ar : Bool}, R.Shows c nul boo num flt str blb mp ar →
      (boo = true → ∃ x, R.asBool c = .ok x) → (num = true → (R.isInt c = .ok true → ∃ x, R.asInt64 c = .ok x) ∧
        (R.isUInt c = .ok true → ∃ x, R.asUInt64 c = .ok x)) →
      (flt = true → ∃ x, R.asDouble c = .ok x) → (str = true → ∃ x, R.asString c = .ok x ∧ R.asStringView c = .ok x) →
      (blb = true → ∃ x, R.asBlob c = .ok x) →
      (ar = true → blb = false → ∃ n, R.arraySize c = .ok n ∧ ∀ i, i < n → ∃ d, R.getIdx c i = .ok d) →
      (mp = true → ∃ ks, R.mapKeys c = .ok ks ∧ ∀ k ∈ ks, R.contains c k = .ok true ∧ ∃ d, R.getKey c k = .ok d) → R.Honest c := by
    intro nul boo num flt str blb mp ar ⟨_, s2, ⟨i, u, s3, s4, s5⟩, s6, s7, s8, s9, s10⟩ k1 k2 k3 k4 k5 k6 k7
    exact {
      bool := fun e => k1 (Res.ok.inj (s2.symm.trans e))
      int := fun e => (k2 (by rw [← s5, Res.ok.inj (s3.symm.trans e), Bool.true_or])).1 e
      uint := fun e => (k2 (by rw [← s5, Res.ok.inj (s4.symm.trans e), Bool.or_true])).2 e
      dbl := fun e => k3 (Res.ok.inj (s6.symm.trans e))
      str := fun e => k4 (Res.ok.inj (s7.symm.trans e))
      blob := fun e => k5 (Res.ok.inj (s8.symm.trans e))
      arr := fun e e' => k6 (Res.ok.inj (s10.symm.trans e)) (Res.ok.inj (s8.symm.trans e'))
      map := fun e => k7 (Res.ok.inj (s9.symm.trans e)) }
  cases h2 with
  | null H => exact key H (by simp) (by simp) (by simp) (by simp) (by simp) (by simp) (by simp)
  | bool H h => exact key H (fun _ => ⟨_, h⟩) (by simp) (by simp) (by simp) (by simp) (by simp) (by simp)
  | int H _ =>
    exact key H.1 (by simp) (fun _ => ⟨fun e => (H.2.1 e).imp fun _ h => h.1, fun e => (H.2.2 e).imp fun _ h => h.1⟩) (by simp) (by simp) (by simp)
      (by simp) (by simp)
  | uint H _ =>
    exact key H.1 (by simp) (fun _ => ⟨fun e => (H.2.1 e).imp fun _ h => h.1, fun e => (H.2.2 e).imp fun _ h => h.1⟩) (by simp) (by simp) (by simp)
      (by simp) (by simp)
  | dbl H h => exact key H (by simp) (by simp) (fun _ => ⟨_, h⟩) (by simp) (by simp) (by simp) (by simp)
  | str H h h' => exact key H (by simp) (by simp) (by simp) (fun _ => ⟨_, h, h'⟩) (by simp) (by simp) (by simp)
  | blob H h _ => exact key H (by simp) (by simp) (by simp) (by simp) (fun _ => ⟨_, h⟩) (by simp) (by simp)
  | arr ch H h3 h4 h5 _ =>
    exact key H (by simp) (by simp) (by simp) (by simp) (by simp) (fun _ _ => ⟨_, h3, fun i hi => ⟨_, h4 i hi⟩⟩) (by simp)
  | map ch H h3 h4 h5 _ _ =>
    exact key H (by simp) (by simp) (by simp) (by simp) (by simp) (by simp)
      (fun _ => ⟨_, h3, fun k hk => ⟨by rw [h4 k, decide_eq_true hk], _, h5 k hk⟩⟩)

/-- C115, what is written: every position of every message, in every format, in the domains of the round trips. -/
theorem c115_written {P : Proto} {q : Prop} {D : Val → Prop} (hP : P.RoundTrips q D) {v w : Val} (hD : D v) {b : Bytes} (hb : P.serialize v = .ok b)
    {p : List Hop} (hw : v.at p = some w) : ∃ r c, P.opn b = .ok r ∧ P.reader.goto p r = .ok c ∧ P.reader.Honest c := by
  obtain ⟨r, h1, h2⟩ := hP v b hD hb
  obtain ⟨c, h3, h4⟩ := c115_presented h2 hw
  exact ⟨r, c, h1, h3, h4⟩

/-! ## Other bytes -/

namespace Json

/-- C115 for JSON, any document: everything but the contents of blobs can be read. Missing: blobs whose text is not Base64
(`c115_json_blob_exact`). -/
theorem c115_json_partial (v : Val) (hb : isBlob v = .ok false) : reader.Honest v where
  bool := fun e => by cases v <;> first | exact ⟨_, rfl⟩ | cases e
  int := fun e => by cases v <;> first | exact ⟨_, rfl⟩ | cases e
  uint := fun e => by cases v <;> first | exact ⟨_, rfl⟩ | cases e
  dbl := fun e => by cases v <;> first | exact ⟨_, rfl⟩ | cases e
  str := fun e => by cases v <;> first | exact ⟨_, rfl, rfl⟩ | cases e
  blob := fun e => by cases hb.symm.trans e
  arr := fun e _ => by
    cases v with
    | arr xs =>
      refine ⟨xs.length, rfl, fun i hi => ⟨xs[i], ?_⟩⟩
      show getIdx (.arr xs) i = _
      simp [getIdx, List.getElem?_eq_getElem hi]
    | _ => cases e
  map := fun e => by
    cases v with
    | map ms =>
      refine ⟨ms.map Prod.fst, rfl, fun k hk => ?_⟩
      obtain ⟨w, hw⟩ := firstVal_isSome.1 hk
      refine ⟨?_, w, ?_⟩
      · show contains (.map ms) k = _
        simp [contains, hw]
      · show getKey (.map ms) k = _
        simp [getKey, hw]
    | _ => cases e

/-- C115 for blobs in JSON, exactly: what says it is a blob is an array of three strings, and can be read if and only if no character of the second
that is before the first `=` is outside of the alphabet. -/
theorem c115_json_blob_exact {v : Val} (hb : isBlob v = .ok true) : ∃ s, v = .arr [.str blobTag, .str s, .str blobEncoding] ∧
    ((∃ x, asBlob v = .ok x) ↔ ∀ c ∈ s.takeWhile (· ≠ 0x3d), Base64.value c ≠ none) := by
  cases v with
  | arr xs =>
    by_cases h : Mimic xs
    · obtain ⟨s, rfl⟩ := h
      refine ⟨s, rfl, ?_⟩
      have e : asBlob (.arr [.str blobTag, .str s, .str blobEncoding]) = Base64.decode s := by
        simp only [asBlob, isBlob_mimic, Res.ok_bind]
        rfl
      rw [e]
      obtain ⟨h1, h2⟩ := Base64.c15_base64_rejects_partial s
      constructor
      · rintro ⟨x, hx⟩ c hc hn
        rw [h1.2 ⟨c, hc, hn⟩] at hx
        cases hx
      · intro hc
        have : ∀ l : Bytes, (∀ c ∈ l, Base64.value c ≠ none) → ∃ ds : List _, l.map Base64.value = ds.map some := by
          intro l
          induction l with
          | nil => exact fun _ => ⟨[], rfl⟩
          | cons c l ih =>
            intro h
            obtain ⟨ds, hd⟩ := ih fun c hc => h c (List.mem_cons_of_mem _ hc)
            obtain ⟨d, hv⟩ := Option.ne_none_iff_exists'.1 (h c (List.mem_cons_self ..))
            exact ⟨d :: ds, by simp [hv, hd]⟩
        obtain ⟨ds, hd⟩ := this _ hc
        exact ⟨_, (h2 _).2 ⟨ds, hd, rfl⟩⟩
    · rw [isBlob_arr h] at hb; cases hb
  | _ => cases hb

/-- C115 is false for JSON: an array of three strings says it is a blob and cannot be read as one. -/
theorem c115_json_refuted {T : Text} (L : T.Law) (dbg : Bool) : ∃ b r, (proto T dbg).serialize (.arr [.str blobTag, .str [0x21], .str blobEncoding]) = .ok b ∧
    opn T b = .ok r ∧ reader.isBlob r = .ok true ∧ reader.asBlob r = .err .deser := by
  obtain ⟨b, h1, h2⟩ := (serialize_ok_iff (dbg := dbg) L
    (v := .arr [.str blobTag, .str [0x21], .str blobEncoding]) (by simp [KeysOk, Val.Each, Val.eachList])).1
    ⟨trivial, L.ascii _ (by decide), L.ascii _ (by decide), L.ascii _ (by decide), trivial⟩
  exact ⟨b, _, h1, by simp only [opn, h2]; rfl, rfl, by decide +kernel⟩

end Json

namespace Cbor

/-- C115 for CBOR, numbers and booleans, any bytes: booleans and unsigned numbers can be read; `asInt64` returns for everything that says it is an
integer, except numbers below -2^63, for which it raises. -/
theorem c115_cbor_numbers (r : View) :
    (r.isBool = .ok true → ∃ x, r.asBool = .ok x) ∧ (r.isUInt = .ok true → ∃ x, r.asUInt64 = .ok x) ∧
    ∀ h, r.head = .ok h → r.isInt = .ok true → ((∃ x, r.asInt64 = .ok x) ↔ ¬ (h.major = 1 ∧ 2 ^ 63 ≤ h.val)) := by
  refine ⟨fun e => ?_, fun e => ?_, fun h hh e => ?_⟩
  · obtain ⟨h, hh, e⟩ := Res.bind_eq_ok.1 e
    refine ⟨decide (h.addl = 21), ?_⟩
    simp only [View.asBool, hh, Res.ok_bind, Res.ok.inj e, Res.require]
    rfl
  · obtain ⟨h, hh, e⟩ := Res.bind_eq_ok.1 e
    refine ⟨UInt64.ofNat h.val, ?_⟩
    simp only [View.asUInt64, hh, Res.ok_bind, Res.ok.inj e, Res.require]
    rfl
  · simp only [View.isInt, hh, Res.ok_bind] at e
    have e := Res.ok.inj e
    simp only [View.asInt64, hh, Res.ok_bind, e, Res.require, if_true]
    have hm := of_decide_eq_true e
    by_cases h0 : h.major = 0
    · simp [h0]
    · have h1 : h.major = 1 := hm.resolve_left h0
      by_cases hv : h.val ≤ 2 ^ 63 - 1
      · have : ¬ 2 ^ 63 ≤ h.val := by omega
        simp [h1, hv, this]
      · have : 2 ^ 63 ≤ h.val := by omega
        simp [h1, hv, this]

/-- C115 is false for CBOR: -2^64 says it is an integer and `asInt64` raises; a string that is cut says it is a string and raises; a double that is cut
says it is a number and is read outside of the buffer. -/
theorem c115_cbor_refuted : View.isInt ⟨[0x3b, 255, 255, 255, 255, 255, 255, 255, 255], 0⟩ = .ok true ∧
    View.asInt64 ⟨[0x3b, 255, 255, 255, 255, 255, 255, 255, 255], 0⟩ = .err .deser ∧
    View.isString ⟨[0x62, 0x61], 0⟩ = .ok true ∧ View.asStringView false ⟨[0x62, 0x61], 0⟩ = .err .deser ∧
    View.isFloat ⟨[0xfb], 0⟩ = .ok true ∧ View.asDouble ⟨[0xfb], 0⟩ = .ub := by
  decide +kernel

end Cbor

namespace MsgPack

/-- How many bytes a number takes, by its first byte. -/
def numLen (m : Nat) : Nat :=
  if m = 0xcc ∨ m = 0xd0 then 2 else if m = 0xcd ∨ m = 0xd1 then 3 else if m = 0xce ∨ m = 0xd2 ∨ m = 0xca then 5
  else if m = 0xcf ∨ m = 0xd3 ∨ m = 0xcb then 9 else 1

theorem fine_byte (v : Bytes) (p : Nat) : ∀ e, byteAt v p ≠ .err e := by
  intro e; unfold byteAt; split <;> simp
theorem fine_bind {α β : Type} {x : Res α} {f : α → Res β} (hx : ∀ e, x ≠ .err e) (hf : ∀ a e, f a ≠ .err e) : ∀ e, (x >>= f) ≠ .err e := by
  intro e h
  cases x with
  | ok a => exact hf a e h
  | err e' => exact hx e' rfl
  | ub => cases h
  | diverge => cases h
theorem fine_be16 (v : Bytes) (p : Nat) : ∀ e, readBe16 v p ≠ .err e :=
  fine_bind (fine_byte _ _) fun _ => fine_bind (fine_byte _ _) fun _ _ => by simp
theorem fine_be32 (v : Bytes) (p : Nat) : ∀ e, readBe32 v p ≠ .err e :=
  fine_bind (fine_byte _ _) fun _ => fine_bind (fine_byte _ _) fun _ => fine_bind (fine_byte _ _) fun _ => fine_bind (fine_byte _ _) fun _ _ => by simp
theorem fine_be64 (v : Bytes) (p : Nat) : ∀ e, readBe64 v p ≠ .err e :=
  fine_bind (fine_byte _ _) fun _ => fine_bind (fine_byte _ _) fun _ => fine_bind (fine_byte _ _) fun _ => fine_bind (fine_byte _ _) fun _ =>
    fine_bind (fine_byte _ _) fun _ => fine_bind (fine_byte _ _) fun _ => fine_bind (fine_byte _ _) fun _ => fine_bind (fine_byte _ _) fun _ _ => by simp

/-- A number that is read after its length is checked. -/
theorem checked_ok {α β : Type} {c : Prop} [Decidable c] {x : Res α} {f : α → β} (hx : ∀ e, x ≠ .err e)
    (hc : Res.Clean (Res.require (decide c) .deser >>= fun _ => x >>= fun a => pure (f a))) :
    (∃ y, (Res.require (decide c) .deser >>= fun _ => x >>= fun a => pure (f a)) = .ok y) ↔ c := by
  by_cases h : c
  · simp only [h, iff_true]
    rcases hc with h' | h'
    · simpa [h] using h'
    · simp only [h, decide_true, Res.require, if_true] at h'
      exact absurd h' (fine_bind hx (fun _ _ => by simp) _)
  · simp [h, Res.require]

/-- C115 for MessagePack, numbers and booleans, any bytes: what says it is a number can be read if and only if all of its bytes are there. -/
theorem c115_msgpack_numbers (m : UInt8) (t : Bytes) :
    (isBool (m :: t) = true → ∃ x, asBool (m :: t) = .ok x) ∧
    (isInt (m :: t) = true → ((∃ x, asInt64 (m :: t) = .ok x) ↔ numLen m.toNat ≤ (m :: t).length)) ∧
    (isUInt (m :: t) = true → ((∃ x, asUInt64 (m :: t) = .ok x) ↔ numLen m.toNat ≤ (m :: t).length)) ∧
    (isFloat (m :: t) = true → ((∃ x, asDouble (m :: t) = .ok x) ↔ numLen m.toNat ≤ (m :: t).length)) := by
  have e0 : byteAt (m :: t) 0 = .ok m.toNat := rfl
  have er : Res.require (decide ((m :: t).length ≠ 0)) .deser = .ok () := rfl
  have one : ∀ {α : Type} (x : α), (∃ y, (pure x : Res α) = .ok y) ↔ 1 ≤ (m :: t).length := fun x => ⟨fun _ => by simp, fun _ => ⟨x, rfl⟩⟩
  refine ⟨fun e => ?_, fun e => ?_, fun e => ?_, fun e => ?_⟩
  · exact ⟨decide (m.toNat = 0xc3), by simp only [asBool, e, e0, Res.require, if_true, Res.ok_bind]; rfl⟩
  · have hc := asInt64_clean (m :: t)
    rcases of_decide_eq_true e with h | h | h | h | h | h
    · have : numLen m.toNat = 1 := by unfold numLen; repeat rw [if_neg (by omega)]
      rw [this]
      simp only [asInt64, er, e0, Res.ok_bind, h, if_true]
      exact one _
    · have : numLen m.toNat = 1 := by unfold numLen; repeat rw [if_neg (by omega)]
      rw [this]
      simp only [asInt64, er, e0, Res.ok_bind, h, if_true, show ¬ m.toNat ≤ 0x7f by omega, if_false]
      exact one _
    all_goals
      simp only [asInt64, er, e0, Res.ok_bind, h] at hc ⊢
      first
        | exact checked_ok (fine_byte _ _) hc
        | exact checked_ok (fine_be16 _ _) hc
        | exact checked_ok (fine_be32 _ _) hc
        | exact checked_ok (fine_be64 _ _) hc
  · have hc := asUInt64_clean (m :: t)
    rcases of_decide_eq_true e with h | h | h | h | h
    · have : numLen m.toNat = 1 := by unfold numLen; repeat rw [if_neg (by omega)]
      rw [this]
      simp only [asUInt64, er, e0, Res.ok_bind, h, if_true]
      exact one _
    all_goals
      simp only [asUInt64, er, e0, Res.ok_bind, h] at hc ⊢
      first
        | exact checked_ok (fine_byte _ _) hc
        | exact checked_ok (fine_be16 _ _) hc
        | exact checked_ok (fine_be32 _ _) hc
        | exact checked_ok (fine_be64 _ _) hc
  · have hc := asDouble_clean (m :: t)
    have ef : Res.require (isFloat (m :: t)) .deser = .ok () := by rw [e]; rfl
    rcases of_decide_eq_true e with h | h
    all_goals
      simp only [asDouble, ef, e0, Res.ok_bind, h] at hc ⊢
      first
        | exact checked_ok (fine_be32 _ _) hc
        | exact checked_ok (fine_be64 _ _) hc

/-- C115 is false for MessagePack: a number that is cut says it is a number and raises; a string that is cut says it is a string and is read outside of
the buffer. -/
theorem c115_msgpack_refuted : isInt [0xd1, 0] = true ∧ asInt64 [0xd1, 0] = .err .deser ∧ isString [0xa2, 0x61] = true ∧
    asString [0xa2, 0x61] = .ub := by
  decide +kernel

end MsgPack

namespace Zera

theorem fine_u32 (v : Bytes) (p : Nat) : ∀ e, readU32 v p ≠ .err e :=
  MsgPack.fine_bind (MsgPack.fine_byte _ _) fun _ => MsgPack.fine_bind (MsgPack.fine_byte _ _) fun _ => MsgPack.fine_bind (MsgPack.fine_byte _ _) fun _ =>
    MsgPack.fine_bind (MsgPack.fine_byte _ _) fun _ _ => by simp

/-- What a position with a tag consists of. -/
theorem fields_of_tag {v : View} {t : Nat} (h : v.tag = .ok t) : ∃ p, v.requireVr = .ok p ∧ (∀ e, v.flags ≠ .err e) ∧ ∀ e, v.bits ≠ .err e := by
  obtain ⟨p, hp, _⟩ := Res.bind_eq_ok.1 h
  refine ⟨p, hp, fun e => ?_, fun e => ?_⟩
  · simp only [View.flags, hp, Res.ok_bind]; exact MsgPack.fine_byte _ _ e
  · have ha : ∀ e, v.a ≠ .err e := fun e => by simp only [View.a, hp, Res.ok_bind]; exact fine_u32 _ _ e
    have hb : ∀ e, v.b ≠ .err e := fun e => by simp only [View.b, hp, Res.ok_bind]; exact fine_u32 _ _ e
    exact MsgPack.fine_bind ha (fun _ => MsgPack.fine_bind hb fun _ _ => by simp) e

/-- Whether the flags are those that ZERA.md asks for. -/
theorem flagsOk_iff {v : View} {t : Nat} (h : v.tag = .ok t) (ht : t ≠ tString) : v.requireFlagsOk = .ok () ↔ v.flags = .ok 0 := by
  simp only [View.requireFlagsOk, h, Res.ok_bind, ht, if_false]
  cases hf : v.flags with
  | ok x => by_cases hx : x = 0 <;> simp [hx, Res.require]
  | err e => exact absurd hf ((fields_of_tag h).choose_spec.2.1 e)
  | ub => simp
  | diverge => simp

/-- C115 for ZERA, numbers, any position of any bytes below 4 GiB - 20: what says it is a number can be read if and only if its flags are zero. -/
theorem c115_zera_numbers {b : Bytes} (hb : b.length < 2 ^ 32 - 20) {v w : View} (h : initFrom b = .ok v) (hr : reader.Reach v w) :
    (w.isInt = .ok true → ((∃ x, w.asInt64 = .ok x) ↔ w.flags = .ok 0)) ∧
    (w.isUInt = .ok true → ((∃ x, w.asUInt64 = .ok x) ↔ w.flags = .ok 0)) ∧
    (w.isFloat = .ok true → ((∃ x, w.asDouble = .ok x) ↔ w.flags = .ok 0)) := by
  have C := c04_zera_reader_safe_partial hb h hr
  have key : ∀ {α : Type} {x : Res α} {t : Nat} {f : Nat → α}, w.tag = .ok t → t ≠ tString → x.Clean →
      x = (w.requireFlagsOk >>= fun _ => w.bits >>= fun n => pure (f n)) → ((∃ y, x = .ok y) ↔ w.flags = .ok 0) := by
    intro α x t f ht hs hc e
    rw [← flagsOk_iff ht hs]
    constructor
    · rintro ⟨y, hy⟩
      rw [e] at hy
      obtain ⟨u, hu, _⟩ := Res.bind_eq_ok.1 hy
      exact hu
    · intro hu
      rcases hc with hc | hc
      · exact hc
      · rw [e, hu, Res.ok_bind] at hc
        exact absurd hc (MsgPack.fine_bind (fields_of_tag ht).choose_spec.2.2 (fun _ _ => by simp) _)
  have tg : ∀ {c : Nat}, (do let t ← w.tag; pure (decide (t = c)) : Res Bool) = .ok true → w.tag = .ok c := by
    intro c e
    obtain ⟨t, ht, e⟩ := Res.bind_eq_ok.1 e
    rw [ht, of_decide_eq_true (Res.ok.inj e)]
  refine ⟨fun e => ?_, fun e => ?_, fun e => ?_⟩
  · have ht := tg e
    refine key (f := fun n => (UInt64.ofNat n).toInt64) ht (by decide) C.asInt64 ?_
    simp only [View.asInt64, ht, Res.ok_bind]
    rfl
  · have ht := tg e
    refine key (f := fun n => UInt64.ofNat n) ht (by decide) C.asUInt64 ?_
    simp only [View.asUInt64, ht, Res.ok_bind]
    rfl
  · have ht := tg e
    refine key (f := fun n => UInt64.ofNat n) ht (by decide) C.asDouble ?_
    simp only [View.asDouble, ht, Res.ok_bind]
    rfl

/-- C115 is false for ZERA: the message of 5 with a flag set says it is a number, and `asInt64` raises. -/
theorem c115_zera_refuted : ∃ b v, initFrom b = .ok v ∧ v.isInt = .ok true ∧ v.asInt64 = .err .deser := by
  have e : (do
      let b ← Zera.proto.serialize (.int 5)
      let b := b.set 21 1
      let v ← initFrom b
      let i ← v.isInt
      pure (i, v.asInt64)) = .ok (true, .err .deser) := by decide +kernel
  obtain ⟨b, h1, e1⟩ := Res.bind_eq_ok.1 e
  obtain ⟨v, h2, e2⟩ := Res.bind_eq_ok.1 e1
  obtain ⟨i, h3, e3⟩ := Res.bind_eq_ok.1 e2
  have e4 := Res.ok.inj e3
  exact ⟨_, v, h2, by rw [h3]; exact congrArg _ (congrArg Prod.fst e4), congrArg Prod.snd e4⟩

end Zera

namespace Flex

/-- An outcome that is no exception. -/
def Sure {α : Type} (x : Res α) : Prop := (∃ a, x = .ok a) ∨ x = .ub

theorem Sure.bind {α β : Type} {x : Res α} {f : α → Res β} (hx : Sure x) (hf : ∀ a, Sure (f a)) : Sure (x >>= f) := by
  rcases hx with ⟨a, rfl⟩ | rfl
  · exact hf a
  · exact .inr rfl
theorem sure_slice (b : Bytes) (p n : Nat) : Sure (sliceAt b p n) := by
  unfold sliceAt; split
  · exact .inl ⟨_, rfl⟩
  · exact .inr rfl
theorem sure_readU (b : Bytes) (p w : Nat) : Sure (readU b p w) := (sure_slice _ _ _).bind fun _ => .inl ⟨_, rfl⟩
theorem sure_readI (b : Bytes) (p w : Nat) : Sure (readI b p w) := (sure_readU _ _ _).bind fun _ => .inl ⟨_, rfl⟩
theorem sure_readF (b : Bytes) (p w : Nat) : Sure (readF b p w) := (sure_readU _ _ _).bind fun _ => .inl ⟨_, rfl⟩
theorem sure_indirect (b : Bytes) (p w : Nat) : Sure (indirect b p w) := (sure_readU _ _ _).bind fun _ => by
  split
  · exact .inl ⟨_, rfl⟩
  · exact .inr rfl
theorem sure_sizeAt (b : Bytes) (p w : Nat) : Sure (sizeAt b p w) := by
  unfold sizeAt; split
  · exact sure_readU _ _ _
  · exact .inr rfl
theorem sure_sized (r : Ref) : Sure r.sized :=
  (sure_indirect _ _ _).bind fun _ => (sure_sizeAt _ _ _).bind fun _ => sure_slice _ _ _

/-- C115 for Flex, any bytes: where a question is answered with yes, the accessor does not raise. It returns, or reads outside of the buffer; which of
the two, C63 and C93 say. -/
theorem c115_flex_sure (r : Ref) :
    (isBool r = true → Sure (asBool r)) ∧ (isInt r = true → Sure (asInt64 r)) ∧ (isUInt r = true → Sure (asUInt64 r)) ∧
    (isFloat r = true → Sure (asDouble r)) ∧ (isString r = true → Sure (asString r)) ∧ (isBlob r = true → Sure (asBlob r)) := by
  have req : ∀ {c : Bool}, c = true → Res.require c .deser = .ok () := by rintro _ rfl; rfl
  refine ⟨fun e => ?_, fun e => ?_, fun e => ?_, fun e => ?_, fun e => ?_, fun e => ?_⟩
  · rw [asBool, req e]; exact (sure_readU _ _ _).bind fun _ => .inl ⟨_, rfl⟩
  · rw [asInt64, req e]
    show Sure r.int64
    unfold Ref.int64; split
    · exact sure_readI _ _ _
    · exact (sure_indirect _ _ _).bind fun _ => sure_readI _ _ _
  · rw [asUInt64, req e]
    refine Sure.bind (x := r.uint64) ?_ fun _ => .inl ⟨_, rfl⟩
    unfold Ref.uint64; split
    · exact sure_readU _ _ _
    · exact (sure_indirect _ _ _).bind fun _ => sure_readU _ _ _
  · rw [asDouble, req e]
    show Sure r.double
    unfold Ref.double; split
    · exact sure_readF _ _ _
    · exact (sure_indirect _ _ _).bind fun _ => sure_readF _ _ _
  · rw [asString, req e]; exact sure_sized r
  · rw [asBlob, req e]; exact sure_sized r

/-- C115 is false for Flex: three bytes say they are a string, and reading it leaves the buffer. -/
theorem c115_flex_refuted : ∃ r, opn [9, 0x14, 1] = .ok r ∧ isString r = true ∧ asString r = .ub :=
  ⟨_, rfl, by decide +kernel, by decide +kernel⟩

end Flex

/-- The hypotheses of `c115_written` can be met: `routeVal` in MessagePack, and the number under "a" in it. -/
example : ∃ b, MsgPack.proto.serialize routeVal = .ok b ∧ routeVal.Sized ∧ routeVal.Below (2 ^ 32 - 5) ∧ routeVal.at [.key [97]] = some (.uint 5) := by
  refine ⟨_, MsgPack.serialize_eq routeVal, ?_, ?_, ?_⟩
  · simp [routeVal, Val.Sized, Val.sizedEntries]
  · simp [routeVal, Val.Below, Val.Below.belowEntries]
  · simp [routeVal, Val.at, firstVal]

end Zer
