import Verif.Lookup
import Verif.MsgPack.Contain
import Verif.Prefix.MsgPack

/-!
# MessagePack: whatever the reader presents is an encoding

`enc_of_agrees`: a view that presents a value starts with an encoding of the value that the specification permits.
-/

namespace Zer.MsgPack

/-! ## Headers -/

theorem be_of_bytes : ∀ (k : Nat) (bs : Bytes), bs.length = k → ∃ n, n < 256 ^ k ∧ bs = be k n
  | 0, bs, h => ⟨0, by simp, List.eq_nil_of_length_eq_zero h⟩
  | k + 1, bs, h => by
    have hne : bs ≠ [] := by intro e; simp [e] at h
    obtain ⟨n, hn, he⟩ := be_of_bytes k bs.dropLast (by simp [h])
    have hb := UInt8.toNat_lt (bs.getLast hne)
    refine ⟨n * 256 + (bs.getLast hne).toNat, ?_, ?_⟩
    · rw [Nat.pow_succ]
      have : 2 ^ 8 = 256 := rfl
      omega
    · have e1 : (n * 256 + (bs.getLast hne).toNat) / 256 = n := by omega
      have e2 : (n * 256 + (bs.getLast hne).toNat) % 256 = (bs.getLast hne).toNat := by omega
      rw [be, e1, e2, ← he, UInt8.ofNat_toNat, List.dropLast_concat_getLast]

theorem be_split {t : Bytes} {k : Nat} (h : k ≤ t.length) : ∃ n r, n < 256 ^ k ∧ t = be k n ++ r := by
  obtain ⟨n, h1, h2⟩ := be_of_bytes k (t.take k) (by simp [h])
  exact ⟨n, t.drop k, h1, by rw [← h2, List.take_append_drop]⟩

theorem byte_inv {m : UInt8} {t : Bytes} {n : Nat} (h : byteAt (m :: t) 1 = .ok n) : n < 2 ^ 8 ∧ ∃ r, t = be 1 n ++ r := by
  have hb := byteAt_bound h
  obtain ⟨n', r, h1, rfl⟩ := be_split (t := t) (k := 1) (by simp at hb; omega)
  rw [readBe8_be h1] at h
  injection h with h; subst h
  exact ⟨h1, r, rfl⟩

theorem be16_inv {m : UInt8} {t : Bytes} {n : Nat} (h : readBe16 (m :: t) 1 = .ok n) : n < 2 ^ 16 ∧ ∃ r, t = be 2 n ++ r := by
  have hb := be16_bound h
  obtain ⟨n', r, h1, rfl⟩ := be_split (t := t) (k := 2) (by simp at hb; omega)
  rw [readBe16_be h1] at h
  injection h with h; subst h
  exact ⟨h1, r, rfl⟩

theorem be32_inv {m : UInt8} {t : Bytes} {n : Nat} (h : readBe32 (m :: t) 1 = .ok n) : n < 2 ^ 32 ∧ ∃ r, t = be 4 n ++ r := by
  have hb := be32_bound h
  obtain ⟨n', r, h1, rfl⟩ := be_split (t := t) (k := 4) (by simp at hb; omega)
  rw [readBe32_be h1] at h
  injection h with h; subst h
  exact ⟨h1, r, rfl⟩

theorem be64_inv {m : UInt8} {t : Bytes} {n : Nat} (h : readBe64 (m :: t) 1 = .ok n) : n < 2 ^ 64 ∧ ∃ r, t = be 8 n ++ r := by
  have hb : 1 + 8 ≤ (m :: t).length := by
    simp only [readBe64] at h
    obtain ⟨_, _, h⟩ := Res.bind_eq_ok.1 h
    obtain ⟨_, _, h⟩ := Res.bind_eq_ok.1 h
    obtain ⟨_, _, h⟩ := Res.bind_eq_ok.1 h
    obtain ⟨_, _, h⟩ := Res.bind_eq_ok.1 h
    obtain ⟨_, _, h⟩ := Res.bind_eq_ok.1 h
    obtain ⟨_, _, h⟩ := Res.bind_eq_ok.1 h
    obtain ⟨_, _, h⟩ := Res.bind_eq_ok.1 h
    obtain ⟨_, h1, h⟩ := Res.bind_eq_ok.1 h
    have := byteAt_bound h1; omega
  obtain ⟨n', r, h1, rfl⟩ := be_split (t := t) (k := 8) (by simp at hb; omega)
  rw [readBe64_be h1] at h
  injection h with h; subst h
  exact ⟨h1, r, rfl⟩

theorem byte_cons {v : Bytes} {m : Nat} (h : byteAt v 0 = .ok m) : ∃ (b : UInt8) (t : Bytes), v = b :: t ∧ m = b.toNat := by
  cases v with
  | nil => cases h
  | cons b t => injection h with h; exact ⟨b, t, rfl, h.symm⟩

theorem byte_eq {b : UInt8} {n : Nat} (h : b.toNat = n) : b = UInt8.ofNat n := by
  subst h; simp

theorem mark_a0 : ∀ m < 256, m &&& 0xe0 = 0xa0 → m = 0xa0 + (m &&& 0x1f) ∧ m &&& 0x1f < 32 := by decide +kernel
theorem mark_90 : ∀ m < 256, m &&& 0xf0 = 0x90 → m = 0x90 + (m &&& 0x0f) ∧ m &&& 0x0f < 16 := by decide +kernel
theorem mark_80 : ∀ m < 256, m &&& 0xf0 = 0x80 → m = 0x80 + (m &&& 0x0f) ∧ m &&& 0x0f < 16 := by decide +kernel

theorem strInfo_inv {v : Bytes} {p n : Nat} (h : strInfo v = .ok (p, n)) : ∃ hd r, StrHead n hd ∧ v = hd ++ r ∧ hd.length = p := by
  obtain ⟨m, hm, h⟩ := Res.bind_eq_ok.1 h
  obtain ⟨b, t, rfl, rfl⟩ := byte_cons hm
  split at h
  · rename_i hb
    injection h with h
    injection h with h1 h2
    obtain ⟨e1, e2⟩ := mark_a0 _ (UInt8.toNat_lt b) hb
    rw [h2] at e1 e2
    exact ⟨[b], t, by rw [byte_eq e1]; exact .fix e2, rfl, h1⟩
  · split at h
    · rename_i hb
      obtain ⟨k, hk, h⟩ := Res.bind_eq_ok.1 h
      injection h with h
      injection h with h1 h2
      subst h2
      obtain ⟨l, r, rfl⟩ := byte_inv hk
      rw [byte_eq hb]
      exact ⟨0xd9 :: be 1 k, r, .s8 l, rfl, by simp [← h1]⟩
    · split at h
      · rename_i hb
        obtain ⟨k, hk, h⟩ := Res.bind_eq_ok.1 h
        injection h with h
        injection h with h1 h2
        subst h2
        obtain ⟨l, r, rfl⟩ := be16_inv hk
        rw [byte_eq hb]
        exact ⟨0xda :: be 2 k, r, .s16 l, rfl, by simp [← h1]⟩
      · split at h
        · rename_i hb
          obtain ⟨k, hk, h⟩ := Res.bind_eq_ok.1 h
          injection h with h
          injection h with h1 h2
          subst h2
          obtain ⟨l, r, rfl⟩ := be32_inv hk
          rw [byte_eq hb]
          exact ⟨0xdb :: be 4 k, r, .s32 l, rfl, by simp [← h1]⟩
        · cases h

theorem binInfo_inv {v : Bytes} {p n : Nat} (h : binInfo v = .ok (p, n)) : ∃ hd r, BinHead n hd ∧ v = hd ++ r ∧ hd.length = p := by
  obtain ⟨m, hm, h⟩ := Res.bind_eq_ok.1 h
  obtain ⟨b, t, rfl, rfl⟩ := byte_cons hm
  split at h
  · rename_i hb
    obtain ⟨k, hk, h⟩ := Res.bind_eq_ok.1 h
    injection h with h
    injection h with h1 h2
    subst h2
    obtain ⟨l, r, rfl⟩ := byte_inv hk
    rw [byte_eq hb]
    exact ⟨0xc4 :: be 1 k, r, .b8 l, rfl, by simp [← h1]⟩
  · split at h
    · rename_i hb
      obtain ⟨k, hk, h⟩ := Res.bind_eq_ok.1 h
      injection h with h
      injection h with h1 h2
      subst h2
      obtain ⟨l, r, rfl⟩ := be16_inv hk
      rw [byte_eq hb]
      exact ⟨0xc5 :: be 2 k, r, .b16 l, rfl, by simp [← h1]⟩
    · split at h
      · rename_i hb
        obtain ⟨k, hk, h⟩ := Res.bind_eq_ok.1 h
        injection h with h
        injection h with h1 h2
        subst h2
        obtain ⟨l, r, rfl⟩ := be32_inv hk
        rw [byte_eq hb]
        exact ⟨0xc6 :: be 4 k, r, .b32 l, rfl, by simp [← h1]⟩
      · cases h

theorem arrInfo_inv {v : Bytes} {p n : Nat} (h : arrInfo v = .ok (n, p)) : ∃ hd r, ArrHead n hd ∧ v = hd ++ r ∧ hd.length = p := by
  obtain ⟨m, hm, h⟩ := Res.bind_eq_ok.1 h
  obtain ⟨b, t, rfl, rfl⟩ := byte_cons hm
  split at h
  · rename_i hb
    injection h with h
    injection h with h2 h1
    obtain ⟨e1, e2⟩ := mark_90 _ (UInt8.toNat_lt b) hb
    rw [h2] at e1 e2
    exact ⟨[b], t, by rw [byte_eq e1]; exact .fix e2, rfl, h1⟩
  · split at h
    · rename_i hb
      obtain ⟨k, hk, h⟩ := Res.bind_eq_ok.1 h
      injection h with h
      injection h with h2 h1
      subst h2
      obtain ⟨l, r, rfl⟩ := be16_inv hk
      rw [byte_eq hb]
      exact ⟨0xdc :: be 2 k, r, .a16 l, rfl, by simp [← h1]⟩
    · split at h
      · rename_i hb
        obtain ⟨k, hk, h⟩ := Res.bind_eq_ok.1 h
        injection h with h
        injection h with h2 h1
        subst h2
        obtain ⟨l, r, rfl⟩ := be32_inv hk
        rw [byte_eq hb]
        exact ⟨0xdd :: be 4 k, r, .a32 l, rfl, by simp [← h1]⟩
      · cases h

theorem mapInfo_inv {v : Bytes} {p n : Nat} (h : mapInfo v = .ok (n, p)) : ∃ hd r, MapHead n hd ∧ v = hd ++ r ∧ hd.length = p := by
  obtain ⟨m, hm, h⟩ := Res.bind_eq_ok.1 h
  obtain ⟨b, t, rfl, rfl⟩ := byte_cons hm
  split at h
  · rename_i hb
    injection h with h
    injection h with h2 h1
    obtain ⟨e1, e2⟩ := mark_80 _ (UInt8.toNat_lt b) hb
    rw [h2] at e1 e2
    exact ⟨[b], t, by rw [byte_eq e1]; exact .fix e2, rfl, h1⟩
  · split at h
    · rename_i hb
      obtain ⟨k, hk, h⟩ := Res.bind_eq_ok.1 h
      injection h with h
      injection h with h2 h1
      subst h2
      obtain ⟨l, r, rfl⟩ := be16_inv hk
      rw [byte_eq hb]
      exact ⟨0xde :: be 2 k, r, .m16 l, rfl, by simp [← h1]⟩
    · split at h
      · rename_i hb
        obtain ⟨k, hk, h⟩ := Res.bind_eq_ok.1 h
        injection h with h
        injection h with h2 h1
        subst h2
        obtain ⟨l, r, rfl⟩ := be32_inv hk
        rw [byte_eq hb]
        exact ⟨0xdf :: be 4 k, r, .m32 l, rfl, by simp [← h1]⟩
      · cases h

theorem sliceAt_app {x r s : Bytes} {n : Nat} (h : sliceAt (x ++ r) x.length n = .ok s) : s.length = n ∧ ∃ r', r = s ++ r' := by
  unfold sliceAt at h
  split at h
  · rename_i hl
    injection h with h
    simp only [List.drop_left] at h
    subst h
    simp only [List.length_append] at hl
    exact ⟨by simp; omega, r.drop n, by rw [List.take_append_drop]⟩
  · cases h

theorem asStringView_inv {v s : Bytes} (h : asStringView v = .ok s) : ∃ hd r, StrHead s.length hd ∧ v = hd ++ s ++ r := by
  obtain ⟨⟨p, n⟩, h1, h2⟩ := Res.bind_eq_ok.1 h
  obtain ⟨hd, r, H, rfl, rfl⟩ := strInfo_inv h1
  obtain ⟨rfl, r', rfl⟩ := sliceAt_app h2
  exact ⟨hd, r', H, by simp⟩

theorem asBlob_inv {v s : Bytes} (h : asBlob v = .ok s) : ∃ hd r, BinHead s.length hd ∧ v = hd ++ s ++ r := by
  obtain ⟨⟨p, n⟩, h1, h2⟩ := Res.bind_eq_ok.1 h
  obtain ⟨hd, r, H, rfl, rfl⟩ := binInfo_inv h1
  obtain ⟨rfl, r', rfl⟩ := sliceAt_app h2
  exact ⟨hd, r', H, by simp⟩

/-! ## Numbers -/

theorem asInt64_inv {m : UInt8} {t : Bytes} {x : Int64} (h : asInt64 (m :: t) = .ok x) (hi : isInt (m :: t) = true) :
    ∃ c r, EncInt x.toInt c ∧ m :: t = c ++ r := by
  simp only [asInt64, require_ne, byteAt_zero, Res.ok_bind] at h
  have hm := UInt8.toNat_lt m
  split at h
  · rename_i hb
    injection h with h
    subst h
    rw [i64_toInt (by omega) (by omega)]
    refine ⟨[m], t, ?_, rfl⟩
    have := EncInt.posfix (z := m.toNat) (by omega) (by omega)
    simpa using this
  · split at h
    · rename_i hb hb2
      injection h with h
      subst h
      have e : toSigned 8 m.toNat = (m.toNat : Int) - 256 := by
        simp only [toSigned]; rw [if_neg (by omega)]; rfl
      rw [e, i64_toInt (by omega) (by omega)]
      refine ⟨[m], t, ?_, rfl⟩
      have := EncInt.negfix (z := (m.toNat : Int) - 256) (by omega) (by omega)
      have e2 : ((m.toNat : Int) - 256 + 2 ^ 8).toNat = m.toNat := by omega
      rw [e2] at this
      simpa using this
    · split at h
      · rename_i hb
        obtain ⟨_, _, h⟩ := Res.bind_eq_ok.1 h
        obtain ⟨k, hk, h⟩ := Res.bind_eq_ok.1 h
        injection h with h
        subst h
        obtain ⟨l, r, rfl⟩ := byte_inv hk
        have e : toSigned 8 k = (k : Int) ∧ k < 128 ∨ toSigned 8 k = (k : Int) - 256 ∧ 128 ≤ k := by
          simp only [toSigned]; split <;> simp_all
        rw [i64_toInt (by omega) (by omega), byte_eq hb]
        refine ⟨0xd0 :: be 1 k, r, ?_, rfl⟩
        have := EncInt.i8 (z := toSigned 8 k) (by omega) (by omega)
        have e' : (toSigned 8 k % 2 ^ 8).toNat = k := by omega
        rwa [e'] at this
      · split at h
        · rename_i hb
          obtain ⟨_, _, h⟩ := Res.bind_eq_ok.1 h
          obtain ⟨k, hk, h⟩ := Res.bind_eq_ok.1 h
          injection h with h
          subst h
          obtain ⟨l, r, rfl⟩ := be16_inv hk
          have e : toSigned 16 k = (k : Int) ∧ k < 2 ^ 15 ∨ toSigned 16 k = (k : Int) - 2 ^ 16 ∧ 2 ^ 15 ≤ k := by
            simp only [toSigned]; split <;> simp_all
          rw [i64_toInt (by omega) (by omega), byte_eq hb]
          refine ⟨0xd1 :: be 2 k, r, ?_, rfl⟩
          have := EncInt.i16 (z := toSigned 16 k) (by omega) (by omega)
          have e' : (toSigned 16 k % 2 ^ 16).toNat = k := by omega
          rwa [e'] at this
        · split at h
          · rename_i hb
            obtain ⟨_, _, h⟩ := Res.bind_eq_ok.1 h
            obtain ⟨k, hk, h⟩ := Res.bind_eq_ok.1 h
            injection h with h
            subst h
            obtain ⟨l, r, rfl⟩ := be32_inv hk
            have e : toSigned 32 k = (k : Int) ∧ k < 2 ^ 31 ∨ toSigned 32 k = (k : Int) - 2 ^ 32 ∧ 2 ^ 31 ≤ k := by
              simp only [toSigned]; split <;> simp_all
            rw [i64_toInt (by omega) (by omega), byte_eq hb]
            refine ⟨0xd2 :: be 4 k, r, ?_, rfl⟩
            have := EncInt.i32 (z := toSigned 32 k) (by omega) (by omega)
            have e' : (toSigned 32 k % 2 ^ 32).toNat = k := by omega
            rwa [e'] at this
          · split at h
            · rename_i hb
              obtain ⟨_, _, h⟩ := Res.bind_eq_ok.1 h
              obtain ⟨k, hk, h⟩ := Res.bind_eq_ok.1 h
              injection h with h
              subst h
              obtain ⟨l, r, rfl⟩ := be64_inv hk
              have e : toSigned 64 k = (k : Int) ∧ k < 2 ^ 63 ∨ toSigned 64 k = (k : Int) - 2 ^ 64 ∧ 2 ^ 63 ≤ k := by
                simp only [toSigned]; split <;> simp_all
              rw [i64_toInt (by omega) (by omega), byte_eq hb]
              refine ⟨0xd3 :: be 8 k, r, ?_, rfl⟩
              have := EncInt.i64 (z := toSigned 64 k) (by omega) (by omega)
              have e' : (toSigned 64 k % 2 ^ 64).toNat = k := by omega
              rwa [e'] at this
            · simp only [isInt, onMarker, decide_eq_true_eq] at hi
              omega

theorem asUInt64_inv {m : UInt8} {t : Bytes} {x : UInt64} (h : asUInt64 (m :: t) = .ok x) (hi : isUInt (m :: t) = true) :
    ∃ c r, EncInt x.toNat c ∧ m :: t = c ++ r := by
  simp only [asUInt64, require_ne, byteAt_zero, Res.ok_bind] at h
  have hm := UInt8.toNat_lt m
  split at h
  · rename_i hb
    injection h with h
    subst h
    rw [u64_toNat (by omega)]
    refine ⟨[m], t, ?_, rfl⟩
    have := EncInt.posfix (z := m.toNat) (by omega) (by omega)
    simpa using this
  · split at h
    · rename_i hb
      obtain ⟨_, _, h⟩ := Res.bind_eq_ok.1 h
      obtain ⟨k, hk, h⟩ := Res.bind_eq_ok.1 h
      injection h with h
      subst h
      obtain ⟨l, r, rfl⟩ := byte_inv hk
      rw [u64_toNat (by omega), byte_eq hb]
      exact ⟨0xcc :: be 1 k, r, EncInt.u8 (z := k) (by omega) (by omega), rfl⟩
    · split at h
      · rename_i hb
        obtain ⟨_, _, h⟩ := Res.bind_eq_ok.1 h
        obtain ⟨k, hk, h⟩ := Res.bind_eq_ok.1 h
        injection h with h
        subst h
        obtain ⟨l, r, rfl⟩ := be16_inv hk
        rw [u64_toNat (by omega), byte_eq hb]
        exact ⟨0xcd :: be 2 k, r, EncInt.u16 (z := k) (by omega) (by omega), rfl⟩
      · split at h
        · rename_i hb
          obtain ⟨_, _, h⟩ := Res.bind_eq_ok.1 h
          obtain ⟨k, hk, h⟩ := Res.bind_eq_ok.1 h
          injection h with h
          subst h
          obtain ⟨l, r, rfl⟩ := be32_inv hk
          rw [u64_toNat (by omega), byte_eq hb]
          exact ⟨0xce :: be 4 k, r, EncInt.u32 (z := k) (by omega) (by omega), rfl⟩
        · split at h
          · rename_i hb
            obtain ⟨_, _, h⟩ := Res.bind_eq_ok.1 h
            obtain ⟨k, hk, h⟩ := Res.bind_eq_ok.1 h
            injection h with h
            subst h
            obtain ⟨l, r, rfl⟩ := be64_inv hk
            rw [u64_toNat (by omega), byte_eq hb]
            exact ⟨0xcf :: be 8 k, r, EncInt.u64 (z := k) (by omega) (by omega), rfl⟩
          · simp only [isUInt, onMarker, decide_eq_true_eq] at hi
            omega

theorem showsInt_inv {v : Bytes} {z : Int} (h : reader.ShowsInt v z) : ∃ c r, EncInt z c ∧ v = c ++ r := by
  obtain ⟨hs, h1, h2⟩ := h
  obtain ⟨i, u, hi, hu, e⟩ := hs.2.2.1
  cases v with
  | nil =>
    injection hi with hi; injection hu with hu
    subst hi; subst hu
    cases e
  | cons m t =>
    cases i with
    | true =>
      obtain ⟨x, hx, rfl⟩ := h1 hi
      injection hi with hi
      exact asInt64_inv hx hi
    | false =>
      cases u with
      | false => cases e
      | true =>
        obtain ⟨x, hx, rfl⟩ := h2 hu
        injection hu with hu
        exact asUInt64_inv hx hu

theorem asDouble_inv {v : Bytes} {d : UInt64} (h : asDouble v = .ok d) : ∃ c r, EncDbl d.toNat c ∧ v = c ++ r := by
  obtain ⟨_, _, h⟩ := Res.bind_eq_ok.1 h
  obtain ⟨m, hm, h⟩ := Res.bind_eq_ok.1 h
  obtain ⟨b, t, rfl, rfl⟩ := byte_cons hm
  split at h
  · rename_i hb
    obtain ⟨_, _, h⟩ := Res.bind_eq_ok.1 h
    obtain ⟨k, hk, h⟩ := Res.bind_eq_ok.1 h
    injection h with h
    subst h
    obtain ⟨l, r, rfl⟩ := be32_inv hk
    rw [u64_toNat (widen32_lt k), byte_eq hb]
    exact ⟨0xca :: be 4 k, r, .f32 l rfl, rfl⟩
  · split at h
    · rename_i hb
      obtain ⟨_, _, h⟩ := Res.bind_eq_ok.1 h
      obtain ⟨k, hk, h⟩ := Res.bind_eq_ok.1 h
      injection h with h
      subst h
      obtain ⟨l, r, rfl⟩ := be64_inv hk
      rw [u64_toNat l, byte_eq hb]
      exact ⟨0xcb :: be 8 k, r, .f64, rfl⟩
    · cases h

/-! ## Containers -/

/-- The head of a view that was cut to what is skipped. -/
theorem first_enc {w u c r : Bytes} {n : Nat} (hs : skip w = .ok n) (hf : first w n = .ok u) (hc : Elem Lim c) (e : u = c ++ r) :
    ∃ r', w = c ++ r' ∧ n = c.length := by
  unfold first at hf
  split at hf
  · injection hf with hf
    have hw : w = c ++ (r ++ w.drop n) := by
      rw [← List.append_assoc, ← e, ← hf, List.take_append_drop]
    refine ⟨_, hw, ?_⟩
    have := hc.skip (r ++ w.drop n)
    rw [← hw, hs] at this
    injection this
  · cases hf

theorem encList_of_get : ∀ (xs : List Val) (pre w : Bytes), Val.Below.belowList Lim xs →
    (∀ i (hi : i < xs.length), ∃ off u sz ch c r, skipLoop skip (pre ++ w) i pre.length = .ok off ∧ subspan (pre ++ w) off = .ok u ∧
      skip u = .ok sz ∧ first u sz = .ok ch ∧ ch = c ++ r ∧ Enc xs[i] c) →
    ∃ cs rest, EncList xs cs ∧ w = cs.flatten ++ rest
  | [], pre, w, _, _ => ⟨[], w, by simp [EncList], rfl⟩
  | x :: xs, pre, w, hb, h => by
    simp only [Val.Below.belowList] at hb
    obtain ⟨off, u, sz, ch, c, r, h1, h2, h3, h4, h5, h6⟩ := h 0 (by simp)
    injection h1 with h1
    subst h1
    rw [subspan_append] at h2
    injection h2 with h2
    subst h2
    have hE := Enc.elem x hb.1 (show Enc x c from h6)
    obtain ⟨r', rfl, rfl⟩ := first_enc h3 h4 hE h5
    obtain ⟨cs, rest, g1, g2⟩ := encList_of_get xs (pre ++ c) r' hb.2 (by
      intro i hi
      obtain ⟨off, u, sz, ch, c', r, k1, k2, k3, k4, k5, k6⟩ := h (i + 1) (by simpa using hi)
      simp only [skipLoop, subspan_append, Res.ok_bind, h3] at k1
      refine ⟨off, u, sz, ch, c', r, ?_, ?_, k3, k4, k5, k6⟩
      · rw [List.append_assoc, List.length_append]; exact k1
      · rw [List.append_assoc]; exact k2)
    exact ⟨c :: cs, rest, by simp only [EncList]; exact ⟨c, cs, h6, g1, rfl⟩, by simp [g2]⟩

theorem encEntries_of_get (count endOff : Nat) : ∀ (ms : List (Bytes × Val)) (pre w : Bytes) (i f : Nat),
    Val.Below.belowEntries Lim ms → (ms.map Prod.fst).Nodup → i + ms.length = count →
    keysFrom (pre ++ w) count endOff f i pre.length = .ok (ms.map Prod.fst) →
    (∀ k x, (k, x) ∈ ms → ∃ ch c r, getKeyFrom (pre ++ w) k ms.length pre.length = .ok ch ∧ ch = c ++ r ∧ Enc x c) →
    ∃ cs rest, EncEntries ms cs ∧ w = cs.flatten ++ rest
  | [], pre, w, _, _, _, _, _, _, _ => ⟨[], w, by simp [EncEntries], rfl⟩
  | (k, x) :: ms, pre, w, i, f, hb, hn, hi, hk, hg => by
    simp only [Val.Below.belowEntries] at hb
    simp only [List.map_cons, List.nodup_cons] at hn
    obtain ⟨f, rfl⟩ : ∃ g, f = g + 1 := by
      cases f with
      | zero => cases hk
      | succ g => exact ⟨g, rfl⟩
    simp only [List.length_cons] at hi
    unfold keysFrom at hk
    rw [if_neg (by omega)] at hk
    obtain ⟨k', d1, hk⟩ := Res.bind_eq_ok.1 hk
    obtain ⟨off', d2, hk⟩ := Res.bind_eq_ok.1 hk
    obtain ⟨ks', d3, hk⟩ := Res.bind_eq_ok.1 hk
    injection hk with hk
    simp only [List.map_cons, List.cons.injEq] at hk
    obtain ⟨rfl, rfl⟩ := hk
    unfold keyDeref at d1
    rw [subspan_append, Res.ok_bind] at d1
    obtain ⟨ksz, b2, d1⟩ := Res.bind_eq_ok.1 d1
    obtain ⟨kd, b3, d1⟩ := Res.bind_eq_ok.1 d1
    obtain ⟨hd, r, H, e⟩ := asStringView_inv d1
    obtain ⟨r', rfl, rfl⟩ := first_enc b2 b3 (Elem.str H hb.1) e
    have hkd : kd = hd ++ k' := by
      rw [first_append] at b3; injection b3 with b3; exact b3.symm
    subst hkd
    have sub2 : subspan (pre ++ (hd ++ k' ++ r')) (pre.length + (hd ++ k').length) = .ok r' := by
      have := subspan_append (pre ++ (hd ++ k')) r'
      simpa using this
    unfold keyNext at d2
    rw [subspan_append, Res.ok_bind, b2, Res.ok_bind, sub2, Res.ok_bind] at d2
    obtain ⟨vsz, b5, d2⟩ := Res.bind_eq_ok.1 d2
    injection d2 with d2
    have step : ∀ key, getKeyFrom (pre ++ (hd ++ k' ++ r')) key (ms.length + 1) pre.length =
        if k' = key then first r' vsz else getKeyFrom (pre ++ (hd ++ k' ++ r')) key ms.length (pre.length + (hd ++ k').length + vsz) := by
      intro key
      rw [getKeyFrom]
      simp only [subspan_append, Res.ok_bind, b2, b3, sub2, b5, keyHit_str H]
      by_cases h : k' = key <;> simp [h]
    obtain ⟨ch, c, r, g1, g2, g3⟩ := hg k' x (by simp)
    rw [List.length_cons, step, if_pos rfl] at g1
    have hE := Enc.elem x hb.2.1 g3
    obtain ⟨r'', rfl, rfl⟩ := first_enc b5 g1 hE g2
    have eoff : off' = (pre ++ (hd ++ k' ++ c)).length := by
      rw [← d2]; simp only [List.length_append]
    have ebuf : pre ++ (hd ++ k' ++ (c ++ r'')) = (pre ++ (hd ++ k' ++ c)) ++ r'' := by simp
    rw [eoff, ebuf] at d3
    obtain ⟨cs, rest, q1, q2⟩ := encEntries_of_get count endOff ms (pre ++ (hd ++ k' ++ c)) r'' (i + 1) f hb.2.2 hn.2 (by omega) d3 (by
      intro key y hy
      obtain ⟨ch, c', r, g1, g2, g3⟩ := hg key y (by simp [hy])
      have hne : ¬ k' = key := fun e => hn.1 (e ▸ List.mem_map_of_mem (f := Prod.fst) hy)
      rw [List.length_cons, step, if_neg hne] at g1
      refine ⟨ch, c', r, ?_, g2, g3⟩
      rw [← ebuf]
      rw [show (pre ++ (hd ++ k' ++ c)).length = pre.length + (hd ++ k').length + c.length by simp only [List.length_append]; omega]
      exact g1)
    refine ⟨(hd ++ k') :: c :: cs, rest, by simp only [EncEntries]; exact ⟨hd, c, cs, H, g3, q1, rfl⟩, ?_⟩
    simp [q2]

theorem keys_count {v : Bytes} {count endOff : Nat} : ∀ {n i off ks e}, i + n = count →
    skipLoop skip v (2 * n) off = .ok e → e = endOff → ∀ {f}, n < f → keysFrom v count endOff f i off = .ok ks → ks.length = n
  | 0, i, off, ks, e, hi, he, hee, f, hf, h => by
    obtain ⟨f, rfl⟩ : ∃ g, f = g + 1 := ⟨f - 1, by omega⟩
    unfold keysFrom at h
    injection he with he
    rw [if_pos ⟨by omega, by omega⟩] at h
    injection h with h
    subst h
    rfl
  | n + 1, i, off, ks, e, hi, he, hee, f, hf, h => by
    obtain ⟨f, rfl⟩ : ∃ g, f = g + 1 := ⟨f - 1, by omega⟩
    unfold keysFrom at h
    rw [if_neg (by omega)] at h
    obtain ⟨k, h1, h⟩ := Res.bind_eq_ok.1 h
    obtain ⟨off', h2, h⟩ := Res.bind_eq_ok.1 h
    obtain ⟨ks', h3, h⟩ := Res.bind_eq_ok.1 h
    injection h with h
    subst h
    unfold keyNext at h2
    obtain ⟨a1, b1, h2⟩ := Res.bind_eq_ok.1 h2
    obtain ⟨a2, b2, h2⟩ := Res.bind_eq_ok.1 h2
    obtain ⟨a4, b4, h2⟩ := Res.bind_eq_ok.1 h2
    obtain ⟨a5, b5, h2⟩ := Res.bind_eq_ok.1 h2
    injection h2 with h2
    rw [show 2 * (n + 1) = 2 * n + 1 + 1 by omega] at he
    simp only [skipLoop, b1, b2, b4, b5, Res.ok_bind] at he
    rw [show off + a2 + a5 = off' by omega] at he
    have ih := keys_count (i := i + 1) (by omega) he hee (f := f) (by omega) h3
    simp [ih]

/-- A view that presents a value starts with one of its encodings. -/
theorem enc_of_agrees : ∀ (x : Val), x.Below Lim → x.Distinct → ∀ (v : Bytes), reader.Agrees v x → ∃ c r, v = c ++ r ∧ Enc x c := by
  intro x
  induction x using Val.ind with
  | null =>
    intro _ _ v h
    cases h with
    | null hs =>
      have h1 := hs.1
      injection h1 with h1
      cases v with
      | nil => cases h1
      | cons b t =>
        simp only [isNull, onMarker, decide_eq_true_eq] at h1
        exact ⟨[b], t, rfl, by simp only [Enc]; rw [byte_eq h1]; rfl⟩
  | bool b =>
    intro _ _ v h
    cases h with
    | bool hs ha =>
      obtain ⟨_, h1, ha⟩ := Res.bind_eq_ok.1 ha
      obtain ⟨m, hm, ha⟩ := Res.bind_eq_ok.1 ha
      obtain ⟨y, t, rfl, rfl⟩ := byte_cons hm
      injection ha with ha
      have h1 := Res.require_eq_ok.1 h1
      simp only [isBool, onMarker, decide_eq_true_eq] at h1
      refine ⟨[y], t, rfl, ?_⟩
      simp only [Enc]
      rcases h1 with h1 | h1
      · rw [h1] at ha; subst ha; rw [byte_eq h1]; rfl
      · rw [h1] at ha; subst ha; rw [byte_eq h1]; rfl
  | int i =>
    intro _ _ v h
    cases h with
    | int hs _ =>
      obtain ⟨c, r, h1, h2⟩ := showsInt_inv hs
      exact ⟨c, r, h2, by simp only [Enc]; exact h1⟩
  | uint n =>
    intro _ _ v h
    cases h with
    | uint hs _ =>
      obtain ⟨c, r, h1, h2⟩ := showsInt_inv hs
      exact ⟨c, r, h2, by simp only [Enc]; exact h1⟩
  | dbl d =>
    intro _ _ v h
    cases h with
    | dbl hs ha =>
      obtain ⟨c, r, h1, h2⟩ := asDouble_inv ha
      exact ⟨c, r, h2, by simp only [Enc]; exact h1⟩
  | str s =>
    intro _ _ v h
    cases h with
    | str hs ha _ =>
      obtain ⟨hd, r, h1, h2⟩ := asStringView_inv ha
      exact ⟨hd ++ s, r, h2, by simp only [Enc]; exact ⟨hd, h1, rfl⟩⟩
  | blob s =>
    intro _ _ v h
    cases h with
    | blob hs ha _ =>
      obtain ⟨hd, r, h1, h2⟩ := asBlob_inv ha
      exact ⟨hd ++ s, r, h2, by simp only [Enc]; exact ⟨hd, h1, rfl⟩⟩
  | arr xs ih =>
    intro hb hd v h
    cases h with
    | arr child hs hn hg _ hc =>
      obtain ⟨⟨n, p⟩, h1, hn⟩ := Res.bind_eq_ok.1 hn
      injection hn with hn
      subst hn
      have h1' := h1
      obtain ⟨hdr, w, H, rfl, rfl⟩ := arrInfo_inv h1
      have hb' : Val.Below.belowList Lim xs := by simpa only [Val.Below] using hb
      obtain ⟨cs, rest, q1, q2⟩ := encList_of_get xs hdr w hb' (by
        intro i hi
        have hgi : getIdx (hdr ++ w) i = .ok (child i) := hg i hi
        unfold getIdx at hgi
        rw [h1', Res.ok_bind] at hgi
        obtain ⟨_, _, hgi⟩ := Res.bind_eq_ok.1 hgi
        obtain ⟨off, k1, hgi⟩ := Res.bind_eq_ok.1 hgi
        obtain ⟨u, k2, hgi⟩ := Res.bind_eq_ok.1 hgi
        obtain ⟨sz, k3, k4⟩ := Res.bind_eq_ok.1 hgi
        obtain ⟨c, r, e1, e2⟩ := ih xs[i] (List.getElem_mem hi) ((Val.belowList_iff xs).1 hb' _ (List.getElem_mem hi))
          ((Val.distinctList_iff xs).1 hd _ (List.getElem_mem hi)) _ (hc i hi)
        exact ⟨off, u, sz, child i, c, r, k1, k2, k3, k4, e1, e2⟩)
      subst q2
      exact ⟨hdr ++ cs.flatten, rest, by simp, by simp only [Enc]; exact ⟨hdr, cs, H, q1, rfl⟩⟩
  | map ms ih =>
    intro hb hd v h
    cases h with
    | map child hs hk _ hg _ hc =>
      obtain ⟨_, _, hk⟩ := Res.bind_eq_ok.1 hk
      obtain ⟨⟨n, p⟩, h1, hk⟩ := Res.bind_eq_ok.1 hk
      obtain ⟨e, h2, hk⟩ := Res.bind_eq_ok.1 hk
      have h1' := h1
      obtain ⟨hdr, w, H, rfl, rfl⟩ := mapInfo_inv h1
      have hb' : Val.Below.belowEntries Lim ms := by simpa only [Val.Below] using hb
      have hd1 := hd.1
      have hn : n = ms.length := by
        have := keys_count (i := 0) (by omega) h2 rfl (f := n + 1) (by omega) hk
        simpa using this.symm
      subst hn
      obtain ⟨cs, rest, q1, q2⟩ := encEntries_of_get ms.length e ms hdr w 0 (ms.length + 1) hb' hd1 (by omega) hk (by
        intro k y hy
        have hgk : getKey (hdr ++ w) k = .ok (child k) := hg k (List.mem_map_of_mem (f := Prod.fst) hy)
        obtain ⟨_, _, hgk⟩ := Res.bind_eq_ok.1 hgk
        rw [h1', Res.ok_bind] at hgk
        obtain ⟨c, r, e1, e2⟩ := ih (k, y) hy ((Val.belowEntries_iff ms).1 hb' _ hy).2
          ((Val.distinctEntries_iff ms).1 hd.2 _ hy) _ (hc k y (firstVal_of_nodup hd1 hy))
        exact ⟨child k, c, r, hgk, e1, e2⟩)
      subst q2
      exact ⟨hdr ++ cs.flatten, rest, by simp, by simp only [Enc]; exact ⟨hdr, cs, H, q1, rfl⟩⟩

end Zer.MsgPack
