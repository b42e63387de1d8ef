import Verif.MsgPack.Skip

/-!
# MessagePack: the reader presents the encoded value
-/

namespace Zer.MsgPack

/-! ## Kind predicates -/

/-- Answers of the nine predicates by the first byte. -/
def tests (m : Nat) : List Bool :=
  [decide (m = 0xc0), decide (m = 0xc2 ∨ m = 0xc3),
   decide (m ≤ 0x7f ∨ m ≥ 0xe0 ∨ m = 0xd0 ∨ m = 0xd1 ∨ m = 0xd2 ∨ m = 0xd3),
   decide (m ≤ 0x7f ∨ m = 0xcc ∨ m = 0xcd ∨ m = 0xce ∨ m = 0xcf),
   decide (m = 0xca ∨ m = 0xcb),
   decide (m &&& 0xe0 = 0xa0 ∨ m = 0xd9 ∨ m = 0xda ∨ m = 0xdb),
   decide (m = 0xc4 ∨ m = 0xc5 ∨ m = 0xc6),
   decide (m &&& 0xf0 = 0x80 ∨ m = 0xde ∨ m = 0xdf),
   decide (m &&& 0xf0 = 0x90 ∨ m = 0xdc ∨ m = 0xdd)]

theorem shows_of {m : UInt8} {t : Bytes} {a1 a2 a3 a4 a5 a6 a7 a8 a9 : Bool}
    (h : tests m.toNat = [a1, a2, a3, a4, a5, a6, a7, a8, a9]) :
    reader.Shows (m :: t) a1 a2 (a3 || a4) a5 a6 a7 a8 a9 ∧
      reader.isInt (m :: t) = .ok a3 ∧ reader.isUInt (m :: t) = .ok a4 := by
  simp only [tests, List.cons.injEq, and_true] at h
  obtain ⟨h1, h2, h3, h4, h5, h6, h7, h8, h9⟩ := h
  refine ⟨⟨congrArg _ h1, congrArg _ h2, ⟨a3, a4, congrArg _ h3, congrArg _ h4, rfl⟩, congrArg _ h5,
    congrArg _ h6, congrArg _ h7, congrArg _ h8, congrArg _ h9⟩, congrArg _ h3, congrArg _ h4⟩

theorem shows_str {n : Nat} {h : Bytes} (H : StrHead n h) (t : Bytes) :
    reader.Shows (h ++ t) false false false false true false false false := by
  have key : ∀ n, n < 32 → tests (UInt8.ofNat (0xa0 + n)).toNat =
      [false, false, false, false, false, true, false, false, false] := by decide
  cases H with
  | fix hn => exact (shows_of (key n hn)).1
  | s8 => exact (shows_of (show tests (UInt8.toNat 0xd9) = [false, false, false, false, false, true, false, false, false] by decide)).1
  | s16 => exact (shows_of (show tests (UInt8.toNat 0xda) = [false, false, false, false, false, true, false, false, false] by decide)).1
  | s32 => exact (shows_of (show tests (UInt8.toNat 0xdb) = [false, false, false, false, false, true, false, false, false] by decide)).1

theorem shows_bin {n : Nat} {h : Bytes} (H : BinHead n h) (t : Bytes) :
    reader.Shows (h ++ t) false false false false false true false false := by
  cases H with
  | b8 => exact (shows_of (show tests (UInt8.toNat 0xc4) = [false, false, false, false, false, false, true, false, false] by decide)).1
  | b16 => exact (shows_of (show tests (UInt8.toNat 0xc5) = [false, false, false, false, false, false, true, false, false] by decide)).1
  | b32 => exact (shows_of (show tests (UInt8.toNat 0xc6) = [false, false, false, false, false, false, true, false, false] by decide)).1

theorem shows_map {n : Nat} {h : Bytes} (H : MapHead n h) (t : Bytes) :
    reader.Shows (h ++ t) false false false false false false true false := by
  have key : ∀ n, n < 16 → tests (UInt8.ofNat (0x80 + n)).toNat =
      [false, false, false, false, false, false, false, true, false] := by decide
  cases H with
  | fix hn => exact (shows_of (key n hn)).1
  | m16 => exact (shows_of (show tests (UInt8.toNat 0xde) = [false, false, false, false, false, false, false, true, false] by decide)).1
  | m32 => exact (shows_of (show tests (UInt8.toNat 0xdf) = [false, false, false, false, false, false, false, true, false] by decide)).1

theorem shows_arr {n : Nat} {h : Bytes} (H : ArrHead n h) (t : Bytes) :
    reader.Shows (h ++ t) false false false false false false false true := by
  have key : ∀ n, n < 16 → tests (UInt8.ofNat (0x90 + n)).toNat =
      [false, false, false, false, false, false, false, false, true] := by decide
  cases H with
  | fix hn => exact (shows_of (key n hn)).1
  | a16 => exact (shows_of (show tests (UInt8.toNat 0xdc) = [false, false, false, false, false, false, false, false, true] by decide)).1
  | a32 => exact (shows_of (show tests (UInt8.toNat 0xdd) = [false, false, false, false, false, false, false, false, true] by decide)).1

/-! ## Scalars -/

theorem i64_toInt {z : Int} (h1 : -2 ^ 63 ≤ z) (h2 : z < 2 ^ 63) : (i64 z).toInt = z :=
  Int64.toInt_ofInt_of_le h1 h2

theorem u64_toNat {n : Nat} (h : n < 2 ^ 64) : (UInt64.ofNat n).toNat = n := by
  simp only [UInt64.toNat_ofNat']; omega

theorem toSigned_mod {w : Nat} {z : Int} (hw : 0 < w) (h1 : -2 ^ (w - 1) ≤ z) (h2 : z < 2 ^ (w - 1)) :
    toSigned w (z % 2 ^ w).toNat = z := by
  obtain ⟨w, rfl⟩ : ∃ k, w = k + 1 := ⟨w - 1, by omega⟩
  simp only [Nat.add_sub_cancel] at h1 h2
  have hp : (0 : Int) < 2 ^ w := Int.pow_pos (by omega)
  have e : (2 : Int) ^ (w + 1) = 2 * 2 ^ w := by rw [Int.pow_succ]; omega
  have e' : ((2 ^ w : Nat) : Int) = (2 : Int) ^ w := by simp
  simp only [toSigned, Nat.add_sub_cancel]
  generalize (2 : Int) ^ (w + 1) = P at *
  generalize (2 : Int) ^ w = Q at *
  generalize (2 : Nat) ^ w = R at *
  by_cases hz : 0 ≤ z
  · have : z % P = z := Int.emod_eq_of_lt hz (by omega)
    rw [this]; split <;> omega
  · have : z % P = z + P := by
      rw [← Int.add_emod_right, Int.emod_eq_of_lt (by omega) (by omega)]
    rw [this]; split <;> omega

theorem require_len {k : Nat} {v : Bytes} (h : k ≤ v.length) :
    Res.require (decide (k ≤ v.length)) .deser = .ok () := by simp [h, Res.require]

theorem require_ne (m : UInt8) (t : Bytes) :
    Res.require (decide ((m :: t).length ≠ 0)) .deser = .ok () := by simp [Res.require]

/-- What the integer accessors return on an encoded integer, whatever follows: the number modulo
2^64. -/
theorem asInt64_enc {z : Int} {b : Bytes} (H : EncInt z b) (t : Bytes) :
    asInt64 (b ++ t) = .ok (i64 z) := by
  cases H with
  | posfix h0 h1 =>
    have e : (UInt8.ofNat z.toNat).toNat = z.toNat := by simp; omega
    simp only [List.cons_append, List.nil_append, asInt64, require_ne, byteAt_zero, Res.ok_bind, e]
    rw [if_pos (by omega), Int.toNat_of_nonneg h0]; rfl
  | negfix h0 h1 =>
    have e : (UInt8.ofNat (z + 2 ^ 8).toNat).toNat = (z + 2 ^ 8).toNat := by simp; omega
    simp only [List.cons_append, List.nil_append, asInt64, require_ne, byteAt_zero, Res.ok_bind, e]
    rw [if_neg (by omega), if_pos (by omega)]
    have : z + 2 ^ 8 = z % 2 ^ 8 := by omega
    rw [this, toSigned_mod (by omega) (by omega) (by omega)]; rfl
  | u8 h0 h1 =>
    have e : byteAt (0xcc :: (be 1 z.toNat ++ t)) 1 = .ok z.toNat := readBe8_be (by omega) _ t
    simp only [List.cons_append, asInt64, require_ne, byteAt_zero, Res.ok_bind]
    rw [if_neg (by decide), if_neg (by decide), if_neg (by decide), if_neg (by decide),
      if_neg (by decide), if_neg (by decide), if_pos (by decide), e, require_len (by simp)]
    simp [Int.max_eq_left h0]
  | u16 h0 h1 =>
    have e := readBe16_be (n := z.toNat) (by omega) 0xcd t
    simp only [List.cons_append, asInt64, require_ne, byteAt_zero, Res.ok_bind]
    rw [if_neg (by decide), if_neg (by decide), if_neg (by decide), if_neg (by decide),
      if_neg (by decide), if_neg (by decide), if_neg (by decide), if_pos (by decide), e,
      require_len (by simp)]
    simp [Int.max_eq_left h0]
  | u32 h0 h1 =>
    have e := readBe32_be (n := z.toNat) (by omega) 0xce t
    simp only [List.cons_append, asInt64, require_ne, byteAt_zero, Res.ok_bind]
    rw [if_neg (by decide), if_neg (by decide), if_neg (by decide), if_neg (by decide),
      if_neg (by decide), if_neg (by decide), if_neg (by decide), if_neg (by decide),
      if_pos (by decide), e, require_len (by simp)]
    simp [Int.max_eq_left h0]
  | u64 h0 h1 =>
    have e := readBe64_be (n := z.toNat) (by omega) 0xcf t
    simp only [List.cons_append, asInt64, require_ne, byteAt_zero, Res.ok_bind]
    rw [if_neg (by decide), if_neg (by decide), if_neg (by decide), if_neg (by decide),
      if_neg (by decide), if_neg (by decide), if_neg (by decide), if_neg (by decide),
      if_neg (by decide), if_pos (by decide), e, require_len (by simp)]
    simp [Int.max_eq_left h0]
  | i8 h0 h1 =>
    have e : byteAt (0xd0 :: (be 1 (z % 2 ^ 8).toNat ++ t)) 1 = .ok (z % 2 ^ 8).toNat :=
      readBe8_be (by omega) _ t
    simp only [List.cons_append, asInt64, require_ne, byteAt_zero, Res.ok_bind]
    rw [if_neg (by decide), if_neg (by decide), if_pos (by decide), e, require_len (by simp)]
    simp only [Res.ok_bind, toSigned_mod (w := 8) (by omega) h0 h1]; rfl
  | i16 h0 h1 =>
    have e := readBe16_be (n := (z % 2 ^ 16).toNat) (by omega) 0xd1 t
    simp only [List.cons_append, asInt64, require_ne, byteAt_zero, Res.ok_bind]
    rw [if_neg (by decide), if_neg (by decide), if_neg (by decide), if_pos (by decide), e,
      require_len (by simp)]
    simp only [Res.ok_bind, toSigned_mod (w := 16) (by omega) h0 h1]; rfl
  | i32 h0 h1 =>
    have e := readBe32_be (n := (z % 2 ^ 32).toNat) (by omega) 0xd2 t
    simp only [List.cons_append, asInt64, require_ne, byteAt_zero, Res.ok_bind]
    rw [if_neg (by decide), if_neg (by decide), if_neg (by decide), if_neg (by decide),
      if_pos (by decide), e, require_len (by simp)]
    simp only [Res.ok_bind, toSigned_mod (w := 32) (by omega) h0 h1]; rfl
  | i64 h0 h1 =>
    have e := readBe64_be (n := (z % 2 ^ 64).toNat) (by omega) 0xd3 t
    simp only [List.cons_append, asInt64, require_ne, byteAt_zero, Res.ok_bind]
    rw [if_neg (by decide), if_neg (by decide), if_neg (by decide), if_neg (by decide),
      if_neg (by decide), if_pos (by decide), e, require_len (by simp)]
    simp only [Res.ok_bind, toSigned_mod (w := 64) (by omega) h0 h1]; rfl

theorem asUInt64_enc {z : Int} {b : Bytes} (H : EncInt z b) (h : 0 ≤ z) (t : Bytes) :
    ∃ y, asUInt64 (b ++ t) = .ok y ∧ (y.toNat : Int) = z := by
  have fall : ∀ {m : UInt8} {p : Bytes}, EncInt z (m :: p) → z < 2 ^ 63 →
      ¬ m.toNat ≤ 0x7f → ¬ m.toNat = 0xcc → ¬ m.toNat = 0xcd → ¬ m.toNat = 0xce →
      ¬ m.toNat = 0xcf → ∃ y, asUInt64 ((m :: p) ++ t) = .ok y ∧ (y.toNat : Int) = z := by
    intro m p H hz h1 h2 h3 h4 h5
    refine ⟨(i64 z).toUInt64, ?_, ?_⟩
    · have e := asInt64_enc H t
      rw [List.cons_append] at e
      simp only [List.cons_append, asUInt64, require_ne, byteAt_zero, Res.ok_bind]
      rw [if_neg h1, if_neg h2, if_neg h3, if_neg h4, if_neg h5, e]; rfl
    · have e := i64_toInt (z := z) (by omega) hz
      have h0 : 0 ≤ (i64 z).toInt := by omega
      have := Int64.toNat_toUInt64_of_le (x := i64 z) (Int64.le_iff_toInt_le.2 (by simpa using h0))
      rw [this]
      show (((i64 z).toInt.toNat : Nat) : Int) = z
      omega
  have conv : z < 2 ^ 64 → ((UInt64.ofNat z.toNat).toNat : Int) = z := by
    intro hz; rw [u64_toNat (by omega)]; omega
  cases H with
  | posfix h0 h1 =>
    have e : (UInt8.ofNat z.toNat).toNat = z.toNat := by simp; omega
    refine ⟨_, ?_, conv (by omega)⟩
    simp only [List.cons_append, List.nil_append, asUInt64, require_ne, byteAt_zero, Res.ok_bind, e]
    rw [if_pos (by omega)]; rfl
  | negfix h0 h1 => omega
  | u8 h0 h1 =>
    have e : byteAt (0xcc :: (be 1 z.toNat ++ t)) 1 = .ok z.toNat := readBe8_be (by omega) _ t
    refine ⟨_, ?_, conv (by omega)⟩
    simp only [List.cons_append, asUInt64, require_ne, byteAt_zero, Res.ok_bind]
    rw [if_neg (by decide), if_pos (by decide), e, require_len (by simp)]; rfl
  | u16 h0 h1 =>
    have e := readBe16_be (n := z.toNat) (by omega) 0xcd t
    refine ⟨_, ?_, conv (by omega)⟩
    simp only [List.cons_append, asUInt64, require_ne, byteAt_zero, Res.ok_bind]
    rw [if_neg (by decide), if_neg (by decide), if_pos (by decide), e, require_len (by simp)]; rfl
  | u32 h0 h1 =>
    have e := readBe32_be (n := z.toNat) (by omega) 0xce t
    refine ⟨_, ?_, conv (by omega)⟩
    simp only [List.cons_append, asUInt64, require_ne, byteAt_zero, Res.ok_bind]
    rw [if_neg (by decide), if_neg (by decide), if_neg (by decide), if_pos (by decide), e,
      require_len (by simp)]; rfl
  | u64 h0 h1 =>
    have e := readBe64_be (n := z.toNat) (by omega) 0xcf t
    refine ⟨_, ?_, conv (by omega)⟩
    simp only [List.cons_append, asUInt64, require_ne, byteAt_zero, Res.ok_bind]
    rw [if_neg (by decide), if_neg (by decide), if_neg (by decide), if_neg (by decide),
      if_pos (by decide), e, require_len (by simp)]; rfl
  | i8 h0 h1 => exact fall (.i8 h0 h1) (by omega) (by decide) (by decide) (by decide) (by decide) (by decide)
  | i16 h0 h1 => exact fall (.i16 h0 h1) (by omega) (by decide) (by decide) (by decide) (by decide) (by decide)
  | i32 h0 h1 => exact fall (.i32 h0 h1) (by omega) (by decide) (by decide) (by decide) (by decide) (by decide)
  | i64 h0 h1 => exact fall (.i64 h0 h1) (by omega) (by decide) (by decide) (by decide) (by decide) (by decide)

/-- The reader presents an encoded integer. -/
theorem showsInt_enc {z : Int} {b : Bytes} (H : EncInt z b) (t : Bytes) :
    reader.ShowsInt (b ++ t) z := by
  have s := asInt64_enc H t
  have u := fun h => asUInt64_enc H h t
  -- kinds, and which of the two integer predicates holds
  have key : ∃ i k, reader.Shows (b ++ t) false false true false false false false false ∧
      reader.isInt (b ++ t) = .ok i ∧ reader.isUInt (b ++ t) = .ok k ∧
      (i = true → -2 ^ 63 ≤ z ∧ z < 2 ^ 63) ∧ (k = true → 0 ≤ z) := by
    have lit : ∀ {m : UInt8} {p : Bytes} {i k : Bool}, tests m.toNat =
        [false, false, i, k, false, false, false, false, false] → (i || k) = true →
        (i = true → -2 ^ 63 ≤ z ∧ z < 2 ^ 63) → (k = true → 0 ≤ z) →
        ∃ i k, reader.Shows (m :: p) false false true false false false false false ∧
          reader.isInt (m :: p) = .ok i ∧ reader.isUInt (m :: p) = .ok k ∧
          (i = true → -2 ^ 63 ≤ z ∧ z < 2 ^ 63) ∧ (k = true → 0 ≤ z) := by
      intro m p i k h1 h2 h3 h4
      have := shows_of (t := p) h1
      rw [h2] at this
      exact ⟨i, k, this.1, this.2.1, this.2.2, h3, h4⟩
    cases H with
    | posfix h0 h1 =>
      have e : ∀ n, n < 128 → tests (UInt8.ofNat n).toNat =
        [false, false, true, true, false, false, false, false, false] := by decide
      exact lit (e z.toNat (by omega)) rfl (fun _ => by omega) (fun _ => h0)
    | negfix h0 h1 =>
      have e : ∀ n, n < 32 → tests (UInt8.ofNat (224 + n)).toNat =
        [false, false, true, false, false, false, false, false, false] := by decide
      have e' : (z + 2 ^ 8).toNat = 224 + (z + 32).toNat := by omega
      rw [e']
      exact lit (e (z + 32).toNat (by omega)) rfl (fun _ => by omega) (fun h => by cases h)
    | u8 h0 h1 => exact lit (m := 0xcc) (i := false) (k := true) (by decide) rfl (fun h => by cases h) (fun _ => h0)
    | u16 h0 h1 => exact lit (m := 0xcd) (i := false) (k := true) (by decide) rfl (fun h => by cases h) (fun _ => h0)
    | u32 h0 h1 => exact lit (m := 0xce) (i := false) (k := true) (by decide) rfl (fun h => by cases h) (fun _ => h0)
    | u64 h0 h1 => exact lit (m := 0xcf) (i := false) (k := true) (by decide) rfl (fun h => by cases h) (fun _ => h0)
    | i8 h0 h1 => exact lit (m := 0xd0) (i := true) (k := false) (by decide) rfl (fun _ => by omega) (fun h => by cases h)
    | i16 h0 h1 => exact lit (m := 0xd1) (i := true) (k := false) (by decide) rfl (fun _ => by omega) (fun h => by cases h)
    | i32 h0 h1 => exact lit (m := 0xd2) (i := true) (k := false) (by decide) rfl (fun _ => by omega) (fun h => by cases h)
    | i64 h0 h1 => exact lit (m := 0xd3) (i := true) (k := false) (by decide) rfl (fun _ => by omega) (fun h => by cases h)
  obtain ⟨i, k, h1, h2, h3, h4, h5⟩ := key
  refine ⟨h1, fun h => ?_, fun h => ?_⟩
  · rw [h2] at h; injection h with h
    exact ⟨_, s, i64_toInt (h4 h).1 (h4 h).2⟩
  · rw [h3] at h; injection h with h
    exact u (h5 h)

theorem asDouble_enc {d : Nat} {b : Bytes} (H : EncDbl d b) (hd : d < 2 ^ 64) (t : Bytes) :
    asDouble (b ++ t) = .ok (UInt64.ofNat d) := by
  cases H with
  | f64 =>
    have e := readBe64_be hd 0xcb t
    have h : isFloat (0xcb :: (be 8 d ++ t)) = true := rfl
    simp only [List.cons_append, asDouble, h, Res.require_true, byteAt_zero, Res.ok_bind]
    rw [if_neg (by decide), if_pos (by decide), e, require_len (by simp)]; rfl
  | @f32 f hf h =>
    have e := readBe32_be hf 0xca t
    have h' : isFloat (0xca :: (be 4 f ++ t)) = true := rfl
    simp only [List.cons_append, asDouble, h', Res.require_true, byteAt_zero, Res.ok_bind]
    rw [if_pos (by decide), e, require_len (by simp)]
    simp [h]

theorem shows_dbl {d : Nat} {b : Bytes} (H : EncDbl d b) (t : Bytes) :
    reader.Shows (b ++ t) false false false true false false false false := by
  cases H with
  | f64 => exact (shows_of (show tests (UInt8.toNat 0xcb) = [false, false, false, false, true, false, false, false, false] by decide)).1
  | f32 => exact (shows_of (show tests (UInt8.toNat 0xca) = [false, false, false, false, true, false, false, false, false] by decide)).1

theorem asStringView_head {s h : Bytes} (H : StrHead s.length h) (t : Bytes) :
    asStringView ((h ++ s) ++ t) = .ok s := by
  simp only [asStringView, List.append_assoc, strInfo_head H, Res.ok_bind]
  have : At (h ++ (s ++ t)) h.length s := ⟨h, t, rfl, rfl⟩
  exact this.sliceAt

theorem asBlob_head {s h : Bytes} (H : BinHead s.length h) (t : Bytes) :
    asBlob ((h ++ s) ++ t) = .ok s := by
  simp only [asBlob, List.append_assoc, binInfo_head H, Res.ok_bind]
  have : At (h ++ (s ++ t)) h.length s := ⟨h, t, rfl, rfl⟩
  exact this.sliceAt

/-! ## Encodings are well-formed elements -/

theorem _root_.Zer.Val.belowList_iff {L : Nat} (xs : List Val) :
    Val.Below.belowList L xs ↔ ∀ x ∈ xs, x.Below L := by
  induction xs with
  | nil => simp [Val.Below.belowList]
  | cons x xs ih => simp [Val.Below.belowList, ih]

theorem _root_.Zer.Val.belowEntries_iff {L : Nat} (ms : List (Bytes × Val)) :
    Val.Below.belowEntries L ms ↔ ∀ m ∈ ms, m.1.length < L ∧ m.2.Below L := by
  induction ms with
  | nil => simp [Val.Below.belowEntries]
  | cons m ms ih => obtain ⟨k, v⟩ := m; simp [Val.Below.belowEntries, ih, and_assoc]

theorem EncInt.elem {L : Nat} {z : Int} {b : Bytes} (H : EncInt z b) : Elem L b := by
  cases H with
  | posfix h0 h1 =>
    refine .single (.inl ?_)
    rw [UInt8.le_iff_toNat_le]; simp; omega
  | negfix h0 h1 =>
    refine .single (.inr (.inl ?_))
    rw [UInt8.le_iff_toNat_le]; simp; omega
  | u8 => exact .fixed (.inl ⟨.inl rfl, by simp⟩)
  | i8 => exact .fixed (.inl ⟨.inr rfl, by simp⟩)
  | u16 => exact .fixed (.inr (.inl ⟨.inl rfl, by simp⟩))
  | i16 => exact .fixed (.inr (.inl ⟨.inr rfl, by simp⟩))
  | u32 => exact .fixed (.inr (.inr (.inl ⟨.inl rfl, by simp⟩)))
  | i32 => exact .fixed (.inr (.inr (.inl ⟨.inr (.inl rfl), by simp⟩)))
  | u64 => exact .fixed (.inr (.inr (.inr ⟨.inl rfl, by simp⟩)))
  | i64 => exact .fixed (.inr (.inr (.inr ⟨.inr (.inl rfl), by simp⟩)))

mutual
theorem Enc.elem {L : Nat} : ∀ (v : Val) {b : Bytes}, v.Below L → Enc v b → Elem L b
  | .null, b, _, h => by
      simp only [Enc] at h; subst h; exact .single (.inr (.inr (.inl rfl)))
  | .bool x, b, _, h => by
      simp only [Enc] at h; subst h
      cases x
      · exact .single (.inr (.inr (.inr (.inl rfl))))
      · exact .single (.inr (.inr (.inr (.inr rfl))))
  | .int i, b, _, h => by simp only [Enc] at h; exact h.elem
  | .uint n, b, _, h => by simp only [Enc] at h; exact h.elem
  | .dbl d, b, _, h => by
      simp only [Enc] at h
      cases h with
      | f64 => exact .fixed (.inr (.inr (.inr ⟨.inr (.inr rfl), by simp⟩)))
      | f32 => exact .fixed (.inr (.inr (.inl ⟨.inr (.inr rfl), by simp⟩)))
  | .str s, b, hb, h => by
      simp only [Enc] at h; obtain ⟨hd, H, rfl⟩ := h; exact .str H (by simpa [Val.Below] using hb)
  | .blob s, b, hb, h => by
      simp only [Enc] at h; obtain ⟨hd, H, rfl⟩ := h; exact .bin H (by simpa [Val.Below] using hb)
  | .arr xs, b, hb, h => by
      simp only [Enc] at h
      obtain ⟨hd, cs, H, hc, rfl⟩ := h
      obtain ⟨h1, h2⟩ := EncList.elem xs (by simpa [Val.Below] using hb) hc
      exact .arr (h1 ▸ H) h2
  | .map ms, b, hb, h => by
      simp only [Enc] at h
      obtain ⟨hd, cs, H, hc, rfl⟩ := h
      obtain ⟨h1, h2⟩ := EncEntries.elem ms (by simpa [Val.Below] using hb) hc
      exact .map H h1 h2
theorem EncList.elem {L : Nat} : ∀ (xs : List Val) {cs : List Bytes}, Val.Below.belowList L xs →
    EncList xs cs → cs.length = xs.length ∧ ∀ c ∈ cs, Elem L c
  | [], cs, _, h => by simp only [EncList] at h; subst h; simp
  | x :: xs, cs, hb, h => by
      simp only [EncList] at h
      simp only [Val.Below.belowList] at hb
      obtain ⟨c, cs', hc, hcs, rfl⟩ := h
      obtain ⟨h1, h2⟩ := EncList.elem xs hb.2 hcs
      refine ⟨by simp [h1], ?_⟩
      intro c' hc'
      rcases List.mem_cons.1 hc' with rfl | hc'
      · exact Enc.elem x hb.1 hc
      · exact h2 c' hc'
theorem EncEntries.elem {L : Nat} : ∀ (ms : List (Bytes × Val)) {cs : List Bytes},
    Val.Below.belowEntries L ms →
    EncEntries ms cs → cs.length = 2 * ms.length ∧ ∀ c ∈ cs, Elem L c
  | [], cs, _, h => by simp only [EncEntries] at h; subst h; simp
  | (k, v) :: ms, cs, hb, h => by
      simp only [EncEntries] at h
      simp only [Val.Below.belowEntries] at hb
      obtain ⟨hd, c, cs', H, hc, hcs, rfl⟩ := h
      obtain ⟨h1, h2⟩ := EncEntries.elem ms hb.2.2 hcs
      refine ⟨by simp [h1]; omega, ?_⟩
      intro c' hc'
      rcases List.mem_cons.1 hc' with rfl | hc'
      · exact .str H hb.1
      · rcases List.mem_cons.1 hc' with rfl | hc'
        · exact Enc.elem v hb.2.1 hc
        · exact h2 c' hc'
end

end Zer.MsgPack
