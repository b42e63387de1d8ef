import Verif.MsgPack.Model
import Verif.MsgPack.Format

/-!
# MessagePack: headers and skipping
-/

namespace Zer.MsgPack

/-! ## Reading big-endian numbers -/

@[simp] theorem byteAt_zero (x : UInt8) (t : Bytes) : byteAt (x :: t) 0 = .ok x.toNat := rfl
@[simp] theorem byteAt_succ (x : UInt8) (t : Bytes) (i : Nat) :
    byteAt (x :: t) (i + 1) = byteAt t i := rfl

@[simp] theorem be_length (k n : Nat) : (be k n).length = k := by
  induction k generalizing n with
  | zero => rfl
  | succ k ih => simp [be, ih]

theorem toNat_ofNat_mod (n : Nat) : (UInt8.ofNat (n % 256)).toNat = n % 256 := by
  simp

theorem readBe8_be {n : Nat} (h : n < 2 ^ 8) (m : UInt8) (t : Bytes) :
    byteAt (m :: (be 1 n ++ t)) 1 = .ok n := by
  simp only [be, List.nil_append, List.cons_append, byteAt_succ, byteAt_zero, toNat_ofNat_mod]
  congr 1; omega

theorem readBe16_be {n : Nat} (h : n < 2 ^ 16) (m : UInt8) (t : Bytes) :
    readBe16 (m :: (be 2 n ++ t)) 1 = .ok n := by
  simp only [readBe16, be, List.nil_append, List.cons_append, byteAt_succ, byteAt_zero,
    toNat_ofNat_mod, Res.ok_bind, Res.pure_eq]
  congr 1; omega

theorem readBe32_be {n : Nat} (h : n < 2 ^ 32) (m : UInt8) (t : Bytes) :
    readBe32 (m :: (be 4 n ++ t)) 1 = .ok n := by
  simp only [readBe32, be, List.nil_append, List.cons_append, byteAt_succ, byteAt_zero,
    toNat_ofNat_mod, Res.ok_bind, Res.pure_eq]
  congr 1; omega

theorem readBe64_be {n : Nat} (h : n < 2 ^ 64) (m : UInt8) (t : Bytes) :
    readBe64 (m :: (be 8 n ++ t)) 1 = .ok n := by
  simp only [readBe64, be, List.nil_append, List.cons_append, byteAt_succ, byteAt_zero,
    toNat_ofNat_mod, Res.ok_bind, Res.pure_eq]
  congr 1; omega

/-! ## The header functions on a header -/

theorem fix_a0 : ∀ n, n < 32 → ((UInt8.ofNat (0xa0 + n)).toNat &&& 0xe0 = 0xa0 ∧
    (UInt8.ofNat (0xa0 + n)).toNat &&& 0x1f = n) := by decide

theorem fix_90 : ∀ n, n < 16 → ((UInt8.ofNat (0x90 + n)).toNat &&& 0xf0 = 0x90 ∧
    (UInt8.ofNat (0x90 + n)).toNat &&& 0x0f = n) := by decide

theorem fix_80 : ∀ n, n < 16 → ((UInt8.ofNat (0x80 + n)).toNat &&& 0xf0 = 0x80 ∧
    (UInt8.ofNat (0x80 + n)).toNat &&& 0x0f = n) := by decide

theorem strInfo_head {n : Nat} {h : Bytes} (H : StrHead n h) (t : Bytes) :
    strInfo (h ++ t) = .ok (h.length, n) := by
  cases H with
  | fix hn =>
    obtain ⟨h1, h2⟩ := fix_a0 n hn
    simp only [strInfo, List.cons_append, List.nil_append, byteAt_zero, Res.ok_bind, h1, h2, if_true]
    rfl
  | s8 hn =>
    have e : byteAt (0xd9 :: (be 1 n ++ t)) 1 = .ok n := readBe8_be hn _ t
    simp only [strInfo, List.cons_append, byteAt_zero, Res.ok_bind]
    rw [if_neg (by decide), if_pos (by decide), e]; rfl
  | s16 hn =>
    have e := readBe16_be hn 0xda t
    simp only [strInfo, List.cons_append, byteAt_zero, Res.ok_bind]
    rw [if_neg (by decide), if_neg (by decide), if_pos (by decide), e]; rfl
  | s32 hn =>
    have e := readBe32_be hn 0xdb t
    simp only [strInfo, List.cons_append, byteAt_zero, Res.ok_bind]
    rw [if_neg (by decide), if_neg (by decide), if_neg (by decide), if_pos (by decide), e]; rfl

theorem binInfo_head {n : Nat} {h : Bytes} (H : BinHead n h) (t : Bytes) :
    binInfo (h ++ t) = .ok (h.length, n) := by
  cases H with
  | b8 hn =>
    have e : byteAt (0xc4 :: (be 1 n ++ t)) 1 = .ok n := readBe8_be hn _ t
    simp only [binInfo, List.cons_append, byteAt_zero, Res.ok_bind]
    rw [if_pos (by decide), e]; rfl
  | b16 hn =>
    have e := readBe16_be hn 0xc5 t
    simp only [binInfo, List.cons_append, byteAt_zero, Res.ok_bind]
    rw [if_neg (by decide), if_pos (by decide), e]; rfl
  | b32 hn =>
    have e := readBe32_be hn 0xc6 t
    simp only [binInfo, List.cons_append, byteAt_zero, Res.ok_bind]
    rw [if_neg (by decide), if_neg (by decide), if_pos (by decide), e]; rfl

theorem arrInfo_head {n : Nat} {h : Bytes} (H : ArrHead n h) (t : Bytes) :
    arrInfo (h ++ t) = .ok (n, h.length) := by
  cases H with
  | fix hn =>
    obtain ⟨h1, h2⟩ := fix_90 n hn
    simp only [arrInfo, List.cons_append, List.nil_append, byteAt_zero, Res.ok_bind, h1, h2, if_true]
    rfl
  | a16 hn =>
    have e := readBe16_be hn 0xdc t
    simp only [arrInfo, List.cons_append, byteAt_zero, Res.ok_bind]
    rw [if_neg (by decide), if_pos (by decide), e]; rfl
  | a32 hn =>
    have e := readBe32_be hn 0xdd t
    simp only [arrInfo, List.cons_append, byteAt_zero, Res.ok_bind]
    rw [if_neg (by decide), if_neg (by decide), if_pos (by decide), e]; rfl

theorem mapInfo_head {n : Nat} {h : Bytes} (H : MapHead n h) (t : Bytes) :
    mapInfo (h ++ t) = .ok (n, h.length) := by
  cases H with
  | fix hn =>
    obtain ⟨h1, h2⟩ := fix_80 n hn
    simp only [mapInfo, List.cons_append, List.nil_append, byteAt_zero, Res.ok_bind, h1, h2, if_true]
    rfl
  | m16 hn =>
    have e := readBe16_be hn 0xde t
    simp only [mapInfo, List.cons_append, byteAt_zero, Res.ok_bind]
    rw [if_neg (by decide), if_pos (by decide), e]; rfl
  | m32 hn =>
    have e := readBe32_be hn 0xdf t
    simp only [mapInfo, List.cons_append, byteAt_zero, Res.ok_bind]
    rw [if_neg (by decide), if_neg (by decide), if_pos (by decide), e]; rfl

theorem StrHead.pos {n : Nat} {h : Bytes} (H : StrHead n h) : 0 < h.length := by
  cases H <;> simp
theorem BinHead.pos {n : Nat} {h : Bytes} (H : BinHead n h) : 0 < h.length := by
  cases H <;> simp
theorem ArrHead.pos {n : Nat} {h : Bytes} (H : ArrHead n h) : 0 < h.length := by
  cases H <;> simp
theorem MapHead.pos {n : Nat} {h : Bytes} (H : MapHead n h) : 0 < h.length := by
  cases H <;> simp

/-! ## `mp_skip` by marker -/

theorem mpSkip_str {n : Nat} {h : Bytes} (H : StrHead n h) (hn : n < 2 ^ 32 - 5) (f : Nat) (t : Bytes) :
    mpSkip (f + 1) (h ++ t) = .ok (h.length + n) := by
  cases H with
  | fix hn =>
    have h3 : ∀ n, n < 32 → ¬ ((UInt8.ofNat (0xa0 + n)).toNat ≤ 0x7f ∨
        (UInt8.ofNat (0xa0 + n)).toNat ≥ 0xe0 ∨ (UInt8.ofNat (0xa0 + n)).toNat = 0xc0 ∨
        (UInt8.ofNat (0xa0 + n)).toNat = 0xc2 ∨ (UInt8.ofNat (0xa0 + n)).toNat = 0xc3) := by decide
    obtain ⟨h1, h2⟩ := fix_a0 n hn
    simp only [mpSkip, List.cons_append, List.nil_append]
    rw [if_neg (h3 n hn), if_pos h1, h2]; rfl
  | s8 hn =>
    have e : byteAt (0xd9 :: (be 1 n ++ t)) 1 = .ok n := readBe8_be hn _ t
    simp only [mpSkip, List.cons_append]
    rw [if_neg (by decide), if_neg (by decide), if_neg (by decide), if_neg (by decide),
      if_neg (by decide), if_neg (by decide), if_neg (by decide), if_neg (by decide),
      if_pos (by decide), e]
    simp [Res.require]
  | s16 hn =>
    have e := readBe16_be hn 0xda t
    simp only [mpSkip, List.cons_append]
    rw [if_neg (by decide), if_neg (by decide), if_neg (by decide), if_neg (by decide),
      if_neg (by decide), if_neg (by decide), if_neg (by decide), if_neg (by decide),
      if_neg (by decide), if_pos (by decide), e]
    simp [Res.require]
  | s32 hn' =>
    have e := readBe32_be hn' 0xdb t
    simp only [mpSkip, List.cons_append]
    rw [if_neg (by decide), if_neg (by decide), if_neg (by decide), if_neg (by decide),
      if_neg (by decide), if_neg (by decide), if_neg (by decide), if_neg (by decide),
      if_neg (by decide), if_neg (by decide), if_pos (by decide), e]
    simp [Res.require]; omega

theorem mpSkip_bin {n : Nat} {h : Bytes} (H : BinHead n h) (hn : n < 2 ^ 32 - 5) (f : Nat) (t : Bytes) :
    mpSkip (f + 1) (h ++ t) = .ok (h.length + n) := by
  cases H with
  | b8 hn =>
    have e : byteAt (0xc4 :: (be 1 n ++ t)) 1 = .ok n := readBe8_be hn _ t
    simp only [mpSkip, List.cons_append]
    rw [if_neg (by decide), if_neg (by decide), if_neg (by decide), if_neg (by decide),
      if_neg (by decide), if_neg (by decide), if_neg (by decide), if_neg (by decide),
      if_pos (by decide), e]
    simp [Res.require]
  | b16 hn =>
    have e := readBe16_be hn 0xc5 t
    simp only [mpSkip, List.cons_append]
    rw [if_neg (by decide), if_neg (by decide), if_neg (by decide), if_neg (by decide),
      if_neg (by decide), if_neg (by decide), if_neg (by decide), if_neg (by decide),
      if_neg (by decide), if_pos (by decide), e]
    simp [Res.require]
  | b32 hn' =>
    have e := readBe32_be hn' 0xc6 t
    simp only [mpSkip, List.cons_append]
    rw [if_neg (by decide), if_neg (by decide), if_neg (by decide), if_neg (by decide),
      if_neg (by decide), if_neg (by decide), if_neg (by decide), if_neg (by decide),
      if_neg (by decide), if_neg (by decide), if_pos (by decide), e]
    simp [Res.require]; omega

theorem mpSkip_arr {n : Nat} {h : Bytes} (H : ArrHead n h) (f : Nat) (t : Bytes) :
    mpSkip (f + 1) (h ++ t) = skipLoop (mpSkip f) (h ++ t) n h.length := by
  cases H with
  | fix hn =>
    have h3 : ∀ n, n < 16 → ¬ ((UInt8.ofNat (0x90 + n)).toNat ≤ 0x7f ∨
        (UInt8.ofNat (0x90 + n)).toNat ≥ 0xe0 ∨ (UInt8.ofNat (0x90 + n)).toNat = 0xc0 ∨
        (UInt8.ofNat (0x90 + n)).toNat = 0xc2 ∨ (UInt8.ofNat (0x90 + n)).toNat = 0xc3) ∧
        ¬ ((UInt8.ofNat (0x90 + n)).toNat &&& 0xe0 = 0xa0) := by decide
    obtain ⟨h1, h2⟩ := fix_90 n hn
    simp only [mpSkip, List.cons_append, List.nil_append]
    rw [if_neg (h3 n hn).1, if_neg (h3 n hn).2, if_pos h1, h2]; rfl
  | a16 hn =>
    have e := readBe16_be hn 0xdc t
    simp only [mpSkip, List.cons_append]
    rw [if_neg (by decide), if_neg (by decide), if_neg (by decide), if_neg (by decide),
      if_neg (by decide), if_neg (by decide), if_neg (by decide), if_neg (by decide),
      if_neg (by decide), if_neg (by decide), if_neg (by decide), if_pos (by decide), e]
    simp [Res.require]
  | a32 hn =>
    have e := readBe32_be hn 0xdd t
    simp only [mpSkip, List.cons_append]
    rw [if_neg (by decide), if_neg (by decide), if_neg (by decide), if_neg (by decide),
      if_neg (by decide), if_neg (by decide), if_neg (by decide), if_neg (by decide),
      if_neg (by decide), if_neg (by decide), if_neg (by decide), if_neg (by decide),
      if_pos (by decide), e]
    simp [Res.require]

theorem mpSkip_map {n : Nat} {h : Bytes} (H : MapHead n h) (f : Nat) (t : Bytes) :
    mpSkip (f + 1) (h ++ t) = skipLoop (mpSkip f) (h ++ t) (2 * n) h.length := by
  cases H with
  | fix hn =>
    have h3 : ∀ n, n < 16 → ¬ ((UInt8.ofNat (0x80 + n)).toNat ≤ 0x7f ∨
        (UInt8.ofNat (0x80 + n)).toNat ≥ 0xe0 ∨ (UInt8.ofNat (0x80 + n)).toNat = 0xc0 ∨
        (UInt8.ofNat (0x80 + n)).toNat = 0xc2 ∨ (UInt8.ofNat (0x80 + n)).toNat = 0xc3) ∧
        ¬ ((UInt8.ofNat (0x80 + n)).toNat &&& 0xe0 = 0xa0) ∧
        ¬ ((UInt8.ofNat (0x80 + n)).toNat &&& 0xf0 = 0x90) := by decide
    obtain ⟨h1, h2⟩ := fix_80 n hn
    simp only [mpSkip, List.cons_append, List.nil_append]
    rw [if_neg (h3 n hn).1, if_neg (h3 n hn).2.1, if_neg (h3 n hn).2.2, if_pos h1, h2]; rfl
  | m16 hn =>
    have e := readBe16_be hn 0xde t
    simp only [mpSkip, List.cons_append]
    rw [if_neg (by decide), if_neg (by decide), if_neg (by decide), if_neg (by decide),
      if_neg (by decide), if_neg (by decide), if_neg (by decide), if_neg (by decide),
      if_neg (by decide), if_neg (by decide), if_neg (by decide), if_neg (by decide),
      if_neg (by decide), if_pos (by decide), e]
    simp [Res.require]
  | m32 hn =>
    have e := readBe32_be hn 0xdf t
    simp only [mpSkip, List.cons_append]
    rw [if_neg (by decide), if_neg (by decide), if_neg (by decide), if_neg (by decide),
      if_neg (by decide), if_neg (by decide), if_neg (by decide), if_neg (by decide),
      if_neg (by decide), if_neg (by decide), if_neg (by decide), if_neg (by decide),
      if_neg (by decide), if_neg (by decide), if_pos (by decide), e]
    simp [Res.require]

/-! ## Skipping a sequence of elements -/

theorem subspan_append (pre t : Bytes) : subspan (pre ++ t) pre.length = .ok t := by
  simp [subspan]

theorem first_append (b t : Bytes) : first (b ++ t) b.length = .ok b := by
  simp [first]

/-- Skipping chunk after chunk. -/
theorem skipLoop_chunks {rec : Bytes → Res Nat} : ∀ (cs : List Bytes) (pre rest : Bytes),
    (∀ c ∈ cs, ∀ t, rec (c ++ t) = .ok c.length) →
    skipLoop rec (pre ++ (cs.flatten ++ rest)) cs.length pre.length =
      .ok (pre.length + cs.flatten.length)
  | [], pre, rest, _ => by simp [skipLoop]
  | c :: cs, pre, rest, h => by
    have e : pre ++ ((c :: cs).flatten ++ rest) = (pre ++ c) ++ (cs.flatten ++ rest) := by simp
    simp only [skipLoop, List.length_cons]
    rw [subspan_append]
    simp only [Res.ok_bind, List.flatten_cons, List.append_assoc]
    rw [h c (by simp)]
    simp only [Res.ok_bind]
    have := skipLoop_chunks cs (pre ++ c) rest (fun c' hc' => h c' (by simp [hc']))
    simp only [List.length_append, List.append_assoc] at this
    rw [this]
    simp; omega

theorem Elem.pos {L : Nat} {b : Bytes} (h : Elem L b) : 0 < b.length := by
  cases h with
  | single => simp
  | fixed => simp
  | str H => have := H.pos; simp; omega
  | bin H => have := H.pos; simp; omega
  | arr H => have := H.pos; simp; omega
  | map H => have := H.pos; simp; omega

theorem length_le_flatten {c : Bytes} {cs : List Bytes} (h : c ∈ cs) :
    c.length ≤ cs.flatten.length := by
  induction cs with
  | nil => simp at h
  | cons x xs ih =>
    rcases List.mem_cons.1 h with rfl | h
    · simp
    · have := ih h; simp at this ⊢; omega

/-- `mp_skip` on a well-formed element, whatever follows it, gives its length. -/
theorem Elem.mpSkip {b : Bytes} (h : Elem (2 ^ 32 - 5) b) : ∀ f, b.length ≤ f → ∀ t,
    mpSkip f (b ++ t) = .ok b.length := by
  induction h with
  | @single m hm =>
    intro f hf t
    obtain ⟨f, rfl⟩ : ∃ g, f = g + 1 := ⟨f - 1, by simp at hf; omega⟩
    simp only [MsgPack.mpSkip, List.cons_append, List.nil_append]
    rw [if_pos]
    · rfl
    · simp only [UInt8.le_iff_toNat_le, ← UInt8.toNat_inj] at hm
      exact hm
  | @fixed m p hm =>
    intro f hf t
    obtain ⟨f, rfl⟩ : ∃ g, f = g + 1 := ⟨f - 1, by simp at hf; omega⟩
    simp only [MsgPack.mpSkip, List.cons_append, List.length_cons]
    rcases hm with ⟨rfl | rfl, hp⟩ | ⟨rfl | rfl, hp⟩ | ⟨rfl | rfl | rfl, hp⟩ | ⟨rfl | rfl | rfl, hp⟩ <;>
      simp [hp]
  | @str h s H hs =>
    intro f hf t
    obtain ⟨f, rfl⟩ : ∃ g, f = g + 1 := ⟨f - 1, by have := H.pos; simp at hf; omega⟩
    rw [List.append_assoc, mpSkip_str H hs]; simp
  | @bin h s H hs =>
    intro f hf t
    obtain ⟨f, rfl⟩ : ∃ g, f = g + 1 := ⟨f - 1, by have := H.pos; simp at hf; omega⟩
    rw [List.append_assoc, mpSkip_bin H hs]; simp
  | @arr h cs H _ ih =>
    intro f hf t
    have hp := H.pos
    simp only [List.length_append] at hf
    obtain ⟨f, rfl⟩ : ∃ g, f = g + 1 := ⟨f - 1, by omega⟩
    rw [List.append_assoc, mpSkip_arr H, skipLoop_chunks cs h t]
    · simp
    · intro c hc t
      exact ih c hc f (by have := length_le_flatten hc; omega) t
  | @map h cs n H hn _ ih =>
    intro f hf t
    have hp := H.pos
    simp only [List.length_append] at hf
    obtain ⟨f, rfl⟩ : ∃ g, f = g + 1 := ⟨f - 1, by omega⟩
    rw [List.append_assoc, mpSkip_map H, ← hn, skipLoop_chunks cs h t]
    · simp
    · intro c hc t
      exact ih c hc f (by have := length_le_flatten hc; omega) t

theorem Elem.skip {b : Bytes} (h : Elem (2 ^ 32 - 5) b) (t : Bytes) :
    skip (b ++ t) = .ok b.length := h.mpSkip _ (by simp; omega) t

theorem Elem.skip_self {b : Bytes} (h : Elem (2 ^ 32 - 5) b) : MsgPack.skip b = .ok b.length := by
  simpa using h.skip []

end Zer.MsgPack
