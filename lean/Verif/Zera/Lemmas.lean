import Verif.Zera.Model

/-! # Byte-level lemmas for the ZERA model -/

namespace Zer

theorem or_shift_add {x y k : Nat} (h : x < 2 ^ k) : x ||| (y <<< k) = x + y * 2 ^ k := by
  rw [Nat.or_comm, Nat.shiftLeft_eq, Nat.mul_comm, ← Nat.two_pow_add_eq_or_of_lt h]
  omega

namespace Zera

theorem ofNat_and_toNat (n : Nat) : (UInt8.ofNat (n &&& 0xff)).toNat = n % 256 := by
  have : n &&& 0xff = n % 2 ^ 8 := Nat.and_two_pow_sub_one_eq_mod n 8
  rw [this]; simp

@[simp] theorem le16_length (v : Nat) : (le16 v).length = 2 := rfl
@[simp] theorem le32_length (v : Nat) : (le32 v).length = 4 := rfl

theorem readU16_of_bytes {b : Bytes} {p x0 x1 : Nat} (h0 : byteAt b p = .ok x0)
    (h1 : byteAt b (p + 1) = .ok x1) : readU16 b p = .ok (x0 + 256 * x1) := by
  have l0 := byteAt_lt h0
  simp only [readU16, h0, h1, Res.ok_bind, Res.pure_eq]
  rw [or_shift_add (by simpa using l0)]; congr 1; omega

theorem readU32_of_bytes {b : Bytes} {p x0 x1 x2 x3 : Nat} (h0 : byteAt b p = .ok x0)
    (h1 : byteAt b (p + 1) = .ok x1) (h2 : byteAt b (p + 2) = .ok x2)
    (h3 : byteAt b (p + 3) = .ok x3) :
    readU32 b p = .ok (x0 + 256 * x1 + 65536 * x2 + 16777216 * x3) := by
  have l0 := byteAt_lt h0
  have l1 := byteAt_lt h1
  have l2 := byteAt_lt h2
  simp only [readU32, h0, h1, h2, h3, Res.ok_bind, Res.pure_eq]
  rw [or_shift_add (k := 8) (by omega), or_shift_add (k := 16) (by omega),
    or_shift_add (k := 24) (by omega)]
  congr 1; omega

theorem readU16_at {b : Bytes} {o v : Nat} (h : At b o (le16 v)) :
    readU16 b o = .ok (v % 2 ^ 16) := by
  have h0 := h.byteAt (i := 0) (by simp)
  have h1 := h.byteAt (i := 1) (by simp)
  refine (readU16_of_bytes h0 h1).trans ?_
  simp only [le16, List.getElem_cons_zero, List.getElem_cons_succ, ofNat_and_toNat,
    Nat.shiftRight_eq_div_pow]
  congr 1; omega

theorem readU32_at {b : Bytes} {o v : Nat} (h : At b o (le32 v)) :
    readU32 b o = .ok (v % 2 ^ 32) := by
  have h0 := h.byteAt (i := 0) (by simp)
  have h1 := h.byteAt (i := 1) (by simp)
  have h2 := h.byteAt (i := 2) (by simp)
  have h3 := h.byteAt (i := 3) (by simp)
  refine (readU32_of_bytes h0 h1 h2 h3).trans ?_
  simp only [le32, List.getElem_cons_zero, List.getElem_cons_succ, ofNat_and_toNat,
    Nat.shiftRight_eq_div_pow]
  congr 1; omega

theorem readU16_ok {b : Bytes} {p : Nat} (h : p + 2 ≤ b.length) :
    ∃ x, readU16 b p = .ok x ∧ x < 2 ^ 16 := by
  have h0 := byteAt_ok (b := b) (p := p) (by omega)
  have h1 := byteAt_ok (b := b) (p := p + 1) (by omega)
  refine ⟨_, readU16_of_bytes h0 h1, ?_⟩
  have := byteAt_lt h0; have := byteAt_lt h1; omega

theorem readU32_ok {b : Bytes} {p : Nat} (h : p + 4 ≤ b.length) :
    ∃ x, readU32 b p = .ok x ∧ x < 2 ^ 32 := by
  have h0 := byteAt_ok (b := b) (p := p) (by omega)
  have h1 := byteAt_ok (b := b) (p := p + 1) (by omega)
  have h2 := byteAt_ok (b := b) (p := p + 2) (by omega)
  have h3 := byteAt_ok (b := b) (p := p + 3) (by omega)
  refine ⟨_, readU32_of_bytes h0 h1 h2 h3, ?_⟩
  have := byteAt_lt h0; have := byteAt_lt h1; have := byteAt_lt h2; have := byteAt_lt h3; omega

theorem readU64_of_halves {b : Bytes} {p lo hi : Nat} (h0 : readU32 b p = .ok lo)
    (h1 : readU32 b (p + 4) = .ok hi) (hlo : lo < 2 ^ 32) :
    readU64 b p = .ok (lo + 2 ^ 32 * hi) := by
  simp only [readU64, h0, h1, Res.ok_bind, Res.pure_eq]
  rw [or_shift_add hlo]; congr 1; omega

theorem readU64_ok {b : Bytes} {p : Nat} (h : p + 8 ≤ b.length) :
    ∃ x, readU64 b p = .ok x ∧ x < 2 ^ 64 := by
  obtain ⟨x, hx, lx⟩ := readU32_ok (b := b) (p := p) (by omega)
  obtain ⟨y, hy, ly⟩ := readU32_ok (b := b) (p := p + 4) (by omega)
  exact ⟨_, readU64_of_halves hx hy lx, by omega⟩

theorem shapeBytes_eq (n : Nat) : shapeBytes n = le32 1 ++ (le32 n ++ le32 (n / 2 ^ 32)) := by
  have e : List.range 8 = [0, 1, 2, 3, 4, 5, 6, 7] := by decide
  simp only [shapeBytes, e, le32, List.map_cons, List.map_nil, List.cons_append, List.nil_append]
  simp [Nat.shiftRight_eq_div_pow, Nat.div_div_eq_div_mul]

@[simp] theorem shapeBytes_length (n : Nat) : (shapeBytes n).length = 12 := by
  simp [shapeBytes_eq]

@[simp] theorem makeVr_length (t f x a b c : Nat) : (makeVr t f x a b c).length = 16 := rfl

theorem lo32_eq (n : Nat) : lo32 n = n % 2 ^ 32 := Nat.and_two_pow_sub_one_eq_mod n 32
theorem hi32_eq (n : Nat) : hi32 n = n / 2 ^ 32 % 2 ^ 32 := by
  rw [hi32, Nat.shiftRight_eq_div_pow]; exact Nat.and_two_pow_sub_one_eq_mod _ 32

theorem alignUp_ge (x a : Nat) : x ≤ alignUp x a := by
  unfold alignUp; split
  · omega
  · dsimp only; split <;> omega

theorem alignUp_dvd (x : Nat) {a : Nat} (ha : 0 < a) : alignUp x a % a = 0 := by
  unfold alignUp
  rw [if_neg (by omega)]
  dsimp only
  split
  · rename_i h
    have hlt := Nat.mod_lt x ha
    have h1 := Nat.div_add_mod x a
    have : x + (a - x % a) = a * (x / a + 1) := by rw [Nat.mul_add]; omega
    rw [this]; simp
  · rename_i h; simpa using h

theorem alignUp_lt (x : Nat) {a : Nat} (ha : 0 < a) : alignUp x a < x + a := by
  unfold alignUp
  rw [if_neg (by omega)]
  dsimp only
  split <;> omega

theorem alignUp_one (x : Nat) : alignUp x 1 = x := by
  unfold alignUp; simp [Nat.mod_one]

end Zera
end Zer
