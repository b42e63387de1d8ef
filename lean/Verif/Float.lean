import Verif.Base

/-!
# Floating-point widening

`ieee E M x` is the specification: the value of the IEEE 754 pattern `x` with `E` exponent bits and
`M` fraction bits. Finite values are given in multiples of 2^-1074 (the smallest positive double),
of which every half, single and double is a natural multiple.

`mkDouble`, `widen32`, `decodeF16` and `shrink32` model the conversions of the library on bit
patterns.
-/

namespace Zer

/-- Value of a floating-point pattern. -/
inductive FVal where
  | nan
  | inf (neg : Bool)
  | fin (neg : Bool) (units : Nat)
  deriving DecidableEq, Repr

/-- IEEE 754 binary interchange formats, section 3.4. The scale is chosen such that one unit is
2^-1074: the smallest positive number of the format is `2^(1 - bias - M)`. -/
def ieee (E M x : Nat) : FVal :=
  let neg := decide (x / 2 ^ (E + M) % 2 = 1)
  let e := x / 2 ^ M % 2 ^ E
  let m := x % 2 ^ M
  if e = 2 ^ E - 1 then
    if m = 0 then .inf neg else .nan
  else
    let scale := 1074 + 1 - (2 ^ (E - 1) - 1) - M
    .fin neg ((if e = 0 then m else (2 ^ M + m) * 2 ^ (e - 1)) * 2 ^ scale)

/-- Value of a double given by its 64 bits. -/
def dblVal (x : Nat) : FVal := ieee 11 52 x
/-- Value of a single given by its 32 bits. -/
def sglVal (x : Nat) : FVal := ieee 8 23 x
/-- Value of a half given by its 16 bits. -/
def hlfVal (x : Nat) : FVal := ieee 5 10 x

/-! ## Model -/

/-- Bits of the double `± mant * 2^(p - 1074)`, for `0 < mant < 2^53` and a result in the normal
range. -/
def mkDouble (neg : Bool) (mant p : Nat) : Nat :=
  let k := Nat.log2 mant
  (if neg then 2 ^ 63 else 0) + (p + k - 51) * 2 ^ 52 + (mant * 2 ^ (52 - k) - 2 ^ 52)

/-- `static_cast<double>(float)` (msgpack.hpp:352, cbor.hpp:264), on bit patterns. The conversion is
exact; NaN payloads are shifted and made quiet, as IEEE 754 hardware does. -/
def widen32 (x : Nat) : Nat :=
  let neg := decide (x / 2 ^ 31 % 2 = 1)
  let s := if neg then 2 ^ 63 else 0
  let e := x / 2 ^ 23 % 2 ^ 8
  let m := x % 2 ^ 23
  if e = 255 then
    if m = 0 then s + 2047 * 2 ^ 52
    else s + 2047 * 2 ^ 52 + 2 ^ 51 + (m * 2 ^ 29) % 2 ^ 51
  else if e = 0 then
    if m = 0 then s else mkDouble neg m 925
  else mkDouble neg (2 ^ 23 + m) (e + 924)

/-- `decode_f16`, cbor.hpp:190-205. All floating-point operations in it are exact, so they are
modelled by their exact result: `ldexp(frac, -24)` and `ldexp(1 + frac/1024, exp - 15)`. -/
def decodeF16 (h : Nat) : Nat :=
  let neg := decide (h / 2 ^ 15 % 2 = 1)
  let exp := h / 2 ^ 10 % 2 ^ 5
  let frac := h % 2 ^ 10
  if exp = 0 then
    if frac = 0 then (if neg then 2 ^ 63 else 0)
    else mkDouble neg frac 1050
  else if exp = 31 then
    if frac ≠ 0 then 0x7ff8000000000000
    else (if neg then 2 ^ 63 else 0) + 2047 * 2 ^ 52
  else mkDouble neg (1024 + frac) (exp + 1049)

/-- The single `f` with `double(f) == d`, if there is one: the test `(double)(float)val == val` by
which jsoncons' CBOR encoder (`double_value`) decides to write four bytes. NaN compares unequal. -/
def shrink32 (d : Nat) : Option Nat :=
  let neg := decide (d / 2 ^ 63 % 2 = 1)
  let s := if neg then 2 ^ 31 else 0
  let e := d / 2 ^ 52 % 2 ^ 11
  let m := d % 2 ^ 52
  if e = 2047 then
    if m = 0 then some (s + 255 * 2 ^ 23) else none
  else if e = 0 then
    if m = 0 then some s else none
  else if 897 ≤ e ∧ e ≤ 1150 then
    if m % 2 ^ 29 = 0 then some (s + (e - 896) * 2 ^ 23 + m / 2 ^ 29) else none
  else if 874 ≤ e ∧ e ≤ 896 then
    let sh := 2 ^ (29 + (897 - e))
    if (2 ^ 52 + m) % sh = 0 then some (s + (2 ^ 52 + m) / sh) else none
  else none

/-! ## Correctness -/

theorem log2_bounds {n : Nat} (h : 0 < n) : 2 ^ Nat.log2 n ≤ n ∧ n < 2 ^ (Nat.log2 n + 1) :=
  ⟨Nat.log2_self_le (by omega), Nat.lt_log2_self⟩

/-- The fields of an assembled pattern. -/
theorem fields (neg : Bool) (e m : Nat) (he : e < 2 ^ 11) (hm : m < 2 ^ 52) {x : Nat}
    (hx : x = (if neg then 2 ^ 63 else 0) + e * 2 ^ 52 + m) :
    decide (x / 2 ^ (11 + 52) % 2 = 1) = neg ∧ x / 2 ^ 52 % 2 ^ 11 = e ∧ x % 2 ^ 52 = m := by
  subst hx
  cases neg
  · refine ⟨?_, ?_, ?_⟩
    · simp only [Bool.false_eq_true, if_false]
      rw [decide_eq_false_iff_not]; omega
    · simp only [Bool.false_eq_true, if_false]; omega
    · simp only [Bool.false_eq_true, if_false]; omega
  · refine ⟨?_, ?_, ?_⟩
    · simp only [if_true]
      rw [decide_eq_true_iff]; omega
    · simp only [if_true]; omega
    · simp only [if_true]; omega

/-- `mkDouble` has the value it is named after. -/
theorem dblVal_mkDouble (neg : Bool) (mant p : Nat) (h0 : 0 < mant) (h1 : mant < 2 ^ 53)
    (hlo : 52 ≤ p + Nat.log2 mant) (hhi : p + Nat.log2 mant ≤ 2097) :
    dblVal (mkDouble neg mant p) = .fin neg (mant * 2 ^ p) := by
  obtain ⟨hl, hu⟩ := log2_bounds h0
  generalize hk : Nat.log2 mant = k at *
  have hk52 : k ≤ 52 := by
    rcases Nat.lt_or_ge k 53 with h | h
    · omega
    · have := Nat.pow_le_pow_right (n := 2) (by omega) h
      omega
  have e1 : 2 ^ 52 = 2 ^ k * 2 ^ (52 - k) := by rw [← Nat.pow_add]; congr 1; omega
  have hm1 : 2 ^ 52 ≤ mant * 2 ^ (52 - k) := by
    rw [e1]; exact Nat.mul_le_mul_right _ hl
  have hm2 : mant * 2 ^ (52 - k) < 2 ^ 53 := by
    have : 2 ^ 53 = 2 ^ (k + 1) * 2 ^ (52 - k) := by rw [← Nat.pow_add]; congr 1; omega
    rw [this]; exact Nat.mul_lt_mul_of_pos_right hu (Nat.pow_pos (by omega))
  unfold mkDouble
  simp only [hk]
  generalize hx : (if neg = true then 2 ^ 63 else 0) + (p + k - 51) * 2 ^ 52 +
    (mant * 2 ^ (52 - k) - 2 ^ 52) = x
  obtain ⟨f1, f2, f3⟩ := fields neg (p + k - 51) (mant * 2 ^ (52 - k) - 2 ^ 52) (by omega) (by omega)
    hx.symm
  unfold dblVal ieee
  rw [f1, f2, f3]
  dsimp only
  rw [if_neg (show ¬ p + k - 51 = 2 ^ 11 - 1 by omega), if_neg (show ¬ p + k - 51 = 0 by omega)]
  refine congrArg (FVal.fin neg) ?_
  have h2 : 2 ^ 52 + (mant * 2 ^ (52 - k) - 2 ^ 52) = mant * 2 ^ (52 - k) := by omega
  rw [h2]
  have h3 : 1074 + 1 - (2 ^ (11 - 1) - 1) - 52 = 0 := rfl
  rw [h3, Nat.pow_zero, Nat.mul_one, Nat.mul_assoc, ← Nat.pow_add]
  rw [show 52 - k + (p + k - 51 - 1) = p by omega]

theorem log2_lt_of {n k : Nat} (h : n < 2 ^ k) (h0 : 0 < n) : Nat.log2 n < k :=
  (Nat.log2_lt (by omega)).2 h

theorem log2_eq_of {n k : Nat} (h1 : 2 ^ k ≤ n) (h2 : n < 2 ^ (k + 1)) : Nat.log2 n = k := by
  have h0 : 0 < n := Nat.lt_of_lt_of_le (Nat.pow_pos (by omega)) h1
  have a := log2_lt_of h2 h0
  have b := (Nat.le_log2 (k := k) (n := n) (by omega)).2 h1
  omega

theorem dblVal_zero (neg : Bool) : dblVal (if neg then 2 ^ 63 else 0) = .fin neg 0 := by
  cases neg <;> rfl

theorem dblVal_inf (neg : Bool) : dblVal ((if neg then 2 ^ 63 else 0) + 2047 * 2 ^ 52) = .inf neg := by
  cases neg <;> rfl

theorem dblVal_nan (neg : Bool) (m : Nat) (h0 : 0 < m) (h : m < 2 ^ 52) :
    dblVal ((if neg then 2 ^ 63 else 0) + 2047 * 2 ^ 52 + m) = .nan := by
  generalize hx : (if neg = true then 2 ^ 63 else 0) + 2047 * 2 ^ 52 + m = x
  obtain ⟨f1, f2, f3⟩ := fields neg 2047 m (by omega) h hx.symm
  unfold dblVal ieee
  rw [f1, f2, f3]
  dsimp only
  rw [if_pos (show 2047 = 2 ^ 11 - 1 by omega), if_neg (show ¬ m = 0 by omega)]

/-- Widening a single keeps its value. -/
theorem dblVal_widen32 (x : Nat) : dblVal (widen32 x) = sglVal x := by
  unfold widen32 sglVal ieee
  simp only [show (2 : Nat) ^ (8 + 23) = 2 ^ 31 from rfl]
  generalize hn : decide (x / 2 ^ 31 % 2 = 1) = neg
  generalize he : x / 2 ^ 23 % 2 ^ 8 = e
  generalize hm : x % 2 ^ 23 = m
  have hm' : m < 2 ^ 23 := by omega
  have he' : e < 2 ^ 8 := by omega
  by_cases h1 : e = 255
  · rw [if_pos h1, if_pos (show e = 2 ^ 8 - 1 by omega)]
    by_cases h2 : m = 0
    · rw [if_pos h2, if_pos h2, dblVal_inf]
    · rw [if_neg h2, if_neg h2, Nat.add_assoc _ (2 ^ 51), dblVal_nan _ _ (by omega) (by omega)]
  · rw [if_neg h1, if_neg (show ¬ e = 2 ^ 8 - 1 by omega)]
    have hs : 1074 + 1 - (2 ^ (8 - 1) - 1) - 23 = 925 := rfl
    rw [hs]
    by_cases h2 : e = 0
    · rw [if_pos h2, if_pos h2]
      by_cases h3 : m = 0
      · rw [if_pos h3, dblVal_zero, h3, Nat.zero_mul]
      · rw [if_neg h3]
        have := log2_lt_of hm' (by omega)
        exact dblVal_mkDouble neg m 925 (by omega) (by omega) (by omega) (by omega)
    · rw [if_neg h2, if_neg h2]
      have hl : Nat.log2 (2 ^ 23 + m) = 23 := log2_eq_of (by omega) (by omega)
      rw [dblVal_mkDouble neg _ _ (by omega) (by omega) (by omega) (by omega), Nat.mul_assoc,
        ← Nat.pow_add]
      congr 3
      omega

/-- Decoding a half keeps its value. -/
theorem dblVal_decodeF16 (x : Nat) : dblVal (decodeF16 x) = hlfVal x := by
  unfold decodeF16 hlfVal ieee
  simp only [show (2 : Nat) ^ (5 + 10) = 2 ^ 15 from rfl]
  generalize hn : decide (x / 2 ^ 15 % 2 = 1) = neg
  generalize he : x / 2 ^ 10 % 2 ^ 5 = e
  generalize hm : x % 2 ^ 10 = m
  have hm' : m < 2 ^ 10 := by omega
  have he' : e < 2 ^ 5 := by omega
  have hs : 1074 + 1 - (2 ^ (5 - 1) - 1) - 10 = 1050 := rfl
  rw [hs]
  by_cases h2 : e = 0
  · rw [if_pos h2, if_pos h2, if_neg (show ¬ e = 2 ^ 5 - 1 by omega)]
    by_cases h3 : m = 0
    · rw [if_pos h3, dblVal_zero, h3, Nat.zero_mul]
    · rw [if_neg h3]
      have := log2_lt_of hm' (by omega)
      exact dblVal_mkDouble neg m 1050 (by omega) (by omega) (by omega) (by omega)
  · rw [if_neg h2, if_neg h2]
    by_cases h1 : e = 31
    · rw [if_pos h1, if_pos (show e = 2 ^ 5 - 1 by omega)]
      by_cases h3 : m = 0
      · rw [if_neg (show ¬ m ≠ 0 by omega), if_pos h3, dblVal_inf]
      · rw [if_pos h3, if_neg h3]; rfl
    · rw [if_neg h1, if_neg (show ¬ e = 2 ^ 5 - 1 by omega)]
      have hl : Nat.log2 (1024 + m) = 10 := log2_eq_of (by omega) (by omega)
      rw [dblVal_mkDouble neg _ _ (by omega) (by omega) (by omega) (by omega),
        show (2 : Nat) ^ 10 = 1024 from rfl, Nat.mul_assoc, ← Nat.pow_add]
      congr 3
      omega

theorem mkDouble_lt (neg : Bool) (mant p : Nat) (h0 : 0 < mant) (h1 : mant < 2 ^ 53)
    (hhi : p + Nat.log2 mant ≤ 2097) : mkDouble neg mant p < 2 ^ 64 := by
  obtain ⟨hl, hu⟩ := log2_bounds h0
  unfold mkDouble
  generalize hk : Nat.log2 mant = k at *
  have hk52 : k ≤ 52 := by
    rcases Nat.lt_or_ge k 53 with h | h
    · omega
    · have := Nat.pow_le_pow_right (n := 2) (by omega) h
      omega
  have hm2 : mant * 2 ^ (52 - k) < 2 ^ 53 := by
    have : 2 ^ 53 = 2 ^ (k + 1) * 2 ^ (52 - k) := by rw [← Nat.pow_add]; congr 1; omega
    rw [this]; exact Nat.mul_lt_mul_of_pos_right hu (Nat.pow_pos (by omega))
  have h5 : (p + k - 51) * 2 ^ 52 ≤ 2046 * 2 ^ 52 := Nat.mul_le_mul_right _ (by omega)
  cases neg <;> simp only [Bool.false_eq_true, if_false, if_true] <;> omega

theorem widen32_lt (x : Nat) : widen32 x < 2 ^ 64 := by
  unfold widen32
  generalize hn : decide (x / 2 ^ 31 % 2 = 1) = neg
  generalize he : x / 2 ^ 23 % 2 ^ 8 = e
  generalize hm : x % 2 ^ 23 = m
  have hs : (if neg then 2 ^ 63 else 0) ≤ 2 ^ 63 := by cases neg <;> simp
  have he' : e < 2 ^ 8 := by omega
  by_cases h1 : e = 255
  · rw [if_pos h1]
    by_cases h2 : m = 0
    · rw [if_pos h2]; omega
    · rw [if_neg h2]; omega
  · rw [if_neg h1]
    by_cases h2 : e = 0
    · rw [if_pos h2]
      by_cases h3 : m = 0
      · rw [if_pos h3]; omega
      · rw [if_neg h3]
        have := log2_lt_of (n := m) (k := 23) (by omega) (by omega)
        exact mkDouble_lt neg m 925 (by omega) (by omega) (by omega)
    · rw [if_neg h2]
      have hl : Nat.log2 (2 ^ 23 + m) = 23 := log2_eq_of (by omega) (by omega)
      exact mkDouble_lt neg _ _ (by omega) (by omega) (by omega)

/-- `widen32` of a normal single, field by field. -/
theorem widen32_normal (neg : Bool) (e m : Nat) (h0 : 0 < e) (he : e < 255) (hm : m < 2 ^ 23) :
    widen32 ((if neg then 2 ^ 31 else 0) + e * 2 ^ 23 + m) =
      (if neg then 2 ^ 63 else 0) + (e + 896) * 2 ^ 52 + m * 2 ^ 29 := by
  have hl : Nat.log2 (2 ^ 23 + m) = 23 := log2_eq_of (by omega) (by omega)
  generalize hx : (if neg = true then 2 ^ 31 else 0) + e * 2 ^ 23 + m = x
  have f1 : decide (x / 2 ^ 31 % 2 = 1) = neg := by
    cases neg
    · simp only [Bool.false_eq_true, if_false] at hx; rw [decide_eq_false_iff_not]; omega
    · simp only [if_true] at hx; rw [decide_eq_true_iff]; omega
  have f2 : x / 2 ^ 23 % 2 ^ 8 = e := by
    cases neg
    · simp only [Bool.false_eq_true, if_false] at hx; omega
    · simp only [if_true] at hx; omega
  have f3 : x % 2 ^ 23 = m := by
    cases neg
    · simp only [Bool.false_eq_true, if_false] at hx; omega
    · simp only [if_true] at hx; omega
  unfold widen32
  rw [f1, f2, f3]
  dsimp only
  rw [if_neg (show ¬ e = 255 by omega), if_neg (show ¬ e = 0 by omega)]
  unfold mkDouble
  simp only [hl]
  omega

/-- `widen32` of a subnormal single. -/
theorem widen32_subnormal (neg : Bool) (m : Nat) (h0 : 0 < m) (hm : m < 2 ^ 23) :
    widen32 ((if neg then 2 ^ 31 else 0) + m) = mkDouble neg m 925 := by
  generalize hx : (if neg = true then 2 ^ 31 else 0) + m = x
  have f1 : decide (x / 2 ^ 31 % 2 = 1) = neg := by
    cases neg
    · simp only [Bool.false_eq_true, if_false] at hx; rw [decide_eq_false_iff_not]; omega
    · simp only [if_true] at hx; rw [decide_eq_true_iff]; omega
  have f2 : x / 2 ^ 23 % 2 ^ 8 = 0 := by
    cases neg
    · simp only [Bool.false_eq_true, if_false] at hx; omega
    · simp only [if_true] at hx; omega
  have f3 : x % 2 ^ 23 = m := by
    cases neg
    · simp only [Bool.false_eq_true, if_false] at hx; omega
    · simp only [if_true] at hx; omega
  unfold widen32
  rw [f1, f2, f3]
  dsimp only
  rw [if_neg (show ¬ 0 = 255 by omega), if_pos (show 0 = 0 from rfl), if_neg (show ¬ m = 0 by omega)]

theorem widen32_zero (neg : Bool) : widen32 (if neg then 2 ^ 31 else 0) = if neg then 2 ^ 63 else 0 := by
  cases neg <;> rfl

theorem widen32_inf (neg : Bool) :
    widen32 ((if neg then 2 ^ 31 else 0) + 255 * 2 ^ 23) = (if neg then 2 ^ 63 else 0) + 2047 * 2 ^ 52 := by
  cases neg <;> rfl

/-- Shrinking is lossless: the single it yields widens to the original double. -/
theorem widen32_of_shrink32 {d f : Nat} (hd : d < 2 ^ 64) (h : shrink32 d = some f) :
    widen32 f = d ∧ f < 2 ^ 32 := by
  unfold shrink32 at h
  generalize hn : decide (d / 2 ^ 63 % 2 = 1) = neg at h
  have hs : d = (if neg then 2 ^ 63 else 0) + d % 2 ^ 63 := by
    cases neg
    · rw [decide_eq_false_iff_not] at hn; simp only [Bool.false_eq_true, if_false]; omega
    · rw [decide_eq_true_iff] at hn; simp only [if_true]; omega
  have hsm : d % 2 ^ 63 = (d / 2 ^ 52 % 2 ^ 11) * 2 ^ 52 + d % 2 ^ 52 := by omega
  rw [hsm] at hs
  generalize he : d / 2 ^ 52 % 2 ^ 11 = e at h hs
  generalize hm : d % 2 ^ 52 = m at h hs
  have hm' : m < 2 ^ 52 := by omega
  have he' : e < 2 ^ 11 := by omega
  have hn31 : (if neg then 2 ^ 31 else 0) ≤ 2 ^ 31 := by cases neg <;> simp
  dsimp only at h
  by_cases h1 : e = 2047
  · rw [if_pos h1] at h
    by_cases h2 : m = 0
    · rw [if_pos h2] at h; injection h with h
      subst h
      rw [widen32_inf]
      exact ⟨by rw [hs, h1, h2, Nat.add_zero], by omega⟩
    · rw [if_neg h2] at h; cases h
  · rw [if_neg h1] at h
    by_cases h2 : e = 0
    · rw [if_pos h2] at h
      by_cases h3 : m = 0
      · rw [if_pos h3] at h; injection h with h
        subst h
        rw [widen32_zero]
        exact ⟨by rw [hs, h2, h3]; omega, by omega⟩
      · rw [if_neg h3] at h; cases h
    · rw [if_neg h2] at h
      by_cases h3 : 897 ≤ e ∧ e ≤ 1150
      · rw [if_pos h3] at h
        by_cases h4 : m % 2 ^ 29 = 0
        · rw [if_pos h4] at h; injection h with h
          subst h
          rw [widen32_normal neg (e - 896) (m / 2 ^ 29) (by omega) (by omega) (by omega)]
          have h5 : (e - 896 + 896) * 2 ^ 52 = e * 2 ^ 52 := by congr 1; omega
          have h6 : (e - 896) * 2 ^ 23 ≤ 254 * 2 ^ 23 := Nat.mul_le_mul_right _ (by omega)
          exact ⟨by rw [hs, h5]; omega, by omega⟩
        · rw [if_neg h4] at h; cases h
      · rw [if_neg h3] at h
        by_cases h4 : 874 ≤ e ∧ e ≤ 896
        · rw [if_pos h4] at h
          by_cases h5 : (2 ^ 52 + m) % 2 ^ (29 + (897 - e)) = 0
          · rw [if_pos h5] at h; injection h with h
            subst h
            obtain ⟨k, hk⟩ : ∃ k, e = 874 + k := ⟨e - 874, by omega⟩
            have hsh : 29 + (897 - e) = 52 - k := by omega
            rw [hsh] at h5 ⊢
            generalize hq : (2 ^ 52 + m) / 2 ^ (52 - k) = q
            have hqe : q * 2 ^ (52 - k) = 2 ^ 52 + m := by
              have := Nat.div_add_mod (2 ^ 52 + m) (2 ^ (52 - k))
              rw [h5, hq, Nat.add_zero, Nat.mul_comm] at this
              exact this
            have e1 : 2 ^ 52 = 2 ^ k * 2 ^ (52 - k) := by rw [← Nat.pow_add]; congr 1; omega
            have e2 : 2 ^ 53 = 2 ^ (k + 1) * 2 ^ (52 - k) := by rw [← Nat.pow_add]; congr 1; omega
            have hp : 0 < 2 ^ (52 - k) := Nat.pow_pos (by omega)
            have hq1 : 2 ^ k ≤ q := by
              apply Nat.le_of_mul_le_mul_right (c := 2 ^ (52 - k)) _ hp
              rw [← e1, hqe]; omega
            have hq2 : q < 2 ^ (k + 1) := by
              apply Nat.lt_of_mul_lt_mul_right (a := 2 ^ (52 - k))
              rw [← e2, hqe]; omega
            have hkq : 2 ^ (k + 1) ≤ 2 ^ 23 := Nat.pow_le_pow_right (by omega) (by omega)
            have hk0 : 0 < 2 ^ k := Nat.pow_pos (by omega)
            rw [widen32_subnormal neg q (by omega) (by omega)]
            refine ⟨?_, by omega⟩
            unfold mkDouble
            simp only [log2_eq_of hq1 hq2]
            rw [hqe, hs, hk]
            omega
          · rw [if_neg h5] at h; cases h
        · rw [if_neg h4] at h; cases h

/-- Shrinking is complete: every double that is a widened single, NaN aside, is shrunk to it. -/
theorem shrink32_widen32 {f : Nat} (hf : f < 2 ^ 32) (hnan : sglVal f ≠ .nan) :
    shrink32 (widen32 f) = some f := by
  generalize hn : decide (f / 2 ^ 31 % 2 = 1) = neg
  have hs : f = (if neg then 2 ^ 31 else 0) + f % 2 ^ 31 := by
    cases neg
    · rw [decide_eq_false_iff_not] at hn; simp only [Bool.false_eq_true, if_false]; omega
    · rw [decide_eq_true_iff] at hn; simp only [if_true]; omega
  have hsm : f % 2 ^ 31 = (f / 2 ^ 23 % 2 ^ 8) * 2 ^ 23 + f % 2 ^ 23 := by omega
  rw [hsm] at hs
  have hval : sglVal f = ieee 8 23 f := rfl
  generalize he : f / 2 ^ 23 % 2 ^ 8 = e at hs
  generalize hm : f % 2 ^ 23 = m at hs
  have hm' : m < 2 ^ 23 := by omega
  have he' : e < 2 ^ 8 := by omega
  -- the shape of shrink32 on an assembled pattern
  have key : ∀ (e' m' : Nat), e' < 2 ^ 11 → m' < 2 ^ 52 →
      shrink32 ((if neg then 2 ^ 63 else 0) + e' * 2 ^ 52 + m') =
        let s := if neg then 2 ^ 31 else 0
        if e' = 2047 then
          if m' = 0 then some (s + 255 * 2 ^ 23) else none
        else if e' = 0 then
          if m' = 0 then some s else none
        else if 897 ≤ e' ∧ e' ≤ 1150 then
          if m' % 2 ^ 29 = 0 then some (s + (e' - 896) * 2 ^ 23 + m' / 2 ^ 29) else none
        else if 874 ≤ e' ∧ e' ≤ 896 then
          let sh := 2 ^ (29 + (897 - e'))
          if (2 ^ 52 + m') % sh = 0 then some (s + (2 ^ 52 + m') / sh) else none
        else none := by
    intro e' m' h1 h2
    generalize hx : (if neg = true then 2 ^ 63 else 0) + e' * 2 ^ 52 + m' = x
    obtain ⟨f1, f2, f3⟩ := fields neg e' m' h1 h2 hx.symm
    rw [show (11 + 52) = 63 from rfl] at f1
    unfold shrink32
    rw [f1, f2, f3]
  by_cases h1 : e = 255
  · have hm0 : m = 0 := by
      apply Classical.byContradiction
      intro h
      apply hnan
      rw [hval]
      unfold ieee
      rw [he, hm]
      dsimp only
      rw [if_pos (show e = 2 ^ 8 - 1 by omega), if_neg h]
    have : f = (if neg then 2 ^ 31 else 0) + 255 * 2 ^ 23 := by rw [hs, h1, hm0, Nat.add_zero]
    rw [this, widen32_inf]
    have := key 2047 0 (by omega) (by omega)
    rw [Nat.add_zero] at this
    rw [this]
    simp
  · by_cases h2 : e = 0
    · by_cases h3 : m = 0
      · have : f = (if neg then 2 ^ 31 else 0) := by rw [hs, h2, h3]; omega
        rw [this, widen32_zero]
        cases neg <;> decide +kernel
      · have hfe : f = (if neg then 2 ^ 31 else 0) + m := by rw [hs, h2]; omega
        rw [hfe, widen32_subnormal neg m (by omega) hm']
        obtain ⟨hl, hu⟩ := log2_bounds (n := m) (by omega)
        unfold mkDouble
        have hk22 := log2_lt_of hm' (by omega : 0 < m)
        generalize hk : Nat.log2 m = k at *
        have e1 : 2 ^ 52 = 2 ^ k * 2 ^ (52 - k) := by rw [← Nat.pow_add]; congr 1; omega
        have e2 : 2 ^ 53 = 2 ^ (k + 1) * 2 ^ (52 - k) := by rw [← Nat.pow_add]; congr 1; omega
        have hp : 0 < 2 ^ (52 - k) := Nat.pow_pos (by omega)
        have hm1 : 2 ^ 52 ≤ m * 2 ^ (52 - k) := by rw [e1]; exact Nat.mul_le_mul_right _ hl
        have hm2 : m * 2 ^ (52 - k) < 2 ^ 53 := by
          rw [e2]; exact Nat.mul_lt_mul_of_pos_right hu hp
        rw [key (925 + k - 51) (m * 2 ^ (52 - k) - 2 ^ 52) (by omega) (by omega)]
        dsimp only
        rw [if_neg (show ¬ 925 + k - 51 = 2047 by omega), if_neg (show ¬ 925 + k - 51 = 0 by omega),
          if_neg (show ¬ (897 ≤ 925 + k - 51 ∧ 925 + k - 51 ≤ 1150) by omega),
          if_pos (show (874 ≤ 925 + k - 51 ∧ 925 + k - 51 ≤ 896) by omega)]
        rw [show 29 + (897 - (925 + k - 51)) = 52 - k by omega,
          show 2 ^ 52 + (m * 2 ^ (52 - k) - 2 ^ 52) = m * 2 ^ (52 - k) by omega,
          Nat.mul_mod_left, if_pos rfl, Nat.mul_div_cancel _ hp]
    · have hfe : f = (if neg then 2 ^ 31 else 0) + e * 2 ^ 23 + m := by rw [hs]; omega
      rw [hfe, widen32_normal neg e m (by omega) (by omega) hm', key _ _ (by omega) (by omega)]
      dsimp only
      rw [if_neg (show ¬ e + 896 = 2047 by omega), if_neg (show ¬ e + 896 = 0 by omega),
        if_pos (show (897 ≤ e + 896 ∧ e + 896 ≤ 1150) by omega),
        if_pos (show m * 2 ^ 29 % 2 ^ 29 = 0 by omega)]
      refine congrArg some ?_
      omega

end Zer
