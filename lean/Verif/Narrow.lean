import Verif.Float

/-!
# Rounding a double to a single

`narrow32` models `static_cast<float>(double)` on bit patterns, as IEEE 754 hardware does it in the default rounding
mode: to the nearest single, ties to the one with an even pattern, overflow to infinity.
-/

namespace Zer

/-- The quotient rounded to the nearest integer, ties to even. -/
def roundDiv (u s : Nat) : Nat :=
  let q := u / s
  let r := u % s
  if 2 * r < s then q
  else if s < 2 * r then q + 1
  else q + q % 2

/-- The pattern (without sign) of the single nearest to `u` units of 2^-1074. Singles below 2^-125 are 2^-149 = 2^925 units
apart, others 2^-23 of their leading power of two. -/
def roundUnits (u : Nat) : Nat :=
  let p := max 925 (Nat.log2 u - 23)
  min ((p - 925) * 2 ^ 23 + roundDiv u (2 ^ p)) (255 * 2 ^ 23)

/-- `static_cast<float>(double)`; zera.hpp:269, msgpack.hpp:346, cbor.hpp:259, json.hpp:169, flex.hpp:235. The payload of a
NaN keeps its leading bits and is made quiet. -/
def narrow32 (d : Nat) : Nat :=
  let s := if d / 2 ^ 63 % 2 = 1 then 2 ^ 31 else 0
  let e := d / 2 ^ 52 % 2 ^ 11
  let m := d % 2 ^ 52
  if e = 2047 then
    if m = 0 then s + 255 * 2 ^ 23
    else s + 255 * 2 ^ 23 + 2 ^ 22 + m / 2 ^ 29 % 2 ^ 22
  else s + roundUnits (if e = 0 then m else (2 ^ 52 + m) * 2 ^ (e - 1))

/-! ## The values of singles -/

/-- Units of the single with pattern `n` (without sign). -/
def sglUnits (n : Nat) : Nat :=
  (if n / 2 ^ 23 = 0 then n else (2 ^ 23 + n % 2 ^ 23) * 2 ^ (n / 2 ^ 23 - 1)) * 2 ^ 925

theorem sglVal_eq {n : Nat} (neg : Bool) (h : n < 255 * 2 ^ 23) :
    sglVal ((if neg then 2 ^ 31 else 0) + n) = .fin neg (sglUnits n) := by
  have h1 : (((if neg then 2 ^ 31 else 0) + n) / 2 ^ (8 + 23) % 2 = 1) ↔ neg = true := by
    cases neg
    · simp; omega
    · simp; omega
  have h2 : ((if neg then 2 ^ 31 else 0) + n) / 2 ^ 23 % 2 ^ 8 = n / 2 ^ 23 := by
    cases neg <;> simp <;> omega
  have h3 : ((if neg then 2 ^ 31 else 0) + n) % 2 ^ 23 = n % 2 ^ 23 := by
    cases neg <;> simp <;> omega
  have h4 : n / 2 ^ 23 ≠ 2 ^ 8 - 1 := by omega
  unfold sglVal ieee
  simp only [h2, h3, if_neg h4]
  have h5 : decide (((if neg then 2 ^ 31 else 0) + n) / 2 ^ (8 + 23) % 2 = 1) = neg := by
    cases neg
    · rw [decide_eq_false]; rw [h1]; simp
    · rw [decide_eq_true]; rw [h1]
  rw [h5]
  unfold sglUnits
  congr 2
  by_cases h0 : n / 2 ^ 23 = 0
  · rw [if_pos h0, if_pos h0]; omega
  · rw [if_neg h0, if_neg h0]

/-- Every finite single is a sign and a pattern below that of infinity. -/
theorem sglVal_fin {x : Nat} (hx : x < 2 ^ 32) {neg : Bool} {u : Nat} (h : sglVal x = .fin neg u) :
    ∃ n, n < 255 * 2 ^ 23 ∧ x = (if neg then 2 ^ 31 else 0) + n ∧ u = sglUnits n := by
  have hn : ∃ (s : Bool) (n : Nat), x = (if s then 2 ^ 31 else 0) + n ∧ n < 2 ^ 31 := by
    by_cases h : x < 2 ^ 31
    · exact ⟨false, x, by simp, h⟩
    · exact ⟨true, x - 2 ^ 31, by simp; omega, by omega⟩
  obtain ⟨s, n, rfl, hn⟩ := hn
  by_cases hf : n < 255 * 2 ^ 23
  · rw [sglVal_eq s hf] at h
    injection h with h1 h2
    exact ⟨n, hf, by rw [h1], h2.symm⟩
  · exfalso
    have h2 : ((if s then 2 ^ 31 else 0) + n) / 2 ^ 23 % 2 ^ 8 = 2 ^ 8 - 1 := by
      cases s <;> simp <;> omega
    unfold sglVal ieee at h
    simp only [h2, if_true] at h
    by_cases h0 : ((if s then 2 ^ 31 else 0) + n) % 2 ^ 23 = 0
    · rw [if_pos h0] at h; cases h
    · rw [if_neg h0] at h; cases h

/-- The pattern `(p - 925) * 2 ^ 23 + a` stands for `a` times `2 ^ p`. -/
theorem sglUnits_at {p a : Nat} (hp : 925 ≤ p) (ha : a ≤ 2 ^ 24) (hl : p = 925 ∨ 2 ^ 23 ≤ a) :
    sglUnits ((p - 925) * 2 ^ 23 + a) = a * 2 ^ p := by
  obtain ⟨k, rfl⟩ : ∃ k, p = k + 925 := ⟨p - 925, by omega⟩
  rw [Nat.add_sub_cancel, Nat.pow_add]
  unfold sglUnits
  rw [← Nat.mul_assoc]
  congr 1
  by_cases h0 : a < 2 ^ 23
  · have : k = 0 := by omega
    subst this
    rw [if_pos (by omega)]; omega
  · by_cases h1 : a = 2 ^ 24
    · subst h1
      have e1 : (k * 2 ^ 23 + 2 ^ 24) / 2 ^ 23 = k + 2 := by omega
      have e2 : (k * 2 ^ 23 + 2 ^ 24) % 2 ^ 23 = 0 := by omega
      rw [if_neg (by omega), e1, e2]
      have : k + 2 - 1 = k + 1 := by omega
      rw [this, Nat.pow_succ]; omega
    · have e1 : (k * 2 ^ 23 + a) / 2 ^ 23 = k + 1 := by omega
      have e2 : (k * 2 ^ 23 + a) % 2 ^ 23 = a - 2 ^ 23 := by omega
      rw [if_neg (by omega), e1, e2]
      have : 2 ^ 23 + (a - 2 ^ 23) = a := by omega
      rw [this]; rfl

/-- Larger patterns are larger numbers. -/
theorem sglUnits_succ (n : Nat) : sglUnits n < sglUnits (n + 1) := by
  by_cases h : n < 2 ^ 23
  · have h1 := sglUnits_at (p := 925) (a := n) (Nat.le_refl _) (by omega) (.inl rfl)
    have h2 := sglUnits_at (p := 925) (a := n + 1) (Nat.le_refl _) (by omega) (.inl rfl)
    simp only [Nat.sub_self, Nat.zero_mul, Nat.zero_add] at h1 h2
    rw [h1, h2]
    exact Nat.mul_lt_mul_of_pos_right (by omega) (Nat.two_pow_pos _)
  · obtain ⟨k, a, e, h1, h2⟩ : ∃ k a, n = k * 2 ^ 23 + a ∧ 2 ^ 23 ≤ a ∧ a < 2 ^ 24 :=
      ⟨n / 2 ^ 23 - 1, n % 2 ^ 23 + 2 ^ 23, by omega, by omega, by omega⟩
    have h3 := sglUnits_at (p := k + 925) (a := a) (by omega) (by omega) (.inr h1)
    have h4 := sglUnits_at (p := k + 925) (a := a + 1) (by omega) (by omega) (.inr (by omega))
    rw [Nat.add_sub_cancel] at h3 h4
    rw [e, Nat.add_assoc, h3, h4]
    exact Nat.mul_lt_mul_of_pos_right (by omega) (Nat.two_pow_pos _)

theorem sglUnits_lt {m n : Nat} (h : m < n) : sglUnits m < sglUnits n := by
  induction n with
  | zero => omega
  | succ n ih =>
    have := sglUnits_succ n
    rcases Nat.lt_succ_iff_lt_or_eq.1 h with h | rfl
    · have := ih h; omega
    · exact this

theorem sglUnits_le {m n : Nat} (h : m ≤ n) : sglUnits m ≤ sglUnits n := by
  rcases Nat.lt_or_eq_of_le h with h | rfl
  · exact Nat.le_of_lt (sglUnits_lt h)
  · exact Nat.le_refl _

/-! ## Rounding -/

/-- Where `u` lies between two neighbouring singles. -/
theorem units_between (u : Nat) :
    ∃ p a, 925 ≤ p ∧ p = max 925 (Nat.log2 u - 23) ∧ a < 2 ^ 24 ∧ (p = 925 ∨ 2 ^ 23 ≤ a) ∧ a = u / 2 ^ p := by
  refine ⟨max 925 (Nat.log2 u - 23), u / 2 ^ max 925 (Nat.log2 u - 23), by omega, rfl, ?_, ?_, rfl⟩
  · rw [Nat.div_lt_iff_lt_mul (Nat.two_pow_pos _)]
    by_cases h0 : u = 0
    · subst h0; exact Nat.mul_pos (by decide) (Nat.two_pow_pos _)
    · have := (log2_bounds (Nat.pos_of_ne_zero h0)).2
      refine Nat.lt_of_lt_of_le this ?_
      rw [← Nat.pow_add]
      exact Nat.pow_le_pow_right (by decide) (by omega)
  · by_cases h : Nat.log2 u - 23 ≤ 925
    · left; omega
    · right
      have e : max 925 (Nat.log2 u - 23) = Nat.log2 u - 23 := by omega
      rw [e, Nat.le_div_iff_mul_le (Nat.two_pow_pos _), ← Nat.pow_add]
      have h0 : 0 < u := by
        rcases Nat.eq_zero_or_pos u with rfl | h0
        · simp at h
        · exact h0
      refine Nat.le_trans ?_ (log2_bounds h0).1
      exact Nat.pow_le_pow_right (by decide) (by omega)

/-- The distance of two numbers. -/
def dist (a b : Nat) : Nat := (a - b) + (b - a)

/-- The pattern before the cut at infinity is one of the two neighbours of `u`, the nearer one, or the even one. -/
theorem roundUnits_spec (u : Nat) : ∃ n, roundUnits u = min n (255 * 2 ^ 23) ∧
    ∀ g, dist (sglUnits n) u < dist (sglUnits g) u ∨ g = n ∨ (dist (sglUnits n) u = dist (sglUnits g) u ∧ n % 2 = 0) := by
  obtain ⟨p, a, hp, ep, ha, hl, ea⟩ := units_between u
  have hpos := Nat.two_pow_pos p
  have v0 := sglUnits_at hp (Nat.le_of_lt ha) hl
  have v1 := sglUnits_at (p := p) (a := a + 1) hp ha (hl.imp id (by omega))
  have hdm : a * 2 ^ p + u % 2 ^ p = u := by
    rw [ea, Nat.mul_comm]; exact Nat.div_add_mod u (2 ^ p)
  have hr : u % 2 ^ p < 2 ^ p := Nat.mod_lt _ hpos
  have hs : (a + 1) * 2 ^ p = a * 2 ^ p + 2 ^ p := by rw [Nat.add_mul, Nat.one_mul]
  refine ⟨(p - 925) * 2 ^ 23 + roundDiv u (2 ^ p), by simp only [roundUnits, ← ep], fun g => ?_⟩
  have key : ∀ g, (g ≤ (p - 925) * 2 ^ 23 + a ∧ sglUnits g ≤ a * 2 ^ p ∧ (g = (p - 925) * 2 ^ 23 + a ∨ sglUnits g < a * 2 ^ p)) ∨
      ((p - 925) * 2 ^ 23 + (a + 1) ≤ g ∧ (a + 1) * 2 ^ p ≤ sglUnits g ∧
        (g = (p - 925) * 2 ^ 23 + (a + 1) ∨ (a + 1) * 2 ^ p < sglUnits g)) := by
    intro g
    by_cases h : g ≤ (p - 925) * 2 ^ 23 + a
    · refine .inl ⟨h, v0 ▸ sglUnits_le h, ?_⟩
      rcases Nat.lt_or_eq_of_le h with h | h
      · exact .inr (v0 ▸ sglUnits_lt h)
      · exact .inl h
    · have h : (p - 925) * 2 ^ 23 + (a + 1) ≤ g := by omega
      refine .inr ⟨h, v1 ▸ sglUnits_le h, ?_⟩
      rcases Nat.lt_or_eq_of_le h with h | h
      · exact .inr (v1 ▸ sglUnits_lt h)
      · exact .inl h.symm
  have hk := key g
  unfold roundDiv
  rw [← ea]
  simp only
  have hpar : ((p - 925) * 2 ^ 23 + a) % 2 = a % 2 := by omega
  generalize 2 ^ p = s at *
  generalize u % s = r at *
  generalize hA : a * s = A at *
  generalize hB : (a + 1) * s = B at *
  unfold dist
  split
  · rw [v0]
    rcases hk with ⟨h1, h2, h3 | h3⟩ | ⟨h1, h2, h3⟩
    · exact .inr (.inl h3)
    · left; omega
    · left; omega
  · split
    · rw [v1]
      rcases hk with ⟨h1, h2, h3⟩ | ⟨h1, h2, h3 | h3⟩
      · left; omega
      · exact .inr (.inl h3)
      · left; omega
    · by_cases he : a % 2 = 0
      · rw [he, Nat.add_zero, v0]
        rcases hk with ⟨h1, h2, h3 | h3⟩ | ⟨h1, h2, h3 | h3⟩
        · exact .inr (.inl h3)
        · left; omega
        · right; right
          rw [h3, v1]
          exact ⟨by omega, by omega⟩
        · left; omega
      · have h1 : a % 2 = 1 := by omega
        rw [h1, v1]
        rcases hk with ⟨h1, h2, h3 | h3⟩ | ⟨h1, h2, h3 | h3⟩
        · right; right
          rw [h3, v0]
          exact ⟨by omega, by omega⟩
        · left; omega
        · exact .inr (.inl h3)
        · left; omega

/-- The largest finite single, and the number that would follow it. -/
theorem sglUnits_max : sglUnits (255 * 2 ^ 23 - 1) = (2 ^ 24 - 1) * 2 ^ 1178 ∧ sglUnits (255 * 2 ^ 23) = 2 ^ 24 * 2 ^ 1178 := by
  have h1 := sglUnits_at (p := 1178) (a := 2 ^ 24 - 1) (by omega) (by omega) (.inr (by omega))
  have h2 := sglUnits_at (p := 1178) (a := 2 ^ 24) (by omega) (by omega) (.inr (by omega))
  rw [show (1178 - 925) * 2 ^ 23 + (2 ^ 24 - 1) = 255 * 2 ^ 23 - 1 by omega] at h1
  rw [show (1178 - 925) * 2 ^ 23 + 2 ^ 24 = 255 * 2 ^ 23 by omega] at h2
  exact ⟨h1, h2⟩

/-- Half way between these two. -/
def overflowAt : Nat := (2 ^ 25 - 1) * 2 ^ 1177

theorem overflowAt_mid : 2 * overflowAt = sglUnits (255 * 2 ^ 23 - 1) + sglUnits (255 * 2 ^ 23) := by
  rw [sglUnits_max.1, sglUnits_max.2, overflowAt, show (1178 : Nat) = 1177 + 1 from rfl, Nat.pow_succ 2 1177]
  generalize 2 ^ 1177 = x
  omega

theorem roundUnits_low {u : Nat} (h : u < overflowAt) : roundUnits u < 255 * 2 ^ 23 ∧
    ∀ g, dist (sglUnits (roundUnits u)) u < dist (sglUnits g) u ∨ g = roundUnits u ∨
      (dist (sglUnits (roundUnits u)) u = dist (sglUnits g) u ∧ roundUnits u % 2 = 0) := by
  obtain ⟨n, e, hn⟩ := roundUnits_spec u
  have hlt : n < 255 * 2 ^ 23 := by
    refine Nat.lt_of_not_le fun hle => ?_
    have h1 := hn (255 * 2 ^ 23 - 1)
    have h2 := sglUnits_le hle
    have h3 := overflowAt_mid
    have h4 := sglUnits_lt (show 255 * 2 ^ 23 - 1 < 255 * 2 ^ 23 by omega)
    have h5 : (255 * 2 ^ 23 - 1 : Nat) ≠ n := by omega
    generalize sglUnits (255 * 2 ^ 23 - 1) = A at *
    generalize sglUnits (255 * 2 ^ 23) = B at *
    generalize overflowAt = T at *
    generalize sglUnits n = S at *
    unfold dist at h1
    omega
  rw [show min n (255 * 2 ^ 23) = n by omega] at e
  rw [e]
  exact ⟨hlt, hn⟩

theorem roundUnits_high {u : Nat} (h : overflowAt ≤ u) : roundUnits u = 255 * 2 ^ 23 := by
  obtain ⟨n, e, hn⟩ := roundUnits_spec u
  have hle : 255 * 2 ^ 23 ≤ n := by
    refine Nat.le_of_not_lt fun hlt => ?_
    have h1 := hn (255 * 2 ^ 23)
    have h2 : sglUnits n < sglUnits (255 * 2 ^ 23 - 1) ∨ n = 255 * 2 ^ 23 - 1 := by
      rcases Nat.lt_or_eq_of_le (Nat.le_sub_one_of_lt hlt) with h | h
      · exact .inl (sglUnits_lt h)
      · exact .inr h
    have h3 := overflowAt_mid
    have h4 := sglUnits_lt (show 255 * 2 ^ 23 - 1 < 255 * 2 ^ 23 by omega)
    have h5 : (255 * 2 ^ 23 : Nat) ≠ n := by omega
    have h6 : n = 255 * 2 ^ 23 - 1 → n % 2 = 1 := by omega
    have h7 : n = 255 * 2 ^ 23 - 1 → sglUnits n = sglUnits (255 * 2 ^ 23 - 1) := fun h => by rw [h]
    generalize sglUnits (255 * 2 ^ 23 - 1) = A at *
    generalize sglUnits (255 * 2 ^ 23) = B at *
    generalize overflowAt = T at *
    generalize sglUnits n = S at *
    unfold dist at h1
    omega
  rw [e]; omega

/-! ## The conversion -/

theorem roundUnits_le (u : Nat) : roundUnits u ≤ 255 * 2 ^ 23 := by unfold roundUnits; simp only; omega

/-- The fields of a double. -/
theorem dbl_cases {d : Nat} (hd : d < 2 ^ 64) : ∃ neg : Bool, (d / 2 ^ 63 % 2 = 1 ↔ neg = true) ∧
    ((d / 2 ^ 52 % 2 ^ 11 = 2047 ∧ d % 2 ^ 52 = 0 ∧ dblVal d = .inf neg) ∨
     (d / 2 ^ 52 % 2 ^ 11 = 2047 ∧ d % 2 ^ 52 ≠ 0 ∧ dblVal d = .nan) ∨
     (d / 2 ^ 52 % 2 ^ 11 ≠ 2047 ∧ dblVal d = .fin neg
        (if d / 2 ^ 52 % 2 ^ 11 = 0 then d % 2 ^ 52 else (2 ^ 52 + d % 2 ^ 52) * 2 ^ (d / 2 ^ 52 % 2 ^ 11 - 1)))) := by
  refine ⟨decide (d / 2 ^ 63 % 2 = 1), by simp, ?_⟩
  unfold dblVal ieee
  by_cases he : d / 2 ^ 52 % 2 ^ 11 = 2047
  · by_cases hm : d % 2 ^ 52 = 0
    · left; refine ⟨he, hm, ?_⟩; simp only [he, hm]; rfl
    · right; left; refine ⟨he, hm, ?_⟩
      rw [if_pos (by omega), if_neg hm]
  · right; right; refine ⟨he, ?_⟩
    rw [if_neg (by omega)]
    simp only [show 1074 + 1 - (2 ^ (11 - 1) - 1) - 52 = 0 from by omega, Nat.pow_zero, Nat.mul_one]

theorem sgl_special (neg : Bool) (m : Nat) (hm : m < 2 ^ 23) :
    sglVal ((if neg then 2 ^ 31 else 0) + 255 * 2 ^ 23 + m) = if m = 0 then .inf neg else .nan := by
  have h2 : ((if neg then 2 ^ 31 else 0) + 255 * 2 ^ 23 + m) / 2 ^ 23 % 2 ^ 8 = 2 ^ 8 - 1 := by
    cases neg <;> simp <;> omega
  have h3 : ((if neg then 2 ^ 31 else 0) + 255 * 2 ^ 23 + m) % 2 ^ 23 = m := by
    cases neg <;> simp <;> omega
  have h5 : decide (((if neg then 2 ^ 31 else 0) + 255 * 2 ^ 23 + m) / 2 ^ (8 + 23) % 2 = 1) = neg := by
    cases neg
    · rw [decide_eq_false]; simp; omega
    · rw [decide_eq_true]; simp; omega
  unfold sglVal ieee
  simp only [h2, h3, h5, if_true]

theorem narrow32_nan {d : Nat} (hd : d < 2 ^ 64) (h : dblVal d = .nan) : sglVal (narrow32 d) = .nan := by
  obtain ⟨neg, hs, ⟨_, _, e⟩ | ⟨he, hm, _⟩ | ⟨_, e⟩⟩ := dbl_cases hd
  · rw [e] at h; cases h
  · unfold narrow32
    simp only [he, hm, if_true, if_false, hs]
    rw [Nat.add_assoc, sgl_special neg _ (by omega), if_neg (by omega)]
  · rw [e] at h; cases h

theorem narrow32_inf {d : Nat} (hd : d < 2 ^ 64) {neg : Bool} (h : dblVal d = .inf neg) : sglVal (narrow32 d) = .inf neg := by
  obtain ⟨neg', hs, ⟨he, hm, e⟩ | ⟨_, _, e⟩ | ⟨_, e⟩⟩ := dbl_cases hd
  · rw [e] at h; injection h with h; subst h
    unfold narrow32
    simp only [he, hm, if_true, hs]
    have := sgl_special neg' 0 (by omega)
    rwa [Nat.add_zero, if_pos rfl] at this
  · rw [e] at h; cases h
  · rw [e] at h; cases h

theorem narrow32_fin {d : Nat} (hd : d < 2 ^ 64) {neg : Bool} {u : Nat} (h : dblVal d = .fin neg u) :
    narrow32 d = (if neg then 2 ^ 31 else 0) + roundUnits u := by
  obtain ⟨neg', hs, ⟨_, _, e⟩ | ⟨_, _, e⟩ | ⟨he, e⟩⟩ := dbl_cases hd
  · rw [e] at h; cases h
  · rw [e] at h; cases h
  · rw [e] at h; injection h with h1 h2
    subst h1
    unfold narrow32
    simp only [if_neg he, hs, h2]

theorem narrow32_lt {d : Nat} (hd : d < 2 ^ 64) : narrow32 d < 2 ^ 32 := by
  unfold narrow32
  have hr := roundUnits_le (if d / 2 ^ 52 % 2 ^ 11 = 0 then d % 2 ^ 52 else (2 ^ 52 + d % 2 ^ 52) * 2 ^ (d / 2 ^ 52 % 2 ^ 11 - 1))
  simp only
  generalize roundUnits _ = r at *
  repeat' split
  all_goals omega

/-- A single comes back from its double. -/
theorem narrow32_widen32 {f : Nat} (hf : f < 2 ^ 32) (hn : sglVal f ≠ .nan) : narrow32 (widen32 f) = f := by
  have hw := widen32_lt f
  have hv := dblVal_widen32 f
  cases hs : sglVal f with
  | nan => exact absurd hs hn
  | inf neg =>
    have hb : ∃ (s : Bool) (n : Nat), f = (if s then 2 ^ 31 else 0) + n ∧ n < 2 ^ 31 := by
      by_cases h : f < 2 ^ 31
      · exact ⟨false, f, by simp, h⟩
      · exact ⟨true, f - 2 ^ 31, by simp; omega, by omega⟩
    obtain ⟨s, n, rfl, hlt⟩ := hb
    by_cases hfin : n < 255 * 2 ^ 23
    · rw [sglVal_eq s hfin] at hs; cases hs
    · obtain ⟨m, rfl⟩ : ∃ m, n = 255 * 2 ^ 23 + m := ⟨n - 255 * 2 ^ 23, by omega⟩
      rw [← Nat.add_assoc] at hs hv hw ⊢
      have hsp := sgl_special s m (by omega)
      rw [hs] at hsp
      split at hsp
      · rename_i h0
        subst h0
        injection hsp with hsp; subst hsp
        rw [hs] at hv
        obtain ⟨neg', h1, ⟨he, hm, e⟩ | ⟨_, _, e⟩ | ⟨_, e⟩⟩ := dbl_cases hw
        · rw [hv] at e; injection e with e; subst e
          unfold narrow32
          simp only [he, hm, if_true, h1]
        · rw [hv] at e; cases e
        · rw [hv] at e; cases e
      · cases hsp
  | fin neg u =>
    obtain ⟨n, h1, h2, h3⟩ := sglVal_fin hf hs
    rw [hs] at hv
    rw [narrow32_fin hw hv, h2, h3]
    suffices h : roundUnits (sglUnits n) = n by rw [h]
    have hu : sglUnits n < overflowAt := by
      have h3 := overflowAt_mid
      have h4 := sglUnits_lt (show 255 * 2 ^ 23 - 1 < 255 * 2 ^ 23 by omega)
      have h5 := sglUnits_le (Nat.le_sub_one_of_lt h1)
      generalize sglUnits (255 * 2 ^ 23 - 1) = A at *
      generalize sglUnits (255 * 2 ^ 23) = B at *
      generalize overflowAt = T at *
      omega
    obtain ⟨_, h⟩ := roundUnits_low hu
    rcases h n with h | h | ⟨h, _⟩
    · unfold dist at h; omega
    · exact h.symm
    · have e : sglUnits (roundUnits (sglUnits n)) = sglUnits n := by unfold dist at h; omega
      rcases Nat.lt_trichotomy (roundUnits (sglUnits n)) n with h | h | h
      · have := sglUnits_lt h; omega
      · exact h
      · have := sglUnits_lt h; omega

end Zer
