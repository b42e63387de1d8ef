import Verif.Float

/-!
# Properties C49, C50: floating-point widening
-/

namespace Zer

/-- C49: `decode_f16` gives the double with the mathematical value of the half, for every pattern
(zero keeps its sign, infinities and NaN stay what they are). -/
theorem c49_half_exact (h : Nat) : dblVal (decodeF16 h) = hlfVal h := dblVal_decodeF16 h

example : hlfVal 0x3c00 = .fin false (2 ^ 1074) ∧ hlfVal 0x8001 = .fin true (2 ^ 1050) ∧
    hlfVal 0xfc00 = .inf true ∧ hlfVal 0x7e01 = .nan ∧ hlfVal 0x8000 = .fin true 0 := by decide +kernel

/-- C50: widening a single gives the double with the same mathematical value. -/
theorem c50_single_exact (x : Nat) : dblVal (widen32 x) = sglVal x ∧ widen32 x < 2 ^ 64 :=
  ⟨dblVal_widen32 x, widen32_lt x⟩

example : sglVal 0x00000001 = .fin false (2 ^ 925) ∧ sglVal 0xff800000 = .inf true := by decide +kernel

/-- C50: when a double is written as a single, reading it back gives the same 64 bits, so also the
same value. -/
theorem c50_shrink_lossless {d f : Nat} (hd : d < 2 ^ 64) (h : shrink32 d = some f) :
    widen32 f = d ∧ f < 2 ^ 32 ∧ sglVal f = dblVal d := by
  obtain ⟨h1, h2⟩ := widen32_of_shrink32 hd h
  exact ⟨h1, h2, by rw [← h1, dblVal_widen32]⟩

example : shrink32 0x3ff8000000000000 = some 0x3fc00000 := by decide +kernel
example : shrink32 0x36a0000000000000 = some 1 := by decide +kernel

/-- C50: a double is written as a single whenever a single with the same value exists. -/
theorem c50_shrink_complete {f : Nat} (hf : f < 2 ^ 32) (hnan : sglVal f ≠ .nan) :
    shrink32 (widen32 f) = some f := shrink32_widen32 hf hnan

example : sglVal 0x3fc00000 ≠ .nan := by decide +kernel

end Zer
