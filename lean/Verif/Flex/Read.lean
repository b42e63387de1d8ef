import Verif.Flex.Sim
import Verif.Flex.Spec

/-!
# Flex: the reader reads the format
-/

namespace Zer.Flex
variable {R : Rules} {b : Bytes} {p w q n : Nat} {xs : Bytes}

theorem numeral_unle (xs : Bytes) : numeral xs = unle xs := by
  induction xs with
  | nil => rfl
  | cons c xs ih => rw [unle, ← ih]; rfl

theorem bytesOfWidth_scalar (w : Nat) : bytesOfWidth w = scalarWidth w := by
  unfold bytesOfWidth scalarWidth
  repeat' split
  all_goals omega

theorem Word.slice (h : Word R b p w xs) : sliceAt b p (scalarWidth w) = .ok xs := by
  rw [← bytesOfWidth_scalar, ← h.length]; exact h.pos.sliceAt

theorem Word.readU (h : Word R b p w xs) : readU b p w = .ok (numeral xs) := by
  rw [Flex.readU, h.slice, numeral_unle]; rfl

theorem Word.bound (h : Word R b p w xs) : p + scalarWidth w ≤ b.length := by
  have := h.pos.bound
  rw [h.length, bytesOfWidth_scalar] at this; exact this

theorem Word.readI (h : Word R b p w xs) : readI b p w = .ok (Int64.ofInt (signedNumeral xs)) := by
  rw [Flex.readI, h.readU, signedNumeral, h.length, bytesOfWidth_scalar, pow256]; rfl

theorem Word.readF (h : Word R b p w xs) : readF b p w = .ok (UInt64.ofNat (floatNumeral xs)) := by
  have e : (scalarWidth w = 8 ∨ scalarWidth w = 4) ∨ (scalarWidth w ≠ 8 ∧ scalarWidth w ≠ 4) := by omega
  have hl : xs.length = scalarWidth w := by rw [h.length, bytesOfWidth_scalar]
  rw [Flex.readF, h.readU]
  simp only [Res.ok_bind, Res.pure_eq]
  congr 2
  unfold floatNumeral
  rw [hl]
  split
  · rfl
  split
  · rfl
  unfold smallDouble signedNumeral
  rw [hl, pow256]
  have hz : ((numeral xs : Int).bmod (2 ^ (8 * scalarWidth w)) = 0) ↔ numeral xs = 0 := by
    have hlt : numeral xs < 2 ^ (8 * scalarWidth w) := by
      rw [numeral_unle, ← pow256, ← hl]; exact unle_lt xs
    constructor
    · intro h0
      have := Int.emod_bmod (x := (numeral xs : Int)) (n := 2 ^ (8 * scalarWidth w))
      have hm : ((numeral xs : Int)) % ((2 ^ (8 * scalarWidth w) : Nat) : Int) = 0 := by
        have hd := Int.bmod_def (numeral xs : Int) (2 ^ (8 * scalarWidth w))
        rw [hd] at h0
        split at h0
        · exact h0
        · have hnn := Int.emod_lt_of_pos (numeral xs : Int) (b := ((2 ^ (8 * scalarWidth w) : Nat) : Int)) (by exact_mod_cast Nat.two_pow_pos _)
          omega
      rw [Int.emod_eq_of_lt (by omega) (by exact_mod_cast hlt)] at hm
      omega
    · intro h0; rw [h0]; simp
  split
  · rw [if_pos (hz.1 ‹_›)]
  · rw [if_neg (fun h0 => ‹¬ _› (hz.2 h0))]

theorem Points.indirect (h : Points R b p w q) : indirect b p w = .ok q := by
  obtain ⟨xs, h1, h2⟩ := h
  rw [Flex.indirect, h1.readU]
  simp only [Res.ok_bind]
  rw [if_pos (by omega)]
  show Res.ok _ = _
  congr 1; omega

theorem Sized.sizeAt (h : Sized R b q w n) : sizeAt b q w = .ok n := by
  obtain ⟨h0, xs, h1, h2⟩ := h
  rw [Flex.sizeAt, if_pos h0, h1.readU, h2]

theorem cstrAt_stands {k : Bytes} (h0 : (0 : UInt8) ∉ k) (h : At b p (k ++ [0])) : cstrAt b p = .ok k := by
  obtain ⟨x, y, rfl, rfl⟩ := h
  have e : (x ++ (k ++ [0] ++ y)).drop x.length = k ++ 0 :: y := by simp
  rw [Flex.cstrAt, e, if_pos (by simp)]
  congr 1
  clear e
  induction k with
  | nil => simp [cstr]
  | cons c k ih =>
    have hc : c ≠ 0 := fun e => h0 (by simp [e])
    have := ih (fun hk => h0 (by simp [hk]))
    simp only [cstr, List.cons_append, List.takeWhile_cons, hc, ne_eq, not_false_eq_true, decide_true, if_true] at this ⊢
    rw [this]

theorem scalarWidth_pos (w : Nat) : 0 < scalarWidth w := by
  unfold scalarWidth
  repeat' split
  all_goals omega

theorem pow_mod_four (t : Nat) : 2 ^ (t % 4) ≤ 8 :=
  Nat.le_trans (Nat.pow_le_pow_right (by decide) (show t % 4 ≤ 3 by omega)) (by decide)

theorem elemAt_at {bw i : Nat} {t : UInt8} (hl : i * bw < 2 ^ 64) (hi : i < n) (ht : At b (q + n * bw % 2 ^ 64 + i) [t]) :
    elemAt b q bw n i = .ok ⟨b, q + i * bw, bw, 2 ^ (t.toNat % 4), t.toNat / 4⟩ := by
  have h0 := ht.byteAt (i := 0) (by simp)
  simp only [List.getElem_cons_zero, Nat.add_zero] at h0
  rw [elemAt, if_neg (by omega), show u64 (n * bw) = n * bw % 2 ^ 64 from rfl,
    show u64 (i * bw) = i * bw from Nat.mod_eq_of_lt hl, h0]
  rfl

theorem elemAt_of {bw i : Nat} {t : UInt8} (hl : b.length < 2 ^ 64) (hi : i < n) (ht : At b (q + n * bw + i) [t]) :
    elemAt b q bw n i = .ok ⟨b, q + i * bw, bw, 2 ^ (t.toNat % 4), t.toNat / 4⟩ := by
  have hb := ht.bound
  have hm : i * bw ≤ n * bw := Nat.mul_le_mul_right _ (by omega)
  refine elemAt_at (by omega) hi ?_
  rw [Nat.mod_eq_of_lt (by omega)]
  exact ht

/-- Whatever stands in a buffer is held by it, as far as the reader is concerned. -/
theorem Stands.holds (ht : ¬ R.typed) (hl64 : b.length < 2 ^ 64) (hs : R.strict ∨ b.length < 2 ^ 56) {p pw ty bw : Nat} {d : Doc} (h : Stands R b p pw ty bw d)
    (hbw : bw ≤ 8) : Holds ⟨b, p, pw, bw, ty⟩ d := by
  induction h with
  | null => exact .null rfl
  | int i h1 h2 => exact .int (.inl rfl) (by rw [Ref.int64, if_pos rfl, h1.readI, ← h2, Int64.ofInt_toInt])
  | @uint p pw bw xs i h1 h2 =>
    have e := Holds.uint (r := ⟨b, p, pw, bw, 2⟩) (n := numeral xs) (.inl rfl) (by rw [Ref.uint64, if_pos rfl]; exact h1.readU)
    rw [← h2, UInt64.ofNat_toNat] at e; exact e
  | dbl i h1 _ h2 => exact .dbl (.inl rfl) (by rw [Ref.double, if_pos rfl, h1.readF, ← h2, UInt64.ofNat_toNat])
  | bool h1 => exact .bool rfl h1.readU
  | intAt i _ h0 h1 h2 =>
    refine .int (.inr rfl) ?_
    rw [Ref.int64, if_neg (by simp), h0.indirect]
    simp only [Res.ok_bind]
    rw [h1.readI, ← h2, Int64.ofInt_toInt]
  | @uintAt p pw bw q xs i _ h0 h1 h2 =>
    have e := Holds.uint (r := ⟨b, p, pw, bw, 7⟩) (n := numeral xs) (.inr rfl) (by
      rw [Ref.uint64, if_neg (by simp), h0.indirect]
      simp only [Res.ok_bind]
      exact h1.readU)
    rw [← h2, UInt64.ofNat_toNat] at e; exact e
  | dblAt i _ h0 h1 _ h2 =>
    refine .dbl (.inr rfl) ?_
    rw [Ref.double, if_neg (by simp), h0.indirect]
    simp only [Res.ok_bind]
    rw [h1.readF, ← h2, UInt64.ofNat_toNat]
  | key h0 h1 h2 => exact .key rfl
  | str h0 h1 h2 _ =>
    refine .str rfl ?_
    rw [Ref.sized, h0.indirect]
    simp only [Res.ok_bind]
    rw [h1.sizeAt]
    exact h2.sliceAt
  | blob h0 h1 h2 =>
    refine .blob rfl ?_
    rw [Ref.sized, h0.indirect]
    simp only [Res.ok_bind]
    rw [h1.sizeAt]
    exact h2.sliceAt
  | @vec p pw bw q xs t h0 h1 h2 _ ih =>
    refine .vec (p := q) (fun i => ⟨b, q + i * bw, bw, 2 ^ ((t i).toNat % 4), (t i).toNat / 4⟩) rfl ?_ ?_ ?_
    · rw [Ref.vector, if_pos (.inr rfl), h0.indirect]
      simp only [Res.ok_bind]
      rw [h1.sizeAt]; rfl
    · exact fun i hi => elemAt_of hl64 hi (h2 i hi)
    · exact fun i hi => ih i hi (pow_mod_four _)
  | typed h0 => exact absurd h0 ht
  | fixed h0 => exact absurd h0 ht
  | hollow _ h1 =>
    refine .hollow ?_
    simp only [typedType, Bool.or_eq_true, Bool.and_eq_true, decide_eq_true_eq]
    omega
  | @map p pw bw q kp w n kw o ws ms t kq h0 h1 h2 h3 h4 h5 h6 h7 h8 h9 h10 ho ho' h11 _ h13 ih =>
    have hsmall : ms.length < 2 ^ 63 ∧ ms.length * bw < 2 ^ 64 := by
      rcases hs with hs | hs
      · have hbw0 : 0 < bw := by
          have := h5.width hs; omega
        by_cases hm : ms.length = 0
        · rw [hm]; exact ⟨by decide, by omega⟩
        · have hn := h2 hs
          have h14 := (h11 (ms.length - 1) (by omega) (by omega)).bound
          have hb0 := h5.pos.bound
          have h15 : 0 < bytesOfWidth bw := by rw [bytesOfWidth_scalar]; exact scalarWidth_pos bw
          rw [ho' hs, hn] at h14
          rw [h5.length] at hb0
          have : ms.length ≤ ms.length * bw := Nat.le_mul_of_pos_right _ hbw0
          simp only [List.length_cons, List.length_nil] at *
          omega
      · have hk : ms.length ≤ 2 ^ 56 := by
          by_cases hk : kw = 0
          · obtain ⟨_, xs, hx, hn⟩ := h9
            have hle := unle_lt xs
            rw [hx.length, hk, ← numeral_unle, hn] at hle
            have : (256 : Nat) ^ bytesOfWidth 0 = 256 := by decide
            omega
          · by_cases hm : ms.length = 0
            · omega
            · obtain ⟨⟨xs, hx, _⟩, _⟩ := h10 (ms.length - 1) (by omega)
              have := hx.bound
              have : ms.length - 1 ≤ (ms.length - 1) * kw := Nat.le_mul_of_pos_right _ (by omega)
              have := scalarWidth_pos kw
              omega
        have : ms.length * bw ≤ 2 ^ 56 * 8 := Nat.mul_le_mul hk hbw
        omega
    refine .map (p := q) (n := n) (kp := kp) (kw := kw)
      (fun i => if i < n then ⟨b, q + i * bw, bw, 2 ^ ((t i).toNat % 4), (t i).toNat / 4⟩ else nullRef) rfl ?_ ?_ ?_ ?_ ?_ ?_
    · rw [Ref.vector, if_pos (.inl rfl), h0.indirect]
      simp only [Res.ok_bind]
      rw [h1.sizeAt]; rfl
    · rw [keysAt, if_pos h3, h4.indirect]
      simp only [Res.ok_bind]
      rw [h5.readU]
      simp only [Res.ok_bind]
      rw [h6, ← h7, h9.sizeAt]; rfl
    · exact hsmall.1
    · intro i hi
      obtain ⟨k1, k2, k3⟩ := h10 i hi
      have hb : kp + i * kw < b.length := by
        obtain ⟨xs, hx, _⟩ := k1
        have := hx.bound
        have := scalarWidth_pos kw
        omega
      rw [keyAt, if_neg (by omega), show u64 (i * kw) = i * kw from Nat.mod_eq_of_lt (by omega), k1.indirect]
      simp only [Res.ok_bind]
      exact cstrAt_stands k3 k2
    · intro i hi
      by_cases hn : i < n
      · have hm : i * bw ≤ ms.length * bw := Nat.mul_le_mul_right _ (by omega)
        rw [if_pos hn]; exact elemAt_at (Nat.lt_of_le_of_lt hm hsmall.2) hn (ho ▸ h11 i hi hn)
      · rw [if_neg hn, elemAt, if_pos (by omega)]; rfl
    · intro i hi
      by_cases hn : i < n
      · simp only [if_pos hn]; exact ih i hi hn (pow_mod_four _)
      · simp only [if_neg hn]; rw [h13 i hi (by omega)]; exact .null rfl

/-- A buffer that is a document is opened and held. -/
theorem Holding.opn {d : Doc} (h : Holding R b d) (ht : ¬ R.typed) (hl64 : b.length < 2 ^ 64)
    (hs : R.strict ∨ b.length < 2 ^ 56) : ∃ r, opn b = .ok r ∧ Holds r d := by
  rcases h with ⟨pre, t, w, rfl, hw, hd⟩ | ⟨_, rfl, rfl⟩
  · refine ⟨_, ?_, hd.holds ht hl64 hs (pow_mod_four _)⟩
    have hend : At (pre ++ [t, w]) pre.length [t, w] := At.self_end _ _
    have b0 := hend.byteAt (i := 0) (by simp)
    have b1 := hend.byteAt (i := 1) (by simp)
    simp only [List.getElem_cons_zero, List.getElem_cons_succ, Nat.add_zero] at b0 b1
    have hfl : (pre ++ [t, w]).length = pre.length + 2 := by simp
    have e1 : pre.length + 2 - 1 = pre.length + 1 := by omega
    have e2 : pre.length + 2 - 2 = pre.length := by omega
    rw [Flex.opn, if_neg (by simp), getRoot, hfl, if_neg (by omega), e1, e2, b0, b1]
    simp only [Res.ok_bind]
    rw [if_pos (by omega)]
    rfl
  · exact ⟨nullRef, rfl, .null rfl⟩

end Zer.Flex
