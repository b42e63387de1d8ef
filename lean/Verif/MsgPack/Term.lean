import Verif.MsgPack.Skip

/-!
# MessagePack: termination of `mp_skip` on arbitrary bytes, bounds of its result
-/

namespace Zer.MsgPack

theorem readBe16_lt {v : Bytes} {p n : Nat} (h : readBe16 v p = .ok n) : n < 2 ^ 16 := by
  obtain ⟨x0, h0, h⟩ := Res.bind_eq_ok.1 h
  obtain ⟨x1, h1, h⟩ := Res.bind_eq_ok.1 h
  injection h with h
  have := byteAt_lt h0; have := byteAt_lt h1; omega

theorem readBe32_lt {v : Bytes} {p n : Nat} (h : readBe32 v p = .ok n) : n < 2 ^ 32 := by
  obtain ⟨x0, h0, h⟩ := Res.bind_eq_ok.1 h
  obtain ⟨x1, h1, h⟩ := Res.bind_eq_ok.1 h
  obtain ⟨x2, h2, h⟩ := Res.bind_eq_ok.1 h
  obtain ⟨x3, h3, h⟩ := Res.bind_eq_ok.1 h
  injection h with h
  have := byteAt_lt h0; have := byteAt_lt h1; have := byteAt_lt h2; have := byteAt_lt h3; omega

theorem readBe16_ok {v : Bytes} {p : Nat} (h : p + 2 ≤ v.length) : ∃ n, readBe16 v p = .ok n := by
  simp only [readBe16, byteAt_ok (show p < v.length by omega),
    byteAt_ok (show p + 1 < v.length by omega), Res.ok_bind]
  exact ⟨_, rfl⟩

theorem readBe32_ok {v : Bytes} {p : Nat} (h : p + 4 ≤ v.length) : ∃ n, readBe32 v p = .ok n := by
  simp only [readBe32, byteAt_ok (show p < v.length by omega),
    byteAt_ok (show p + 1 < v.length by omega), byteAt_ok (show p + 2 < v.length by omega),
    byteAt_ok (show p + 3 < v.length by omega), Res.ok_bind]
  exact ⟨_, rfl⟩

theorem readBe64_ok {v : Bytes} {p : Nat} (h : p + 8 ≤ v.length) : ∃ n, readBe64 v p = .ok n := by
  simp only [readBe64, byteAt_ok (show p < v.length by omega),
    byteAt_ok (show p + 1 < v.length by omega), byteAt_ok (show p + 2 < v.length by omega),
    byteAt_ok (show p + 3 < v.length by omega), byteAt_ok (show p + 4 < v.length by omega),
    byteAt_ok (show p + 5 < v.length by omega), byteAt_ok (show p + 6 < v.length by omega),
    byteAt_ok (show p + 7 < v.length by omega), Res.ok_bind]
  exact ⟨_, rfl⟩

/-- One level of `mp_skip`: an answer that does not recurse, or a loop over elements that start
after the marker. -/
def SkipStep (v : Bytes) : Prop :=
    (∃ r : Res Nat, r.Clean ∧ (∀ n, r = .ok n → n < 2 ^ 32) ∧ ∀ f, mpSkip (f + 1) v = r) ∨
    (∃ n off, 1 ≤ off ∧ off ≤ v.length ∧ n < 2 ^ 33 ∧
      ∀ f, mpSkip (f + 1) v = skipLoop (mpSkip f) v n off)

theorem mpSkip_step (v : Bytes) : SkipStep v := by
  cases v with
  | nil => exact .inl ⟨.err .deser, .deser, fun _ h => (by cases h), fun _ => rfl⟩
  | cons b t =>
    have hb := UInt8.toNat_lt b
    have short : ∀ k, ¬ k ≤ (b :: t).length → decide (k ≤ (b :: t).length) = false :=
      fun k h => decide_eq_false h
    have long : ∀ k, k ≤ (b :: t).length → decide (k ≤ (b :: t).length) = true :=
      fun k h => decide_eq_true h
    generalize hv : b :: t = v at short long ⊢
    have hlen : 1 ≤ v.length := by rw [← hv]; simp
    have hm : ∀ f, mpSkip (f + 1) v = _ := fun f => by rw [← hv, mpSkip]
    simp only [hv] at hm
    have leaf : ∀ k : Nat, k < 2 ^ 32 → (∀ f, mpSkip (f + 1) v = .ok k) → SkipStep v := fun k hk h =>
      .inl ⟨.ok k, .ok k, fun n h => by injection h with h; omega, h⟩
    have fail : (∀ f, mpSkip (f + 1) v = .err .deser) → SkipStep v := fun h =>
      .inl ⟨.err .deser, .deser, fun n h => (by cases h), h⟩
    by_cases c1 : b.toNat ≤ 0x7f ∨ b.toNat ≥ 0xe0 ∨ b.toNat = 0xc0 ∨ b.toNat = 0xc2 ∨ b.toNat = 0xc3
    · exact leaf 1 (by omega) (fun f => by rw [hm, if_pos c1]; rfl)
    by_cases c2 : b.toNat &&& 0xe0 = 0xa0
    · have : b.toNat &&& 0x1f ≤ 0x1f := Nat.and_le_right
      exact leaf (1 + (b.toNat &&& 0x1f)) (by omega)
        (fun f => by rw [hm, if_neg c1, if_pos c2]; rfl)
    by_cases c3 : b.toNat &&& 0xf0 = 0x90
    · have : b.toNat &&& 0x0f ≤ 0x0f := Nat.and_le_right
      exact .inr ⟨b.toNat &&& 0x0f, 1, by omega, hlen, by omega,
        fun f => by rw [hm, if_neg c1, if_neg c2, if_pos c3]⟩
    by_cases c4 : b.toNat &&& 0xf0 = 0x80
    · have : b.toNat &&& 0x0f ≤ 0x0f := Nat.and_le_right
      exact .inr ⟨2 * (b.toNat &&& 0x0f), 1, by omega, hlen, by omega,
        fun f => by rw [hm, if_neg c1, if_neg c2, if_neg c3, if_pos c4]⟩
    by_cases c5 : b.toNat = 0xcc ∨ b.toNat = 0xd0
    · exact leaf 2 (by omega)
        (fun f => by rw [hm, if_neg c1, if_neg c2, if_neg c3, if_neg c4, if_pos c5]; rfl)
    by_cases c6 : b.toNat = 0xcd ∨ b.toNat = 0xd1
    · exact leaf 3 (by omega)
        (fun f => by rw [hm, if_neg c1, if_neg c2, if_neg c3, if_neg c4, if_neg c5, if_pos c6]; rfl)
    by_cases c7 : b.toNat = 0xce ∨ b.toNat = 0xd2 ∨ b.toNat = 0xca
    · exact leaf 5 (by omega) (fun f => by
        rw [hm, if_neg c1, if_neg c2, if_neg c3, if_neg c4, if_neg c5, if_neg c6, if_pos c7]; rfl)
    by_cases c8 : b.toNat = 0xcf ∨ b.toNat = 0xd3 ∨ b.toNat = 0xcb
    · exact leaf 9 (by omega) (fun f => by
        rw [hm, if_neg c1, if_neg c2, if_neg c3, if_neg c4, if_neg c5, if_neg c6, if_neg c7,
          if_pos c8]; rfl)
    have hm1 : ∀ f, mpSkip (f + 1) v = _ := fun f => by
      rw [hm, if_neg c1, if_neg c2, if_neg c3, if_neg c4, if_neg c5, if_neg c6, if_neg c7,
          if_neg c8]
    by_cases c9 : b.toNat = 0xd9 ∨ b.toNat = 0xc4
    · by_cases hl : 2 ≤ v.length
      · have h1 := byteAt_ok (show 1 < v.length by omega)
        have h2 := UInt8.toNat_lt v[1]
        exact leaf (2 + v[1].toNat) (by omega) (fun f => by
          rw [hm1, if_pos c9, long 2 hl]; simp only [Res.require_true, Res.ok_bind, h1]; rfl)
      · exact fail (fun f => by rw [hm1, if_pos c9, short 2 hl]; rfl)
    by_cases c10 : b.toNat = 0xda ∨ b.toNat = 0xc5
    · by_cases hl : 3 ≤ v.length
      · obtain ⟨n, h1⟩ := readBe16_ok (show 1 + 2 ≤ v.length by omega)
        have h2 := readBe16_lt h1
        exact leaf (3 + n) (by omega) (fun f => by
          rw [hm1, if_neg c9, if_pos c10, long 3 hl]; simp only [Res.require_true, Res.ok_bind, h1]; rfl)
      · exact fail (fun f => by rw [hm1, if_neg c9, if_pos c10, short 3 hl]; rfl)
    by_cases c11 : b.toNat = 0xdb ∨ b.toNat = 0xc6
    · by_cases hl : 5 ≤ v.length
      · obtain ⟨n, h1⟩ := readBe32_ok (show 1 + 4 ≤ v.length by omega)
        exact leaf ((5 + n) % 2 ^ 32) (Nat.mod_lt _ (by omega)) (fun f => by
          rw [hm1, if_neg c9, if_neg c10, if_pos c11, long 5 hl]
          simp only [Res.require_true, Res.ok_bind, h1]; rfl)
      · exact fail (fun f => by rw [hm1, if_neg c9, if_neg c10, if_pos c11, short 5 hl]; rfl)
    have hm2 : ∀ f, mpSkip (f + 1) v = _ := fun f => by
      rw [hm1, if_neg c9, if_neg c10, if_neg c11]
    by_cases c12 : b.toNat = 0xdc
    · by_cases hl : 3 ≤ v.length
      · obtain ⟨n, h1⟩ := readBe16_ok (show 1 + 2 ≤ v.length by omega)
        have h2 := readBe16_lt h1
        exact .inr ⟨n, 3, by omega, hl, by omega, fun f => by
          rw [hm2, if_pos c12, long 3 hl]; simp only [Res.require_true, Res.ok_bind, h1]⟩
      · exact fail (fun f => by rw [hm2, if_pos c12, short 3 hl]; rfl)
    by_cases c13 : b.toNat = 0xdd
    · by_cases hl : 5 ≤ v.length
      · obtain ⟨n, h1⟩ := readBe32_ok (show 1 + 4 ≤ v.length by omega)
        have h2 := readBe32_lt h1
        exact .inr ⟨n, 5, by omega, hl, by omega, fun f => by
          rw [hm2, if_neg c12, if_pos c13, long 5 hl]; simp only [Res.require_true, Res.ok_bind, h1]⟩
      · exact fail (fun f => by rw [hm2, if_neg c12, if_pos c13, short 5 hl]; rfl)
    by_cases c14 : b.toNat = 0xde
    · by_cases hl : 3 ≤ v.length
      · obtain ⟨n, h1⟩ := readBe16_ok (show 1 + 2 ≤ v.length by omega)
        have h2 := readBe16_lt h1
        exact .inr ⟨2 * n, 3, by omega, hl, by omega, fun f => by
          rw [hm2, if_neg c12, if_neg c13, if_pos c14, long 3 hl]
          simp only [Res.require_true, Res.ok_bind, h1]⟩
      · exact fail (fun f => by rw [hm2, if_neg c12, if_neg c13, if_pos c14, short 3 hl]; rfl)
    by_cases c15 : b.toNat = 0xdf
    · by_cases hl : 5 ≤ v.length
      · obtain ⟨n, h1⟩ := readBe32_ok (show 1 + 4 ≤ v.length by omega)
        have h2 := readBe32_lt h1
        exact .inr ⟨2 * n, 5, by omega, hl, by omega, fun f => by
          rw [hm2, if_neg c12, if_neg c13, if_neg c14, if_pos c15, long 5 hl]
          simp only [Res.require_true, Res.ok_bind, h1]⟩
      · exact fail (fun f => by
          rw [hm2, if_neg c12, if_neg c13, if_neg c14, if_pos c15, short 5 hl]; rfl)
    · exact fail (fun f => by rw [hm2, if_neg c12, if_neg c13, if_neg c14, if_neg c15])

/-! ## The fuel is enough -/

theorem subspan_eq_ok {v w : Bytes} {off : Nat} (h : subspan v off = .ok w) :
    off ≤ v.length ∧ w.length + off = v.length := by
  unfold subspan at h
  split at h
  · injection h with h; subst h; simp; omega
  · cases h

theorem skipLoop_congr {rec rec' : Bytes → Res Nat} {v : Bytes} {k : Nat}
    (h : ∀ w : Bytes, w.length + k ≤ v.length → rec w = rec' w) :
    ∀ n off, k ≤ off → skipLoop rec v n off = skipLoop rec' v n off
  | 0, _, _ => rfl
  | n + 1, off, hk => by
    simp only [skipLoop]
    cases hs : subspan v off with
    | ok w =>
      have := subspan_eq_ok hs
      simp only [Res.ok_bind, h w (by omega)]
      cases rec' w with
      | ok s => exact skipLoop_congr h n (off + s) (by omega)
      | _ => rfl
    | _ => rfl

/-- Any fuel above the length gives the same result. -/
theorem mpSkip_fuel : ∀ (f g : Nat) (v : Bytes), v.length < f → v.length < g → mpSkip f v = mpSkip g v
  | 0, _, _, h, _ => by omega
  | _ + 1, 0, _, _, h => by omega
  | f + 1, g + 1, v, hf, hg => by
    rcases mpSkip_step v with ⟨r, _, _, h⟩ | ⟨n, off, h1, _, _, h⟩
    · rw [h, h]
    · rw [h, h]
      exact skipLoop_congr (k := 1) (fun w hw => mpSkip_fuel f g w (by omega) (by omega)) n off h1

theorem skipLoop_ne_diverge {rec : Bytes → Res Nat} {v : Bytes} {k : Nat}
    (h : ∀ w : Bytes, w.length + k ≤ v.length → rec w ≠ .diverge) :
    ∀ n off, k ≤ off → skipLoop rec v n off ≠ .diverge
  | 0, _, _ => by intro h; cases h
  | n + 1, off, hk => by
    simp only [skipLoop]
    intro hd
    cases hs : subspan v off with
    | ok w =>
      have := subspan_eq_ok hs
      rw [hs] at hd
      simp only [Res.ok_bind] at hd
      cases hr : rec w with
      | ok s => rw [hr] at hd; exact skipLoop_ne_diverge h n (off + s) (by omega) hd
      | diverge => exact h w (by omega) hr
      | _ => rw [hr] at hd; cases hd
    | diverge => unfold subspan at hs; split at hs <;> cases hs
    | _ => rw [hs] at hd; cases hd

theorem mpSkip_ne_diverge : ∀ (f : Nat) (v : Bytes), v.length < f → mpSkip f v ≠ .diverge
  | 0, _, h => by omega
  | f + 1, v, hf => by
    rcases mpSkip_step v with ⟨r, hc, _, h⟩ | ⟨n, off, h1, _, _, h⟩
    · rw [h]; rcases hc with ⟨_, rfl⟩ | rfl <;> exact fun h => by cases h
    · rw [h]
      exact skipLoop_ne_diverge (k := 1) (fun w hw => mpSkip_ne_diverge f w (by omega)) n off h1

theorem skip_ne_diverge (v : Bytes) : skip v ≠ .diverge := mpSkip_ne_diverge _ v (Nat.lt_succ_self _)

/-! ## The result is not far outside the buffer -/

theorem skipLoop_le {rec : Bytes → Res Nat} {v : Bytes}
    (h : ∀ w : Bytes, w.length < v.length → ∀ s, rec w = .ok s → s ≤ w.length + 2 ^ 32) :
    ∀ n off m, 1 ≤ off → off ≤ v.length + 2 ^ 32 → skipLoop rec v n off = .ok m → m ≤ v.length + 2 ^ 32
  | 0, off, m, _, ho, he => by injection he with he; omega
  | n + 1, off, m, h1, ho, he => by
    simp only [skipLoop] at he
    obtain ⟨w, hw, he⟩ := Res.bind_eq_ok.1 he
    obtain ⟨s, hs, he⟩ := Res.bind_eq_ok.1 he
    have := subspan_eq_ok hw
    have := h w (by omega) s hs
    exact skipLoop_le h n (off + s) m (by omega) (by omega) he

theorem mpSkip_le : ∀ (f : Nat) (v : Bytes) (n : Nat), mpSkip f v = .ok n → n ≤ v.length + 2 ^ 32
  | 0, _, _, h => by cases h
  | f + 1, v, n, hn => by
    rcases mpSkip_step v with ⟨r, _, hb, h⟩ | ⟨k, off, h1, h2, _, h⟩
    · rw [h] at hn; have := hb n hn; omega
    · rw [h] at hn
      exact skipLoop_le (fun w _ s hs => mpSkip_le f w s hs) k off n h1 (by omega) hn

/-- The number of bytes `mp_skip` reports exceeds the buffer by at most 2^32, so that the sums of
offsets in the code do not wrap modulo 2^64 (buffers below 2^62 bytes). -/
theorem skip_le {v : Bytes} {n : Nat} (h : skip v = .ok n) : n ≤ v.length + 2 ^ 32 :=
  mpSkip_le _ v n h

end Zer.MsgPack
