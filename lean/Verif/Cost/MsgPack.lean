import Verif.Cost.Basic
import Verif.MsgPack.Term

/-!
# MessagePack: the number of calls of `mp_skip`
-/

namespace Zer.MsgPack

open Cnt (tick)

/-- `skipLoop` with the steps of its calls. -/
def skipLoopC (rec : Bytes → Cnt Nat) (v : Bytes) : Nat → Nat → Cnt Nat
  | 0, off => pure off
  | n + 1, off => do
    let w ← subspan v off
    let s ← rec w
    skipLoopC rec v n (off + s)

/-- `mp_skip`, msgpack.hpp:38-106; a step is a call of `mp_skip`. -/
def mpSkipC : Nat → Bytes → Cnt Nat
  | 0, _ => Cnt.lift .diverge
  | f + 1, v => do
    tick
    match v with
    | [] => Cnt.lift (.err .deser)
    | b :: _ =>
      let m := b.toNat
      if m ≤ 0x7f ∨ m ≥ 0xe0 ∨ m = 0xc0 ∨ m = 0xc2 ∨ m = 0xc3 then pure 1
      else if m &&& 0xe0 = 0xa0 then pure (1 + (m &&& 0x1f))
      else if m &&& 0xf0 = 0x90 then skipLoopC (mpSkipC f) v (m &&& 0x0f) 1
      else if m &&& 0xf0 = 0x80 then skipLoopC (mpSkipC f) v (2 * (m &&& 0x0f)) 1
      else if m = 0xcc ∨ m = 0xd0 then pure 2
      else if m = 0xcd ∨ m = 0xd1 then pure 3
      else if m = 0xce ∨ m = 0xd2 ∨ m = 0xca then pure 5
      else if m = 0xcf ∨ m = 0xd3 ∨ m = 0xcb then pure 9
      else if m = 0xd9 ∨ m = 0xc4 then do
        Res.require (decide (2 ≤ v.length)) .deser
        let n ← byteAt v 1
        pure (2 + n)
      else if m = 0xda ∨ m = 0xc5 then do
        Res.require (decide (3 ≤ v.length)) .deser
        let n ← readBe16 v 1
        pure (3 + n)
      else if m = 0xdb ∨ m = 0xc6 then do
        Res.require (decide (5 ≤ v.length)) .deser
        let n ← readBe32 v 1
        pure ((5 + n) % 2 ^ 32)
      else if m = 0xdc then do
        Res.require (decide (3 ≤ v.length)) .deser
        let n ← readBe16 v 1
        skipLoopC (mpSkipC f) v n 3
      else if m = 0xdd then do
        Res.require (decide (5 ≤ v.length)) .deser
        let n ← readBe32 v 1
        skipLoopC (mpSkipC f) v n 5
      else if m = 0xde then do
        Res.require (decide (3 ≤ v.length)) .deser
        let n ← readBe16 v 1
        skipLoopC (mpSkipC f) v (2 * n) 3
      else if m = 0xdf then do
        Res.require (decide (5 ≤ v.length)) .deser
        let n ← readBe32 v 1
        skipLoopC (mpSkipC f) v (2 * n) 5
      else Cnt.lift (.err .deser)

/-- `mp_skip` with enough fuel. -/
def skipC (v : Bytes) : Cnt Nat := mpSkipC (v.length + 1) v

theorem skipLoopC_res {rec : Bytes → Cnt Nat} {v : Bytes} : ∀ n off,
    (skipLoopC rec v n off).res = skipLoop (fun w => (rec w).res) v n off
  | 0, _ => rfl
  | n + 1, off => by
    simp only [skipLoopC, skipLoop, Cnt.bind_res, Cnt.monadLift_eq, Cnt.lift_res, skipLoopC_res n]

/-- Counting changes nothing. -/
theorem mpSkipC_res : ∀ f v, (mpSkipC f v).res = mpSkip f v
  | 0, _ => rfl
  | f + 1, v => by
    have ih : (fun w => (mpSkipC f w).res) = mpSkip f := by funext w; exact mpSkipC_res f w
    cases v with
    | nil => rfl
    | cons b t =>
      simp only [mpSkipC, mpSkip, Cnt.bind_res, Cnt.tick_res, Res.ok_bind, Cnt.ite_res, Cnt.monadLift_eq, Cnt.lift_res, Cnt.pure_res,
        Res.pure_eq, skipLoopC_res, ih]

theorem skipC_res (v : Bytes) : (skipC v).res = skip v := mpSkipC_res _ v

/-- The first item of `v` announces a length whose sum with the size of its head does not fit 32 bits. -/
def Wraps (v : Bytes) : Prop := (byteAt v 0 = .ok 0xdb ∨ byteAt v 0 = .ok 0xc6) ∧ ∃ n, readBe32 v 1 = .ok n ∧ 2 ^ 32 - 5 ≤ n

/-- One level of `mp_skip`, as `SkipStep`, with the steps. -/
def SkipStepC (v : Bytes) : Prop :=
    (∃ r : Res Nat, (∀ s, r = .ok s → 1 ≤ s ∨ Wraps v) ∧ ∀ f, mpSkipC (f + 1) v = ⟨1, r⟩) ∨
    (∃ n off, 1 ≤ off ∧ off ≤ v.length ∧ n < 2 ^ 33 ∧
      ∀ f, mpSkipC (f + 1) v = tick >>= fun _ => skipLoopC (mpSkipC f) v n off)

theorem mpSkipC_step (v : Bytes) : SkipStepC v := by
  cases v with
  | nil => exact .inl ⟨.err .deser, fun _ h => (by cases h), fun _ => rfl⟩
  | cons b t =>
    have hb := UInt8.toNat_lt b
    have hb0 : byteAt (b :: t) 0 = .ok b.toNat := rfl
    have short : ∀ k, ¬ k ≤ (b :: t).length → decide (k ≤ (b :: t).length) = false :=
      fun k h => decide_eq_false h
    have long : ∀ k, k ≤ (b :: t).length → decide (k ≤ (b :: t).length) = true :=
      fun k h => decide_eq_true h
    generalize hv : b :: t = v at short long hb0 ⊢
    have hlen : 1 ≤ v.length := by rw [← hv]; simp
    have hm : ∀ f, mpSkipC (f + 1) v = tick >>= fun _ => _ := fun f => by rw [← hv, mpSkipC]
    simp only [hv] at hm
    have leaf : ∀ k : Nat, 1 ≤ k → (∀ f, mpSkipC (f + 1) v = ⟨1, .ok k⟩) → SkipStepC v := fun k hk h =>
      .inl ⟨.ok k, fun n h => by injection h with h; omega, h⟩
    have fail : (∀ f, mpSkipC (f + 1) v = ⟨1, .err .deser⟩) → SkipStepC v := fun h =>
      .inl ⟨.err .deser, fun n h => (by cases h), h⟩
    by_cases c1 : b.toNat ≤ 0x7f ∨ b.toNat ≥ 0xe0 ∨ b.toNat = 0xc0 ∨ b.toNat = 0xc2 ∨ b.toNat = 0xc3
    · exact leaf 1 (by omega) (fun f => by rw [hm, if_pos c1]; rfl)
    by_cases c2 : b.toNat &&& 0xe0 = 0xa0
    · exact leaf (1 + (b.toNat &&& 0x1f)) (by omega)
        (fun f => by rw [hm, if_neg c1, if_pos c2]; rfl)
    by_cases c3 : b.toNat &&& 0xf0 = 0x90
    · have : b.toNat &&& 0x0f ≤ 0x0f := Nat.and_le_right
      exact .inr ⟨b.toNat &&& 0x0f, 1, by omega, hlen, by omega,
        fun f => by rw [hm, if_neg c1, if_neg c2, if_pos c3]⟩
    by_cases c4 : b.toNat &&& 0xf0 = 0x80
    · have : b.toNat &&& 0x0f ≤ 0x0f := Nat.and_le_right
      exact .inr ⟨2 * (b.toNat &&& 0x0f), 1, by omega, hlen, by omega,
        fun f => by rw [hm, if_neg c1, if_neg c2, if_neg c3, if_pos c4]⟩
    by_cases c5 : b.toNat = 0xcc ∨ b.toNat = 0xd0
    · exact leaf 2 (by omega)
        (fun f => by rw [hm, if_neg c1, if_neg c2, if_neg c3, if_neg c4, if_pos c5]; rfl)
    by_cases c6 : b.toNat = 0xcd ∨ b.toNat = 0xd1
    · exact leaf 3 (by omega)
        (fun f => by rw [hm, if_neg c1, if_neg c2, if_neg c3, if_neg c4, if_neg c5, if_pos c6]; rfl)
    by_cases c7 : b.toNat = 0xce ∨ b.toNat = 0xd2 ∨ b.toNat = 0xca
    · exact leaf 5 (by omega) (fun f => by
        rw [hm, if_neg c1, if_neg c2, if_neg c3, if_neg c4, if_neg c5, if_neg c6, if_pos c7]; rfl)
    by_cases c8 : b.toNat = 0xcf ∨ b.toNat = 0xd3 ∨ b.toNat = 0xcb
    · exact leaf 9 (by omega) (fun f => by
        rw [hm, if_neg c1, if_neg c2, if_neg c3, if_neg c4, if_neg c5, if_neg c6, if_neg c7,
          if_pos c8]; rfl)
    have hm1 : ∀ f, mpSkipC (f + 1) v = tick >>= fun _ => _ := fun f => by
      rw [hm, if_neg c1, if_neg c2, if_neg c3, if_neg c4, if_neg c5, if_neg c6, if_neg c7,
          if_neg c8]
    by_cases c9 : b.toNat = 0xd9 ∨ b.toNat = 0xc4
    · by_cases hl : 2 ≤ v.length
      · have h1 := byteAt_ok (show 1 < v.length by omega)
        exact leaf (2 + v[1].toNat) (by omega) (fun f => by
          rw [hm1, if_pos c9, long 2 hl]
          simp only [Res.require_true, Cnt.monadLift_eq, Cnt.lift_ok, pure_bind, h1]; rfl)
      · exact fail (fun f => by rw [hm1, if_pos c9, short 2 hl]; rfl)
    by_cases c10 : b.toNat = 0xda ∨ b.toNat = 0xc5
    · by_cases hl : 3 ≤ v.length
      · obtain ⟨n, h1⟩ := readBe16_ok (show 1 + 2 ≤ v.length by omega)
        exact leaf (3 + n) (by omega) (fun f => by
          rw [hm1, if_neg c9, if_pos c10, long 3 hl]
          simp only [Res.require_true, Cnt.monadLift_eq, Cnt.lift_ok, pure_bind, h1]; rfl)
      · exact fail (fun f => by rw [hm1, if_neg c9, if_pos c10, short 3 hl]; rfl)
    by_cases c11 : b.toNat = 0xdb ∨ b.toNat = 0xc6
    · by_cases hl : 5 ≤ v.length
      · obtain ⟨n, h1⟩ := readBe32_ok (show 1 + 4 ≤ v.length by omega)
        have h2 := readBe32_lt h1
        refine .inl ⟨.ok ((5 + n) % 2 ^ 32), fun s hs => ?_, fun f => by
          rw [hm1, if_neg c9, if_neg c10, if_pos c11, long 5 hl]
          simp only [Res.require_true, Cnt.monadLift_eq, Cnt.lift_ok, pure_bind, h1]; rfl⟩
        injection hs with hs
        by_cases hn : 2 ^ 32 - 5 ≤ n
        · refine .inr ⟨?_, n, h1, hn⟩
          rw [hb0]
          rcases c11 with c | c <;> simp [c]
        · left; omega
      · exact fail (fun f => by rw [hm1, if_neg c9, if_neg c10, if_pos c11, short 5 hl]; rfl)
    have hm2 : ∀ f, mpSkipC (f + 1) v = tick >>= fun _ => _ := fun f => by
      rw [hm1, if_neg c9, if_neg c10, if_neg c11]
    by_cases c12 : b.toNat = 0xdc
    · by_cases hl : 3 ≤ v.length
      · obtain ⟨n, h1⟩ := readBe16_ok (show 1 + 2 ≤ v.length by omega)
        have h2 := readBe16_lt h1
        exact .inr ⟨n, 3, by omega, hl, by omega, fun f => by
          rw [hm2, if_pos c12, long 3 hl]; simp only [Res.require_true, Cnt.monadLift_eq, Cnt.lift_ok, pure_bind, h1]⟩
      · exact fail (fun f => by rw [hm2, if_pos c12, short 3 hl]; rfl)
    by_cases c13 : b.toNat = 0xdd
    · by_cases hl : 5 ≤ v.length
      · obtain ⟨n, h1⟩ := readBe32_ok (show 1 + 4 ≤ v.length by omega)
        have h2 := readBe32_lt h1
        exact .inr ⟨n, 5, by omega, hl, by omega, fun f => by
          rw [hm2, if_neg c12, if_pos c13, long 5 hl]; simp only [Res.require_true, Cnt.monadLift_eq, Cnt.lift_ok, pure_bind, h1]⟩
      · exact fail (fun f => by rw [hm2, if_neg c12, if_pos c13, short 5 hl]; rfl)
    by_cases c14 : b.toNat = 0xde
    · by_cases hl : 3 ≤ v.length
      · obtain ⟨n, h1⟩ := readBe16_ok (show 1 + 2 ≤ v.length by omega)
        have h2 := readBe16_lt h1
        exact .inr ⟨2 * n, 3, by omega, hl, by omega, fun f => by
          rw [hm2, if_neg c12, if_neg c13, if_pos c14, long 3 hl]
          simp only [Res.require_true, Cnt.monadLift_eq, Cnt.lift_ok, pure_bind, h1]⟩
      · exact fail (fun f => by rw [hm2, if_neg c12, if_neg c13, if_pos c14, short 3 hl]; rfl)
    by_cases c15 : b.toNat = 0xdf
    · by_cases hl : 5 ≤ v.length
      · obtain ⟨n, h1⟩ := readBe32_ok (show 1 + 4 ≤ v.length by omega)
        have h2 := readBe32_lt h1
        exact .inr ⟨2 * n, 5, by omega, hl, by omega, fun f => by
          rw [hm2, if_neg c12, if_neg c13, if_neg c14, if_pos c15, long 5 hl]
          simp only [Res.require_true, Cnt.monadLift_eq, Cnt.lift_ok, pure_bind, h1]⟩
      · exact fail (fun f => by
          rw [hm2, if_neg c12, if_neg c13, if_neg c14, if_pos c15, short 5 hl]; rfl)
    · exact fail (fun f => by rw [hm2, if_neg c12, if_neg c13, if_neg c14, if_neg c15]; rfl)

/-! ## Bounds on arbitrary bytes -/

/-- The steps of a call: bounded by what is left of the buffer, and by what it reports if it succeeds. -/
def Cheap (a b K : Nat) (w : Bytes) (x : Cnt Nat) : Prop :=
  x.cost ≤ b + K * (w.length + 1) ∧ ∀ s, x.res = .ok s → x.cost ≤ a + K * s

theorem skipLoopC_past {rec : Bytes → Cnt Nat} {v : Bytes} {n off : Nat} (h : v.length < off) : (skipLoopC rec v n off).cost = 0 := by
  cases n with
  | zero => rfl
  | succ n =>
    simp only [skipLoopC, subspan, if_neg (show ¬ off ≤ v.length by omega)]
    rfl

theorem skipLoopC_cheap {rec : Bytes → Cnt Nat} {v : Bytes} {a b K : Nat}
    (h : ∀ o, 1 ≤ o → o ≤ v.length → Cheap a b K (v.drop o) (rec (v.drop o))) : ∀ n off, 1 ≤ off →
    (skipLoopC rec v n off).cost ≤ n * a + b + K * (v.length + 1 - off) ∧
      ∀ r, (skipLoopC rec v n off).res = .ok r → (skipLoopC rec v n off).cost + K * off ≤ n * a + K * r
  | 0, off, _ => by
    refine ⟨by simp [skipLoopC], fun r hr => ?_⟩
    simp only [skipLoopC, Cnt.pure_res, Res.ok.injEq] at hr
    simp [skipLoopC, hr]
  | n + 1, off, h1 => by
    by_cases ho : off ≤ v.length
    · obtain ⟨c1, c2⟩ := h off h1 ho
      have e : skipLoopC rec v (n + 1) off = rec (v.drop off) >>= fun s => skipLoopC rec v n (off + s) := by
        simp only [skipLoopC, subspan, if_pos ho, Cnt.monadLift_eq, Cnt.lift_ok, pure_bind]
      rw [e]
      have hl : (v.drop off).length + 1 = v.length + 1 - off := by simp; omega
      rw [hl] at c1
      have hm : (n + 1) * a = n * a + a := Nat.succ_mul n a
      cases hr : (rec (v.drop off)).res with
      | ok s =>
        obtain ⟨i1, i2⟩ := skipLoopC_cheap h n (off + s) (by omega)
        have c3 := c2 s hr
        rw [Cnt.bind_ok_cost hr, Cnt.bind_res, hr, Res.ok_bind]
        refine ⟨?_, fun r hrr => ?_⟩
        · by_cases hp : off + s ≤ v.length
          · have e1 : K * (v.length + 1 - off) = K * s + K * (v.length + 1 - (off + s)) := by
              rw [← Nat.mul_add]; congr 1; omega
            omega
          · rw [skipLoopC_past (by omega)]; omega
        · have := i2 r hrr
          have e1 : K * (off + s) = K * off + K * s := Nat.mul_add ..
          omega
      | _ =>
        rw [Cnt.bind_cost_of (by rw [hr]; intro a; exact fun h => by cases h), Cnt.bind_res, hr]
        exact ⟨by omega, fun r h => by cases h⟩
    · rw [skipLoopC_past (by omega)]
      refine ⟨by omega, fun r hr => ?_⟩
      simp only [skipLoopC, subspan, if_neg ho] at hr
      cases hr

theorem mpSkipC_cheap {a b K : Nat} (hK : ∀ n, n < 2 ^ 33 → 1 + n * a ≤ K) {P : Bytes → Prop} (hP : ∀ v o, P v → P (v.drop o))
    (hleaf : ∀ v s, P v → 1 ≤ s ∨ Wraps v → 1 ≤ a + K * s) : ∀ f v, P v → Cheap a b K v (mpSkipC f v)
  | 0, v, _ => ⟨Nat.zero_le _, fun s h => by cases h⟩
  | f + 1, v, hv => by
    have hK1 : 1 ≤ K := by have := hK 0 (by omega); omega
    rcases mpSkipC_step v with ⟨r, h1, h⟩ | ⟨n, off, h1, h2, h3, h⟩
    · rw [h]
      refine ⟨?_, fun s hs => hleaf v s hv (h1 s hs)⟩
      have : 1 * (v.length + 1) ≤ K * (v.length + 1) := Nat.mul_le_mul_right _ hK1
      show 1 ≤ _
      omega
    · rw [h]
      obtain ⟨i1, i2⟩ := skipLoopC_cheap (rec := mpSkipC f) (v := v) (a := a) (b := b) (K := K)
        (fun o _ _ => mpSkipC_cheap hK hP hleaf f _ (hP v o hv)) n off h1
      have k := hK n h3
      have k1 : K * 1 ≤ K * off := Nat.mul_le_mul_left _ h1
      have e : K * (v.length + 1) = K * off + K * (v.length + 1 - off) := by
        rw [← Nat.mul_add]; congr 1; omega
      refine ⟨?_, fun s hs => ?_⟩
      · rw [Cnt.tick_bind_cost]; omega
      · rw [Cnt.bind_res, Cnt.tick_res, Res.ok_bind] at hs
        have := i2 s hs
        rw [Cnt.tick_bind_cost]; omega

/-- No item that starts anywhere in `b` announces a length that wraps. -/
def NoWrap (b : Bytes) : Prop := ∀ o, ¬ Wraps (b.drop o)

theorem NoWrap.drop {b : Bytes} (h : NoWrap b) (o : Nat) : NoWrap (b.drop o) := fun p => by
  rw [List.drop_drop]; exact h _

/-! ## Lookups -/

/-- `KeysView::iterator::operator*`, msgpack.hpp:394-401 -/
def keyDerefC (v : Bytes) (off : Nat) : Cnt Bytes := do
  let ks ← subspan v off
  let sz ← skipC ks
  let kd ← first ks sz
  asStringView kd

/-- `KeysView::iterator::operator++`, msgpack.hpp:402-410 -/
def keyNextC (v : Bytes) (off : Nat) : Cnt Nat := do
  let ks ← subspan v off
  let ksz ← skipC ks
  let vs ← subspan v (off + ksz)
  let vsz ← skipC vs
  pure (off + (ksz + vsz))

/-- `KeysView::end`, msgpack.hpp:419-429 -/
def keysEndC (v : Bytes) (n off : Nat) : Cnt Nat := skipLoopC skipC v (2 * n) off

/-- Range-for over the keys, msgpack.hpp:394-415 -/
def keysFromC (v : Bytes) (count endOff : Nat) : Nat → Nat → Nat → Cnt (List Bytes)
  | 0, _, _ => Cnt.lift .diverge
  | f + 1, i, off =>
    if i = count ∧ off = endOff then pure []
    else do
      let k ← keyDerefC v off
      let off' ← keyNextC v off
      let ks ← keysFromC v count endOff f (i + 1) off'
      pure (k :: ks)

/-- `mapKeys()`, msgpack.hpp:432-436, followed by a complete range-for. -/
def mapKeysC (v : Bytes) : Cnt (List Bytes) := do
  Res.require (isMap v) .deser
  let (n, off) ← mapInfo v
  let e ← keysEndC v n off
  keysFromC v n e (n + 1) 0 off

/-- Loop of `contains`, msgpack.hpp:441-453. -/
def containsFromC (v key : Bytes) : Nat → Nat → Cnt Bool
  | 0, _ => pure false
  | n + 1, off => do
    let ks ← subspan v off
    let ksz ← skipC ks
    let kd ← first ks ksz
    let vs ← subspan v (off + ksz)
    let vsz ← skipC vs
    let hit ← keyHit kd key
    if hit then pure true
    else containsFromC v key n (off + ksz + vsz)

/-- `contains`, msgpack.hpp:438-454 -/
def containsC (v key : Bytes) : Cnt Bool :=
  if isMap v then do
    let (n, off) ← mapInfo v
    containsFromC v key n off
  else pure false

/-- Loop of `operator[](string_view)`, msgpack.hpp:459-470. -/
def getKeyFromC (v key : Bytes) : Nat → Nat → Cnt Bytes
  | 0, _ => Cnt.lift (.err .deser)
  | n + 1, off => do
    let ks ← subspan v off
    let ksz ← skipC ks
    let kd ← first ks ksz
    let vs ← subspan v (off + ksz)
    let vsz ← skipC vs
    let hit ← keyHit kd key
    if hit then first vs vsz
    else getKeyFromC v key n (off + ksz + vsz)

/-- `operator[](string_view)`, msgpack.hpp:456-472 -/
def getKeyC (v key : Bytes) : Cnt Bytes := do
  Res.require (isMap v) .deser
  let (n, off) ← mapInfo v
  getKeyFromC v key n off

/-- `operator[](size_t)`, msgpack.hpp:479-485 -/
def getIdxC (v : Bytes) (idx : Nat) : Cnt Bytes := do
  let (n, off) ← arrInfo v
  Res.require (decide (idx < n)) .deser
  let off ← skipLoopC skipC v idx off
  let w ← subspan v off
  let sz ← skipC w
  first w sz

/-- The lookups of the reader with the calls of `mp_skip` they make. -/
def costs : Costs Bytes where
  mapKeys := mapKeysC
  getKey := getKeyC
  arraySize v := Cnt.lift (arraySize v)
  getIdx := getIdxC

theorem skipC_fun : (fun w => (skipC w).res) = skip := by funext w; exact skipC_res w

theorem keysFromC_res {v : Bytes} {count endOff : Nat} : ∀ f i off,
    (keysFromC v count endOff f i off).res = keysFrom v count endOff f i off
  | 0, _, _ => rfl
  | f + 1, i, off => by
    simp only [keysFromC, keysFrom, Cnt.ite_res, Cnt.bind_res, Cnt.pure_res, Res.pure_eq, keyDerefC, keyNextC, keyDeref, keyNext,
      Cnt.monadLift_eq, Cnt.lift_res, skipC_res, keysFromC_res f]

theorem containsFromC_res {v key : Bytes} : ∀ n off, (containsFromC v key n off).res = containsFrom v key n off
  | 0, _ => rfl
  | n + 1, off => by
    simp only [containsFromC, containsFrom, Cnt.ite_res, Cnt.bind_res, Cnt.pure_res, Res.pure_eq,
      Cnt.monadLift_eq, Cnt.lift_res, skipC_res, containsFromC_res n]

theorem getKeyFromC_res {v key : Bytes} : ∀ n off, (getKeyFromC v key n off).res = getKeyFrom v key n off
  | 0, _ => rfl
  | n + 1, off => by
    simp only [getKeyFromC, getKeyFrom, Cnt.ite_res, Cnt.bind_res, Cnt.monadLift_eq, Cnt.lift_res, skipC_res, getKeyFromC_res n]

/-- Counting changes nothing. -/
theorem containsC_res (v key : Bytes) : (containsC v key).res = contains v key := by
  simp only [containsC, contains, Cnt.ite_res, Cnt.bind_res, Cnt.monadLift_eq, Cnt.lift_res, containsFromC_res, Cnt.pure_res, Res.pure_eq]

/-- Counting changes nothing. -/
theorem costs_of : costs.Of reader where
  mapKeys v := by
    show (mapKeysC v).res = mapKeys v
    simp only [mapKeysC, mapKeys, keysEndC, keysEnd, Cnt.bind_res, Cnt.monadLift_eq, Cnt.lift_res, skipLoopC_res, skipC_fun, keysFromC_res]
  getKey v k := by
    show (getKeyC v k).res = getKey v k
    simp only [getKeyC, getKey, Cnt.bind_res, Cnt.monadLift_eq, Cnt.lift_res, getKeyFromC_res]
  arraySize v := rfl
  getIdx v i := by
    show (getIdxC v i).res = getIdx v i
    simp only [getIdxC, getIdx, Cnt.bind_res, Cnt.monadLift_eq, Cnt.lift_res, skipLoopC_res, skipC_fun, skipC_res]

/-! ## Steps of the lookups -/

/-- `n` items from `off` on each take no more steps than they have bytes. -/
def Walk (v : Bytes) : Nat → Nat → Prop
  | 0, _ => True
  | n + 1, off => off ≤ v.length → (skipC (v.drop off)).cost ≤ v.length + 1 - off ∧
      ∀ s, (skipC (v.drop off)).res = .ok s → (skipC (v.drop off)).cost ≤ s ∧ Walk v n (off + s)

theorem walk_bind {α : Type} {v : Bytes} {n off : Nat} (hw : Walk v (n + 1) off) {k : Bytes → Nat → Cnt α}
    (hk : ∀ s, Walk v n (off + s) → (k (v.drop off) s).cost ≤ v.length + 1 - (off + s)) :
    (Cnt.lift (subspan v off) >>= fun w => skipC w >>= fun s => k w s).cost ≤ v.length + 1 - off := by
  by_cases ho : off ≤ v.length
  · obtain ⟨h1, h2⟩ := hw ho
    rw [subspan, if_pos ho, Cnt.lift_ok_bind]
    cases hr : (skipC (v.drop off)).res with
    | ok s =>
      rw [Cnt.bind_ok_cost hr]
      obtain ⟨h3, h4⟩ := h2 s hr
      have := hk s h4
      omega
    | _ =>
      rw [Cnt.bind_cost_of (by rw [hr]; intro a; exact fun h => by cases h)]
      exact h1
  · rw [subspan, if_neg ho]
    exact Nat.zero_le _

theorem walk_loop {v : Bytes} {m : Nat} : ∀ n off, Walk v (n + m) off → (skipLoopC skipC v n off).cost ≤ v.length + 1 - off ∧
    ∀ r, (skipLoopC skipC v n off).res = .ok r → (skipLoopC skipC v n off).cost + off ≤ r ∧ Walk v m r
  | 0, off, hw => by
    refine ⟨Nat.zero_le _, fun r hr => ?_⟩
    simp only [skipLoopC, Cnt.pure_res, Res.ok.injEq] at hr
    subst hr
    exact ⟨by simp [skipLoopC], by simpa using hw⟩
  | n + 1, off, hw => by
    rw [show n + 1 + m = (n + m) + 1 by omega] at hw
    refine ⟨?_, fun r hr => ?_⟩
    · exact walk_bind hw fun s hs => (walk_loop n (off + s) hs).1
    · by_cases ho : off ≤ v.length
      · obtain ⟨h1, h2⟩ := hw ho
        have e : skipLoopC skipC v (n + 1) off = skipC (v.drop off) >>= fun s => skipLoopC skipC v n (off + s) := by
          simp only [skipLoopC, subspan, if_pos ho, Cnt.monadLift_eq, Cnt.lift_ok, pure_bind]
        rw [e] at hr ⊢
        rw [Cnt.bind_res] at hr
        obtain ⟨s, hs, hr⟩ := Res.bind_eq_ok.1 hr
        obtain ⟨h3, h4⟩ := h2 s hs
        obtain ⟨i1, i2⟩ := (walk_loop n (off + s) h4).2 r hr
        rw [Cnt.bind_ok_cost hs]
        exact ⟨by omega, i2⟩
      · simp only [skipLoopC, subspan, if_neg ho] at hr
        cases hr

theorem walk_contains {v key : Bytes} : ∀ n off, Walk v (2 * n) off → (containsFromC v key n off).cost ≤ v.length + 1 - off
  | 0, _, _ => Nat.zero_le _
  | n + 1, off, hw =>
    walk_bind hw fun s hs => Cnt.lift_bind_le fun kd _ => walk_bind hs fun t ht => Cnt.lift_bind_le fun b _ =>
      Cnt.ite_cost_le (fun _ => Nat.zero_le _) fun _ => walk_contains n _ ht

theorem walk_getKey {v key : Bytes} : ∀ n off, Walk v (2 * n) off → (getKeyFromC v key n off).cost ≤ v.length + 1 - off
  | 0, _, _ => Nat.zero_le _
  | n + 1, off, hw =>
    walk_bind hw fun s hs => Cnt.lift_bind_le fun kd _ => walk_bind hs fun t ht => Cnt.lift_bind_le fun b _ =>
      Cnt.ite_cost_le (fun _ => Nat.zero_le _) fun _ => walk_getKey n _ ht

theorem walk_keys {v : Bytes} {count e : Nat} : ∀ n i off, i + n = count → Walk v (2 * n) off → skipLoop skip v (2 * n) off = .ok e →
    (keysFromC v count e (n + 1) i off).cost ≤ 2 * (v.length + 1 - off)
  | 0, i, off, hi, _, he => by
    simp only [skipLoop, Res.pure_eq, Res.ok.injEq] at he
    simp only [keysFromC, if_pos (show i = count ∧ off = e from ⟨by omega, he⟩)]
    exact Nat.zero_le _
  | n + 1, i, off, hi, hw, he => by
    obtain ⟨w, hw1, he⟩ := Res.bind_eq_ok.1 he
    obtain ⟨s, hs, he⟩ := Res.bind_eq_ok.1 he
    obtain ⟨w', hw2, he⟩ := Res.bind_eq_ok.1 he
    obtain ⟨t, ht, he⟩ := Res.bind_eq_ok.1 he
    have ho := (subspan_eq_ok hw1).1
    have hp := (subspan_eq_ok hw2).1
    have ew : w = v.drop off := by simpa [subspan, if_pos ho] using hw1.symm
    have ew' : w' = v.drop (off + s) := by simpa [subspan, if_pos hp] using hw2.symm
    rw [ew, ← skipC_res] at hs
    rw [ew', ← skipC_res] at ht
    obtain ⟨h1, h2⟩ := hw ho
    obtain ⟨h3, h4⟩ := h2 s hs
    obtain ⟨h5, h6⟩ := h4 hp
    obtain ⟨h7, h8⟩ := h6 t ht
    have ih := walk_keys (count := count) n (i + 1) (off + s + t) (by omega) h8 he
    have d1 : (keyDerefC v off).cost ≤ (skipC (v.drop off)).cost := by
      simp only [keyDerefC, subspan, if_pos ho, Cnt.monadLift_eq, Cnt.lift_ok, pure_bind]
      exact Cnt.bind_le (n := 0) (Nat.le_refl _) (fun a _ => Cnt.lift_bind_le fun b _ => Nat.le_refl _)
    have d2 : keyNextC v off = ⟨(skipC (v.drop off)).cost + (skipC (v.drop (off + s))).cost, .ok (off + s + t)⟩ := by
      simp only [keyNextC, subspan, if_pos ho, Cnt.monadLift_eq, Cnt.lift_ok, pure_bind]
      show Cnt.bind _ _ = _
      simp only [Cnt.bind, hs, if_pos hp, Cnt.lift_ok, pure_bind]
      show Cnt.mk (_ + (Cnt.bind _ _).cost) (Cnt.bind _ _).res = _
      simp only [Cnt.bind, ht, Cnt.pure_cost, Cnt.pure_res, Nat.add_zero, Nat.add_assoc]
    have hc : ¬ (i = count ∧ off = e) := fun h => by omega
    rw [keysFromC, if_neg hc, d2]
    have h9 : (skipC (v.drop off)).cost + ((skipC (v.drop off)).cost + (skipC (v.drop (off + s))).cost +
        2 * (v.length + 1 - (off + s + t))) ≤ 2 * (v.length + 1 - off) := by omega
    refine Nat.le_trans (Cnt.bind_le d1 (n := (skipC (v.drop off)).cost + (skipC (v.drop (off + s))).cost + 2 * (v.length + 1 - (off + s + t)))
      fun k _ => ?_) h9
    rw [Cnt.bind_ok_cost (a := off + s + t) rfl]
    refine Nat.add_le_add_left ?_ _
    exact Cnt.bind_le (n := 0) ih (fun a _ => Nat.le_refl _)

/-- The elements of the array `v` starts with can be walked. -/
def WalksArr (v : Bytes) : Prop := ∀ n off, arrInfo v = .ok (n, off) → Walk v n off

/-- The entries of the map `v` starts with can be walked. -/
def WalksMap (v : Bytes) : Prop := ∀ n off, mapInfo v = .ok (n, off) → Walk v (2 * n) off

theorem WalksArr.getIdx {v : Bytes} (h : WalksArr v) (i : Nat) : (getIdxC v i).cost ≤ v.length + 1 := by
  refine Cnt.lift_bind_le fun x hx => ?_
  obtain ⟨n, off⟩ := x
  refine Cnt.lift_bind_le fun _ hr => ?_
  have hi := of_decide_eq_true (Res.require_eq_ok.1 hr)
  have hw : Walk v (i + (n - i - 1 + 1)) off := by
    rw [show i + (n - i - 1 + 1) = n by omega]
    exact h n off hx
  obtain ⟨h1, h2⟩ := walk_loop i off hw
  cases hl : (skipLoopC skipC v i off).res with
  | ok r =>
    obtain ⟨h3, h4⟩ := h2 r hl
    rw [Cnt.bind_ok_cost hl]
    have := walk_bind (k := fun w s => Cnt.lift (first w s)) h4 (fun s _ => Nat.zero_le _)
    simp only [Cnt.monadLift_eq]
    omega
  | _ =>
    rw [Cnt.bind_cost_of (by rw [hl]; intro a; exact fun h => by cases h)]
    omega

theorem WalksMap.getKey {v : Bytes} (h : WalksMap v) (key : Bytes) : (getKeyC v key).cost ≤ v.length + 1 := by
  refine Cnt.lift_bind_le fun _ _ => Cnt.lift_bind_le fun x hx => ?_
  obtain ⟨n, off⟩ := x
  exact Nat.le_trans (walk_getKey n off (h n off hx)) (by omega)

theorem WalksMap.contains {v : Bytes} (h : WalksMap v) (key : Bytes) : (containsC v key).cost ≤ v.length + 1 := by
  refine Cnt.ite_cost_le (fun _ => Cnt.lift_bind_le fun x hx => ?_) fun _ => Nat.zero_le _
  obtain ⟨n, off⟩ := x
  exact Nat.le_trans (walk_contains n off (h n off hx)) (by omega)

theorem WalksMap.mapKeys {v : Bytes} (h : WalksMap v) : (mapKeysC v).cost ≤ 3 * (v.length + 1) := by
  refine Cnt.lift_bind_le fun _ _ => Cnt.lift_bind_le fun x hx => ?_
  obtain ⟨n, off⟩ := x
  have hw := h n off hx
  have h1 := (walk_loop (m := 0) (2 * n) off hw).1
  refine Nat.le_trans (Cnt.bind_le (n := 2 * (v.length + 1 - off)) h1 fun e he => ?_) (by omega)
  rw [keysEndC, skipLoopC_res, skipC_fun] at he
  exact walk_keys n 0 off (by omega) hw he

/-! ## Where items can be walked -/

/-- Any bytes: `2^34` steps for every byte. -/
theorem skipC_any (v : Bytes) : (skipC v).cost ≤ 1 + 2 ^ 34 * (v.length + 1) :=
  (mpSkipC_cheap (a := 1) (b := 1) (K := 2 ^ 34) (P := fun _ => True) (fun n hn => by omega) (fun _ _ _ => trivial)
    (fun _ s _ _ => by omega) _ v trivial).1

theorem skipC_noWrap {v : Bytes} (h : NoWrap v) : Cheap 0 0 1 v (skipC v) :=
  mpSkipC_cheap (P := NoWrap) (fun n hn => by omega) (fun _ o h => h.drop o)
    (fun w s hw hs => by
      rcases hs with hs | hs
      · omega
      · exact absurd hs (hw 0)) _ v h

theorem NoWrap.walk {v : Bytes} (h : NoWrap v) : ∀ n off, Walk v n off
  | 0, _ => trivial
  | n + 1, off => fun ho => by
    obtain ⟨h1, h2⟩ := skipC_noWrap (h.drop off)
    simp only [List.length_drop, Nat.zero_add, Nat.one_mul] at h1 h2
    exact ⟨by omega, fun s hs => ⟨h2 s hs, NoWrap.walk h n _⟩⟩

theorem NoWrap.arr {v : Bytes} (h : NoWrap v) : WalksArr v := fun _ _ _ => h.walk _ _

theorem NoWrap.map {v : Bytes} (h : NoWrap v) : WalksMap v := fun _ _ _ => h.walk _ _

theorem readBe32_append {v t : Bytes} {p n : Nat} (h : readBe32 v p = .ok n) : readBe32 (v ++ t) p = .ok n := by
  have e : ∀ q x, byteAt v q = .ok x → byteAt (v ++ t) q = .ok x := by
    intro q x hx
    simp only [byteAt] at hx ⊢
    cases hq : v[q]? with
    | none => rw [hq] at hx; cases hx
    | some y =>
      rw [hq] at hx
      rw [List.getElem?_append_left (List.getElem?_eq_some_iff.1 hq).1, hq]
      exact hx
  obtain ⟨x0, h0, h⟩ := Res.bind_eq_ok.1 h
  obtain ⟨x1, h1, h⟩ := Res.bind_eq_ok.1 h
  obtain ⟨x2, h2, h⟩ := Res.bind_eq_ok.1 h
  obtain ⟨x3, h3, h⟩ := Res.bind_eq_ok.1 h
  simp only [readBe32, e _ _ h0, e _ _ h1, e _ _ h2, e _ _ h3, Res.ok_bind]
  exact h

theorem Wraps.append {v t : Bytes} (h : Wraps v) : Wraps (v ++ t) := by
  obtain ⟨h1, n, h2, h3⟩ := h
  refine ⟨?_, n, readBe32_append h2, h3⟩
  cases v with
  | nil => rcases h1 with h | h <;> cases h
  | cons b v => exact h1

theorem NoWrap.take {b : Bytes} (h : NoWrap b) (n : Nat) : NoWrap (b.take n) := fun o hw => by
  have e : b.drop o = (b.take n).drop o ++ (b.drop (max n o)) := by
    rw [List.drop_take]
    by_cases hno : o ≤ n
    · rw [Nat.max_eq_left hno]
      have : b.drop n = (b.drop o).drop (n - o) := by rw [List.drop_drop]; congr 1; omega
      rw [this, List.take_append_drop]
    · rw [Nat.max_eq_right (by omega), show n - o = 0 by omega]; simp
  exact h o (by rw [e]; exact hw.append)

theorem first_part {v w c : Bytes} {off n : Nat} (h1 : subspan v off = .ok w) (h2 : first w n = .ok c) : c = (v.drop off).take n := by
  have ho := (subspan_eq_ok h1).1
  simp only [subspan, if_pos ho, Res.ok.injEq] at h1
  subst h1
  unfold first at h2
  split at h2
  · injection h2 with h2; exact h2.symm
  · cases h2

theorem getKeyFrom_part {v key c : Bytes} : ∀ n off, getKeyFrom v key n off = .ok c → ∃ o m, c = (v.drop o).take m
  | 0, _, h => by cases h
  | n + 1, off, h => by
    obtain ⟨ks, _, h⟩ := Res.bind_eq_ok.1 h
    obtain ⟨ksz, _, h⟩ := Res.bind_eq_ok.1 h
    obtain ⟨kd, _, h⟩ := Res.bind_eq_ok.1 h
    obtain ⟨vs, h1, h⟩ := Res.bind_eq_ok.1 h
    obtain ⟨vsz, _, h⟩ := Res.bind_eq_ok.1 h
    obtain ⟨hit, _, h⟩ := Res.bind_eq_ok.1 h
    split at h
    · exact ⟨_, _, first_part h1 h⟩
    · exact getKeyFrom_part n _ h

theorem getKey_part {v key c : Bytes} (h : getKey v key = .ok c) : ∃ o m, c = (v.drop o).take m := by
  obtain ⟨_, _, h⟩ := Res.bind_eq_ok.1 h
  obtain ⟨⟨n, off⟩, _, h⟩ := Res.bind_eq_ok.1 h
  exact getKeyFrom_part n off h

theorem getIdx_part {v c : Bytes} {i : Nat} (h : getIdx v i = .ok c) : ∃ o m, c = (v.drop o).take m := by
  obtain ⟨⟨n, off⟩, _, h⟩ := Res.bind_eq_ok.1 h
  obtain ⟨_, _, h⟩ := Res.bind_eq_ok.1 h
  obtain ⟨r, _, h⟩ := Res.bind_eq_ok.1 h
  obtain ⟨w, h1, h⟩ := Res.bind_eq_ok.1 h
  obtain ⟨sz, _, h⟩ := Res.bind_eq_ok.1 h
  exact ⟨_, _, first_part h1 h⟩

/-- Any bytes of at most `N` without lengths that wrap. -/
theorem within_noWrap (N : Nat) : Costs.Within reader costs (fun w => NoWrap w ∧ w.length ≤ N) (N + 1) where
  mapKeys r h _ _ := by
    have h1 := h.1.map.mapKeys
    have h2 := h.2
    show (mapKeysC r).cost ≤ _
    omega
  getKey r k h _ _ := by
    have h1 := h.1.map.getKey k
    have h2 := h.2
    refine ⟨by show (getKeyC r k).cost ≤ _; omega, fun c hc => ?_⟩
    rw [costs_of.getKey] at hc
    obtain ⟨o, m, rfl⟩ := getKey_part hc
    exact ⟨(h.1.drop o).take m, by simp; omega⟩
  arraySize r _ _ _ := Nat.zero_le _
  getIdx r i h _ _ := by
    have h1 := h.1.arr.getIdx i
    have h2 := h.2
    refine ⟨by show (getIdxC r i).cost ≤ _; omega, fun c hc => ?_⟩
    rw [costs_of.getIdx] at hc
    obtain ⟨o, m, rfl⟩ := getIdx_part hc
    exact ⟨(h.1.drop o).take m, by simp; omega⟩

/-! ## Items that stand still -/

theorem skipLoopC_still {rec : Bytes → Cnt Nat} {v : Bytes} {off : Nat} (ho : off ≤ v.length) (h : rec (v.drop off) = ⟨1, .ok 0⟩) :
    ∀ n, skipLoopC rec v n off = ⟨n, .ok off⟩
  | 0 => rfl
  | n + 1 => by
    simp only [skipLoopC, subspan, if_pos ho, Cnt.monadLift_eq, Cnt.lift_ok_bind, h]
    show Cnt.mk (1 + (skipLoopC rec v n off).cost) (skipLoopC rec v n off).res = _
    rw [skipLoopC_still ho h n, Nat.add_comm]

end Zer.MsgPack
