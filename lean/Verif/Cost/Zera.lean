import Verif.Cost.Light
import Verif.Zera.Conform

/-!
# Steps of the ZERA reader

The functions of `Verif/Zera/Model.lean` with one step for every entry of an object that is looked at. Not counted: the bytes of
the keys.
-/

namespace Zer.Zera

/-- `keysFrom` with a step for every key, zera.hpp:366-381 and 386-390. -/
def keysFromC (v : View) : Nat → Nat → Cnt (List Bytes)
  | 0, _ => pure []
  | n + 1, cur => do
    Cnt.tick
    let k ← v.keyDeref cur
    let cur' ← v.keyNext cur
    let ks ← keysFromC v n cur'
    pure (k :: ks)

/-- `mapKeys` with the steps of `keysFromC`, zera.hpp:393-401. -/
def mapKeysC (v : View) : Cnt (List Bytes) := do
  let t ← v.tag
  Res.require (decide (t = tObject)) .deser
  v.requireFlagsOk
  let objOfs ← v.a
  let p ← v.envPtrAt objOfs 4
  let count ← readU32 v.buf p
  let entries ← v.envPtrAt (u32 (objOfs + 4)) 0
  keysFromC v count entries

/-- `containsFrom` with a step for every entry, zera.hpp:410-419. -/
def containsFromC (v : View) (key : Bytes) : Nat → Nat → Cnt Bool
  | 0, _ => pure false
  | n + 1, ofs => do
    Cnt.tick
    let e ← v.envPtrAt (u32 ofs) 4
    let keyLen ← readU16 v.buf e
    let _ ← readU16 v.buf (e + 2)
    let kp ← v.envPtrAt (u32 (ofs + 4)) keyLen
    let hit ← v.keyHit key kp keyLen
    if hit then pure true
    else do
      let _ ← v.envPtrAt (u32 (ofs + (4 + keyLen + 16))) 0
      containsFromC v key n (ofs + (4 + keyLen + 16))

/-- `contains` with the steps of `containsFromC`, zera.hpp:403-421. -/
def containsC (v : View) (key : Bytes) : Cnt Bool := do
  let m ← v.isMap
  if !m then pure false
  else do
    v.requireFlagsOk
    let objOfs ← v.a
    let p ← v.envPtrAt objOfs 4
    let count ← readU32 v.buf p
    containsFromC v key count (u32 (objOfs + 4))

/-- `getKeyFrom` with a step for every entry, zera.hpp:472-484. -/
def getKeyFromC (v : View) (key : Bytes) : Nat → Nat → Cnt View
  | 0, _ => Cnt.lift (.err .deser)
  | n + 1, ofs => do
    Cnt.tick
    let e ← v.envPtrAt (u32 ofs) 4
    let keyLen ← readU16 v.buf e
    let _ ← readU16 v.buf (e + 2)
    let kp ← v.envPtrAt (u32 (ofs + 4)) keyLen
    let vp ← v.envPtrAt (u32 (ofs + 4 + keyLen)) 16
    let hit ← v.keyHit key kp keyLen
    if hit then pure { v with vr := some vp }
    else do
      let _ ← v.envPtrAt (u32 (ofs + (4 + keyLen + 16))) 0
      getKeyFromC v key n (ofs + (4 + keyLen + 16))

/-- `operator[](string_view)` with the steps of `getKeyFromC`, zera.hpp:465-485. -/
def getKeyC (v : View) (key : Bytes) : Cnt View := do
  let t ← v.tag
  Res.require (decide (t = tObject)) .deser
  v.requireFlagsOk
  let objOfs ← v.a
  let p ← v.envPtrAt objOfs 4
  let count ← readU32 v.buf p
  getKeyFromC v key count (u32 (objOfs + 4))

/-- The steps of the ZERA reader. Elements are found by their index, zera.hpp:453-463. -/
def costs : Costs View where
  mapKeys := mapKeysC
  getKey := getKeyC
  arraySize r := Cnt.lift r.arraySize
  getIdx r i := Cnt.lift (r.getIdx i)

theorem keysFromC_res (v : View) : ∀ n cur, (keysFromC v n cur).res = v.keysFrom n cur
  | 0, _ => rfl
  | n + 1, cur => by
    simp only [keysFromC, View.keysFrom, Cnt.bind_res, Cnt.tick_res, Cnt.monadLift_eq, Cnt.lift_res, Res.ok_bind, keysFromC_res v n]
    rfl

theorem containsFromC_res (v : View) (key : Bytes) : ∀ n ofs, (containsFromC v key n ofs).res = v.containsFrom key n ofs
  | 0, _ => rfl
  | n + 1, ofs => by
    simp only [containsFromC, View.containsFrom, Cnt.bind_res, Cnt.tick_res, Cnt.monadLift_eq, Cnt.lift_res, Res.ok_bind, Cnt.ite_res,
      containsFromC_res v key n]
    rfl

theorem getKeyFromC_res (v : View) (key : Bytes) : ∀ n ofs, (getKeyFromC v key n ofs).res = v.getKeyFrom key n ofs
  | 0, _ => rfl
  | n + 1, ofs => by
    simp only [getKeyFromC, View.getKeyFrom, Cnt.bind_res, Cnt.tick_res, Cnt.monadLift_eq, Cnt.lift_res, Res.ok_bind, Cnt.ite_res,
      getKeyFromC_res v key n]
    rfl

theorem mapKeysC_res (v : View) : (mapKeysC v).res = v.mapKeys := by
  simp only [mapKeysC, View.mapKeys, Cnt.bind_res, Cnt.monadLift_eq, Cnt.lift_res, keysFromC_res]

theorem containsC_res (v : View) (key : Bytes) : (containsC v key).res = v.contains key := by
  simp only [containsC, View.contains, Cnt.bind_res, Cnt.monadLift_eq, Cnt.lift_res, Cnt.ite_res, containsFromC_res]
  rfl

theorem getKeyC_res (v : View) (key : Bytes) : (getKeyC v key).res = v.getKey key := by
  simp only [getKeyC, View.getKey, Cnt.bind_res, Cnt.monadLift_eq, Cnt.lift_res, getKeyFromC_res]

theorem costs_of : costs.Of reader where
  mapKeys := mapKeysC_res
  getKey := getKeyC_res
  arraySize _ := rfl
  getIdx _ _ := rfl

/-! ## Bounds for any bytes -/

theorem u32_lt (n : Nat) (h : n < 2 ^ 32) : u32 n = n := Nat.mod_eq_of_lt h

/-- Each entry takes 20 bytes of the envelope at least. -/
theorem containsFromC_cost {v : View} (hE : v.envSize + 16 < 2 ^ 32) (key : Bytes) : ∀ n ofs, ofs ≤ v.envSize →
    (containsFromC v key n ofs).cost ≤ n ∧ 20 * (containsFromC v key n ofs).cost + ofs ≤ v.envSize + 20
  | 0, ofs, h => ⟨Nat.le_refl _, show 20 * 0 + ofs ≤ _ by omega⟩
  | n + 1, ofs, h => by
    have hb : ∃ m, m ≤ n ∧ 20 * m + ofs ≤ v.envSize ∧ (containsFromC v key (n + 1) ofs).cost ≤ 1 + m := by
      refine ⟨min n ((v.envSize - ofs) / 20), by omega, by omega, ?_⟩
      rw [containsFromC, Cnt.tick_bind_cost]
      refine Nat.add_le_add_left ?_ 1
      refine Cnt.lift_bind_le fun e he => Cnt.lift_bind_le fun kl _ => Cnt.lift_bind_le fun _ _ => Cnt.lift_bind_le fun kp hkp =>
        Cnt.lift_bind_le fun hit _ => Cnt.ite_cost_le (fun _ => Nat.zero_le _) fun _ => Cnt.lift_bind_le fun _ hn => ?_
      rw [u32_lt _ (by omega)] at he
      have he := (envPtrAt_eq he).2
      rw [u32_lt _ (by omega)] at hkp
      have hkp := (envPtrAt_eq hkp).2
      rw [u32_lt _ (by omega)] at hn
      have hn := (envPtrAt_eq hn).2
      obtain ⟨i1, i2⟩ := containsFromC_cost hE key n (ofs + (4 + kl + 16)) (by omega)
      omega
    obtain ⟨m, h1, h2, h3⟩ := hb
    omega

theorem getKeyFromC_cost {v : View} (hE : v.envSize < 2 ^ 32) (key : Bytes) : ∀ n ofs, ofs ≤ v.envSize →
    (getKeyFromC v key n ofs).cost ≤ n ∧ 20 * (getKeyFromC v key n ofs).cost + ofs ≤ v.envSize + 20
  | 0, ofs, h => ⟨Nat.le_refl _, show 20 * 0 + ofs ≤ _ by omega⟩
  | n + 1, ofs, h => by
    have hb : ∃ m, m ≤ n ∧ 20 * m + ofs ≤ v.envSize ∧ (getKeyFromC v key (n + 1) ofs).cost ≤ 1 + m := by
      refine ⟨min n ((v.envSize - ofs) / 20), by omega, by omega, ?_⟩
      rw [getKeyFromC, Cnt.tick_bind_cost]
      refine Nat.add_le_add_left ?_ 1
      refine Cnt.lift_bind_le fun e he => Cnt.lift_bind_le fun kl _ => Cnt.lift_bind_le fun _ _ => Cnt.lift_bind_le fun kp hkp =>
        Cnt.lift_bind_le fun vp hvp => Cnt.lift_bind_le fun hit _ => Cnt.ite_cost_le (fun _ => Nat.zero_le _) fun _ =>
        Cnt.lift_bind_le fun _ hn => ?_
      rw [u32_lt _ (by omega)] at he
      have he := (envPtrAt_eq he).2
      rw [u32_lt _ (by omega)] at hkp
      have hkp := (envPtrAt_eq hkp).2
      rw [u32_lt _ (by omega)] at hvp
      have hvp := (envPtrAt_eq hvp).2
      rw [u32_lt _ (by omega)] at hn
      have hn := (envPtrAt_eq hn).2
      obtain ⟨i1, i2⟩ := getKeyFromC_cost hE key n (ofs + (4 + kl + 16)) (by omega)
      omega
    obtain ⟨m, h1, h2, h3⟩ := hb
    omega

theorem keysFromC_cost {v : View} (hE : v.envSize < 2 ^ 32) : ∀ n o, o ≤ v.envSize →
    (keysFromC v n (HeaderSize + o)).cost ≤ n ∧ 20 * (keysFromC v n (HeaderSize + o)).cost + o ≤ v.envSize + 20
  | 0, o, h => ⟨Nat.le_refl _, show 20 * 0 + o ≤ _ by omega⟩
  | n + 1, o, h => by
    have hb : ∃ m, m ≤ n ∧ 20 * m + o ≤ v.envSize ∧ (keysFromC v (n + 1) (HeaderSize + o)).cost ≤ 1 + m := by
      refine ⟨min n ((v.envSize - o) / 20), by omega, by omega, ?_⟩
      rw [keysFromC, Cnt.tick_bind_cost]
      refine Nat.add_le_add_left ?_ 1
      refine Cnt.lift_bind_le fun k hk => Cnt.lift_bind_le fun cur hc => ?_
      obtain ⟨kl, hkl, hk⟩ := Res.bind_eq_ok.1 hk
      obtain ⟨q, hq, hk⟩ := Res.bind_eq_ok.1 hk
      have e1 : u32 (HeaderSize + o - HeaderSize) = o := by rw [Nat.add_sub_cancel_left]; exact u32_lt _ (by omega)
      rw [e1] at hq
      have hq := (envPtrAt_eq hq).2
      obtain ⟨kl', hkl', hc⟩ := Res.bind_eq_ok.1 hc
      rw [hkl] at hkl'
      injection hkl' with hkl'
      subst hkl'
      dsimp only at hc
      rw [e1, u32_lt _ (show 4 + kl + 16 < 2 ^ 32 by omega), u32_lt _ (by omega)] at hc
      obtain ⟨rfl, hc⟩ := envPtrAt_eq hc
      obtain ⟨i1, i2⟩ := keysFromC_cost hE n (o + (4 + kl + 16)) (by omega)
      have := Cnt.bind_le (x := keysFromC v n (HeaderSize + (o + (4 + kl + 16)))) (k := fun ks => (pure (k :: ks) : Cnt _)) (n := 0)
        (Nat.le_refl _) (fun _ _ => Nat.le_refl _)
      omega
    obtain ⟨m, h1, h2, h3⟩ := hb
    omega

theorem getKeyC_cost {v : View} (hE : v.envSize < 2 ^ 32) (key : Bytes) : 20 * (getKeyC v key).cost ≤ v.envSize + 20 := by
  have : (getKeyC v key).cost ≤ (v.envSize + 20) / 20 := by
    refine Cnt.lift_bind_le fun t _ => Cnt.lift_bind_le fun _ _ => Cnt.lift_bind_le fun _ _ => Cnt.lift_bind_le fun o _ =>
      Cnt.lift_bind_le fun p hp => Cnt.lift_bind_le fun n _ => ?_
    have hp := (envPtrAt_eq hp).2
    rw [u32_lt _ (by omega)]
    have := (getKeyFromC_cost hE key n (o + 4) (by omega)).2
    omega
  omega

theorem containsC_cost {v : View} (hE : v.envSize + 16 < 2 ^ 32) (key : Bytes) : 20 * (containsC v key).cost ≤ v.envSize + 20 := by
  have : (containsC v key).cost ≤ (v.envSize + 20) / 20 := by
    refine Cnt.lift_bind_le fun t _ => Cnt.ite_cost_le (fun _ => Nat.zero_le _) fun _ => Cnt.lift_bind_le fun _ _ =>
      Cnt.lift_bind_le fun o _ => Cnt.lift_bind_le fun p hp => Cnt.lift_bind_le fun n _ => ?_
    have hp := (envPtrAt_eq hp).2
    rw [u32_lt _ (by omega)]
    have := (containsFromC_cost hE key n (o + 4) (by omega)).2
    omega
  omega

theorem mapKeysC_cost {v : View} (hE : v.envSize < 2 ^ 32) : 20 * (mapKeysC v).cost ≤ v.envSize + 20 := by
  have : (mapKeysC v).cost ≤ (v.envSize + 20) / 20 := by
    refine Cnt.lift_bind_le fun t _ => Cnt.lift_bind_le fun _ _ => Cnt.lift_bind_le fun _ _ => Cnt.lift_bind_le fun o _ =>
      Cnt.lift_bind_le fun p hp => Cnt.lift_bind_le fun n _ => Cnt.lift_bind_le fun q hq => ?_
    have hp := (envPtrAt_eq hp).2
    rw [u32_lt _ (by omega)] at hq
    obtain ⟨rfl, hq⟩ := envPtrAt_eq hq
    have := (keysFromC_cost hE n (o + 4) (by omega)).2
    omega
  omega

/-! ## Exact steps where the keys can be listed -/

theorem keyHit_listed {v : View} {key k : Bytes} {p : Nat} (h : sliceAt v.buf p k.length = .ok k) :
    v.keyHit key p k.length = .ok (decide (k = key)) := by
  unfold View.keyHit
  by_cases hl : k.length = key.length
  · rw [if_pos hl, ← hl, h]; rfl
  · rw [if_neg hl, decide_eq_false (fun e => hl (by rw [e]))]; rfl

/-- The two loops stop at the first entry with the key. -/
theorem lookFromC_listed {v : View} (hE : v.envSize < 2 ^ 32) (key : Bytes) : ∀ n o {ks : List Bytes},
    v.keysFrom n (HeaderSize + o) = .ok ks → o ≤ v.envSize →
      ks.length = n ∧ (keysFromC v n (HeaderSize + o)).cost = n ∧ (getKeyFromC v key n o).cost = min (ks.idxOf key + 1) ks.length ∧
      (containsFromC v key n o).cost = min (ks.idxOf key + 1) ks.length
  | 0, o, ks, h, _ => by
    injection h with h; subst h
    exact ⟨rfl, rfl, rfl, rfl⟩
  | n + 1, o, ks, h, ho => by
    obtain ⟨k, hk, h⟩ := Res.bind_eq_ok.1 h
    obtain ⟨cur, hc, h⟩ := Res.bind_eq_ok.1 h
    obtain ⟨ks', hks, h⟩ := Res.bind_eq_ok.1 h
    injection h with h; subst h
    have hk0 := hk
    have hc0 := hc
    obtain ⟨kl, hkl, hk⟩ := Res.bind_eq_ok.1 hk
    obtain ⟨q, hq, hk⟩ := Res.bind_eq_ok.1 hk
    have e1 : u32 (HeaderSize + o - HeaderSize) = o := by rw [Nat.add_sub_cancel_left]; exact u32_lt _ (by omega)
    rw [e1] at hq
    have hq := (envPtrAt_eq hq).2
    have hkl' := (sliceAt_at' hk).2
    subst hkl'
    have hlen : HeaderSize + o + 4 + k.length ≤ v.buf.length := by
      unfold sliceAt at hk
      split at hk
      · assumption
      · cases hk
    obtain ⟨kl', hkl2, hc⟩ := Res.bind_eq_ok.1 hc
    rw [hkl] at hkl2
    injection hkl2 with hkl2
    subst hkl2
    dsimp only at hc
    rw [e1, u32_lt _ (show 4 + k.length + 16 < 2 ^ 32 by omega), u32_lt _ (by omega)] at hc
    obtain ⟨rfl, hc⟩ := envPtrAt_eq hc
    obtain ⟨i0, i1, i2, i3⟩ := lookFromC_listed hE key n _ hks (by omega)
    obtain ⟨x, hx, -⟩ := readU16_ok (b := v.buf) (p := HeaderSize + o + 2) (by omega)
    have hh := keyHit_listed (key := key) hk
    refine ⟨by simp [i0], ?_, ?_, ?_⟩
    · rw [keysFromC, Cnt.tick_bind_cost]
      simp only [Cnt.monadLift_eq, hk0, hc0, Cnt.lift_ok_bind]
      rw [Cnt.bind_ok_cost (by rw [keysFromC_res]; exact hks), i1]
      simp only [Cnt.pure_cost]
      omega
    · rw [getKeyFromC, Cnt.tick_bind_cost, u32_lt o (by omega), u32_lt (o + 4) (by omega)]
      simp only [Cnt.monadLift_eq, envPtrAt_ok (v := v) (ofs := o) (need := 4) (by omega), Cnt.lift_ok_bind, hkl, hx,
        envPtrAt_ok (v := v) (ofs := o + 4) (need := k.length) (by omega)]
      rw [u32_lt (o + 4 + k.length) (by omega), u32_lt (o + (4 + k.length + 16)) (by omega), ← Nat.add_assoc HeaderSize o 4, hh]
      simp only [envPtrAt_ok (v := v) (ofs := o + 4 + k.length) (need := 16) (by omega), Cnt.lift_ok_bind,
        envPtrAt_ok (v := v) (ofs := o + (4 + k.length + 16)) (need := 0) (by omega), List.idxOf_cons, List.length_cons]
      by_cases hkey : k = key
      · subst hkey
        simp
      · have hb : (k == key) = false := by simpa using hkey
        rw [decide_eq_false hkey, hb]
        rw [if_neg Bool.false_ne_true, i2]
        simp only [cond_false]
        omega
    · rw [containsFromC, Cnt.tick_bind_cost, u32_lt o (by omega), u32_lt (o + 4) (by omega)]
      simp only [Cnt.monadLift_eq, envPtrAt_ok (v := v) (ofs := o) (need := 4) (by omega), Cnt.lift_ok_bind, hkl, hx,
        envPtrAt_ok (v := v) (ofs := o + 4) (need := k.length) (by omega)]
      rw [u32_lt (o + (4 + k.length + 16)) (by omega), ← Nat.add_assoc HeaderSize o 4, hh]
      simp only [Cnt.lift_ok_bind,
        envPtrAt_ok (v := v) (ofs := o + (4 + k.length + 16)) (need := 0) (by omega), List.idxOf_cons, List.length_cons]
      by_cases hkey : k = key
      · subst hkey
        simp
      · have hb : (k == key) = false := by simpa using hkey
        rw [decide_eq_false hkey, hb]
        rw [if_neg Bool.false_ne_true, i3]
        simp only [cond_false]
        omega

/-- Listing takes a step for each key, finding a key one for each key up to it. -/
theorem lookC_listed {v : View} (hE : v.envSize < 2 ^ 32) {ks : List Bytes} (h : v.mapKeys = .ok ks) (key : Bytes) :
    (mapKeysC v).cost = ks.length ∧ (getKeyC v key).cost = min (ks.idxOf key + 1) ks.length ∧
    (containsC v key).cost = min (ks.idxOf key + 1) ks.length := by
  obtain ⟨t, h1, h⟩ := Res.bind_eq_ok.1 h
  obtain ⟨_, h2, h⟩ := Res.bind_eq_ok.1 h
  obtain ⟨_, h3, h⟩ := Res.bind_eq_ok.1 h
  obtain ⟨o, h4, h⟩ := Res.bind_eq_ok.1 h
  obtain ⟨p, h5, h⟩ := Res.bind_eq_ok.1 h
  obtain ⟨n, h6, h⟩ := Res.bind_eq_ok.1 h
  obtain ⟨q, h7, h⟩ := Res.bind_eq_ok.1 h
  have hp := (envPtrAt_eq h5).2
  have h7' := h7
  rw [u32_lt (o + 4) (by omega)] at h7
  obtain ⟨rfl, hq⟩ := envPtrAt_eq h7
  obtain ⟨i0, i1, i2, i3⟩ := lookFromC_listed hE key n (o + 4) h (by omega)
  have ht : t = tObject := by
    have := Res.require_eq_ok.1 h2
    simpa using this
  subst ht
  refine ⟨?_, ?_, ?_⟩
  · simp only [mapKeysC, Cnt.monadLift_eq, h1, decide_true, Res.require, if_true, h3, h4, h5, h6, h7', Cnt.lift_ok_bind, i1, i0]
  · simp only [getKeyC, Cnt.monadLift_eq, h1, decide_true, Res.require, if_true, h3, h4, h5, h6, Cnt.lift_ok_bind, u32_lt (o + 4) (show o + 4 < 2 ^ 32 by omega), i2]
  · have hm : v.isMap = .ok true := by simp [View.isMap, h1]
    simp only [containsC, Cnt.monadLift_eq, hm, h3, h4, h5, h6, Cnt.lift_ok_bind, u32_lt (o + 4) (show o + 4 < 2 ^ 32 by omega)]
    exact i3

theorem light {E : Nat} (hE : E < 2 ^ 32) : costs.Light (fun v => v.envSize = E) ((E + 20) / 20) where
  mapKeys v ks hv h := by
    replace h : v.mapKeys = .ok ks := by rw [← mapKeysC_res]; exact h
    exact Nat.le_of_eq (lookC_listed (by omega) h []).1
  getKey v ks k hv _ := by
    constructor
    · have := getKeyC_cost (v := v) (by omega) k
      show (getKeyC v k).cost ≤ _
      omega
    · intro c hc
      obtain ⟨p, rfl⟩ := getKey_eq (by rw [← getKeyC_res]; exact hc)
      exact hv
  arraySize _ _ := rfl
  getIdx v i hv := ⟨rfl, fun c hc => by
    obtain ⟨p, rfl⟩ := getIdx_eq hc
    exact hv⟩

end Zer.Zera
