import Verif.Cost.Light
import Verif.Flex.Any

/-!
# Steps of the Flex reader

The functions of `Verif/Flex/Model.lean` with one step for every key that is read. Not counted: the bytes of the keys.
-/

namespace Zer.Flex

/-- `keysFrom` with a step for every key, flex.hpp:262-265. -/
def keysFromC (b : Bytes) (kp kw kn : Nat) : Nat → Nat → Cnt (List Bytes)
  | _, 0 => pure []
  | i, n + 1 => do
    Cnt.tick
    let k ← keyAt b kp kw kn i
    let ks ← keysFromC b kp kw kn (i + 1) n
    pure (k :: ks)

/-- `mapKeys` with the steps of `keysFromC`, flex.hpp:274-277. -/
def mapKeysC (r : Ref) : Cnt (List Bytes) := do
  Res.require (isMap r) .deser
  let (p, _) ← r.vector
  let (kp, kw, kn) ← keysAt r.buf p r.bw
  keysFromC r.buf kp kw kn 0 kn

/-- `loop` with a step for every key that is compared, flex.hpp:284-297 and 331-344. -/
def loopC (b : Bytes) (kp kw kn : Nat) (key : Bytes) : Nat → Nat → Nat → Cnt (Option Nat)
  | 0, _, _ => Cnt.lift .diverge
  | fuel + 1, lo, hi =>
    if lo < hi then do
      Cnt.tick
      let sv ← keyAt b kp kw kn (u64 (lo + hi) / 2)
      match order sv key with
      | .lt => loopC b kp kw kn key fuel (u64 (lo + hi) / 2 + 1) hi
      | .gt => loopC b kp kw kn key fuel lo (u64 (lo + hi) / 2)
      | .eq => pure (some (u64 (lo + hi) / 2))
    else pure none

/-- `contains` with the steps of `loopC`, flex.hpp:279-299. -/
def containsC (r : Ref) (k : Bytes) : Cnt Bool :=
  if isMap r then do
    let (p, _) ← r.vector
    let (kp, kw, kn) ← keysAt r.buf p r.bw
    let f ← loopC r.buf kp kw kn k loopFuel 0 kn
    pure f.isSome
  else pure false

/-- `operator[](string_view)` with the steps of `loopC`, flex.hpp:325-346. -/
def getKeyC (r : Ref) (k : Bytes) : Cnt Ref := do
  Res.require (isMap r) .deser
  let (p, n) ← r.vector
  let (kp, kw, kn) ← keysAt r.buf p r.bw
  let f ← loopC r.buf kp kw kn k loopFuel 0 kn
  Cnt.lift (pick r p n f)

/-- The steps of the Flex reader. Elements are found by their index, flex.hpp:301-304 and 348-353. -/
def costs : Costs Ref where
  mapKeys := mapKeysC
  getKey := getKeyC
  arraySize r := Cnt.lift (arraySize r)
  getIdx r i := Cnt.lift (getIdx r i)

theorem keysFromC_res (b : Bytes) (kp kw kn : Nat) : ∀ n i, (keysFromC b kp kw kn i n).res = keysFrom b kp kw kn i n
  | 0, _ => rfl
  | n + 1, i => by
    simp only [keysFromC, keysFrom, Cnt.bind_res, Cnt.tick_res, Cnt.monadLift_eq, Cnt.lift_res, Res.ok_bind, keysFromC_res b kp kw kn n]
    rfl

theorem loopC_res (b : Bytes) (kp kw kn : Nat) (key : Bytes) : ∀ fuel lo hi,
    (loopC b kp kw kn key fuel lo hi).res = loop b kp kw kn key fuel lo hi
  | 0, _, _ => rfl
  | fuel + 1, lo, hi => by
    rw [loopC, loop]
    split
    · simp only [Cnt.bind_res, Cnt.tick_res, Cnt.monadLift_eq, Cnt.lift_res, Res.ok_bind]
      congr 1
      funext sv
      cases order sv key with
      | lt => exact loopC_res b kp kw kn key _ _ _
      | gt => exact loopC_res b kp kw kn key _ _ _
      | eq => rfl
    · rfl

theorem containsC_res (r : Ref) (k : Bytes) : (containsC r k).res = contains r k := by
  unfold containsC contains
  generalize loopFuel = F
  split
  · simp only [Cnt.bind_res, Cnt.monadLift_eq, Cnt.lift_res, loopC_res]
    rfl
  · rfl

theorem getKeyC_res (r : Ref) (k : Bytes) : (getKeyC r k).res = getKey r k := by
  unfold getKeyC getKey
  generalize loopFuel = F
  simp only [Cnt.bind_res, Cnt.monadLift_eq, Cnt.lift_res, loopC_res]
  rfl

theorem mapKeysC_res (r : Ref) : (mapKeysC r).res = mapKeys r := by
  simp only [mapKeysC, mapKeys, Cnt.bind_res, Cnt.monadLift_eq, Cnt.lift_res, keysFromC_res]

theorem costs_of : costs.Of reader where
  mapKeys := mapKeysC_res
  getKey := getKeyC_res
  arraySize _ := rfl
  getIdx _ _ := rfl

/-- Each comparison halves the range. -/
theorem loopC_cost (b : Bytes) (kp kw : Nat) {kn : Nat} (hn : kn ≤ 2 ^ 63) (key : Bytes) : ∀ (t fuel lo hi : Nat),
    hi - lo < 2 ^ t → hi ≤ kn → (loopC b kp kw kn key fuel lo hi).cost ≤ t
  | _, 0, _, _, _, _ => Nat.zero_le _
  | t, fuel + 1, lo, hi, ht, hhi => by
    rw [loopC]
    by_cases hlt : lo < hi
    · have hm : u64 (lo + hi) = lo + hi := Nat.mod_eq_of_lt (by omega)
      rw [if_pos hlt, hm, Cnt.tick_bind_cost]
      obtain ⟨t, rfl⟩ : ∃ t', t = t' + 1 := ⟨t - 1, by
        cases t with
        | zero => omega
        | succ t => rfl⟩
      rw [Nat.pow_succ] at ht
      have : (Cnt.lift (keyAt b kp kw kn ((lo + hi) / 2)) >>= fun sv => match order sv key with
          | .lt => loopC b kp kw kn key fuel ((lo + hi) / 2 + 1) hi
          | .gt => loopC b kp kw kn key fuel lo ((lo + hi) / 2)
          | .eq => pure (some ((lo + hi) / 2))).cost ≤ t := by
        refine Cnt.lift_bind_le fun sv _ => ?_
        cases order sv key with
        | lt => exact loopC_cost b kp kw hn key t _ _ _ (by omega) hhi
        | gt => exact loopC_cost b kp kw hn key t _ _ _ (by omega) (by omega)
        | eq => exact Nat.zero_le _
      rw [Nat.add_comm]
      exact Nat.succ_le_succ this
    · rw [if_neg hlt]; exact Nat.zero_le _

theorem keysFromC_cost {b : Bytes} {kp kw kn : Nat} : ∀ {n i : Nat}, (keysFromC b kp kw kn i n).cost ≤ n
  | 0, _ => Nat.zero_le _
  | n + 1, i => by
    rw [keysFromC, Cnt.tick_bind_cost]
    have : (Cnt.lift (keyAt b kp kw kn i) >>= fun k => keysFromC b kp kw kn (i + 1) n >>= fun ks => (pure (k :: ks) : Cnt _)).cost ≤ n := by
      refine Cnt.lift_bind_le fun sv _ => ?_
      have := Cnt.bind_le (x := keysFromC b kp kw kn (i + 1) n) (k := fun ks => (pure (sv :: ks) : Cnt _)) (n := 0) keysFromC_cost
        (fun _ _ => Nat.le_refl _)
      omega
    simp only [Cnt.monadLift_eq]
    omega

/-- Keys that can be listed have their entries in the buffer, unless the entries have no width. -/
theorem keys_le {b : Bytes} (hb : b.length < 2 ^ 60) {p bw kp kw kn : Nat} (h : keysAt b p bw = .ok (kp, kw, kn)) {ks : List Bytes}
    (hk : keysFrom b kp kw kn 0 kn = .ok ks) : kn ≤ max 255 b.length := by
  unfold keysAt at h
  split at h
  · obtain ⟨kp', h1, h⟩ := Res.bind_eq_ok.1 h
    obtain ⟨kw', h2, h⟩ := Res.bind_eq_ok.1 h
    obtain ⟨kn', h3, h⟩ := Res.bind_eq_ok.1 h
    injection h with h
    injection h with e1 h
    injection h with e2 e3
    subst e1; subst e3; subst e2
    by_cases h0 : kw' % 256 = 0
    · rw [h0] at h3
      unfold sizeAt at h3
      rw [if_pos (Nat.zero_le _)] at h3
      have h4 := readU_lt h3
      have e : 2 ^ (8 * scalarWidth 0) = 256 := rfl
      rw [e] at h4
      omega
    · refine Nat.le_of_not_lt fun hge => ?_
      obtain ⟨hl, hg⟩ := keysFrom_get hk
      have hw : kw' % 256 < 256 := Nat.mod_lt _ (by decide)
      generalize kw' % 256 = w at h0 hw hl hg
      generalize hL : b.length = L at *
      have hq : L / w ≤ L := Nat.div_le_self _ _
      by_cases hz : L / w = L ∧ L ≠ 0
      · -- entries of one byte
        have h5 := hg L (by omega)
        have h6 := keyAt_bound (by omega) h5
        rw [Nat.zero_add, hL] at h6
        obtain rfl : w = 1 := (Nat.div_eq_self.1 hz.1).resolve_left hz.2
        have h9 : u64 (L * 1) = L := by simp only [u64]; omega
        omega
      · have h5 := hg (L / w + 1) (by omega)
        have h6 := keyAt_bound (by omega) h5
        have h7 : L < (L / w + 1) * w := by
          have := Nat.lt_mul_div_succ L (show 0 < w by omega)
          rwa [Nat.mul_comm] at this
        have h8 : (L / w + 1) * w ≤ L + w := by
          rw [Nat.add_mul, Nat.one_mul]
          exact Nat.add_le_add_right (Nat.div_mul_le_self _ _) _
        rw [Nat.zero_add, hL] at h6
        have h9 : u64 ((L / w + 1) * w) = (L / w + 1) * w := Nat.mod_eq_of_lt (by omega)
        rw [h9] at h6
        omega
  · cases h

/-- Lookups in a map that claims `kn` keys. -/
theorem lookupC_cost {r : Ref} {k : Bytes} {t : Nat}
    (h : ∀ p n kp kw kn, r.vector = .ok (p, n) → keysAt r.buf p r.bw = .ok (kp, kw, kn) → kn ≤ 2 ^ 63 ∧ kn < 2 ^ t) :
    (containsC r k).cost ≤ t ∧ (getKeyC r k).cost ≤ t := by
  have hl : ∀ p n kp kw kn, r.vector = .ok (p, n) → keysAt r.buf p r.bw = .ok (kp, kw, kn) →
      (loopC r.buf kp kw kn k loopFuel 0 kn).cost ≤ t := fun p n kp kw kn h1 h2 =>
    loopC_cost _ _ _ (h p n kp kw kn h1 h2).1 k t _ _ _ (by have := (h p n kp kw kn h1 h2).2; omega) (Nat.le_refl _)
  generalize hF : loopFuel = F at hl
  constructor
  · unfold containsC
    rw [hF]
    refine Cnt.ite_cost_le (fun _ => ?_) (fun _ => Nat.zero_le _)
    refine Cnt.lift_bind_le fun x hx => Cnt.lift_bind_le fun y hy => ?_
    exact Cnt.bind_le (n := 0) (hl _ _ _ _ _ hx hy) (fun _ _ => Nat.le_refl _)
  · unfold getKeyC
    rw [hF]
    refine Cnt.lift_bind_le fun _ _ => Cnt.lift_bind_le fun x hx => Cnt.lift_bind_le fun y hy => ?_
    exact Cnt.bind_le (n := 0) (hl _ _ _ _ _ hx hy) (fun _ _ => Nat.le_refl _)

/-- What is known where the keys can be listed. -/
theorem mapKeys_inv {r : Ref} {ks : List Bytes} (h : mapKeys r = .ok ks) : ∃ p n kp kw, r.vector = .ok (p, n) ∧
    keysAt r.buf p r.bw = .ok (kp, kw, ks.length) ∧ keysFrom r.buf kp kw ks.length 0 ks.length = .ok ks := by
  obtain ⟨u, hm, h⟩ := Res.bind_eq_ok.1 h
  obtain ⟨⟨p, n⟩, h1, h⟩ := Res.bind_eq_ok.1 h
  obtain ⟨⟨kp, kw, kn⟩, h2, h⟩ := Res.bind_eq_ok.1 h
  obtain ⟨e, -⟩ := keysFrom_get h
  replace h2 : keysAt r.buf p r.bw = .ok (kp, kw, kn) := h2
  replace h : keysFrom r.buf kp kw kn 0 kn = .ok ks := h
  subst e
  exact ⟨p, n, kp, kw, h1, h2, h⟩

theorem mapKeysC_cost {r : Ref} {ks : List Bytes} (h : mapKeys r = .ok ks) : (mapKeysC r).cost ≤ ks.length := by
  obtain ⟨p, n, kp, kw, h1, h2, h3⟩ := mapKeys_inv h
  unfold mapKeysC
  refine Cnt.lift_bind_le fun _ _ => Cnt.lift_bind_le fun x hx => Cnt.lift_bind_le fun y hy => ?_
  rw [h1] at hx
  injection hx with hx; subst hx
  replace hy : keysAt r.buf p r.bw = .ok y := hy
  rw [h2] at hy
  injection hy with hy; subst hy
  exact keysFromC_cost

/-- Lookups where the keys can be listed. -/
theorem lookupC_listed {r : Ref} (hb : r.buf.length < 2 ^ 60) {ks : List Bytes} (h : mapKeys r = .ok ks) (k : Bytes) :
    (containsC r k).cost ≤ ks.length.log2 + 1 ∧ (getKeyC r k).cost ≤ ks.length.log2 + 1 ∧ ks.length ≤ max 255 r.buf.length := by
  obtain ⟨p, n, kp, kw, h1, h2, h3⟩ := mapKeys_inv h
  have := keys_le hb h2 h3
  have hc := lookupC_cost (r := r) (k := k) (t := ks.length.log2 + 1) (fun p' n' kp' kw' kn' g1 g2 => by
    rw [h1] at g1
    injection g1 with g1
    injection g1 with g1 g3
    subst g1
    rw [h2] at g2
    injection g2 with g2
    injection g2 with g2 g4
    injection g4 with g4 g5
    subst g5
    exact ⟨by omega, Nat.lt_log2_self⟩)
  exact ⟨hc.1, hc.2, this⟩

/-- Every position in a buffer of at most `L` bytes. -/
theorem light {L : Nat} (hL : L < 2 ^ 60) : costs.Light (fun r => r.buf.length ≤ L) ((max 255 L).log2 + 1) where
  mapKeys r ks _ h := mapKeysC_cost (by rw [← mapKeysC_res]; exact h)
  getKey r ks k hr h := by
    replace h : mapKeys r = .ok ks := by rw [← mapKeysC_res]; exact h
    obtain ⟨h1, h2, h3⟩ := lookupC_listed (Nat.lt_of_le_of_lt hr hL) h k
    constructor
    · show (getKeyC r k).cost ≤ _
      have : ks.length.log2 ≤ (max 255 L).log2 := by
        by_cases h0 : ks.length = 0
        · rw [h0]; exact Nat.zero_le _
        · rw [Nat.le_log2 (by omega)]
          exact Nat.le_trans (Nat.log2_self_le h0) (by omega)
      omega
    · intro c hc
      exact Nat.le_trans (getKey_buf (by rw [← getKeyC_res]; exact hc)) hr
  arraySize _ _ := rfl
  getIdx r i hr := ⟨rfl, fun c hc => Nat.le_trans (getIdx_buf hc) hr⟩

end Zer.Flex
