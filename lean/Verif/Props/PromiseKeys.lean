import Verif.Props.PromiseZera

/-!
# Property C115, continued: the elements of arrays and the keys of maps in ZERA, on any bytes
-/

namespace Zer.Zera

theorem tag_inside {v : View} (S : InBuf v) {q : Nat} (h1 : HeaderSize ≤ q) (h2 : q + 16 ≤ HeaderSize + v.envSize) :
    ∃ t, ({ v with vr := some q } : View).tag = .ok t := by
  have e := S.env
  refine ⟨(v.buf[q]'(by omega)).toNat, ?_⟩
  simp only [View.tag, View.requireVr, h1, h2, decide_true, Bool.and_self, Res.require, if_true]
  exact byteAt_ok (by omega)

/-- C115 for ZERA, elements, any position of any bytes below 4 GiB - 20: what has a size has an element below it, and none from it on; and every element can
be asked for its tag. -/
theorem c115_zera_elements {b : Bytes} (hb : b.length < 2 ^ 32 - 20) {v w : View} (h : initFrom b = .ok v) (hr : reader.Reach v w) {n : Nat}
    (hn : w.arraySize = .ok n) (i : Nat) : (i < n → ∃ c t, w.getIdx i = .ok c ∧ c.tag = .ok t) ∧ (n ≤ i → w.getIdx i = .err .deser) := by
  have S : InBuf w := by obtain ⟨p, rfl⟩ := reach_eq hr; exact (initFrom_inBuf hb h).withVr p
  obtain ⟨t, ht, hn⟩ := Res.bind_eq_ok.1 hn
  obtain ⟨_, h1, hn⟩ := Res.bind_eq_ok.1 hn
  obtain ⟨_, hf, hn⟩ := Res.bind_eq_ok.1 hn
  obtain ⟨o, ha, hn⟩ := Res.bind_eq_ok.1 hn
  obtain ⟨p, hp, hn⟩ := Res.bind_eq_ok.1 hn
  obtain ⟨c, hc, hn⟩ := Res.bind_eq_ok.1 hn
  obtain ⟨_, hq, hn⟩ := Res.bind_eq_ok.1 hn
  have hn := Res.ok.inj hn
  have hq := (envPtrAt_eq hq).2
  have e1 := S.env
  have e2 := S.envLt
  simp only [View.getIdx, ht, Res.ok_bind, h1, hf, ha, hp, hc]
  constructor
  · intro hi
    have hi : i < c := by omega
    have e : u32 (o + 4 + 16 * i) = o + 4 + 16 * i := by simp only [u32]; omega
    simp only [hi, decide_true, Res.require, if_true, Res.ok_bind, e, env_ok (show o + 4 + 16 * i + 16 ≤ w.envSize by omega)]
    obtain ⟨t, ht⟩ := tag_inside S (q := HeaderSize + (o + 4 + 16 * i)) (by omega) (by omega)
    exact ⟨_, t, rfl, ht⟩
  · intro hi
    have hi : ¬ i < c := by omega
    simp [hi, Res.require]

theorem keyHit_is {v : View} {p n : Nat} {k key : Bytes} (h : sliceAt v.buf p n = .ok k) : v.keyHit key p n = .ok (decide (k = key)) := by
  have hl : k.length = n := by
    have h' := h
    unfold sliceAt at h'
    split at h'
    · injection h' with h'; subst h'; simp; omega
    · cases h'
  unfold View.keyHit
  split
  · rename_i e
    rw [← e, h]; rfl
  · rename_i e
    rw [decide_eq_false]
    · rfl
    · rintro rfl; exact e hl.symm

theorem found_of_listed {v : View} (S : InBuf v) {key : Bytes} : ∀ (n : Nat) {o : Nat} {ks : List Bytes}, v.keysFrom n (HeaderSize + o) = .ok ks →
    o < 2 ^ 32 → v.containsFrom key n o = .ok (decide (key ∈ ks)) ∧ (key ∈ ks → ∃ q, (HeaderSize ≤ q ∧ q + 16 ≤ HeaderSize + v.envSize) ∧ v.getKeyFrom key n o = .ok { v with vr := some q }) ∧
      (key ∉ ks → v.getKeyFrom key n o = .err .deser)
  | 0, o, ks, h, _ => by
    injection h with h; subst h
    exact ⟨rfl, fun h => (List.not_mem_nil h).elim, fun _ => rfl⟩
  | n + 1, o, ks, h, ho => by
    obtain ⟨k, hk, h⟩ := Res.bind_eq_ok.1 h
    obtain ⟨cur, hc, h⟩ := Res.bind_eq_ok.1 h
    obtain ⟨ks', hks, h⟩ := Res.bind_eq_ok.1 h
    injection h with h; subst h
    obtain ⟨kl, hkl, hk⟩ := Res.bind_eq_ok.1 hk
    obtain ⟨q, hq, hk⟩ := Res.bind_eq_ok.1 hk
    have hlt := S.envLt
    have hes := S.env
    have e1 : u32 (HeaderSize + o - HeaderSize) = o := by simp [u32]; omega
    rw [e1] at hq
    have hq := (envPtrAt_eq hq).2
    obtain ⟨kl', hkl2, hc⟩ := Res.bind_eq_ok.1 hc
    rw [hkl] at hkl2
    injection hkl2 with hkl2
    subst hkl2
    have e2 : u32 (o + u32 (4 + kl + 16)) = o + (4 + kl + 16) := by
      simp [u32]; omega
    dsimp only at hc
    rw [e1, e2] at hc
    have hcur := (envPtrAt_eq hc).1
    subst hcur
    obtain ⟨i1, i2, i3⟩ := found_of_listed S n hks (by omega)
    obtain ⟨r, hr, -⟩ := readU16_ok (b := v.buf) (p := HeaderSize + o + 2) (by omega)
    have u1 : u32 o = o := by simp only [u32]; omega
    have u2 : u32 (o + 4) = o + 4 := by simp only [u32]; omega
    have u3 : u32 (o + 4 + kl) = o + 4 + kl := by simp only [u32]; omega
    have u4 : u32 (o + (4 + kl + 16)) = o + (4 + kl + 16) := by simp only [u32]; omega
    have hh : v.keyHit key (HeaderSize + (o + 4)) kl = .ok (decide (k = key)) := keyHit_is (by rw [← Nat.add_assoc]; exact hk)
    simp only [View.containsFrom, View.getKeyFrom, u1, u2, u3, u4, env_ok (show o + 4 ≤ v.envSize by omega), Res.ok_bind, hkl, hr,
      env_ok (show o + 4 + kl ≤ v.envSize by omega), env_ok (show o + 4 + kl + 16 ≤ v.envSize by omega), hh,
      env_ok (show o + (4 + kl + 16) + 0 ≤ v.envSize by omega)]
    by_cases e : k = key
    · subst e
      simp only [decide_true, if_true, List.mem_cons, true_or]
      exact ⟨rfl, fun _ => ⟨_, ⟨by omega, by omega⟩, rfl⟩, fun h => absurd trivial h⟩
    · have e' : ¬ key = k := fun h => e h.symm
      simp only [e, decide_false, Bool.false_eq_true, if_false, List.mem_cons, e', false_or]
      exact ⟨i1, i2, i3⟩

/-- C115 for ZERA, keys, any position of any bytes below 4 GiB - 20: when the keys of a map can be listed, the map contains exactly the keys listed, at each of
them there is a value that can be asked for its tag, and at no other. -/
theorem c115_zera_keys {b : Bytes} (hb : b.length < 2 ^ 32 - 20) {v w : View} (h : initFrom b = .ok v) (hr : reader.Reach v w) {ks : List Bytes}
    (hk : w.mapKeys = .ok ks) (k : Bytes) : w.contains k = .ok (decide (k ∈ ks)) ∧ (k ∈ ks → ∃ c t, w.getKey k = .ok c ∧ c.tag = .ok t) ∧
      (k ∉ ks → w.getKey k = .err .deser) := by
  have S : InBuf w := by obtain ⟨p, rfl⟩ := reach_eq hr; exact (initFrom_inBuf hb h).withVr p
  obtain ⟨t, ht, hk⟩ := Res.bind_eq_ok.1 hk
  obtain ⟨_, h1, hk⟩ := Res.bind_eq_ok.1 hk
  obtain ⟨_, hf, hk⟩ := Res.bind_eq_ok.1 hk
  obtain ⟨o, ha, hk⟩ := Res.bind_eq_ok.1 hk
  obtain ⟨p, hp, hk⟩ := Res.bind_eq_ok.1 hk
  obtain ⟨c, hc, hk⟩ := Res.bind_eq_ok.1 hk
  obtain ⟨q, hq, hk⟩ := Res.bind_eq_ok.1 hk
  have e0 := (envPtrAt_eq hq).1
  subst e0
  obtain ⟨i1, i2, i3⟩ := found_of_listed S (key := k) c hk (by simp only [u32]; omega)
  have htt : t = tObject := of_decide_eq_true (Res.require_eq_ok.1 h1)
  simp only [View.contains, View.getKey, View.isMap, ht, Res.ok_bind, hf, ha, hp, hc, htt]
  refine ⟨i1, fun hm => ?_, i3⟩
  obtain ⟨q, hq, e⟩ := i2 hm
  obtain ⟨t, ht⟩ := tag_inside S hq.1 hq.2
  exact ⟨_, t, e, ht⟩

/-- The hypotheses can be met: a map with an array. -/
example : (do
      let b ← Zera.proto.serialize (.map [([0x61], .arr [.null, .bool true]), ([0x62], .null)])
      let v ← initFrom b
      let ks ← v.mapKeys
      let c ← v.getKey [0x61]
      let n ← c.arraySize
      let q ← v.contains [0x63]
      pure (ks, n, q)) = .ok ([[0x61], [0x62]], 2, false) := by decide +kernel

end Zer.Zera
