import Verif.Cost.Flex
import Verif.Cost.Zera
import Verif.Props.Amplify

/-!
# C95 (and C85): how many keys are looked at in ZERA and Flex documents

Steps are entries of an object looked at (zera.hpp) and keys read (flex.hpp); everything between two such steps is a bounded
number of reads and comparisons, apart from comparing the bytes of keys. Elements of arrays are found without steps.
-/

namespace Zer

namespace Zera

/-- What opening establishes for every position that can be reached. -/
theorem reach_bounds {b : Bytes} {r p : View} (h : initFrom b = .ok r) (hp : reader.Reach r p) :
    p.envSize < 2 ^ 32 ∧ p.envSize = r.envSize ∧ (b.length < 2 ^ 32 - 20 → 20 + p.envSize ≤ b.length) := by
  obtain ⟨q, rfl⟩ := reach_eq hp
  obtain ⟨root, hv, h1, h2, h3, h4, h5, h6, h7, h8⟩ := initFrom_eq h
  refine ⟨h2, rfl, fun hb => ?_⟩
  have hE : r.envSize + 20 < 2 ^ 32 := by omega
  show 20 + r.envSize ≤ _
  have : u32 (HeaderSize + r.envSize) = 20 + r.envSize := u32_lt _ (show 20 + r.envSize < 2 ^ 32 by omega)
  omega

/-- C95, any bytes: `operator[]`, listing the keys, and (below 4 GiB) `contains` look at one entry for every 20 bytes at most,
whatever number of entries the object claims to have. -/
theorem c95_zera_lookup {b : Bytes} (hb : b.length < 2 ^ 32 - 20) {r p : View} (h : initFrom b = .ok r) (hp : reader.Reach r p) (key : Bytes) :
    ((getKeyC p key).res = p.getKey key ∧ 20 * (getKeyC p key).cost ≤ b.length) ∧
    ((mapKeysC p).res = p.mapKeys ∧ 20 * (mapKeysC p).cost ≤ b.length) ∧
    ((containsC p key).res = p.contains key ∧ 20 * (containsC p key).cost ≤ b.length) := by
  obtain ⟨h1, -, h2⟩ := reach_bounds h hp
  have h2 := h2 hb
  have c1 := getKeyC_cost h1 key
  have c2 := mapKeysC_cost h1
  have c3 := containsC_cost (v := p) (by omega) key
  exact ⟨⟨getKeyC_res p key, by omega⟩, ⟨mapKeysC_res p, by omega⟩, containsC_res p key, by omega⟩

/-- C95, any bytes: where the keys can be listed, that takes one step for each, and finding a key takes exactly one step for
each key up to its first occurrence, or for all of them if there is none. -/
theorem c95_zera_exact {b : Bytes} {r p : View} (h : initFrom b = .ok r) (hp : reader.Reach r p) {ks : List Bytes}
    (hk : p.mapKeys = .ok ks) (key : Bytes) :
    (mapKeysC p).cost = ks.length ∧
    (getKeyC p key).cost = (if key ∈ ks then ks.idxOf key + 1 else ks.length) ∧
    (containsC p key).cost = (if key ∈ ks then ks.idxOf key + 1 else ks.length) := by
  obtain ⟨h1, h2, h3⟩ := lookC_listed (reach_bounds h hp).1 hk key
  have e : min (ks.idxOf key + 1) ks.length = if key ∈ ks then ks.idxOf key + 1 else ks.length := by
    split
    · rename_i hm
      have := List.idxOf_lt_length_iff.2 hm
      omega
    · rename_i hm
      rw [List.idxOf_eq_length hm]
      omega
  exact ⟨h1, by rw [h2, e], by rw [h3, e]⟩

example : (serialize (.map [([97], .null), ([98, 99], .arr [.null]), ([98], .null)]) >>= initFrom >>= fun r => r.mapKeys) =
    .ok [[97], [98, 99], [98]] := by decide +kernel

example : (do
    let b ← serialize (.map [([97], .null), ([98, 99], .arr [.null]), ([98], .null)])
    let r ← initFrom b
    pure ((getKeyC r [98]).cost, (getKeyC r [99]).cost, (containsC r [97]).cost, (mapKeysC r).cost)) = Res.ok (3, 3, 1, 3) := by
  decide +kernel

/-- C85 for ZERA, any bytes: a translation that makes `e` calls of the writer takes at most `e` times as many steps as there
are twenties in the envelope (and three more). -/
theorem c85_zera_calls_partial {b : Bytes} {r : View} (h : initFrom b = .ok r) {f e : Nat} (hr : writeValue reader counter f r 0 = .ok e) :
    (writeValueC reader costs counter f r 0).res = .ok e ∧
    (writeValueC reader costs counter f r 0).cost ≤ (r.envSize / 20 + 3) * e := by
  have hr' : (writeValueC reader costs counter f r 0).res = .ok e := by rw [writeValueC_res costs_of]; exact hr
  refine ⟨hr', ?_⟩
  obtain ⟨e', h1, h2⟩ := writeValueC_light (light (reach_bounds h .refl).1) f r 0 e rfl hr'
  obtain rfl : e' = e := by omega
  have : (r.envSize + 20) / 20 + 2 = r.envSize / 20 + 3 := by omega
  rwa [this] at h2

/-- C85 for serializations of values without repeated keys: at most the square of the length, and a bit. -/
theorem c85_zera_partial {thr : Nat} (hthr : thr ≤ 12) {v : Val} (hd : v.Distinct) {b : Bytes}
    (h : serializeEvs thr (emit v) = .ok b) {f : Nat} (hf : v.depth ≤ f) :
    ∃ r n, initFrom b = .ok r ∧ (writeValueC reader costs counter f r 0).res = .ok n ∧ n ≤ b.length ∧
      (writeValueC reader costs counter f r 0).cost ≤ (b.length / 20 + 3) * b.length := by
  obtain ⟨r, n, h1, h2, h3⟩ := c77_zera_partial hthr hd h hf
  obtain ⟨h4, h5⟩ := c85_zera_calls_partial h1 h2
  refine ⟨r, n, h1, h4, h3, Nat.le_trans h5 (Nat.mul_le_mul ?_ h3)⟩
  obtain ⟨root, hv, g⟩ := initFrom_eq h1
  have := g.2.2.2.2.1
  have := Nat.div_le_div_right (c := 20) this
  omega

/-- Every translation of a map with `m` different keys takes `m * (m + 1) / 2` steps or more to find them, whatever is done
with them: they are looked up one by one from the start. -/
theorem c85_zera_map_refuted {b : Bytes} {r p : View} (h : initFrom b = .ok r) (hp : reader.Reach r p) {ks : List Bytes}
    (hk : p.mapKeys = .ok ks) (hn : ks.Nodup) {σ : Type} (W : Writer σ) {f : Nat} {s s' : σ}
    (hr : (writeValueC reader costs W f p s).res = .ok s') :
    ks.length * (ks.length + 1) + 4 * ks.length ≤ 2 * (writeValueC reader costs W f p s).cost := by
  obtain ⟨hE, -, -⟩ := reach_bounds h hp
  have ht : p.tag = .ok tObject := by
    obtain ⟨t, h1, hk⟩ := Res.bind_eq_ok.1 hk
    obtain ⟨_, h2, _⟩ := Res.bind_eq_ok.1 hk
    have := Res.require_eq_ok.1 h2
    simp only [decide_eq_true_eq] at this
    rw [h1, this]
  cases f with
  | zero => cases hr
  | succ f =>
    have hk' : (costs.mapKeys p).res = .ok ks := by rw [costs_of.mapKeys]; exact hk
    have hkc : (costs.mapKeys p).cost = ks.length := (lookC_listed hE hk []).1
    have hg : ∀ i (hi : i < ks.length), 0 + i + 1 ≤ (costs.getKey p ks[i]).cost := fun i hi => by
      have e := (lookC_listed hE hk ks[i]).2.1
      have := hn.idxOf_getElem i hi
      rw [this] at e
      show _ ≤ (getKeyC p ks[i]).cost
      omega
    rw [writeValueC] at hr ⊢
    have k : ∀ {t : Nat}, t ≠ tObject → (p.tag >>= fun t' => (pure (decide (t' = t)) : Res Bool)) = .ok false := by
      intro t hne
      rw [ht, Res.ok_bind, decide_eq_false (fun e => hne e.symm)]; rfl
    have k1 : reader.isNull p = .ok false := k (t := tNull) (by decide)
    have k2 : reader.isBool p = .ok false := k (t := tBool) (by decide)
    have k3 : reader.isInt p = .ok false := k (t := tI64) (by decide)
    have k4 : reader.isUInt p = .ok false := k (t := tU64) (by decide)
    have k5 : reader.isFloat p = .ok false := k (t := tF64) (by decide)
    have k6 : reader.isString p = .ok false := k (t := tString) (by decide)
    have k7 : reader.isBlob p = .ok false := by show p.isBlob = _; simp [View.isBlob, ht, tObject, tTyped]
    have k8 : reader.isMap p = .ok true := by show p.isMap = _; simp [View.isMap, ht]
    simp only [Cnt.monadLift_eq, k1, k2, k3, k4, k5, k6, k7, k8, Cnt.lift_ok_bind, Bool.false_eq_true, if_false, if_true] at hr ⊢
    obtain ⟨ks1, h1, hr, e1⟩ := Cnt.bind_ok hr
    obtain ⟨s1, h2, hr, e2⟩ := Cnt.lift_bind_ok hr
    obtain ⟨ks2, h3, hr, e3⟩ := Cnt.bind_ok hr
    obtain ⟨s2, h4, hr, e4⟩ := Cnt.bind_ok hr
    rw [hk'] at h1 h3
    injection h1 with h1
    injection h3 with h3
    subst h1; subst h3
    have := writeEntriesC_ge ks 0 hg h4
    rw [e1, e2, e3, e4, hkc]
    have q : ks.length * (2 * 0 + ks.length + 1) = ks.length * (ks.length + 1) := by rw [Nat.mul_zero, Nat.zero_add]
    omega

/-- A map of `n` keys of four bytes. -/
def flat (n : Nat) : List (Bytes × Val) := (List.range n).map fun i => (num 4 i, .null)

theorem flat_keys {n : Nat} (hn : n ≤ 2 ^ 32) : ((flat n).map Prod.fst).Nodup := by
  have : (flat n).map Prod.fst = (List.range n).map (num 4) := by simp [flat, Function.comp_def]
  rw [this]
  refine List.pairwise_map.2 (List.Pairwise.imp_of_mem ?_ (List.nodup_range (n := n)))
  intro a b ha hb hne e
  have ha := List.mem_range.1 ha
  have hb := List.mem_range.1 hb
  exact hne (num_inj (by omega) (by omega) e)

theorem flat_costs : ∀ (is : List Nat), envCostEntries (is.map fun i => (num 4 i, .null)) = 0 ∧
    entriesLen (is.map fun i => (num 4 i, .null)) = 24 * is.length ∧ arenaAfterEntries 12 0 (is.map fun i => (num 4 i, .null)) = 0 ∧
    Val.shortKeysEntries (is.map fun i => (num 4 i, .null)) ∧ Val.distinctEntries (is.map fun i => (num 4 i, .null)) ∧
    (emitEntries (is.map fun i => (num 4 i, .null))).length = 2 * is.length ∧ Val.depthEntries (is.map fun i => (num 4 i, .null)) ≤ 1
  | [] => by simp [envCostEntries, entriesLen, arenaAfterEntries, Val.shortKeysEntries, Val.distinctEntries, emitEntries, Val.depthEntries]
  | i :: is => by
    obtain ⟨h1, h2, h3, h4, h5, h6, h7⟩ := flat_costs is
    simp only [List.map_cons, emitEntries, emit, Val.depthEntries, Val.depth, List.length_append, h6, List.length_nil, envCostEntries, entriesLen, arenaAfterEntries, Val.shortKeysEntries, Val.distinctEntries, envCost,
      arenaAfter, num_length, Val.ShortKeys, Val.Distinct, h1, h2, h3, h4, h5, List.length_cons]
    refine ⟨by first | trivial | omega, by omega, trivial, ⟨by omega, trivial, trivial⟩, ⟨trivial, trivial⟩, by omega, by omega⟩

/-- C85 is false for ZERA: a serialization of `24 * n + 55` bytes at most, of a map of `n` keys without repetition, takes
`n * (n + 1) / 2` steps or more to translate. -/
theorem c85_zera_refuted {n : Nat} (hn : n < 2 ^ 27) : ∃ b r, serialize (.map (flat n)) = .ok b ∧ b.length ≤ 24 * n + 55 ∧
    (Val.map (flat n)).Distinct ∧ initFrom b = .ok r ∧
    ∀ f, 2 ≤ f → writeValue reader counter f r 0 = .ok (2 * n + 2) ∧ n * (n + 1) ≤ 2 * (writeValueC reader costs counter f r 0).cost := by
  obtain ⟨c1, c2, c3, c4, c5, c6, c7⟩ := flat_costs (List.range n)
  have hl : (List.range n).length = n := List.length_range
  have hc : envCost (.map (flat n)) = 24 * n + 4 := by
    simp only [envCost, flat, c1, c2, hl]; omega
  have ha : arenaAfter 12 0 (.map (flat n)) = 0 := by simp only [arenaAfter, flat, c3]
  have hu := alignUp_lt (36 + envCost (.map (flat n))) (a := 16) (by decide)
  have hd : (Val.map (flat n)).Distinct := ⟨flat_keys (by omega), c5⟩
  obtain ⟨b, hb⟩ := (c02_zera_success_iff (thr := 12) (by decide) (emit (.map (flat n)))).2
    ⟨_, Tree.eval_emit _, c4, by omega, by rw [ha]; decide⟩
  obtain ⟨r, h1, h2⟩ := c01_zera_round_trip 12 _ hb
  refine ⟨b, r, hb, ?_, hd, h1, fun f hf => ?_⟩
  · have h3 := c08_zera_length (by decide) hb
    rw [ha] at h3
    omega
  · have hw := c77_calls_partial h2 hd (f := f) (by
      have : (Val.map (flat n)).depth ≤ 2 := by simp only [Val.depth, flat]; omega
      omega)
    have he : (emit (.map (flat n))).length = 2 * n + 2 := by
      simp only [emit, flat, List.length_cons, List.length_append, c6, hl, List.length_nil]
    rw [he] at hw
    refine ⟨hw, ?_⟩
    have hk : r.mapKeys = .ok ((flat n).map Prod.fst) := by
      cases h2 with
      | map c _ hk => exact hk
    have := c85_zera_map_refuted h1 .refl hk (flat_keys (by omega)) counter (f := f) (by rw [writeValueC_res costs_of]; exact hw)
    have hn' : ((flat n).map Prod.fst).length = n := by simp [flat]
    rw [hn'] at this
    omega

end Zera

namespace Flex

/-- C95, any bytes: a search in a map that claims to have `n` keys, up to 2^63 of them, reads at most as many keys as `n` has
binary digits. -/
theorem c95_flex_search_partial {r : Ref} {n : Nat} (hn : n ≤ 2 ^ 63)
    (h : ∀ p m kp kw kn, r.vector = .ok (p, m) → keysAt r.buf p r.bw = .ok (kp, kw, kn) → kn = n) (key : Bytes) :
    ((containsC r key).res = contains r key ∧ (containsC r key).cost ≤ n.log2 + 1) ∧
    ((getKeyC r key).res = getKey r key ∧ (getKeyC r key).cost ≤ n.log2 + 1) := by
  have := lookupC_cost (r := r) (k := key) (t := n.log2 + 1) fun p m kp kw kn h1 h2 => by
    rw [h p m kp kw kn h1 h2]
    exact ⟨hn, Nat.lt_log2_self⟩
  exact ⟨⟨containsC_res r key, this.1⟩, getKeyC_res r key, this.2⟩

/-- C95, any bytes: where the keys can be listed, that takes one step for each, there are no more of them than bytes (or 255),
and finding any key takes at most as many steps as their number has binary digits. -/
theorem c95_flex_listed {r : Ref} (hb : r.buf.length < 2 ^ 60) {ks : List Bytes} (hk : mapKeys r = .ok ks) (key : Bytes) :
    (mapKeysC r).res = .ok ks ∧ (mapKeysC r).cost ≤ ks.length ∧ ks.length ≤ max 255 r.buf.length ∧
    (containsC r key).cost ≤ ks.length.log2 + 1 ∧ (getKeyC r key).cost ≤ ks.length.log2 + 1 := by
  obtain ⟨h1, h2, h3⟩ := lookupC_listed hb hk key
  exact ⟨by rw [mapKeysC_res, hk], mapKeysC_cost hk, h3, h1, h2⟩

example : (opn [99, 0, 98, 0, 2, 5, 4, 2, 1, 2, 1, 2, 8, 8, 4, 36, 1] >>= mapKeys) = .ok [[99], [98]] := by decide +kernel

theorem opn_buf {b : Bytes} {r : Ref} (h : opn b = .ok r) : r.buf.length ≤ b.length := by
  unfold opn at h
  split at h
  · injection h with h; subst h; exact Nat.zero_le _
  · unfold getRoot at h
    split at h
    · cases h
    · obtain ⟨_, _, h⟩ := Res.bind_eq_ok.1 h
      obtain ⟨_, _, h⟩ := Res.bind_eq_ok.1 h
      split at h
      · injection h with h; subst h; exact Nat.le_refl _
      · cases h

/-- C85 for Flex, any bytes: a translation that makes `e` calls of the writer takes at most `e` times the number of binary
digits of the length (and two more, and eleven at least). Missing: a bound for the number of calls, see C77. -/
theorem c85_flex_calls_partial {b : Bytes} (hb : b.length < 2 ^ 60) {r : Ref} (h : opn b = .ok r) {f e : Nat}
    (hr : writeValue reader counter f r 0 = .ok e) :
    (writeValueC reader costs counter f r 0).res = .ok e ∧
    (writeValueC reader costs counter f r 0).cost ≤ ((max 255 b.length).log2 + 3) * e := by
  have hr' : (writeValueC reader costs counter f r 0).res = .ok e := by rw [writeValueC_res costs_of]; exact hr
  refine ⟨hr', ?_⟩
  obtain ⟨e', h1, h2⟩ := writeValueC_light (light hb) f r 0 e (opn_buf h) hr'
  obtain rfl : e' = e := by omega
  exact h2

end Flex

end Zer
