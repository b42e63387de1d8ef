import Verif.Lookup
import Verif.Props.Flex
import Verif.Flex.Any
import Verif.Json.Model

/-!
# C76: looking up, asking and listing agree, on arbitrary bytes
-/

namespace Zer

/-- What `mapKeys`, `contains` and `operator[]` say about one position fits together. -/
structure Reader.LookupsAgree {ρ : Type} (R : Reader ρ) (r : ρ) : Prop where
  /-- What `operator[]` returns, `contains` has. -/
  found : ∀ k c, R.getKey r k = .ok c → R.contains r k = .ok true
  /-- What `contains` has, `operator[]` returns. -/
  there : ∀ k, R.contains r k = .ok true → ∃ c, R.getKey r k = .ok c
  /-- What `contains` does not have, `operator[]` refuses. -/
  missing : ∀ k, R.contains r k = .ok false → R.getKey r k = .err .deser
  /-- `mapKeys` lists what `contains` has. -/
  listed : ∀ ks, R.mapKeys r = .ok ks → ∀ k, R.contains r k = .ok (decide (k ∈ ks))
  /-- `operator[]` refuses what `arraySize` does not count. -/
  counted : ∀ n i, R.arraySize r = .ok n → n ≤ i → R.getIdx r i = .err .deser
  /-- `operator[]` returns what `arraySize` counts. -/
  reached : ∀ n i, R.arraySize r = .ok n → i < n → ∃ c, R.getIdx r i = .ok c

end Zer

namespace Zer.MsgPack

/-- C76 for MessagePack, any bytes. Missing: a value that `contains` has, and an element that is counted, may not be
completely in the buffer; then `operator[]` leaves it (`c76_msgpack_refuted`). -/
theorem c76_msgpack_partial (v : Bytes) :
    (∀ k c, getKey v k = .ok c → contains v k = .ok true) ∧
    (∀ k, contains v k = .ok true → (∃ c, getKey v k = .ok c) ∨ getKey v k = .ub) ∧
    (∀ k, contains v k = .ok false → getKey v k = .err .deser) ∧
    (∀ ks, mapKeys v = .ok ks → ∀ k, contains v k = .ok (decide (k ∈ ks))) ∧
    (∀ n i, arraySize v = .ok n → n ≤ i → getIdx v i = .err .deser) := by
  refine ⟨fun k c h => ?_, fun k h => ?_, fun k h => ?_, fun ks h k => ?_, fun n i => reader_extends.noIdx⟩
  · unfold getKey at h
    obtain ⟨_, h1, h⟩ := Res.bind_eq_ok.1 h
    obtain ⟨⟨n, off⟩, h2, h⟩ := Res.bind_eq_ok.1 h
    unfold contains
    rw [if_pos (Res.require_eq_ok.1 h1), h2, Res.ok_bind]
    exact contains_of_getKeyFrom h
  · unfold contains at h
    split at h
    · rename_i hm
      obtain ⟨⟨n, off⟩, h2, h⟩ := Res.bind_eq_ok.1 h
      unfold getKey
      rw [hm, Res.require_true, Res.ok_bind, h2, Res.ok_bind]
      exact getKey_of_containsFrom h
    · cases h
  · by_cases hm : isMap v = true
    · exact reader_extends.noKey (s := v) (congrArg Res.ok hm) k h
    · unfold getKey
      rw [Bool.not_eq_true] at hm
      rw [hm]
      rfl
  · unfold mapKeys at h
    obtain ⟨_, h1, h⟩ := Res.bind_eq_ok.1 h
    obtain ⟨⟨n, off⟩, h2, h⟩ := Res.bind_eq_ok.1 h
    obtain ⟨e, h3, h⟩ := Res.bind_eq_ok.1 h
    unfold contains
    rw [if_pos (Res.require_eq_ok.1 h1), h2, Res.ok_bind]
    exact contains_of_keysFrom (by omega) h3 rfl (by omega) h

example : mapKeys [0x82, 0xa1, 0x61, 0x07, 0xa1, 0x62, 0xc3, 0xff] = .ok [[0x61], [0x62]] ∧
    getKey [0x82, 0xa1, 0x61, 0x07, 0xa1, 0x62, 0xc3, 0xff] [0x62] = .ok [0xc3] := by decide +kernel

/-- A key that is listed and found, and an element that is counted, cannot be looked up. -/
theorem c76_msgpack_refuted : ∃ v w : Bytes,
    mapKeys v = .ok [[0x61]] ∧ contains v [0x61] = .ok true ∧ getKey v [0x61] = .ub ∧
    arraySize w = .ok 1 ∧ getIdx w 0 = .ub ∧ ¬ reader.LookupsAgree v ∧ ¬ reader.LookupsAgree w := by
  refine ⟨[0x81, 0xa1, 0x61, 0xa2, 0x78], [0x91, 0xa2, 0x78], by decide +kernel, by decide +kernel, by decide +kernel,
    by decide +kernel, by decide +kernel, fun h => ?_, fun h => ?_⟩
  · obtain ⟨c, hc⟩ := h.there [0x61] (by decide +kernel)
    have : getKey [0x81, 0xa1, 0x61, 0xa2, 0x78] [0x61] = .ub := by decide +kernel
    exact absurd (hc.symm.trans this) (by simp)
  · obtain ⟨c, hc⟩ := h.reached 1 0 (by decide +kernel) (by decide)
    have : getIdx [0x91, 0xa2, 0x78] 0 = .ub := by decide +kernel
    exact absurd (hc.symm.trans this) (by simp)

end Zer.MsgPack

namespace Zer.Cbor

/-- C76 for CBOR, any bytes: `contains` and `operator[]`. Missing: elements that are counted may not be in the buffer;
for `mapKeys` see `c76_cbor_keys_partial`. -/
theorem c76_cbor_partial {hard : Bool} {f : Nat} (r : View) (hl : r.buf.length < 2 ^ 64) (hf : r.buf.length ≤ f) :
    (∀ k, (∃ c, View.getKey hard f r k = .ok c) ↔ View.contains hard f r k = .ok true) ∧
    (∀ k, View.contains hard f r k = .ok false → View.getKey hard f r k = .err .deser) ∧
    (∀ n i, View.arraySize f r = .ok n → n ≤ i → View.getIdx f r i = .err .deser) := by
  refine ⟨fun k => ⟨?_, fun h => ?_⟩, fun k h => ?_, fun n i => (reader_extends hard f).noIdx⟩
  · rintro ⟨c, h⟩
    simp only [View.getKey] at h
    obtain ⟨hd, h1, h⟩ := Res.bind_eq_ok.1 h
    obtain ⟨_, h2, h⟩ := Res.bind_eq_ok.1 h
    have hm : hd.major = 5 := by simpa using Res.require_eq_ok.1 h2
    simp only [View.contains, h1, Res.ok_bind, if_pos hm]
    split at h
    · rename_i hi; rw [if_pos hi]; exact contains_of_getKeyB h
    · rename_i hi; rw [if_neg hi]; exact contains_of_getKeyN h
  · simp only [View.contains] at h
    obtain ⟨hd, h1, h⟩ := Res.bind_eq_ok.1 h
    split at h
    · rename_i hm
      simp only [View.getKey, h1, Res.ok_bind, decide_eq_true hm, Res.require_true]
      split at h
      · rename_i hi; rw [if_pos hi]; exact getKey_of_containsB h
      · rename_i hi; rw [if_neg hi]; exact getKey_of_containsN hl hf h
    · cases h
  · have h' := h
    simp only [View.contains] at h
    obtain ⟨hd, h1, h⟩ := Res.bind_eq_ok.1 h
    by_cases hm : hd.major = 5
    · refine (reader_extends hard f).noKey (s := r) ?_ k h'
      show View.isMap r = _
      simp only [View.isMap, h1, Res.ok_bind, decide_eq_true hm]
      rfl
    · simp only [View.getKey, h1, Res.ok_bind, decide_eq_false hm]
      rfl

/-- C76 for CBOR, `mapKeys`: it lists what `contains` has, for maps of definite length whose entries are completely in the
buffer, if no length in it wraps a 64-bit offset and the byte 0xf8 (simple values with an extra byte) does not occur. -/
theorem c76_cbor_keys_partial {hard : Bool} {f : Nat} {r : View} (hn : NoHugeAll r.buf) (hv : r.buf.length < 2 ^ 63)
    (hf : r.buf.length < f) (hs : (0xf8 : UInt8) ∉ r.buf) {hd : Head} (hh : readHead false r.buf r.pos = .ok hd)
    (hi : hd.indef = false) {e : Nat} (he : items (skip false r.buf f) (2 * hd.val) (r.pos + hd.hlen) = .ok e) {ks : List Bytes}
    (h : View.mapKeys hard f r = .ok ks) (k : Bytes) : View.contains hard f r k = .ok (decide (k ∈ ks)) := by
  simp only [View.mapKeys, View.head, hh, le_readHead_raw _ _ _ hh, View.keysEnd, Res.ok_bind, hi, Bool.false_eq_true, if_false,
    le_items (le_skip_raw hs f) _ _ _ he] at h
  obtain ⟨_, h1, h⟩ := Res.bind_eq_ok.1 h
  have hm : hd.major = 5 := by simpa using Res.require_eq_ok.1 h1
  simp only [View.contains, View.head, hh, Res.ok_bind, if_pos hm, hi, Bool.false_eq_true, if_false]
  exact contains_of_keysFrom hn hv hf hs he h

example : readHead false [0xa2, 0x61, 0x61, 0x07, 0x61, 0x62, 0xf5] 0 = .ok ⟨5, 2, 2, 1, false⟩ ∧
    items (skip false [0xa2, 0x61, 0x61, 0x07, 0x61, 0x62, 0xf5] 8) 4 1 = .ok 7 ∧
    View.mapKeys true 8 ⟨[0xa2, 0x61, 0x61, 0x07, 0x61, 0x62, 0xf5], 0⟩ = .ok [[0x61], [0x62]] := by decide +kernel

example : NoHugeAll [0xa2, 0x61, 0x61, 0x07, 0x61, 0x62, 0xf5] := by
  intro p x n hn hx ha
  obtain ⟨pre, post, h, -⟩ := ha
  have h1 := congrArg List.length h
  simp at h1
  omega

/-- C76 is false for CBOR. (1) In the well-formed map `{"a": simple(32), "b": null}`, followed by two bytes, `mapKeys` lists
`b` and `contains` denies it. (2) A length that wraps: `mapKeys` lists nothing and `contains` has `a`. (3) An element that
is counted but not there. -/
theorem c76_cbor_refuted (hard : Bool) :
    (∃ v, View.mapKeys hard 20 ⟨v, 0⟩ = .ok [[0x61], [0x62]] ∧ View.contains hard 20 ⟨v, 0⟩ [0x62] = .ok false ∧
      ¬ (reader hard 20).LookupsAgree ⟨v, 0⟩) ∧
    (∃ v, View.mapKeys hard 20 ⟨v, 0⟩ = .ok [] ∧ View.contains hard 20 ⟨v, 0⟩ [0x61] = .ok true ∧
      ¬ (reader hard 20).LookupsAgree ⟨v, 0⟩) ∧
    (∃ v, View.arraySize 20 ⟨v, 0⟩ = .ok 3 ∧ View.getIdx 20 ⟨v, 0⟩ 2 = .err .deser ∧ ¬ (reader hard 20).LookupsAgree ⟨v, 0⟩) := by
  have key1 : ∀ {v : Bytes}, View.mapKeys hard 20 ⟨v, 0⟩ = .ok [[0x61], [0x62]] → View.contains hard 20 ⟨v, 0⟩ [0x62] = .ok false →
      ¬ (reader hard 20).LookupsAgree ⟨v, 0⟩ := by
    intro v h1 h2 h
    have := h2.symm.trans (h.listed _ h1 [0x62])
    exact absurd this (by decide)
  have key2 : ∀ {v : Bytes}, View.mapKeys hard 20 ⟨v, 0⟩ = .ok [] → View.contains hard 20 ⟨v, 0⟩ [0x61] = .ok true →
      ¬ (reader hard 20).LookupsAgree ⟨v, 0⟩ := by
    intro v h1 h2 h
    have := h2.symm.trans (h.listed _ h1 [0x61])
    exact absurd this (by decide)
  have key3 : ∀ {v : Bytes}, View.arraySize 20 ⟨v, 0⟩ = .ok 3 → View.getIdx 20 ⟨v, 0⟩ 2 = .err .deser →
      ¬ (reader hard 20).LookupsAgree ⟨v, 0⟩ := by
    intro v h1 h2 h
    obtain ⟨c, hc⟩ := h.reached 3 2 h1 (by decide)
    exact absurd (h2.symm.trans hc) (by simp)
  have a1 : View.mapKeys hard 20 ⟨[0xa2, 0x61, 0x61, 0xf8, 0x20, 0x61, 0x62, 0xf6, 0x00, 0x00], 0⟩ = .ok [[0x61], [0x62]] := by
    cases hard <;> decide +kernel
  have a2 : View.contains hard 20 ⟨[0xa2, 0x61, 0x61, 0xf8, 0x20, 0x61, 0x62, 0xf6, 0x00, 0x00], 0⟩ [0x62] = .ok false := by
    cases hard <;> decide +kernel
  have b1 : View.mapKeys hard 20 ⟨[0xa1, 0x61, 0x61, 0x7b, 0xff, 0xff, 0xff, 0xff, 0xff, 0xff, 0xff, 0xf5], 0⟩ = .ok [] := by
    cases hard <;> decide +kernel
  have b2 : View.contains hard 20 ⟨[0xa1, 0x61, 0x61, 0x7b, 0xff, 0xff, 0xff, 0xff, 0xff, 0xff, 0xff, 0xf5], 0⟩ [0x61] = .ok true := by
    cases hard <;> decide +kernel
  have c1 : View.arraySize 20 ⟨[0x83, 0x01], 0⟩ = .ok 3 := by decide +kernel
  have c2 : View.getIdx 20 ⟨[0x83, 0x01], 0⟩ 2 = .err .deser := by decide +kernel
  exact ⟨⟨_, a1, a2, key1 a1 a2⟩, ⟨_, b1, b2, key2 b1 b2⟩, ⟨_, c1, c2, key3 c1 c2⟩⟩

end Zer.Cbor

namespace Zer.Zera

/-- C76 for ZERA, every position of any bytes that open. Missing: `contains` may have a key whose value lies outside of the
envelope, which `operator[]` then refuses (`c76_zera_refuted`); not if the keys can be listed. -/
theorem c76_zera_partial {b : Bytes} {v r : View} (ho : initFrom b = .ok v) (hr : reader.Reach v r) :
    (∀ k c, r.getKey k = .ok c → r.contains k = .ok true) ∧
    (∀ k, r.contains k = .ok true → (∃ c, r.getKey k = .ok c) ∨ r.getKey k = .err .deser) ∧
    (∀ k, r.contains k = .ok false → r.getKey k = .err .deser) ∧
    (∀ ks, r.mapKeys = .ok ks → ∀ k, r.contains k = .ok (decide (k ∈ ks)) ∧ (k ∈ ks → ∃ c, r.getKey k = .ok c)) ∧
    (∀ n i, r.arraySize = .ok n → n ≤ i → r.getIdx i = .err .deser) ∧
    (∀ n i, r.arraySize = .ok n → i < n → ∃ c, r.getIdx i = .ok c) := by
  have hE : r.envSize < 2 ^ 32 := by
    obtain ⟨p, rfl⟩ := reach_eq hr
    obtain ⟨hd, h1, -, rfl⟩ := initFrom_ok ho
    simp only [parseHeader] at h1
    obtain ⟨_, -, h1⟩ := Res.bind_eq_ok.1 h1
    obtain ⟨_, -, h1⟩ := Res.bind_eq_ok.1 h1
    obtain ⟨_, -, h1⟩ := Res.bind_eq_ok.1 h1
    obtain ⟨_, -, h1⟩ := Res.bind_eq_ok.1 h1
    obtain ⟨_, -, h1⟩ := Res.bind_eq_ok.1 h1
    obtain ⟨x, h2, h1⟩ := Res.bind_eq_ok.1 h1
    obtain ⟨_, -, h1⟩ := Res.bind_eq_ok.1 h1
    injection h1 with h1
    subst h1
    exact readU32_lt h2
  have isMap_of : ∀ {t}, r.tag = .ok t → r.isMap = .ok (decide (t = tObject)) := by
    intro t h; simp only [View.isMap, h, Res.ok_bind]; rfl
  refine ⟨fun k c h => ?_, fun k h => ?_, fun k h => ?_, fun ks h k => ?_, fun n i => reader_extends.noIdx,
    fun n i h hi => getIdx_of_arraySize hE h hi⟩
  · simp only [View.getKey] at h
    obtain ⟨t, h1, h⟩ := Res.bind_eq_ok.1 h
    obtain ⟨_, h2, h⟩ := Res.bind_eq_ok.1 h
    obtain ⟨_, h3, h⟩ := Res.bind_eq_ok.1 h
    obtain ⟨o, h4, h⟩ := Res.bind_eq_ok.1 h
    obtain ⟨p, h5, h⟩ := Res.bind_eq_ok.1 h
    obtain ⟨m, h6, h⟩ := Res.bind_eq_ok.1 h
    simp only [View.contains, isMap_of h1, Res.require_eq_ok.1 h2, Res.ok_bind, h3, h4, h5, h6]
    exact contains_of_getKeyFrom h
  · simp only [View.contains, View.isMap] at h
    obtain ⟨m, h0, h⟩ := Res.bind_eq_ok.1 h
    obtain ⟨t, h1, h0⟩ := Res.bind_eq_ok.1 h0
    injection h0 with h0
    cases m with
    | false => cases h
    | true =>
      simp only [Bool.not_true, Bool.false_eq_true, if_false] at h
      obtain ⟨_, h3, h⟩ := Res.bind_eq_ok.1 h
      obtain ⟨o, h4, h⟩ := Res.bind_eq_ok.1 h
      obtain ⟨p, h5, h⟩ := Res.bind_eq_ok.1 h
      obtain ⟨m, h6, h⟩ := Res.bind_eq_ok.1 h
      simp only [View.getKey, h1, h0, Res.require_true, Res.ok_bind, h3, h4, h5, h6]
      exact getKey_of_containsFrom h
  · have h' := h
    simp only [View.contains, View.isMap] at h
    obtain ⟨m, h0, h⟩ := Res.bind_eq_ok.1 h
    obtain ⟨t, h1, h0⟩ := Res.bind_eq_ok.1 h0
    injection h0 with h0
    cases m with
    | true => exact reader_extends.noKey (s := r) ((isMap_of h1).trans (by rw [h0])) k h'
    | false =>
      simp only [View.getKey, h1, h0, Res.ok_bind]
      rfl
  · simp only [View.mapKeys] at h
    obtain ⟨t, h1, h⟩ := Res.bind_eq_ok.1 h
    obtain ⟨_, h2, h⟩ := Res.bind_eq_ok.1 h
    obtain ⟨_, h3, h⟩ := Res.bind_eq_ok.1 h
    obtain ⟨o, h4, h⟩ := Res.bind_eq_ok.1 h
    obtain ⟨p, h5, h⟩ := Res.bind_eq_ok.1 h
    obtain ⟨m, h6, h⟩ := Res.bind_eq_ok.1 h
    obtain ⟨en, h7, h⟩ := Res.bind_eq_ok.1 h
    obtain ⟨e1, -⟩ := envPtrAt_eq h7
    subst e1
    have hu : u32 (u32 (o + 4)) = u32 (o + 4) := Nat.mod_mod _ _
    have := contains_of_keysFrom hE (key := k) (ofs := u32 (o + 4)) (by rw [hu]; exact h)
    simp only [View.contains, isMap_of h1, Res.require_eq_ok.1 h2, Res.require_true, View.getKey, h1, Res.ok_bind, h3, h4, h5, h6]
    exact this

/-- An envelope that ends behind the key of the only entry of a map. -/
def headless : Bytes := assemble (makeVr tObject 0 0 16 0 0 ++ le32 1 ++ le16 1 ++ le16 0 ++ [0x61]) [] 0 48

/-- A key that is found and cannot be looked up. -/
theorem c76_zera_refuted : ∃ r, initFrom headless = .ok r ∧ r.contains [0x61] = .ok true ∧ r.getKey [0x61] = .err .deser ∧
    ¬ reader.LookupsAgree r := by
  have h1 : View.contains ⟨headless, 25, 48, some 20⟩ [0x61] = .ok true := by decide +kernel
  have h2 : View.getKey ⟨headless, 25, 48, some 20⟩ [0x61] = .err .deser := by decide +kernel
  refine ⟨⟨headless, 25, 48, some 20⟩, by decide +kernel, h1, h2, fun h => ?_⟩
  obtain ⟨c, hc⟩ := h.there [0x61] h1
  exact absurd (h2.symm.trans hc) (by simp)

end Zer.Zera

namespace Zer.Json

/-- C76 for JSON: any document. -/
theorem c76_json (v : Val) : reader.LookupsAgree v where
  found k c h := by
    cases v with
    | map ms =>
      have h : (match firstVal ms k with | some v => Res.ok v | none => .err .deser) = .ok c := h
      show Res.ok (firstVal ms k).isSome = _
      cases hf : firstVal ms k with
      | some x => rfl
      | none => rw [hf] at h; cases h
    | _ => cases h
  there k h := by
    cases v with
    | map ms =>
      have h : Res.ok (firstVal ms k).isSome = .ok true := h
      show ∃ c, (match firstVal ms k with | some v => Res.ok v | none => .err .deser) = .ok c
      cases hf : firstVal ms k with
      | some x => exact ⟨x, rfl⟩
      | none => rw [hf] at h; cases h
    | _ => cases h
  missing k h := by
    cases v with
    | map ms =>
      have h : Res.ok (firstVal ms k).isSome = .ok false := h
      show (match firstVal ms k with | some v => Res.ok v | none => .err .deser) = .err .deser
      cases hf : firstVal ms k with
      | some x => rw [hf] at h; cases h
      | none => rfl
    | _ => rfl
  listed ks h k := by
    cases v with
    | map ms =>
      have h : Res.ok (ms.map Prod.fst) = .ok ks := h
      injection h with h
      subst h
      show Res.ok (firstVal ms k).isSome = _
      congr 1
      cases hf : firstVal ms k with
      | some x => exact (decide_eq_true (firstVal_isSome.2 ⟨x, hf⟩)).symm
      | none =>
        refine (decide_eq_false fun hk => ?_).symm
        obtain ⟨x, hx⟩ := firstVal_isSome.1 hk
        rw [hf] at hx; cases hx
    | _ => cases h
  counted n i h hi := by
    cases v with
    | arr xs =>
      have h : Res.ok xs.length = .ok n := h
      injection h with h
      show (match xs[i]? with | some v => Res.ok v | none => .err .deser) = _
      rw [List.getElem?_eq_none (by omega)]
    | _ => cases h
  reached n i h hi := by
    cases v with
    | arr xs =>
      have h : Res.ok xs.length = .ok n := h
      injection h with h
      show ∃ c, (match xs[i]? with | some v => Res.ok v | none => .err .deser) = .ok c
      rw [List.getElem?_eq_getElem (by omega)]
      exact ⟨_, rfl⟩
    | _ => cases h

end Zer.Json

namespace Zer.Flex

theorem lookups_doc (v : Doc) (hs : ∀ ms, v = .map ms → ms.Pairwise (fun a b => a.1 ≤ b.1)) : Doc.reader.LookupsAgree v where
  found k c h := by
    cases v with
    | map ms =>
      have h : (match search (ms.map Prod.fst) k 0 (ms.map Prod.fst).length with
        | some mid => Res.ok ((ms.map Prod.snd)[mid]?.getD .null) | none => .err .deser) = .ok c := h
      show Res.ok (search (ms.map Prod.fst) k 0 (ms.map Prod.fst).length).isSome = _
      cases hf : search (ms.map Prod.fst) k 0 (ms.map Prod.fst).length with
      | some x => rfl
      | none => rw [hf] at h; cases h
    | _ => cases h
  there k h := by
    cases v with
    | map ms =>
      have h : Res.ok (search (ms.map Prod.fst) k 0 (ms.map Prod.fst).length).isSome = .ok true := h
      show ∃ c, (match search (ms.map Prod.fst) k 0 (ms.map Prod.fst).length with
        | some mid => Res.ok ((ms.map Prod.snd)[mid]?.getD .null) | none => .err .deser) = .ok c
      cases hf : search (ms.map Prod.fst) k 0 (ms.map Prod.fst).length with
      | some x => exact ⟨_, rfl⟩
      | none => rw [hf] at h; cases h
    | _ => cases h
  missing k h := by
    cases v with
    | map ms =>
      have h : Res.ok (search (ms.map Prod.fst) k 0 (ms.map Prod.fst).length).isSome = .ok false := h
      show (match search (ms.map Prod.fst) k 0 (ms.map Prod.fst).length with
        | some mid => Res.ok ((ms.map Prod.snd)[mid]?.getD .null) | none => .err .deser) = .err .deser
      cases hf : search (ms.map Prod.fst) k 0 (ms.map Prod.fst).length with
      | some x => rw [hf] at h; cases h
      | none => rfl
    | _ => rfl
  listed ks h k := by
    cases v with
    | map ms =>
      have h : Res.ok (ms.map Prod.fst) = .ok ks := h
      injection h with h
      subst h
      show Res.ok (search (ms.map Prod.fst) k 0 (ms.map Prod.fst).length).isSome = _
      rcases search_map (hs ms rfl) k with ⟨mid, x, h1, -, h2⟩ | ⟨h1, h2⟩
      · rw [h1, decide_eq_true (List.mem_map_of_mem (f := Prod.fst) h2)]; rfl
      · rw [h1, decide_eq_false h2]; rfl
    | _ => cases h
  counted n i h hi := by
    have h : Doc.arraySize v = .ok n := h
    show Doc.getIdx v i = _
    unfold Doc.arraySize at h
    obtain ⟨_, h1, h⟩ := Res.bind_eq_ok.1 h
    injection h with h
    unfold Doc.getIdx
    rw [h1, Res.ok_bind, List.getElem?_eq_none (by omega)]
  reached n i h hi := by
    have h : Doc.arraySize v = .ok n := h
    show ∃ c, Doc.getIdx v i = .ok c
    unfold Doc.arraySize at h
    obtain ⟨_, h1, h⟩ := Res.bind_eq_ok.1 h
    injection h with h
    unfold Doc.getIdx
    rw [h1, Res.ok_bind, List.getElem?_eq_getElem (by omega)]
    exact ⟨_, rfl⟩

theorem Holds.lookups {r : Ref} {d : Doc} (h : Holds r d) (hd : Doc.reader.LookupsAgree d) : reader.LookupsAgree r where
  found k c hk := by
    have hr := h.same.getKey k
    rw [show getKey r k = .ok c from hk] at hr
    obtain ⟨e, he, _⟩ := hr.ok_left
    exact (h.same.contains k).trans (hd.found k e he)
  there k hk := by
    obtain ⟨e, he⟩ := hd.there k ((h.same.contains k).symm.trans hk)
    have hr := h.same.getKey k
    rw [show d.getKey k = .ok e from he] at hr
    obtain ⟨c, hc, _⟩ := hr.ok_right
    exact ⟨c, hc⟩
  missing k hk := by
    have hr := h.same.getKey k
    rw [show d.getKey k = .err .deser from hd.missing k ((h.same.contains k).symm.trans hk)] at hr
    exact hr.err_right
  listed ks hk k := (h.same.contains k).trans (hd.listed ks (h.same.mapKeys.symm.trans hk) k)
  counted n i hn hi := by
    have hr := h.same.getIdx i
    rw [show d.getIdx i = .err .deser from hd.counted n i (h.same.arraySize.symm.trans hn) hi] at hr
    exact hr.err_right
  reached n i hn hi := by
    obtain ⟨e, he⟩ := hd.reached n i (h.same.arraySize.symm.trans hn) hi
    have hr := h.same.getIdx i
    rw [show d.getIdx i = .ok e from he] at hr
    obtain ⟨c, hc, _⟩ := hr.ok_right
    exact ⟨c, hc⟩

/-- C76 for Flex: any position that holds a document, maps in the order of their keys, which is what the format
prescribes. Missing: other bytes (`c76_flex_any`, `c76_flex_refuted`). -/
theorem c76_flex_partial {r : Ref} {d : Doc} (h : Holds r d) (hs : ∀ ms, d = .map ms → ms.Pairwise (fun a b => a.1 ≤ b.1)) :
    reader.LookupsAgree r := h.lookups (lookups_doc d hs)

/-- C76 for everything that the writer produces, at the root and at every position reached from it. -/
theorem c76_flex_written {L : Lib} (H : L.Law) (dbg : Bool) {v : Val} (hf : Fits v) :
    ∃ b r, (proto L dbg).serialize v = .ok b ∧ opn b = .ok r ∧ ∀ c, reader.Reach r c → reader.LookupsAgree c := by
  obtain ⟨b, r, h1, _, h2, h3⟩ := serialize_holds H dbg hf
  refine ⟨b, r, h1, h2, fun c hc => ?_⟩
  obtain ⟨e, he, hr⟩ := h3.reach hc
  obtain ⟨w, rfl⟩ := reach_toDoc H hr
  refine c76_flex_partial he fun ms hms => ?_
  cases w with
  | map ns =>
    simp only [toDoc, Doc.map.injEq] at hms
    subst hms
    exact H.sort_sorted _
  | _ => cases hms

/-- C76 for Flex, any bytes: what `operator[]` returns, `contains` has; what `contains` does not have, `operator[]` refuses;
what `contains` has, `operator[]` does not refuse; `operator[]` refuses what is not counted. -/
theorem c76_flex_any (r : Ref) :
    (∀ k c, reader.getKey r k = .ok c → reader.contains r k = .ok true) ∧
    (∀ k, reader.contains r k = .ok false → reader.getKey r k = .err .deser) ∧
    (∀ k e, reader.contains r k = .ok true → reader.getKey r k ≠ .err e) ∧
    (∀ n i, reader.arraySize r = .ok n → n ≤ i → reader.getIdx r i = .err .deser) := by
  have key : ∀ k, isMap r = true →
      (∃ p n kp kw kn o, r.vector = .ok (p, n) ∧ keysAt r.buf p r.bw = .ok (kp, kw, kn) ∧
        loop r.buf kp kw kn k loopFuel 0 kn = .ok o ∧ contains r k = .ok o.isSome ∧
        getKey r k = pick r p n o) ∨
      ((∀ b, contains r k ≠ .ok b) ∧ ∀ c, getKey r k ≠ .ok c) := by
    intro k hm
    generalize hF : loopFuel = F
    have hc : contains r k = (r.vector >>= fun x => keysAt r.buf x.1 r.bw >>= fun y =>
        loop r.buf y.1 y.2.1 y.2.2 k F 0 y.2.2 >>= fun o => pure o.isSome) := by
      simp only [contains, hm, if_true, hF]
    have hg : getKey r k = (r.vector >>= fun x => keysAt r.buf x.1 r.bw >>= fun y =>
        loop r.buf y.1 y.2.1 y.2.2 k F 0 y.2.2 >>= fun o => pick r x.1 x.2 o) := by
      simp only [getKey, hm, Res.require, if_true, Res.ok_bind, hF]
      rfl
    rw [hc, hg]
    cases hv : r.vector with
    | ok x =>
      obtain ⟨p, n⟩ := x
      simp only [Res.ok_bind]
      cases hk : keysAt r.buf p r.bw with
      | ok y =>
        obtain ⟨kp, kw, kn⟩ := y
        simp only [Res.ok_bind]
        cases hl : loop r.buf kp kw kn k F 0 kn with
        | ok o => exact .inl ⟨p, n, kp, kw, kn, o, rfl, hk, hl, rfl, rfl⟩
        | _ => exact .inr ⟨fun _ h => (by cases h), fun _ h => by cases h⟩
      | _ => exact .inr ⟨fun _ h => (by cases h), fun _ h => by cases h⟩
    | _ => exact .inr ⟨fun _ h => (by cases h), fun _ h => by cases h⟩
  have other := (c55_flex_wrong_kind r).2.2.2.2.2.2.2
  refine ⟨fun k c h => ?_, fun k h => ?_, fun k e h => ?_, fun n i h hi => ?_⟩
  · have h : getKey r k = .ok c := h
    show contains r k = _
    cases hm : isMap r with
    | false => rw [((other hm).2 k).1] at h; cases h
    | true =>
      rcases key k hm with ⟨p, n, kp, kw, kn, o, _, _, _, h1, h2⟩ | ⟨_, h2⟩
      · rw [h2] at h
        cases o with
        | none => cases h
        | some mid => exact h1
      · exact absurd h (h2 c)
  · have h : contains r k = .ok false := h
    show getKey r k = _
    cases hm : isMap r with
    | false => exact ((other hm).2 k).1
    | true =>
      rcases key k hm with ⟨p, n, kp, kw, kn, o, _, _, _, h1, h2⟩ | ⟨h1, _⟩
      · rw [h1] at h
        cases o with
        | none => exact h2
        | some mid => cases h
      · exact absurd h (h1 _)
  · have h : contains r k = .ok true := h
    show getKey r k ≠ _
    cases hm : isMap r with
    | false => rw [((other hm).2 k).2] at h; cases h
    | true =>
      rcases key k hm with ⟨p, n, kp, kw, kn, o, _, _, _, h1, h2⟩ | ⟨h1, _⟩
      · rw [h1] at h
        cases o with
        | none => cases h
        | some mid =>
          rw [h2]
          simp only [pick, elemAt]
          split
          · intro h; cases h
          · unfold byteAt
            split <;> intro h <;> cases h
      · exact absurd h (h1 _)
  · have h : arraySize r = .ok n := h
    show getIdx r i = _
    obtain ⟨_, h1, h⟩ := Res.bind_eq_ok.1 h
    obtain ⟨⟨p, m⟩, h2, h⟩ := Res.bind_eq_ok.1 h
    injection h with h
    subst h
    rw [getIdx, h1, Res.ok_bind, h2]
    simp [Res.require, Nat.not_lt.2 hi]

/-- A map that is not in the order of its keys: a key that is listed is denied. A map with a key that `contains` has, whose
value is not in the buffer. An array whose elements are not in the buffer. -/
theorem c76_flex_refuted :
    (∃ r, opn [99, 0, 98, 0, 2, 5, 4, 2, 1, 2, 1, 2, 8, 8, 4, 36, 1] = .ok r ∧ mapKeys r = .ok [[99], [98]] ∧
      contains r [99] = .ok false ∧ ¬ reader.LookupsAgree r) ∧
    (∃ r, opn [97, 0, 1, 3, 1, 1, 200, 0, 1, 36, 1] = .ok r ∧ contains r [97] = .ok true ∧ getKey r [97] = .ub ∧
      ¬ reader.LookupsAgree r) ∧
    (∃ r, opn [200, 0, 1, 40, 1] = .ok r ∧ arraySize r = .ok 200 ∧ getIdx r 0 = .ub ∧ ¬ reader.LookupsAgree r) := by
  refine ⟨⟨⟨[99, 0, 98, 0, 2, 5, 4, 2, 1, 2, 1, 2, 8, 8, 4, 36, 1], 14, 1, 1, 9⟩, by decide +kernel, by decide +kernel,
    by decide +kernel, fun h => ?_⟩, ⟨⟨[97, 0, 1, 3, 1, 1, 200, 0, 1, 36, 1], 8, 1, 1, 9⟩, by decide +kernel, by decide +kernel,
    by decide +kernel, fun h => ?_⟩, ⟨⟨[200, 0, 1, 40, 1], 2, 1, 1, 10⟩, by decide +kernel, by decide +kernel,
    by decide +kernel, fun h => ?_⟩⟩
  · have := h.listed [[99], [98]] (by decide +kernel) [99]
    exact absurd this (by decide +kernel)
  · obtain ⟨c, hc⟩ := h.there [97] (by decide +kernel)
    have e : reader.getKey ⟨[97, 0, 1, 3, 1, 1, 200, 0, 1, 36, 1], 8, 1, 1, 9⟩ [97] = .ub := by decide +kernel
    rw [e] at hc; cases hc
  · obtain ⟨c, hc⟩ := h.reached 200 0 (by decide +kernel) (by decide)
    have e : reader.getIdx ⟨[200, 0, 1, 40, 1], 2, 1, 1, 10⟩ 0 = .ub := by decide +kernel
    rw [e] at hc; cases hc

/-- A map with more keys than values: the keys in excess are listed, and stand for a null. -/
theorem c76_flex_short :
    ∃ r, opn [97, 0, 98, 0, 2, 5, 4, 2, 1, 1, 1, 8, 8, 3, 36, 1] = .ok r ∧ mapKeys r = .ok [[97], [98]] ∧
      contains r [98] = .ok true ∧ getKey r [98] = .ok nullRef ∧ isNull nullRef = true := by
  refine ⟨⟨[97, 0, 98, 0, 2, 5, 4, 2, 1, 1, 1, 8, 8, 3, 36, 1], 13, 1, 1, 9⟩, ?_⟩
  decide +kernel

end Zer.Flex
