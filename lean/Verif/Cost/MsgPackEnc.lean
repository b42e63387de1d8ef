import Verif.Cost.MsgPack
import Verif.Depth.MsgPack
import Verif.MsgPack.Contain

/-!
# MessagePack: the number of calls of `mp_skip` on encodings
-/

namespace Zer

mutual
/-- The number of items of a value: the value, its parts and their keys. -/
def Val.items : Val → Nat
  | .arr xs => 1 + itemsList xs
  | .map ms => 1 + itemsEntries ms
  | _ => 1
def Val.itemsList : List Val → Nat
  | [] => 0
  | x :: xs => x.items + itemsList xs
def Val.itemsEntries : List (Bytes × Val) → Nat
  | [] => 0
  | (_, v) :: ms => 1 + v.items + itemsEntries ms
end

namespace MsgPack

open Cnt (tick)

/-- `mp_skip` of `b` makes `n` calls, not more than there are bytes, whatever follows. -/
def Takes (b : Bytes) (n : Nat) : Prop :=
  n ≤ b.length ∧ ∀ f t, (b ++ t).length < f → mpSkipC f (b ++ t) = ⟨n, .ok b.length⟩

/-- Items in a row. -/
def TakesAll : List Bytes → Nat → Prop
  | [], n => n = 0
  | c :: cs, n => ∃ a b, n = a + b ∧ Takes c a ∧ TakesAll cs b

theorem Takes.skipC {b : Bytes} {n : Nat} (h : Takes b n) (t : Bytes) : skipC (b ++ t) = ⟨n, .ok b.length⟩ := h.2 _ t (by omega)

theorem Cnt.bind_mk_ok {α β : Type} {c : Nat} {a : α} {k : α → Cnt β} : ((⟨c, .ok a⟩ : Cnt α) >>= k) = ⟨c + (k a).cost, (k a).res⟩ := rfl

theorem TakesAll.loop {rec : Bytes → Cnt Nat} {M : Nat} (hr : ∀ c n t, Takes c n → (c ++ t).length ≤ M → rec (c ++ t) = ⟨n, .ok c.length⟩) :
    ∀ (cs : List Bytes) (n : Nat) (pre rest : Bytes), TakesAll cs n → (cs.flatten ++ rest).length ≤ M →
    skipLoopC rec (pre ++ (cs.flatten ++ rest)) cs.length pre.length = ⟨n, .ok (pre.length + cs.flatten.length)⟩
  | [], n, pre, rest, h, _ => by
    simp only [TakesAll] at h; subst h; rfl
  | c :: cs, n, pre, rest, h, hl => by
    obtain ⟨a, b, rfl, ha, hb⟩ := h
    have hl1 : (c ++ (cs.flatten ++ rest)).length ≤ M := by simp at hl ⊢; omega
    have hl2 : (cs.flatten ++ rest).length ≤ M := by simp at hl ⊢; omega
    have ih := TakesAll.loop hr cs b (pre ++ c) rest hb hl2
    simp only [List.length_append, List.append_assoc] at ih
    simp only [skipLoopC, List.length_cons]
    rw [subspan_append]
    simp only [Cnt.monadLift_eq, Cnt.lift_ok_bind, List.flatten_cons, List.append_assoc]
    rw [hr c a _ ha hl1, Cnt.bind_mk_ok, ih]
    simp only [List.length_append]
    rw [Nat.add_assoc]

theorem TakesAll.le : ∀ {cs : List Bytes} {n : Nat}, TakesAll cs n → n ≤ cs.flatten.length
  | [], n, h => by simp only [TakesAll] at h; simp [h]
  | c :: cs, n, h => by
    obtain ⟨a, b, rfl, ha, hb⟩ := h
    have := ha.1; have := TakesAll.le hb
    simp only [List.flatten_cons, List.length_append]; omega

/-- An item that needs no nested call takes one call. -/
theorem Depth.takes {b : Bytes} (h : Depth b 1) : Takes b 1 := by
  refine ⟨?_, fun f t hf => ?_⟩
  · cases b with
    | nil => have := h 1 []; cases this
    | cons x b => simp
  · have h1 := h 1 t
    rw [if_pos (Nat.le_refl _)] at h1
    obtain ⟨f, rfl⟩ : ∃ g, f = g + 1 := ⟨f - 1, by omega⟩
    rcases mpSkipC_step (b ++ t) with ⟨r, -, hs⟩ | ⟨n, off, -, ho, -, hs⟩
    · have := mpSkipC_res 1 (b ++ t)
      rw [hs 0, h1] at this
      rw [hs]
      exact congrArg (Cnt.mk 1) this
    · cases n with
      | zero =>
        have := mpSkipC_res 1 (b ++ t)
        rw [hs 0, h1] at this
        rw [hs]
        injection this with this
        show Cnt.mk 1 (.ok off) = _
        rw [this]
      | succ n =>
        have := mpSkipC_res 1 (b ++ t)
        rw [hs 0, h1] at this
        simp only [skipLoopC, Cnt.bind_res, Cnt.tick_res, Res.ok_bind, Cnt.monadLift_eq, Cnt.lift_res, subspan, if_pos ho, mpSkipC] at this
        cases this

theorem mpSkipC_arr {n : Nat} {h : Bytes} (H : ArrHead n h) (f : Nat) (t : Bytes) :
    mpSkipC (f + 1) (h ++ t) = tick >>= fun _ => skipLoopC (mpSkipC f) (h ++ t) n h.length := by
  cases H with
  | fix hn =>
    have h3 : ∀ n, n < 16 → ¬ ((UInt8.ofNat (0x90 + n)).toNat ≤ 0x7f ∨
        (UInt8.ofNat (0x90 + n)).toNat ≥ 0xe0 ∨ (UInt8.ofNat (0x90 + n)).toNat = 0xc0 ∨
        (UInt8.ofNat (0x90 + n)).toNat = 0xc2 ∨ (UInt8.ofNat (0x90 + n)).toNat = 0xc3) ∧
        ¬ ((UInt8.ofNat (0x90 + n)).toNat &&& 0xe0 = 0xa0) := by decide
    obtain ⟨h1, h2⟩ := fix_90 n hn
    simp only [mpSkipC, List.cons_append, List.nil_append]
    rw [if_neg (h3 n hn).1, if_neg (h3 n hn).2, if_pos h1, h2]; rfl
  | a16 hn =>
    have e := readBe16_be hn 0xdc t
    simp only [mpSkipC, List.cons_append]
    rw [if_neg (by decide), if_neg (by decide), if_neg (by decide), if_neg (by decide),
      if_neg (by decide), if_neg (by decide), if_neg (by decide), if_neg (by decide),
      if_neg (by decide), if_neg (by decide), if_neg (by decide), if_pos (by decide), e]
    simp [Res.require]
  | a32 hn =>
    have e := readBe32_be hn 0xdd t
    simp only [mpSkipC, List.cons_append]
    rw [if_neg (by decide), if_neg (by decide), if_neg (by decide), if_neg (by decide),
      if_neg (by decide), if_neg (by decide), if_neg (by decide), if_neg (by decide),
      if_neg (by decide), if_neg (by decide), if_neg (by decide), if_neg (by decide),
      if_pos (by decide), e]
    simp [Res.require]

theorem mpSkipC_map {n : Nat} {h : Bytes} (H : MapHead n h) (f : Nat) (t : Bytes) :
    mpSkipC (f + 1) (h ++ t) = tick >>= fun _ => skipLoopC (mpSkipC f) (h ++ t) (2 * n) h.length := by
  cases H with
  | fix hn =>
    have h3 : ∀ n, n < 16 → ¬ ((UInt8.ofNat (0x80 + n)).toNat ≤ 0x7f ∨
        (UInt8.ofNat (0x80 + n)).toNat ≥ 0xe0 ∨ (UInt8.ofNat (0x80 + n)).toNat = 0xc0 ∨
        (UInt8.ofNat (0x80 + n)).toNat = 0xc2 ∨ (UInt8.ofNat (0x80 + n)).toNat = 0xc3) ∧
        ¬ ((UInt8.ofNat (0x80 + n)).toNat &&& 0xe0 = 0xa0) ∧
        ¬ ((UInt8.ofNat (0x80 + n)).toNat &&& 0xf0 = 0x90) := by decide
    obtain ⟨h1, h2⟩ := fix_80 n hn
    simp only [mpSkipC, List.cons_append, List.nil_append]
    rw [if_neg (h3 n hn).1, if_neg (h3 n hn).2.1, if_neg (h3 n hn).2.2, if_pos h1, h2]; rfl
  | m16 hn =>
    have e := readBe16_be hn 0xde t
    simp only [mpSkipC, List.cons_append]
    rw [if_neg (by decide), if_neg (by decide), if_neg (by decide), if_neg (by decide),
      if_neg (by decide), if_neg (by decide), if_neg (by decide), if_neg (by decide),
      if_neg (by decide), if_neg (by decide), if_neg (by decide), if_neg (by decide),
      if_neg (by decide), if_pos (by decide), e]
    simp [Res.require]
  | m32 hn =>
    have e := readBe32_be hn 0xdf t
    simp only [mpSkipC, List.cons_append]
    rw [if_neg (by decide), if_neg (by decide), if_neg (by decide), if_neg (by decide),
      if_neg (by decide), if_neg (by decide), if_neg (by decide), if_neg (by decide),
      if_neg (by decide), if_neg (by decide), if_neg (by decide), if_neg (by decide),
      if_neg (by decide), if_neg (by decide), if_pos (by decide), e]
    simp [Res.require]

theorem takes_container {h : Bytes} {cs : List Bytes} {n k : Nat} (hk : cs.length = k) (hh : 1 ≤ h.length)
    (hm : ∀ f t, mpSkipC (f + 1) (h ++ t) = tick >>= fun _ => skipLoopC (mpSkipC f) (h ++ t) k h.length) (hc : TakesAll cs n) :
    Takes (h ++ cs.flatten) (1 + n) := by
  have := hc.le
  refine ⟨by simp only [List.length_append]; omega, fun f t hf => ?_⟩
  obtain ⟨f, rfl⟩ : ∃ g, f = g + 1 := ⟨f - 1, by omega⟩
  simp only [List.length_append] at hf
  have := TakesAll.loop (rec := mpSkipC f) (M := f - 1) (fun c n t h hl => h.2 f t (by have := hl; simp only [List.length_append] at *; omega))
    cs n h t hc (by simp only [List.length_append]; omega)
  rw [List.append_assoc, hm, ← hk, this, Cnt.tick, Cnt.bind_mk_ok]
  simp

mutual
theorem Enc.takes : ∀ (v : Val) {b : Bytes}, v.Below (2 ^ 32 - 5) → Enc v b → Takes b v.items
  | .null, b, hb, h => by simpa [Val.items] using Depth.takes (Enc.depth .null hb h)
  | .bool x, b, hb, h => by simpa [Val.items] using Depth.takes (Enc.depth (.bool x) hb h)
  | .int i, b, hb, h => by simpa [Val.items] using Depth.takes (Enc.depth (.int i) hb h)
  | .uint n, b, hb, h => by simpa [Val.items] using Depth.takes (Enc.depth (.uint n) hb h)
  | .dbl d, b, hb, h => by simpa [Val.items] using Depth.takes (Enc.depth (.dbl d) hb h)
  | .str s, b, hb, h => by simpa [Val.items] using Depth.takes (Enc.depth (.str s) hb h)
  | .blob s, b, hb, h => by simpa [Val.items] using Depth.takes (Enc.depth (.blob s) hb h)
  | .arr xs, b, hb, h => by
      simp only [Enc] at h
      obtain ⟨hd, cs, H, hc, rfl⟩ := h
      obtain ⟨h1, h2⟩ := EncList.takes xs (by simpa [Val.Below] using hb) hc
      exact takes_container h1 H.pos (mpSkipC_arr H) h2
  | .map ms, b, hb, h => by
      simp only [Enc] at h
      obtain ⟨hd, cs, H, hc, rfl⟩ := h
      obtain ⟨h1, h2⟩ := EncEntries.takes ms (by simpa [Val.Below] using hb) hc
      exact takes_container h1 H.pos (mpSkipC_map H) h2
theorem EncList.takes : ∀ (xs : List Val) {cs : List Bytes}, Val.Below.belowList (2 ^ 32 - 5) xs →
    EncList xs cs → cs.length = xs.length ∧ TakesAll cs (Val.itemsList xs)
  | [], cs, _, h => by simp only [EncList] at h; subst h; exact ⟨rfl, rfl⟩
  | x :: xs, cs, hb, h => by
      simp only [EncList] at h
      simp only [Val.Below.belowList] at hb
      obtain ⟨c, cs', hc, hcs, rfl⟩ := h
      obtain ⟨h1, h2⟩ := EncList.takes xs hb.2 hcs
      exact ⟨by simp [h1], _, _, rfl, Enc.takes x hb.1 hc, h2⟩
theorem EncEntries.takes : ∀ (ms : List (Bytes × Val)) {cs : List Bytes}, Val.Below.belowEntries (2 ^ 32 - 5) ms →
    EncEntries ms cs → cs.length = 2 * ms.length ∧ TakesAll cs (Val.itemsEntries ms)
  | [], cs, _, h => by simp only [EncEntries] at h; subst h; exact ⟨rfl, rfl⟩
  | (k, v) :: ms, cs, hb, h => by
      simp only [EncEntries] at h
      simp only [Val.Below.belowEntries] at hb
      obtain ⟨hd, c, cs', H, hc, hcs, rfl⟩ := h
      obtain ⟨h1, h2⟩ := EncEntries.takes ms hb.2.2 hcs
      refine ⟨by simp [h1]; omega, 1, v.items + Val.itemsEntries ms, by simp [Val.itemsEntries]; omega, Depth.takes (depth_str H hb.1),
        _, _, rfl, Enc.takes v hb.2.1 hc, h2⟩
end

theorem TakesAll.walk : ∀ (cs : List Bytes) (n : Nat) (pre rest : Bytes), TakesAll cs n →
    Walk (pre ++ (cs.flatten ++ rest)) cs.length pre.length
  | [], _, _, _, _ => trivial
  | c :: cs, n, pre, rest, h => by
    obtain ⟨a, b, rfl, ha, hb⟩ := h
    have ih := TakesAll.walk cs b (pre ++ c) rest hb
    simp only [List.length_append, List.append_assoc] at ih
    intro _
    have e : (pre ++ ((c :: cs).flatten ++ rest)).drop pre.length = c ++ (cs.flatten ++ rest) := by simp
    have := ha.1
    rw [e, ha.skipC]
    refine ⟨by simp; omega, fun s hs => ?_⟩
    injection hs with hs
    subst hs
    exact ⟨this, by simpa using ih⟩

/-- A buffer of at most `N` bytes that starts with an encoding. -/
def Starts (N : Nat) (w : Bytes) : Prop := ∃ v b rest, v.Below (2 ^ 32 - 5) ∧ Enc v b ∧ w = b ++ rest ∧ w.length ≤ N

theorem Starts.map {N : Nat} {w : Bytes} (h : Starts N w) (hb : reader.isBlob w = .ok false) (hm : reader.isMap w = .ok true) :
    ∃ ms hd cs rest, MapHead ms.length hd ∧ Val.Below.belowEntries (2 ^ 32 - 5) ms ∧ EncEntries ms cs ∧ w = hd ++ (cs.flatten ++ rest) := by
  obtain ⟨v, b, rest, h1, h2, rfl, -⟩ := h
  have ha := agrees_of_enc v b rest h1 h2
  cases ha with
  | null h => exact absurd (h.2.2.2.2.2.2.1) (by rw [hm]; exact fun h => by cases h)
  | bool h _ => exact absurd (h.2.2.2.2.2.2.1) (by rw [hm]; exact fun h => by cases h)
  | int h _ => exact absurd (h.1.2.2.2.2.2.2.1) (by rw [hm]; exact fun h => by cases h)
  | uint h _ => exact absurd (h.1.2.2.2.2.2.2.1) (by rw [hm]; exact fun h => by cases h)
  | dbl h _ => exact absurd (h.2.2.2.2.2.2.1) (by rw [hm]; exact fun h => by cases h)
  | str h _ _ => exact absurd (h.2.2.2.2.2.2.1) (by rw [hm]; exact fun h => by cases h)
  | blob h _ _ => exact absurd (h.2.2.2.2.2.2.1) (by rw [hm]; exact fun h => by cases h)
  | arr _ h _ _ _ _ => exact absurd (h.2.2.2.2.2.2.1) (by rw [hm]; exact fun h => by cases h)
  | map _ _ _ _ _ _ _ =>
    rename_i ms _ _ _ _ _ _ _
    simp only [Enc] at h2
    obtain ⟨hd, cs, H, hc, rfl⟩ := h2
    exact ⟨ms, hd, cs, rest, H, by simpa [Val.Below] using h1, hc, by simp⟩

theorem Starts.arr {N : Nat} {w : Bytes} (h : Starts N w) (hb : reader.isBlob w = .ok false) (hm : reader.isArray w = .ok true) :
    ∃ xs hd cs rest, ArrHead xs.length hd ∧ Val.Below.belowList (2 ^ 32 - 5) xs ∧ EncList xs cs ∧ w = hd ++ (cs.flatten ++ rest) := by
  obtain ⟨v, b, rest, h1, h2, rfl, -⟩ := h
  have ha := agrees_of_enc v b rest h1 h2
  cases ha with
  | null h => exact absurd (h.2.2.2.2.2.2.2) (by rw [hm]; exact fun h => by cases h)
  | bool h _ => exact absurd (h.2.2.2.2.2.2.2) (by rw [hm]; exact fun h => by cases h)
  | int h _ => exact absurd (h.1.2.2.2.2.2.2.2) (by rw [hm]; exact fun h => by cases h)
  | uint h _ => exact absurd (h.1.2.2.2.2.2.2.2) (by rw [hm]; exact fun h => by cases h)
  | dbl h _ => exact absurd (h.2.2.2.2.2.2.2) (by rw [hm]; exact fun h => by cases h)
  | str h _ _ => exact absurd (h.2.2.2.2.2.2.2) (by rw [hm]; exact fun h => by cases h)
  | blob h _ _ => exact absurd (h.2.2.2.2.2.1) (by rw [hb]; exact fun h => by cases h)
  | map _ h _ _ _ _ _ => exact absurd (h.2.2.2.2.2.2.2) (by rw [hm]; exact fun h => by cases h)
  | arr _ _ _ _ _ _ =>
    rename_i xs _ _ _ _ _ _
    simp only [Enc] at h2
    obtain ⟨hd, cs, H, hc, rfl⟩ := h2
    exact ⟨xs, hd, cs, rest, H, by simpa [Val.Below] using h1, hc, by simp⟩

/-- Encodings of at most `N` bytes, whatever follows. -/
theorem within_enc (N : Nat) : Costs.Within reader costs (Starts N) (N + 1) where
  mapKeys r h hb hm := by
    obtain ⟨ms, hd, cs, rest, H, h1, h2, rfl⟩ := h.map hb hm
    obtain ⟨_, _, _, _, _, _, hN⟩ := h
    obtain ⟨t1, t2⟩ := EncEntries.takes ms h1 h2
    have hw : WalksMap (hd ++ (cs.flatten ++ rest)) := fun n off he => by
      rw [mapInfo_head H] at he
      injection he with he
      injection he with e1 e2
      subst e1 e2
      rw [← t1]
      exact t2.walk cs _ hd rest
    have := hw.mapKeys
    show (mapKeysC _).cost ≤ _
    omega
  getKey r k h hb hm := by
    obtain ⟨ms, hd, cs, rest, H, h1, h2, rfl⟩ := h.map hb hm
    obtain ⟨_, _, _, _, _, _, hN⟩ := h
    obtain ⟨t1, t2⟩ := EncEntries.takes ms h1 h2
    have hw : WalksMap (hd ++ (cs.flatten ++ rest)) := fun n off he => by
      rw [mapInfo_head H] at he
      injection he with he
      injection he with e1 e2
      subst e1 e2
      rw [← t1]
      exact t2.walk cs _ hd rest
    have := hw.getKey k
    refine ⟨by show (getKeyC _ k).cost ≤ _; omega, fun c hc => ?_⟩
    rw [costs_of.getKey] at hc
    have hm' : isMap (hd ++ (cs.flatten ++ rest)) = true := by injection hm
    have hg : getKey (hd ++ (cs.flatten ++ rest)) k = getKeyFrom (hd ++ (cs.flatten ++ rest)) k ms.length hd.length := by
      simp only [getKey, hm', Res.require_true, Res.ok_bind, mapInfo_head H]
    have hc' : getKey (hd ++ (cs.flatten ++ rest)) k = .ok c := hc
    obtain ⟨o, m, hp⟩ := getKey_part hc'
    rw [hg] at hc'
    obtain ⟨k1, k2⟩ := getKeyFrom_ok k ms cs hd rest h1 h2
    by_cases hk : k ∈ ms.map Prod.fst
    · obtain ⟨v, hv⟩ := firstVal_isSome.1 hk
      obtain ⟨c', hc1, hc2⟩ := k1 v hv
      rw [hc2] at hc'
      injection hc' with hc'
      subst hc'
      refine ⟨v, c', [], ((Val.belowEntries_iff ms).1 h1 _ (firstVal_mem hv)).2, hc1, by simp, ?_⟩
      have : c'.length ≤ (hd ++ (cs.flatten ++ rest)).length := by rw [hp]; simp only [List.length_take, List.length_drop]; omega
      omega
    · rw [k2 hk] at hc'; cases hc'
  arraySize r _ _ _ := Nat.zero_le _
  getIdx r i h hb hm := by
    obtain ⟨xs, hd, cs, rest, H, h1, h2, rfl⟩ := h.arr hb hm
    obtain ⟨_, _, _, _, _, _, hN⟩ := h
    obtain ⟨t1, t2⟩ := EncList.takes xs h1 h2
    have hw : WalksArr (hd ++ (cs.flatten ++ rest)) := fun n off he => by
      rw [arrInfo_head H] at he
      injection he with he
      injection he with e1 e2
      subst e1 e2
      rw [← t1]
      exact t2.walk cs _ hd rest
    have := hw.getIdx i
    refine ⟨by show (getIdxC _ i).cost ≤ _; omega, fun c hc => ?_⟩
    rw [costs_of.getIdx] at hc
    have hc' : getIdx (hd ++ (cs.flatten ++ rest)) i = .ok c := hc
    obtain ⟨o, m, hp⟩ := getIdx_part hc'
    by_cases hi : i < cs.length
    · obtain ⟨e1, e2⟩ := EncList.elem xs h1 h2
      rw [← List.append_assoc, getIdx_chunks (t1 ▸ H) e2 rest hi] at hc'
      injection hc' with hc'
      have := (EncList.get h2).2 i (by omega) hi
      refine ⟨xs[i], c, [], (Val.belowList_iff xs).1 h1 _ (List.getElem_mem _), hc' ▸ this, by simp, ?_⟩
      have : c.length ≤ (hd ++ (cs.flatten ++ rest)).length := by rw [hp]; simp only [List.length_take, List.length_drop]; omega
      omega
    · rw [getIdx_out H _ (by omega)] at hc'; cases hc'

/-- An array of `2^32 - 1` elements that is followed by a string of `2^32 - 5` bytes. -/
def stall : Bytes := [0xdd, 0xff, 0xff, 0xff, 0xff, 0xdb, 0xff, 0xff, 0xff, 0xfb]

theorem stall_still : mpSkipC 10 (stall.drop 5) = ⟨1, .ok 0⟩ := rfl

theorem stall_skip : skipC stall = ⟨2 ^ 32, .ok 5⟩ := by
  have he : stall = (0xdd :: be 4 (2 ^ 32 - 1)) ++ [0xdb, 0xff, 0xff, 0xff, 0xfb] := by decide
  have h1 := mpSkipC_arr (.a32 (show 2 ^ 32 - 1 < 2 ^ 32 by decide)) 10 [0xdb, 0xff, 0xff, 0xff, 0xfb]
  rw [← he, show (0xdd :: be 4 (2 ^ 32 - 1)).length = 5 by simp, skipLoopC_still (by decide) stall_still] at h1
  show mpSkipC 11 stall = _
  rw [h1]
  show Cnt.mk (1 + (2 ^ 32 - 1)) _ = _
  rw [show 1 + (2 ^ 32 - 1) = 2 ^ 32 by decide]

/-! ## An array of nulls -/

/-- Header of the longest form and `n` nulls. -/
def nulls (n : Nat) : Bytes := (0xdd :: be 4 n) ++ List.replicate n 0xc0

theorem takes_null : Takes [0xc0] 1 := (depth_single (.inr (.inr (.inl rfl)))).takes

theorem takesAll_null : ∀ n, TakesAll (List.replicate n [0xc0]) n
  | 0 => rfl
  | n + 1 => ⟨1, n, by omega, takes_null, takesAll_null n⟩

theorem flatten_null (n : Nat) : (List.replicate n [(0xc0 : UInt8)]).flatten = List.replicate n 0xc0 := by
  induction n with
  | zero => rfl
  | succ n ih => simp [List.replicate_succ, ih]

theorem nulls_getIdx {n i : Nat} (hn : n < 2 ^ 32) (hi : i < n) : getIdxC (nulls n) i = ⟨i + 1, .ok [0xc0]⟩ := by
  have e : nulls n = (0xdd :: be 4 n) ++ ((List.replicate i [0xc0]).flatten ++ ([0xc0] ++ List.replicate (n - i - 1) 0xc0)) := by
    rw [flatten_null]
    show _ ++ _ = _
    congr 1
    rw [← List.append_assoc]
    rw [show ([0xc0] : Bytes) = List.replicate 1 0xc0 from rfl, List.replicate_append_replicate, List.replicate_append_replicate]
    congr 1
    omega
  have hl := TakesAll.loop (rec := skipC) (M := (nulls n).length) (fun c n t h _ => h.skipC t) (List.replicate i [0xc0]) i (0xdd :: be 4 n)
    ([0xc0] ++ List.replicate (n - i - 1) 0xc0) (takesAll_null i) (by rw [e]; simp only [List.length_append]; omega)
  have ha : arrInfo (nulls n) = .ok (n, 5) := arrInfo_head (.a32 hn) _
  rw [← e, List.length_replicate, flatten_null, List.length_replicate] at hl
  have hsub : subspan (nulls n) ((0xdd :: be 4 n).length + i) = .ok ([0xc0] ++ List.replicate (n - i - 1) 0xc0) := by
    rw [e, flatten_null, ← List.append_assoc]
    have := subspan_append ((0xdd :: be 4 n) ++ List.replicate i 0xc0) ([0xc0] ++ List.replicate (n - i - 1) 0xc0)
    rw [List.length_append, List.length_replicate] at this
    exact this
  simp only [getIdxC, ha, Cnt.monadLift_eq, Cnt.lift_ok_bind, decide_eq_true hi, Res.require_true]
  have h5 : (0xdd :: be 4 n).length = 5 := by simp
  rw [h5] at hl hsub
  rw [hl, Cnt.bind_mk_ok, hsub, Cnt.lift_ok_bind, takes_null.skipC, Cnt.bind_mk_ok]
  rfl

theorem nulls_elems {n : Nat} (hn : n < 2 ^ 32) {f : Nat} : ∀ k i s, i + k ≤ n →
    (writeElemsC costs (writeValueC reader costs counter (f + 1)) (nulls n) k i s).res = .ok (s + k) ∧
    2 * (writeElemsC costs (writeValueC reader costs counter (f + 1)) (nulls n) k i s).cost = k * (2 * i + k + 1)
  | 0, i, s, _ => ⟨rfl, by simp [writeElemsC]⟩
  | k + 1, i, s, h => by
    obtain ⟨h1, h2⟩ := nulls_elems hn (f := f) k (i + 1) (s + 1) (by omega)
    have e1 : costs.getIdx (nulls n) i = ⟨i + 1, .ok [0xc0]⟩ := nulls_getIdx hn (by omega)
    have e2 : writeValueC reader costs counter (f + 1) [0xc0] s = ⟨0, .ok (s + 1)⟩ := rfl
    simp only [writeElemsC, e1, Cnt.bind_mk_ok, e2, h1]
    refine ⟨by congr 1; omega, ?_⟩
    have q : (k + 1) * (2 * i + (k + 1) + 1) = k * (2 * (i + 1) + k + 1) + 2 * (i + 1) := by
      rw [Nat.succ_mul, show 2 * i + (k + 1) + 1 = 2 * (i + 1) + k by omega, show 2 * (i + 1) + k + 1 = (2 * (i + 1) + k) + 1 by omega,
        Nat.mul_add k _ 1]
      omega
    rw [q, ← h2]
    omega

theorem nulls_cost {n : Nat} (hn : n < 2 ^ 32) (f : Nat) : (writeValueC reader costs counter (f + 2) (nulls n) 0).res = .ok (n + 2) ∧
    2 * (writeValueC reader costs counter (f + 2) (nulls n) 0).cost = n * (n + 1) := by
  obtain ⟨h1, h2⟩ := nulls_elems hn (f := f) n 0 1 (by omega)
  have e : writeValueC reader costs counter (f + 2) (nulls n) 0 =
      Cnt.lift (arraySize (nulls n)) >>= fun m => Cnt.lift (counter.step 0 (.beginArr m)) >>= fun s =>
        writeElemsC costs (writeValueC reader costs counter (f + 1)) (nulls n) m 0 s >>= fun s => Cnt.lift (counter.step s .endArr) := by
    obtain ⟨s1, s2, ⟨i, u, si, su, siu⟩, s4, s5, s6, s7, s8⟩ := shows_arr (.a32 hn) (List.replicate n 0xc0)
    obtain ⟨rfl, rfl⟩ : i = false ∧ u = false := by cases i <;> cases u <;> simp_all
    have hsz : costs.arraySize (nulls n) = Cnt.lift (arraySize (nulls n)) := rfl
    rw [writeValueC]
    simp only [nulls] at *
    simp only [s1, s2, si, su, s4, s5, s6, s7, s8, hsz, Cnt.monadLift_eq, Cnt.lift_ok_bind, Bool.false_eq_true, if_false, if_true]
  have ha : arraySize (nulls n) = .ok n := by
    have : arrInfo (nulls n) = .ok (n, 5) := arrInfo_head (.a32 hn) _
    simp [arraySize, this]
  have hs : counter.step 0 (.beginArr n) = .ok 1 := rfl
  rw [e, ha, Cnt.lift_ok_bind, hs, Cnt.lift_ok_bind]
  refine ⟨?_, ?_⟩
  · rw [Cnt.bind_res, h1]; show Res.ok _ = _; congr 1; omega
  · rw [Cnt.bind_ok_cost h1, Cnt.lift_cost, Nat.add_zero, h2]
    simp

end MsgPack

end Zer
