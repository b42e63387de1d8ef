import Verif.MsgPack.Contain
import Verif.MsgPack.Term

/-!
# MessagePack: arbitrary bytes, well-formed elements
-/

namespace Zer.MsgPack

/-! ## Accessors that are safe on all bytes -/

theorem byteAt_clean {v : Bytes} {p : Nat} (h : p < v.length) : (byteAt v p).Clean := by
  rw [byteAt_ok h]; exact .ok _

theorem guarded {α : Type} {v : Bytes} {k : Nat} {x : Res α} (h : k ≤ v.length → x.Clean) :
    (Res.require (decide (k ≤ v.length)) .deser >>= fun _ => x).Clean := by
  by_cases hk : k ≤ v.length
  · rw [decide_eq_true hk]; exact h hk
  · rw [decide_eq_false hk]; exact .deser

theorem of_ok {α : Type} {x : Res α} (h : ∃ a, x = .ok a) : x.Clean := .inl h

theorem asInt64_clean (v : Bytes) : (asInt64 v).Clean := by
  unfold asInt64
  refine .bind (.require _) (fun _ h => ?_)
  have h0 := of_decide_eq_true (Res.require_eq_ok.1 h)
  refine .bind (byteAt_clean (by omega)) (fun m _ => ?_)
  have b8 : ∀ g : Nat → Int, (Res.require (decide (2 ≤ v.length)) .deser >>= fun _ =>
      byteAt v 1 >>= fun x => (pure (i64 (g x)) : Res Int64)).Clean := fun g =>
    guarded (fun h => .bind (byteAt_clean (by omega)) (fun _ _ => .pure _))
  have b16 : ∀ g : Nat → Int, (Res.require (decide (3 ≤ v.length)) .deser >>= fun _ =>
      readBe16 v 1 >>= fun x => (pure (i64 (g x)) : Res Int64)).Clean := fun g =>
    guarded (fun h => .bind (of_ok (readBe16_ok (by omega))) (fun _ _ => .pure _))
  have b32 : ∀ g : Nat → Int, (Res.require (decide (5 ≤ v.length)) .deser >>= fun _ =>
      readBe32 v 1 >>= fun x => (pure (i64 (g x)) : Res Int64)).Clean := fun g =>
    guarded (fun h => .bind (of_ok (readBe32_ok (by omega))) (fun _ _ => .pure _))
  have b64 : ∀ g : Nat → Int, (Res.require (decide (9 ≤ v.length)) .deser >>= fun _ =>
      readBe64 v 1 >>= fun x => (pure (i64 (g x)) : Res Int64)).Clean := fun g =>
    guarded (fun h => .bind (of_ok (readBe64_ok (by omega))) (fun _ _ => .pure _))
  repeat' split
  · exact .pure _
  · exact .pure _
  · exact b8 _
  · exact b16 _
  · exact b32 _
  · exact b64 _
  · exact b8 _
  · exact b16 _
  · exact b32 _
  · exact b64 _
  · exact .deser

theorem asUInt64_clean (v : Bytes) : (asUInt64 v).Clean := by
  unfold asUInt64
  refine .bind (.require _) (fun _ h => ?_)
  have h0 := of_decide_eq_true (Res.require_eq_ok.1 h)
  refine .bind (byteAt_clean (by omega)) (fun m _ => ?_)
  repeat' split
  · exact .pure _
  · exact guarded (fun h => .bind (byteAt_clean (by omega)) (fun _ _ => .pure _))
  · exact guarded (fun h => .bind (of_ok (readBe16_ok (by omega))) (fun _ _ => .pure _))
  · exact guarded (fun h => .bind (of_ok (readBe32_ok (by omega))) (fun _ _ => .pure _))
  · exact guarded (fun h => .bind (of_ok (readBe64_ok (by omega))) (fun _ _ => .pure _))
  · exact .bind (asInt64_clean v) (fun _ _ => .pure _)

theorem asIntN_clean (w : Nat) (v : Bytes) : (asIntN w v).Clean := by
  refine .bind (asInt64_clean v) (fun _ _ => ?_)
  split
  · exact .deser
  · exact .pure _

theorem asUIntN_clean (w : Nat) (v : Bytes) : (asUIntN w v).Clean := by
  refine .bind (asUInt64_clean v) (fun _ _ => ?_)
  split
  · exact .deser
  · exact .pure _

theorem onMarker_pos {v : Bytes} {t : Nat → Bool} (h : onMarker v t = true) : 0 < v.length := by
  cases v with
  | nil => cases h
  | cons => simp

theorem asDouble_clean (v : Bytes) : (asDouble v).Clean := by
  unfold asDouble
  refine .bind (.require _) (fun _ h => ?_)
  have h0 := onMarker_pos (Res.require_eq_ok.1 h)
  refine .bind (byteAt_clean (by omega)) (fun m _ => ?_)
  repeat' split
  · exact guarded (fun h => .bind (of_ok (readBe32_ok (by omega))) (fun _ _ => .pure _))
  · exact guarded (fun h => .bind (of_ok (readBe64_ok (by omega))) (fun _ _ => .pure _))
  · exact .deser

theorem asBool_clean (v : Bytes) : (asBool v).Clean := by
  unfold asBool
  refine .bind (.require _) (fun _ h => ?_)
  have h0 := onMarker_pos (Res.require_eq_ok.1 h)
  exact .bind (byteAt_clean (by omega)) (fun m _ => .pure _)

/-! ## Headers of the wrong kind -/

theorem strInfo_no {m : UInt8} {t : Bytes} (h : isString (m :: t) = false) :
    strInfo (m :: t) = .err .deser := by
  have := of_decide_eq_false h
  simp only [not_or] at this
  simp [strInfo, this]

theorem binInfo_no {m : UInt8} {t : Bytes} (h : isBlob (m :: t) = false) :
    binInfo (m :: t) = .err .deser := by
  have := of_decide_eq_false h
  simp only [not_or] at this
  simp [binInfo, this]

theorem arrInfo_no {m : UInt8} {t : Bytes} (h : isArray (m :: t) = false) :
    arrInfo (m :: t) = .err .deser := by
  have := of_decide_eq_false h
  simp only [not_or] at this
  simp [arrInfo, this]

theorem mapInfo_no {m : UInt8} {t : Bytes} (h : isMap (m :: t) = false) :
    mapInfo (m :: t) = .err .deser := by
  have := of_decide_eq_false h
  simp only [not_or] at this
  simp [mapInfo, this]

/-! ## Kind of a well-formed element -/

/-- What the predicates say about a well-formed element and why. -/
theorem Elem.kinds {L : Nat} {b : Bytes} (h : Elem L b) (t : Bytes) :
    (isString (b ++ t) = true → ∃ hd s, StrHead s.length hd ∧ s.length < L ∧ b = hd ++ s) ∧
    (isBlob (b ++ t) = true → ∃ hd s, BinHead s.length hd ∧ s.length < L ∧ b = hd ++ s) ∧
    (isArray (b ++ t) = true → ∃ (hd : Bytes) (cs : List Bytes), ArrHead cs.length hd ∧ (∀ c ∈ cs, Elem L c) ∧
      b = hd ++ cs.flatten) ∧
    (isMap (b ++ t) = true → ∃ (hd : Bytes) (cs : List Bytes) (n : Nat), MapHead n hd ∧ cs.length = 2 * n ∧ (∀ c ∈ cs, Elem L c) ∧
      b = hd ++ cs.flatten) := by
  have no : ∀ {x y : Bool} {p : Prop}, Res.ok x = Res.ok y → y = false → (x = true → p) := by
    intro x y p h1 h2 h3
    injection h1 with h1; subst h1; subst h2; cases h3
  cases h with
  | @single m hm =>
    have key : ∀ m : Fin 256, m.1 ≤ 0x7f ∨ 0xe0 ≤ m.1 ∨ m.1 = 0xc0 ∨ m.1 = 0xc2 ∨ m.1 = 0xc3 →
        ¬ (m.1 &&& 0xe0 = 0xa0 ∨ m.1 = 0xd9 ∨ m.1 = 0xda ∨ m.1 = 0xdb) ∧
        ¬ (m.1 = 0xc4 ∨ m.1 = 0xc5 ∨ m.1 = 0xc6) ∧
        ¬ (m.1 &&& 0xf0 = 0x90 ∨ m.1 = 0xdc ∨ m.1 = 0xdd) ∧
        ¬ (m.1 &&& 0xf0 = 0x80 ∨ m.1 = 0xde ∨ m.1 = 0xdf) := by decide +kernel
    simp only [UInt8.le_iff_toNat_le, ← UInt8.toNat_inj] at hm
    obtain ⟨k1, k2, k3, k4⟩ := key ⟨m.toNat, UInt8.toNat_lt m⟩ hm
    exact ⟨fun h => absurd (of_decide_eq_true h) k1, fun h => absurd (of_decide_eq_true h) k2,
      fun h => absurd (of_decide_eq_true h) k3, fun h => absurd (of_decide_eq_true h) k4⟩
  | @fixed m p hm =>
    have k : isString (m :: p ++ t) = false ∧ isBlob (m :: p ++ t) = false ∧
        isArray (m :: p ++ t) = false ∧ isMap (m :: p ++ t) = false := by
      rcases hm with ⟨rfl | rfl, _⟩ | ⟨rfl | rfl, _⟩ | ⟨rfl | rfl | rfl, _⟩ | ⟨rfl | rfl | rfl, _⟩ <;>
        exact ⟨rfl, rfl, rfl, rfl⟩
    rw [k.1, k.2.1, k.2.2.1, k.2.2.2]
    exact ⟨nofun, nofun, nofun, nofun⟩
  | @str hd s H hs =>
    have := shows_str H (s ++ t)
    rw [List.append_assoc]
    exact ⟨fun _ => ⟨hd, s, H, hs, rfl⟩, no this.2.2.2.2.2.1 rfl, no this.2.2.2.2.2.2.2 rfl,
      no this.2.2.2.2.2.2.1 rfl⟩
  | @bin hd s H hs =>
    have := shows_bin H (s ++ t)
    rw [List.append_assoc]
    exact ⟨no this.2.2.2.2.1 rfl, fun _ => ⟨hd, s, H, hs, rfl⟩, no this.2.2.2.2.2.2.2 rfl,
      no this.2.2.2.2.2.2.1 rfl⟩
  | @arr hd cs H hc =>
    have := shows_arr H (cs.flatten ++ t)
    rw [List.append_assoc]
    exact ⟨no this.2.2.2.2.1 rfl, no this.2.2.2.2.2.1 rfl, fun _ => ⟨hd, cs, H, hc, rfl⟩,
      no this.2.2.2.2.2.2.1 rfl⟩
  | @map hd cs n H hn hc =>
    have := shows_map H (cs.flatten ++ t)
    rw [List.append_assoc]
    exact ⟨no this.2.2.2.2.1 rfl, no this.2.2.2.2.2.1 rfl, no this.2.2.2.2.2.2.2 rfl,
      fun _ => ⟨hd, cs, n, H, hn, hc, rfl⟩⟩

theorem Elem.cons {L : Nat} {b : Bytes} (h : Elem L b) (t : Bytes) : ∃ m u, b ++ t = m :: u := by
  have := h.pos
  cases b with
  | nil => simp at this
  | cons m u => exact ⟨m, u ++ t, rfl⟩

theorem Elem.asStringView {L : Nat} {b : Bytes} (h : Elem L b) (t : Bytes) :
    (asStringView (b ++ t)).Clean := by
  cases hs : isString (b ++ t) with
  | true =>
    obtain ⟨hd, s, H, _, rfl⟩ := (h.kinds t).1 hs
    rw [asStringView_head H]; exact .ok _
  | false =>
    obtain ⟨m, u, e⟩ := h.cons t
    rw [e] at hs ⊢
    simp only [MsgPack.asStringView, strInfo_no hs, Res.err_bind]; exact .deser

theorem Elem.asBlob {L : Nat} {b : Bytes} (h : Elem L b) (t : Bytes) :
    (asBlob (b ++ t)).Clean := by
  cases hs : isBlob (b ++ t) with
  | true =>
    obtain ⟨hd, s, H, _, rfl⟩ := (h.kinds t).2.1 hs
    rw [asBlob_head H]; exact .ok _
  | false =>
    obtain ⟨m, u, e⟩ := h.cons t
    rw [e] at hs ⊢
    simp only [MsgPack.asBlob, binInfo_no hs, Res.err_bind]; exact .deser

theorem Elem.arraySize {L : Nat} {b : Bytes} (h : Elem L b) (t : Bytes) :
    (arraySize (b ++ t)).Clean := by
  cases hs : isArray (b ++ t) with
  | true =>
    obtain ⟨hd, s, H, _, rfl⟩ := (h.kinds t).2.2.1 hs
    rw [List.append_assoc]
    simp only [MsgPack.arraySize, arrInfo_head H, Res.ok_bind]; exact .ok _
  | false =>
    obtain ⟨m, u, e⟩ := h.cons t
    rw [e] at hs ⊢
    simp only [MsgPack.arraySize, arrInfo_no hs, Res.err_bind]; exact .deser

/-- Element access on a well-formed element: a well-formed element or a DeserializationError. -/
theorem Elem.getIdx {b : Bytes} (h : Elem Lim b) (t : Bytes) (i : Nat) :
    (∃ c, getIdx (b ++ t) i = .ok c ∧ Elem Lim c) ∨ getIdx (b ++ t) i = .err .deser := by
  cases hs : isArray (b ++ t) with
  | true =>
    obtain ⟨hd, cs, H, hc, rfl⟩ := (h.kinds t).2.2.1 hs
    by_cases hi : i < cs.length
    · exact .inl ⟨cs[i], getIdx_chunks H hc t hi, hc _ (List.getElem_mem hi)⟩
    · exact .inr (by rw [List.append_assoc]; exact getIdx_out H _ (by omega))
  | false =>
    obtain ⟨m, u, e⟩ := h.cons t
    rw [e] at hs ⊢
    exact .inr (by simp only [MsgPack.getIdx, arrInfo_no hs, Res.err_bind])

/-! ## Maps whose keys may be of any type -/

theorem pairs {cs : List Bytes} {n : Nat} (h : cs.length = 2 * (n + 1)) :
    ∃ k c cs', cs = k :: c :: cs' ∧ cs'.length = 2 * n := by
  match cs, h with
  | k :: c :: cs', h => exact ⟨k, c, cs', rfl, by simp at h; omega⟩
  | [_], h => simp at h; omega
  | [], h => simp at h

theorem Elem.keyHit {L : Nat} {b : Bytes} (h : Elem L b) (key : Bytes) : (keyHit b key).Clean := by
  unfold MsgPack.keyHit
  split
  · have := h.asStringView []
    rw [List.append_nil] at this
    exact .bind this (fun _ _ => .pure _)
  · exact .pure _

/-- The start of a round of the map loops. -/
theorem round {k c : Bytes} (hk : Elem Lim k) (hc : Elem Lim c) (pre rest : Bytes) :
    subspan (pre ++ (k ++ (c ++ rest))) pre.length = .ok (k ++ (c ++ rest)) ∧
    skip (k ++ (c ++ rest)) = .ok k.length ∧
    first (k ++ (c ++ rest)) k.length = .ok k ∧
    subspan (pre ++ (k ++ (c ++ rest))) (pre.length + k.length) = .ok (c ++ rest) ∧
    skip (c ++ rest) = .ok c.length ∧ first (c ++ rest) c.length = .ok c := by
  refine ⟨subspan_append _ _, hk.skip _, first_append _ _, ?_, hc.skip _, first_append _ _⟩
  have := subspan_append (pre ++ k) (c ++ rest)
  simpa using this

theorem containsFrom_clean (key : Bytes) : ∀ (n : Nat) (cs : List Bytes) (pre rest : Bytes),
    cs.length = 2 * n → (∀ c ∈ cs, Elem Lim c) →
    (containsFrom (pre ++ (cs.flatten ++ rest)) key n pre.length).Clean
  | 0, _, _, _, _, _ => .pure _
  | n + 1, cs, pre, rest, hl, hc => by
    obtain ⟨k, c, cs', rfl, hl'⟩ := pairs hl
    have Hk := hc k (by simp)
    obtain ⟨h1, h2, h3, h4, h5, _⟩ := round Hk (hc c (by simp)) pre (cs'.flatten ++ rest)
    have e : pre ++ ((k :: c :: cs').flatten ++ rest) = pre ++ (k ++ (c ++ (cs'.flatten ++ rest))) := by
      simp
    rw [e]
    simp only [containsFrom, h1, h2, h3, h4, h5, Res.ok_bind]
    refine .bind (Hk.keyHit key) (fun hit _ => ?_)
    split
    · exact .pure _
    · have := containsFrom_clean key n cs' (pre ++ k ++ c) rest hl' (fun x hx => hc x (by simp [hx]))
      simpa [Nat.add_assoc] using this

theorem getKeyFrom_clean (key : Bytes) : ∀ (n : Nat) (cs : List Bytes) (pre rest : Bytes),
    cs.length = 2 * n → (∀ c ∈ cs, Elem Lim c) →
    (∃ c, getKeyFrom (pre ++ (cs.flatten ++ rest)) key n pre.length = .ok c ∧ Elem Lim c) ∨
      getKeyFrom (pre ++ (cs.flatten ++ rest)) key n pre.length = .err .deser
  | 0, _, _, _, _, _ => .inr rfl
  | n + 1, cs, pre, rest, hl, hc => by
    obtain ⟨k, c, cs', rfl, hl'⟩ := pairs hl
    have Hk := hc k (by simp)
    obtain ⟨h1, h2, h3, h4, h5, h6⟩ := round Hk (hc c (by simp)) pre (cs'.flatten ++ rest)
    have e : pre ++ ((k :: c :: cs').flatten ++ rest) = pre ++ (k ++ (c ++ (cs'.flatten ++ rest))) := by
      simp
    rw [e]
    simp only [getKeyFrom, h1, h2, h3, h4, h5, Res.ok_bind]
    rcases Hk.keyHit key with ⟨hit, hh⟩ | hh
    · rw [hh]
      cases hit with
      | true => exact .inl ⟨c, by simpa using h6, hc c (by simp)⟩
      | false =>
        have := getKeyFrom_clean key n cs' (pre ++ k ++ c) rest hl' (fun x hx => hc x (by simp [hx]))
        simpa [Nat.add_assoc] using this
    · rw [hh]; exact .inr rfl

theorem keysFrom_clean (count endOff : Nat) : ∀ (n : Nat) (cs : List Bytes) (pre rest : Bytes),
    cs.length = 2 * n → (∀ c ∈ cs, Elem Lim c) → n ≤ count →
    endOff = pre.length + cs.flatten.length →
    (keysFrom (pre ++ (cs.flatten ++ rest)) count endOff (n + 1) (count - n) pre.length).Clean
  | 0, cs, pre, rest, hl, hc, hn, he => by
    have : cs = [] := List.length_eq_zero_iff.1 (by omega)
    subst this
    simp only [keysFrom]
    rw [if_pos (by simp at he; omega)]
    exact .pure _
  | n + 1, cs, pre, rest, hl, hc, hn, he => by
    obtain ⟨k, c, cs', rfl, hl'⟩ := pairs hl
    have Hk := hc k (by simp)
    obtain ⟨h1, h2, h3, h4, h5, _⟩ := round Hk (hc c (by simp)) pre (cs'.flatten ++ rest)
    have e : pre ++ ((k :: c :: cs').flatten ++ rest) = pre ++ (k ++ (c ++ (cs'.flatten ++ rest))) := by
      simp
    rw [e, keysFrom, if_neg (by omega)]
    refine .bind ?_ (fun key _ => ?_)
    · simp only [keyDeref, h1, h2, h3, Res.ok_bind]
      have := Hk.asStringView []
      rwa [List.append_nil] at this
    · simp only [keyNext, h1, h2, h4, h5, Res.ok_bind, Res.pure_eq]
      refine .bind ?_ (fun _ _ => .ok _)
      have := keysFrom_clean count endOff n cs' (pre ++ k ++ c) rest hl'
        (fun x hx => hc x (by simp [hx])) (by omega)
        (by rw [he]; simp; omega)
      have e1 : count - (n + 1) + 1 = count - n := by omega
      rw [e1]
      simpa [Nat.add_assoc] using this

theorem Elem.contains {b : Bytes} (h : Elem Lim b) (t key : Bytes) : (contains (b ++ t) key).Clean := by
  unfold MsgPack.contains
  split
  · rename_i hm
    obtain ⟨hd, cs, n, H, hl, hc, rfl⟩ := (h.kinds t).2.2.2 hm
    rw [List.append_assoc, mapInfo_head H]
    exact containsFrom_clean key n cs hd t hl hc
  · exact .pure _

/-- Member access on a well-formed element: a well-formed element or a DeserializationError. -/
theorem Elem.getKey {b : Bytes} (h : Elem Lim b) (t key : Bytes) :
    (∃ c, getKey (b ++ t) key = .ok c ∧ Elem Lim c) ∨ getKey (b ++ t) key = .err .deser := by
  cases hm : isMap (b ++ t) with
  | true =>
    unfold MsgPack.getKey
    rw [hm]
    obtain ⟨hd, cs, n, H, hl, hc, rfl⟩ := (h.kinds t).2.2.2 hm
    rw [List.append_assoc, mapInfo_head H]
    exact getKeyFrom_clean key n cs hd t hl hc
  | false => exact .inr (by simp [MsgPack.getKey, hm])

theorem Elem.mapKeys {b : Bytes} (h : Elem Lim b) (t : Bytes) : (mapKeys (b ++ t)).Clean := by
  cases hm : isMap (b ++ t) with
  | true =>
    unfold MsgPack.mapKeys
    rw [hm]
    obtain ⟨hd, cs, n, H, hl, hc, rfl⟩ := (h.kinds t).2.2.2 hm
    rw [List.append_assoc, mapInfo_head H]
    have he : keysEnd (hd ++ (cs.flatten ++ t)) n hd.length = .ok (hd.length + cs.flatten.length) := by
      have := skipLoop_chunks (rec := MsgPack.skip) cs hd t (fun c hc' t => (hc c hc').skip t)
      rw [hl] at this
      simpa [keysEnd] using this
    simp only [Res.require_true, Res.ok_bind, he]
    have := keysFrom_clean n (hd.length + cs.flatten.length) n cs hd t hl hc (Nat.le_refl _) rfl
    rwa [Nat.sub_self] at this
  | false => exact .inr (by simp [MsgPack.mapKeys, hm])

/-! ## No accessor runs forever, whatever the bytes -/

theorem returns_subspan (v : Bytes) (p : Nat) : Returns (subspan v p) := by
  unfold subspan; split <;> exact fun h => by cases h
theorem returns_first (v : Bytes) (p : Nat) : Returns (first v p) := by
  unfold first; split <;> exact fun h => by cases h
theorem returns_be16 (v : Bytes) (p : Nat) : Returns (readBe16 v p) :=
  .bind (returns_byteAt _ _) fun _ _ => .bind (returns_byteAt _ _) fun _ _ => returns_pure _
theorem returns_be32 (v : Bytes) (p : Nat) : Returns (readBe32 v p) :=
  .bind (returns_byteAt _ _) fun _ _ => .bind (returns_byteAt _ _) fun _ _ =>
  .bind (returns_byteAt _ _) fun _ _ => .bind (returns_byteAt _ _) fun _ _ => returns_pure _

theorem returns_strInfo (v : Bytes) : Returns (strInfo v) := by
  refine .bind (returns_byteAt _ _) fun m _ => ?_
  repeat' split
  · exact returns_pure _
  · exact .bind (returns_byteAt _ _) fun _ _ => returns_pure _
  · exact .bind (returns_be16 _ _) fun _ _ => returns_pure _
  · exact .bind (returns_be32 _ _) fun _ _ => returns_pure _
  · exact returns_err _

theorem returns_arrInfo (v : Bytes) : Returns (arrInfo v) := by
  refine .bind (returns_byteAt _ _) fun m _ => ?_
  repeat' split
  · exact returns_pure _
  · exact .bind (returns_be16 _ _) fun _ _ => returns_pure _
  · exact .bind (returns_be32 _ _) fun _ _ => returns_pure _
  · exact returns_err _

theorem returns_mapInfo (v : Bytes) : Returns (mapInfo v) := by
  refine .bind (returns_byteAt _ _) fun m _ => ?_
  repeat' split
  · exact returns_pure _
  · exact .bind (returns_be16 _ _) fun _ _ => returns_pure _
  · exact .bind (returns_be32 _ _) fun _ _ => returns_pure _
  · exact returns_err _

theorem returns_skip (v : Bytes) : Returns (skip v) := skip_ne_diverge v

theorem returns_skipLoop (v : Bytes) (n off : Nat) : Returns (skipLoop skip v n off) :=
  skipLoop_ne_diverge (k := 0) (fun w _ => skip_ne_diverge w) n off (Nat.zero_le _)

theorem returns_asStringView (v : Bytes) : Returns (asStringView v) :=
  .bind (returns_strInfo v) fun _ _ => returns_sliceAt _ _ _

theorem returns_getIdx (v : Bytes) (i : Nat) : Returns (getIdx v i) :=
  .bind (returns_arrInfo v) fun _ _ => .bind (returns_require _ _) fun _ _ =>
  .bind (returns_skipLoop _ _ _) fun _ _ => .bind (returns_subspan _ _) fun _ _ =>
  .bind (returns_skip _) fun _ _ => returns_first _ _

theorem returns_keyHit (a b : Bytes) : Returns (keyHit a b) := by
  unfold keyHit
  split
  · exact .bind (returns_asStringView _) fun _ _ => returns_pure _
  · exact returns_pure _

theorem returns_containsFrom (v key : Bytes) : ∀ n off, Returns (containsFrom v key n off)
  | 0, _ => returns_pure _
  | n + 1, off => by
    refine .bind (returns_subspan _ _) fun _ _ => .bind (returns_skip _) fun _ _ =>
      .bind (returns_first _ _) fun _ _ => .bind (returns_subspan _ _) fun _ _ =>
      .bind (returns_skip _) fun _ _ => .bind (returns_keyHit _ _) fun hit _ => ?_
    split
    · exact returns_pure _
    · exact returns_containsFrom v key n _

theorem returns_getKeyFrom (v key : Bytes) : ∀ n off, Returns (getKeyFrom v key n off)
  | 0, _ => returns_err _
  | n + 1, off => by
    refine .bind (returns_subspan _ _) fun _ _ => .bind (returns_skip _) fun _ _ =>
      .bind (returns_first _ _) fun _ _ => .bind (returns_subspan _ _) fun _ _ =>
      .bind (returns_skip _) fun _ _ => .bind (returns_keyHit _ _) fun hit _ => ?_
    split
    · exact returns_first _ _
    · exact returns_getKeyFrom v key n _

theorem returns_contains (v key : Bytes) : Returns (contains v key) := by
  unfold contains
  split
  · exact .bind (returns_mapInfo v) fun _ _ => returns_containsFrom _ _ _ _
  · exact returns_pure _

theorem returns_getKey (v key : Bytes) : Returns (getKey v key) :=
  .bind (returns_require _ _) fun _ _ => .bind (returns_mapInfo v) fun _ _ =>
    returns_getKeyFrom _ _ _ _

/-- The iteration meets `end()` after exactly `count` steps, if it gets that far. -/
theorem returns_keysFrom (v : Bytes) (count endOff : Nat) : ∀ n off, n ≤ count →
    skipLoop skip v (2 * n) off = .ok endOff → Returns (keysFrom v count endOff (n + 1) (count - n) off)
  | 0, off, _, h => by
    injection h with h
    rw [keysFrom, if_pos ⟨by omega, h⟩]
    exact returns_pure _
  | n + 1, off, hn, h => by
    have e2 : 2 * (n + 1) = (2 * n + 1) + 1 := by omega
    rw [e2] at h
    simp only [skipLoop] at h
    obtain ⟨ks, h1, h⟩ := Res.bind_eq_ok.1 h
    obtain ⟨ksz, h2, h⟩ := Res.bind_eq_ok.1 h
    obtain ⟨vs, h3, h⟩ := Res.bind_eq_ok.1 h
    obtain ⟨vsz, h4, h⟩ := Res.bind_eq_ok.1 h
    rw [keysFrom, if_neg (by omega)]
    refine .bind ?_ fun _ _ => ?_
    · exact .bind (returns_subspan _ _) fun _ _ => .bind (returns_skip _) fun _ _ =>
        .bind (returns_first _ _) fun _ _ => returns_asStringView _
    · simp only [keyNext, h1, h2, h3, h4, Res.ok_bind, Res.pure_eq]
      have e1 : count - (n + 1) + 1 = count - n := by omega
      rw [e1]
      refine .bind (returns_keysFrom v count endOff n _ (by omega) ?_) fun _ _ => returns_ok _
      rw [← h, Nat.add_assoc]

theorem returns_mapKeys (v : Bytes) : Returns (mapKeys v) := by
  refine .bind (returns_require _ _) fun _ _ => .bind (returns_mapInfo v) fun p _ => ?_
  obtain ⟨n, off⟩ := p
  refine .bind (returns_skipLoop _ _ _) fun e he => ?_
  have := returns_keysFrom v n e n off (Nat.le_refl _) he
  rwa [Nat.sub_self] at this

end Zer.MsgPack
