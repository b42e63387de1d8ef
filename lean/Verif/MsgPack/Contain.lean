import Verif.MsgPack.Agree

/-!
# MessagePack: arrays and maps
-/

namespace Zer.MsgPack

/-- The limit on string lengths below which `mp_skip` does not wrap. -/
abbrev Lim : Nat := 2 ^ 32 - 5

/-! ## Arrays -/

/-- `operator[](i)` on an array of well-formed elements gives the i-th element exactly. -/
theorem getIdx_chunks {h : Bytes} {cs : List Bytes} (H : ArrHead cs.length h)
    (hc : ∀ c ∈ cs, Elem Lim c) (rest : Bytes) {i : Nat} (hi : i < cs.length) :
    getIdx (h ++ cs.flatten ++ rest) i = .ok cs[i] := by
  have e1 : h ++ cs.flatten ++ rest = h ++ (cs.flatten ++ rest) := by simp
  have e2 : cs.flatten = (cs.take i).flatten ++ (cs[i] ++ (cs.drop (i + 1)).flatten) := by
    rw [← List.flatten_cons, ← List.flatten_append, List.getElem_cons_drop, List.take_append_drop]
  have hl : skipLoop skip (h ++ (cs.flatten ++ rest)) i h.length =
      .ok (h.length + (cs.take i).flatten.length) := by
    have := skipLoop_chunks (rec := skip) (cs.take i) h
      (cs[i] ++ (cs.drop (i + 1)).flatten ++ rest)
      (fun c hc' t => (hc c (List.mem_of_mem_take hc')).skip t)
    rw [List.length_take, Nat.min_eq_left (by omega)] at this
    rw [← this]
    congr 1
    rw [e2]; simp
  simp only [getIdx, e1, arrInfo_head H, Res.ok_bind, decide_eq_true hi, Res.require_true, hl]
  have e3 : h ++ (cs.flatten ++ rest) =
      (h ++ (cs.take i).flatten) ++ (cs[i] ++ ((cs.drop (i + 1)).flatten ++ rest)) := by
    rw [e2]; simp
  have e4 : h.length + (cs.take i).flatten.length = (h ++ (cs.take i).flatten).length := by simp
  rw [e3, e4, subspan_append]
  simp only [Res.ok_bind]
  rw [(hc _ (List.getElem_mem hi)).skip]
  simp only [Res.ok_bind, first_append]

theorem getIdx_out {h : Bytes} {n : Nat} (H : ArrHead n h) (rest : Bytes) {i : Nat} (hi : n ≤ i) :
    getIdx (h ++ rest) i = .err .deser := by
  simp only [getIdx, arrInfo_head H, Res.ok_bind, decide_eq_false (by omega : ¬ i < n),
    Res.require_false, Res.err_bind]

/-! ## Maps -/

theorem keyHit_str {k h key : Bytes} (H : StrHead k.length h) :
    keyHit (h ++ k) key = .ok (decide (k = key)) := by
  have h1 := shows_str H k
  have h2 : isString (h ++ k) = true := by
    have := h1.2.2.2.2.1; injection this
  have h3 := asStringView_head H []
  rw [List.append_nil] at h3
  simp only [keyHit, h2, if_true, h3, Res.ok_bind, Res.pure_eq]

theorem containsFrom_ok (key : Bytes) : ∀ (ms : List (Bytes × Val)) (cs : List Bytes)
    (pre rest : Bytes), Val.Below.belowEntries Lim ms → EncEntries ms cs →
    containsFrom (pre ++ (cs.flatten ++ rest)) key ms.length pre.length =
      .ok (decide (key ∈ ms.map Prod.fst))
  | [], cs, pre, rest, _, h => by simp [containsFrom]
  | (k, v) :: ms, cs, pre, rest, hb, h => by
    simp only [EncEntries] at h
    simp only [Val.Below.belowEntries] at hb
    obtain ⟨hd, c, cs', H, hc, hcs, rfl⟩ := h
    have E1 : Elem Lim (hd ++ k) := .str H hb.1
    have E2 : Elem Lim c := Enc.elem v hb.2.1 hc
    simp only [List.length_cons, containsFrom, subspan_append, Res.ok_bind]
    have e : ((hd ++ k) :: c :: cs').flatten ++ rest = (hd ++ k) ++ (c ++ (cs'.flatten ++ rest)) := by
      simp
    rw [e, E1.skip]
    simp only [Res.ok_bind, first_append]
    have e' : pre ++ ((hd ++ k) ++ (c ++ (cs'.flatten ++ rest))) =
        (pre ++ (hd ++ k)) ++ (c ++ (cs'.flatten ++ rest)) := by simp
    have e'' : pre.length + (hd ++ k).length = (pre ++ (hd ++ k)).length := by simp
    rw [e', e'', subspan_append]
    simp only [Res.ok_bind]
    rw [E2.skip]
    simp only [Res.ok_bind, keyHit_str H]
    by_cases hk : k = key
    · simp [hk]
    · have hk' : ¬ key = k := fun e => hk e.symm
      simp only [decide_eq_false hk, Bool.false_eq_true, if_false]
      have := containsFrom_ok key ms cs' (pre ++ (hd ++ k) ++ c) rest hb.2.2 hcs
      simp only [List.append_assoc, List.length_append] at this ⊢
      simp only [Nat.add_assoc] at this ⊢
      rw [this]
      simp [hk']

theorem getKeyFrom_ok (key : Bytes) : ∀ (ms : List (Bytes × Val)) (cs : List Bytes)
    (pre rest : Bytes), Val.Below.belowEntries Lim ms → EncEntries ms cs →
    (∀ v, firstVal ms key = some v → ∃ c, Enc v c ∧
      getKeyFrom (pre ++ (cs.flatten ++ rest)) key ms.length pre.length = .ok c) ∧
    (key ∉ ms.map Prod.fst →
      getKeyFrom (pre ++ (cs.flatten ++ rest)) key ms.length pre.length = .err .deser)
  | [], cs, pre, rest, _, h => by simp [getKeyFrom, firstVal]
  | (k, v) :: ms, cs, pre, rest, hb, h => by
    simp only [EncEntries] at h
    simp only [Val.Below.belowEntries] at hb
    obtain ⟨hd, c, cs', H, hc, hcs, rfl⟩ := h
    have E1 : Elem Lim (hd ++ k) := .str H hb.1
    have E2 : Elem Lim c := Enc.elem v hb.2.1 hc
    have e : ((hd ++ k) :: c :: cs').flatten ++ rest = (hd ++ k) ++ (c ++ (cs'.flatten ++ rest)) := by
      simp
    have e' : pre ++ ((hd ++ k) ++ (c ++ (cs'.flatten ++ rest))) =
        (pre ++ (hd ++ k)) ++ (c ++ (cs'.flatten ++ rest)) := by simp
    have e'' : pre.length + (hd ++ k).length = (pre ++ (hd ++ k)).length := by simp
    have step : getKeyFrom (pre ++ (((hd ++ k) :: c :: cs').flatten ++ rest)) key
        (ms.length + 1) pre.length =
        if k = key then .ok c else getKeyFrom ((pre ++ (hd ++ k) ++ c) ++ (cs'.flatten ++ rest)) key
          ms.length (pre ++ (hd ++ k) ++ c).length := by
      simp only [getKeyFrom, subspan_append, Res.ok_bind]
      rw [e, E1.skip]
      simp only [Res.ok_bind, first_append]
      rw [e', e'', subspan_append]
      simp only [Res.ok_bind]
      rw [E2.skip]
      simp only [Res.ok_bind, keyHit_str H, first_append]
      by_cases hk : k = key
      · simp [hk]
      · simp [hk, Nat.add_assoc]
    simp only [List.length_cons, step]
    have ih := getKeyFrom_ok key ms cs' (pre ++ (hd ++ k) ++ c) rest hb.2.2 hcs
    by_cases hk : k = key
    · subst hk
      refine ⟨fun w hw => ?_, fun hn => ?_⟩
      · simp only [firstVal, if_true] at hw; injection hw with hw; subst hw
        exact ⟨c, hc, by simp⟩
      · simp at hn
    · have hk' : ¬ key = k := fun e => hk e.symm
      simp only [if_neg hk]
      refine ⟨fun w hw => ?_, fun hn => ?_⟩
      · simp only [firstVal, if_neg hk] at hw; exact ih.1 w hw
      · exact ih.2 (fun h => hn (by simp only [List.map_cons, List.mem_cons]; exact .inr h))

theorem keysFrom_ok (count endOff : Nat) : ∀ (ms : List (Bytes × Val)) (cs : List Bytes)
    (pre rest : Bytes) (f i : Nat), Val.Below.belowEntries Lim ms → EncEntries ms cs →
    i + ms.length = count → endOff = pre.length + cs.flatten.length → ms.length < f →
    keysFrom (pre ++ (cs.flatten ++ rest)) count endOff f i pre.length = .ok (ms.map Prod.fst)
  | [], cs, pre, rest, f, i, _, h, hi, he, hf => by
    simp only [EncEntries] at h; subst h
    obtain ⟨f, rfl⟩ : ∃ g, f = g + 1 := ⟨f - 1, by simp at hf; omega⟩
    simp only [List.length_nil, Nat.add_zero, List.flatten_nil] at hi he
    simp [keysFrom, hi, he]
  | (k, v) :: ms, cs, pre, rest, f, i, hb, h, hi, he, hf => by
    simp only [EncEntries] at h
    simp only [Val.Below.belowEntries] at hb
    obtain ⟨hd, c, cs', H, hc, hcs, rfl⟩ := h
    obtain ⟨f, rfl⟩ : ∃ g, f = g + 1 := ⟨f - 1, by simp at hf; omega⟩
    simp only [List.length_cons] at hi hf
    have E1 : Elem Lim (hd ++ k) := .str H hb.1
    have E2 : Elem Lim c := Enc.elem v hb.2.1 hc
    have e : ((hd ++ k) :: c :: cs').flatten ++ rest = (hd ++ k) ++ (c ++ (cs'.flatten ++ rest)) := by
      simp
    have e' : pre ++ ((hd ++ k) ++ (c ++ (cs'.flatten ++ rest))) =
        (pre ++ (hd ++ k)) ++ (c ++ (cs'.flatten ++ rest)) := by simp
    have e'' : pre.length + (hd ++ k).length = (pre ++ (hd ++ k)).length := by simp
    have hkey : keyDeref (pre ++ (((hd ++ k) :: c :: cs').flatten ++ rest)) pre.length = .ok k := by
      simp only [keyDeref, subspan_append, Res.ok_bind]
      rw [e, E1.skip]
      simp only [Res.ok_bind, first_append]
      simpa using asStringView_head H []
    have hnext : keyNext (pre ++ (((hd ++ k) :: c :: cs').flatten ++ rest)) pre.length =
        .ok (pre ++ (hd ++ k) ++ c).length := by
      simp only [keyNext, subspan_append, Res.ok_bind]
      rw [e, E1.skip]
      simp only [Res.ok_bind]
      rw [e', e'', subspan_append]
      simp only [Res.ok_bind]
      rw [E2.skip]
      simp; omega
    have ih := keysFrom_ok count endOff ms cs' (pre ++ (hd ++ k) ++ c) rest f (i + 1) hb.2.2 hcs
      (by omega) (by rw [he]; simp; omega) (by omega)
    have e3 : (pre ++ (hd ++ k) ++ c) ++ (cs'.flatten ++ rest) =
      pre ++ (((hd ++ k) :: c :: cs').flatten ++ rest) := by simp
    rw [e3] at ih
    simp only [keysFrom, hkey, hnext, Res.ok_bind, ih]
    rw [if_neg (by omega)]
    simp

theorem mapKeys_ok {ms : List (Bytes × Val)} {cs : List Bytes} {h : Bytes} (H : MapHead ms.length h)
    (hb : Val.Below.belowEntries Lim ms) (hc : EncEntries ms cs) (rest : Bytes) :
    mapKeys (h ++ (cs.flatten ++ rest)) = .ok (ms.map Prod.fst) := by
  obtain ⟨h1, h2⟩ := EncEntries.elem ms hb hc
  have hm : isMap (h ++ (cs.flatten ++ rest)) = true := by
    have := (shows_map H (cs.flatten ++ rest)).2.2.2.2.2.2.1; injection this
  have he : keysEnd (h ++ (cs.flatten ++ rest)) ms.length h.length =
      .ok (h.length + cs.flatten.length) := by
    rw [keysEnd, ← h1]
    exact skipLoop_chunks cs h rest (fun c hc t => (h2 c hc).skip t)
  simp only [mapKeys, hm, Res.require_true, Res.ok_bind, mapInfo_head H, he]
  exact keysFrom_ok _ _ ms cs h rest _ 0 hb hc (by omega) rfl (by omega)

/-! ## Main lemma -/

theorem EncList.get : ∀ {xs : List Val} {cs : List Bytes}, EncList xs cs →
    cs.length = xs.length ∧ ∀ i (h : i < xs.length) (h' : i < cs.length), Enc xs[i] cs[i]
  | [], cs, h => by simp only [EncList] at h; subst h; simp
  | x :: xs, cs, h => by
    simp only [EncList] at h
    obtain ⟨c, cs', hc, hcs, rfl⟩ := h
    obtain ⟨h1, h2⟩ := EncList.get hcs
    refine ⟨by simp [h1], fun i hi hi' => ?_⟩
    cases i with
    | zero => exact hc
    | succ i => exact h2 i (by simpa using hi) (by simpa using hi')

/-- On any valid encoding of a value, followed by anything, the reader presents the value. -/
theorem agrees_of_enc : ∀ (v : Val) (b rest : Bytes), v.Below Lim → Enc v b →
    reader.Agrees (b ++ rest) v := by
  intro v
  induction v using Val.ind with
  | null =>
    intro b rest _ h
    simp only [Enc] at h; subst h
    exact .null (shows_of (show tests (UInt8.toNat 0xc0) = [true, false, false, false, false, false, false, false, false] by decide)).1
  | bool x =>
    intro b rest _ h
    simp only [Enc] at h; subst h
    cases x
    · exact .bool (shows_of (show tests (UInt8.toNat 0xc2) = [false, true, false, false, false, false, false, false, false] by decide)).1 rfl
    · exact .bool (shows_of (show tests (UInt8.toNat 0xc3) = [false, true, false, false, false, false, false, false, false] by decide)).1 rfl
  | int i =>
    intro b rest _ h
    simp only [Enc] at h
    exact .int (showsInt_enc h rest) (fun h => h.elim)
  | uint n =>
    intro b rest _ h
    simp only [Enc] at h
    exact .uint (showsInt_enc h rest) (fun h => h.elim)
  | dbl d =>
    intro b rest _ h
    simp only [Enc] at h
    have := asDouble_enc h (UInt64.toNat_lt d) rest
    rw [UInt64.ofNat_toNat] at this
    exact .dbl (shows_dbl h rest) this
  | str s =>
    intro b rest _ h
    simp only [Enc] at h
    obtain ⟨hd, H, rfl⟩ := h
    have := shows_str H (s ++ rest)
    rw [← List.append_assoc] at this
    exact .str this (asStringView_head H rest) (asStringView_head H rest)
  | blob s =>
    intro b rest _ h
    simp only [Enc] at h
    obtain ⟨hd, H, rfl⟩ := h
    have := shows_bin H (s ++ rest)
    rw [← List.append_assoc] at this
    exact .blob this (asBlob_head H rest) (fun h => h.elim)
  | arr xs ih =>
    intro b rest hb h
    simp only [Enc] at h
    obtain ⟨hd, cs, H, hc, rfl⟩ := h
    have hb' : Val.Below.belowList Lim xs := by simpa only [Val.Below] using hb
    obtain ⟨h1, h2⟩ := EncList.elem xs hb' hc
    obtain ⟨_, h3⟩ := EncList.get hc
    have hs := shows_arr H (cs.flatten ++ rest)
    rw [← List.append_assoc] at hs
    refine .arr (fun i => cs.getD i []) hs ?_ ?_ ?_ ?_
    · show arraySize _ = _
      simp only [arraySize, List.append_assoc, arrInfo_head H, Res.ok_bind, Res.pure_eq]
    · intro i hi
      have hi' : i < cs.length := by omega
      show getIdx _ _ = _
      rw [getIdx_chunks (h1 ▸ H) h2 rest hi']
      simp [List.getD, hi']
    · intro i hi
      show getIdx _ _ = _
      rw [List.append_assoc, getIdx_out H _ hi]
    · intro i hi
      have hi' : i < cs.length := by omega
      have := ih xs[i] (List.getElem_mem _) cs[i] []
        ((Val.belowList_iff xs).1 hb' _ (List.getElem_mem _)) (h3 i hi hi')
      simpa [List.getD, hi'] using this
  | map ms ih =>
    intro b rest hb h
    simp only [Enc] at h
    obtain ⟨hd, cs, H, hc, rfl⟩ := h
    have hb' : Val.Below.belowEntries Lim ms := by simpa only [Val.Below] using hb
    have hs := shows_map H (cs.flatten ++ rest)
    have hm : isMap (hd ++ (cs.flatten ++ rest)) = true := by
      have := hs.2.2.2.2.2.2.1; injection this
    rw [List.append_assoc]
    have hget : ∀ k, getKey (hd ++ (cs.flatten ++ rest)) k =
        getKeyFrom (hd ++ (cs.flatten ++ rest)) k ms.length hd.length := by
      intro k
      simp only [getKey, hm, Res.require_true, Res.ok_bind, mapInfo_head H]
    have hk := fun k => getKeyFrom_ok k ms cs hd rest hb' hc
    refine .map (fun k => match getKey (hd ++ (cs.flatten ++ rest)) k with | .ok c => c | _ => [])
      hs (mapKeys_ok H hb' hc rest) ?_ ?_ ?_ ?_
    · intro k
      show contains _ _ = _
      simp only [contains, hm, if_true, mapInfo_head H, Res.ok_bind]
      exact containsFrom_ok k ms cs hd rest hb' hc
    · intro k hk'
      obtain ⟨v, hv⟩ := firstVal_isSome.1 hk'
      obtain ⟨c, _, he⟩ := (hk k).1 v hv
      show getKey _ _ = _
      rw [hget, he]
    · intro k hk'
      show getKey _ _ = _
      rw [hget, (hk k).2 hk']
    · intro k v hv
      obtain ⟨c, hc', he⟩ := (hk k).1 v hv
      have := ih (k, v) (firstVal_mem hv) c []
        ((Val.belowEntries_iff ms).1 hb' _ (firstVal_mem hv)).2 hc'
      rw [List.append_nil] at this
      simpa only [hget, he] using this

end Zer.MsgPack
