import Verif.Flex.Agree
import Verif.Flex.Read

/-!
# Flex: what is presented is what stands in the buffer
-/

namespace Zer

mutual
/-- The value as a document: lists, entries and keys as they are. -/
def Val.doc : Val → Flex.Doc
  | .null => .null
  | .bool b => .bool b
  | .int i => .int i
  | .uint n => .uint n
  | .dbl d => .dbl d
  | .str s => .str s
  | .blob s => .blob s
  | .arr xs => .vec (docList xs)
  | .map ms => .map (docEntries ms)
def Val.docList : List Val → List Flex.Doc
  | [] => []
  | x :: xs => x.doc :: docList xs
def Val.docEntries : List (Bytes × Val) → List (Bytes × Flex.Doc)
  | [] => []
  | (k, v) :: ms => (k, v.doc) :: docEntries ms
end

theorem Val.docList_eq (xs : List Val) : Val.docList xs = xs.map Val.doc := by
  induction xs with
  | nil => rfl
  | cons x xs ih => simp [Val.docList, ih]

theorem Val.docEntries_eq (ms : List (Bytes × Val)) : Val.docEntries ms = ms.map (fun m => (m.1, m.2.doc)) := by
  induction ms with
  | nil => rfl
  | cons x xs ih => cases x; simp [Val.docEntries, ih]

/-- A list without repetition is not longer than a list that contains its elements. -/
theorem nodup_length_le {α : Type} [DecidableEq α] : ∀ {l m : List α}, l.Nodup → (∀ x ∈ l, x ∈ m) → l.length ≤ m.length
  | [], _, _, _ => Nat.zero_le _
  | a :: l, m, hn, hs => by
    rw [List.nodup_cons] at hn
    have ha : a ∈ m := hs a (by simp)
    have ih := nodup_length_le (l := l) (m := m.erase a) hn.2 (fun x hx => by
      have hne : x ≠ a := fun e => hn.1 (e ▸ hx)
      exact (List.mem_erase_of_ne hne).2 (hs x (by simp [hx])))
    have := List.length_erase_of_mem ha
    have := List.length_pos_of_mem ha
    simp only [List.length_cons]
    omega

namespace Flex

/-! ## Binary search finds everything only in sorted keys -/

theorem search_range {keys : List Bytes} {key : Bytes} :
    ∀ (n lo hi : Nat), hi - lo = n → ∀ mid, search keys key lo hi = some mid → lo ≤ mid ∧ mid < hi := by
  intro n
  induction n using Nat.strongRecOn with
  | ind n ih =>
    intro lo hi hn mid
    rw [search]
    by_cases h : lo < hi
    · rw [dif_pos h]
      dsimp only
      cases ho : order (keys[(lo + hi) / 2]?.getD []) key with
      | lt => intro h'; have := ih _ (by omega) _ _ rfl mid h'; omega
      | gt => intro h'; have := ih _ (by omega) _ _ rfl mid h'; omega
      | eq => intro h'; injection h' with h'; omega
    · rw [dif_neg h]
      intro h'; cases h'

theorem search_sorted {keys : List Bytes} :
    ∀ (n lo hi : Nat), hi - lo = n → hi ≤ keys.length →
      (∀ i (h : i < keys.length), lo ≤ i → i < hi → search keys keys[i] lo hi = some i) →
      ∀ i j (hi' : i < keys.length) (hj : j < keys.length), lo ≤ i → i < j → j < hi → keys[i] < keys[j] := by
  intro n
  induction n using Nat.strongRecOn with
  | ind n ih =>
    intro lo hi hn hhi hall i j hi' hj hli hij hjh
    have hlh : lo < hi := by omega
    have hm : (lo + hi) / 2 < keys.length := by omega
    have e : keys[(lo + hi) / 2]?.getD [] = keys[(lo + hi) / 2] := by simp [hm]
    generalize hmid : (lo + hi) / 2 = mid at hm e
    have hstep : ∀ key, search keys key lo hi = match order keys[mid] key with
        | .lt => search keys key (mid + 1) hi
        | .gt => search keys key lo mid
        | .eq => some mid := by
      intro key
      rw [search, dif_pos hlh]
      simp only [hmid, e]
      cases order keys[mid] key <;> rfl
    have hleft : ∀ a (ha : a < keys.length), lo ≤ a → a < mid → keys[a] < keys[mid] ∧ search keys keys[a] lo mid = some a := by
      intro a ha h1 h2
      have h3 := hall a ha h1 (by omega)
      rw [hstep] at h3
      cases ho : order keys[mid] keys[a] with
      | lt => rw [ho] at h3; have := search_range _ _ _ rfl _ h3; omega
      | eq => rw [ho] at h3; injection h3 with h3; omega
      | gt => rw [ho] at h3; exact ⟨(order_spec _ _).2.1.1 ho, h3⟩
    have hright : ∀ a (ha : a < keys.length), mid < a → a < hi → keys[mid] < keys[a] ∧ search keys keys[a] (mid + 1) hi = some a := by
      intro a ha h1 h2
      have h3 := hall a ha (by omega) h2
      rw [hstep] at h3
      cases ho : order keys[mid] keys[a] with
      | gt => rw [ho] at h3; have := search_range _ _ _ rfl _ h3; omega
      | eq => rw [ho] at h3; injection h3 with h3; omega
      | lt => rw [ho] at h3; exact ⟨(order_spec _ _).1.1 ho, h3⟩
    by_cases h1 : j < mid
    · exact ih (mid - lo) (by omega) lo mid rfl (by omega) (fun a ha h2 h3 => (hleft a ha h2 h3).2) i j hi' hj hli hij h1
    by_cases h2 : mid < i
    · exact ih (hi - (mid + 1)) (by omega) (mid + 1) hi rfl hhi (fun a ha h3 h4 => (hright a ha h3 h4).2) i j hi' hj h2 hij hjh
    by_cases h3 : i = mid
    · subst h3; exact (hright j hj hij hjh).1
    · have h4 := (hleft i hi' hli (by omega)).1
      by_cases h5 : j = mid
      · subst h5; exact h4
      · exact List.lt_trans h4 (hright j hj (by omega) hjh).1

/-! ## Documents of values present the values -/

theorem doc_agrees : ∀ v : Val, v.Sorted → v.Distinct → Doc.reader.AgreesStrictly v.doc v := by
  intro v
  induction v using Val.ind with
  | null => intro _ _; exact .null ⟨rfl, rfl, ⟨_, _, rfl, rfl, rfl⟩, rfl, rfl, rfl, rfl, rfl⟩
  | bool b => intro _ _; exact .bool ⟨rfl, rfl, ⟨_, _, rfl, rfl, rfl⟩, rfl, rfl, rfl, rfl, rfl⟩ rfl
  | int i =>
    intro _ _
    refine .int ⟨⟨rfl, rfl, ⟨_, _, rfl, rfl, rfl⟩, rfl, rfl, rfl, rfl, rfl⟩, fun _ => ⟨i, rfl, rfl⟩,
      fun h => by cases h⟩ (fun _ => ⟨rfl, rfl⟩)
  | uint n =>
    intro _ _
    refine .uint ⟨⟨rfl, rfl, ⟨_, _, rfl, rfl, rfl⟩, rfl, rfl, rfl, rfl, rfl⟩, (fun h => by cases h),
      fun _ => ⟨n, rfl, rfl⟩⟩ (fun _ => ⟨rfl, rfl⟩)
  | dbl d => intro _ _; exact .dbl ⟨rfl, rfl, ⟨_, _, rfl, rfl, rfl⟩, rfl, rfl, rfl, rfl, rfl⟩ rfl
  | str s => intro _ _; exact .str ⟨rfl, rfl, ⟨_, _, rfl, rfl, rfl⟩, rfl, rfl, rfl, rfl, rfl⟩ rfl rfl
  | blob s =>
    intro _ _
    exact .blob ⟨rfl, rfl, ⟨_, _, rfl, rfl, rfl⟩, rfl, rfl, rfl, rfl, rfl⟩ rfl (fun _ => rfl)
  | arr xs ih =>
    intro hs hd
    simp only [Val.Distinct, Val.distinctList_iff] at hd
    simp only [Val.doc, Val.docList_eq]
    refine .arr (fun i => (xs.map Val.doc)[i]?.getD .null)
      ⟨rfl, rfl, ⟨_, _, rfl, rfl, rfl⟩, rfl, rfl, rfl, rfl, rfl⟩ ?_ ?_ ?_ ?_
    · show Doc.arraySize (.vec (xs.map Val.doc)) = _
      simp [Doc.arraySize, Doc.isArray, Doc.elems]
    · intro i hi
      show Doc.getIdx (.vec (xs.map Val.doc)) i = _
      simp [Doc.getIdx, Doc.isArray, Doc.elems, hi]
    · intro i hi
      show Doc.getIdx (.vec (xs.map Val.doc)) i = _
      simp [Doc.getIdx, Doc.isArray, Doc.elems, hi]
    · intro i hi
      have := ih xs[i] (List.getElem_mem _) (Val.Each.arr hs _ (List.getElem_mem _)) (hd _ (List.getElem_mem _))
      simpa [hi] using this
  | map ms ih =>
    intro hs hd
    simp only [Val.Distinct, Val.distinctEntries_iff] at hd
    have hkeys : (Val.docEntries ms).map Prod.fst = ms.map Prod.fst := by
      simp [Val.docEntries_eq, List.map_map, Function.comp_def]
    have hsd : (Val.docEntries ms).Pairwise (fun a b => a.1 ≤ b.1) := by
      refine List.pairwise_map.1 ?_
      rw [hkeys]; exact Val.Each.self hs
    simp only [Val.doc]
    refine .map (fun k => match Doc.getKey (.map (Val.docEntries ms)) k with | .ok d => d | _ => .null)
      ⟨rfl, rfl, ⟨_, _, rfl, rfl, rfl⟩, rfl, rfl, rfl, rfl, rfl⟩ ?_ ?_ ?_ ?_ ?_
    · show Doc.mapKeys (.map (Val.docEntries ms)) = _
      simp only [Doc.mapKeys, hkeys]
    · intro k
      show Doc.contains (.map (Val.docEntries ms)) k = _
      rw [contains_sorted hsd, hkeys]
    · intro k hk
      rw [← hkeys] at hk
      show Doc.getKey (.map (Val.docEntries ms)) k = _
      rcases getKey_sorted hsd k with ⟨d, h1, _⟩ | ⟨_, h2⟩
      · rw [h1]
      · exact absurd hk h2
    · intro k hk
      rw [← hkeys] at hk
      show Doc.getKey (.map (Val.docEntries ms)) k = _
      rcases getKey_sorted hsd k with ⟨d, h1, h2⟩ | ⟨h1, _⟩
      · exact absurd (List.mem_map_of_mem (f := Prod.fst) h2) hk
      · exact h1
    · intro k w hw
      have hm := firstVal_mem hw
      rcases getKey_sorted hsd k with ⟨d, h1, h2⟩ | ⟨_, h2⟩
      · rw [Val.docEntries_eq, List.mem_map] at h2
        obtain ⟨m', hm', he'⟩ := h2
        injection he' with he1' he2'
        have e2 := firstVal_of_nodup hd.1 (show (k, m'.2) ∈ ms by rw [← he1']; exact hm')
        rw [hw] at e2
        injection e2 with e2
        simp only [h1]
        rw [← he2', ← e2]
        exact ih (k, w) hm (Val.Each.map hs _ hm).2 (hd.2 _ hm)
      · rw [hkeys] at h2
        exact absurd (List.mem_map_of_mem (f := Prod.fst) hm) h2

/-! ## From answers to bytes -/

theorem at_of_sliceAt {b xs : Bytes} {p n : Nat} (h : sliceAt b p n = .ok xs) : At b p xs ∧ xs.length = n := by
  unfold sliceAt at h
  split at h
  · injection h with h
    subst h
    refine ⟨⟨b.take p, b.drop (p + n), ?_, by rw [List.length_take]; omega⟩, by rw [List.length_take, List.length_drop]; omega⟩
    rw [← List.drop_drop, List.take_append_drop, List.take_append_drop]
  · cases h

theorem word_of_readU {b : Bytes} {p w n : Nat} (h : readU b p w = .ok n) : ∃ xs, Word .tolerant b p w xs ∧ numeral xs = n := by
  obtain ⟨xs, h1, h2⟩ := Res.bind_eq_ok.1 h
  obtain ⟨h3, h4⟩ := at_of_sliceAt h1
  injection h2 with h2
  exact ⟨xs, ⟨h3, by rw [h4, bytesOfWidth_scalar], fun h => h.elim, fun h => h.elim⟩, by rw [numeral_unle]; exact h2⟩

theorem points_of_indirect {b : Bytes} {p w q : Nat} (h : indirect b p w = .ok q) : Points .tolerant b p w q := by
  obtain ⟨o, h1, h2⟩ := Res.bind_eq_ok.1 h
  obtain ⟨xs, h3, h4⟩ := word_of_readU h1
  split at h2
  · injection h2 with h2
    exact ⟨xs, h3, by omega⟩
  · cases h2

theorem sized_of_sizeAt {b : Bytes} {q w n : Nat} (h : sizeAt b q w = .ok n) : Sized .tolerant b q w n := by
  unfold sizeAt at h
  split at h
  · exact ⟨‹_›, word_of_readU h⟩
  · cases h

theorem at_of_byteAt {b : Bytes} {p x : Nat} (h : byteAt b p = .ok x) : ∃ t : UInt8, At b p [t] ∧ t.toNat = x := by
  unfold byteAt at h
  split at h
  · rename_i t ht
    injection h with h
    obtain ⟨hp, rfl⟩ := List.getElem?_eq_some_iff.1 ht
    exact ⟨_, ⟨b.take p, b.drop (p + 1), by
      rw [List.singleton_append, ← List.drop_eq_getElem_cons hp, List.take_append_drop], by rw [List.length_take]; omega⟩, h⟩
  · cases h

theorem cstr_split_at {l : Bytes} (h : (0 : UInt8) ∈ l) : ∃ y, l = cstr l ++ [0] ++ y := by
  induction l with
  | nil => cases h
  | cons c l ih =>
    by_cases hc : c = 0
    · subst hc; exact ⟨l, by simp [cstr]⟩
    · obtain ⟨y, hy⟩ := ih (by rcases List.mem_cons.1 h with e | e; exact absurd e.symm hc; exact e)
      refine ⟨y, ?_⟩
      have e : cstr (c :: l) = c :: cstr l := by simp [cstr, List.takeWhile_cons, hc]
      rw [e, List.cons_append, List.cons_append, ← hy]

theorem at_of_cstrAt {b k : Bytes} {q : Nat} (h : cstrAt b q = .ok k) : At b q (k ++ [0]) ∧ (0 : UInt8) ∉ k ∧ q < b.length := by
  unfold cstrAt at h
  split at h
  · rename_i h0
    injection h with h
    subst h
    obtain ⟨y, hy⟩ := cstr_split_at h0
    have hq : q < b.length := by
      rcases Nat.lt_or_ge q b.length with h | h
      · exact h
      · rw [List.drop_of_length_le h] at h0; cases h0
    exact ⟨⟨b.take q, y, by rw [← hy, List.take_append_drop], by rw [List.length_take]; omega⟩, cstr_no_nul _, hq⟩
  · cases h

theorem signedNumeral_bounds {b xs : Bytes} {p w : Nat} (h : Word .tolerant b p w xs) :
    -2 ^ 63 ≤ signedNumeral xs ∧ signedNumeral xs < 2 ^ 63 := by
  have hl : xs.length = 1 ∨ xs.length = 2 ∨ xs.length = 4 ∨ xs.length = 8 := by
    rw [h.length]; unfold bytesOfWidth; split
    · exact .inr (.inr (.inr rfl))
    split
    · exact .inr (.inr (.inl rfl))
    split
    · exact .inr (.inl rfl)
    · exact .inl rfl
  unfold signedNumeral
  have h1 := Int.le_bmod (x := (numeral xs : Int)) (m := 256 ^ xs.length) (Nat.pow_pos (by decide))
  have h2 := Int.bmod_lt (x := (numeral xs : Int)) (m := 256 ^ xs.length) (Nat.pow_pos (by decide))
  rcases hl with hl | hl | hl | hl <;> rw [hl] at h1 h2 ⊢ <;> omega

theorem signed_of_readI {b : Bytes} {p w : Nat} {i : Int64} (h : readI b p w = .ok i) :
    ∃ xs, Word .tolerant b p w xs ∧ i.toInt = signedNumeral xs := by
  obtain ⟨n, h1, h2⟩ := Res.bind_eq_ok.1 h
  obtain ⟨xs, h3, h4⟩ := word_of_readU h1
  have h5 := h3.readI
  rw [h] at h5
  injection h5 with h5
  refine ⟨xs, h3, ?_⟩
  obtain ⟨l, u⟩ := signedNumeral_bounds h3
  rw [h5, Int64.toInt_ofInt_of_le l u]

theorem floatNumeral_lt {b xs : Bytes} {p w : Nat} (h : Word .tolerant b p w xs) : floatNumeral xs < 2 ^ 64 := by
  have hl : xs.length = 1 ∨ xs.length = 2 ∨ xs.length = 4 ∨ xs.length = 8 := by
    rw [h.length]; unfold bytesOfWidth; split
    · exact .inr (.inr (.inr rfl))
    split
    · exact .inr (.inr (.inl rfl))
    split
    · exact .inr (.inl rfl)
    · exact .inl rfl
  have hn := unle_lt xs
  rw [← numeral_unle] at hn
  unfold floatNumeral
  split
  · rename_i h8; rw [h8] at hn; exact hn
  split
  · exact widen32_lt _
  split
  · decide
  · rename_i h8 h4 h0
    have h1 := Int.le_bmod (x := (numeral xs : Int)) (m := 256 ^ xs.length) (Nat.pow_pos (by decide))
    have h2 := Int.bmod_lt (x := (numeral xs : Int)) (m := 256 ^ xs.length) (Nat.pow_pos (by decide))
    have hs : signedNumeral xs = (numeral xs : Int).bmod (256 ^ xs.length) := rfl
    have hd := Int.bmod_def (numeral xs : Int) (256 ^ xs.length)
    have hb : 0 < (signedNumeral xs).natAbs ∧ (signedNumeral xs).natAbs < 2 ^ 16 := by
      rcases hl with hl | hl | hl | hl
      · rw [hl] at h1 h2 hs hd hn
        rw [← hs] at hd h1 h2
        split at hd <;> omega
      · rw [hl] at h1 h2 hs hd hn
        rw [← hs] at hd h1 h2
        split at hd <;> omega
      · exact absurd hl h4
      · exact absurd hl h8
    have hlog : Nat.log2 (signedNumeral xs).natAbs < 16 := (Nat.log2_lt (by omega)).2 hb.2
    exact mkDouble_lt _ _ _ hb.1 (by omega) (by omega)

theorem float_of_readF {b : Bytes} {p w : Nat} {d : UInt64} (h : readF b p w = .ok d) :
    ∃ xs, Word .tolerant b p w xs ∧ d.toNat = floatNumeral xs := by
  obtain ⟨n, h1, h2⟩ := Res.bind_eq_ok.1 h
  obtain ⟨xs, h3, h4⟩ := word_of_readU h1
  have h5 := h3.readF
  rw [h] at h5
  injection h5 with h5
  refine ⟨xs, h3, ?_⟩
  rw [h5, UInt64.toNat_ofNat_of_lt' (floatNumeral_lt h3)]

theorem numeral_lt {b xs : Bytes} {p w : Nat} (h : Word .tolerant b p w xs) : numeral xs < 2 ^ 64 := by
  have hn := unle_lt xs
  rw [← numeral_unle, h.length] at hn
  refine Nat.lt_of_lt_of_le hn ?_
  have : (2 : Nat) ^ 64 = 256 ^ 8 := by decide
  rw [this]
  refine Nat.pow_le_pow_right (by decide) ?_
  unfold bytesOfWidth
  repeat' split
  all_goals omega

theorem sized_stands {r : Ref} {s : Bytes} (h : r.sized = .ok s) :
    ∃ q, Points .tolerant r.buf r.pos r.pw q ∧ Sized .tolerant r.buf q r.bw s.length ∧ At r.buf q s := by
  obtain ⟨q, h1, h2⟩ := Res.bind_eq_ok.1 h
  obtain ⟨n, h3, h4⟩ := Res.bind_eq_ok.1 h2
  obtain ⟨h5, h6⟩ := at_of_sliceAt h4
  exact ⟨q, points_of_indirect h1, h6 ▸ sized_of_sizeAt h3, h5⟩

theorem agrees_nullRef {v : Val} (h : reader.AgreesStrictly nullRef v) : v = .null := by
  cases h with
  | null => rfl
  | bool h _ => exact absurd h.1 (by decide)
  | int h _ => exact absurd h.1.1 (by decide)
  | uint h _ => exact absurd h.1.1 (by decide)
  | dbl h _ => exact absurd h.1 (by decide)
  | str h _ _ => exact absurd h.1 (by decide)
  | blob h _ _ => exact absurd h.1 (by decide)
  | arr _ h _ _ _ _ => exact absurd h.1 (by decide)
  | map _ h _ _ _ _ _ => exact absurd h.1 (by decide)

/-- The keys that are read one after the other. -/
theorem keysFrom_nth {b : Bytes} {kp kw kn : Nat} : ∀ (n i : Nat) {ks : List Bytes}, keysFrom b kp kw kn i n = .ok ks →
    ks.length = n ∧ ∀ j (h : j < ks.length), keyAt b kp kw kn (i + j) = .ok ks[j]
  | 0, i, ks, h => by
    injection h with h; subst h
    exact ⟨rfl, fun j hj => by simp at hj⟩
  | n + 1, i, ks, h => by
    obtain ⟨k, h1, h2⟩ := Res.bind_eq_ok.1 h
    obtain ⟨ks', h3, h4⟩ := Res.bind_eq_ok.1 h2
    injection h4 with h4; subst h4
    obtain ⟨h5, h6⟩ := keysFrom_nth n (i + 1) h3
    refine ⟨by simp [h5], fun j hj => ?_⟩
    cases j with
    | zero => exact h1
    | succ j =>
      have := h6 j (by simpa using hj)
      simp only [List.getElem_cons_succ]
      rw [← this]; congr 1; omega

theorem elemAt_inv {b : Bytes} {p bw n i : Nat} {c : Ref} (hi : i < n) (h : elemAt b p bw n i = .ok c) :
    ∃ t : UInt8, At b (p + n * bw % 2 ^ 64 + i) [t] ∧
      c = ⟨b, p + u64 (i * bw), bw, 2 ^ (t.toNat % 4), t.toNat / 4⟩ := by
  rw [elemAt, if_neg (by omega)] at h
  obtain ⟨x, h1, h2⟩ := Res.bind_eq_ok.1 h
  obtain ⟨t, h3, rfl⟩ := at_of_byteAt h1
  injection h2 with h2
  exact ⟨t, h3, h2.symm⟩

theorem firstVal_at {ms : List (Bytes × Val)} (hd : (ms.map Prod.fst).Nodup) (i : Nat) (h : i < ms.length) :
    firstVal ms ms[i].1 = some ms[i].2 := firstVal_of_nodup hd (List.getElem_mem h)

/-- What is presented stands in the buffer, and its keys are sorted. -/
theorem stands_of_agrees {r : Ref} {v : Val} (h : reader.AgreesStrictly r v) :
    v.Distinct → r.buf.length < 2 ^ 56 → r.bw ≤ 8 → Stands .tolerant r.buf r.pos r.pw r.ty r.bw v.doc ∧ v.Sorted := by
  induction h with
  | @null r h =>
    intro _ _ _
    have h1 : isNull r = true := Res.ok.inj h.1
    have ht : r.ty = 0 := by simpa [isNull] using h1
    rw [ht]; exact ⟨.null, trivial⟩
  | @bool r x h h2 =>
    intro _ _ _
    have h1 : isBool r = true := Res.ok.inj h.2.1
    have ht : r.ty = 26 := by simpa [isBool] using h1
    have h3 : asBool r = .ok x := h2
    rw [asBool, h1] at h3
    simp only [Res.require_true, Res.ok_bind] at h3
    obtain ⟨n, h4, h5⟩ := Res.bind_eq_ok.1 h3
    obtain ⟨xs, h6, rfl⟩ := word_of_readU h4
    injection h5 with h5
    rw [ht, ← h5]; exact ⟨.bool h6, trivial⟩
  | @int r i h hs =>
    intro _ _ _
    have h1 : isInt r = true := Res.ok.inj (hs trivial).1
    obtain ⟨x, h2, h3⟩ := h.2.1 (hs trivial).1
    have e : x = i := Int64.toInt_inj.1 h3
    subst e
    have h2 : asInt64 r = .ok x := h2
    rw [asInt64, h1] at h2
    simp only [Res.require_true, Res.ok_bind, Ref.int64] at h2
    split at h2
    · rename_i ht
      obtain ⟨xs, h4, h5⟩ := signed_of_readI h2
      rw [ht]; exact ⟨.int x h4 h5, trivial⟩
    · rename_i ht
      have ht : r.ty = 6 := by
        simp only [isInt, Bool.or_eq_true, decide_eq_true_eq] at h1; omega
      obtain ⟨q, h4, h5⟩ := Res.bind_eq_ok.1 h2
      obtain ⟨xs, h6, h7⟩ := signed_of_readI h5
      rw [ht]; exact ⟨.intAt x trivial (points_of_indirect h4) h6 h7, trivial⟩
  | @uint r i h hs =>
    intro _ _ _
    have h1 : isUInt r = true := Res.ok.inj (hs trivial).2
    obtain ⟨x, h2, h3⟩ := h.2.2 (hs trivial).2
    have e : x = i := UInt64.toNat_inj.1 (by exact_mod_cast h3)
    subst e
    have h2 : asUInt64 r = .ok x := h2
    rw [asUInt64, h1] at h2
    simp only [Res.require_true, Res.ok_bind, Ref.uint64] at h2
    obtain ⟨n, h2, h2'⟩ := Res.bind_eq_ok.1 h2
    injection h2' with h2'
    split at h2
    · rename_i ht
      obtain ⟨xs, h4, rfl⟩ := word_of_readU h2
      rw [ht]; exact ⟨.uint x h4 (by rw [← h2', UInt64.toNat_ofNat_of_lt' (numeral_lt h4)]), trivial⟩
    · rename_i ht
      have ht : r.ty = 7 := by
        simp only [isUInt, Bool.or_eq_true, decide_eq_true_eq] at h1; omega
      obtain ⟨q, h4, h5⟩ := Res.bind_eq_ok.1 h2
      obtain ⟨xs, h6, rfl⟩ := word_of_readU h5
      rw [ht]; exact ⟨.uintAt x trivial (points_of_indirect h4) h6 (by rw [← h2', UInt64.toNat_ofNat_of_lt' (numeral_lt h6)]), trivial⟩
  | @dbl r d h h2 =>
    intro _ _ _
    have h1 : isFloat r = true := Res.ok.inj h.2.2.2.1
    have h2 : asDouble r = .ok d := h2
    rw [asDouble, h1] at h2
    simp only [Res.require_true, Res.ok_bind, Ref.double] at h2
    split at h2
    · rename_i ht
      obtain ⟨xs, h4, h5⟩ := float_of_readF h2
      rw [ht]; exact ⟨.dbl d h4 (fun h => h.elim) h5, trivial⟩
    · rename_i ht
      have ht : r.ty = 8 := by
        simp only [isFloat, Bool.or_eq_true, decide_eq_true_eq] at h1; omega
      obtain ⟨q, h4, h5⟩ := Res.bind_eq_ok.1 h2
      obtain ⟨xs, h6, h7⟩ := float_of_readF h5
      rw [ht]; exact ⟨.dblAt d trivial (points_of_indirect h4) h6 (fun h => h.elim) h7, trivial⟩
  | @str r s h h2 _ =>
    intro _ _ _
    have h1 : isString r = true := Res.ok.inj h.2.2.2.2.1
    have ht : r.ty = 5 := by simpa [isString] using h1
    have h2 : asString r = .ok s := h2
    rw [asString, h1] at h2
    simp only [Res.require_true, Res.ok_bind] at h2
    obtain ⟨q, h3, h4, h5⟩ := sized_stands h2
    rw [ht]; exact ⟨.str h3 h4 h5 (fun h => h.elim), trivial⟩
  | @blob r s ar h h2 _ =>
    intro _ _ _
    have h1 : isBlob r = true := Res.ok.inj h.2.2.2.2.2.1
    have ht : r.ty = 25 := by simpa [isBlob] using h1
    have h2 : asBlob r = .ok s := h2
    rw [asBlob, h1] at h2
    simp only [Res.require_true, Res.ok_bind] at h2
    obtain ⟨q, h3, h4, h5⟩ := sized_stands h2
    rw [ht]; exact ⟨.blob h3 h4 h5, trivial⟩
  | @arr r xs child h hn hc _ ha ih =>
    intro hd hl hbw
    simp only [Val.Distinct, Val.distinctList_iff] at hd
    have h1 : isArray r = true := Res.ok.inj h.2.2.2.2.2.2.2
    have h2 : isMap r = false := Res.ok.inj h.2.2.2.2.2.2.1
    have hn : arraySize r = .ok xs.length := hn
    have hc : ∀ i, i < xs.length → getIdx r i = .ok (child i) := hc
    simp only [arraySize, h1, Res.require_true, Res.ok_bind] at hn
    obtain ⟨⟨p', n⟩, hv, hn⟩ := Res.bind_eq_ok.1 hn
    have hn : n = xs.length := Res.ok.inj hn
    subst hn
    have hv0 := hv
    by_cases ht : r.ty = 10
    · rw [Ref.vector, if_pos (.inr ht)] at hv
      obtain ⟨p, v1, hv⟩ := Res.bind_eq_ok.1 hv
      obtain ⟨n, v2, hv⟩ := Res.bind_eq_ok.1 hv
      have hv := Res.ok.inj hv
      injection hv with e1 e2
      subst e1 e2
      have hg : ∀ i, i < xs.length → ∃ t : UInt8, At r.buf (p + xs.length * r.bw % 2 ^ 64 + i) [t] ∧
          child i = ⟨r.buf, p + u64 (i * r.bw), r.bw, 2 ^ (t.toNat % 4), t.toNat / 4⟩ := by
        intro i hi
        have h3 := hc i hi
        simp only [getIdx, h1, Res.require_true, Res.ok_bind, hv0, hi, decide_true] at h3
        exact elemAt_inv hi h3
      have hsmall : xs.length < 2 ^ 56 := by
        by_cases h0 : xs.length = 0
        · omega
        · obtain ⟨t, h3, _⟩ := hg (xs.length - 1) (by omega)
          have := h3.bound
          simp only [List.length_cons, List.length_nil] at this
          omega
      have hmul : xs.length * r.bw ≤ 2 ^ 56 * 8 := Nat.mul_le_mul (Nat.le_of_lt hsmall) hbw
      have hch : ∀ i, ∃ t : UInt8, i < xs.length → At r.buf (p + xs.length * r.bw + i) [t] ∧
          child i = ⟨r.buf, p + i * r.bw, r.bw, 2 ^ (t.toNat % 4), t.toNat / 4⟩ := by
        intro i
        by_cases hi : i < xs.length
        · obtain ⟨t, h3, h4⟩ := hg i hi
          have hm : i * r.bw ≤ xs.length * r.bw := Nat.mul_le_mul_right _ (by omega)
          rw [Nat.mod_eq_of_lt (by omega)] at h3
          rw [show u64 (i * r.bw) = i * r.bw from Nat.mod_eq_of_lt (by omega)] at h4
          exact ⟨t, fun _ => ⟨h3, h4⟩⟩
        · exact ⟨0, fun h => absurd h hi⟩
      have hih : ∀ i (hi : i < xs.length), Stands .tolerant r.buf (p + i * r.bw) r.bw ((hch i).choose.toNat / 4)
          (2 ^ ((hch i).choose.toNat % 4)) xs[i].doc ∧ xs[i].Sorted := by
        intro i hi
        have h3 := ih i hi (hd _ (List.getElem_mem hi))
        rw [((hch i).choose_spec hi).2] at h3
        exact h3 hl (pow_mod_four _)
      rw [ht, Val.doc, Val.docList_eq]
      refine ⟨.vec (fun i => (hch i).choose) (points_of_indirect v1) (by rw [List.length_map]; exact sized_of_sizeAt v2) ?_ ?_, ?_⟩
      · intro i hi
        rw [List.length_map] at hi ⊢
        exact ((hch i).choose_spec hi).1
      · intro i hi
        rw [List.length_map] at hi
        rw [List.getElem_map]
        exact (hih i hi).1
      · refine ⟨trivial, (Val.eachList_iff _).2 fun x hx => ?_⟩
        obtain ⟨i, hi, rfl⟩ := List.getElem_of_mem hx
        exact (hih i hi).2
    · have h9 : r.ty ≠ 9 := by simpa [isMap] using h2
      rw [Ref.vector, if_neg (by omega)] at hv
      have hv := Res.ok.inj hv
      injection hv with e1 e2
      have hx : xs = [] := List.length_eq_zero_iff.1 e2.symm
      subst hx
      refine ⟨.hollow trivial ?_, trivial, (Val.eachList_iff _).2 fun x hx => by cases hx⟩
      simp only [isArray, typedType, Bool.and_eq_true, Bool.or_eq_true, decide_eq_true_eq] at h1
      omega
  | @map r ms child h hk hcont hg _ ha ih =>
    intro hd hl hbw
    simp only [Val.Distinct, Val.distinctEntries_iff] at hd
    have h1 : isMap r = true := Res.ok.inj h.2.2.2.2.2.2.1
    have ht : r.ty = 9 := by simpa [isMap] using h1
    have hk : mapKeys r = .ok (ms.map Prod.fst) := hk
    have hg : ∀ k, k ∈ ms.map Prod.fst → getKey r k = .ok (child k) := hg
    simp only [mapKeys, h1, Res.require_true, Res.ok_bind] at hk
    obtain ⟨⟨p', m'⟩, hv, hk⟩ := Res.bind_eq_ok.1 hk
    obtain ⟨⟨kp, kw, kn⟩, hka, hk⟩ := Res.bind_eq_ok.1 hk
    obtain ⟨hkl, hks⟩ := keysFrom_nth _ _ hk
    dsimp only at hkl hks
    have hv0 := hv
    have hka0 := hka
    rw [Ref.vector, if_pos (.inl ht)] at hv
    obtain ⟨p, v1, hv⟩ := Res.bind_eq_ok.1 hv
    obtain ⟨n, v2, hv⟩ := Res.bind_eq_ok.1 hv
    have hv := Res.ok.inj hv
    injection hv with e1 e2
    subst e1 e2
    unfold keysAt at hka
    split at hka
    case isFalse => cases hka
    rename_i h3
    obtain ⟨kp', k1, hka⟩ := Res.bind_eq_ok.1 hka
    obtain ⟨w, k2, hka⟩ := Res.bind_eq_ok.1 hka
    obtain ⟨kn', k3, hka⟩ := Res.bind_eq_ok.1 hka
    have hka := Res.ok.inj hka
    simp only [Prod.mk.injEq] at hka
    obtain ⟨e3, e4, e5⟩ := hka
    subst e3 e4 e5
    have hlen : ms.length = kn' := by rw [← hkl, List.length_map]
    subst hlen
    have hks' : ∀ i (hi : i < ms.length), ∃ o, indirect r.buf (kp' + u64 (i * (w % 256))) (w % 256) = .ok o ∧
        cstrAt r.buf o = .ok ms[i].1 := by
      intro i hi
      have h4 := hks i (by simpa using hi)
      rw [Nat.zero_add, keyAt, if_neg (by omega)] at h4
      obtain ⟨o, h5, h6⟩ := Res.bind_eq_ok.1 h4
      exact ⟨o, h5, by simpa using h6⟩
    have hsmall : ms.length ≤ r.buf.length := by
      have := nodup_length_le (l := ms.map Prod.fst) (m := (List.range r.buf.length).map (fun o => cstr (r.buf.drop o))) hd.1 ?_
      · simpa using this
      · intro k hk
        obtain ⟨i, hi, e⟩ := List.getElem_of_mem hk
        rw [List.length_map] at hi
        obtain ⟨o, _, h6⟩ := hks' i hi
        have h7 := (at_of_cstrAt h6).2.2
        refine List.mem_map.2 ⟨o, List.mem_range.2 h7, ?_⟩
        unfold cstrAt at h6
        split at h6
        · have := Res.ok.inj h6
          rw [List.getElem_map] at e
          rw [this, e]
        · cases h6
    have hsearch : ∀ i (hi : i < ms.length), search (ms.map Prod.fst) ms[i].1 0 (ms.map Prod.fst).length = some i ∧
        elemAt r.buf p r.bw n i = .ok (child ms[i].1) := by
      intro i hi
      have h4 := hg ms[i].1 (List.mem_map_of_mem (List.getElem_mem hi))
      have h5 := loop_keys (b := r.buf) (kp := kp') (kw := w % 256) (ks := ms.map Prod.fst)
        (by rw [List.length_map]; omega) (fun j hj => by rw [hkl]; have := hks j hj; rwa [Nat.zero_add] at this) ms[i].1
      rw [hkl] at h5
      simp only [getKey, h1, Res.require_true, Res.ok_bind, hv0, hka0, h5] at h4
      cases hf : search (ms.map Prod.fst) ms[i].1 0 ms.length with
      | none => rw [hf] at h4; cases h4
      | some mid =>
        rw [hf] at h4
        obtain ⟨hm, he⟩ := search_sound _ 0 _ rfl (by rw [hkl]; exact Nat.le_refl _) mid hf
        have hmi : mid = i := by
          refine (List.getElem_inj (h₀ := hm) (h₁ := by simpa using hi) hd.1).1 ?_
          rw [he, List.getElem_map]
        subst hmi
        rw [hkl]
        exact ⟨hf, h4⟩
    have hch : ∀ i, ∃ t : UInt8, i < ms.length → i < n → ∃ hi : i < ms.length, At r.buf (p + n * r.bw % 2 ^ 64 + i) [t] ∧
        child ms[i].1 = ⟨r.buf, p + i * r.bw, r.bw, 2 ^ (t.toNat % 4), t.toNat / 4⟩ := by
      intro i
      by_cases hi : i < ms.length
      · by_cases hin : i < n
        · obtain ⟨t, h4, h5⟩ := elemAt_inv hin (hsearch i hi).2
          have hm : i * r.bw ≤ 2 ^ 56 * 8 := Nat.mul_le_mul (by omega) hbw
          rw [show u64 (i * r.bw) = i * r.bw from Nat.mod_eq_of_lt (by omega)] at h5
          exact ⟨t, fun _ _ => ⟨hi, h4, h5⟩⟩
        · exact ⟨0, fun _ h => absurd h hin⟩
      · exact ⟨0, fun h => absurd h hi⟩
    have hkq : ∀ i, ∃ o, ∀ hi : i < ms.length, indirect r.buf (kp' + i * (w % 256)) (w % 256) = .ok o ∧
        cstrAt r.buf o = .ok ms[i].1 := by
      intro i
      by_cases hi : i < ms.length
      · obtain ⟨o, h4⟩ := hks' i hi
        have hm : i * (w % 256) ≤ 2 ^ 56 * 255 := Nat.mul_le_mul (by omega) (by omega)
        rw [show u64 (i * (w % 256)) = i * (w % 256) from Nat.mod_eq_of_lt (by omega)] at h4
        exact ⟨o, fun _ => h4⟩
      · exact ⟨0, fun h => absurd h hi⟩
    have hlt : ∀ i (hi : i < ms.length), n ≤ i → ms[i].2 = .null := by
      intro i hi hin
      have h4 := (hsearch i hi).2
      rw [elemAt, if_pos hin] at h4
      have h4 := Res.ok.inj h4
      have h5 := ha ms[i].1 ms[i].2 (firstVal_at hd.1 i hi)
      rw [← h4] at h5
      exact agrees_nullRef h5
    have hih : ∀ i (hi : i < ms.length), i < n → Stands .tolerant r.buf (p + i * r.bw) r.bw ((hch i).choose.toNat / 4)
        (2 ^ ((hch i).choose.toNat % 4)) ms[i].2.doc ∧ ms[i].2.Sorted := by
      intro i hi hin
      have h4 := ih ms[i].1 ms[i].2 (firstVal_at hd.1 i hi) (hd.2 _ (List.getElem_mem hi))
      obtain ⟨_, _, h5⟩ := (hch i).choose_spec hi hin
      rw [h5] at h4
      exact h4 hl (pow_mod_four _)
    obtain ⟨ws, w1, w2⟩ := word_of_readU k2
    rw [ht, Val.doc, Val.docEntries_eq]
    refine ⟨.map (n := n) (kw := w % 256) (fun i => (hch i).choose) (fun i => (hkq i).choose) (points_of_indirect v1) (sized_of_sizeAt v2)
      (fun h => h.elim) h3 (points_of_indirect k1) w1 w2 rfl (fun h => h.elim) (by rw [List.length_map]; exact sized_of_sizeAt k3)
      ?_ rfl (fun h => h.elim) ?_ ?_ ?_, ?_, ?_⟩
    · intro i hi
      rw [List.length_map] at hi
      obtain ⟨h4, h5⟩ := (hkq i).choose_spec hi
      obtain ⟨h6, h7, _⟩ := at_of_cstrAt h5
      simp only [List.getElem_map]
      exact ⟨points_of_indirect h4, h6, h7⟩
    · intro i hi hin
      rw [List.length_map] at hi
      exact ((hch i).choose_spec hi hin).choose_spec.1
    · intro i hi hin
      rw [List.length_map] at hi
      simp only [List.getElem_map]
      exact (hih i hi hin).1
    · intro i hi hin
      rw [List.length_map] at hi
      simp only [List.getElem_map, hlt i hi hin, Val.doc]
    · refine List.pairwise_iff_getElem.2 fun i j hi hj hij => ?_
      refine List.le_of_lt (search_sorted _ 0 (ms.map Prod.fst).length rfl (Nat.le_refl _) ?_ i j hi hj (Nat.zero_le _) hij hj)
      intro a ha' _ _
      rw [List.length_map] at ha'
      rw [List.getElem_map]
      exact (hsearch a ha').1
    · refine (Val.eachEntries_iff _).2 fun m hm => ⟨trivial, ?_⟩
      obtain ⟨i, hi, rfl⟩ := List.getElem_of_mem hm
      by_cases hin : i < n
      · exact (hih i hi hin).2
      · rw [hlt i hi (by omega)]; trivial

end Flex
end Zer
