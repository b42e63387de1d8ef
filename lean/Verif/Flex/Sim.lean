import Verif.Flex.Search
import Verif.Flex.Model
import Verif.Reach

/-!
# Flex: positions that hold a document

`Holds r d`: at the reference `r` the bytes lay out the document `d`. Every function of the reader then
answers what `Doc.reader` answers about `d`.
-/

namespace Zer.Flex

/-! ## Numbers -/

theorem le_length (w n : Nat) : (le w n).length = w := by
  induction w generalizing n with
  | zero => rfl
  | succ w ih => simp [le, ih]

theorem unle_le (w n : Nat) : unle (le w n) = n % 256 ^ w := by
  induction w generalizing n with
  | zero => simp [le, unle, Nat.mod_one]
  | succ w ih =>
    simp only [le, unle, ih, UInt8.toNat_ofNat']
    have e : 256 ^ (w + 1) = 256 * 256 ^ w := by rw [Nat.pow_succ, Nat.mul_comm]
    rw [e, Nat.mod_mul]

theorem unle_lt (s : Bytes) : unle s < 256 ^ s.length := by
  induction s with
  | nil => simp [unle]
  | cons c s ih =>
    simp only [unle, List.length_cons, Nat.pow_succ]
    have := UInt8.toNat_lt c
    omega

theorem pow256 (w : Nat) : (256 : Nat) ^ w = 2 ^ (8 * w) := by
  rw [show (256 : Nat) = 2 ^ 8 by rfl, ← Nat.pow_mul]

theorem scalarWidth_pow {x : Nat} (h : x ≤ 3) : scalarWidth (2 ^ x) = 2 ^ x := by
  match x, h with
  | 0, _ => rfl
  | 1, _ => rfl
  | 2, _ => rfl
  | 3, _ => rfl

theorem readU_at {b : Bytes} {p x n : Nat} (hx : x ≤ 3) (h : At b p (le (2 ^ x) n)) :
    readU b p (2 ^ x) = .ok (n % 2 ^ (8 * 2 ^ x)) := by
  have := h.sliceAt
  rw [le_length] at this
  rw [readU, scalarWidth_pow hx, this]
  simp only [Res.ok_bind, Res.pure_eq, unle_le, pow256]

theorem readU_lt {b : Bytes} {p w n : Nat} (h : readU b p w = .ok n) : n < 2 ^ (8 * scalarWidth w) := by
  unfold readU at h
  obtain ⟨s, h1, h2⟩ := Res.bind_eq_ok.1 h
  injection h2 with h2
  subst h2
  have hl : s.length = scalarWidth w := by
    unfold sliceAt at h1
    split at h1
    · injection h1 with h1; subst h1
      rw [List.length_take, List.length_drop]; omega
    · cases h1
  rw [← pow256, ← hl]
  exact unle_lt s

/-! ## Holds -/

/-- At the reference `r` the bytes lay out the document `d`. -/
inductive Holds : Ref → Doc → Prop where
  | null {r} : r.ty = 0 → Holds r .null
  | bool {r n} : r.ty = 26 → readU r.buf r.pos r.pw = .ok n → Holds r (.bool (decide (n ≠ 0)))
  | int {r i} : (r.ty = 1 ∨ r.ty = 6) → r.int64 = .ok i → Holds r (.int i)
  | uint {r n} : (r.ty = 2 ∨ r.ty = 7) → r.uint64 = .ok n → Holds r (.uint (UInt64.ofNat n))
  | dbl {r d} : (r.ty = 3 ∨ r.ty = 8) → r.double = .ok d → Holds r (.dbl d)
  | str {r s} : r.ty = 5 → r.sized = .ok s → Holds r (.str s)
  | key {r k} : r.ty = 4 → Holds r (.key k)
  | blob {r s} : r.ty = 25 → r.sized = .ok s → Holds r (.blob s)
  | vec {r xs p} (child : Nat → Ref) : r.ty = 10 → r.vector = .ok (p, xs.length) →
      (∀ i, i < xs.length → elemAt r.buf p r.bw xs.length i = .ok (child i)) →
      (∀ i (h : i < xs.length), Holds (child i) xs[i]) → Holds r (.vec xs)
  | hollow {r} : typedType r.ty = true → Holds r (.vec [])
  | map {r} {ms : List (Bytes × Doc)} {p n kp kw} (child : Nat → Ref) : r.ty = 9 →
      r.vector = .ok (p, n) →
      keysAt r.buf p r.bw = .ok (kp, kw, ms.length) → ms.length < 2 ^ 63 →
      (∀ i (h : i < ms.length), keyAt r.buf kp kw ms.length i = .ok ms[i].1) →
      (∀ i, i < ms.length → elemAt r.buf p r.bw n i = .ok (child i)) →
      (∀ i (h : i < ms.length), Holds (child i) ms[i].2) → Holds r (.map ms)

/-- Two outcomes agree: the same exception, or positions that are related. -/
def ResRel {α β : Type} (R : α → β → Prop) : Res α → Res β → Prop
  | .ok a, .ok b => R a b
  | .err e, .err f => e = f
  | .ub, .ub => True
  | .diverge, .diverge => True
  | _, _ => False

theorem keysFrom_all {b : Bytes} {kp kw : Nat} {ks : List Bytes}
    (h : ∀ i (hi : i < ks.length), keyAt b kp kw ks.length i = .ok ks[i]) :
    ∀ n i, i + n = ks.length → keysFrom b kp kw ks.length i n = .ok (ks.drop i)
  | 0, i, hi => by
    rw [keysFrom, List.drop_of_length_le (by omega)]; rfl
  | n + 1, i, hi => by
    rw [keysFrom, h i (by omega), keysFrom_all h n (i + 1) (by omega)]
    simp only [Res.ok_bind, Res.pure_eq]
    rw [List.drop_eq_getElem_cons (i := i) (by omega)]

/-- The loop is the search, where the keys can be read and their number does not overflow. -/
theorem loop_search {b : Bytes} {kp kw : Nat} {ks : List Bytes} (hn : ks.length < 2 ^ 63)
    (h : ∀ i (hi : i < ks.length), keyAt b kp kw ks.length i = .ok ks[i]) (key : Bytes) :
    ∀ fuel lo hi, hi - lo < fuel → hi ≤ ks.length →
      loop b kp kw ks.length key fuel lo hi = .ok (search ks key lo hi) := by
  intro fuel
  induction fuel with
  | zero => intro lo hi hf; omega
  | succ fuel ih =>
    intro lo hi hf hhi
    rw [loop, search]
    by_cases hlt : lo < hi
    · have hm : u64 (lo + hi) = lo + hi := Nat.mod_eq_of_lt (by omega)
      have hk : (lo + hi) / 2 < ks.length := by omega
      rw [if_pos hlt, dif_pos hlt]
      simp only [hm, h _ hk, Res.ok_bind, List.getElem?_eq_getElem hk, Option.getD_some]
      cases order ks[(lo + hi) / 2] key with
      | lt => exact ih _ _ (by omega) hhi
      | gt => exact ih _ _ (by omega) (by omega)
      | eq => rfl
    · rw [if_neg hlt, dif_neg hlt]; rfl

theorem loop_keys {b : Bytes} {kp kw : Nat} {ks : List Bytes} (hn : ks.length < 2 ^ 63)
    (h : ∀ i (hi : i < ks.length), keyAt b kp kw ks.length i = .ok ks[i]) (key : Bytes) :
    loop b kp kw ks.length key loopFuel 0 ks.length = .ok (search ks key 0 ks.length) :=
  loop_search hn h key _ _ _ (by unfold loopFuel; omega) (Nat.le_refl _)

theorem search_lt {ks : List Bytes} {key : Bytes} {mid : Nat} (h : search ks key 0 ks.length = some mid) :
    mid < ks.length := (search_sound _ 0 _ rfl (Nat.le_refl _) mid h).1

/-- All answers of the reader at `r` are those of `Doc.reader` at `d`, and the positions that it leads
to hold the documents that it leads to. -/
structure SameAnswers (r : Ref) (d : Doc) : Prop where
  isNull : isNull r = d.isNull
  isBool : isBool r = d.isBool
  isInt : isInt r = d.isInt
  isUInt : isUInt r = d.isUInt
  isFloat : isFloat r = d.isFloat
  isString : isString r = d.isString
  isBlob : isBlob r = d.isBlob
  isMap : isMap r = d.isMap
  isArray : isArray r = d.isArray
  asBool : asBool r = d.asBool
  asInt64 : asInt64 r = d.asInt64
  asUInt64 : asUInt64 r = d.asUInt64
  asDouble : asDouble r = d.asDouble
  asString : asString r = d.asString
  asBlob : asBlob r = d.asBlob
  mapKeys : mapKeys r = d.mapKeys
  contains : ∀ k, contains r k = d.contains k
  arraySize : arraySize r = d.arraySize
  getKey : ∀ k, ResRel Holds (getKey r k) (d.getKey k)
  getIdx : ∀ i, ResRel Holds (getIdx r i) (d.getIdx i)

theorem isArray_of_ty (r : Ref) : isArray r = ((typedType r.ty || r.ty = 9 || r.ty = 10) && !decide (r.ty = 9)) := rfl

theorem Holds.same {r : Ref} {d : Doc} (h : Holds r d) : SameAnswers r d := by
  obtain ⟨b, pos, pw, bw, ty⟩ := r
  cases h with
  | null ht =>
    cases ht
    exact ⟨rfl, rfl, rfl, rfl, rfl, rfl, rfl, rfl, rfl, rfl, rfl, rfl, rfl, rfl, rfl, rfl, fun _ => rfl, rfl,
      fun _ => rfl, fun _ => rfl⟩
  | bool ht hr =>
    cases ht
    refine ⟨rfl, rfl, rfl, rfl, rfl, rfl, rfl, rfl, rfl, ?_, rfl, rfl, rfl, rfl, rfl, rfl, fun _ => rfl, rfl,
      fun _ => rfl, fun _ => rfl⟩
    simp only [Flex.asBool, Flex.isBool, decide_true, Res.require_true, Res.ok_bind]
    rw [hr]; rfl
  | int ht hr =>
    rcases ht with ht | ht <;> (
      cases ht
      refine ⟨rfl, rfl, rfl, rfl, rfl, rfl, rfl, rfl, rfl, rfl, ?_, rfl, rfl, rfl, rfl, rfl, fun _ => rfl, rfl,
        fun _ => rfl, fun _ => rfl⟩
      exact hr)
  | uint ht hr =>
    rcases ht with ht | ht <;> (
      cases ht
      refine ⟨rfl, rfl, rfl, rfl, rfl, rfl, rfl, rfl, rfl, rfl, rfl, ?_, rfl, rfl, rfl, rfl, fun _ => rfl, rfl,
        fun _ => rfl, fun _ => rfl⟩
      show (Ref.uint64 _ >>= fun n => pure (UInt64.ofNat n)) = _
      rw [hr]; rfl)
  | dbl ht hr =>
    rcases ht with ht | ht <;> (
      cases ht
      refine ⟨rfl, rfl, rfl, rfl, rfl, rfl, rfl, rfl, rfl, rfl, rfl, rfl, ?_, rfl, rfl, rfl, fun _ => rfl, rfl,
        fun _ => rfl, fun _ => rfl⟩
      exact hr)
  | hollow ht =>
    have h : ∀ n, ¬ (11 ≤ n ∧ n ≤ 24 ∨ n = 36) → ty ≠ n := by
      intro n hn e
      subst e
      simp only [typedType, Bool.or_eq_true, Bool.and_eq_true, decide_eq_true_eq] at ht
      omega
    have h' : ∀ n, ¬ (11 ≤ n ∧ n ≤ 24 ∨ n = 36) → (decide (ty = n)) = false := fun n hn => decide_eq_false (h n hn)
    have hm := h' 9 (by omega)
    have ha : Flex.isArray ⟨b, pos, pw, bw, ty⟩ = true := by
      simp only [Flex.isArray, Flex.isMap, ht, hm, Bool.true_or, Bool.not_false, Bool.and_self]
    have hv : Ref.vector ⟨b, pos, pw, bw, ty⟩ = .ok (0, 0) := by
      rw [Ref.vector, if_neg (by have := h 9 (by omega); have := h 10 (by omega); simp only; omega)]; rfl
    refine ⟨h' 0 (by omega), h' 26 (by omega), ?_, ?_, ?_, h' 5 (by omega), h' 25 (by omega), hm, ha, ?_, ?_, ?_, ?_, ?_, ?_, ?_,
      fun k => ?_, ?_, fun k => ?_, fun i => ?_⟩
    · simp only [Flex.isInt, h' 1 (by omega), h' 6 (by omega)]; rfl
    · simp only [Flex.isUInt, h' 2 (by omega), h' 7 (by omega)]; rfl
    · simp only [Flex.isFloat, h' 3 (by omega), h' 8 (by omega)]; rfl
    · simp only [Flex.asBool, Flex.isBool, h' 26 (by omega)]; rfl
    · simp only [Flex.asInt64, Flex.isInt, h' 1 (by omega), h' 6 (by omega)]; rfl
    · simp only [Flex.asUInt64, Flex.isUInt, h' 2 (by omega), h' 7 (by omega)]; rfl
    · simp only [Flex.asDouble, Flex.isFloat, h' 3 (by omega), h' 8 (by omega)]; rfl
    · simp only [Flex.asString, Flex.isString, h' 5 (by omega)]; rfl
    · simp only [Flex.asBlob, Flex.isBlob, h' 25 (by omega)]; rfl
    · simp only [Flex.mapKeys, Flex.isMap, hm]; rfl
    · simp only [Flex.contains, Flex.isMap, hm]; rfl
    · simp only [Flex.arraySize, ha, hv]; rfl
    · simp only [Flex.getKey, Flex.isMap, hm]; exact rfl
    · have e : Flex.getIdx ⟨b, pos, pw, bw, ty⟩ i = .err .deser := by
        simp only [Flex.getIdx, ha, hv, Res.require_true, Res.ok_bind]; rfl
      have e2 : Doc.getIdx (.vec []) i = .err .deser := by simp [Doc.getIdx, Doc.isArray, Doc.elems]
      rw [e, e2]; rfl
  | str ht hr =>
    cases ht
    refine ⟨rfl, rfl, rfl, rfl, rfl, rfl, rfl, rfl, rfl, rfl, rfl, rfl, rfl, ?_, rfl, rfl, fun _ => rfl, rfl,
      fun _ => rfl, fun _ => rfl⟩
    exact hr
  | key ht =>
    cases ht
    exact ⟨rfl, rfl, rfl, rfl, rfl, rfl, rfl, rfl, rfl, rfl, rfl, rfl, rfl, rfl, rfl, rfl, fun _ => rfl, rfl,
      fun _ => rfl, fun _ => rfl⟩
  | blob ht hr =>
    cases ht
    refine ⟨rfl, rfl, rfl, rfl, rfl, rfl, rfl, rfl, rfl, rfl, rfl, rfl, rfl, rfl, ?_, rfl, fun _ => rfl, rfl,
      fun _ => rfl, fun _ => rfl⟩
    exact hr
  | vec child ht hv he hc =>
    rename_i xs p
    cases ht
    refine ⟨rfl, rfl, rfl, rfl, rfl, rfl, rfl, rfl, rfl, rfl, rfl, rfl, rfl, rfl, rfl, rfl, fun _ => rfl, ?_,
      fun _ => rfl, fun i => ?_⟩
    · show (Ref.vector _ >>= fun x => pure x.2) = _
      rw [hv]; rfl
    · have e : Flex.getIdx ⟨b, pos, pw, bw, 10⟩ i = (if i < xs.length then .ok (child i) else .err .deser) := by
        show (Ref.vector _ >>= fun x => (Res.require (decide (i < x.2)) .deser >>= fun _ => elemAt b x.1 bw x.2 i)) = _
        rw [hv]
        by_cases hi : i < xs.length
        · rw [if_pos hi, ← he i hi]; simp [hi]
        · rw [if_neg hi]; simp [hi]
      rw [e]
      by_cases hi : i < xs.length
      · have e2 : Doc.getIdx (.vec xs) i = .ok xs[i] := by simp [Doc.getIdx, Doc.isArray, Doc.elems, hi]
        rw [if_pos hi, e2]; exact hc i hi
      · have e2 : Doc.getIdx (.vec xs) i = .err .deser := by simp [Doc.getIdx, Doc.isArray, Doc.elems, hi]
        rw [if_neg hi, e2]; rfl
  | map child ht hv hk hn hks he hc =>
    rename_i ms p n kp kw
    cases ht
    have hl : (ms.map Prod.fst).length = ms.length := List.length_map ..
    have hks' : ∀ i (hi : i < (ms.map Prod.fst).length),
        keyAt b kp kw (ms.map Prod.fst).length i = .ok (ms.map Prod.fst)[i] := by
      intro i hi
      rw [hl] at hi ⊢
      rw [hks i hi]; simp
    have hloop := fun k => loop_keys (by rw [hl]; exact hn) hks' k
    rw [hl] at hloop
    refine ⟨rfl, rfl, rfl, rfl, rfl, rfl, rfl, rfl, rfl, rfl, rfl, rfl, rfl, rfl, rfl, ?_, fun k => ?_, rfl,
      fun k => ?_, fun _ => rfl⟩
    · show (Ref.vector _ >>= fun x => (keysAt b x.1 bw >>= fun y => keysFrom b y.1 y.2.1 y.2.2 0 y.2.2)) = _
      rw [hv]
      simp only [Res.ok_bind]
      rw [hk]
      have := keysFrom_all hks' ms.length 0 (by rw [hl]; omega)
      rw [hl] at this
      exact this
    · show (Ref.vector _ >>= fun x => (keysAt b x.1 bw >>= fun y =>
        (loop b y.1 y.2.1 y.2.2 k loopFuel 0 y.2.2 >>= fun f => pure f.isSome))) = _
      rw [hv]
      simp only [Res.ok_bind]
      rw [hk]
      simp only [Res.ok_bind, hloop, Res.pure_eq, Doc.contains, hl]
    · have e : Flex.getKey ⟨b, pos, pw, bw, 9⟩ k =
          (match search (ms.map Prod.fst) k 0 ms.length with
            | some mid => elemAt b p bw n mid
            | none => .err .deser) := by
        show (Ref.vector _ >>= fun x => (keysAt b x.1 bw >>= fun y =>
          (loop b y.1 y.2.1 y.2.2 k loopFuel 0 y.2.2 >>= fun f => match f with
            | some mid => elemAt b x.1 bw x.2 mid
            | none => .err .deser))) = _
        rw [hv]
        simp only [Res.ok_bind]
        rw [hk]
        simp only [Res.ok_bind, hloop]
      rw [e]
      cases hs : search (ms.map Prod.fst) k 0 ms.length with
      | none =>
        have e2 : Doc.getKey (.map ms) k = .err .deser := by simp only [Doc.getKey, hl, hs]
        rw [e2]; rfl
      | some mid =>
        have hm : mid < ms.length := by
          have := search_lt (ks := ms.map Prod.fst) (by rw [hl]; exact hs)
          rwa [hl] at this
        have e2 : Doc.getKey (.map ms) k = .ok ms[mid].2 := by
          simp only [Doc.getKey, hl, hs]; simp [hm]
        rw [e2]
        simp only [he mid hm]
        exact hc mid hm

theorem ResRel.ok_left {α β : Type} {R : α → β → Prop} {a : α} {y : Res β} (h : ResRel R (.ok a) y) :
    ∃ b, y = .ok b ∧ R a b := by
  cases y <;> first | exact ⟨_, rfl, h⟩ | exact h.elim

theorem ResRel.ok_right {α β : Type} {R : α → β → Prop} {b : β} {x : Res α} (h : ResRel R x (.ok b)) :
    ∃ a, x = .ok a ∧ R a b := by
  cases x <;> first | exact ⟨_, rfl, h⟩ | exact h.elim

theorem ResRel.err_right {α β : Type} {R : α → β → Prop} {e : Err} {x : Res α} (h : ResRel R x (.err e)) :
    x = .err e := by
  cases x <;> first | (cases h; rfl) | exact h.elim

/-- What a document presents is presented by every position that holds it. -/
theorem Holds.agrees {p : Prop} {d : Doc} {v : Val} (h : Doc.reader.AgreesW p d v) :
    ∀ {r : Ref}, Holds r d → reader.AgreesW p r v := by
  have shows : ∀ {r : Ref} {d : Doc} {a b c e f g i j : Bool}, Holds r d →
      Doc.reader.Shows d a b c e f g i j → reader.Shows r a b c e f g i j := by
    intro r d a b c e f g i j hr hs
    have S := hr.same
    have : ∀ {x y : Bool}, Res.ok x = Res.ok y → x = y := fun h => by injection h
    obtain ⟨h1, h2, ⟨x, y, h3, h4, h5⟩, h6, h7, h8, h9, h10⟩ := hs
    simp only [Doc.reader, Res.ok.injEq] at h1 h2 h3 h4 h6 h7 h8 h9 h10
    simp only [Reader.Shows, reader, S.isNull, S.isBool, S.isInt, S.isUInt, S.isFloat, S.isString, S.isBlob,
      S.isMap, S.isArray, h1, h2, h3, h4, h6, h7, h8, h9, h10, true_and]
    exact ⟨⟨x, y, rfl, rfl, h5⟩, trivial⟩
  have showsInt : ∀ {r : Ref} {d : Doc} {z : Int}, Holds r d → Doc.reader.ShowsInt d z →
      reader.ShowsInt r z := by
    intro r d z hr hs
    have S := hr.same
    refine ⟨shows hr hs.1, fun h => ?_, fun h => ?_⟩
    · obtain ⟨x, h1, h2⟩ := hs.2.1 (by
        show Res.ok d.isInt = _
        rw [← S.isInt]; exact h)
      exact ⟨x, S.asInt64.trans h1, h2⟩
    · obtain ⟨x, h1, h2⟩ := hs.2.2 (by
        show Res.ok d.isUInt = _
        rw [← S.isUInt]; exact h)
      exact ⟨x, S.asUInt64.trans h1, h2⟩
  have kinds : ∀ {r : Ref} {d : Doc}, Holds r d → reader.isInt r = Doc.reader.isInt d ∧
      reader.isUInt r = Doc.reader.isUInt d := fun hr =>
    ⟨congrArg Res.ok hr.same.isInt, congrArg Res.ok hr.same.isUInt⟩
  induction h with
  | null h1 => intro r hr; exact .null (shows hr h1)
  | bool h1 h2 => intro r hr; exact .bool (shows hr h1) (hr.same.asBool.trans h2)
  | int h1 h2 =>
    intro r hr
    exact .int (showsInt hr h1) fun hp => by rw [(kinds hr).1, (kinds hr).2]; exact h2 hp
  | uint h1 h2 =>
    intro r hr
    exact .uint (showsInt hr h1) fun hp => by rw [(kinds hr).1, (kinds hr).2]; exact h2 hp
  | dbl h1 h2 => intro r hr; exact .dbl (shows hr h1) (hr.same.asDouble.trans h2)
  | str h1 h2 h3 => intro r hr; exact .str (shows hr h1) (hr.same.asString.trans h2) (hr.same.asString.trans h3)
  | blob h1 h2 h3 => intro r hr; exact .blob (shows hr h1) (hr.same.asBlob.trans h2) h3
  | @arr d xs child h1 h2 h3 h4 h5 ih =>
    intro r hr
    have S := hr.same
    have hc : ∀ i, ∃ c, i < xs.length → reader.getIdx r i = .ok c ∧ Holds c (child i) := by
      intro i
      by_cases hi : i < xs.length
      · have := S.getIdx i
        rw [show Doc.getIdx d i = .ok (child i) from h3 i hi] at this
        obtain ⟨c, hc⟩ := this.ok_right
        exact ⟨c, fun _ => hc⟩
      · exact ⟨r, fun h => absurd h hi⟩
    refine .arr (fun i => (hc i).choose) (shows hr h1) (S.arraySize.trans h2)
      (fun i hi => ((hc i).choose_spec hi).1) (fun i hi => ?_) (fun i hi => ih i hi ((hc i).choose_spec hi).2)
    have := S.getIdx i
    rw [show Doc.getIdx d i = .err .deser from h4 i hi] at this
    exact this.err_right
  | @map d ms child h1 h2 h3 h4 h5 h6 ih =>
    intro r hr
    have S := hr.same
    have hc : ∀ k, ∃ c, k ∈ ms.map Prod.fst → reader.getKey r k = .ok c ∧ Holds c (child k) := by
      intro k
      by_cases hk : k ∈ ms.map Prod.fst
      · have := S.getKey k
        rw [show Doc.getKey d k = .ok (child k) from h4 k hk] at this
        obtain ⟨c, hc⟩ := this.ok_right
        exact ⟨c, fun _ => hc⟩
      · exact ⟨r, fun h => absurd h hk⟩
    refine .map (fun k => (hc k).choose) (shows hr h1) (S.mapKeys.trans h2) (fun k => (S.contains k).trans (h3 k))
      (fun k hk => ((hc k).choose_spec hk).1) (fun k hk => ?_)
      (fun k v hv => ih k v hv ((hc k).choose_spec (firstVal_isSome.2 ⟨v, hv⟩)).2)
    have := S.getKey k
    rw [show Doc.getKey d k = .err .deser from h5 k hk] at this
    exact this.err_right

end Zer.Flex
