import Verif.Cbor.Behind
import Verif.Props.MsgPack

/-!
# MessagePack: the byte behind a string

A `Reader` of msgpack.hpp holds a span of its own (msgpack.hpp:151, 233-240), which says nothing about the bytes behind it. Here
spans come with the bytes of the allocation that follow them.
-/

namespace Zer

/-- `R'` is `R` on positions with more to them: `f` forgets it. -/
structure Reader.Over {ρ σ : Type} (R : Reader ρ) (R' : Reader σ) (f : σ → ρ) : Prop where
  isNull : ∀ s, R'.isNull s = R.isNull (f s)
  isBool : ∀ s, R'.isBool s = R.isBool (f s)
  isInt : ∀ s, R'.isInt s = R.isInt (f s)
  isUInt : ∀ s, R'.isUInt s = R.isUInt (f s)
  isFloat : ∀ s, R'.isFloat s = R.isFloat (f s)
  isString : ∀ s, R'.isString s = R.isString (f s)
  isBlob : ∀ s, R'.isBlob s = R.isBlob (f s)
  isMap : ∀ s, R'.isMap s = R.isMap (f s)
  isArray : ∀ s, R'.isArray s = R.isArray (f s)
  asBool : ∀ s, R'.asBool s = R.asBool (f s)
  asInt64 : ∀ s, R'.asInt64 s = R.asInt64 (f s)
  asUInt64 : ∀ s, R'.asUInt64 s = R.asUInt64 (f s)
  asDouble : ∀ s, R'.asDouble s = R.asDouble (f s)
  asString : ∀ s, R'.asString s = R.asString (f s)
  asStringView : ∀ s, R'.asStringView s = R.asStringView (f s)
  asBlob : ∀ s, R'.asBlob s = R.asBlob (f s)
  mapKeys : ∀ s, R'.mapKeys s = R.mapKeys (f s)
  contains : ∀ s k, R'.contains s k = R.contains (f s) k
  arraySize : ∀ s, R'.arraySize s = R.arraySize (f s)
  getKey : ∀ s k, (R'.getKey s k >>= fun c => pure (f c)) = R.getKey (f s) k
  getIdx : ∀ s i, (R'.getIdx s i >>= fun c => pure (f c)) = R.getIdx (f s) i

theorem Res.lift_ok {α β : Type} {x : Res α} {f : α → β} {y : β} (h : (x >>= fun c => pure (f c)) = .ok y) :
    ∃ c, x = .ok c ∧ f c = y := by
  obtain ⟨c, h1, h2⟩ := Res.bind_eq_ok.1 h
  injection h2 with h2
  exact ⟨c, h1, h2⟩

theorem Res.lift_err {α β : Type} {x : Res α} {f : α → β} {e : Err} (h : (x >>= fun c => pure (f c)) = .err e) : x = .err e := by
  cases x with
  | ok a => cases h
  | err a => injection (show (Res.err a : Res β) = .err e from h) with h; subst h; rfl
  | ub => cases h
  | diverge => cases h

namespace Reader.Over
variable {ρ σ : Type} {R : Reader ρ} {R' : Reader σ} {f : σ → ρ}

theorem shows (O : R.Over R' f) {s : σ} {a b c d e g h i : Bool} (H : R.Shows (f s) a b c d e g h i) : R'.Shows s a b c d e g h i := by
  unfold Reader.Shows at H ⊢
  rw [O.isNull, O.isBool, O.isInt, O.isUInt, O.isFloat, O.isString, O.isBlob, O.isMap, O.isArray]
  exact H

theorem showsInt (O : R.Over R' f) {s : σ} {z : Int} (H : R.ShowsInt (f s) z) : R'.ShowsInt s z := by
  refine ⟨O.shows H.1, ?_, ?_⟩
  · rw [O.isInt, O.asInt64]; exact H.2.1
  · rw [O.isUInt, O.asUInt64]; exact H.2.2

/-- The reader presents what the other one presents. -/
theorem agrees (O : R.Over R' f) {p : Prop} {r : ρ} {v : Val} (H : R.AgreesW p r v) : ∀ s, f s = r → R'.AgreesW p s v := by
  induction H with
  | null h => rintro s rfl; exact .null (O.shows h)
  | bool h h' => rintro s rfl; exact .bool (O.shows h) (by rw [O.asBool]; exact h')
  | int h h' => rintro s rfl; exact .int (O.showsInt h) (fun k => by rw [O.isInt, O.isUInt]; exact h' k)
  | uint h h' => rintro s rfl; exact .uint (O.showsInt h) (fun k => by rw [O.isInt, O.isUInt]; exact h' k)
  | dbl h h' => rintro s rfl; exact .dbl (O.shows h) (by rw [O.asDouble]; exact h')
  | str h h' h'' => rintro s rfl; exact .str (O.shows h) (by rw [O.asString]; exact h') (by rw [O.asStringView]; exact h'')
  | blob h h' h'' => rintro s rfl; exact .blob (O.shows h) (by rw [O.asBlob]; exact h') h''
  | @arr r xs child h1 h2 h3 h4 _ ih =>
    rintro s rfl
    have hc : ∀ i, ∃ d, ∀ hi : i < xs.length, R'.getIdx s i = .ok d ∧ f d = child i := by
      intro i
      by_cases hi : i < xs.length
      · obtain ⟨d, k1, k2⟩ := Res.lift_ok ((O.getIdx s i).trans (h3 i hi))
        exact ⟨d, fun _ => ⟨k1, k2⟩⟩
      · exact ⟨s, fun h => (hi h).elim⟩
    refine .arr (fun i => (hc i).choose) (O.shows h1) (by rw [O.arraySize]; exact h2) (fun i hi => ((hc i).choose_spec hi).1)
      (fun i hi => Res.lift_err ((O.getIdx s i).trans (h4 i hi))) (fun i hi => ih i hi _ ((hc i).choose_spec hi).2)
  | @map r ms child h1 h2 h3 h4 h5 _ ih =>
    rintro s rfl
    have hc : ∀ k, ∃ d, ∀ hk : k ∈ ms.map Prod.fst, R'.getKey s k = .ok d ∧ f d = child k := by
      intro k
      by_cases hk : k ∈ ms.map Prod.fst
      · obtain ⟨d, k1, k2⟩ := Res.lift_ok ((O.getKey s k).trans (h4 k hk))
        exact ⟨d, fun _ => ⟨k1, k2⟩⟩
      · exact ⟨s, fun h => (hk h).elim⟩
    refine .map (fun k => (hc k).choose) (O.shows h1) (by rw [O.mapKeys]; exact h2) (fun k => by rw [O.contains]; exact h3 k)
      (fun k hk => ((hc k).choose_spec hk).1)
      (fun k hk => Res.lift_err ((O.getKey s k).trans (h5 k hk))) (fun k v hv => ih k v hv _ ((hc k).choose_spec ?_).2)
    exact firstVal_isSome.2 ⟨v, hv⟩

end Reader.Over

namespace MsgPack

/-- A span (`view_`, msgpack.hpp:151) and the bytes behind it in its allocation. -/
structure Span where
  view : Bytes
  tail : Bytes

/-- `v.first(n)` of a span followed by `tail`. -/
def firstS (v tail : Bytes) (n : Nat) : Res Span := do
  let c ← first v n
  pure ⟨c, v.drop n ++ tail⟩

/-- `operator[](size_t)`, msgpack.hpp:479-485: the same steps, on spans with their tails. -/
def Span.getIdx (s : Span) (idx : Nat) : Res Span := do
  let (n, off) ← arrInfo s.view
  Res.require (decide (idx < n)) .deser
  let off ← skipLoop skip s.view idx off
  let w ← subspan s.view off
  let sz ← skip w
  firstS w s.tail sz

/-- Loop of `operator[](string_view)`, msgpack.hpp:459-470: the same steps, on spans with their tails. -/
def getKeyFromS (v tail key : Bytes) : Nat → Nat → Res Span
  | 0, _ => .err .deser
  | n + 1, off => do
    let ks ← subspan v off
    let ksz ← skip ks
    let kd ← first ks ksz
    let vs ← subspan v (off + ksz)
    let vsz ← skip vs
    let hit ← keyHit kd key
    if hit then firstS vs tail vsz
    else getKeyFromS v tail key n (off + ksz + vsz)

/-- `operator[](string_view)`, msgpack.hpp:456-472: the same steps, on spans with their tails. -/
def Span.getKey (s : Span) (key : Bytes) : Res Span := do
  Res.require (isMap s.view) .deser
  let (n, off) ← mapInfo s.view
  getKeyFromS s.view s.tail key n off

/-- The byte behind the view that `asStringView` returns, msgpack.hpp:360-363. -/
def Span.behind (s : Span) : Res UInt8 :=
  match strInfo s.view with
  | .ok (p, n) => match (s.view ++ s.tail)[p + n]? with
    | some c => .ok c
    | none => .ub
  | _ => .ub

/-- The reader, its spans with their tails. -/
def readerS : Reader Span where
  isNull s := reader.isNull s.view
  isBool s := reader.isBool s.view
  isInt s := reader.isInt s.view
  isUInt s := reader.isUInt s.view
  isFloat s := reader.isFloat s.view
  isString s := reader.isString s.view
  isBlob s := reader.isBlob s.view
  isMap s := reader.isMap s.view
  isArray s := reader.isArray s.view
  asBool s := reader.asBool s.view
  asInt64 s := reader.asInt64 s.view
  asUInt64 s := reader.asUInt64 s.view
  asDouble s := reader.asDouble s.view
  asString s := reader.asString s.view
  asStringView s := reader.asStringView s.view
  asBlob s := reader.asBlob s.view
  mapKeys s := reader.mapKeys s.view
  contains s := reader.contains s.view
  arraySize s := reader.arraySize s.view
  getKey := Span.getKey
  getIdx := Span.getIdx

theorem firstS_view (v t : Bytes) (n : Nat) : (firstS v t n >>= fun c => pure c.view) = first v n := by
  unfold firstS
  cases first v n <;> rfl

theorem getKeyFromS_view (v t key : Bytes) : ∀ n off,
    (getKeyFromS v t key n off >>= fun c => pure c.view) = getKeyFrom v key n off
  | 0, _ => rfl
  | n + 1, off => by
    simp only [getKeyFromS, getKeyFrom, bind_assoc]
    congr 1; funext ks
    congr 1; funext ksz
    congr 1; funext kd
    congr 1; funext vs
    congr 1; funext vsz
    congr 1; funext hit
    split
    · exact firstS_view _ _ _
    · exact getKeyFromS_view v t key n _

/-- Forgetting the tails gives the reader of `Model.lean`. -/
theorem readerS_over : reader.Over readerS Span.view where
  isNull _ := rfl
  isBool _ := rfl
  isInt _ := rfl
  isUInt _ := rfl
  isFloat _ := rfl
  isString _ := rfl
  isBlob _ := rfl
  isMap _ := rfl
  isArray _ := rfl
  asBool _ := rfl
  asInt64 _ := rfl
  asUInt64 _ := rfl
  asDouble _ := rfl
  asString _ := rfl
  asStringView _ := rfl
  asBlob _ := rfl
  mapKeys _ := rfl
  contains _ _ := rfl
  arraySize _ := rfl
  getKey s k := by
    show (s.getKey k >>= _) = getKey s.view k
    simp only [Span.getKey, getKey, bind_assoc]
    congr 1; funext _
    congr 1; funext ⟨n, off⟩
    exact getKeyFromS_view _ _ _ _ _
  getIdx s i := by
    show (s.getIdx i >>= _) = getIdx s.view i
    simp only [Span.getIdx, getIdx, bind_assoc]
    congr 1; funext ⟨n, off⟩
    simp only [bind_assoc]
    congr 1; funext _
    congr 1; funext _
    congr 1; funext _
    congr 1; funext _
    exact firstS_view _ _ _

theorem Span.behind_cases (r : Span) : r.behind = .ub ∨ ∃ b, r.behind = .ok b := by
  unfold Span.behind
  split
  · split
    · exact .inr ⟨_, rfl⟩
    · exact .inl rfl
  · exact .inl rfl

theorem firstS_append (a b t : Bytes) : firstS (a ++ b) t a.length = .ok ⟨a, b ++ t⟩ := by
  simp [firstS, first_append]

/-- An element and what follows it. -/
theorem getIdxS_chunks {h : Bytes} {cs : List Bytes} (H : ArrHead cs.length h)
    (hc : ∀ c ∈ cs, Elem Lim c) (rest t : Bytes) {i : Nat} (hi : i < cs.length) :
    Span.getIdx ⟨h ++ cs.flatten ++ rest, t⟩ i = .ok ⟨cs[i], (cs.drop (i + 1)).flatten ++ rest ++ t⟩ := by
  have e1 : h ++ cs.flatten ++ rest = h ++ (cs.flatten ++ rest) := by simp
  have e2 : cs.flatten = (cs.take i).flatten ++ (cs[i] ++ (cs.drop (i + 1)).flatten) := by
    rw [← List.flatten_cons, ← List.flatten_append, List.getElem_cons_drop, List.take_append_drop]
  have hl : skipLoop skip (h ++ (cs.flatten ++ rest)) i h.length =
      .ok (h.length + (cs.take i).flatten.length) := by
    have := skipLoop_chunks (rec := skip) (cs.take i) h
      (cs[i] ++ (cs.drop (i + 1)).flatten ++ rest)
      (fun c hc' t => (hc c (List.mem_of_mem_take hc')).skip t)
    rw [List.length_take, Nat.min_eq_left (by omega)] at this
    rw [← this]
    congr 1
    rw [e2]; simp
  simp only [Span.getIdx, e1, arrInfo_head H, Res.ok_bind, decide_eq_true hi, Res.require_true, hl]
  have e3 : h ++ (cs.flatten ++ rest) =
      (h ++ (cs.take i).flatten) ++ (cs[i] ++ ((cs.drop (i + 1)).flatten ++ rest)) := by
    rw [e2]; simp
  have e4 : h.length + (cs.take i).flatten.length = (h ++ (cs.take i).flatten).length := by simp
  rw [e3, e4, subspan_append]
  simp only [Res.ok_bind]
  rw [(hc _ (List.getElem_mem hi)).skip]
  simp only [Res.ok_bind, firstS_append]

theorem Elem.ne_nil {L : Nat} {c : Bytes} (h : Elem L c) : c ≠ [] := by
  have h1 : ∀ {n h}, StrHead n h → h ≠ [] := by rintro n h (_ | _ | _ | _) <;> simp
  have h2 : ∀ {n h}, BinHead n h → h ≠ [] := by rintro n h (_ | _ | _) <;> simp
  have h3 : ∀ {n h}, ArrHead n h → h ≠ [] := by rintro n h (_ | _ | _) <;> simp
  have h4 : ∀ {n h}, MapHead n h → h ≠ [] := by rintro n h (_ | _ | _) <;> simp
  cases h with
  | single _ => simp
  | fixed _ => simp
  | str h _ => intro e; exact h1 h (List.append_eq_nil_iff.1 e).1
  | bin h _ => intro e; exact h2 h (List.append_eq_nil_iff.1 e).1
  | arr h _ => intro e; exact h3 h (List.append_eq_nil_iff.1 e).1
  | map h _ _ => intro e; exact h4 h (List.append_eq_nil_iff.1 e).1

/-- The value of a key, and what follows it: nothing exactly if it belongs to the last entry, which nothing follows. -/
theorem getKeyFromS_ok {key : Bytes} {w : Val} : ∀ (ms : List (Bytes × Val)) (cs : List Bytes)
    (pre rest t : Bytes), Val.Below.belowEntries Lim ms → EncEntries ms cs → firstVal ms key = some w →
    ∃ c t', Enc w c ∧ getKeyFromS (pre ++ (cs.flatten ++ rest)) t key ms.length pre.length = .ok ⟨c, t'⟩ ∧
      (t' = [] ↔ lastHit key ms ∧ rest ++ t = [])
  | [], cs, pre, rest, t, _, h, hw => by simp [firstVal] at hw
  | (k, v) :: ms, cs, pre, rest, t, hb, h, hw => by
    simp only [EncEntries] at h
    simp only [Val.Below.belowEntries] at hb
    obtain ⟨hd, c, cs', H, hc, hcs, rfl⟩ := h
    have E1 : Elem Lim (hd ++ k) := .str H hb.1
    have E2 : Elem Lim c := Enc.elem v hb.2.1 hc
    have e : ((hd ++ k) :: c :: cs').flatten ++ rest = (hd ++ k) ++ (c ++ (cs'.flatten ++ rest)) := by
      simp
    have e' : pre ++ ((hd ++ k) ++ (c ++ (cs'.flatten ++ rest))) =
        (pre ++ (hd ++ k)) ++ (c ++ (cs'.flatten ++ rest)) := by simp
    have e'' : pre.length + (hd ++ k).length = (pre ++ (hd ++ k)).length := by simp
    have step : getKeyFromS (pre ++ (((hd ++ k) :: c :: cs').flatten ++ rest)) t key
        (ms.length + 1) pre.length =
        if k = key then .ok ⟨c, cs'.flatten ++ rest ++ t⟩ else getKeyFromS ((pre ++ (hd ++ k) ++ c) ++ (cs'.flatten ++ rest)) t key
          ms.length (pre ++ (hd ++ k) ++ c).length := by
      simp only [getKeyFromS, subspan_append, Res.ok_bind]
      rw [e, E1.skip]
      simp only [Res.ok_bind, first_append]
      rw [e', e'', subspan_append]
      simp only [Res.ok_bind]
      rw [E2.skip]
      simp only [Res.ok_bind, keyHit_str H, firstS_append]
      by_cases hk : k = key
      · simp [hk]
      · simp [hk, Nat.add_assoc]
    simp only [List.length_cons, step]
    by_cases hk : k = key
    · rw [if_pos hk]
      simp only [firstVal, if_pos hk] at hw
      injection hw with hw; subst hw
      refine ⟨c, _, hc, rfl, ?_⟩
      have hm : cs'.flatten = [] ↔ ms = [] := by
        constructor
        · intro hf
          cases ms with
          | nil => rfl
          | cons m ms =>
            obtain ⟨k', v'⟩ := m
            simp only [EncEntries] at hcs
            obtain ⟨hd', c', cs'', H', hc', _, rfl⟩ := hcs
            simp only [Val.Below.belowEntries] at hb
            have := (Elem.str (L := Lim) H' hb.2.2.1).ne_nil
            simp only [List.flatten_cons, List.append_eq_nil_iff] at hf
            exact (this (List.append_eq_nil_iff.2 hf.1)).elim
        · rintro rfl
          simp only [EncEntries] at hcs
          simp [hcs]
      simp only [List.append_eq_nil_iff, hm, lastHit, hk, true_and, ne_eq, not_true_eq_false, false_and, or_false, and_assoc]
    · rw [if_neg hk]
      simp only [firstVal, if_neg hk] at hw
      obtain ⟨c', t', h1, h2, h3⟩ := getKeyFromS_ok ms cs' (pre ++ (hd ++ k) ++ c) rest t hb.2.2 hcs hw
      refine ⟨c', t', h1, h2, ?_⟩
      rw [h3]
      simp only [lastHit, hk, false_and, false_or, ne_eq, not_false_eq_true, true_and]

theorem getKeyS_ok {ms : List (Bytes × Val)} {cs : List Bytes} {h : Bytes} (H : MapHead ms.length h)
    (hb : Val.Below.belowEntries Lim ms) (hc : EncEntries ms cs) (rest t : Bytes) {key : Bytes} {w : Val} (hw : firstVal ms key = some w) :
    ∃ c t', Enc w c ∧ Span.getKey ⟨h ++ cs.flatten ++ rest, t⟩ key = .ok ⟨c, t'⟩ ∧ (t' = [] ↔ lastHit key ms ∧ rest ++ t = []) := by
  obtain ⟨c, t', h1, h2, h3⟩ := getKeyFromS_ok ms cs h rest t hb hc hw
  refine ⟨c, t', h1, ?_, h3⟩
  have hs := shows_map H (cs.flatten ++ rest)
  have hm : isMap (h ++ (cs.flatten ++ rest)) = true := by
    have := hs.2.2.2.2.2.2.1; injection this
  simp only [Span.getKey, List.append_assoc, hm, Res.require_true, Res.ok_bind, mapInfo_head H]
  exact h2

theorem behind_str {s h : Bytes} (H : StrHead s.length h) (rest t : Bytes) :
    (rest ++ t ≠ [] → ∃ c, Span.behind ⟨h ++ s ++ rest, t⟩ = .ok c) ∧ (rest ++ t = [] → Span.behind ⟨h ++ s ++ rest, t⟩ = .ub) := by
  have e : h ++ s ++ rest ++ t = (h ++ s) ++ (rest ++ t) := by simp
  simp only [Span.behind, List.append_assoc h s, strInfo_head H]
  rw [← List.append_assoc h s, e, show h.length + s.length = (h ++ s).length by simp,
    List.getElem?_append_right (Nat.le_refl _), Nat.sub_self]
  generalize rest ++ t = u
  constructor
  · intro hu
    cases u with
    | nil => exact (hu rfl).elim
    | cons c u => exact ⟨c, rfl⟩
  · rintro rfl; rfl

/-- Every string has a byte behind it if something follows the value, or it does not end in a string. -/
theorem Enc.allBehind : ∀ (w : Val) {b : Bytes} (rest t : Bytes), w.Below Lim → Enc w b →
    rest ++ t ≠ [] ∨ w.endsInStr = false → readerS.AllBehind Span.behind ⟨b ++ rest, t⟩ := by
  intro w
  induction w using Val.ind with
  | str s =>
    intro b rest t hb he h c x hc hx
    have hag : readerS.Agrees _ _ := readerS_over.agrees (agrees_of_enc _ b rest hb he) ⟨b ++ rest, t⟩ rfl
    simp only [Enc] at he
    obtain ⟨hd, H, rfl⟩ := he
    rcases hc.head with rfl | ⟨xs, i, d, a, _⟩ | ⟨ms, k, d, a, _⟩
    · rcases h with h | h
      · exact (behind_str H rest t).1 h
      · simp [Val.endsInStr] at h
    · have := hag.kind_unique a; simp [Val.kind] at this
    · have := hag.kind_unique a; simp [Val.kind] at this
  | arr xs ih =>
    intro b rest t hb he h c x hc hx
    have hag : readerS.Agrees _ _ := readerS_over.agrees (agrees_of_enc _ b rest hb he) ⟨b ++ rest, t⟩ rfl
    simp only [Enc] at he
    obtain ⟨hd, cs, H, hcs, rfl⟩ := he
    have hb' : Val.Below.belowList Lim xs := by simpa only [Val.Below] using hb
    obtain ⟨h1, h2⟩ := EncList.elem xs hb' hcs
    obtain ⟨_, h3⟩ := EncList.get hcs
    rcases hc.head with rfl | ⟨ys, i, d, a, hlt, e, g⟩ | ⟨ms, k, d, a, _⟩
    · have := hag.kind_unique hx; simp [Val.kind] at this
    · have hl' : ys.length = xs.length := by
        cases a with | arr _ _ hn' =>
        cases hag with | arr _ _ hn => rw [hn] at hn'; injection hn' with hn'; exact hn'.symm
      have hlt' : i < xs.length := by omega
      have hi : i < cs.length := by omega
      have := getIdxS_chunks (h1 ▸ H) h2 rest t hi
      rw [show Span.getIdx _ i = _ from e] at this
      injection this with this; subst this
      refine ih xs[i] (List.getElem_mem _) (b := cs[i]) [] _ ((Val.belowList_iff xs).1 hb' _ (List.getElem_mem _)) (h3 i hlt' hi) ?_ c x
        (by rw [List.append_nil]; exact g) hx
      by_cases hend : i + 1 = xs.length
      · rcases h with h | h
        · refine .inl fun hn => h ?_
          simp only [List.nil_append, List.append_assoc] at hn
          exact (List.append_eq_nil_iff.1 hn).2
        · rw [Val.endsInStr, Val.endsInStrL_last hlt' hend] at h
          exact .inr h
      · refine .inl fun hn => ?_
        have hi1 : i + 1 < cs.length := by omega
        rw [List.drop_eq_getElem_cons hi1] at hn
        simp only [List.flatten_cons, List.append_eq_nil_iff] at hn
        exact (h2 _ (List.getElem_mem hi1)).ne_nil hn.2.1.1.1
    · have := hag.kind_unique a; simp [Val.kind] at this
  | map ms ih =>
    intro b rest t hb he h c x hc hx
    have hag : readerS.Agrees _ _ := readerS_over.agrees (agrees_of_enc _ b rest hb he) ⟨b ++ rest, t⟩ rfl
    simp only [Enc] at he
    obtain ⟨hd, cs, H, hcs, rfl⟩ := he
    have hb' : Val.Below.belowEntries Lim ms := by simpa only [Val.Below] using hb
    rcases hc.head with rfl | ⟨ys, i, d, a, _⟩ | ⟨ms', k, d, a, hk, e, g⟩
    · have := hag.kind_unique hx; simp [Val.kind] at this
    · have := hag.kind_unique a; simp [Val.kind] at this
    · have hl' : ms'.map Prod.fst = ms.map Prod.fst := by
        cases a with | map _ _ hn' =>
        cases hag with | map _ _ hn => rw [hn] at hn'; injection hn' with hn'; exact hn'.symm
      obtain ⟨w, hw⟩ := firstVal_isSome.1 (hl' ▸ hk)
      obtain ⟨cw, t', k1, k2, k3⟩ := getKeyS_ok H hb' hcs rest t hw
      rw [show Span.getKey _ k = _ from e] at k2
      injection k2 with k2; subst k2
      have hmem := firstVal_mem hw
      refine ih (k, w) hmem (b := cw) [] t' ((Val.belowEntries_iff ms).1 hb' _ hmem).2 k1 ?_ c x (by rw [List.append_nil]; exact g) hx
      simp only [List.nil_append, ne_eq, k3]
      by_cases hend : lastHit k ms
      · rcases h with h | h
        · exact .inl fun hn => h hn.2
        · rw [Val.endsInStr, lastHit_ends hend hw] at h
          exact .inr h
      · exact .inl fun hn => hend hn.1
  | _ =>
    intro b rest t hb he h c x hc hx
    have hag : readerS.Agrees _ _ := readerS_over.agrees (agrees_of_enc _ b rest hb he) ⟨b ++ rest, t⟩ rfl
    rcases hc.head with rfl | ⟨xs, i, d, a, _⟩ | ⟨ms, k, d, a, _⟩
    · have := hag.kind_unique hx; simp [Val.kind] at this
    · have := hag.kind_unique a; simp [Val.kind] at this
    · have := hag.kind_unique a; simp [Val.kind] at this

/-- A string at the very end of the allocation is visited, and has no byte behind it. -/
theorem Enc.noneBehind : ∀ (w : Val) {b : Bytes}, w.Below Lim → Enc w b → w.Distinct →
    w.endsInStr = true → ∃ c x, readerS.Visits ⟨b, []⟩ c ∧ readerS.Agrees c (.str x) ∧ c.behind = .ub := by
  intro w
  induction w using Val.ind with
  | str s =>
    intro b hb he _ _
    have hag : readerS.Agrees ⟨b, []⟩ _ := readerS_over.agrees (agrees_of_enc _ b [] hb he) ⟨b, []⟩ (by simp)
    simp only [Enc] at he
    obtain ⟨hd, H, rfl⟩ := he
    have := (behind_str H [] []).2 rfl
    rw [List.append_nil] at this
    exact ⟨_, s, .refl, hag, this⟩
  | arr xs ih =>
    intro b hb he hd' hw
    have hag : readerS.Agrees ⟨b, []⟩ _ := readerS_over.agrees (agrees_of_enc _ b [] hb he) ⟨b, []⟩ (by simp)
    simp only [Enc] at he
    obtain ⟨hd, cs, H, hcs, rfl⟩ := he
    have hb' : Val.Below.belowList Lim xs := by simpa only [Val.Below] using hb
    obtain ⟨h1, h2⟩ := EncList.elem xs hb' hcs
    obtain ⟨_, h3⟩ := EncList.get hcs
    have hne : 0 < xs.length := by
      cases xs with
      | nil => simp [Val.endsInStr, Val.endsInStrL] at hw
      | cons => simp
    have hlt : xs.length - 1 < xs.length := by omega
    have hi : xs.length - 1 < cs.length := by omega
    have e := getIdxS_chunks (h1 ▸ H) h2 [] [] hi
    rw [List.append_nil, List.append_nil, List.append_nil, List.drop_eq_nil_of_le (by omega)] at e
    rw [Val.endsInStr, Val.endsInStrL_last hlt (by omega)] at hw
    obtain ⟨c, x, k1, k2, k3⟩ := ih xs[xs.length - 1] (List.getElem_mem _) ((Val.belowList_iff xs).1 hb' _ (List.getElem_mem _))
      (h3 _ hlt hi) ((Val.distinctList_iff xs).1 hd' _ (List.getElem_mem _)) hw
    exact ⟨c, x, .trans (.elem .refl hag hlt e) k1, k2, k3⟩
  | map ms ih =>
    intro b hb he hd' hw
    have hag : readerS.Agrees ⟨b, []⟩ _ := readerS_over.agrees (agrees_of_enc _ b [] hb he) ⟨b, []⟩ (by simp)
    simp only [Enc] at he
    obtain ⟨hd, cs, H, hcs, rfl⟩ := he
    have hb' : Val.Below.belowEntries Lim ms := by simpa only [Val.Below] using hb
    obtain ⟨k, w, e1, e2, e3⟩ := lastHit_exists hd'.1 hw
    obtain ⟨cw, t', k1, k2, k3⟩ := getKeyS_ok H hb' hcs [] [] e2
    rw [List.append_nil] at k2
    obtain rfl := k3.2 ⟨e1, rfl⟩
    have hmem := firstVal_mem e2
    obtain ⟨c, x, j1, j2, j3⟩ := ih (k, w) hmem ((Val.belowEntries_iff ms).1 hb' _ hmem).2 k1 ((Val.distinctEntries_iff ms).1 hd'.2 _ hmem) e3
    exact ⟨c, x, .trans (.entry .refl hag (firstVal_isSome.2 ⟨w, e2⟩) k2) j1, j2, j3⟩
  | _ => intro b hb he _ hw; simp [Val.endsInStr] at hw

end MsgPack
end Zer
