import Verif.Props.Dyn
import Verif.Props.Route

/-!
# Property C111: a literal names the same member when writing and when reading

Keys are written as literals in three places: `zmap<"k">(x)` (zbuilders.hpp:86-123) takes them as `fixed_string`s
(internals/fixed_string.hpp), `dyn::map({{"k", x}})` (dynamic.hpp:178-180) as `std::string`s, and `d["k"]` (`operator[](std::string_view)` of all
readers) as a `std::string_view` made from a `const char*`. The first goes by the size of the array, the other two by the first NUL.
-/

namespace Zer.Dyn

/-- The array of a string literal, with its NUL. -/
def lit (s : Bytes) : Bytes := s ++ [0]

/-- `fixed_string<N>`, fixed_string.hpp:24-27: the `N` characters. -/
structure FixedString where
  data : Bytes

/-- `fixed_string(const char (&s)[N])`, fixed_string.hpp:31-33: `data` starts as NULs, then every character is copied. -/
def FixedString.make (s : Bytes) : FixedString :=
  ⟨(List.range s.length).foldl (fun d i => d.set i (s.getD i 0)) (List.replicate s.length 0)⟩

/-- `view()`, fixed_string.hpp:36: `{data, N - 1}`. -/
def FixedString.view (k : FixedString) : Bytes := k.data.take (k.data.length - 1)

/-- `zmap<Keys...>(xs...)`, zbuilders.hpp:86-123: does not compile (`none`) unless there are as many keys as values (line 89). -/
def zmapOf (ks : List FixedString) (xs : List Src) : Option Src :=
  if ks.length = xs.length then some (.zmap ((ks.map FixedString.view).zip xs)) else none

/-- `dyn::map({{"k", x}, ...})`, dynamic.hpp:178-180: the keys are `std::string`s made from `const char*`. -/
def dynMapOf : List (Bytes × DVal) → Res (List (Bytes × DVal))
  | [] => .ok []
  | (k, x) :: ms => do
    let k ← strlen (some k)
    let ms ← dynMapOf ms
    pure ((k, x) :: ms)

/-- `d["k"]`: a `std::string_view` made from a `const char*`, then `operator[](std::string_view)`. -/
def _root_.Zer.Reader.getLit {ρ : Type} (R : Reader ρ) (r : ρ) (mem : Bytes) : Res ρ := strlen (some mem) >>= R.getKey r

theorem copy_all (s : Bytes) : ∀ n, n ≤ s.length →
    (List.range n).foldl (fun d i => d.set i (s.getD i 0)) (List.replicate s.length 0) = s.take n ++ List.replicate (s.length - n) 0 := by
  intro n
  induction n with
  | zero => intro _; simp
  | succ n ih =>
    intro h
    rw [List.range_succ, List.foldl_append, ih (by omega), List.foldl_cons, List.foldl_nil]
    have e : s.length - n = (s.length - (n + 1)) + 1 := by omega
    rw [e, List.replicate_succ, List.set_append_right _ _ (by rw [List.length_take]; omega)]
    rw [List.length_take, Nat.min_eq_left (by omega), Nat.sub_self, List.set_cons_zero]
    rw [List.take_succ_eq_append_getElem (show n < s.length by omega)]
    simp only [List.getD, List.getElem?_eq_getElem (show n < s.length by omega), Option.getD_some, List.append_assoc, List.singleton_append]

theorem FixedString.make_data (s : Bytes) : (FixedString.make s).data = s := by
  have := copy_all s s.length (Nat.le_refl _)
  rw [Nat.sub_self, List.take_length, List.replicate_zero, List.append_nil] at this
  exact this

/-- The key of a literal is the text of the literal, NULs inside it included. -/
theorem FixedString.view_lit (s : Bytes) : (FixedString.make (lit s)).view = s := by
  simp [FixedString.view, FixedString.make_data, lit]

theorem strlen_lit {s : Bytes} (h : (0 : UInt8) ∉ s) : strlen (some (lit s)) = .ok s := by
  have h' : ∀ x ∈ s, decide (x ≠ 0) = true := fun x hx => by
    simp only [decide_eq_true_eq]; rintro rfl; exact h hx
  rw [strlen_ok (by simp [lit]), lit, List.takeWhile_append_of_pos h']
  simp

theorem views_lit (ts : List Bytes) : (ts.map fun t => FixedString.make (lit t)).map FixedString.view = ts := by
  rw [List.map_map]
  conv => rhs; rw [← List.map_id ts]
  exact List.map_congr_left fun t _ => FixedString.view_lit t

theorem valEntries_zip : ∀ (ts : List Bytes) (xs : List Src), Src.valEntries (ts.zip xs) = ts.zip (xs.map Src.val)
  | [], _ => by simp [Src.valEntries]
  | _ :: _, [] => by simp [Src.valEntries]
  | t :: ts, x :: xs => by simp [Src.valEntries, valEntries_zip ts xs]

/-- C111, writing: with as many literals as values, and only then, the builder compiles; it makes the map whose keys are the texts of the
literals, NULs included, in their order, each with its value. -/
theorem c111_builder (ts : List Bytes) (xs : List Src) :
    (ts.length ≠ xs.length → zmapOf (ts.map fun t => .make (lit t)) xs = none) ∧
    (ts.length = xs.length → ∃ x, zmapOf (ts.map fun t => .make (lit t)) xs = some x ∧ x.val = .map (ts.zip (xs.map Src.val)) ∧
      (ts.zip (xs.map Src.val)).map Prod.fst = ts ∧ (ts.zip (xs.map Src.val)).map Prod.snd = xs.map Src.val ∧ ((∀ y ∈ xs, y.Ok) → x.Ok)) := by
  constructor
  · intro h; simp [zmapOf, h]
  · intro h
    refine ⟨.zmap (((ts.map fun t => FixedString.make (lit t)).map FixedString.view).zip xs), by
      rw [zmapOf, if_pos (by rw [List.length_map]; exact h)], ?_, ?_, ?_, ?_⟩
    · rw [views_lit]; simp only [Src.val, valEntries_zip]
    · rw [List.map_fst_zip (by simp; omega)]
    · rw [List.map_snd_zip (by simp; omega)]
    · rw [views_lit]
      intro hy
      simp only [Src.Ok]
      have : ∀ (us : List Bytes) (ys : List Src), (∀ y ∈ ys, y.Ok) → Src.okEntries (us.zip ys) := by
        intro us
        induction us with
        | nil => intro ys _; simp [Src.okEntries]
        | cons u us ih =>
          intro ys hys
          cases ys with
          | nil => simp [Src.okEntries]
          | cons y ys => exact ⟨hys y (by simp), ih ys fun z hz => hys z (by simp [hz])⟩
      exact this ts xs hy

theorem firstVal_zip : ∀ (ts : List Bytes) (vs : List Val) (i : Nat) (h : i < ts.length) (h' : i < vs.length),
    (∀ j (hj : j < i), ts[j] ≠ ts[i]) → firstVal (ts.zip vs) ts[i] = some vs[i] := by
  intro ts
  induction ts with
  | nil => intro vs i h; simp at h
  | cons t ts ih =>
    intro vs i h h' hne
    cases vs with
    | nil => simp at h'
    | cons v vs =>
      cases i with
      | zero => simp [firstVal]
      | succ i =>
        have h0 := hne 0 (by omega)
        simp only [List.getElem_cons_zero, List.getElem_cons_succ] at h0
        simp only [List.zip_cons_cons, firstVal, List.getElem_cons_succ, if_neg h0]
        refine ih vs i (by simpa using h) (by simpa using h') fun j hj => ?_
        have := hne (j + 1) (by omega)
        simpa using this

/-- C111, reading: what was written under a literal without NULs inside is found with the same literal, the first one of equal ones. Missing: literals with
NULs inside, and arrays that are not literals (`c111_literal_refuted`). -/
theorem c111_literal_partial {P : Proto} {p : Prop} {D : Val → Prop} (hP : P.RoundTrips p D) {ts : List Bytes} {xs : List Src} {x : Src}
    (hx : zmapOf (ts.map fun t => .make (lit t)) xs = some x) (ho : ∀ y ∈ xs, y.Ok) (hD : D x.val) {b : Bytes}
    (hb : serialize P x = .ok b) :
    ∃ r, P.opn b = .ok r ∧ ∀ (i : Nat) (h : i < ts.length) (h' : i < xs.length), (∀ j (hj : j < i), ts[j] ≠ ts[i]) → (0 : UInt8) ∉ ts[i] →
      ∃ c, P.reader.getLit r (lit ts[i]) = .ok c ∧ P.reader.AgreesW p c xs[i].val := by
  have hl : ts.length = xs.length := by
    by_cases h : ts.length = xs.length
    · exact h
    · rw [(c111_builder ts xs).1 h] at hx; cases hx
  obtain ⟨x', h1, h2, -, -, h3⟩ := (c111_builder ts xs).2 hl
  rw [hx] at h1; cases h1
  rw [(c36_same_bytes P (h3 ho) (h3 ho) rfl).2] at hb
  obtain ⟨r, k1, k2⟩ := hP _ b hD hb
  refine ⟨r, k1, fun i h h' hne h0 => ?_⟩
  have hv := firstVal_zip ts (xs.map Src.val) i h (by simpa using h') hne
  rw [h2] at k2
  obtain ⟨c, e1, e2⟩ := Reader.AgreesW.at [.key ts[i]] k2 (w := xs[i].val) (by simp [Val.at, hv])
  refine ⟨c, ?_, e2⟩
  have e3 : P.reader.getKey r ts[i] = .ok c := by
    simp only [Reader.goto] at e1
    cases hg : P.reader.getKey r ts[i] with
    | ok y => rw [hg] at e1; simpa using e1
    | _ => rw [hg] at e1; cases e1
  rw [Reader.getLit, strlen_lit h0, Res.ok_bind, e3]

/-- C111 for Flex, which keeps the keys of a map in order: the same, if no two literals are equal. -/
theorem c111_flex_partial {L : Flex.Lib} (H : L.Law) (dbg : Bool) {ts : List Bytes} {xs : List Src} {x : Src}
    (hx : zmapOf (ts.map fun t => .make (lit t)) xs = some x) (ho : ∀ y ∈ xs, y.Ok) (hd : x.val.Distinct) (hn : x.val.NulFree)
    (hf : Flex.Fits x.val) :
    ∃ b r, serialize (Flex.proto L dbg) x = .ok b ∧ Flex.opn b = .ok r ∧ ∀ (i : Nat) (h : i < ts.length) (h' : i < xs.length),
      ∃ c, Flex.reader.getLit r (lit ts[i]) = .ok c ∧ Flex.reader.AgreesStrictly c xs[i].val.sortKeys := by
  have hl : ts.length = xs.length := by
    by_cases h : ts.length = xs.length
    · exact h
    · rw [(c111_builder ts xs).1 h] at hx; cases hx
  obtain ⟨x', h1, h2, h4, -, h3⟩ := (c111_builder ts xs).2 hl
  rw [hx] at h1; cases h1
  obtain ⟨b, r, k1, k2, k3⟩ := Flex.c35_flex_round_trip H dbg hd hn hf
  refine ⟨b, r, by rw [(c36_same_bytes _ (h3 ho) (h3 ho) rfl).2, k1], k2, fun i h h' => ?_⟩
  rw [h2] at hd hn k3
  have hnd : ts.Nodup := by
    have := hd
    simp only [Val.Distinct, Val.distinctEntries_iff, h4] at this
    exact this.1
  have h0 : (0 : UInt8) ∉ ts[i] := by
    have := hn
    simp only [Val.NulFree, Val.Each, Val.eachEntries_iff] at this
    have hm : (ts[i], xs[i].val) ∈ ts.zip (xs.map Src.val) := by
      rw [List.mem_iff_getElem]
      exact ⟨i, by simp; omega, by simp⟩
    exact (this.2 _ hm).1
  have hv := firstVal_zip ts (xs.map Src.val) i h (by simpa using h') fun j hj e => by
    exact List.pairwise_iff_getElem.1 hnd j i (by omega) h hj e
  have ha : (Val.map (ts.zip (xs.map Src.val))).at [.key ts[i]] = some xs[i].val := by simp [Val.at, hv]
  obtain ⟨c, e1, e2⟩ := Reader.AgreesW.at [.key ts[i]] k3 (Val.at_sortKeys _ hd ha)
  refine ⟨c, ?_, e2⟩
  have e3 : Flex.reader.getKey r ts[i] = .ok c := by
    simp only [Reader.goto] at e1
    cases hg : Flex.reader.getKey r ts[i] with
    | ok y => rw [hg] at e1; simpa using e1
    | _ => rw [hg] at e1; cases e1
  rw [Reader.getLit, strlen_lit h0, Res.ok_bind, e3]

theorem dynMapOf_lit : ∀ (ts : List Bytes) (ds : List DVal), (∀ t ∈ ts, (0 : UInt8) ∉ t) →
    dynMapOf ((ts.map lit).zip ds) = .ok (ts.zip ds)
  | [], _, _ => by simp [dynMapOf]
  | _ :: _, [], _ => by simp [dynMapOf]
  | t :: ts, d :: ds, h => by
    simp only [List.map_cons, List.zip_cons_cons, dynMapOf, strlen_lit (h t (by simp)), Res.ok_bind,
      dynMapOf_lit ts ds (fun u hu => h u (by simp [hu])), Res.pure_eq]

theorem dvalEntries_zip : ∀ (ts : List Bytes) (ds : List DVal), DVal.valEntries (ts.zip ds) = ts.zip (ds.map DVal.val)
  | [], _ => by simp [DVal.valEntries]
  | _ :: _, [] => by simp [DVal.valEntries]
  | t :: ts, d :: ds => by simp [DVal.valEntries, dvalEntries_zip ts ds]

/-- C111, the two ways to write: `zmap` and `dyn::map` with the same literals and the same values give the same bytes in every format. Missing:
as above (`c111_literal_refuted`). -/
theorem c111_dyn_partial (P : Proto) {ts : List Bytes} (h0 : ∀ t ∈ ts, (0 : UInt8) ∉ t) {xs : List Src} {ds : List DVal} {x : Src}
    (hx : zmapOf (ts.map fun t => .make (lit t)) xs = some x) (ho : ∀ y ∈ xs, y.Ok) (hd : (DVal.map (ts.zip ds)).Ok)
    (hv : xs.map Src.val = ds.map DVal.val) :
    ∃ ms, dynMapOf ((ts.map lit).zip ds) = .ok ms ∧ serialize P (.dyn (.map ms)) = serialize P x := by
  have hl : ts.length = xs.length := by
    by_cases h : ts.length = xs.length
    · exact h
    · rw [(c111_builder ts xs).1 h] at hx; cases hx
  obtain ⟨x', h1, h2, -, -, h3⟩ := (c111_builder ts xs).2 hl
  rw [hx] at h1; cases h1
  refine ⟨_, dynMapOf_lit ts ds h0, (c36_same_bytes P (x := .dyn (.map (ts.zip ds))) hd (h3 ho) ?_).1⟩
  rw [h2]
  simp only [Src.val, DVal.val, dvalEntries_zip, hv]

/-- C111 is false in three cases. (1) NULs inside: `zmap<"a\0b", "a">(1, 2)` writes both members, and `d["a\0b"]` is the second; `d["a\0b"]` of
`zmap<"a\0b">(1)` raises, although the key is listed. (2) `dyn::map({{"a\0b", 1}})` is not `zmap<"a\0b">(1)`. (3) Arrays without a NUL at
the end, which `fixed_string` accepts, lose their last character: with `constexpr char ab[2] = {'a', 'b'}, ac[2] = {'a', 'c'}`,
`zmap<ab, ac>(1, 2)` has the key `a` twice. -/
theorem c111_literal_refuted :
    (∃ x b r c, zmapOf [.make (lit [97, 0, 98]), .make (lit [97])] [.sint 32 1, .sint 32 2] = some x ∧ serialize Zera.proto x = .ok b ∧
      Zera.proto.opn b = .ok r ∧ Zera.proto.reader.mapKeys r = .ok [[97, 0, 98], [97]] ∧
      Zera.proto.reader.getLit r (lit [97, 0, 98]) = .ok c ∧ Zera.proto.reader.AgreesStrictly c (.int 2)) ∧
    (∃ x b r, zmapOf [.make (lit [97, 0, 98])] [.sint 32 1] = some x ∧ serialize Zera.proto x = .ok b ∧ Zera.proto.opn b = .ok r ∧
      Zera.proto.reader.mapKeys r = .ok [[97, 0, 98]] ∧ Zera.proto.reader.getLit r (lit [97, 0, 98]) = .err .deser) ∧
    (∃ x ms, zmapOf [.make (lit [97, 0, 98])] [.sint 32 1] = some x ∧ dynMapOf [(lit [97, 0, 98], .int 1)] = .ok ms ∧
      serialize Zera.proto (.dyn (.map ms)) ≠ serialize Zera.proto x) ∧
    ∃ x, zmapOf [.make [97, 98], .make [97, 99]] [.sint 32 1, .sint 32 2] = some x ∧ x.val = .map [([97], .int 1), ([97], .int 2)] := by
  have hs : strlen (some (lit [97, 0, 98])) = .ok [97] := by decide
  have h1 : ∃ b, Zera.proto.serialize (.map [([97, 0, 98], .int 1)]) = .ok b := ⟨_, rfl⟩
  refine ⟨?_, ?_, ?_, ⟨_, rfl, rfl⟩⟩
  · obtain ⟨b, hb⟩ : ∃ b, Zera.proto.serialize (.map [([97, 0, 98], .int 1), ([97], .int 2)]) = .ok b := ⟨_, rfl⟩
    obtain ⟨r, h1, h2⟩ := Zera.proto_roundTrips _ b trivial hb
    refine ⟨.zmap [([97, 0, 98], .sint 32 1), ([97], .sint 32 2)], b, r, ?_⟩
    cases h2 with
    | map child _ k1 _ k2 _ k3 =>
      exact ⟨child [97], rfl, hb, h1, k1, by rw [Reader.getLit, hs]; exact k2 _ (by simp), k3 _ _ rfl⟩
  · obtain ⟨b, hb⟩ := h1
    obtain ⟨r, h1, h2⟩ := Zera.proto_roundTrips _ b trivial hb
    refine ⟨.zmap [([97, 0, 98], .sint 32 1)], b, r, ?_⟩
    cases h2 with
    | map child _ k1 _ _ k2 _ => exact ⟨rfl, hb, h1, k1, by rw [Reader.getLit, hs]; exact k2 _ (by simp)⟩
  · obtain ⟨b, hb⟩ := h1
    refine ⟨.zmap [([97, 0, 98], .sint 32 1)], [([97], .int 1)], rfl, by simp only [dynMapOf, hs, Res.ok_bind, Res.pure_eq], fun e => ?_⟩
    obtain ⟨c, hc⟩ : ∃ c, Zera.proto.serialize (.map [([97], .int 1)]) = .ok c := ⟨_, rfl⟩
    have e : Zera.proto.serialize (.map [([97], .int 1)]) = Zera.proto.serialize (.map [([97, 0, 98], .int 1)]) := e
    obtain ⟨r, h1, h2⟩ := Zera.proto_roundTrips _ b trivial hb
    obtain ⟨r', h3, h4⟩ := Zera.proto_roundTrips _ b trivial (e.trans hb)
    rw [h1] at h3; cases h3
    cases h2 with
    | map child _ k1 _ _ _ _ =>
      cases h4 with
      | map child _ k2 _ _ _ _ => rw [k1] at k2; cases k2

/-- C111, an instance: `zmap<"name", "age">("James Bond", 37)` of the README, in ZERA. -/
example : ∃ x b r c, zmapOf ([[110, 97, 109, 101], [97, 103, 101]].map fun t => .make (lit t)) [.cstr (some (lit [74, 66])), .sint 32 37] = some x ∧
    serialize Zera.proto x = .ok b ∧ Zera.proto.opn b = .ok r ∧ Zera.proto.reader.getLit r (lit [97, 103, 101]) = .ok c ∧
    Zera.proto.reader.AgreesStrictly c (.int 37) := by
  obtain ⟨x, hx⟩ : ∃ x, zmapOf ([[110, 97, 109, 101], [97, 103, 101]].map fun t => .make (lit t)) [.cstr (some (lit [74, 66])), .sint 32 37] = some x := ⟨_, rfl⟩
  have hy : ∀ y ∈ [Src.cstr (some (lit [74, 66])), .sint 32 37], y.Ok := by
    intro y h
    simp only [List.mem_cons, List.not_mem_nil, or_false] at h
    rcases h with rfl | rfl
    · exact ⟨_, rfl, by decide⟩
    · trivial
  obtain ⟨b, hb⟩ : ∃ b, serialize Zera.proto x = .ok b := by
    cases hx
    exact ⟨_, rfl⟩
  obtain ⟨r, h1, h2⟩ := c111_literal_partial Zera.proto_roundTrips hx hy trivial hb
  obtain ⟨c, h3, h4⟩ := h2 1 (by decide) (by decide) (fun j hj => by
    obtain rfl : j = 0 := by omega
    show ([110, 97, 109, 101] : Bytes) ≠ [97, 103, 101]
    decide) (by decide)
  exact ⟨x, b, r, c, hx, hb, h1, h3, h4⟩

end Zer.Dyn
