import Verif.Flex.Present
import Verif.Text.Flex

/-!
# C93: Flex is the FlexBuffers format

The relation `Holding R b d` of `Verif/Flex/Spec.lean` says that the bytes `b` are a FlexBuffers document of `d`; it is stated
from the format's description, not from the code.
-/

namespace Zer.Flex
variable {L : Lib}

/-- The document of a value is the value with sorted keys. -/
theorem toDoc_eq (H : L.Law) : ∀ v : Val, v.Distinct → v.NulFree → toDoc L v = v.sortKeys.doc := by
  intro v
  induction v using Val.ind with
  | arr xs ih =>
    intro hd hn
    simp only [Val.Distinct, Val.distinctList_iff] at hd
    simp only [Val.sortKeys, toDoc, toDocList_eq, Val.sortKeysList_eq, Val.doc, Val.docList_eq, List.map_map]
    congr 1
    exact List.map_congr_left fun x hx => ih x hx (hd x hx) (Val.Each.arr hn x hx)
  | map ms ih =>
    intro hd hn
    simp only [Val.Distinct, Val.distinctEntries_iff] at hd
    simp only [Val.sortKeys, toDoc, Val.doc, Val.docEntries_eq]
    congr 1
    have hq := List.mergeSort_perm (Val.sortKeysEntries ms) keyLe
    have e1 : (Val.sortKeysEntries ms).map (fun m => (m.1, m.2.doc)) = toDocEntries L ms := by
      rw [Val.sortKeysEntries_eq, toDocEntries_eq, List.map_map]
      exact List.map_congr_left fun m hm => by
        simp [ih m hm (hd.2 m hm) (Val.Each.map hn m hm).2, cstr_of_no_nul (Val.Each.map hn m hm).1]
    refine sorted_eq ((H.sort_perm _).trans ?_) (H.sort_sorted _) ?_ ?_
    · rw [← e1]; exact (hq.map _).symm
    · exact List.pairwise_map.2 (keyLe_sorted _)
    · rw [List.map_map, show (Prod.fst ∘ fun m : Bytes × Val => (m.1, m.2.doc)) = Prod.fst from rfl, (hq.map Prod.fst).nodup_iff,
        Val.sortKeysEntries_keys]
      exact hd.1
  | _ => intro _ _; rfl

/-- Buffers end with the slot of the root, its type and its width. -/
theorem opn_inv {b : Bytes} {r : Ref} (h : opn b = .ok r) :
    (b = [] ∧ r = nullRef) ∨ ∃ pre t w, b = pre ++ [t, w] ∧ w.toNat ≤ pre.length ∧
      r = ⟨b, pre.length - w.toNat, w.toNat, 2 ^ (t.toNat % 4), t.toNat / 4⟩ := by
  rcases List.eq_nil_or_concat b with rfl | ⟨l, w, rfl⟩
  · exact .inl ⟨rfl, (Res.ok.inj h).symm⟩
  · rcases List.eq_nil_or_concat l with rfl | ⟨pre, t, rfl⟩
    · cases h
    · right
      have e : (pre.concat t).concat w = pre ++ [t, w] := by simp
      rw [e] at h ⊢
      refine ⟨pre, t, w, rfl, ?_⟩
      have hend : At (pre ++ [t, w]) pre.length [t, w] := At.self_end _ _
      have b0 := hend.byteAt (i := 0) (by simp)
      have b1 := hend.byteAt (i := 1) (by simp)
      simp only [List.getElem_cons_zero, List.getElem_cons_succ, Nat.add_zero] at b0 b1
      have hfl : (pre ++ [t, w]).length = pre.length + 2 := by simp
      have e1 : pre.length + 2 - 1 = pre.length + 1 := by omega
      have e2 : pre.length + 2 - 2 = pre.length := by omega
      rw [Flex.opn, if_neg (by simp), getRoot, hfl, if_neg (by omega), e1, e2, b0, b1] at h
      simp only [Res.ok_bind] at h
      split at h
      · exact ⟨by omega, (Res.ok.inj h).symm⟩
      · cases h

theorem at_get {b : Bytes} {p : Nat} {x : UInt8} (h : b[p]? = some x) : At b p [x] := by
  obtain ⟨hp, rfl⟩ := List.getElem?_eq_some_iff.1 h
  exact ⟨b.take p, b.drop (p + 1), by simp, by simp; omega⟩

theorem get_at {b : Bytes} {p : Nat} {x : UInt8} (h : At b p [x]) : b[p]? = some x := h.getElem? (i := 0) (by simp)

/-- C93, reading, every buffer of the format that has no typed vectors, of any layout (shared keys, any widths, indirect
scalars): it is opened, and everything that is read from it is the document. Missing: typed vectors, keys as values, documents with
the same key twice (`c93_flex_typed_refuted`, `c93_flex_key_refuted`). -/
theorem c93_flex_reads_partial {b : Bytes} {v : Val} (h : Holding .untyped b v.doc) (hs : v.Sorted) (hd : v.Distinct)
    (hl : b.length < 2 ^ 64) : ∃ r, opn b = .ok r ∧ reader.AgreesStrictly r v := by
  obtain ⟨r, h1, h2⟩ := h.opn (fun h => h) hl (.inl trivial)
  exact ⟨r, h1, Holds.agrees (doc_agrees v hs hd) h2⟩

/-- The hypotheses are met by a document that the writer never makes: the vector `[7, 7]` with indirect integers that share their
place. -/
example : Holding .untyped [7, 2, 2, 3, 24, 24, 4, 40, 1] (Val.arr [.int 7, .int 7]).doc := by
  refine .inl ⟨[7, 2, 2, 3, 24, 24, 4], 40, 1, rfl, by decide, ?_⟩
  have word : ∀ (p : Nat) (x : UInt8), ([7, 2, 2, 3, 24, 24, 4, 40, 1] : Bytes)[p]? = some x →
      Word .untyped [7, 2, 2, 3, 24, 24, 4, 40, 1] p 1 [x] := fun p x h =>
    ⟨at_get h, rfl, fun _ => .inl rfl, fun _ => Nat.mod_one _⟩
  refine .vec (q := 2) (fun _ => 24) ⟨[4], word 6 4 rfl, rfl⟩ ⟨by decide, [2], word 1 2 rfl, rfl⟩ ?_ ?_
  · intro i hi
    match i, hi with
    | 0, _ => exact at_get (by decide)
    | 1, _ => exact at_get (by decide)
  · intro i hi
    match i, hi with
    | 0, _ => exact .intAt 7 (q := 0) trivial ⟨[2], word 2 2 rfl, rfl⟩ (word 0 7 (by decide)) (by decide)
    | 1, _ => exact .intAt 7 (q := 0) trivial ⟨[3], word 3 3 rfl, rfl⟩ (word 0 7 (by decide)) (by decide)

/-- C93, writing, every value without NUL in keys that fits: the bytes are a document of the format, of the value with its keys
sorted, whatever `std::sort` does with equal keys and whether or not assertions are compiled in. -/
theorem c93_flex_writes (H : L.Law) (dbg : Bool) {es : List Ev} {v : Val} (h : Tree.eval es = some v) (hd : v.Distinct)
    (hn : v.NulFree) (hf : Fits v) :
    ∃ b, (proto L dbg).bytesOf es = .ok b ∧ Holding .format b v.sortKeys.doc := by
  obtain ⟨b, h1, h2, h3⟩ := bytesOf_holding H dbg h
  have h4 := h3 (Nat.lt_of_le_of_lt h2 hf)
  rw [toDoc_eq H v hd hn] at h4
  have hle : Rules.plain.Le .format := ⟨fun h => h, fun h => h, fun _ => trivial, fun h => h, fun _ => trivial⟩
  refine ⟨b, h1, ?_⟩
  rcases h4 with ⟨pre, t, w, e, hw, hs⟩ | ⟨hc, _⟩
  · exact .inl ⟨pre, t, w, e, hw, hs.weaken hle⟩
  · exact absurd trivial hc

/-- The hypotheses are met by `{"b": [true, "x"], "a": null}`. -/
example : ∃ v, Tree.eval (emit v) = some v ∧ v.Distinct ∧ v.NulFree ∧ Fits v ∧
    v = .map [([0x62], .arr [.bool true, .str [0x78]]), ([0x61], .null)] :=
  ⟨_, Tree.eval_emit _, by simp [Val.Distinct, Val.distinctEntries, Val.distinctList],
    by simp [Val.NulFree, Val.Each, Val.eachEntries, Val.eachList], by simp [Fits, weigh, weighList, weighEntries], rfl⟩

/-- C93, what is taken for a document, every buffer below 2^56 bytes and every value with distinct keys: the buffer presents the
value if and only if it satisfies the rules of `Rules.tolerant`, and the keys are sorted. The rules differ from the format in that
numbers need not be aligned, that unknown widths count as the next smaller one, that a map may have more keys than values or fewer,
that strings need not end with NUL, that typed vectors are empty, and that no bytes are null. -/
theorem c93_flex_exact {b : Bytes} {v : Val} (hl : b.length < 2 ^ 56) (hd : v.Distinct) :
    (∃ r, opn b = .ok r ∧ reader.AgreesStrictly r v) ↔ Holding .tolerant b v.doc ∧ v.Sorted := by
  constructor
  · rintro ⟨r, h1, h2⟩
    rcases opn_inv h1 with ⟨rfl, rfl⟩ | ⟨pre, t, w, e, hw, rfl⟩
    · rw [agrees_nullRef h2]
      exact ⟨.inr ⟨fun h => h, rfl, rfl⟩, trivial⟩
    · obtain ⟨h3, h4⟩ := stands_of_agrees h2 hd hl (pow_mod_four _)
      exact ⟨.inl ⟨pre, t, w, e, hw, h3⟩, h4⟩
  · rintro ⟨h, hs⟩
    obtain ⟨r, h1, h2⟩ := h.opn (fun h => h) (by omega) (.inr hl)
    exact ⟨r, h1, Holds.agrees (doc_agrees v hs hd) h2⟩

/-- Both sides are met, by a buffer that is not in the format: a string whose size is stored at an odd place with two bytes, and that
no NUL follows. -/
example : Holding .tolerant [0, 1, 0, 0x61, 1, 21, 1] (Val.str [0x61]).doc ∧ ¬ Holding .format [0, 1, 0, 0x61, 1, 21, 1] (Val.str [0x61]).doc := by
  constructor
  · refine .inl ⟨[0, 1, 0, 0x61, 1], 21, 1, rfl, by decide, ?_⟩
    refine .str (q := 3) ⟨[1], ⟨at_get (by decide), rfl, fun h => h.elim, fun h => h.elim⟩, by decide⟩
      ⟨by decide, [1, 0], ⟨⟨[0], [0x61, 1, 21, 1], rfl, rfl⟩, rfl, fun h => h.elim, fun h => h.elim⟩, by decide⟩ (at_get (by decide))
      (fun h => h.elim)
  · rintro (⟨pre, t, w, e, hw, h⟩ | ⟨h, _⟩)
    · have e1 : [0, 1, 0, 0x61, 1] = pre ∧ [21, 1] = [t, w] := List.append_inj' (s₁ := [0, 1, 0, 0x61, 1]) e (by simp)
      obtain ⟨rfl, e2⟩ := e1
      simp only [List.cons.injEq, and_true] at e2
      obtain ⟨rfl, rfl⟩ := e2
      generalize hd : (Val.str [0x61]).doc = d at h
      have e5 : (21 : UInt8).toNat / 4 = 5 := by decide
      rw [e5] at h
      cases h with
      | @str _ _ _ q s h1 h2 h3 h4 =>
        obtain ⟨xs, h5, h6⟩ := h1
        have hx : xs = [1] := At.inj h5.pos (at_get (by decide)) (by rw [h5.length]; decide)
        subst hx
        injection hd with hd
        subst hd
        have hq : q = 3 := by
          have : numeral [1] = 1 := by decide
          rw [this] at h6; simp at h6; omega
        subst hq
        have := get_at (h4 trivial)
        revert this; decide
      | fixed _ h1 => 
        unfold fixedElem at h1; omega
      | typed _ h1 => unfold typedElem at h1; omega
      | hollow h1 => exact h1
    · exact h trivial

/-- C93 is false for typed vectors: every slot of such a type, whatever it leads to, is presented as the empty array. -/
theorem c93_flex_typed_refuted :
    (∀ r : Ref, (11 ≤ r.ty ∧ r.ty ≤ 24 ∨ r.ty = 36) → reader.AgreesStrictly r (.arr [])) ∧
    Holding .format [2, 1, 2, 2, 44, 1] (Val.arr [.int 1, .int 2]).doc ∧
    (∃ r, opn [2, 1, 2, 2, 44, 1] = .ok r ∧ reader.AgreesStrictly r (.arr [])) := by
  have hall : ∀ r : Ref, (11 ≤ r.ty ∧ r.ty ≤ 24 ∨ r.ty = 36) → reader.AgreesStrictly r (.arr []) := fun r h =>
    Holds.agrees (doc_agrees (.arr []) (by simp [Val.Sorted, Val.Each, Val.eachList]) trivial) (.hollow (by simp [typedType]; omega))
  have word : ∀ (p : Nat) (x : UInt8), ([2, 1, 2, 2, 44, 1] : Bytes)[p]? = some x →
      Word .format [2, 1, 2, 2, 44, 1] p 1 [x] := fun p x h => ⟨at_get h, rfl, fun _ => .inl rfl, fun _ => Nat.mod_one _⟩
  refine ⟨hall, .inl ⟨[2, 1, 2, 2], 44, 1, rfl, by decide, ?_⟩, _, rfl, hall _ (by decide)⟩
  refine .typed (q := 1) (ety := 1) trivial (.inl ⟨by decide, rfl⟩) ⟨[2], word 3 2 (by decide), by decide⟩
    ⟨by decide, [2], word 0 2 (by decide), by decide⟩ ?_
  intro i hi
  match i, hi with
  | 0, _ => exact .int 1 (word 1 1 (by decide)) (by decide)
  | 1, _ => exact .int 2 (word 2 2 (by decide)) (by decide)

/-- C93 is false for keys as values, which the format has: no value is presented. -/
theorem c93_flex_key_refuted :
    Holding .format [0x61, 0, 2, 16, 1] (.key [0x61]) ∧
    ∃ r, opn [0x61, 0, 2, 16, 1] = .ok r ∧ ∀ v, ¬ reader.AgreesStrictly r v := by
  refine ⟨.inl ⟨[0x61, 0, 2], 16, 1, rfl, by decide, ?_⟩, _, rfl, fun v h => ?_⟩
  · exact .key (q := 0) ⟨[2], ⟨at_get (by decide), rfl, fun _ => .inl rfl, fun _ => Nat.mod_one _⟩, by decide⟩
      ⟨[], [2, 16, 1], rfl, rfl⟩ (by decide)
  · cases h with
    | null h => exact absurd h.1 (by decide)
    | bool h => exact absurd h.2.1 (by decide)
    | int _ h => exact absurd (h trivial).1 (by decide)
    | uint _ h => exact absurd (h trivial).2 (by decide)
    | dbl h => exact absurd h.2.2.2.1 (by decide)
    | str h => exact absurd h.2.2.2.2.1 (by decide)
    | blob h => exact absurd h.2.2.2.2.2.1 (by decide)
    | map _ h => exact absurd h.2.2.2.2.2.2.1 (by decide)
    | arr _ h => exact absurd h.2.2.2.2.2.2.2 (by decide)

/-- C93 is false for strings given as views, as translation gives them: of "ab" in memory that "c" follows, the document ends with "c"
in place of NUL. -/
theorem c93_flex_view_refuted (dbg : Bool) :
    ∃ s b, strView {} [0x61, 0x62, 0x63] 2 = .ok s ∧ finish dbg s = .ok b ∧
      Holding .tolerant b (.str [0x61, 0x62]) ∧ ¬ Holding .format b (.str [0x61, 0x62]) := by
  refine ⟨_, [2, 0x61, 0x62, 0x63, 3, 20, 1], rfl, by cases dbg <;> decide +kernel, ?_, ?_⟩
  · exact .inl ⟨[2, 0x61, 0x62, 0x63, 3], 20, 1, rfl, by decide,
      .str (q := 1) ⟨[3], ⟨at_get (by decide), rfl, fun h => h.elim, fun h => h.elim⟩, by decide⟩
        ⟨by decide, [2], ⟨at_get (by decide), rfl, fun h => h.elim, fun h => h.elim⟩, by decide⟩
        ⟨[2], [0x63, 3, 20, 1], rfl, rfl⟩ (fun h => h.elim)⟩
  · rintro (⟨pre, t, w, e, hw, h⟩ | ⟨h, _⟩)
    · have e1 : [2, 0x61, 0x62, 0x63, 3] = pre ∧ [20, 1] = [t, w] := List.append_inj' (s₁ := [2, 0x61, 0x62, 0x63, 3]) e (by simp)
      obtain ⟨rfl, e2⟩ := e1
      simp only [List.cons.injEq, and_true] at e2
      obtain ⟨rfl, rfl⟩ := e2
      have e5 : (20 : UInt8).toNat / 4 = 5 := by decide
      rw [e5] at h
      cases h with
      | @str _ _ _ q s h1 h2 h3 h4 =>
        obtain ⟨xs, h5, h6⟩ := h1
        have hx : xs = [3] := At.inj h5.pos (at_get (by decide)) (by rw [h5.length]; decide)
        subst hx
        have hq : q = 1 := by
          have : numeral [3] = 3 := by decide
          rw [this] at h6; simp at h6; omega
        subst hq
        have := get_at (h4 trivial)
        revert this; decide
    · exact h trivial

/-! ### No bytes stand for two documents -/

theorem Word.det {R S : Rules} {b : Bytes} {p w : Nat} {xs ys : Bytes} (h : Word R b p w xs) (h' : Word S b p w ys) : xs = ys :=
  At.inj h.pos h'.pos (by rw [h.length, h'.length])

theorem Points.det {R S : Rules} {b : Bytes} {p w q q' : Nat} (h : Points R b p w q) (h' : Points S b p w q') : q = q' := by
  obtain ⟨xs, h1, h2⟩ := h
  obtain ⟨ys, h3, h4⟩ := h'
  rw [h1.det h3] at h2
  omega

theorem Sized.det {R S : Rules} {b : Bytes} {q w n n' : Nat} (h : Sized R b q w n) (h' : Sized S b q w n') : n = n' := by
  obtain ⟨_, xs, h1, h2⟩ := h
  obtain ⟨_, ys, h3, h4⟩ := h'
  rw [h1.det h3] at h2
  omega

theorem key_det {b : Bytes} {q : Nat} {k k' : Bytes} (h : At b q (k ++ [0])) (h0 : (0 : UInt8) ∉ k) (h' : At b q (k' ++ [0]))
    (h0' : (0 : UInt8) ∉ k') : k = k' := Res.ok.inj ((cstrAt_stands h0 h).symm.trans (cstrAt_stands h0' h'))

theorem vec_det {xs ys : List Doc} (hl : xs.length = ys.length) (h : ∀ i (h : i < xs.length) (h' : i < ys.length), xs[i] = ys[i]) :
    Doc.vec xs = Doc.vec ys := by rw [List.ext_getElem hl h]

/-- C93: no bytes stand for two documents. -/
theorem Stands.det {R : Rules} (hR : ¬ (R.typed ∧ R.hollow)) {b : Bytes} {p pw ty bw : Nat} {d d' : Doc}
    (h : Stands R b p pw ty bw d) : Stands R b p pw ty bw d' → d = d' := by
  induction h generalizing d' with
  | null => 
    intro h'
    cases h' with
    | null => rfl
    | typed _ h1 => unfold typedElem at h1; omega
    | fixed _ h1 => unfold fixedElem at h1; omega
    | hollow _ h1 => omega
  | int i h1 h2 =>
    intro h'
    cases h' with
    | int j h3 h4 => rw [h1.det h3, ← h4] at h2; rw [Int64.toInt_inj.1 h2]
    | typed _ h1 => unfold typedElem at h1; omega
    | fixed _ h1 => unfold fixedElem at h1; omega
    | hollow _ h1 => omega
  | uint i h1 h2 =>
    intro h'
    cases h' with
    | uint j h3 h4 => rw [h1.det h3, ← h4] at h2; rw [UInt64.toNat_inj.1 h2]
    | typed _ h1 => unfold typedElem at h1; omega
    | fixed _ h1 => unfold fixedElem at h1; omega
    | hollow _ h1 => omega
  | dbl i h1 _ h2 =>
    intro h'
    cases h' with
    | dbl j h3 _ h4 => rw [h1.det h3, ← h4] at h2; rw [UInt64.toNat_inj.1 h2]
    | typed _ h1 => unfold typedElem at h1; omega
    | fixed _ h1 => unfold fixedElem at h1; omega
    | hollow _ h1 => omega
  | bool h1 =>
    intro h'
    generalize hty : (26 : Nat) = ty at h'
    cases h' with
    | bool h3 => rw [h1.det h3]
    | typed _ h1 => unfold typedElem at h1; omega
    | fixed _ h1 => unfold fixedElem at h1; omega
    | hollow _ h1 => omega
    | _ => omega
  | intAt i _ h0 h1 h2 =>
    intro h'
    cases h' with
    | intAt j _ h0' h3 h4 => rw [h0.det h0'] at h1; rw [h1.det h3, ← h4] at h2; rw [Int64.toInt_inj.1 h2]
    | typed _ h1 => unfold typedElem at h1; omega
    | fixed _ h1 => unfold fixedElem at h1; omega
    | hollow _ h1 => omega
  | uintAt i _ h0 h1 h2 =>
    intro h'
    cases h' with
    | uintAt j _ h0' h3 h4 => rw [h0.det h0'] at h1; rw [h1.det h3, ← h4] at h2; rw [UInt64.toNat_inj.1 h2]
    | typed _ h1 => unfold typedElem at h1; omega
    | fixed _ h1 => unfold fixedElem at h1; omega
    | hollow _ h1 => omega
  | dblAt i _ h0 h1 _ h2 =>
    intro h'
    cases h' with
    | dblAt j _ h0' h3 _ h4 => rw [h0.det h0'] at h1; rw [h1.det h3, ← h4] at h2; rw [UInt64.toNat_inj.1 h2]
    | typed _ h1 => unfold typedElem at h1; omega
    | fixed _ h1 => unfold fixedElem at h1; omega
    | hollow _ h1 => omega
  | key h0 h1 h2 =>
    intro h'
    cases h' with
    | key h0' h3 h4 => rw [h0.det h0'] at h1; rw [key_det h1 h2 h3 h4]
    | typed _ h1 => unfold typedElem at h1; omega
    | fixed _ h1 => unfold fixedElem at h1; omega
    | hollow _ h1 => omega
  | str h0 h1 h2 =>
    intro h'
    cases h' with
    | str h0' h3 h4 => rw [h0.det h0'] at h1 h2; rw [At.inj h2 h4 (h1.det h3)]
    | typed _ h1 => unfold typedElem at h1; omega
    | fixed _ h1 => unfold fixedElem at h1; omega
    | hollow _ h1 => omega
  | blob h0 h1 h2 =>
    intro h'
    generalize hty : (25 : Nat) = ty at h'
    cases h' with
    | blob h0' h3 h4 => rw [h0.det h0'] at h1 h2; rw [At.inj h2 h4 (h1.det h3)]
    | typed _ h1 => unfold typedElem at h1; omega
    | fixed _ h1 => unfold fixedElem at h1; omega
    | hollow _ h1 => omega
    | _ => omega
  | @vec _ _ bw q xs t h0 h1 h2 _ ih =>
    intro h'
    cases h' with
    | vec t' h0' h3 h4 h5 =>
      obtain rfl := h0.det h0'
      have hl := h1.det h3
      refine vec_det hl fun i hi hi' => ih i hi ?_
      have e := get_at (h2 i hi)
      rw [hl, get_at (h4 i hi')] at e
      rw [← Option.some.inj e]
      exact h5 i hi'
    | typed _ h1 => unfold typedElem at h1; omega
    | fixed _ h1 => unfold fixedElem at h1; omega
    | hollow _ h1 => omega
  | @typed _ _ ty ety bw q xs hT h0 h1 h2 _ ih =>
    intro h'
    unfold typedElem at h0
    cases h' with
    | @typed _ _ _ ety' _ q' ys _ h0' h1' h2' h3 =>
      obtain rfl := h1.det h1'
      have he : ety = ety' := by unfold typedElem at h0'; omega
      subst he
      exact vec_det (h2.det h2') fun i hi hi' => ih i hi (h3 i hi')
    | fixed _ h1 => unfold fixedElem at h1; omega
    | hollow h1 => exact absurd ⟨hT, h1⟩ hR
    | _ => omega
  | @fixed _ _ ty ety bw q xs hT h0 h1 _ ih =>
    intro h'
    unfold fixedElem at h0
    cases h' with
    | typed _ h1 => unfold typedElem at h1; omega
    | @fixed _ _ _ ety' _ q' ys _ h0' h1' h3 =>
      obtain rfl := h1.det h1'
      unfold fixedElem at h0'
      have he : ety = ety' := by omega
      subst he
      exact vec_det (by omega) fun i hi hi' => ih i hi (h3 i hi')
    | hollow h1 => exact absurd ⟨hT, h1⟩ hR
    | _ => omega
  | hollow hH h0 =>
    intro h'
    cases h' with
    | typed h1 => exact absurd ⟨h1, hH⟩ hR
    | fixed h1 => exact absurd ⟨h1, hH⟩ hR
    | hollow => rfl
    | _ => omega
  | @map _ _ bw q kp w n kw o ws ms t kq h0 h1 h2 h3 h4 h5 h6 h7 h8 h9 h10 ho ho' h11 _ h13 ih =>
    intro h'
    cases h' with
    | @map _ _ _ q' kp' w' n' kw' o' ws' ms' t' kq' g0 g1 g2 g3 g4 g5 g6 g7 g8 g9 g10 go go' g11 g12 g13 =>
      obtain rfl := h0.det g0
      obtain rfl := h1.det g1
      obtain rfl := h4.det g4
      obtain rfl := h5.det g5
      have ew : kw = kw' := by rw [h7, g7, ← h6, ← g6]
      subst ew
      have eo : o = o' := by rw [ho, go]
      subst eo
      have hl := h9.det g9
      congr 1
      refine List.ext_getElem hl fun i hi hi' => Prod.ext ?_ ?_
      · obtain ⟨k1, k2, k3⟩ := h10 i hi
        obtain ⟨l1, l2, l3⟩ := g10 i hi'
        rw [k1.det l1] at k2
        exact key_det k2 k3 l2 l3
      · by_cases hin : i < n
        · refine ih i hi hin ?_
          have e := get_at (h11 i hi hin)
          rw [get_at (g11 i hi' hin)] at e
          rw [← Option.some.inj e]
          exact g12 i hi' hin
        · rw [h13 i hi (by omega), g13 i hi' (by omega)]
    | typed _ h1 => unfold typedElem at h1; omega
    | fixed _ h1 => unfold fixedElem at h1; omega
    | hollow _ h1 => omega

/-- C93: no bytes stand for two documents, neither in the format nor in what zerialize takes for it. -/
theorem c93_flex_unambiguous {b : Bytes} {d d' : Doc} :
    (Holding .format b d → Holding .format b d' → d = d') ∧ (Holding .tolerant b d → Holding .tolerant b d' → d = d') := by
  have key : ∀ R : Rules, ¬ (R.typed ∧ R.hollow) → Holding R b d → Holding R b d' → d = d' := by
    rintro R hR (⟨pre, t, w, e, hw, h⟩ | ⟨_, e, rfl⟩) (⟨pre', t', w', e', hw', h'⟩ | ⟨_, e', rfl⟩)
    · have := e.symm.trans e'
      obtain ⟨rfl, e2⟩ := List.append_inj' this rfl
      simp only [List.cons.injEq, and_true] at e2
      obtain ⟨rfl, rfl⟩ := e2
      exact h.det hR h'
    · rw [e'] at e; simp at e
    · rw [e] at e'; simp at e'
    · rfl
  exact ⟨key _ (fun h => h.2), key _ (fun h => h.1)⟩

/-- C90 is false for Flex: offsets may share what they lead to, the writer stores every string again. `["abc", "abc"]` takes 18 bytes;
13 suffice. -/
theorem c90_flex_refuted (dbg : Bool) : ∃ v b b', (proto std dbg).serialize v = .ok b ∧ Holding .format b' v.doc ∧ v.Sorted ∧
    b'.length < b.length := by
  refine ⟨.arr [.str [0x61, 0x62, 0x63], .str [0x61, 0x62, 0x63]],
    [3, 0x61, 0x62, 0x63, 0, 3, 0x61, 0x62, 0x63, 0, 2, 10, 6, 20, 20, 4, 40, 1],
    [3, 0x61, 0x62, 0x63, 0, 2, 5, 6, 20, 20, 4, 40, 1], by cases dbg <;> decide +kernel, ?_,
    by simp [Val.Sorted, Val.Each, Val.eachList], by decide⟩
  refine .inl ⟨[3, 0x61, 0x62, 0x63, 0, 2, 5, 6, 20, 20, 4], 40, 1, rfl, by decide, ?_⟩
  have word : ∀ (p : Nat) (x : UInt8), ([3, 0x61, 0x62, 0x63, 0, 2, 5, 6, 20, 20, 4, 40, 1] : Bytes)[p]? = some x →
      Word .format [3, 0x61, 0x62, 0x63, 0, 2, 5, 6, 20, 20, 4, 40, 1] p 1 [x] := fun p x h =>
    ⟨at_get h, rfl, fun _ => .inl rfl, fun _ => Nat.mod_one _⟩
  have string : ∀ (p : Nat) (x : UInt8), ([3, 0x61, 0x62, 0x63, 0, 2, 5, 6, 20, 20, 4, 40, 1] : Bytes)[p]? = some x → p = 1 + x.toNat →
      Stands .format [3, 0x61, 0x62, 0x63, 0, 2, 5, 6, 20, 20, 4, 40, 1] p 1 5 1 (.str [0x61, 0x62, 0x63]) := by
    intro p x h1 h2
    refine .str (q := 1) ⟨[x], word p x h1, by simp [numeral]; omega⟩ ⟨by decide, [3], word 0 3 (by decide), by decide⟩
      ⟨[3], [0, 2, 5, 6, 20, 20, 4, 40, 1], rfl, rfl⟩ (fun _ => at_get (by decide))
  refine .vec (q := 6) (fun _ => 20) ⟨[4], word 10 4 (by decide), by decide⟩ ⟨by decide, [2], word 5 2 (by decide), by decide⟩ ?_ ?_
  · intro i hi
    match i, hi with
    | 0, _ => exact at_get (by decide)
    | 1, _ => exact at_get (by decide)
  · intro i hi
    match i, hi with
    | 0, _ => exact string 6 5 (by decide) (by decide)
    | 1, _ => exact string 7 6 (by decide) (by decide)

end Zer.Flex
