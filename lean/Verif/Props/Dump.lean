import Verif.Text.DumpUnique
import Verif.Props.Text

/-!
# C94: `dump_flex` shows the document

`Holding` is the format of `Verif/Flex/Spec.lean`, stated without the code; `shown` is the text of a document.
-/

namespace Zer.Flex
open Text
variable {L : Lib} {F : Fmt}

/-- C94, every buffer of the format without typed vectors and indirect numbers (keys as values included): the dump ends, and prints
the text of the document. Missing: typed vectors and indirect numbers (`c94_flex_dump_refuted`). -/
theorem c94_flex_dump_partial {b : Bytes} {d : Doc} (h : Holding .plain b d) (hl : b.length < 2 ^ 64) :
    ∃ n, ∀ f, n ≤ f → dumpFlex F f b = .ok (shown F 0 d ++ asc "\n") :=
  ⟨sizeOf d, fun f hf => h.dumpFlex hl f hf⟩

/-- C94, every value that is written, with distinct keys without NUL: the dump is the text of the value with sorted keys. -/
theorem c94_flex_dump_written (H : L.Law) (dbg : Bool) {v : Val} (hd : v.Distinct) (hn : v.NulFree) (hf : Fits v) :
    ∃ b n, (proto L dbg).serialize v = .ok b ∧ ∀ f, n ≤ f → dumpFlex F f b = .ok (shown F 0 v.sortKeys.doc ++ asc "\n") := by
  obtain ⟨b, h1, h2, h3⟩ := bytesOf_holding H dbg (Tree.eval_emit v)
  have hl := Nat.lt_of_le_of_lt h2 hf
  have h4 := h3 hl
  rw [toDoc_eq H v hd hn] at h4
  obtain ⟨n, h5⟩ := c94_flex_dump_partial (F := F) h4 hl
  exact ⟨b, n, h1, h5⟩

/-- The hypotheses are met, and this is the text, of `{"b": [true, "x\"y"], "a": <3 bytes>}`. -/
example : ∃ v : Val, v.Distinct ∧ v.NulFree ∧ Fits v ∧
    v = .map [([0x62], .arr [.bool true, .str [0x78, 0x22, 0x79]]), ([0x61], .blob [1, 2, 3])] ∧
    shown unary 0 (.map [([0x61], .blob [1, 2, 3]), ([0x62], .vec [.bool true, .str [0x78, 0x22, 0x79]])]) =
      asc "{\n  \"a\": <blob:111 bytes>,\n  \"b\": [\n    true,\n    \"x\\\"y\"\n  ]\n}" :=
  ⟨_, by simp [Val.Distinct, Val.distinctEntries, Val.distinctList],
    by simp [Val.NulFree, Val.Each, Val.eachEntries, Val.eachList], by simp [Fits, weigh, weighList, weighEntries], rfl, by decide +kernel⟩

/-- C94, what the text tells: two buffers of the format without typed vectors and indirect numbers print the same if and only if
their documents look alike, that is, are the same except for the types of numbers that print alike, keys in place of strings, and the
contents of blobs of the same size. -/
theorem c94_flex_dump_unique (hF : F.Telling) {b c : Bytes} {d e : Doc} (hb : Holding .plain b d) (hc : Holding .plain c e)
    (lb : b.length < 2 ^ 64) (lc : c.length < 2 ^ 64) :
    (∃ f t, dumpFlex F f b = .ok t ∧ dumpFlex F f c = .ok t) ↔ LooksLike F d e := by
  constructor
  · rintro ⟨f, t, h1, h2⟩
    have det : ∀ {a : Bytes} {x : Doc}, Holding .plain a x → a.length < 2 ^ 64 → dumpFlex F f a = .ok t → t = shown F 0 x ++ asc "\n" := by
      intro a x hx ha h
      have h' := hx.dumpFlex (F := F) ha (max f (sizeOf x)) (Nat.le_max_right _ _)
      rw [dumpFlex_more (Nat.le_max_left f (sizeOf x)) h] at h'
      exact Res.ok.inj h'
    have e1 := det hb lb h1
    have e2 := det hc lc h2
    exact (sole hF d (r := asc "\n") (r' := asc "\n") (.inr (.inr ⟨[], rfl⟩)) (.inr (.inr ⟨[], rfl⟩)) (e1.symm.trans e2)).1
  · intro h
    refine ⟨sizeOf d + sizeOf e, _, hb.dumpFlex lb _ (by omega), ?_⟩
    rw [looksLike_shown d e 0 h]
    exact hc.dumpFlex lc _ (by omega)

theorem unary_telling : unary.Telling where
  inj := unary_plain.inj
  space z h := by
    simp only [unary] at h
    split at h
    · rcases List.mem_cons.1 h with h | h
      · exact absurd h (by decide)
      · exact absurd (List.mem_replicate.1 h).2 (by decide)
    · exact absurd (List.mem_replicate.1 h).2 (by decide)
  dec z c h := by
    simp only [unary] at h
    split at h
    · rcases List.mem_cons.1 h with rfl | h
      · decide
      · rw [(List.mem_replicate.1 h).2]; decide
    · rw [(List.mem_replicate.1 h).2]; decide
  dbl d c h := by rw [(List.mem_replicate.1 h).2]; decide
  decWord z h := by
    have key : ∀ c ∈ unary.dec z, c = 0x31 ∨ c = 0x2d := by
      intro c h
      simp only [unary] at h
      split at h
      · rcases List.mem_cons.1 h with rfl | h
        · exact .inr rfl
        · exact .inl (List.mem_replicate.1 h).2
      · exact .inl (List.mem_replicate.1 h).2
    simp only [List.mem_cons, List.not_mem_nil, or_false] at h
    rcases h with h | h | h <;> rw [h] at key
    · exact absurd (key 0x6e (by decide)) (by decide)
    · exact absurd (key 0x74 (by decide)) (by decide)
    · exact absurd (key 0x66 (by decide)) (by decide)
  dblWord d h := by
    have key : ∀ c ∈ unary.dbl d, c = 0x31 := fun c h => (List.mem_replicate.1 h).2
    simp only [List.mem_cons, List.not_mem_nil, or_false] at h
    rcases h with h | h | h <;> rw [h] at key
    · exact absurd (key 0x6e (by decide)) (by decide)
    · exact absurd (key 0x74 (by decide)) (by decide)
    · exact absurd (key 0x66 (by decide)) (by decide)

/-- The assumption on the output of numbers can be met. -/
example : unary.Telling := unary_telling

/-- The same for what is written: values with distinct keys without NUL that print the same look alike once their keys are sorted,
and the other way round. -/
theorem c94_flex_dump_values (hF : F.Telling) (H : L.Law) (dbg : Bool) {v w : Val} (hv : v.Distinct) (hw : w.Distinct)
    (hnv : v.NulFree) (hnw : w.NulFree) (fv : Fits v) (fw : Fits w) :
    ∃ b c, (proto L dbg).serialize v = .ok b ∧ (proto L dbg).serialize w = .ok c ∧
      ((∃ f t, dumpFlex F f b = .ok t ∧ dumpFlex F f c = .ok t) ↔ LooksLike F v.sortKeys.doc w.sortKeys.doc) := by
  obtain ⟨b, h1, h2, h3⟩ := bytesOf_holding H dbg (Tree.eval_emit v)
  obtain ⟨c, k1, k2, k3⟩ := bytesOf_holding H dbg (Tree.eval_emit w)
  have hl := Nat.lt_of_le_of_lt h2 fv
  have kl := Nat.lt_of_le_of_lt k2 fw
  have h4 := h3 hl
  have k4 := k3 kl
  rw [toDoc_eq H v hv hnv] at h4
  rw [toDoc_eq H w hw hnw] at k4
  exact ⟨b, c, h1, k1, c94_flex_dump_unique hF h4 k4 hl kl⟩

/-- C94 is false for contents of blobs: two blobs of the same size print the same, though their readers tell them apart. -/
theorem c94_flex_dump_blob_refuted (hF : F.Telling) (H : L.Law) (dbg : Bool) : ∃ v w b c, v ≠ w ∧ v.Distinct ∧ w.Distinct ∧
    (proto L dbg).serialize v = .ok b ∧ (proto L dbg).serialize w = .ok c ∧ ∃ f t, dumpFlex F f b = .ok t ∧ dumpFlex F f c = .ok t := by
  obtain ⟨b, c, h1, h2, h3⟩ := c94_flex_dump_values (v := .blob [1]) (w := .blob [2]) hF H dbg trivial trivial
    (by simp [Val.NulFree, Val.Each]) (by simp [Val.NulFree, Val.Each]) (by simp [Fits, weigh]) (by simp [Fits, weigh])
  exact ⟨.blob [1], .blob [2], b, c, by simp, trivial, trivial, h1, h2, h3.2 rfl⟩

/-- C94 is false for indirect numbers, which the reader reads: of the document `[7, 7]` nothing but unknowns is printed. -/
theorem c94_flex_dump_refuted : ∃ (b : Bytes) (v : Val), v = .arr [.int 7, .int 7] ∧ Holding .untyped b v.doc ∧
    (∃ r, opn b = .ok r ∧ reader.AgreesStrictly r v) ∧
    ∀ F f, 2 ≤ f → dumpFlex F f b = .ok (asc "[\n  <unknown>,\n  <unknown>\n]\n") := by
  have hh : Holding .untyped [7, 2, 2, 3, 24, 24, 4, 40, 1] (Val.arr [.int 7, .int 7]).doc := by
    refine .inl ⟨[7, 2, 2, 3, 24, 24, 4], 40, 1, rfl, by decide, ?_⟩
    have word : ∀ (p : Nat) (x : UInt8), ([7, 2, 2, 3, 24, 24, 4, 40, 1] : Bytes)[p]? = some x →
        Word .untyped [7, 2, 2, 3, 24, 24, 4, 40, 1] p 1 [x] := fun p x h =>
      ⟨at_get h, rfl, fun _ => .inl rfl, fun _ => Nat.mod_one _⟩
    refine .vec (q := 2) (fun _ => 24) ⟨[4], word 6 4 rfl, rfl⟩ ⟨by decide, [2], word 1 2 rfl, rfl⟩ ?_ ?_
    · intro i hi
      match i, hi with
      | 0, _ => exact at_get rfl
      | 1, _ => exact at_get rfl
    · intro i hi
      match i, hi with
      | 0, _ => exact .intAt 7 (q := 0) trivial ⟨[2], word 2 2 rfl, rfl⟩ (word 0 7 (by decide)) (by decide)
      | 1, _ => exact .intAt 7 (q := 0) trivial ⟨[3], word 3 3 rfl, rfl⟩ (word 0 7 (by decide)) (by decide)
  refine ⟨_, _, rfl, hh, c93_flex_reads_partial hh (by simp [Val.Sorted, Val.Each, Val.eachList])
    (by simp [Val.Distinct, Val.distinctList]) (by decide), fun F f hf => ?_⟩
  obtain ⟨g, rfl⟩ : ∃ g, f = g + 2 := ⟨f - 2, by omega⟩
  rfl

/-- C94 is false for typed vectors: the dump of the vector of integers `[1, 2]` shows no elements, that of the pair of integers
(a type of fixed size) not even a vector. -/
theorem c94_flex_dump_typed_refuted :
    Holding .format [2, 1, 2, 2, 44, 1] (Val.arr [.int 1, .int 2]).doc ∧
    (∀ F f, 1 ≤ f → dumpFlex F f [2, 1, 2, 2, 44, 1] = .ok (asc "[\n]\n")) ∧
    Holding .format [1, 2, 2, 64, 1] (Val.arr [.int 1, .int 2]).doc ∧
    (∀ F f, 1 ≤ f → dumpFlex F f [1, 2, 2, 64, 1] = .ok (asc "<unknown>\n")) := by
  refine ⟨c93_flex_typed_refuted.2.1, fun F f hf => ?_, .inl ⟨[1, 2, 2], 64, 1, rfl, by decide, ?_⟩, fun F f hf => ?_⟩
  · obtain ⟨g, rfl⟩ : ∃ g, f = g + 1 := ⟨f - 1, by omega⟩
    rfl
  · have word : ∀ (p : Nat) (x : UInt8), ([1, 2, 2, 64, 1] : Bytes)[p]? = some x →
        Word .format [1, 2, 2, 64, 1] p 1 [x] := fun p x h => ⟨at_get h, rfl, fun _ => .inl rfl, fun _ => Nat.mod_one _⟩
    refine .fixed (q := 0) (ety := 1) trivial (by simp [fixedElem, Val.docList]) ⟨[2], word 2 2 rfl, rfl⟩ ?_
    intro i hi
    match i, hi with
    | 0, _ => exact .int 1 (word 0 1 rfl) (by decide)
    | 1, _ => exact .int 2 (word 1 2 rfl) (by decide)
  · obtain ⟨g, rfl⟩ : ∃ g, f = g + 1 := ⟨f - 1, by omega⟩
    rfl

/-- C94 is false without bytes: the reader presents null, the dump reads in front of the buffer. -/
theorem c94_flex_dump_empty_refuted : (∃ r, opn [] = .ok r ∧ reader.AgreesStrictly r .null) ∧ ∀ F f, dumpFlex F f [] = .ub :=
  ⟨⟨_, rfl, (c93_flex_exact (v := .null) (by decide) trivial).2 ⟨.inr ⟨fun h => h, rfl, rfl⟩, trivial⟩ |>.elim
    fun r h => by obtain rfl := Res.ok.inj h.1; exact h.2⟩, fun _ _ => rfl⟩

end Zer.Flex
