import Verif.Text.Unique
import Verif.Text.Flex
import Verif.Props.FlexFormat

/-!
# `dump_flex`

`zerialize::flex::debugging`, flex.hpp:438-533: a second printer for Flex buffers, which does not go through the reader.
-/

namespace Zer.Flex
open Text

/-! ## Model -/

/-- One character inside `std::quoted`: only the quote and the backslash are escaped. -/
def quotedChar (c : UInt8) : Bytes := if c = 0x22 ∨ c = 0x5c then [0x5c, c] else [c]

/-- `std::quoted(s)` -/
def quoted (s : Bytes) : Bytes := 0x22 :: (s.flatMap quotedChar ++ [0x22])

/-- The loop of `print_vector`, flex.hpp:464-469, from element `i` on, `k` times; `print_indent`, flex.hpp:444. -/
def printElems (elem : Ref → Res Bytes) (ind : Nat) (b : Bytes) (p bw n : Nat) : Nat → Nat → Res Bytes
  | _, 0 => pure []
  | i, k + 1 => do
    let c ← elemAt b p bw n i
    let t ← elem c
    let rest ← printElems elem ind b p bw n (i + 1) k
    pure (spaces (ind + 2) ++ t ++ (if i + 1 < n then asc "," else []) ++ asc "\n" ++ rest)

/-- The loop of `print_map`, flex.hpp:450-457: as many rounds as there are values (`n`), whatever the number of keys (`kn`). -/
def printPairs (elem : Ref → Res Bytes) (ind : Nat) (b : Bytes) (p bw n kp kw kn : Nat) : Nat → Nat → Res Bytes
  | _, 0 => pure []
  | i, k + 1 => do
    let key ← keyAt b kp kw kn i
    let c ← elemAt b p bw n i
    let t ← elem c
    let rest ← printPairs elem ind b p bw n kp kw kn (i + 1) k
    pure (spaces (ind + 2) ++ quoted key ++ asc ": " ++ t ++ (if i + 1 < n then asc "," else []) ++ asc "\n" ++ rest)

/-- `print_ref`, flex.hpp:478-516, with `print_map`, 446-460, `print_vector`, 462-472, `print_blob`, 474-476; the first number bounds
the depth of the recursion. `AsVector` of a typed vector is empty. Indirect numbers, vectors of fixed size and vectors of strings are
`<unknown>`. -/
def printRef (F : Fmt) : Nat → Nat → Ref → Res Bytes
  | 0, _, _ => .diverge
  | f + 1, ind, r =>
    if r.ty = 0 then pure (asc "null")
    else if r.ty = 26 then do let n ← readU r.buf r.pos r.pw; pure (boolText (decide (n ≠ 0)))
    else if r.ty = 1 then do let i ← r.int64; pure (F.dec i.toInt)
    else if r.ty = 2 then do let n ← r.uint64; pure (F.dec (UInt64.ofNat n).toNat)
    else if r.ty = 3 then do let d ← r.double; pure (F.dbl d)
    else if r.ty = 5 then do let s ← r.sized; pure (quoted s)
    else if r.ty = 4 then do
      let q ← indirect r.buf r.pos r.pw
      let k ← cstrAt r.buf q
      pure (quoted k)
    else if r.ty = 25 then do
      let q ← indirect r.buf r.pos r.pw
      let n ← sizeAt r.buf q r.bw
      pure (asc "<blob:" ++ F.dec n ++ asc " bytes>")
    else if (10 ≤ r.ty ∧ r.ty ≤ 14) ∨ r.ty = 36 then do
      let (p, n) ← r.vector
      let t ← printElems (printRef F f (ind + 2)) ind r.buf p r.bw n 0 n
      pure (asc "[\n" ++ t ++ spaces ind ++ asc "]")
    else if r.ty = 9 then do
      let (p, n) ← r.vector
      let (kp, kw, kn) ← keysAt r.buf p r.bw
      let t ← printPairs (printRef F f (ind + 2)) ind r.buf p r.bw n kp kw kn 0 n
      pure (asc "{\n" ++ t ++ spaces ind ++ asc "}")
    else pure (asc "<unknown>")

/-- `dump_flex`, flex.hpp:519-530; `GetRoot` without a look at the size. -/
def dumpFlex (F : Fmt) (f : Nat) (b : Bytes) : Res Bytes := do
  let r ← getRoot b
  let t ← printRef F f 0 r
  pure (t ++ asc "\n")

/-! ## What it should print -/

mutual
/-- The text of a document: JSON with one element or entry per line, indented by two spaces per level. Of a blob only the size is
shown. -/
def shown (F : Fmt) (ind : Nat) : Doc → Bytes
  | .null => asc "null"
  | .bool b => if b then asc "true" else asc "false"
  | .int i => F.dec i.toInt
  | .uint n => F.dec n.toNat
  | .dbl d => F.dbl d
  | .str s => quoted s
  | .key s => quoted s
  | .blob s => asc "<blob:" ++ F.dec s.length ++ asc " bytes>"
  | .vec xs => asc "[\n" ++ lines (ind + 2) (shownList F (ind + 2) xs) ++ List.replicate ind 0x20 ++ asc "]"
  | .map ms => asc "{\n" ++ lines (ind + 2) (shownEntries F (ind + 2) ms) ++ List.replicate ind 0x20 ++ asc "}"
def shownList (F : Fmt) (ind : Nat) : List Doc → List Bytes
  | [] => []
  | x :: xs => shown F ind x :: shownList F ind xs
def shownEntries (F : Fmt) (ind : Nat) : List (Bytes × Doc) → List Bytes
  | [] => []
  | (k, x) :: ms => (quoted k ++ asc ": " ++ shown F ind x) :: shownEntries F ind ms
end

theorem shownList_eq (F : Fmt) (ind : Nat) : ∀ xs, shownList F ind xs = xs.map (shown F ind)
  | [] => rfl
  | x :: xs => by rw [shownList, shownList_eq F ind xs]; rfl

theorem shownEntries_eq (F : Fmt) (ind : Nat) : ∀ ms, shownEntries F ind ms = ms.map (fun m => quoted m.1 ++ asc ": " ++ shown F ind m.2)
  | [] => rfl
  | (k, x) :: xs => by rw [shownEntries, shownEntries_eq F ind xs]; rfl

variable {F : Fmt} {b : Bytes}

theorem printElems_lines {elem : Ref → Res Bytes} {ind : Nat} {b : Bytes} {p bw : Nat} {xs : List Doc} {child : Nat → Ref}
    (hc : ∀ i, i < xs.length → elemAt b p bw xs.length i = .ok (child i))
    (he : ∀ i (h : i < xs.length), elem (child i) = .ok (shown F (ind + 2) xs[i])) :
    ∀ k i, i + k = xs.length →
      printElems elem ind b p bw xs.length i k = .ok (lines (ind + 2) ((xs.drop i).map (shown F (ind + 2))))
  | 0, i, hi => by rw [printElems, List.drop_of_length_le (by omega)]; rfl
  | k + 1, i, hi => by
    rw [printElems, hc i (by omega), Res.ok_bind, he i (by omega), Res.ok_bind, printElems_lines hc he k (i + 1) (by omega),
      List.drop_eq_getElem_cons (i := i) (by omega), List.map_cons, lines_cons]
    have e : ((xs.drop (i + 1)).map (shown F (ind + 2)) ≠ []) = (i + 1 < xs.length) := by
      rw [ne_eq, List.map_eq_nil_iff, List.drop_eq_nil_iff]; simp
    simp only [Res.ok_bind, Res.pure_eq, e]

theorem printPairs_lines {elem : Ref → Res Bytes} {ind : Nat} {b : Bytes} {p bw kp kw : Nat} {ms : List (Bytes × Doc)}
    {child : Nat → Ref} (hk : ∀ i (h : i < ms.length), keyAt b kp kw ms.length i = .ok ms[i].1)
    (hc : ∀ i, i < ms.length → elemAt b p bw ms.length i = .ok (child i))
    (he : ∀ i (h : i < ms.length), elem (child i) = .ok (shown F (ind + 2) ms[i].2)) :
    ∀ k i, i + k = ms.length →
      printPairs elem ind b p bw ms.length kp kw ms.length i k =
        .ok (lines (ind + 2) ((ms.drop i).map (fun m => quoted m.1 ++ asc ": " ++ shown F (ind + 2) m.2)))
  | 0, i, hi => by rw [printPairs, List.drop_of_length_le (by omega)]; rfl
  | k + 1, i, hi => by
    rw [printPairs, hk i (by omega), Res.ok_bind, hc i (by omega), Res.ok_bind, he i (by omega), Res.ok_bind,
      printPairs_lines hk hc he k (i + 1) (by omega), List.drop_eq_getElem_cons (i := i) (by omega), List.map_cons, lines_cons]
    have e : ((ms.drop (i + 1)).map (fun m => quoted m.1 ++ asc ": " ++ shown F (ind + 2) m.2) ≠ []) = (i + 1 < ms.length) := by
      rw [ne_eq, List.map_eq_nil_iff, List.drop_eq_nil_iff]; simp
    simp only [Res.ok_bind, Res.pure_eq, e]
    simp only [List.append_assoc]

/-- The reference to a document in a buffer prints as the document. -/
theorem Stands.printRef (hl64 : b.length < 2 ^ 64) {p pw ty bw : Nat} {d : Doc} (h : Stands .plain b p pw ty bw d) (hbw : bw ≤ 8)
    (f ind : Nat) (hf : sizeOf d ≤ f) : printRef F f ind ⟨b, p, pw, bw, ty⟩ = .ok (shown F ind d) := by
  obtain ⟨f, rfl⟩ : ∃ g, f = g + 1 := ⟨f - 1, by cases d <;> simp at hf <;> omega⟩
  induction h generalizing f ind with
  | null => rfl
  | int i h1 h2 =>
    rw [Flex.printRef, Ref.int64]
    simp only [Nat.reduceEqDiff, if_true, if_false, h1.readI, Res.ok_bind, Res.pure_eq, ← h2, Int64.ofInt_toInt, shown]
  | uint n h1 h2 =>
    rw [Flex.printRef, Ref.uint64]
    simp only [Nat.reduceEqDiff, if_true, if_false, h1.readU, Res.ok_bind, Res.pure_eq, ← h2, UInt64.ofNat_toNat, shown]
  | dbl d h1 _ h2 =>
    rw [Flex.printRef, Ref.double]
    simp only [Nat.reduceEqDiff, if_true, if_false, h1.readF, Res.ok_bind, Res.pure_eq, ← h2, UInt64.ofNat_toNat, shown]
  | bool h1 =>
    rw [Flex.printRef]
    simp only [Nat.reduceEqDiff, if_true, if_false, h1.readU, Res.ok_bind, Res.pure_eq, shown, boolText]
  | intAt _ h0 => exact h0.elim
  | uintAt _ h0 => exact h0.elim
  | dblAt _ h0 => exact h0.elim
  | key h0 h1 h2 =>
    rw [Flex.printRef]
    simp only [Nat.reduceEqDiff, if_true, if_false, h0.indirect, cstrAt_stands h2 h1, Res.ok_bind, Res.pure_eq, shown]
  | str h0 h1 h2 _ =>
    rw [Flex.printRef, Ref.sized]
    simp only [Nat.reduceEqDiff, if_true, if_false, h0.indirect, h1.sizeAt, h2.sliceAt, Res.ok_bind, Res.pure_eq, shown]
  | blob h0 h1 h2 =>
    rw [Flex.printRef]
    simp only [Nat.reduceEqDiff, if_true, if_false, h0.indirect, h1.sizeAt, Res.ok_bind, Res.pure_eq, shown]
  | @vec p pw bw q xs t h0 h1 h2 _ ih =>
    rw [Flex.printRef, Ref.vector]
    simp only [Nat.reduceEqDiff, if_true, if_false, h0.indirect, h1.sizeAt, Res.ok_bind, Res.pure_eq, shown, or_true, true_or,
      Nat.le_refl, Nat.reduceLeDiff, and_self, shownList_eq]
    rw [printElems_lines (F := F) (child := fun i => ⟨b, q + i * bw, bw, 2 ^ ((t i).toNat % 4), (t i).toNat / 4⟩)
      (fun i hi => elemAt_of hl64 hi (h2 i hi)) (fun i hi => ?_) xs.length 0 (by omega)]
    · simp [spaces]
    · have hsz := List.sizeOf_lt_of_mem (List.getElem_mem hi)
      simp at hf
      obtain ⟨g, rfl⟩ : ∃ g, f = g + 1 := ⟨f - 1, by omega⟩
      exact ih i hi (pow_mod_four _) (ind + 2) g (by omega)
  | typed h0 => exact h0.elim
  | fixed h0 => exact h0.elim
  | hollow h0 => exact h0.elim
  | @map p pw bw q kp w n kw o ws ms t kq h0 h1 h2 h3 h4 h5 h6 h7 h8 h9 h10 ho ho' h11 h12 h13 ih =>
    obtain rfl := h2 trivial
    have hh := Stands.holds (fun h => h) hl64 (.inl trivial)
      (Stands.map t kq h0 h1 h2 h3 h4 h5 h6 h7 h8 h9 h10 ho ho' h11 h12 h13) hbw
    have hv : Ref.vector ⟨b, p, pw, bw, 9⟩ = .ok (q, ms.length) := by
      rw [Ref.vector, if_pos (.inl rfl), h0.indirect]
      simp only [Res.ok_bind]
      rw [h1.sizeAt]; rfl
    cases hh with
    | @map _ _ q' n' kp' kw' child hty hv' hk _ hkeys hch _ =>
      rw [hv] at hv'
      obtain ⟨rfl, rfl⟩ := Prod.mk.inj (Res.ok.inj hv')
      have hin : ∀ i, i < ms.length → elemAt b q bw ms.length i =
          .ok ⟨b, q + i * bw, bw, 2 ^ ((t i).toNat % 4), (t i).toNat / 4⟩ := fun i hi =>
        elemAt_of hl64 hi (ho' trivial ▸ h11 i hi hi)
      rw [Flex.printRef, hv]
      simp only at hk
      simp only [Nat.reduceEqDiff, if_true, if_false, Res.ok_bind, Res.pure_eq, shown, false_or, or_false, false_and,
        Nat.reduceLeDiff, shownEntries_eq, hk]
      rw [printPairs_lines (F := F) (child := fun i => ⟨b, q + i * bw, bw, 2 ^ ((t i).toNat % 4), (t i).toNat / 4⟩) hkeys hin
        (fun i hi => ?_) ms.length 0 (by omega)]
      · simp [spaces]
      · have hsz := List.sizeOf_lt_of_mem (List.getElem_mem hi)
        have hs2 : sizeOf ms[i] = 1 + sizeOf ms[i].1 + sizeOf ms[i].2 := rfl
        simp at hf
        obtain ⟨g, rfl⟩ : ∃ g, f = g + 1 := ⟨f - 1, by omega⟩
        exact ih i hi hi (pow_mod_four _) (ind + 2) g (by omega)

/-- A buffer of the format, without typed vectors and indirect numbers, prints as its document. -/
theorem Holding.dumpFlex {d : Doc} (h : Holding .plain b d) (hl : b.length < 2 ^ 64) (f : Nat) (hf : sizeOf d ≤ f) :
    dumpFlex F f b = .ok (shown F 0 d ++ asc "\n") := by
  obtain ⟨r, h1, -⟩ := h.opn (fun h => h) hl (.inl trivial)
  rcases h with ⟨pre, t, w, hb, hw, hs⟩ | ⟨h0, -⟩
  · rcases opn_inv h1 with ⟨rfl, -⟩ | ⟨pre', t', w', hb', -, rfl⟩
    · simp at hb
    · obtain ⟨rfl, e⟩ := List.append_inj' (hb.symm.trans hb') (by simp)
      simp only [List.cons.injEq, and_true] at e
      obtain ⟨rfl, rfl⟩ := e
      have hg : getRoot b = .ok ⟨b, pre.length - w.toNat, w.toNat, 2 ^ (t.toNat % 4), t.toNat / 4⟩ := by
        rw [Flex.opn, if_neg (by rw [hb]; simp)] at h1; exact h1
      rw [Flex.dumpFlex, hg, Res.ok_bind, hs.printRef hl (pow_mod_four _) f 0 hf]
      rfl
  · exact absurd trivial h0

/-! A recursion that has ended does not depend on the bound on its depth. -/

theorem printElems_mono {e e' : Ref → Res Bytes} (he : ∀ r t, e r = .ok t → e' r = .ok t) {ind : Nat} {b : Bytes} {p bw n : Nat} :
    ∀ k i t, printElems e ind b p bw n i k = .ok t → printElems e' ind b p bw n i k = .ok t
  | 0, i, t, h => h
  | k + 1, i, t, h => by
    rw [printElems] at h ⊢
    obtain ⟨c, h1, h⟩ := Res.bind_eq_ok.1 h
    obtain ⟨u, h2, h⟩ := Res.bind_eq_ok.1 h
    obtain ⟨w, h3, h⟩ := Res.bind_eq_ok.1 h
    rw [h1, Res.ok_bind, he c u h2, Res.ok_bind, printElems_mono he k (i + 1) w h3]
    exact h

theorem printPairs_mono {e e' : Ref → Res Bytes} (he : ∀ r t, e r = .ok t → e' r = .ok t) {ind : Nat} {b : Bytes} {p bw n kp kw kn : Nat} :
    ∀ k i t, printPairs e ind b p bw n kp kw kn i k = .ok t → printPairs e' ind b p bw n kp kw kn i k = .ok t
  | 0, i, t, h => h
  | k + 1, i, t, h => by
    rw [printPairs] at h ⊢
    obtain ⟨x, h0, h⟩ := Res.bind_eq_ok.1 h
    obtain ⟨c, h1, h⟩ := Res.bind_eq_ok.1 h
    obtain ⟨u, h2, h⟩ := Res.bind_eq_ok.1 h
    obtain ⟨w, h3, h⟩ := Res.bind_eq_ok.1 h
    rw [h0, Res.ok_bind, h1, Res.ok_bind, he c u h2, Res.ok_bind, printPairs_mono he k (i + 1) w h3]
    exact h

theorem printRef_succ : ∀ (f ind : Nat) (r : Ref) (t : Bytes), printRef F f ind r = .ok t → printRef F (f + 1) ind r = .ok t
  | 0, _, _, _, h => by cases h
  | f + 1, ind, r, t, h => by
    rw [printRef] at h ⊢
    by_cases h1 : r.ty = 0
    · rw [if_pos h1] at h ⊢; exact h
    rw [if_neg h1] at h ⊢; clear h1
    by_cases h1 : r.ty = 26
    · rw [if_pos h1] at h ⊢; exact h
    rw [if_neg h1] at h ⊢; clear h1
    by_cases h1 : r.ty = 1
    · rw [if_pos h1] at h ⊢; exact h
    rw [if_neg h1] at h ⊢; clear h1
    by_cases h1 : r.ty = 2
    · rw [if_pos h1] at h ⊢; exact h
    rw [if_neg h1] at h ⊢; clear h1
    by_cases h1 : r.ty = 3
    · rw [if_pos h1] at h ⊢; exact h
    rw [if_neg h1] at h ⊢; clear h1
    by_cases h1 : r.ty = 5
    · rw [if_pos h1] at h ⊢; exact h
    rw [if_neg h1] at h ⊢; clear h1
    by_cases h1 : r.ty = 4
    · rw [if_pos h1] at h ⊢; exact h
    rw [if_neg h1] at h ⊢; clear h1
    by_cases h1 : r.ty = 25
    · rw [if_pos h1] at h ⊢; exact h
    rw [if_neg h1] at h ⊢; clear h1
    by_cases h1 : (10 ≤ r.ty ∧ r.ty ≤ 14) ∨ r.ty = 36
    · rw [if_pos h1] at h ⊢
      obtain ⟨⟨p, n⟩, h2, h⟩ := Res.bind_eq_ok.1 h
      obtain ⟨x, h4, h⟩ := Res.bind_eq_ok.1 h
      rw [h2]
      simp only [Res.ok_bind]
      rw [printElems_mono (printRef_succ f (ind + 2)) _ _ _ h4]
      exact h
    rw [if_neg h1] at h ⊢; clear h1
    by_cases h1 : r.ty = 9
    · rw [if_pos h1] at h ⊢
      obtain ⟨⟨p, n⟩, h2, h⟩ := Res.bind_eq_ok.1 h
      obtain ⟨⟨kp, kw, kn⟩, h3, h⟩ := Res.bind_eq_ok.1 h
      obtain ⟨x, h4, h⟩ := Res.bind_eq_ok.1 h
      rw [h2]
      simp only [Res.ok_bind, h3]
      rw [printPairs_mono (printRef_succ f (ind + 2)) _ _ _ h4]
      exact h
    rw [if_neg h1] at h ⊢; clear h1
    exact h

theorem dumpFlex_more {f g : Nat} (hfg : f ≤ g) {t : Bytes} (h : Flex.dumpFlex F f b = .ok t) : Flex.dumpFlex F g b = .ok t := by
  rw [Flex.dumpFlex] at h ⊢
  obtain ⟨r, h1, h⟩ := Res.bind_eq_ok.1 h
  obtain ⟨u, h2, h⟩ := Res.bind_eq_ok.1 h
  have h3 : Flex.printRef F g 0 r = .ok u := by
    clear h
    induction hfg with
    | refl => exact h2
    | step _ ih => exact printRef_succ _ _ _ _ ih
  rw [h1, Res.ok_bind, h3]
  exact h

end Zer.Flex
