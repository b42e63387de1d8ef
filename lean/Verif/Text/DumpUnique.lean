import Verif.Text.Dump

/-!
# What `dump_flex` tells apart
-/

namespace Zer.Flex
open Text

mutual
/-- Documents that the dump does not tell apart: numbers of any type that print alike, a string and a key with the same bytes, blobs
of the same size. -/
def LooksLike (F : Fmt) : Doc → Doc → Prop
  | .null, .null => True
  | .bool a, .bool b => a = b
  | .int i, .int j => i.toInt = j.toInt
  | .int i, .uint n => i.toInt = n.toNat
  | .int i, .dbl d => F.dec i.toInt = F.dbl d
  | .uint n, .int i => (n.toNat : Int) = i.toInt
  | .uint n, .uint m => n.toNat = m.toNat
  | .uint n, .dbl d => F.dec n.toNat = F.dbl d
  | .dbl d, .int i => F.dbl d = F.dec i.toInt
  | .dbl d, .uint n => F.dbl d = F.dec n.toNat
  | .dbl d, .dbl e => F.dbl d = F.dbl e
  | .str s, .str t => s = t
  | .str s, .key t => s = t
  | .key s, .str t => s = t
  | .key s, .key t => s = t
  | .blob s, .blob t => s.length = t.length
  | .vec xs, .vec ys => LooksLikeList F xs ys
  | .map ms, .map ns => LooksLikeEntries F ms ns
  | _, _ => False
def LooksLikeList (F : Fmt) : List Doc → List Doc → Prop
  | [], [] => True
  | x :: xs, y :: ys => LooksLike F x y ∧ LooksLikeList F xs ys
  | _, _ => False
def LooksLikeEntries (F : Fmt) : List (Bytes × Doc) → List (Bytes × Doc) → Prop
  | [], [] => True
  | (k, x) :: xs, (l, y) :: ys => k = l ∧ LooksLike F x y ∧ LooksLikeEntries F xs ys
  | _, _ => False
end

/-- No character that begins a string, a blob, a vector or a map, or that ends a line. -/
def Inner (c : UInt8) : Prop := c ≠ 0x2c ∧ c ≠ 0x0a ∧ c ≠ 0x22 ∧ c ≠ 0x3c ∧ c ≠ 0x5b ∧ c ≠ 0x7b

instance (c : UInt8) : Decidable (Inner c) := inferInstanceAs (Decidable (_ ∧ _))

/-- What is used of `std::cout <<`: different integers print differently and without spaces, numbers do not print commas, newlines,
quotes and brackets, and do not print the words of the other scalars. -/
structure _root_.Zer.Fmt.Telling (F : Fmt) : Prop where
  inj : ∀ a b, F.dec a = F.dec b → a = b
  space : ∀ z, (0x20 : UInt8) ∉ F.dec z
  dec : ∀ z, ∀ c ∈ F.dec z, Inner c
  dbl : ∀ d, ∀ c ∈ F.dbl d, Inner c
  decWord : ∀ z, F.dec z ∉ [asc "null", asc "true", asc "false"]
  dblWord : ∀ d, F.dbl d ∉ [asc "null", asc "true", asc "false"]

theorem quoted_frame : ∀ {s s' r r' : Bytes}, s.flatMap quotedChar ++ 0x22 :: r = s'.flatMap quotedChar ++ 0x22 :: r' →
    s = s' ∧ r = r'
  | [], [], r, r', h => by simpa using h
  | [], c :: s', r, r', h => by
    simp only [List.flatMap_nil, List.nil_append, List.flatMap_cons, quotedChar] at h
    split at h <;> simp at h
    rename_i hc
    exact absurd (.inl h.1.symm) hc
  | c :: s, [], r, r', h => by
    simp only [List.flatMap_nil, List.nil_append, List.flatMap_cons, quotedChar] at h
    split at h <;> simp at h
    rename_i hc
    exact absurd (.inl h.1) hc
  | c :: s, c' :: s', r, r', h => by
    simp only [List.flatMap_cons, List.append_assoc] at h
    have key : c = c' ∧ s.flatMap quotedChar ++ 0x22 :: r = s'.flatMap quotedChar ++ 0x22 :: r' := by
      unfold quotedChar at h
      split at h <;> split at h
      · simp only [List.cons_append, List.nil_append, List.cons.injEq, true_and] at h; exact h
      · rename_i hc
        simp only [List.cons_append, List.nil_append, List.cons.injEq] at h
        exact absurd (.inr h.1.symm) hc
      · rename_i hc _
        simp only [List.cons_append, List.nil_append, List.cons.injEq] at h
        exact absurd (.inr h.1) hc
      · simp only [List.cons_append, List.nil_append, List.cons.injEq] at h; exact h
    obtain ⟨rfl, k⟩ := key
    obtain ⟨rfl, rfl⟩ := quoted_frame k
    exact ⟨rfl, rfl⟩

variable {F : Fmt}

/-- The text of a scalar without marks. -/
def token (F : Fmt) : Doc → Option Bytes
  | .null => some (asc "null")
  | .bool b => some (if b then asc "true" else asc "false")
  | .int i => some (F.dec i.toInt)
  | .uint n => some (F.dec n.toNat)
  | .dbl d => some (F.dbl d)
  | _ => none

theorem shown_token {d : Doc} {t : Bytes} {ind : Nat} (h : token F d = some t) : shown F ind d = t := by
  cases d <;> simp only [token, Option.some.injEq, reduceCtorEq] at h <;> simp only [shown] <;> exact h

theorem token_inner (hF : F.Telling) {d : Doc} {t : Bytes} (h : token F d = some t) : ∀ c ∈ t, Inner c := by
  cases d <;> simp only [token, Option.some.injEq, reduceCtorEq] at h <;> subst h
  · decide
  · split <;> decide
  · exact hF.dec _
  · exact hF.dec _
  · exact hF.dbl _

theorem token_alike (hF : F.Telling) {d d' : Doc} {t : Bytes} (h : token F d = some t) (h' : token F d' = some t) : LooksLike F d d' := by
  have e := h.trans h'.symm
  have w1 := hF.decWord
  have w2 := hF.dblWord
  simp only [List.mem_cons, List.not_mem_nil, or_false, not_or] at w1 w2
  have n1 : asc "null" ≠ asc "true" := by decide
  have n2 : asc "null" ≠ asc "false" := by decide
  have n3 : asc "true" ≠ asc "false" := by decide
  cases d <;> cases d' <;> simp only [token, Option.some.injEq, reduceCtorEq] at h h' e <;> simp only [LooksLike]
  case bool.bool a b => cases a <;> cases b <;> simp_all
  case int.int => exact hF.inj _ _ e
  case int.uint => exact hF.inj _ _ e
  case uint.int => exact hF.inj _ _ e
  case uint.uint => exact Int.ofNat_inj.1 (hF.inj _ _ e)
  all_goals first
    | exact e
    | (exfalso; clear h h'; grind)

theorem shown_mark {d : Doc} {ind : Nat} (h : token F d = none) : ∃ c t, shown F ind d = c :: t ∧ ¬ Inner c ∧ c ≠ 0x2c ∧ c ≠ 0x0a := by
  cases d <;> simp only [token, reduceCtorEq] at h <;> simp only [shown]
  · exact ⟨0x22, _, rfl, by decide, by decide, by decide⟩
  · exact ⟨0x22, _, rfl, by decide, by decide, by decide⟩
  · exact ⟨0x3c, _, rfl, by decide, by decide, by decide⟩
  · exact ⟨0x5b, _, rfl, by decide, by decide, by decide⟩
  · exact ⟨0x7b, _, rfl, by decide, by decide, by decide⟩

theorem ends_inner {r : Bytes} (h : Ends r) : r = [] ∨ ∃ c t, r = c :: t ∧ ¬ Inner c := by
  rcases h with h | ⟨t, h⟩ | ⟨t, h⟩
  · exact .inl h
  · exact .inr ⟨_, t, h, by decide⟩
  · exact .inr ⟨_, t, h, by decide⟩

theorem token_mark {t r r' u : Bytes} {c : UInt8} (ht : ∀ x ∈ t, Inner x) (hr : Ends r) (hc : ¬ Inner c ∧ c ≠ 0x2c ∧ c ≠ 0x0a) :
    t ++ r ≠ (c :: u) ++ r' := by
  intro h
  cases t with
  | nil =>
    rcases hr with rfl | ⟨t, rfl⟩ | ⟨t, rfl⟩ <;> simp at h
    · exact hc.2.1 h.1.symm
    · exact hc.2.2 h.1.symm
  | cons x t =>
    simp only [List.cons_append, List.cons.injEq] at h
    exact hc.1 (h.1 ▸ ht x (by simp))

/-- One reading, for one document. -/
def Sole (F : Fmt) (d : Doc) : Prop := ∀ {d' : Doc} {r r' : Bytes} {ind : Nat}, Ends r → Ends r' →
  shown F ind d ++ r = shown F ind d' ++ r' → LooksLike F d d' ∧ r = r'

theorem sole_token (hF : F.Telling) {d : Doc} {t : Bytes} (h : token F d = some t) : Sole F d := by
  intro d' r r' ind hr hr' e
  rw [shown_token h] at e
  cases h' : token F d' with
  | none =>
    obtain ⟨c, u, k, hc⟩ := shown_mark (ind := ind) h'
    rw [k] at e
    exact absurd e (token_mark (token_inner hF h) hr hc)
  | some t' =>
    rw [shown_token h'] at e
    obtain ⟨rfl, k⟩ := split_at (token_inner hF h) (token_inner hF h') (ends_inner hr) (ends_inner hr') e
    exact ⟨token_alike hF h h', k⟩

theorem sole_list {p : Nat} {c : UInt8} (hc : c ≠ 0x20) : ∀ {xs : List Doc}, (∀ x ∈ xs, Sole F x) → ∀ {ys : List Doc} {r r' : Bytes},
    lines (p + 2) (shownList F (p + 2) xs) ++ (List.replicate p 0x20 ++ c :: r) =
      lines (p + 2) (shownList F (p + 2) ys) ++ (List.replicate p 0x20 ++ c :: r') → LooksLikeList F xs ys ∧ r = r'
  | [], _, [], r, r', h => by simpa [lines, LooksLikeList, shownList] using h
  | [], _, y :: ys, r, r', h => by
    rw [shownList, shownList, lines_cons, spaces] at h
    simp only [lines, List.nil_append, List.append_assoc] at h
    exact absurd h (spaces_differ hc)
  | x :: xs, _, [], r, r', h => by
    rw [shownList, shownList, lines_cons, spaces] at h
    simp only [lines, List.nil_append, List.append_assoc] at h
    exact absurd h.symm (spaces_differ hc)
  | x :: xs, ih, y :: ys, r, r', h => by
    rw [shownList, shownList] at h
    obtain ⟨k1, k2⟩ := ih x (by simp) (sep_ends _ _) (sep_ends _ _) (lines_split h)
    obtain ⟨k3, k4⟩ := sole_list hc (fun z hz => ih z (by simp [hz])) (sep_eq k2)
    exact ⟨⟨k1, k3⟩, k4⟩

theorem sole_entries {p : Nat} {c : UInt8} (hc : c ≠ 0x20) : ∀ {xs : List (Bytes × Doc)}, (∀ x ∈ xs, Sole F x.2) →
    ∀ {ys : List (Bytes × Doc)} {r r' : Bytes},
    lines (p + 2) (shownEntries F (p + 2) xs) ++ (List.replicate p 0x20 ++ c :: r) =
      lines (p + 2) (shownEntries F (p + 2) ys) ++ (List.replicate p 0x20 ++ c :: r') → LooksLikeEntries F xs ys ∧ r = r'
  | [], _, [], r, r', h => by simpa [lines, LooksLikeEntries, shownEntries] using h
  | [], _, (_, y) :: ys, r, r', h => by
    rw [shownEntries, shownEntries, lines_cons, spaces] at h
    simp only [lines, List.nil_append, List.append_assoc] at h
    exact absurd h (spaces_differ hc)
  | (_, x) :: xs, _, [], r, r', h => by
    rw [shownEntries, shownEntries, lines_cons, spaces] at h
    simp only [lines, List.nil_append, List.append_assoc] at h
    exact absurd h.symm (spaces_differ hc)
  | (k, x) :: xs, ih, (k', y) :: ys, r, r', h => by
    rw [shownEntries, shownEntries] at h
    have e := lines_split h
    have e2 : asc ": " = [0x3a, 0x20] := rfl
    simp only [quoted, e2, List.append_assoc, List.cons_append, List.nil_append, List.cons.injEq, true_and] at e
    obtain ⟨rfl, e'⟩ := quoted_frame e
    simp only [List.cons.injEq, true_and] at e'
    obtain ⟨k1, k2⟩ := ih (k, x) (by simp) (sep_ends _ _) (sep_ends _ _) e'
    obtain ⟨k3, k4⟩ := sole_entries hc (fun z hz => ih z (by simp [hz])) (sep_eq k2)
    exact ⟨⟨rfl, k1, k3⟩, k4⟩

/-- Of two texts that continue, the one that begins like a scalar is that of a scalar. -/
theorem sole_mark (hF : F.Telling) {d d' : Doc} {r r' : Bytes} {ind : Nat} (hd : token F d = none) (hr' : Ends r')
    (e : shown F ind d ++ r = shown F ind d' ++ r') : token F d' = none := by
  cases h' : token F d' with
  | none => rfl
  | some t' =>
    obtain ⟨c, u, k, hc⟩ := shown_mark (ind := ind) hd
    rw [k, shown_token h'] at e
    exact absurd e.symm (token_mark (token_inner hF h') hr' hc)

theorem sole (hF : F.Telling) : ∀ d : Doc, Sole F d := by
  have n1 : (((0x22 : UInt8) = 0x3c) = False) := by decide
  have n1' : (((0x3c : UInt8) = 0x22) = False) := by decide
  have n2 : (((0x22 : UInt8) = 0x5b) = False) := by decide
  have n2' : (((0x5b : UInt8) = 0x22) = False) := by decide
  have n3 : (((0x22 : UInt8) = 0x7b) = False) := by decide
  have n3' : (((0x7b : UInt8) = 0x22) = False) := by decide
  have n4 : (((0x3c : UInt8) = 0x5b) = False) := by decide
  have n4' : (((0x5b : UInt8) = 0x3c) = False) := by decide
  have n5 : (((0x3c : UInt8) = 0x7b) = False) := by decide
  have n5' : (((0x7b : UInt8) = 0x3c) = False) := by decide
  have n6 : (((0x5b : UInt8) = 0x7b) = False) := by decide
  have n6' : (((0x7b : UInt8) = 0x5b) = False) := by decide
  have eo : asc "<blob:" = 0x3c :: [0x62, 0x6c, 0x6f, 0x62, 0x3a] := rfl
  have ee : asc " bytes>" = 0x20 :: [0x62, 0x79, 0x74, 0x65, 0x73, 0x3e] := rfl
  have ea : asc "[\n" = 0x5b :: [0x0a] := rfl
  have em : asc "{\n" = 0x7b :: [0x0a] := rfl
  have e2 : asc "]" = [0x5d] := rfl
  have e3 : asc "}" = [0x7d] := rfl
  intro d
  induction d using Doc.ind with
  | null => exact sole_token hF rfl
  | bool b => exact sole_token hF rfl
  | int i => exact sole_token hF rfl
  | uint i => exact sole_token hF rfl
  | dbl i => exact sole_token hF rfl
  | str s =>
    intro d' r r' ind hr hr' e
    have hm := sole_mark hF rfl hr' e
    cases d' <;> simp only [token, reduceCtorEq] at hm <;>
      simp only [shown, quoted, eo, ee, ea, em, List.append_assoc, List.cons_append, List.nil_append, List.cons.injEq,
        n1, n2, n3, n4, n5, n6, n1', n2', n3', n4', n5', n6', false_and, true_and] at e
    · exact quoted_frame e
    · exact quoted_frame e
  | key s =>
    intro d' r r' ind hr hr' e
    have hm := sole_mark hF rfl hr' e
    cases d' <;> simp only [token, reduceCtorEq] at hm <;>
      simp only [shown, quoted, eo, ee, ea, em, List.append_assoc, List.cons_append, List.nil_append, List.cons.injEq,
        n1, n2, n3, n4, n5, n6, n1', n2', n3', n4', n5', n6', false_and, true_and] at e
    · exact quoted_frame e
    · exact quoted_frame e
  | blob s =>
    intro d' r r' ind hr hr' e
    have hm := sole_mark hF rfl hr' e
    cases d' <;> simp only [token, reduceCtorEq] at hm <;>
      simp only [shown, quoted, eo, ee, ea, em, List.append_assoc, List.cons_append, List.nil_append, List.cons.injEq,
        n1, n2, n3, n4, n5, n6, n1', n2', n3', n4', n5', n6', false_and, true_and] at e
    rename_i s'
    have nosp : ∀ z, ∀ c ∈ F.dec z, c ≠ 0x20 := fun z c hc he => hF.space z (he ▸ hc)
    obtain ⟨h1, h2⟩ := split_at (P := fun c => c ≠ 0x20) (nosp _) (nosp _) (.inr ⟨_, _, rfl, by decide⟩)
      (.inr ⟨_, _, rfl, by decide⟩) e
    refine ⟨?_, by simpa using h2⟩
    exact Int.ofNat_inj.1 (hF.inj _ _ h1)
  | vec xs ih =>
    intro d' r r' ind hr hr' e
    have hm := sole_mark hF rfl hr' e
    cases d' <;> simp only [token, reduceCtorEq] at hm <;>
      simp only [shown, quoted, eo, ee, ea, em, e2, e3, List.append_assoc, List.cons_append, List.nil_append, List.cons.injEq,
        n1, n2, n3, n4, n5, n6, n1', n2', n3', n4', n5', n6', false_and, true_and] at e
    exact sole_list (by decide) ih e
  | map ms ih =>
    intro d' r r' ind hr hr' e
    have hm := sole_mark hF rfl hr' e
    cases d' <;> simp only [token, reduceCtorEq] at hm <;>
      simp only [shown, quoted, eo, ee, ea, em, e2, e3, List.append_assoc, List.cons_append, List.nil_append, List.cons.injEq,
        n1, n2, n3, n4, n5, n6, n1', n2', n3', n4', n5', n6', false_and, true_and] at e
    exact sole_entries (by decide) ih e

theorem looksLikeList_shown {ind : Nat} : ∀ {xs ys : List Doc}, (∀ x ∈ xs, ∀ y, LooksLike F x y → shown F ind x = shown F ind y) →
    LooksLikeList F xs ys → shownList F ind xs = shownList F ind ys
  | [], [], _, _ => rfl
  | [], _ :: _, _, h => h.elim
  | _ :: _, [], _, h => h.elim
  | x :: xs, y :: ys, ih, h => by
    rw [shownList, shownList, ih x (by simp) y h.1, looksLikeList_shown (fun z hz => ih z (by simp [hz])) h.2]

theorem looksLikeEntries_shown {ind : Nat} : ∀ {xs ys : List (Bytes × Doc)},
    (∀ x ∈ xs, ∀ y, LooksLike F x.2 y → shown F ind x.2 = shown F ind y) →
    LooksLikeEntries F xs ys → shownEntries F ind xs = shownEntries F ind ys
  | [], [], _, _ => rfl
  | [], (_, _) :: _, _, h => h.elim
  | (_, _) :: _, [], _, h => h.elim
  | (k, x) :: xs, (l, y) :: ys, ih, h => by
    obtain ⟨rfl, h1, h2⟩ := h
    rw [shownEntries, shownEntries, ih (k, x) (by simp) y h1, looksLikeEntries_shown (fun z hz => ih z (by simp [hz])) h2]

theorem looksLike_shown : ∀ (d d' : Doc) (ind : Nat), LooksLike F d d' → shown F ind d = shown F ind d' := by
  intro d
  induction d using Doc.ind with
  | vec xs ih =>
    intro d' ind h
    cases d' <;> simp only [LooksLike] at h
    rw [shown, shown, looksLikeList_shown (fun x hx y hy => ih x hx y (ind + 2) hy) h]
  | map xs ih =>
    intro d' ind h
    cases d' <;> simp only [LooksLike] at h
    rw [shown, shown, looksLikeEntries_shown (fun x hx y hy => ih x hx y (ind + 2) hy) h]
  | _ =>
    intro d' ind h
    cases d' <;> simp only [LooksLike] at h <;> simp only [shown, h]

end Zer.Flex
