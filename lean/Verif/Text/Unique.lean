import Verif.Text.Spec

/-!
# A debug text has one reading
-/

namespace Zer.Text

mutual
/-- What the debug text distinguishes: everything except signed from unsigned integers, the contents of blobs, and doubles
that print alike. -/
def Alike (F : Fmt) : Val → Val → Prop
  | .null, .null => True
  | .bool a, .bool b => a = b
  | .int i, .int j => i.toInt = j.toInt
  | .int i, .uint n => i.toInt = n.toNat
  | .uint n, .int i => n.toNat = i.toInt
  | .uint n, .uint m => n.toNat = m.toNat
  | .dbl d, .dbl e => F.dbl d = F.dbl e
  | .str s, .str t => s = t
  | .blob s, .blob t => s.length = t.length
  | .arr xs, .arr ys => AlikeList F xs ys
  | .map ms, .map ns => AlikeEntries F ms ns
  | _, _ => False
def AlikeList (F : Fmt) : List Val → List Val → Prop
  | [], [] => True
  | x :: xs, y :: ys => Alike F x y ∧ AlikeList F xs ys
  | _, _ => False
def AlikeEntries (F : Fmt) : List (Bytes × Val) → List (Bytes × Val) → Prop
  | [], [] => True
  | (k, x) :: xs, (l, y) :: ys => k = l ∧ Alike F x y ∧ AlikeEntries F xs ys
  | _, _ => False
end

/-- What is used of `os <<`: different integers print differently, and neither integers nor doubles print a comma, a
newline or a closing bracket. -/
structure _root_.Zer.Fmt.Plain (F : Fmt) : Prop where
  inj : ∀ a b, F.dec a = F.dec b → a = b
  dec : ∀ z, ∀ c ∈ F.dec z, c ≠ 0x2c ∧ c ≠ 0x0a ∧ c ≠ 0x5d
  dbl : ∀ d, ∀ c ∈ F.dbl d, c ≠ 0x2c ∧ c ≠ 0x0a

/-- The words of a style tell the kinds apart, and its quoted strings can be told from what follows. -/
structure Style.Clear (S : Style) : Prop where
  nul : ∃ t, S.nul = 0x6e :: t
  boo : ∃ t, S.boo = 0x62 :: 0x6f :: t
  int : ∃ t, S.int = 0x69 :: t
  uint : ∃ t, S.uint = 0x75 :: t
  flt : ∃ t, S.flt = 0x66 :: t
  str : ∃ t, S.str = 0x73 :: t
  blob : ∃ x t, S.blob = 0x62 :: x :: t ∧ x ≠ 0x6f
  quote : ∀ s s' r r', S.quote s ++ 0x22 :: r = S.quote s' ++ 0x22 :: r' → s = s' ∧ r = r'

theorem esc_frame {s s' r r' : Bytes} (h : esc s ++ 0x22 :: r = esc s' ++ 0x22 :: r') : s = s' ∧ r = r' :=
  have := (esc_body s).frame (esc_body s') h
  ⟨this.1, this.2.2⟩

theorem colon_clear : colon.Clear :=
  ⟨⟨_, rfl⟩, ⟨_, rfl⟩, ⟨_, rfl⟩, ⟨_, rfl⟩, ⟨_, rfl⟩, ⟨_, rfl⟩, ⟨_, _, rfl, by decide⟩, fun _ _ _ _ => esc_frame⟩

theorem bar_clear : bar.Clear :=
  ⟨⟨_, rfl⟩, ⟨_, rfl⟩, ⟨_, rfl⟩, ⟨_, rfl⟩, ⟨_, rfl⟩, ⟨_, rfl⟩, ⟨_, _, rfl, by decide⟩, fun _ _ _ _ => esc_frame⟩

/-- The text ends, or goes on with a comma or a newline. -/
def Ends (r : Bytes) : Prop := r = [] ∨ (∃ t, r = 0x2c :: t) ∨ ∃ t, r = 0x0a :: t

theorem split_at {a b r r' : Bytes} {P : UInt8 → Prop} (ha : ∀ c ∈ a, P c) (hb : ∀ c ∈ b, P c)
    (hr : r = [] ∨ ∃ c t, r = c :: t ∧ ¬ P c) (hr' : r' = [] ∨ ∃ c t, r' = c :: t ∧ ¬ P c) (h : a ++ r = b ++ r') :
    a = b ∧ r = r' := by
  induction a generalizing b with
  | nil =>
    cases b with
    | nil => exact ⟨rfl, h⟩
    | cons y b =>
      rcases hr with rfl | ⟨c, t, rfl, hc⟩
      · simp at h
      · simp only [List.nil_append, List.cons_append, List.cons.injEq] at h
        exact absurd (hb y (by simp)) (h.1 ▸ hc)
  | cons x a ih =>
    cases b with
    | nil =>
      rcases hr' with rfl | ⟨c, t, rfl, hc⟩
      · simp at h
      · simp only [List.nil_append, List.cons_append, List.cons.injEq] at h
        exact absurd (ha x (by simp)) (h.1 ▸ hc)
    | cons y b =>
      simp only [List.cons_append, List.cons.injEq] at h
      obtain ⟨rfl, h⟩ := h
      obtain ⟨rfl, h2⟩ := ih (fun c hc => ha c (by simp [hc])) (fun c hc => hb c (by simp [hc])) h
      exact ⟨rfl, h2⟩

section
variable {F : Fmt} (hF : Fmt.Plain F)
include hF

theorem dec_ends {a b : Int} {r r' : Bytes} (hr : Ends r) (hr' : Ends r') (h : F.dec a ++ r = F.dec b ++ r') :
    a = b ∧ r = r' := by
  have key : ∀ {r}, Ends r → r = [] ∨ ∃ c t, r = c :: t ∧ ¬ (c ≠ 0x2c ∧ c ≠ 0x0a ∧ c ≠ 0x5d) := by
    rintro r (h | ⟨t, h⟩ | ⟨t, h⟩)
    · exact .inl h
    · exact .inr ⟨_, t, h, by decide⟩
    · exact .inr ⟨_, t, h, by decide⟩
  obtain ⟨h1, h2⟩ := split_at (hF.dec a) (hF.dec b) (key hr) (key hr') h
  exact ⟨hF.inj _ _ h1, h2⟩

theorem dec_bracket {a b : Int} {r r' : Bytes} (h : F.dec a ++ 0x5d :: r = F.dec b ++ 0x5d :: r') : a = b ∧ r = r' := by
  obtain ⟨h1, h2⟩ := split_at (hF.dec a) (hF.dec b) (.inr ⟨_, r, rfl, by decide⟩) (.inr ⟨_, r', rfl, by decide⟩) h
  exact ⟨hF.inj _ _ h1, by simpa using h2⟩

theorem dbl_ends {a b : UInt64} {r r' : Bytes} (hr : Ends r) (hr' : Ends r') (h : F.dbl a ++ r = F.dbl b ++ r') :
    F.dbl a = F.dbl b ∧ r = r' := by
  have key : ∀ {r}, Ends r → r = [] ∨ ∃ c t, r = c :: t ∧ ¬ (c ≠ 0x2c ∧ c ≠ 0x0a) := by
    rintro r (h | ⟨t, h⟩ | ⟨t, h⟩)
    · exact .inl h
    · exact .inr ⟨_, t, h, by decide⟩
    · exact .inr ⟨_, t, h, by decide⟩
  exact split_at (hF.dbl a) (hF.dbl b) (key hr) (key hr') h

end

theorem spaces_differ {n : Nat} {c : UInt8} (hc : c ≠ 0x20) {r t : Bytes} :
    List.replicate n 0x20 ++ c :: r ≠ List.replicate (n + 2) 0x20 ++ t := by
  intro h
  rw [← List.replicate_append_replicate, List.append_assoc, List.append_cancel_left_eq] at h
  simp [List.replicate] at h
  exact hc h.1

section
variable {F : Fmt} {S : Style}

/-- One reading, for one value. -/
def One (F : Fmt) (S : Style) (v : Val) : Prop := ∀ {w : Val} {t u r r' : Bytes} {pad : Nat}, Prints S F pad v t → Prints S F pad w u →
  Ends r → Ends r' → t ++ r = u ++ r' → Alike F v w ∧ r = r'

theorem lines_split {p : Nat} {l l' : Bytes} {ls ls' : List Bytes} {tail tail' : Bytes}
    (h : lines p (l :: ls) ++ tail = lines p (l' :: ls') ++ tail') :
    l ++ ((if ls ≠ [] then asc "," else []) ++ 0x0a :: (lines p ls ++ tail)) =
      l' ++ ((if ls' ≠ [] then asc "," else []) ++ 0x0a :: (lines p ls' ++ tail')) := by
  have e : asc "\n" = [0x0a] := rfl
  rw [lines_cons, lines_cons, e] at h
  simpa [spaces] using h

theorem sep_ends (ls : List Bytes) (t : Bytes) : Ends ((if ls ≠ [] then asc "," else []) ++ 0x0a :: t) := by
  by_cases h : ls = []
  · exact .inr (.inr ⟨t, by simp [h]⟩)
  · exact .inr (.inl ⟨0x0a :: t, by simp [h]; rfl⟩)

theorem sep_eq {ls ls' : List Bytes} {t t' : Bytes}
    (h : (if ls ≠ [] then asc "," else []) ++ 0x0a :: t = (if ls' ≠ [] then asc "," else []) ++ 0x0a :: t') : t = t' := by
  have e : asc "," = [0x2c] := rfl
  by_cases h1 : ls = [] <;> by_cases h2 : ls' = [] <;> simp [h1, h2, e] at h <;> exact h

theorem list_one {p : Nat} {c : UInt8} (hc : c ≠ 0x20) : ∀ {xs : List Val}, (∀ x ∈ xs, One F S x) →
    ∀ {ys : List Val} {ls ls' : List Bytes} {r r' : Bytes}, PrintsList S F (p + 2) xs ls → PrintsList S F (p + 2) ys ls' →
    lines (p + 2) ls ++ (List.replicate p 0x20 ++ c :: r) = lines (p + 2) ls' ++ (List.replicate p 0x20 ++ c :: r') →
    AlikeList F xs ys ∧ r = r'
  | [], _, [], ls, ls', r, r', h1, h2, h => by
    simp only [PrintsList] at h1 h2
    subst h1 h2
    simpa [lines, AlikeList] using h
  | [], _, y :: ys, ls, ls', r, r', h1, h2, h => by
    simp only [PrintsList] at h1 h2
    obtain ⟨u, us, _, _, rfl⟩ := h2
    subst h1
    rw [lines_cons, spaces] at h
    simp only [lines, List.nil_append, List.append_assoc] at h
    exact absurd h (spaces_differ hc)
  | x :: xs, _, [], ls, ls', r, r', h1, h2, h => by
    simp only [PrintsList] at h1 h2
    obtain ⟨u, us, _, _, rfl⟩ := h1
    subst h2
    rw [lines_cons, spaces] at h
    simp only [lines, List.nil_append, List.append_assoc] at h
    exact absurd h.symm (spaces_differ hc)
  | x :: xs, ih, y :: ys, ls, ls', r, r', h1, h2, h => by
    simp only [PrintsList] at h1 h2
    obtain ⟨t, ts, h3, h4, rfl⟩ := h1
    obtain ⟨u, us, h5, h6, rfl⟩ := h2
    obtain ⟨k1, k2⟩ := ih x (by simp) h3 h5 (sep_ends _ _) (sep_ends _ _) (lines_split h)
    obtain ⟨k3, k4⟩ := list_one hc (fun z hz => ih z (by simp [hz])) h4 h6 (sep_eq k2)
    exact ⟨⟨k1, k3⟩, k4⟩

theorem entries_one (hS : S.Clear) {p : Nat} {c : UInt8} (hc : c ≠ 0x20) : ∀ {xs : List (Bytes × Val)}, (∀ x ∈ xs, One F S x.2) →
    ∀ {ys : List (Bytes × Val)} {ls ls' : List Bytes} {r r' : Bytes}, PrintsEntries S F (p + 2) xs ls → PrintsEntries S F (p + 2) ys ls' →
    lines (p + 2) ls ++ (List.replicate p 0x20 ++ c :: r) = lines (p + 2) ls' ++ (List.replicate p 0x20 ++ c :: r') →
    AlikeEntries F xs ys ∧ r = r'
  | [], _, [], ls, ls', r, r', h1, h2, h => by
    simp only [PrintsEntries] at h1 h2
    subst h1 h2
    simpa [lines, AlikeEntries] using h
  | [], _, (_, y) :: ys, ls, ls', r, r', h1, h2, h => by
    simp only [PrintsEntries] at h1 h2
    obtain ⟨u, us, _, _, rfl⟩ := h2
    subst h1
    rw [lines_cons, spaces] at h
    simp only [lines, List.nil_append, List.append_assoc] at h
    exact absurd h (spaces_differ hc)
  | (_, x) :: xs, _, [], ls, ls', r, r', h1, h2, h => by
    simp only [PrintsEntries] at h1 h2
    obtain ⟨u, us, _, _, rfl⟩ := h1
    subst h2
    rw [lines_cons, spaces] at h
    simp only [lines, List.nil_append, List.append_assoc] at h
    exact absurd h.symm (spaces_differ hc)
  | (k, x) :: xs, ih, (k', y) :: ys, ls, ls', r, r', h1, h2, h => by
    simp only [PrintsEntries] at h1 h2
    obtain ⟨t, ts, h3, h4, rfl⟩ := h1
    obtain ⟨u, us, h5, h6, rfl⟩ := h2
    have e := lines_split h
    have e1 : asc "\"" = [0x22] := rfl
    have e2 : asc "\": " = 0x22 :: [0x3a, 0x20] := rfl
    simp only [e1, e2, List.append_assoc, List.cons_append, List.nil_append, List.cons.injEq, true_and] at e
    obtain ⟨rfl, e'⟩ := hS.quote _ _ _ _ e
    simp only [List.cons.injEq, true_and] at e'
    obtain ⟨k1, k2⟩ := ih (k, x) (by simp) h3 h5 (sep_ends _ _) (sep_ends _ _) e'
    obtain ⟨k3, k4⟩ := entries_one hS hc (fun z hz => ih z (by simp [hz])) h4 h6 (sep_eq k2)
    exact ⟨⟨rfl, k1, k3⟩, k4⟩

theorem one (hF : Fmt.Plain F) (hS : S.Clear) : ∀ v : Val, One F S v := by
  obtain ⟨tn, en⟩ := hS.nul
  obtain ⟨tb, eb⟩ := hS.boo
  obtain ⟨ti, ei⟩ := hS.int
  obtain ⟨tu, eu⟩ := hS.uint
  obtain ⟨tf, ef⟩ := hS.flt
  obtain ⟨ts, es⟩ := hS.str
  obtain ⟨xo, to, eo, ho⟩ := hS.blob
  have ea : asc "arr [\n" = 0x61 :: [0x72, 0x72, 0x20, 0x5b, 0x0a] := rfl
  have em : asc "map {\n" = 0x6d :: [0x61, 0x70, 0x20, 0x7b, 0x0a] := rfl
  have e1 : asc "\"" = [0x22] := rfl
  have e2 : asc "]" = [0x5d] := rfl
  have e3 : asc "}" = [0x7d] := rfl
  have ho' : ¬ 0x6f = xo := fun h => ho h.symm
  have num : ∀ {a b : Int} {w w' r r' : Bytes}, (w = S.int ∨ w = S.uint) → (w' = S.int ∨ w' = S.uint) → Ends r → Ends r' →
      w ++ F.dec a ++ r = w' ++ F.dec b ++ r' → a = b ∧ r = r' := by
    intro a b w w' r r' hw hw' hr hr' h
    rcases hw with rfl | rfl <;> rcases hw' with rfl | rfl
    · rw [List.append_assoc, List.append_assoc, List.append_cancel_left_eq] at h
      exact dec_ends hF hr hr' h
    · simp [ei, eu] at h
    · simp [ei, eu] at h
    · rw [List.append_assoc, List.append_assoc, List.append_cancel_left_eq] at h
      exact dec_ends hF hr hr' h
  intro v
  induction v using Val.ind with
  | null =>
    intro w t u r r' pad h1 h2 hr hr' h
    cases w <;> simp only [Prints] at h1 h2
    case null => subst h1 h2; exact ⟨trivial, by simpa using h⟩
    case int => subst h1; rcases h2 with rfl | ⟨_, rfl⟩ <;> simp [en, ei, eu] at h
    case uint => subst h1; rcases h2 with rfl | rfl <;> simp [en, ei, eu] at h
    case arr => subst h1; obtain ⟨_, _, rfl⟩ := h2; simp [en, ea] at h
    case map => subst h1; obtain ⟨_, _, rfl⟩ := h2; simp [en, em] at h
    all_goals subst h1 h2; simp [en, eb, ef, es, eo] at h
  | bool b =>
    intro w t u r r' pad h1 h2 hr hr' h
    cases w <;> simp only [Prints] at h1 h2
    case bool b' =>
      subst h1 h2
      rw [List.append_assoc, List.append_assoc, List.append_cancel_left_eq] at h
      have et : asc "true" = 0x74 :: [0x72, 0x75, 0x65] := rfl
      have ef : asc "false" = 0x66 :: [0x61, 0x6c, 0x73, 0x65] := rfl
      cases b <;> cases b' <;> simp [et, ef] at h
      · exact ⟨rfl, h⟩
      · exact ⟨rfl, h⟩
    case int => subst h1; rcases h2 with rfl | ⟨_, rfl⟩ <;> simp [eb, ei, eu] at h
    case uint => subst h1; rcases h2 with rfl | rfl <;> simp [eb, ei, eu] at h
    case arr => subst h1; obtain ⟨_, _, rfl⟩ := h2; simp [eb, ea] at h
    case map => subst h1; obtain ⟨_, _, rfl⟩ := h2; simp [eb, em] at h
    all_goals subst h1 h2; simp [en, eb, ef, es, eo, ho, ho'] at h
  | int i =>
    intro w t u r r' pad h1 h2 hr hr' h
    have h1 : ∃ w, (w = S.int ∨ w = S.uint) ∧ t = w ++ F.dec i.toInt := by
      simp only [Prints] at h1
      rcases h1 with rfl | ⟨_, rfl⟩
      · exact ⟨_, .inl rfl, rfl⟩
      · exact ⟨_, .inr rfl, rfl⟩
    obtain ⟨w1, hw1, rfl⟩ := h1
    cases w <;> simp only [Prints] at h2
    case int j =>
      rcases h2 with rfl | ⟨_, rfl⟩
      · exact num hw1 (.inl rfl) hr hr' h
      · exact num hw1 (.inr rfl) hr hr' h
    case uint j =>
      rcases h2 with rfl | rfl
      · exact num hw1 (.inl rfl) hr hr' h
      · exact num hw1 (.inr rfl) hr hr' h
    case arr => obtain ⟨_, _, rfl⟩ := h2; rcases hw1 with rfl | rfl <;> simp [ei, eu, ea] at h
    case map => obtain ⟨_, _, rfl⟩ := h2; rcases hw1 with rfl | rfl <;> simp [ei, eu, em] at h
    all_goals subst h2; rcases hw1 with rfl | rfl <;> simp [en, ei, eu, eb, ef, es, eo] at h
  | uint n =>
    intro w t u r r' pad h1 h2 hr hr' h
    have h1 : ∃ w, (w = S.int ∨ w = S.uint) ∧ t = w ++ F.dec n.toNat := by
      simp only [Prints] at h1
      rcases h1 with rfl | rfl
      · exact ⟨_, .inl rfl, rfl⟩
      · exact ⟨_, .inr rfl, rfl⟩
    obtain ⟨w1, hw1, rfl⟩ := h1
    cases w <;> simp only [Prints] at h2
    case int j =>
      rcases h2 with rfl | ⟨_, rfl⟩
      · exact num hw1 (.inl rfl) hr hr' h
      · exact num hw1 (.inr rfl) hr hr' h
    case uint j =>
      simp only [Alike]
      rcases h2 with rfl | rfl
      · have := num hw1 (.inl rfl) hr hr' h
        exact ⟨Int.ofNat_inj.1 this.1, this.2⟩
      · have := num hw1 (.inr rfl) hr hr' h
        exact ⟨Int.ofNat_inj.1 this.1, this.2⟩
    case arr => obtain ⟨_, _, rfl⟩ := h2; rcases hw1 with rfl | rfl <;> simp [ei, eu, ea] at h
    case map => obtain ⟨_, _, rfl⟩ := h2; rcases hw1 with rfl | rfl <;> simp [ei, eu, em] at h
    all_goals subst h2; rcases hw1 with rfl | rfl <;> simp [en, ei, eu, eb, ef, es, eo] at h
  | dbl d =>
    intro w t u r r' pad h1 h2 hr hr' h
    cases w <;> simp only [Prints] at h1 h2
    case dbl e =>
      subst h1 h2
      rw [List.append_assoc, List.append_assoc, List.append_cancel_left_eq] at h
      exact dbl_ends hF hr hr' h
    case int => subst h1; rcases h2 with rfl | ⟨_, rfl⟩ <;> simp [ef, ei, eu] at h
    case uint => subst h1; rcases h2 with rfl | rfl <;> simp [ef, ei, eu] at h
    case arr => subst h1; obtain ⟨_, _, rfl⟩ := h2; simp [ef, ea] at h
    case map => subst h1; obtain ⟨_, _, rfl⟩ := h2; simp [ef, em] at h
    all_goals subst h1 h2; simp [en, eb, ef, es, eo] at h
  | str s =>
    intro w t u r r' pad h1 h2 hr hr' h
    cases w <;> simp only [Prints] at h1 h2
    case str s' =>
      subst h1 h2
      simp only [e1, List.append_assoc, List.append_cancel_left_eq, List.cons_append, List.nil_append] at h
      exact hS.quote _ _ _ _ h
    case int => subst h1; rcases h2 with rfl | ⟨_, rfl⟩ <;> simp [es, ei, eu] at h
    case uint => subst h1; rcases h2 with rfl | rfl <;> simp [es, ei, eu] at h
    case arr => subst h1; obtain ⟨_, _, rfl⟩ := h2; simp [es, ea] at h
    case map => subst h1; obtain ⟨_, _, rfl⟩ := h2; simp [es, em] at h
    all_goals subst h1 h2; simp [en, eb, ef, es, eo] at h
  | blob s =>
    intro w t u r r' pad h1 h2 hr hr' h
    cases w <;> simp only [Prints] at h1 h2
    case blob s' =>
      subst h1 h2
      simp only [e2, List.append_assoc, List.append_cancel_left_eq, List.cons_append, List.nil_append] at h
      have := dec_bracket hF h
      exact ⟨Int.ofNat_inj.1 this.1, this.2⟩
    case int => subst h1; rcases h2 with rfl | ⟨_, rfl⟩ <;> simp [eo, ei, eu] at h
    case uint => subst h1; rcases h2 with rfl | rfl <;> simp [eo, ei, eu] at h
    case arr => subst h1; obtain ⟨_, _, rfl⟩ := h2; simp [eo, ea] at h
    case map => subst h1; obtain ⟨_, _, rfl⟩ := h2; simp [eo, em] at h
    all_goals subst h1 h2; simp [en, eb, ef, es, eo, ho, ho'] at h
  | arr xs ih =>
    intro w t u r r' pad h1 h2 hr hr' h
    cases w <;> simp only [Prints] at h1 h2 <;> obtain ⟨ls, h1, rfl⟩ := h1
    case arr ys =>
      obtain ⟨ms, h2, rfl⟩ := h2
      simp only [e2, List.append_assoc, List.append_cancel_left_eq, List.cons_append, List.nil_append] at h
      exact list_one (by decide) ih h1 h2 h
    case int => rcases h2 with rfl | ⟨_, rfl⟩ <;> simp [ea, ei, eu] at h
    case uint => rcases h2 with rfl | rfl <;> simp [ea, ei, eu] at h
    case map => obtain ⟨_, _, rfl⟩ := h2; simp [ea, em] at h
    all_goals subst h2; simp [en, eb, ef, es, eo, ea] at h
  | map xs ih =>
    intro w t u r r' pad h1 h2 hr hr' h
    cases w <;> simp only [Prints] at h1 h2 <;> obtain ⟨ls, h1, rfl⟩ := h1
    case map ys =>
      obtain ⟨ms, h2, rfl⟩ := h2
      simp only [e3, List.append_assoc, List.append_cancel_left_eq, List.cons_append, List.nil_append] at h
      exact entries_one hS (by decide) ih h1 h2 h
    case int => rcases h2 with rfl | ⟨_, rfl⟩ <;> simp [em, ei, eu] at h
    case uint => rcases h2 with rfl | rfl <;> simp [em, ei, eu] at h
    case arr => obtain ⟨_, _, rfl⟩ := h2; simp [ea, em] at h
    all_goals subst h2; simp [en, eb, ef, es, eo, em] at h

end

end Zer.Text
