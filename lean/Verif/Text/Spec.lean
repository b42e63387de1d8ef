import Verif.Text.Model

/-!
# What the debug texts should look like

Independent of the code that prints: the grammar of the inside of a JSON string (RFC 8259, section 7), and the layout of a
value tree in one of the two styles the readers use.
-/

namespace Zer.Text

/-- Value of a hexadecimal digit, of either case. -/
def digit (c : UInt8) : Option Nat :=
  if 0x30 ≤ c ∧ c ≤ 0x39 then some (c.toNat - 0x30)
  else if 0x41 ≤ c ∧ c ≤ 0x46 then some (c.toNat - 0x41 + 10)
  else if 0x61 ≤ c ∧ c ≤ 0x66 then some (c.toNat - 0x61 + 10)
  else none

/-- Two-character escapes: the character after the backslash and the character it stands for. -/
def short : List (UInt8 × UInt8) :=
  [(0x22, 0x22), (0x5c, 0x5c), (0x2f, 0x2f), (0x62, 0x08), (0x66, 0x0c), (0x6e, 0x0a), (0x72, 0x0d), (0x74, 0x09)]

/-- `Body s t`: between two quotes, `t` is the string `s` (bytes from 0x80 on stand for themselves; `\u` for ASCII). -/
inductive Body : Bytes → Bytes → Prop where
  | nil : Body [] []
  | raw {c : UInt8} {s t : Bytes} : 0x20 ≤ c → c ≠ 0x22 → c ≠ 0x5c → Body s t → Body (c :: s) (c :: t)
  | short {e c : UInt8} {s t : Bytes} : (e, c) ∈ short → Body s t → Body (c :: s) (0x5c :: e :: t)
  | uni {a b c d x : UInt8} {i j : Nat} {s t : Bytes} : digit a = some 0 → digit b = some 0 → digit c = some i → digit d = some j →
      x.toNat = 16 * i + j → x < 0x80 → Body s t → Body (x :: s) (0x5c :: 0x75 :: a :: b :: c :: d :: t)

/-- Words of a style, and what it does to strings. -/
structure Style where
  nul : Bytes
  boo : Bytes
  int : Bytes
  uint : Bytes
  flt : Bytes
  str : Bytes
  blob : Bytes
  quote : Bytes → Bytes

/-- Lines at indentation `pad`, separated by commas, each ended by a newline. -/
def lines (pad : Nat) : List Bytes → Bytes
  | [] => []
  | [l] => List.replicate pad 0x20 ++ l ++ asc "\n"
  | l :: m :: ls => List.replicate pad 0x20 ++ l ++ asc ",\n" ++ lines pad (m :: ls)

mutual
/-- `Prints S F pad v t`: `t` is the text of `v` in style `S` inside a line at indentation `pad`. An integer that is not
negative may be shown as signed or as unsigned. Of a blob only the size is shown. -/
def Prints (S : Style) (F : Fmt) (pad : Nat) : Val → Bytes → Prop
  | .null, t => t = S.nul
  | .bool b, t => t = S.boo ++ (if b then asc "true" else asc "false")
  | .int i, t => t = S.int ++ F.dec i.toInt ∨ 0 ≤ i.toInt ∧ t = S.uint ++ F.dec i.toInt
  | .uint n, t => t = S.int ++ F.dec n.toNat ∨ t = S.uint ++ F.dec n.toNat
  | .dbl d, t => t = S.flt ++ F.dbl d
  | .str s, t => t = S.str ++ S.quote s ++ asc "\""
  | .blob s, t => t = S.blob ++ F.dec s.length ++ asc "]"
  | .arr xs, t => ∃ ls, PrintsList S F (pad + 2) xs ls ∧
      t = asc "arr [\n" ++ lines (pad + 2) ls ++ List.replicate pad 0x20 ++ asc "]"
  | .map ms, t => ∃ ls, PrintsEntries S F (pad + 2) ms ls ∧
      t = asc "map {\n" ++ lines (pad + 2) ls ++ List.replicate pad 0x20 ++ asc "}"
/-- One line per element. -/
def PrintsList (S : Style) (F : Fmt) (pad : Nat) : List Val → List Bytes → Prop
  | [], ls => ls = []
  | x :: xs, ls => ∃ t ts, Prints S F pad x t ∧ PrintsList S F pad xs ts ∧ ls = t :: ts
/-- One line `"key": value` per entry. -/
def PrintsEntries (S : Style) (F : Fmt) (pad : Nat) : List (Bytes × Val) → List Bytes → Prop
  | [], ls => ls = []
  | (k, v) :: ms, ls => ∃ t ts, Prints S F pad v t ∧ PrintsEntries S F pad ms ts ∧
      ls = (asc "\"" ++ S.quote k ++ asc "\": " ++ t) :: ts
end

/-- The style of the MessagePack reader. -/
def colon : Style := ⟨asc "null: null", asc "bool: ", asc "int: ", asc "uint: ", asc "float: ", asc "str: \"", asc "bin[size=", esc⟩

/-- The style of the Flex reader. -/
def bar : Style := ⟨asc "null|null", asc "bool| ", asc "int|", asc "uint|", asc "float|", asc "str|\"", asc "blob[size=", esc⟩

/-- The style of the CBOR reader: strings as they are. -/
def rawBar : Style := { bar with quote := id }

theorem lines_cons (pad : Nat) (l : Bytes) (ls : List Bytes) :
    lines pad (l :: ls) = spaces pad ++ l ++ (if ls ≠ [] then asc "," else []) ++ asc "\n" ++ lines pad ls := by
  cases ls with
  | nil => simp [lines, spaces]
  | cons m ls =>
    have : asc ",\n" = asc "," ++ asc "\n" := rfl
    simp [lines, spaces, this]

section
variable {S : Style} {F : Fmt} {pad : Nat}

theorem PrintsList.length : ∀ {xs : List Val} {ls : List Bytes}, PrintsList S F pad xs ls → ls.length = xs.length
  | [], _, h => by simp only [PrintsList] at h; simp [h]
  | x :: xs, _, h => by
    simp only [PrintsList] at h
    obtain ⟨t, ts, _, h2, rfl⟩ := h
    simp [h2.length]

theorem PrintsEntries.length : ∀ {ms : List (Bytes × Val)} {ls : List Bytes}, PrintsEntries S F pad ms ls →
    ls.length = ms.length
  | [], _, h => by simp only [PrintsEntries] at h; simp [h]
  | (k, v) :: xs, _, h => by
    simp only [PrintsEntries] at h
    obtain ⟨t, ts, _, h2, rfl⟩ := h
    simp [h2.length]

end

/-! ## Escaping -/

theorem escChar_body (c : UInt8) {s t : Bytes} (h : Body s t) : Body (c :: s) (escChar c ++ t) := by
  unfold escChar
  by_cases h1 : c = 0x22
  · subst h1; exact .short (by decide) h
  by_cases h2 : c = 0x5c
  · subst h2; exact .short (by decide) h
  by_cases h3 : c = 0x08
  · subst h3; exact .short (by decide) h
  by_cases h4 : c = 0x0c
  · subst h4; exact .short (by decide) h
  by_cases h5 : c = 0x0a
  · subst h5; exact .short (by decide) h
  by_cases h6 : c = 0x0d
  · subst h6; exact .short (by decide) h
  by_cases h7 : c = 0x09
  · subst h7; exact .short (by decide) h
  simp only [h1, h2, h3, h4, h5, h6, h7, if_false]
  by_cases h8 : c < 0x20
  · simp only [h8, if_true]
    have key : ∀ n, n < 32 → digit (hexLower (n / 16)) = some (n / 16) ∧ digit (hexLower (n % 16)) = some (n % 16) := by
      decide +kernel
    have hc : c.toNat < 32 := UInt8.lt_iff_toNat_lt.1 h8
    obtain ⟨k1, k2⟩ := key _ hc
    refine Body.uni (a := 0x30) (b := 0x30) (by decide) (by decide) k1 k2 (by omega) ?_ h
    exact UInt8.lt_iff_toNat_lt.2 (Nat.lt_of_lt_of_le hc (by decide))
  · simp only [h8, if_false]
    refine .raw ?_ h1 h2 h
    exact UInt8.le_iff_toNat_le.2 (by have := mt UInt8.lt_iff_toNat_lt.2 h8; simp at this ⊢; omega)

theorem esc_body : ∀ s : Bytes, Body s (esc s)
  | [] => .nil
  | c :: s => escChar_body c (esc_body s)

/-- A text that ends in an unescaped quote has one reading. -/
theorem Body.frame {s t : Bytes} (h : Body s t) : ∀ {s' t' r r' : Bytes}, Body s' t' →
    t ++ 0x22 :: r = t' ++ 0x22 :: r' → s = s' ∧ t = t' ∧ r = r' := by
  induction h with
  | nil =>
    intro s' t' r r' h' e
    cases h' with
    | nil => simpa using e
    | raw h1 h2 h3 h4 => simp at e; exact absurd e.1.symm h2
    | short h1 h2 => simp at e
    | uni => simp at e
  | @raw c s t h1 h2 h3 h ih =>
    intro s' t' r r' h' e
    cases h' with
    | nil => simp at e; exact absurd e.1 h2
    | raw _ _ _ h4 =>
      simp only [List.cons_append, List.cons.injEq] at e
      obtain ⟨a, b, c⟩ := ih h4 e.2
      exact ⟨by rw [e.1, a], by rw [e.1, b], c⟩
    | short => simp at e; exact absurd e.1 h3
    | uni => simp at e; exact absurd e.1 h3
  | @short x c s t hx h ih =>
    intro s' t' r r' h' e
    cases h' with
    | nil => simp at e
    | raw _ _ h3 _ => simp at e; exact absurd e.1.symm h3
    | @short x' c' _ _ hx' h4 =>
      simp only [List.cons_append, List.cons.injEq, true_and] at e
      obtain ⟨a, b, c⟩ := ih h4 e.2
      have key : ∀ p ∈ Text.short, ∀ q ∈ Text.short, p.1 = q.1 → p.2 = q.2 := by decide +kernel
      have := key _ hx _ hx' e.1
      exact ⟨by rw [a]; simpa using this, by rw [e.1, b], c⟩
    | uni =>
      simp only [List.cons_append, List.cons.injEq, true_and] at e
      have key : ∀ p ∈ Text.short, p.1 ≠ 0x75 := by decide +kernel
      exact absurd e.1 (key _ hx)
  | @uni a b c d x i j s t h1 h2 h3 h4 h5 h6 h ih =>
    intro s' t' r r' h' e
    cases h' with
    | nil => simp at e
    | raw _ _ h3 _ => simp at e; exact absurd e.1.symm h3
    | short hx' _ =>
      simp only [List.cons_append, List.cons.injEq, true_and] at e
      have key : ∀ p ∈ Text.short, p.1 ≠ 0x75 := by decide +kernel
      exact absurd e.1.symm (key _ hx')
    | uni g1 g2 g3 g4 g5 g6 g =>
      simp only [List.cons_append, List.cons.injEq, true_and] at e
      obtain ⟨rfl, rfl, rfl, rfl, e⟩ := e
      obtain ⟨p, q, w⟩ := ih g e
      rw [h3] at g3; rw [h4] at g4
      cases g3; cases g4
      exact ⟨by rw [p, UInt8.toNat_inj.1 (h5.trans g5.symm)], by rw [q], w⟩

/-- Every byte of an escaped text is printable ASCII or above. -/
theorem Body.noControl {s t : Bytes} (h : Body s t) : ∀ c ∈ t, 0x20 ≤ c := by
  have dig : ∀ n, n < 256 → (digit (UInt8.ofNat n)).isSome → 32 ≤ n := by decide +kernel
  have dig' : ∀ {c : UInt8} {i : Nat}, digit c = some i → (0x20 : UInt8) ≤ c := by
    intro c i h
    refine UInt8.le_iff_toNat_le.2 (dig _ (UInt8.toNat_lt c) ?_)
    rw [UInt8.ofNat_toNat, h]; rfl
  induction h with
  | nil => simp
  | raw h1 _ _ _ ih =>
    intro x hx
    rcases List.mem_cons.1 hx with rfl | hx
    · exact h1
    · exact ih _ hx
  | short hx _ ih =>
    have key : ∀ p ∈ Text.short, (0x20 : UInt8) ≤ p.1 := by decide +kernel
    intro y hy
    simp only [List.mem_cons] at hy
    rcases hy with rfl | rfl | hy
    · decide
    · exact key _ hx
    · exact ih _ hy
  | uni h1 h2 h3 h4 _ _ _ ih =>
    intro y hy
    simp only [List.mem_cons] at hy
    rcases hy with rfl | rfl | rfl | rfl | rfl | rfl | hy
    · decide
    · decide
    · exact dig' h1
    · exact dig' h2
    · exact dig' h3
    · exact dig' h4
    · exact ih _ hy

end Zer.Text
