import Verif.Json.Utf8
import Verif.Json.Number

/-!
# JSON texts

`IsText b v`: the bytes `b` are a JSON text (RFC 8259, in UTF-8) that stands for the document `v`. `readText` reads texts; it
accepts exactly the JSON texts. It stands for `yyjson_read` without flags: no comments, no trailing commas, no byte order mark, no
invalid UTF-8, no unpaired surrogates, nothing but white space after the value.
-/

namespace Zer.Json

/-! ## Grammar -/

/-- White space, RFC 8259 section 2. -/
def isWs (a : UInt8) : Bool := a == 0x20 || a == 0x09 || a == 0x0a || a == 0x0d

/-- `ws` -/
def Ws (w : Bytes) : Prop := ∀ a ∈ w, isWs a = true

/-- Value of a hexadecimal digit. -/
def hexVal (a : UInt8) : Option Nat :=
  if 0x30 ≤ a.toNat ∧ a.toNat ≤ 0x39 then some (a.toNat - 0x30)
  else if 0x41 ≤ a.toNat ∧ a.toNat ≤ 0x46 then some (a.toNat - 0x41 + 10)
  else if 0x61 ≤ a.toNat ∧ a.toNat ≤ 0x66 then some (a.toNat - 0x61 + 10)
  else none

/-- `4HEXDIG` with its value. -/
def Hex4 (h : Bytes) (n : Nat) : Prop := ∃ a b c d w x y z, h = [a, b, c, d] ∧ hexVal a = some w ∧ hexVal b = some x ∧
  hexVal c = some y ∧ hexVal d = some z ∧ n = ((w * 16 + x) * 16 + y) * 16 + z

/-- The escapes of two characters, RFC 8259 section 7: the letter after the backslash and its meaning. -/
def escapes : List (UInt8 × UInt8) :=
  [(0x22, 0x22), (0x5c, 0x5c), (0x2f, 0x2f), (0x62, 0x08), (0x66, 0x0c), (0x6e, 0x0a), (0x72, 0x0d), (0x74, 0x09)]

/-- One `char` of a string and its meaning in UTF-8, RFC 8259 section 7. -/
inductive IsChar : Bytes → Bytes → Prop
  | plain {c : Nat} : Scalar c → 0x20 ≤ c → c ≠ 0x22 → c ≠ 0x5c → IsChar (encode c) (encode c)
  | short {e c : UInt8} : (e, c) ∈ escapes → IsChar [0x5c, e] [c]
  | hex {h : Bytes} {n : Nat} : Hex4 h n → Scalar n → IsChar (0x5c :: 0x75 :: h) (encode n)
  | pair {h l : Bytes} {m n : Nat} : Hex4 h m → 0xd800 ≤ m → m < 0xdc00 → Hex4 l n → 0xdc00 ≤ n → n < 0xe000 →
      IsChar (0x5c :: 0x75 :: (h ++ (0x5c :: 0x75 :: l))) (encode (0x10000 + (m - 0xd800) * 0x400 + (n - 0xdc00)))

/-- The characters of a string and their meaning. -/
inductive IsChars : Bytes → Bytes → Prop
  | nil : IsChars [] []
  | cons {c x t s : Bytes} : IsChar c x → IsChars t s → IsChars (c ++ t) (x ++ s)

/-- `string` and its meaning. -/
def IsStr (b s : Bytes) : Prop := ∃ t, IsChars t s ∧ b = 0x22 :: (t ++ [0x22])

mutual
/-- `value` without white space around it, RFC 8259 section 3. -/
inductive IsValue : Bytes → Val → Prop
  | null : IsValue [0x6e, 0x75, 0x6c, 0x6c] .null
  | false : IsValue [0x66, 0x61, 0x6c, 0x73, 0x65] (.bool false)
  | true : IsValue [0x74, 0x72, 0x75, 0x65] (.bool true)
  | num {n : Dec} {v : Val} : n.Ok → n.val = some v → IsValue n.text v
  | str {b s : Bytes} : IsStr b s → IsValue b (.str s)
  | arr0 {w : Bytes} : Ws w → IsValue (0x5b :: (w ++ [0x5d])) (.arr [])
  | arr {b : Bytes} {xs : List Val} : IsElems b xs → IsValue (0x5b :: (b ++ [0x5d])) (.arr xs)
  | obj0 {w : Bytes} : Ws w → IsValue (0x7b :: (w ++ [0x7d])) (.map [])
  | obj {b : Bytes} {ms : List (Bytes × Val)} : IsMembers b ms → IsValue (0x7b :: (b ++ [0x7d])) (.map ms)
/-- `value *( value-separator value )` with white space, RFC 8259 section 5. -/
inductive IsElems : Bytes → List Val → Prop
  | one {w b w' : Bytes} {v : Val} : Ws w → IsValue b v → Ws w' → IsElems (w ++ (b ++ w')) [v]
  | more {w b w' c : Bytes} {v : Val} {vs : List Val} : Ws w → IsValue b v → Ws w' → IsElems c vs →
      IsElems (w ++ (b ++ (w' ++ 0x2c :: c))) (v :: vs)
/-- `member *( value-separator member )` with white space, RFC 8259 section 4. -/
inductive IsMembers : Bytes → List (Bytes × Val) → Prop
  | one {w k w1 w2 b w' : Bytes} {s : Bytes} {v : Val} : Ws w → IsStr k s → Ws w1 → Ws w2 → IsValue b v → Ws w' →
      IsMembers (w ++ (k ++ (w1 ++ 0x3a :: (w2 ++ (b ++ w'))))) [(s, v)]
  | more {w k w1 w2 b w' c : Bytes} {s : Bytes} {v : Val} {ms : List (Bytes × Val)} : Ws w → IsStr k s → Ws w1 → Ws w2 →
      IsValue b v → Ws w' → IsMembers c ms →
      IsMembers (w ++ (k ++ (w1 ++ 0x3a :: (w2 ++ (b ++ (w' ++ 0x2c :: c)))))) ((s, v) :: ms)
end

/-- `JSON-text = ws value ws`, RFC 8259 section 2. -/
def IsText (b : Bytes) (v : Val) : Prop := ∃ w c w', Ws w ∧ IsValue c v ∧ Ws w' ∧ b = w ++ (c ++ w')

/-! ## Reader -/

/-- Without leading white space. -/
def skipWs : Bytes → Bytes
  | [] => []
  | a :: r => if isWs a then skipWs r else a :: r

/-- Four hexadecimal digits and the rest. -/
def takeHex : Bytes → Option (Nat × Bytes)
  | a :: b :: c :: d :: r =>
    match hexVal a, hexVal b, hexVal c, hexVal d with
    | some w, some x, some y, some z => some (((w * 16 + x) * 16 + y) * 16 + z, r)
    | _, _, _, _ => none
  | _ => none

/-- After `\u`. -/
def takeUnicode (b : Bytes) : Option (Bytes × Bytes) :=
  match takeHex b with
  | none => none
  | some (m, r) =>
    if 0xd800 ≤ m ∧ m < 0xdc00 then
      match r with
      | 0x5c :: 0x75 :: r =>
        match takeHex r with
        | none => none
        | some (n, r) => if 0xdc00 ≤ n ∧ n < 0xe000 then some (encode (0x10000 + (m - 0xd800) * 0x400 + (n - 0xdc00)), r) else none
      | _ => none
    else if 0xdc00 ≤ m ∧ m < 0xe000 then none
    else some (encode m, r)

/-- One character of a string, and the rest. -/
def takeOne : Bytes → Option (Bytes × Bytes)
  | [] => none
  | a :: r =>
    if a = 0x5c then
      match r with
      | [] => none
      | e :: r =>
        if e = 0x75 then takeUnicode r
        else
          match escapes.lookup e with
          | some c => some ([c], r)
          | none => none
    else if a.toNat < 0x20 then none
    else takeChar (a :: r)

/-- The characters of a string up to the closing quote, and the rest. -/
def takeChars : Nat → Bytes → Option (Bytes × Bytes)
  | 0, _ => none
  | f + 1, b =>
    match b with
    | [] => none
    | a :: r =>
      if a = 0x22 then some ([], r)
      else
        match takeOne (a :: r) with
        | none => none
        | some (x, r) =>
          match takeChars f r with
          | none => none
          | some (s, r) => some (x ++ s, r)

/-- A string and the rest. -/
def takeStr : Bytes → Option (Bytes × Bytes)
  | [] => none
  | a :: r => if a = 0x22 then takeChars (r.length + 1) r else none

/-- A literal name and the rest. -/
def takeLit : Bytes → Bytes → Option Bytes
  | [], r => some r
  | _ :: _, [] => none
  | a :: l, b :: r => if a = b then takeLit l r else none

mutual
/-- A value and the rest. -/
def takeValue : Nat → Bytes → Option (Val × Bytes)
  | 0, _ => none
  | f + 1, b =>
    match b with
    | [] => none
    | a :: r =>
      if a = 0x6e then (takeLit [0x75, 0x6c, 0x6c] r).map (fun r => (Val.null, r))
      else if a = 0x66 then (takeLit [0x61, 0x6c, 0x73, 0x65] r).map (fun r => (Val.bool false, r))
      else if a = 0x74 then (takeLit [0x72, 0x75, 0x65] r).map (fun r => (Val.bool true, r))
      else if a = 0x22 then (takeStr (a :: r)).map (fun p => (Val.str p.1, p.2))
      else if a = 0x5b then
        match takeLit [0x5d] (skipWs r) with
        | some r => some (.arr [], r)
        | none => (takeElems f r).map (fun p => (Val.arr p.1, p.2))
      else if a = 0x7b then
        match takeLit [0x7d] (skipWs r) with
        | some r => some (.map [], r)
        | none => (takeMembers f r).map (fun p => (Val.map p.1, p.2))
      else
        match takeNum (a :: r) with
        | none => none
        | some (n, r) => n.val.map (fun v => (v, r))
/-- Elements up to the closing bracket. -/
def takeElems : Nat → Bytes → Option (List Val × Bytes)
  | 0, _ => none
  | f + 1, b =>
    match takeValue f (skipWs b) with
    | none => none
    | some (v, r) =>
      match takeLit [0x5d] (skipWs r) with
      | some r => some ([v], r)
      | none =>
        match takeLit [0x2c] (skipWs r) with
        | none => none
        | some r => (takeElems f r).map (fun p => (v :: p.1, p.2))
/-- Members up to the closing brace. -/
def takeMembers : Nat → Bytes → Option (List (Bytes × Val) × Bytes)
  | 0, _ => none
  | f + 1, b =>
    match takeStr (skipWs b) with
    | none => none
    | some (k, r) =>
      match takeLit [0x3a] (skipWs r) with
      | none => none
      | some r =>
        match takeValue f (skipWs r) with
        | none => none
        | some (v, r) =>
          match takeLit [0x7d] (skipWs r) with
          | some r => some ([(k, v)], r)
          | none =>
            match takeLit [0x2c] (skipWs r) with
            | none => none
            | some r => (takeMembers f r).map (fun p => ((k, v) :: p.1, p.2))
end

/-- `yyjson_read(data, len, 0)`: the document, or NULL. -/
def readText (b : Bytes) : Option Val :=
  match takeValue (2 * b.length + 1) (skipWs b) with
  | none => none
  | some (v, r) => if skipWs r = [] then some v else none

/-! ## White space and literals -/

theorem skipWs_split : ∀ b, ∃ w, Ws w ∧ b = w ++ skipWs b ∧ ∀ a r, skipWs b = a :: r → isWs a = false
  | [] => ⟨[], by simp [Ws], rfl, by simp [skipWs]⟩
  | a :: r => by
    simp only [skipWs]
    by_cases h : isWs a = true
    · rw [if_pos h]
      obtain ⟨w, h1, h2, h3⟩ := skipWs_split r
      refine ⟨a :: w, ?_, by rw [List.cons_append, ← h2], h3⟩
      intro x hx
      rcases List.mem_cons.1 hx with rfl | hx
      · exact h
      · exact h1 x hx
    · rw [if_neg h]
      refine ⟨[], by simp [Ws], rfl, ?_⟩
      rintro b t e
      injection e with e1 e2
      rw [← e1]; simpa using h

theorem skipWs_append : ∀ {w : Bytes}, Ws w → ∀ b, skipWs (w ++ b) = skipWs b
  | [], _, b => rfl
  | a :: w, h, b => by
    simp only [List.cons_append, skipWs]
    rw [if_pos (h a (List.mem_cons_self ..))]
    exact skipWs_append (fun x hx => h x (List.mem_cons_of_mem _ hx)) b

theorem skipWs_cons {a : UInt8} (h : isWs a = false) (r : Bytes) : skipWs (a :: r) = a :: r := by
  simp only [skipWs, h, Bool.false_eq_true, if_false]

theorem skipWs_all {w : Bytes} (h : Ws w) : skipWs w = [] := by
  have := skipWs_append h []
  rw [List.append_nil] at this
  rw [this]; rfl

theorem ws_of_skipWs {w : Bytes} (h : skipWs w = []) : Ws w := by
  obtain ⟨v, h1, h2, -⟩ := skipWs_split w
  rw [h, List.append_nil] at h2
  rw [h2]; exact h1

theorem skipWs_length (b : Bytes) : (skipWs b).length ≤ b.length := by
  obtain ⟨w, -, h, -⟩ := skipWs_split b
  have := congrArg List.length h
  rw [List.length_append] at this
  omega

theorem takeLit_sound : ∀ {l b r : Bytes}, takeLit l b = some r → b = l ++ r
  | [], b, r, h => by simp only [takeLit, Option.some.injEq] at h; rw [h]; rfl
  | _ :: _, [], r, h => by simp [takeLit] at h
  | a :: l, b :: c, r, h => by
    simp only [takeLit] at h
    split at h
    · rename_i e
      rw [takeLit_sound h, e]; rfl
    · cases h

theorem takeLit_append : ∀ (l r : Bytes), takeLit l (l ++ r) = some r
  | [], r => rfl
  | a :: l, r => by simp only [List.cons_append, takeLit, if_true]; exact takeLit_append l r

theorem takeLit_one_ne {a b : UInt8} (h : a ≠ b) (r : Bytes) : takeLit [a] (b :: r) = none := by
  simp only [takeLit, if_neg h]

theorem takeLit_one_nil (a : UInt8) : takeLit [a] [] = none := rfl

/-! ## Strings -/

theorem takeHex_sound {b r : Bytes} {n : Nat} (h : takeHex b = some (n, r)) : ∃ x, Hex4 x n ∧ b = x ++ r := by
  unfold takeHex at h
  split at h
  · rename_i a b c d r'
    split at h
    · rename_i w x y z h1 h2 h3 h4
      simp only [Option.some.injEq, Prod.mk.injEq] at h
      obtain ⟨rfl, rfl⟩ := h
      exact ⟨[a, b, c, d], ⟨a, b, c, d, w, x, y, z, rfl, h1, h2, h3, h4, rfl⟩, rfl⟩
    · cases h
  · cases h

theorem takeHex_append {x : Bytes} {n : Nat} (h : Hex4 x n) (r : Bytes) : takeHex (x ++ r) = some (n, r) := by
  obtain ⟨a, b, c, d, w, x, y, z, rfl, h1, h2, h3, h4, rfl⟩ := h
  simp only [List.cons_append, List.nil_append, takeHex, h1, h2, h3, h4]

theorem hexVal_lt {a : UInt8} {n : Nat} (h : hexVal a = some n) : n < 16 := by
  unfold hexVal at h
  split at h
  · injection h; omega
  · split at h
    · injection h; omega
    · split at h
      · injection h; omega
      · cases h

theorem hex4_lt {x : Bytes} {n : Nat} (h : Hex4 x n) : n < 0x10000 := by
  obtain ⟨a, b, c, d, w, x, y, z, rfl, h1, h2, h3, h4, rfl⟩ := h
  have := hexVal_lt h1
  have := hexVal_lt h2
  have := hexVal_lt h3
  have := hexVal_lt h4
  omega

theorem hex4_ne_nil {x : Bytes} {n : Nat} (h : Hex4 x n) : x.length = 4 := by
  obtain ⟨a, b, c, d, w, x, y, z, rfl, -⟩ := h; rfl

theorem takeUnicode_sound {b x r : Bytes} (h : takeUnicode b = some (x, r)) :
    ∃ c, IsChar (0x5c :: 0x75 :: c) x ∧ b = c ++ r := by
  unfold takeUnicode at h
  split at h
  · cases h
  · rename_i m r1 hm
    obtain ⟨u, hu, rfl⟩ := takeHex_sound hm
    have hlt := hex4_lt hu
    split at h
    · rename_i hs
      split at h
      · rename_i r2
        split at h
        · cases h
        · rename_i n r3 hn
          obtain ⟨l, hl, rfl⟩ := takeHex_sound hn
          split at h
          · rename_i hn2
            simp only [Option.some.injEq, Prod.mk.injEq] at h
            obtain ⟨rfl, rfl⟩ := h
            exact ⟨u ++ (0x5c :: 0x75 :: l), .pair hu hs.1 hs.2 hl hn2.1 hn2.2, by simp⟩
          · cases h
      · cases h
    · rename_i hs
      split at h
      · cases h
      · rename_i hs2
        simp only [Option.some.injEq, Prod.mk.injEq] at h
        obtain ⟨rfl, rfl⟩ := h
        exact ⟨u, .hex hu ⟨by omega, by omega⟩, rfl⟩

theorem lookup_mem : ∀ {l : List (UInt8 × UInt8)} {e c : UInt8}, l.lookup e = some c → (e, c) ∈ l
  | [], _, _, h => by simp at h
  | (a, b) :: l, e, c, h => by
    simp only [List.lookup] at h
    split at h
    · rename_i he
      have : e = a := by simpa using he
      injection h with h
      rw [this, h]; exact List.mem_cons_self ..
    · exact List.mem_cons_of_mem _ (lookup_mem h)

theorem escapes_lookup {e c : UInt8} (h : (e, c) ∈ escapes) : escapes.lookup e = some c ∧ e ≠ 0x75 := by
  simp only [escapes, List.mem_cons, Prod.mk.injEq, List.not_mem_nil, or_false] at h
  rcases h with ⟨rfl, rfl⟩ | ⟨rfl, rfl⟩ | ⟨rfl, rfl⟩ | ⟨rfl, rfl⟩ | ⟨rfl, rfl⟩ | ⟨rfl, rfl⟩ | ⟨rfl, rfl⟩ | ⟨rfl, rfl⟩ <;> decide

/-- The first byte of an encoding tells which character it is. -/
theorem encode_head {c : Nat} (hc : Scalar c) {a : UInt8} {x : Bytes} (h : encode c = a :: x) :
    (a.toNat < 0x80 → a.toNat = c) ∧ (c < 0x80 → a.toNat = c) := by
  obtain ⟨h1, h2⟩ := hc
  unfold encode at h
  split at h
  · injection h with h
    rw [← h, toNat_byte (by omega)]; exact ⟨fun _ => rfl, fun _ => rfl⟩
  · split at h
    · injection h with h
      rw [← h, toNat_byte (by omega)]; exact ⟨fun _ => by omega, fun _ => by omega⟩
    · split at h
      · injection h with h
        rw [← h, toNat_byte (by omega)]; exact ⟨fun _ => by omega, fun _ => by omega⟩
      · injection h with h
        rw [← h, toNat_byte (by omega)]; exact ⟨fun _ => by omega, fun _ => by omega⟩

theorem takeOne_sound {b x r : Bytes} (h : takeOne b = some (x, r)) (hq : ∀ t, b ≠ 0x22 :: t) : ∃ c, IsChar c x ∧ b = c ++ r := by
  cases b with
  | nil => simp [takeOne] at h
  | cons a b =>
    simp only [takeOne] at h
    split at h
    · rename_i ha
      subst ha
      split at h
      · cases h
      · rename_i e b
        split at h
        · rename_i he
          subst he
          obtain ⟨c, h1, rfl⟩ := takeUnicode_sound h
          exact ⟨_, h1, rfl⟩
        · split at h
          · rename_i c hl
            simp only [Option.some.injEq, Prod.mk.injEq] at h
            obtain ⟨rfl, rfl⟩ := h
            exact ⟨_, .short (lookup_mem hl), rfl⟩
          · cases h
    · rename_i ha
      split at h
      · cases h
      · rename_i h20
        obtain ⟨e, c, hc, rfl⟩ := takeChar_sound h
        refine ⟨_, .plain hc ?_ ?_ ?_, e⟩
        all_goals
          obtain ⟨a', x', he⟩ := List.exists_cons_of_ne_nil (encode_ne_nil c)
          obtain ⟨p1, p2⟩ := encode_head hc he
          rw [he, List.cons_append] at e
          injection e with e1 e2
          subst e1
        · refine Nat.le_of_not_lt fun hlt => ?_
          have := p2 (by omega); omega
        · rintro rfl
          have := p2 (by omega)
          exact hq b (by rw [byte_eq this]; rfl)
        · rintro rfl
          have := p2 (by omega)
          exact ha (by rw [byte_eq this]; rfl)

theorem takeOne_append {c x : Bytes} (h : IsChar c x) (r : Bytes) :
    takeOne (c ++ r) = some (x, r) ∧ ∃ a t, c = a :: t ∧ a ≠ 0x22 := by
  cases h with
  | @plain c hc h1 h2 h3 =>
    obtain ⟨a, x, he⟩ := List.exists_cons_of_ne_nil (encode_ne_nil c)
    obtain ⟨p1, p2⟩ := encode_head hc he
    have hx := takeChar_encode hc r
    have ha : ∀ n : Nat, n < 0x80 → c ≠ n → a ≠ UInt8.ofNat n := by
      rintro n hn hne rfl
      rw [toNat_byte (by omega)] at p1
      exact hne (p1 hn).symm
    have h20 : ¬ a.toNat < 0x20 := by
      intro hlt
      have := p1 (by omega); omega
    refine ⟨?_, a, x, he, ha 0x22 (by decide) h2⟩
    rw [he, List.cons_append] at hx ⊢
    simp only [takeOne]
    have h5c : a ≠ 0x5c := ha 0x5c (by decide) h3
    rw [if_neg h5c, if_neg h20, hx]
  | @short e c h =>
    obtain ⟨h1, h2⟩ := escapes_lookup h
    refine ⟨?_, _, _, rfl, by decide⟩
    simp only [List.cons_append, List.nil_append, takeOne, if_true, if_neg h2, h1]
  | @hex h n h1 h2 =>
    refine ⟨?_, _, _, rfl, by decide⟩
    simp only [List.cons_append, takeOne, if_true, takeUnicode, takeHex_append h1]
    obtain ⟨q1, q2⟩ := h2
    rw [if_neg (by omega), if_neg (by omega)]
  | @pair h l m n h1 h2 h3 h4 h5 h6 =>
    refine ⟨?_, _, _, rfl, by decide⟩
    simp only [List.cons_append, List.append_assoc, takeOne, if_true, takeUnicode, takeHex_append h1]
    rw [if_pos ⟨h2, h3⟩]
    simp only [takeHex_append h4]
    rw [if_pos ⟨h5, h6⟩]

theorem takeChars_sound : ∀ {f : Nat} {b s r : Bytes}, takeChars f b = some (s, r) → ∃ t, IsChars t s ∧ b = t ++ 0x22 :: r
  | 0, b, s, r, h => by simp [takeChars] at h
  | f + 1, [], s, r, h => by simp [takeChars] at h
  | f + 1, a :: b, s, r, h => by
    simp only [takeChars] at h
    split at h
    · rename_i ha
      simp only [Option.some.injEq, Prod.mk.injEq] at h
      obtain ⟨rfl, rfl⟩ := h
      exact ⟨[], .nil, by rw [ha]; rfl⟩
    · rename_i ha
      split at h
      · cases h
      · rename_i x r1 h1
        split at h
        · cases h
        · rename_i s' r2 h2
          simp only [Option.some.injEq, Prod.mk.injEq] at h
          obtain ⟨rfl, rfl⟩ := h
          obtain ⟨c, h3, h4⟩ := takeOne_sound h1 (by rintro t e; injection e with e; exact ha e)
          obtain ⟨t, h5, rfl⟩ := takeChars_sound h2
          exact ⟨c ++ t, .cons h3 h5, by rw [h4, List.append_assoc]⟩

theorem takeChars_append {t s : Bytes} (h : IsChars t s) (r : Bytes) : ∀ {f : Nat}, t.length < f →
    takeChars f (t ++ 0x22 :: r) = some (s, r) := by
  induction h with
  | nil =>
    intro f hf
    cases f with
    | zero => omega
    | succ f => simp [takeChars]
  | @cons c x t s h1 h2 ih =>
    intro f hf
    cases f with
    | zero => omega
    | succ f =>
      obtain ⟨e1, a, u, rfl, ha⟩ := takeOne_append h1 (t ++ 0x22 :: r)
      rw [List.append_assoc]
      rw [List.length_append, List.length_cons] at hf
      simp only [List.cons_append] at e1 ⊢
      simp only [takeChars]
      rw [if_neg ha, e1]
      simp only
      rw [ih (by omega)]

theorem takeStr_sound {b s r : Bytes} (h : takeStr b = some (s, r)) : ∃ c, IsStr c s ∧ b = c ++ r := by
  cases b with
  | nil => simp [takeStr] at h
  | cons a b =>
    simp only [takeStr] at h
    split at h
    · rename_i ha
      obtain ⟨t, h1, rfl⟩ := takeChars_sound h
      exact ⟨_, ⟨t, h1, rfl⟩, by rw [ha]; simp⟩
    · cases h

theorem takeStr_append {b s : Bytes} (h : IsStr b s) (r : Bytes) : takeStr (b ++ r) = some (s, r) := by
  obtain ⟨t, h1, rfl⟩ := h
  simp only [List.cons_append, List.append_assoc, List.nil_append, takeStr, if_true]
  exact takeChars_append h1 r (by simp only [List.length_append, List.length_cons]; omega)

/-! ## Soundness -/

theorem take_sound : ∀ f : Nat,
    (∀ {b r v}, takeValue f b = some (v, r) → ∃ c, IsValue c v ∧ b = c ++ r) ∧
    (∀ {b r vs}, takeElems f b = some (vs, r) → ∃ c, IsElems c vs ∧ b = c ++ 0x5d :: r) ∧
    (∀ {b r ms}, takeMembers f b = some (ms, r) → ∃ c, IsMembers c ms ∧ b = c ++ 0x7d :: r)
  | 0 => ⟨by simp [takeValue], by simp [takeElems], by simp [takeMembers]⟩
  | f + 1 => by
    obtain ⟨ihV, ihE, ihM⟩ := take_sound f
    refine ⟨?_, ?_, ?_⟩
    · intro b r v h
      simp only [takeValue] at h
      split at h
      · cases h
      · rename_i a b
        split at h
        · rename_i ha
          simp only [Option.map_eq_some_iff, Prod.mk.injEq] at h
          obtain ⟨r', h1, rfl, rfl⟩ := h
          rw [ha, takeLit_sound h1]
          exact ⟨_, .null, rfl⟩
        split at h
        · rename_i ha
          simp only [Option.map_eq_some_iff, Prod.mk.injEq] at h
          obtain ⟨r', h1, rfl, rfl⟩ := h
          rw [ha, takeLit_sound h1]
          exact ⟨_, .false, rfl⟩
        split at h
        · rename_i ha
          simp only [Option.map_eq_some_iff, Prod.mk.injEq] at h
          obtain ⟨r', h1, rfl, rfl⟩ := h
          rw [ha, takeLit_sound h1]
          exact ⟨_, .true, rfl⟩
        split at h
        · simp only [Option.map_eq_some_iff, Prod.mk.injEq] at h
          obtain ⟨⟨s, r'⟩, h1, rfl, rfl⟩ := h
          obtain ⟨c, h2, h3⟩ := takeStr_sound h1
          exact ⟨c, .str h2, h3⟩
        split at h
        · rename_i ha
          split at h
          · rename_i r' h1
            simp only [Option.some.injEq, Prod.mk.injEq] at h
            obtain ⟨rfl, rfl⟩ := h
            obtain ⟨w, h2, h3, -⟩ := skipWs_split b
            rw [takeLit_sound h1] at h3
            exact ⟨_, .arr0 h2, by rw [ha, h3]; simp⟩
          · simp only [Option.map_eq_some_iff, Prod.mk.injEq] at h
            obtain ⟨⟨xs, r'⟩, h1, rfl, rfl⟩ := h
            obtain ⟨c, h2, h3⟩ := ihE h1
            exact ⟨_, .arr h2, by rw [ha, h3]; simp⟩
        split at h
        · rename_i ha
          split at h
          · rename_i r' h1
            simp only [Option.some.injEq, Prod.mk.injEq] at h
            obtain ⟨rfl, rfl⟩ := h
            obtain ⟨w, h2, h3, -⟩ := skipWs_split b
            rw [takeLit_sound h1] at h3
            exact ⟨_, .obj0 h2, by rw [ha, h3]; simp⟩
          · simp only [Option.map_eq_some_iff, Prod.mk.injEq] at h
            obtain ⟨⟨xs, r'⟩, h1, rfl, rfl⟩ := h
            obtain ⟨c, h2, h3⟩ := ihM h1
            exact ⟨_, .obj h2, by rw [ha, h3]; simp⟩
        split at h
        · cases h
        · rename_i n r' h1
          simp only [Option.map_eq_some_iff, Prod.mk.injEq] at h
          obtain ⟨v', h2, rfl, rfl⟩ := h
          obtain ⟨h3, h4⟩ := takeNum_sound h1
          exact ⟨_, .num h4 h2, h3⟩
    · intro b r vs h
      simp only [takeElems] at h
      split at h
      · cases h
      · rename_i v r1 h1
        obtain ⟨c, h2, h3⟩ := ihV h1
        obtain ⟨w, k1, k2, -⟩ := skipWs_split b
        obtain ⟨w', k3, k4, -⟩ := skipWs_split r1
        split at h
        · rename_i r2 h4
          simp only [Option.some.injEq, Prod.mk.injEq] at h
          obtain ⟨rfl, rfl⟩ := h
          rw [takeLit_sound h4] at k4
          refine ⟨_, .one k1 h2 k3, ?_⟩
          rw [k2, h3, k4]; simp
        · split at h
          · cases h
          · rename_i r2 h4
            simp only [Option.map_eq_some_iff, Prod.mk.injEq] at h
            obtain ⟨⟨xs, r'⟩, h5, rfl, rfl⟩ := h
            obtain ⟨d, h6, h7⟩ := ihE h5
            rw [takeLit_sound h4] at k4
            refine ⟨_, .more k1 h2 k3 h6, ?_⟩
            rw [k2, h3, k4, h7]; simp
    · intro b r ms h
      simp only [takeMembers] at h
      split at h
      · cases h
      · rename_i k r0 h0
        obtain ⟨kt, q1, q2⟩ := takeStr_sound h0
        obtain ⟨w, k1, k2, -⟩ := skipWs_split b
        obtain ⟨w1, l1, l2, -⟩ := skipWs_split r0
        split at h
        · cases h
        · rename_i r1 g1
          rw [takeLit_sound g1] at l2
          obtain ⟨w2, m1, m2, -⟩ := skipWs_split r1
          split at h
          · cases h
          · rename_i v r2 h1
            obtain ⟨c, h2, h3⟩ := ihV h1
            obtain ⟨w', k3, k4, -⟩ := skipWs_split r2
            split at h
            · rename_i r3 h4
              simp only [Option.some.injEq, Prod.mk.injEq] at h
              obtain ⟨rfl, rfl⟩ := h
              rw [takeLit_sound h4] at k4
              refine ⟨_, .one k1 q1 l1 m1 h2 k3, ?_⟩
              rw [k2, q2, l2, m2, h3, k4]; simp
            · split at h
              · cases h
              · rename_i r3 h4
                simp only [Option.map_eq_some_iff, Prod.mk.injEq] at h
                obtain ⟨⟨xs, r'⟩, h5, rfl, rfl⟩ := h
                obtain ⟨d, h6, h7⟩ := ihM h5
                rw [takeLit_sound h4] at k4
                refine ⟨_, .more k1 q1 l1 m1 h2 k3 h6, ?_⟩
                rw [k2, q2, l2, m2, h3, k4, h7]; simp

/-! ## Completeness -/

/-- The kinds of values by their first bytes. -/
theorem isValue_head {b : Bytes} {v : Val} (h : IsValue b v) : ∃ a t, b = a :: t ∧ isWs a = false ∧ a ≠ 0x5d ∧ a ≠ 0x7d ∧ a ≠ 0x2c := by
  cases h with
  | null => exact ⟨_, _, rfl, by decide, by decide, by decide, by decide⟩
  | false => exact ⟨_, _, rfl, by decide, by decide, by decide, by decide⟩
  | true => exact ⟨_, _, rfl, by decide, by decide, by decide, by decide⟩
  | str h => obtain ⟨t, -, rfl⟩ := h; exact ⟨_, _, rfl, by decide, by decide, by decide, by decide⟩
  | arr0 => exact ⟨_, _, rfl, by decide, by decide, by decide, by decide⟩
  | arr => exact ⟨_, _, rfl, by decide, by decide, by decide, by decide⟩
  | obj0 => exact ⟨_, _, rfl, by decide, by decide, by decide, by decide⟩
  | obj => exact ⟨_, _, rfl, by decide, by decide, by decide, by decide⟩
  | @num n v hn hv =>
    unfold Dec.text
    cases n.neg with
    | true => exact ⟨_, _, rfl, by decide, by decide, by decide, by decide⟩
    | false =>
      obtain ⟨a, t, e, h1, h2⟩ := head_digs (r := fracText n.frac ++ expText n.exp) hn.ne hn.int
      refine ⟨a, t, by simpa using e, ?_, ?_, ?_, ?_⟩
      · simp only [isWs, Bool.or_eq_false_iff, beq_eq_false_iff_ne, ne_eq]
        refine ⟨⟨⟨?_, ?_⟩, ?_⟩, ?_⟩ <;> (rintro rfl; simp at h1)
      all_goals (rintro rfl; simp at h1 h2)

/-- The first byte of a number. -/
theorem dec_head {n : Dec} (hn : n.Ok) : ∃ a t, n.text = a :: t ∧ (a = 0x2d ∨ (0x30 ≤ a.toNat ∧ a.toNat ≤ 0x39)) := by
  unfold Dec.text
  cases n.neg with
  | true => exact ⟨_, _, rfl, .inl rfl⟩
  | false =>
    obtain ⟨a, t, e, h1, h2⟩ := head_digs (r := fracText n.frac ++ expText n.exp) hn.ne hn.int
    exact ⟨a, t, by simpa using e, .inr ⟨h1, h2⟩⟩

/-- Text that can end in the middle of nothing but a number. -/
def IsNum (b : Bytes) : Prop := ∃ n : Dec, n.Ok ∧ b = n.text

theorem stop_of_ws {w : Bytes} (h : Ws w) {r : Bytes} (hr : Stop r) : Stop (w ++ r) := by
  cases w with
  | nil => exact hr
  | cons a w =>
    have := h a (List.mem_cons_self ..)
    simp only [isWs, Bool.or_eq_true, beq_iff_eq] at this
    simp only [List.cons_append, Stop]
    rcases this with ((rfl | rfl) | rfl) | rfl <;> decide

theorem take_complete : ∀ f : Nat,
    (∀ {b v}, IsValue b v → 2 * b.length ≤ f → ∀ r, (IsNum b → Stop r) → takeValue f (b ++ r) = some (v, r)) ∧
    (∀ {b vs}, IsElems b vs → 2 * b.length + 1 ≤ f → ∀ r, takeElems f (b ++ 0x5d :: r) = some (vs, r)) ∧
    (∀ {b ms}, IsMembers b ms → 2 * b.length + 1 ≤ f → ∀ r, takeMembers f (b ++ 0x7d :: r) = some (ms, r))
  | 0 => by
    refine ⟨?_, fun _ h => by omega, fun _ h => by omega⟩
    intro b v h hf
    obtain ⟨a, t, rfl, -⟩ := isValue_head h
    simp at hf
  | f + 1 => by
    obtain ⟨ihV, ihE, ihM⟩ := take_complete f
    have stopC : ∀ {w : Bytes} {a : UInt8} {c : Bytes}, Ws w → a = 0x2c ∨ a = 0x5d ∨ a = 0x7d → Stop (w ++ a :: c) := by
      intro w a c hw ha
      refine stop_of_ws hw ?_
      rcases ha with rfl | rfl | rfl <;> simp [Stop] <;> decide
    refine ⟨?_, ?_, ?_⟩
    · intro b v h hf r hr
      cases h with
      | null => rfl
      | false => rfl
      | true => rfl
      | str h =>
        have := takeStr_append h r
        obtain ⟨t, -, rfl⟩ := h
        simp only [List.cons_append] at this ⊢
        simp only [takeValue]
        rw [if_neg (by decide), if_neg (by decide), if_neg (by decide), if_pos trivial, this]
        rfl
      | @num n v hn hv =>
        have e := takeNum_text hn (hr ⟨n, hn, rfl⟩)
        obtain ⟨a, t, e1, ha⟩ := dec_head hn
        have hne : ∀ x : UInt8, x ≠ 0x2d → ¬ (0x30 ≤ x.toNat ∧ x.toNat ≤ 0x39) → a ≠ x := by
          rintro x h1 h2 rfl
          exact ha.elim h1 h2
        rw [e1, List.cons_append] at e ⊢
        simp only [takeValue]
        rw [if_neg (hne _ (by decide) (by decide)), if_neg (hne _ (by decide) (by decide)), if_neg (hne _ (by decide) (by decide)),
          if_neg (hne _ (by decide) (by decide)), if_neg (hne _ (by decide) (by decide)), if_neg (hne _ (by decide) (by decide)), e]
        simp only [hv]
        rfl
      | @arr0 w hw =>
        simp only [List.cons_append, takeValue]
        rw [if_neg (by decide), if_neg (by decide), if_neg (by decide), if_neg (by decide), if_pos trivial,
          List.append_assoc, skipWs_append hw, List.singleton_append, skipWs_cons (by decide)]
        rfl
      | @obj0 w hw =>
        simp only [List.cons_append, takeValue]
        rw [if_neg (by decide), if_neg (by decide), if_neg (by decide), if_neg (by decide), if_neg (by decide), if_pos trivial,
          List.append_assoc, skipWs_append hw, List.singleton_append, skipWs_cons (by decide)]
        rfl
      | @arr b xs hb =>
        have e := ihE hb (by simp only [List.length_cons, List.length_append, List.length_nil] at hf; omega) r
        have hs : takeLit [0x5d] (skipWs (b ++ 0x5d :: r)) = none := by
          cases hb with
          | one hw hv hw' =>
            obtain ⟨a, t, rfl, h1, h2, -⟩ := isValue_head hv
            rw [List.append_assoc, skipWs_append hw]
            simp only [List.cons_append]
            rw [skipWs_cons h1, takeLit_one_ne (Ne.symm h2)]
          | more hw hv hw' =>
            obtain ⟨a, t, rfl, h1, h2, -⟩ := isValue_head hv
            rw [List.append_assoc, skipWs_append hw]
            simp only [List.cons_append]
            rw [skipWs_cons h1, takeLit_one_ne (Ne.symm h2)]
        simp only [List.cons_append, takeValue]
        rw [if_neg (by decide), if_neg (by decide), if_neg (by decide), if_neg (by decide), if_pos trivial,
          List.append_assoc, List.singleton_append, hs]
        simp only [e]
        rfl
      | @obj b xs hb =>
        have e := ihM hb (by simp only [List.length_cons, List.length_append, List.length_nil] at hf; omega) r
        have hs : takeLit [0x7d] (skipWs (b ++ 0x7d :: r)) = none := by
          cases hb with
          | one hw hk =>
            obtain ⟨t, -, rfl⟩ := hk
            rw [List.append_assoc, skipWs_append hw]
            simp only [List.cons_append]
            rw [skipWs_cons (by decide), takeLit_one_ne (by decide)]
          | more hw hk =>
            obtain ⟨t, -, rfl⟩ := hk
            rw [List.append_assoc, skipWs_append hw]
            simp only [List.cons_append]
            rw [skipWs_cons (by decide), takeLit_one_ne (by decide)]
        simp only [List.cons_append, takeValue]
        rw [if_neg (by decide), if_neg (by decide), if_neg (by decide), if_neg (by decide), if_neg (by decide), if_pos trivial,
          List.append_assoc, List.singleton_append, hs]
        simp only [e]
        rfl
    · intro b vs h hf r
      cases h with
      | @one w b w' v hw hv hw' =>
        simp only [List.length_append] at hf
        have e := ihV hv (by omega) (w' ++ 0x5d :: r) (fun _ => stopC hw' (.inr (.inl rfl)))
        have hs : skipWs (w ++ (b ++ w') ++ 0x5d :: r) = b ++ (w' ++ 0x5d :: r) := by
          obtain ⟨a, t, rfl, h1, -⟩ := isValue_head hv
          rw [List.append_assoc, skipWs_append hw]
          simp only [List.cons_append, List.append_assoc]
          rw [skipWs_cons h1]
        simp only [takeElems]
        rw [hs, e]
        simp only
        rw [skipWs_append hw', skipWs_cons (by decide)]
        rfl
      | @more w b w' c v vs hw hv hw' hc =>
        simp only [List.length_append, List.length_cons] at hf
        have e := ihV hv (by omega) (w' ++ 0x2c :: (c ++ 0x5d :: r)) (fun _ => stopC hw' (.inl rfl))
        have e2 := ihE hc (by omega) r
        have hs : skipWs (w ++ (b ++ (w' ++ 0x2c :: c)) ++ 0x5d :: r) = b ++ (w' ++ 0x2c :: (c ++ 0x5d :: r)) := by
          obtain ⟨a, t, rfl, h1, -⟩ := isValue_head hv
          rw [List.append_assoc, skipWs_append hw]
          simp only [List.cons_append, List.append_assoc]
          rw [skipWs_cons h1]
        simp only [takeElems]
        rw [hs, e]
        simp only
        rw [skipWs_append hw', skipWs_cons (by decide), takeLit_one_ne (by decide)]
        simp only [takeLit, if_true, e2]
        rfl
    · intro b vs h hf r
      cases h with
      | @one w k w1 w2 b w' s v hw hk hw1 hw2 hv hw' =>
        simp only [List.length_append, List.length_cons] at hf
        have e := ihV hv (by omega) (w' ++ 0x7d :: r) (fun _ => stopC hw' (.inr (.inr rfl)))
        have hs : skipWs (w ++ (k ++ (w1 ++ 0x3a :: (w2 ++ (b ++ w')))) ++ 0x7d :: r) =
            k ++ (w1 ++ 0x3a :: (w2 ++ (b ++ (w' ++ 0x7d :: r)))) := by
          obtain ⟨t, -, rfl⟩ := hk
          rw [List.append_assoc, skipWs_append hw]
          simp only [List.cons_append, List.append_assoc]
          rw [skipWs_cons (by decide)]
        have hs2 : skipWs (w2 ++ (b ++ (w' ++ 0x7d :: r))) = b ++ (w' ++ 0x7d :: r) := by
          obtain ⟨a, t, rfl, h1, -⟩ := isValue_head hv
          rw [skipWs_append hw2]
          simp only [List.cons_append]
          rw [skipWs_cons h1]
        simp only [takeMembers]
        rw [hs, takeStr_append hk]
        simp only
        rw [skipWs_append hw1, skipWs_cons (by decide)]
        simp only [takeLit, if_true]
        rw [hs2, e]
        simp only
        rw [skipWs_append hw', skipWs_cons (by decide)]
        simp only [takeLit, if_true]
      | @more w k w1 w2 b w' c s v ms hw hk hw1 hw2 hv hw' hc =>
        simp only [List.length_append, List.length_cons] at hf
        have e := ihV hv (by omega) (w' ++ 0x2c :: (c ++ 0x7d :: r)) (fun _ => stopC hw' (.inl rfl))
        have e2 := ihM hc (by omega) r
        have hs : skipWs (w ++ (k ++ (w1 ++ 0x3a :: (w2 ++ (b ++ (w' ++ 0x2c :: c))))) ++ 0x7d :: r) =
            k ++ (w1 ++ 0x3a :: (w2 ++ (b ++ (w' ++ 0x2c :: (c ++ 0x7d :: r))))) := by
          obtain ⟨t, -, rfl⟩ := hk
          rw [List.append_assoc, skipWs_append hw]
          simp only [List.cons_append, List.append_assoc]
          rw [skipWs_cons (by decide)]
        have hs2 : skipWs (w2 ++ (b ++ (w' ++ 0x2c :: (c ++ 0x7d :: r)))) = b ++ (w' ++ 0x2c :: (c ++ 0x7d :: r)) := by
          obtain ⟨a, t, rfl, h1, -⟩ := isValue_head hv
          rw [skipWs_append hw2]
          simp only [List.cons_append]
          rw [skipWs_cons h1]
        simp only [takeMembers]
        rw [hs, takeStr_append hk]
        simp only
        rw [skipWs_append hw1, skipWs_cons (by decide)]
        simp only [takeLit, if_true]
        rw [hs2, e]
        simp only
        rw [skipWs_append hw', skipWs_cons (by decide)]
        simp only [takeLit, if_true]
        rw [if_neg (by decide)]
        simp only [e2]
        rfl

/-- The reader accepts exactly the JSON texts, and gives the documents they stand for. -/
theorem readText_iff (b : Bytes) (v : Val) : readText b = some v ↔ IsText b v := by
  constructor
  · intro h
    unfold readText at h
    split at h
    · cases h
    · rename_i v' r h1
      split at h
      · rename_i h2
        injection h with h; subst h
        obtain ⟨c, h3, h4⟩ := (take_sound _).1 h1
        obtain ⟨w, h5, h6, -⟩ := skipWs_split b
        exact ⟨w, c, r, h5, h3, ws_of_skipWs h2, by rw [← h4, ← h6]⟩
      · cases h
  · rintro ⟨w, c, w', h1, h2, h3, rfl⟩
    obtain ⟨a, t, rfl, h4, -⟩ := isValue_head h2
    unfold readText
    have e := (take_complete (2 * (w ++ (a :: t ++ w')).length + 1)).1 h2
      (by simp only [List.length_append]; omega) w' (fun _ => by
        have := stop_of_ws h3 (r := []) trivial
        rwa [List.append_nil] at this)
    have hs : skipWs (w ++ (a :: t ++ w')) = a :: t ++ w' := by
      rw [skipWs_append h1, List.cons_append, skipWs_cons h4]
    rw [hs, e]
    simp only [skipWs_all h3, if_true]

end Zer.Json
