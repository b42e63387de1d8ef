import Verif.Json.Grammar
import Verif.Json.Model

/-!
# Writing JSON texts

`printVal` stands for `yyjson_mut_write` without flags: minified, strings escaped where RFC 8259 requires it, no infinities and no
NaNs, strings that are not UTF-8 refused. How doubles are written is the parameter `fmt`, of which only `FmtOk` is assumed: a JSON
number that reads back as the same double. `std` puts writer and reader together; it satisfies `Text.Law`, the documented behaviour
of yyjson that the theorems about the JSON protocol assume.
-/

namespace Zer.Json

/-! ## Writer -/

/-- Upper case hexadecimal digit. -/
def hexDigit (n : Nat) : UInt8 := UInt8.ofNat (if n < 10 then 0x30 + n else 0x41 + (n - 10))

/-- One byte of a string: the quote, the backslash and the control characters are escaped. -/
def escByte (a : UInt8) : Bytes :=
  if a = 0x22 then [0x5c, 0x22]
  else if a = 0x5c then [0x5c, 0x5c]
  else if a = 0x08 then [0x5c, 0x62]
  else if a = 0x0c then [0x5c, 0x66]
  else if a = 0x0a then [0x5c, 0x6e]
  else if a = 0x0d then [0x5c, 0x72]
  else if a = 0x09 then [0x5c, 0x74]
  else if a.toNat < 0x20 then [0x5c, 0x75, 0x30, 0x30, hexDigit (a.toNat / 16), hexDigit (a.toNat % 16)]
  else [a]

/-- A string with its quotes. -/
def writeStr (s : Bytes) : Bytes := 0x22 :: (s.flatMap escByte ++ [0x22])

/-- An integer. -/
def writeInt (i : Int) : Bytes := (intDec (decide (i < 0)) i.natAbs).text

mutual
/-- `yyjson_mut_write(doc, 0)`; `none` is NULL. -/
def printVal (fmt : UInt64 → Bytes) : Val → Option Bytes
  | .null => some [0x6e, 0x75, 0x6c, 0x6c]
  | .bool false => some [0x66, 0x61, 0x6c, 0x73, 0x65]
  | .bool true => some [0x74, 0x72, 0x75, 0x65]
  | .int i => some (writeInt i.toInt)
  | .uint n => some (writeInt n.toNat)
  | .dbl d => if finiteBits d then some (fmt d) else none
  | .str s => if isUtf8 s then some (writeStr s) else none
  | .blob _ => none
  | .arr xs => (printList fmt xs).map (fun b => 0x5b :: (b ++ [0x5d]))
  | .map ms => (printEntries fmt ms).map (fun b => 0x7b :: (b ++ [0x7d]))
/-- Elements with commas between them. -/
def printList (fmt : UInt64 → Bytes) : List Val → Option Bytes
  | [] => some []
  | x :: xs =>
    match printVal fmt x, printList fmt xs with
    | some b, some c => some (b ++ (if xs.isEmpty then c else 0x2c :: c))
    | _, _ => none
/-- Entries with commas between them. -/
def printEntries (fmt : UInt64 → Bytes) : List (Bytes × Val) → Option Bytes
  | [] => some []
  | (k, v) :: ms =>
    if isUtf8 k then
      match printVal fmt v, printEntries fmt ms with
      | some b, some c => some (writeStr k ++ 0x3a :: (b ++ (if ms.isEmpty then c else 0x2c :: c)))
      | _, _ => none
    else none
end

/-- What is assumed of the text of a finite double: a number of RFC 8259 that stands for the double. -/
def FmtOk (fmt : UInt64 → Bytes) : Prop := ∀ d, finiteBits d = true → ∃ n : Dec, n.Ok ∧ n.text = fmt d ∧ n.val = some (.dbl d)

/-- Writer and reader of JSON texts. -/
def std (fmt : UInt64 → Bytes) : Text := ⟨printVal fmt, readText, isUtf8⟩

/-! ## Strings -/

theorem escByte_plain {a : UInt8} (h : 0x80 ≤ a.toNat) : escByte a = [a] := by
  have hne : ∀ b : UInt8, b.toNat < 0x80 → a ≠ b := by
    rintro b hb rfl; omega
  unfold escByte
  rw [if_neg (hne 0x22 (by decide)), if_neg (hne 0x5c (by decide)), if_neg (hne 8 (by decide)), if_neg (hne 0xc (by decide)),
    if_neg (hne 0xa (by decide)), if_neg (hne 0xd (by decide)), if_neg (hne 9 (by decide)), if_neg (by omega)]

theorem flatMap_esc_plain : ∀ {x : Bytes}, (∀ a ∈ x, 0x80 ≤ a.toNat) → x.flatMap escByte = x
  | [], _ => rfl
  | a :: x, h => by
    rw [List.flatMap_cons, escByte_plain (h a (List.mem_cons_self ..)),
      flatMap_esc_plain (fun b hb => h b (List.mem_cons_of_mem _ hb))]
    rfl

/-- Beyond ASCII, no byte of an encoding is ASCII. -/
theorem encode_high {c : Nat} (hc : Scalar c) (h : 0x80 ≤ c) : ∀ a ∈ encode c, 0x80 ≤ a.toNat := by
  obtain ⟨h1, -⟩ := hc
  intro a ha
  unfold encode at ha
  rw [if_neg (by omega)] at ha
  split at ha
  · simp only [List.mem_cons, List.not_mem_nil, or_false] at ha
    rcases ha with rfl | rfl <;> rw [toNat_byte (by omega)] <;> omega
  · split at ha
    · simp only [List.mem_cons, List.not_mem_nil, or_false] at ha
      rcases ha with rfl | rfl | rfl <;> rw [toNat_byte (by omega)] <;> omega
    · simp only [List.mem_cons, List.not_mem_nil, or_false] at ha
      rcases ha with rfl | rfl | rfl | rfl <;> rw [toNat_byte (by omega)] <;> omega

theorem hexVal_digit : ∀ n, n < 16 → hexVal (hexDigit n) = some n := by decide

theorem hex4_control {n : Nat} (h : n < 0x20) : Hex4 [0x30, 0x30, hexDigit (n / 16), hexDigit (n % 16)] n :=
  ⟨_, _, _, _, 0, 0, n / 16, n % 16, rfl, by decide, by decide, hexVal_digit _ (by omega), hexVal_digit _ (by omega), by omega⟩

theorem escByte_ascii {c : Nat} (h : c < 0x80) : IsChar (escByte (UInt8.ofNat c)) [UInt8.ofNat c] := by
  have e : encode c = [UInt8.ofNat c] := by unfold encode; rw [if_pos h]
  have hs : Scalar c := ⟨by omega, by omega⟩
  unfold escByte
  by_cases h1 : UInt8.ofNat c = 0x22
  · rw [if_pos h1, h1]; exact .short (by decide)
  rw [if_neg h1]
  by_cases h2 : UInt8.ofNat c = 0x5c
  · rw [if_pos h2, h2]; exact .short (by decide)
  rw [if_neg h2]
  by_cases h3 : UInt8.ofNat c = 0x08
  · rw [if_pos h3, h3]; exact .short (by decide)
  rw [if_neg h3]
  by_cases h4 : UInt8.ofNat c = 0x0c
  · rw [if_pos h4, h4]; exact .short (by decide)
  rw [if_neg h4]
  by_cases h5 : UInt8.ofNat c = 0x0a
  · rw [if_pos h5, h5]; exact .short (by decide)
  rw [if_neg h5]
  by_cases h6 : UInt8.ofNat c = 0x0d
  · rw [if_pos h6, h6]; exact .short (by decide)
  rw [if_neg h6]
  by_cases h7 : UInt8.ofNat c = 0x09
  · rw [if_pos h7, h7]; exact .short (by decide)
  rw [if_neg h7, toNat_byte (by omega)]
  by_cases h8 : c < 0x20
  · rw [if_pos h8, ← e]
    exact .hex (hex4_control h8) hs
  · rw [if_neg h8, ← e]
    refine .plain hs (by omega) ?_ ?_
    · rintro rfl; exact h1 rfl
    · rintro rfl; exact h2 rfl

theorem esc_char {c : Nat} (hc : Scalar c) : IsChar ((encode c).flatMap escByte) (encode c) := by
  by_cases h : c < 0x80
  · have e : encode c = [UInt8.ofNat c] := by unfold encode; rw [if_pos h]
    rw [e, List.flatMap_cons, List.flatMap_nil, List.append_nil]
    exact escByte_ascii h
  · rw [flatMap_esc_plain (encode_high hc (by omega))]
    exact .plain hc (by omega) (by omega) (by omega)

theorem esc_chars : ∀ {cs : List Nat}, (∀ c ∈ cs, Scalar c) → IsChars ((cs.flatMap encode).flatMap escByte) (cs.flatMap encode)
  | [], _ => .nil
  | c :: cs, h => by
    rw [List.flatMap_cons, List.flatMap_append]
    exact .cons (esc_char (h c (List.mem_cons_self ..))) (esc_chars fun x hx => h x (List.mem_cons_of_mem _ hx))

theorem writeStr_isStr {s : Bytes} (h : isUtf8 s = true) : IsStr (writeStr s) s := by
  obtain ⟨cs, h1, rfl⟩ := (isUtf8_iff s).1 h
  exact ⟨_, esc_chars h1, rfl⟩

/-! ## Numbers -/

theorem writeInt_neg {i : Int64} (h : i.toInt < 0) : IsValue (writeInt i.toInt) (.int i) := by
  have hb := i.le_toInt
  have e : (intDec true i.toInt.natAbs).val = some (.int i) := by
    rw [intDec_int (by omega)]
    congr 2
    rw [show -(i.toInt.natAbs : Int) = i.toInt by omega, Int64.ofInt_toInt]
  unfold writeInt
  rw [decide_eq_true h]
  exact .num (intDec_ok ..) e

theorem writeInt_nat (n : UInt64) : IsValue (writeInt n.toNat) (.uint n) := by
  have e : (intDec false (n.toNat : Int).natAbs).val = some (.uint n) := by
    rw [Int.natAbs_natCast, intDec_uint n.toNat_lt, UInt64.ofNat_toNat]
  unfold writeInt
  rw [decide_eq_false (by omega)]
  exact .num (intDec_ok ..) e

theorem writeInt_canon (i : Int64) : IsValue (writeInt i.toInt) (Val.canon (.int i)) := by
  simp only [Val.canon]
  split
  · rename_i h
    have h2 : (i.toUInt64.toNat : Int) = i.toInt := by
      have := Int64.toNat_toUInt64_of_le (x := i) (Int64.le_iff_toInt_le.2 (by simpa using h))
      rw [this]; exact Int.toNat_of_nonneg h
    have := writeInt_nat i.toUInt64
    rwa [h2] at this
  · exact writeInt_neg (by omega)

/-! ## Documents -/

section
variable {fmt : UInt64 → Bytes}

theorem printList_elems {xs : List Val} (hne : xs ≠ [])
    (ih : ∀ x ∈ xs, Printable (std fmt) x → ∃ b, printVal fmt x = some b ∧ IsValue b x.canon)
    (h : ∀ x ∈ xs, Printable (std fmt) x) : ∃ b, printList fmt xs = some b ∧ IsElems b (Val.canonList xs) := by
  induction xs with
  | nil => exact absurd rfl hne
  | cons x xs ihx =>
    obtain ⟨b, h1, h2⟩ := ih x (List.mem_cons_self ..) (h x (List.mem_cons_self ..))
    have hw : Ws [] := by simp [Ws]
    cases xs with
    | nil =>
      have := IsElems.one hw h2 hw
      simp only [List.nil_append, List.append_nil] at this
      exact ⟨b, by simp [printList, h1], by simpa [Val.canonList] using this⟩
    | cons y ys =>
      obtain ⟨c, h3, h4⟩ := ihx (by simp) (fun x hx => ih x (List.mem_cons_of_mem _ hx)) (fun x hx => h x (List.mem_cons_of_mem _ hx))
      have := IsElems.more hw h2 hw h4
      simp only [List.nil_append] at this
      refine ⟨b ++ 0x2c :: c, ?_, this⟩
      rw [printList, h1, h3]
      rfl

theorem printEntries_members {ms : List (Bytes × Val)} (hne : ms ≠ [])
    (ih : ∀ m ∈ ms, Printable (std fmt) m.2 → ∃ b, printVal fmt m.2 = some b ∧ IsValue b m.2.canon)
    (h : ∀ m ∈ ms, isUtf8 m.1 = true ∧ Printable (std fmt) m.2) :
    ∃ b, printEntries fmt ms = some b ∧ IsMembers b (Val.canonEntries ms) := by
  induction ms with
  | nil => exact absurd rfl hne
  | cons m ms ihx =>
    obtain ⟨k, v⟩ := m
    obtain ⟨hk, hv⟩ := h _ (List.mem_cons_self ..)
    obtain ⟨b, h1, h2⟩ := ih _ (List.mem_cons_self ..) hv
    have hw : Ws [] := by simp [Ws]
    cases ms with
    | nil =>
      have := IsMembers.one hw (writeStr_isStr hk) hw hw h2 hw
      simp only [List.nil_append, List.append_nil] at this
      refine ⟨writeStr k ++ 0x3a :: b, ?_, by simpa [Val.canonEntries] using this⟩
      rw [printEntries, if_pos hk, h1, printEntries]
      simp
    | cons y ys =>
      obtain ⟨c, h3, h4⟩ := ihx (by simp) (fun x hx => ih x (List.mem_cons_of_mem _ hx)) (fun x hx => h x (List.mem_cons_of_mem _ hx))
      have := IsMembers.more hw (writeStr_isStr hk) hw hw h2 hw h4
      simp only [List.nil_append] at this
      refine ⟨writeStr k ++ 0x3a :: (b ++ 0x2c :: c), ?_, this⟩
      rw [printEntries, if_pos hk, h1, h3]
      rfl

/-- What is written is a JSON value that stands for the document. -/
theorem printVal_value (hf : FmtOk fmt) : ∀ {v : Val}, Printable (std fmt) v → ∃ b, printVal fmt v = some b ∧ IsValue b v.canon := by
  intro v
  induction v using Val.ind with
  | null => intro _; exact ⟨_, rfl, .null⟩
  | bool b => intro _; cases b <;> exact ⟨_, rfl, by constructor⟩
  | int i => intro _; exact ⟨_, by simp only [printVal], writeInt_canon i⟩
  | uint n => intro _; exact ⟨_, by simp only [printVal], writeInt_nat n⟩
  | dbl d =>
    intro h
    have h : finiteBits d = true := h
    obtain ⟨n, h1, h2, h3⟩ := hf d h
    refine ⟨fmt d, by simp only [printVal, h, if_true], ?_⟩
    rw [← h2]; exact .num h1 h3
  | str s =>
    intro h
    have h : isUtf8 s = true := h
    exact ⟨_, by simp only [printVal, h, if_true], .str (writeStr_isStr h)⟩
  | blob s => intro h; exact absurd h (by simp [Printable, Val.Each])
  | arr xs ih =>
    intro h
    by_cases hne : xs = []
    · subst hne; exact ⟨_, rfl, .arr0 (w := []) (by simp [Ws])⟩
    · obtain ⟨b, h1, h2⟩ := printList_elems hne ih (fun x hx => h.arr x hx)
      exact ⟨_, by rw [printVal, h1]; rfl, .arr h2⟩
  | map ms ih =>
    intro h
    by_cases hne : ms = []
    · subst hne; exact ⟨_, rfl, .obj0 (w := []) (by simp [Ws])⟩
    · obtain ⟨b, h1, h2⟩ := printEntries_members hne (fun m hm => ih m hm) (fun m hm => h.map m hm)
      exact ⟨_, by rw [printVal, h1]; rfl, .obj h2⟩

theorem printList_some : ∀ {xs : List Val} {b : Bytes}, printList fmt xs = some b → ∀ x ∈ xs, ∃ c, printVal fmt x = some c
  | x :: xs, b, h, y, hy => by
    rw [printList] at h
    split at h
    · rename_i c d h1 h2
      rcases List.mem_cons.1 hy with rfl | hy
      · exact ⟨c, h1⟩
      · exact printList_some h2 y hy
    · cases h

theorem printEntries_some : ∀ {ms : List (Bytes × Val)} {b : Bytes}, printEntries fmt ms = some b →
    ∀ m ∈ ms, isUtf8 m.1 = true ∧ ∃ c, printVal fmt m.2 = some c
  | (k, v) :: ms, b, h, y, hy => by
    rw [printEntries] at h
    split at h
    · rename_i hk
      split at h
      · rename_i c d h1 h2
        rcases List.mem_cons.1 hy with rfl | hy
        · exact ⟨hk, c, h1⟩
        · exact printEntries_some h2 y hy
      · cases h
    · cases h

/-- Only printable documents are written. -/
theorem printable_of_print : ∀ {v : Val} {b : Bytes}, printVal fmt v = some b → Printable (std fmt) v := by
  intro v
  induction v using Val.ind with
  | dbl d =>
    intro b h
    rw [printVal] at h
    split at h
    · assumption
    · cases h
  | str s =>
    intro b h
    rw [printVal] at h
    split at h
    · assumption
    · cases h
  | blob s => intro b h; rw [printVal] at h; cases h
  | arr xs ih =>
    intro b h
    rw [printVal, Option.map_eq_some_iff] at h
    obtain ⟨c, h, -⟩ := h
    refine ⟨trivial, (Val.eachList_iff xs).2 fun x hx => ?_⟩
    obtain ⟨d, hd⟩ := printList_some h x hx
    exact ih x hx hd
  | map ms ih =>
    intro b h
    rw [printVal, Option.map_eq_some_iff] at h
    obtain ⟨c, h, -⟩ := h
    refine ⟨trivial, (Val.eachEntries_iff ms).2 fun m hm => ?_⟩
    obtain ⟨hk, d, hd⟩ := printEntries_some h m hm
    exact ⟨hk, ih m hm hd⟩
  | _ => intro b h; exact trivial

theorem isText_of_value {b : Bytes} {v : Val} (h : IsValue b v) : IsText b v :=
  ⟨[], b, [], by simp [Ws], h, by simp [Ws], by simp⟩

/-- The JSON texts of RFC 8259 behave as the theorems about the JSON protocol assume. -/
theorem std_law (hf : FmtOk fmt) : (std fmt).Law where
  written d h := by
    obtain ⟨b, h1, h2⟩ := printVal_value hf h
    exact ⟨b, h1, (readText_iff b _).2 (isText_of_value h2)⟩
  refused d h := by
    cases e : (std fmt).print d with
    | none => rfl
    | some b => exact absurd (printable_of_print e) h
  ascii _ h := isUtf8_ascii h

end

/-- The exact texts of doubles meet `FmtOk`. -/
theorem exact_fmtOk : FmtOk (fun d => (exactDec d).text) := by
  intro d h
  refine ⟨exactDec d, exactDec_ok d, rfl, exactDec_real ?_⟩
  simpa [finiteBits] using h

/-! ## What the reader accepts can be written again -/

theorem decDouble_finite {neg : Bool} {m : Nat} {e : Int} {d : UInt64} (h : decDouble neg m e = some d) : finiteBits d = true := by
  unfold decDouble at h
  simp only at h
  split at h
  · rename_i hn
    injection h with h
    subst h
    generalize roundRat _ _ = n at hn
    simp only [finiteBits, decide_eq_true_eq, ne_eq]
    rw [UInt64.toNat_ofNat']
    cases neg
    · simp only [Bool.false_eq_true, if_false]; omega
    · simp only [if_true]; omega
  · cases h

theorem isChar_utf8 {c x : Bytes} (h : IsChar c x) : ∃ n, Scalar n ∧ x = encode n := by
  cases h with
  | plain h => exact ⟨_, h, rfl⟩
  | short h =>
    simp only [escapes, List.mem_cons, Prod.mk.injEq, List.not_mem_nil, or_false] at h
    rcases h with ⟨rfl, rfl⟩ | ⟨rfl, rfl⟩ | ⟨rfl, rfl⟩ | ⟨rfl, rfl⟩ | ⟨rfl, rfl⟩ | ⟨rfl, rfl⟩ | ⟨rfl, rfl⟩ | ⟨rfl, rfl⟩
    · exact ⟨0x22, by decide, rfl⟩
    · exact ⟨0x5c, by decide, rfl⟩
    · exact ⟨0x2f, by decide, rfl⟩
    · exact ⟨0x08, by decide, rfl⟩
    · exact ⟨0x0c, by decide, rfl⟩
    · exact ⟨0x0a, by decide, rfl⟩
    · exact ⟨0x0d, by decide, rfl⟩
    · exact ⟨0x09, by decide, rfl⟩
  | hex h hs => exact ⟨_, hs, rfl⟩
  | pair h1 h2 h3 h4 h5 h6 => exact ⟨_, ⟨by omega, by omega⟩, rfl⟩

theorem isChars_utf8 {t s : Bytes} (h : IsChars t s) : isUtf8 s = true := by
  induction h with
  | nil => rfl
  | cons h1 h2 ih =>
    obtain ⟨n, hn, rfl⟩ := isChar_utf8 h1
    rw [isUtf8_encode hn]; exact ih

theorem isStr_utf8 {b s : Bytes} (h : IsStr b s) : isUtf8 s = true := by
  obtain ⟨t, h, -⟩ := h; exact isChars_utf8 h

theorem dec_real_printable {fmt : UInt64 → Bytes} {n : Dec} {v : Val} (h : n.real = some v) : Printable (std fmt) v := by
  unfold Dec.real at h
  rw [Option.map_eq_some_iff] at h
  obtain ⟨d, h1, rfl⟩ := h
  exact decDouble_finite h1

theorem dec_printable {fmt : UInt64 → Bytes} {n : Dec} {v : Val} (h : n.val = some v) : Printable (std fmt) v := by
  unfold Dec.val at h
  split at h
  · split at h
    · split at h
      · injection h with h; subst h; exact trivial
      · exact dec_real_printable h
    · split at h
      · injection h with h; subst h; exact trivial
      · exact dec_real_printable h
  · exact dec_real_printable h

mutual
theorem isValue_printable {fmt : UInt64 → Bytes} : ∀ {b : Bytes} {v : Val}, IsValue b v → Printable (std fmt) v
  | _, _, .null => trivial
  | _, _, .false => trivial
  | _, _, .true => trivial
  | _, _, .num _ h => dec_printable h
  | _, _, .str h => isStr_utf8 h
  | _, _, .arr0 _ => ⟨trivial, trivial⟩
  | _, _, .arr h => ⟨trivial, isElems_printable h⟩
  | _, _, .obj0 _ => ⟨trivial, trivial⟩
  | _, _, .obj h => ⟨trivial, isMembers_printable h⟩
theorem isElems_printable {fmt : UInt64 → Bytes} : ∀ {b : Bytes} {xs : List Val}, IsElems b xs → Val.eachList (fun v => match v with
    | .dbl b => finiteBits b = true
    | .str s => (std fmt).utf8 s = true
    | .blob _ => False
    | _ => True) (fun k => (std fmt).utf8 k = true) xs
  | _, _, .one _ h _ => ⟨isValue_printable h, trivial⟩
  | _, _, .more _ h _ hs => ⟨isValue_printable h, isElems_printable hs⟩
theorem isMembers_printable {fmt : UInt64 → Bytes} : ∀ {b : Bytes} {ms : List (Bytes × Val)}, IsMembers b ms → Val.eachEntries (fun v => match v with
    | .dbl b => finiteBits b = true
    | .str s => (std fmt).utf8 s = true
    | .blob _ => False
    | _ => True) (fun k => (std fmt).utf8 k = true) ms
  | _, _, .one _ hk _ _ h _ => ⟨isStr_utf8 hk, isValue_printable h, trivial⟩
  | _, _, .more _ hk _ _ h _ hs => ⟨isStr_utf8 hk, isValue_printable h, isMembers_printable hs⟩
end

/-- Every document that is read from a text can be written. -/
theorem isText_printable {fmt : UInt64 → Bytes} {b : Bytes} {v : Val} (h : IsText b v) : Printable (std fmt) v := by
  obtain ⟨_, _, _, _, h, _⟩ := h
  exact isValue_printable h

end Zer.Json
