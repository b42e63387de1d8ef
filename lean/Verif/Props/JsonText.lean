import Verif.Json.Print
import Verif.Props.Json

/-!
# Properties of JSON texts: C86, C87, and C32, C74, C75 for JSON

Here the text layer is not a parameter with a law but RFC 8259 itself (`IsText`). `fmt`, the way in which doubles are written,
stays a parameter (`FmtOk`).
-/

namespace Zer.Json

/-! ### Documents that come from texts -/

/-- A document without blobs presents itself. -/
theorem agrees_doc {fmt : UInt64 → Bytes} : ∀ {v : Val}, Printable (std fmt) v → Plain v → reader.Agrees v v := by
  intro v
  induction v using Val.ind with
  | null => intro _ _; exact .null ⟨rfl, rfl, ⟨_, _, rfl, rfl, rfl⟩, rfl, rfl, rfl, rfl, rfl⟩
  | bool b => intro _ _; exact .bool ⟨rfl, rfl, ⟨_, _, rfl, rfl, rfl⟩, rfl, rfl, rfl, rfl, rfl⟩ rfl
  | int i =>
    intro _ _
    exact .int ⟨⟨rfl, rfl, ⟨_, _, rfl, rfl, rfl⟩, rfl, rfl, rfl, rfl, rfl⟩, fun _ => ⟨i, rfl, rfl⟩, fun h => by cases h⟩ (fun h => h.elim)
  | uint n => intro _ h; exact .uint (showsInt_uint h rfl) (fun h => h.elim)
  | dbl d => intro _ _; exact .dbl ⟨rfl, rfl, ⟨_, _, rfl, rfl, rfl⟩, rfl, rfl, rfl, rfl, rfl⟩ rfl
  | str s => intro _ _; exact .str ⟨rfl, rfl, ⟨_, _, rfl, rfl, rfl⟩, rfl, rfl, rfl, rfl, rfl⟩ rfl rfl
  | blob s => intro h _; exact h.elim
  | arr xs ih =>
    intro hp h
    refine .arr (fun i => (xs[i]?).getD .null) ⟨rfl, rfl, ⟨_, _, rfl, rfl, rfl⟩, rfl, rfl, isBlob_arr h.1, rfl, rfl⟩ rfl ?_ ?_ ?_
    · intro i hi; simp [reader, getIdx, hi]
    · intro i hi
      simp only [reader, getIdx]
      rw [List.getElem?_eq_none (by simpa using hi)]
    · intro i hl
      simp only [List.getElem?_eq_getElem hl, Option.getD_some]
      exact ih _ (List.getElem_mem _) (hp.arr _ (List.getElem_mem _)) (h.arr _ (List.getElem_mem _))
  | map ms ih =>
    intro hp h
    refine .map (fun k => (firstVal ms k).getD .null) ⟨rfl, rfl, ⟨_, _, rfl, rfl, rfl⟩, rfl, rfl, rfl, rfl, rfl⟩ rfl ?_ ?_ ?_ ?_
    · intro k
      simp only [reader, contains]
      congr 1
      by_cases hm : k ∈ ms.map Prod.fst
      · obtain ⟨v, hv⟩ := firstVal_isSome.1 hm
        rw [decide_eq_true hm, hv]; rfl
      · rw [decide_eq_false hm]
        cases hv : firstVal ms k with
        | none => rfl
        | some v => exact absurd (firstVal_isSome.2 ⟨v, hv⟩) hm
    · intro k hm
      obtain ⟨v, hv⟩ := firstVal_isSome.1 hm
      simp [reader, getKey, hv]
    · intro k hm
      simp only [reader, getKey]
      cases hv : firstVal ms k with
      | none => rfl
      | some v => exact absurd (firstVal_isSome.2 ⟨v, hv⟩) hm
    · intro k w hw
      have hm := firstVal_mem hw
      simp only [hw, Option.getD_some]
      exact ih _ hm (hp.map _ hm).2 (h.map _ hm).2

/-- To compute what a text stands for. -/
theorem isText_of_code {b : Bytes} {v : Val} (h : (readText b).map code = some (code v)) : IsText b v := by
  cases e : readText b with
  | none => rw [e] at h; cases h
  | some w =>
    rw [e] at h
    have : w = v := (code_inj w (w := v) (r := []) (r' := []) (by simpa using h)).1
    exact (readText_iff b v).1 (by rw [e, this])

/-! ### C86: every JSON text is read, and nothing else -/

/-- C86: exactly the JSON texts are accepted; everything else raises a deserialization error. -/
theorem c86_json_accepts (fmt : UInt64 → Bytes) (b : Bytes) :
    (∀ d, opn (std fmt) b = .ok d ↔ IsText b d) ∧ ((¬ ∃ d, IsText b d) → opn (std fmt) b = .err .deser) := by
  have e : ∀ d, opn (std fmt) b = .ok d ↔ readText b = some d := by
    intro d
    unfold opn
    show (match readText b with | some d => Res.ok d | none => .err .deser) = _ ↔ _
    cases readText b <;> simp
  refine ⟨fun d => (e d).trans (readText_iff b d), fun h => ?_⟩
  unfold opn
  show (match readText b with | some d => Res.ok d | none => .err .deser) = _
  cases h' : readText b with
  | none => rfl
  | some d => exact absurd ⟨d, (readText_iff b d).1 h'⟩ h

/-- C86: a text stands for one document. -/
theorem c86_json_unambiguous {b : Bytes} {v w : Val} (hv : IsText b v) (hw : IsText b w) : v = w :=
  Option.some.inj (((readText_iff b v).2 hv).symm.trans ((readText_iff b w).2 hw))

/-- C86: the reader presents the document that a text stands for, however it is spelled: white space, escapes, numbers. Missing:
integers of 2^63 and more, arrays that look like blobs (`c86_json_reader_refuted`). -/
theorem c86_json_reader_partial (fmt : UInt64 → Bytes) {b : Bytes} {v : Val} (h : IsText b v) (hp : Plain v) :
    ∃ d, opn (std fmt) b = .ok d ∧ reader.Agrees d v :=
  ⟨v, ((c86_json_accepts fmt b).1 v).2 h, agrees_doc (fmt := fmt) (isText_printable h) hp⟩

/-- The text `["~b","","base64"]`. -/
def blobText : Bytes := [0x5b, 0x22, 0x7e, 0x62, 0x22, 0x2c, 0x22, 0x22, 0x2c, 0x22, 0x62, 0x61, 0x73, 0x65, 0x36, 0x34, 0x22, 0x5d]

/-- The text `9223372036854775808`. -/
def bigText : Bytes := [0x39, 0x32, 0x32, 0x33, 0x33, 0x37, 0x32, 0x30, 0x33, 0x36, 0x38, 0x35, 0x34, 0x37, 0x37, 0x35, 0x38, 0x30, 0x38]

theorem blobText_is : IsText blobText (.arr [.str blobTag, .str [], .str blobEncoding]) :=
  isText_of_code (by decide +kernel)

theorem bigText_is : IsText bigText (.uint 0x8000000000000000) :=
  isText_of_code (by decide +kernel)

/-- C86 is false: an array of three strings is presented as a blob, 2^63 as a negative number. -/
theorem c86_json_reader_refuted (fmt : UInt64 → Bytes) :
    (∃ v d, IsText blobText v ∧ opn (std fmt) blobText = .ok d ∧ ¬ reader.Agrees d v) ∧
    (∃ v d, IsText bigText v ∧ opn (std fmt) bigText = .ok d ∧ ¬ reader.Agrees d v) := by
  refine ⟨⟨_, _, blobText_is, ((c86_json_accepts fmt _).1 _).2 blobText_is, fun h => ?_⟩,
    ⟨_, _, bigText_is, ((c86_json_accepts fmt _).1 _).2 bigText_is, fun h => ?_⟩⟩
  · cases h with
    | arr child hs =>
      have := hs.2.2.2.2.2.1
      exact absurd this (by rw [show reader.isBlob _ = .ok true from rfl]; simp)
  · cases h with
    | uint h _ =>
      obtain ⟨x, hx, hz⟩ := h.2.1 rfl
      cases hx
      exact absurd hz (by decide)

/-- The text ` {"a" : [1, -2.5e0, "é😀\n"]}` with white space, a fraction and an exponent, escapes and a surrogate pair. -/
def sampleText : Bytes := [0x20, 0x7b, 0x22, 0x61, 0x22, 0x20, 0x3a, 0x20, 0x5b, 0x31, 0x2c, 0x09, 0x2d, 0x32, 0x2e, 0x35, 0x65, 0x30, 0x2c, 0x20,
  0x22, 0x5c, 0x75, 0x30, 0x30, 0x65, 0x39, 0x5c, 0x75, 0x64, 0x38, 0x33, 0x64, 0x5c, 0x75, 0x64, 0x65, 0x30, 0x30, 0x5c, 0x6e, 0x22, 0x5d, 0x7d, 0x0a]

def sampleDoc : Val := .map [([0x61], .arr [.uint 1, .dbl 0xc004000000000000, .str [0xc3, 0xa9, 0xf0, 0x9f, 0x98, 0x80, 0x0a]])]

example : IsText sampleText sampleDoc ∧ Plain sampleDoc :=
  ⟨isText_of_code (by decide +kernel), by simp [sampleDoc, Plain, Val.Each, Val.eachList, Val.eachEntries, Mimic]⟩

/-- Not texts: a trailing comma, a leading zero, an unpaired surrogate, a control character, a byte order mark, an overlong encoding. -/
example : ∀ b ∈ ([[0x5b, 0x31, 0x2c, 0x5d], [0x30, 0x31], [0x22, 0x5c, 0x75, 0x64, 0x38, 0x33, 0x64, 0x22], [0x22, 0x0a, 0x22], [0xef, 0xbb, 0xbf, 0x31],
    [0x22, 0xc0, 0xaf, 0x22], []] : List Bytes), ¬ ∃ d, IsText b d := by
  intro b hb
  rintro ⟨d, hd⟩
  have h1 := (readText_iff b d).2 hd
  have h2 : ∀ b ∈ ([[0x5b, 0x31, 0x2c, 0x5d], [0x30, 0x31], [0x22, 0x5c, 0x75, 0x64, 0x38, 0x33, 0x64, 0x22], [0x22, 0x0a, 0x22], [0xef, 0xbb, 0xbf, 0x31],
    [0x22, 0xc0, 0xaf, 0x22], []] : List Bytes), (readText b).isNone = true := by decide +kernel
  have := h2 b hb
  rw [h1] at this
  cases this

/-! ### C87: what is written is one line of JSON -/

/-- Text in UTF-8 without control characters. -/
def Fit (b : Bytes) : Prop := isUtf8 b = true ∧ ∀ a ∈ b, 0x20 ≤ a.toNat

theorem Fit.append {a b : Bytes} (ha : Fit a) (hb : Fit b) : Fit (a ++ b) :=
  ⟨by rw [isUtf8_append ha.1]; exact hb.1, fun x hx => (List.mem_append.1 hx).elim (ha.2 x) (hb.2 x)⟩

theorem fit_ascii {b : Bytes} (h : ∀ a ∈ b, 0x20 ≤ a.toNat ∧ a.toNat < 0x80) : Fit b :=
  ⟨isUtf8_ascii fun c hc => by rw [UInt8.lt_iff_toNat_lt]; exact (h c hc).2, fun a ha => (h a ha).1⟩

theorem Fit.cons {a : UInt8} {b : Bytes} (ha : 0x20 ≤ a.toNat ∧ a.toNat < 0x80) (hb : Fit b) : Fit (a :: b) :=
  (fit_ascii (b := [a]) (by simpa using ha)).append hb

theorem fit_nil : Fit [] := fit_ascii (by simp)

theorem digs_ascii {ds : List Nat} (h : ∀ d ∈ ds, d < 10) : ∀ a ∈ digs ds, 0x20 ≤ a.toNat ∧ a.toNat < 0x80 := by
  intro a ha
  obtain ⟨d, hd, rfl⟩ := List.mem_map.1 ha
  have := h d hd
  rw [digit_byte this]; omega

theorem fit_digs {ds : List Nat} (h : ∀ d ∈ ds, d < 10) : Fit (digs ds) := fit_ascii (digs_ascii h)

theorem fit_dec {n : Dec} (h : n.Ok) : Fit n.text := by
  have h1 : Fit (if n.neg then [0x2d] else []) := by
    split
    · exact fit_ascii (by decide)
    · exact fit_nil
  have h2 : Fit (fracText n.frac) := by
    unfold fracText
    split
    · exact fit_nil
    · exact Fit.cons (by decide) (fit_digs h.frac)
  have h3 : Fit (expText n.exp) := by
    cases e : n.exp with
    | none => exact fit_nil
    | some x =>
      obtain ⟨up, sg, ds⟩ := x
      have hd := (h.exp up sg ds e).2
      unfold expText
      refine Fit.cons (by cases up <;> decide) (Fit.append ?_ (fit_digs hd))
      rcases sg with _ | _ | _ <;> exact fit_ascii (by decide)
  exact h1.append ((fit_digs h.int).append (h2.append h3))

theorem esc_range : ∀ c, c < 0x80 → ∀ a ∈ escByte (UInt8.ofNat c), 0x20 ≤ a.toNat ∧ a.toNat < 0x80 := by decide +kernel

theorem fit_encode {c : Nat} (hc : Scalar c) : Fit ((encode c).flatMap escByte) := by
  by_cases h : c < 0x80
  · have e : encode c = [UInt8.ofNat c] := by unfold encode; rw [if_pos h]
    rw [e, List.flatMap_cons, List.flatMap_nil, List.append_nil]
    exact fit_ascii (esc_range c h)
  · have hh := encode_high hc (by omega)
    rw [flatMap_esc_plain hh]
    refine ⟨?_, fun a ha => by have := hh a ha; omega⟩
    have := isUtf8_encode hc []
    rw [List.append_nil] at this
    rw [this]; rfl

theorem fit_chars : ∀ {cs : List Nat}, (∀ c ∈ cs, Scalar c) → Fit ((cs.flatMap encode).flatMap escByte)
  | [], _ => fit_nil
  | c :: cs, h => by
    rw [List.flatMap_cons, List.flatMap_append]
    exact (fit_encode (h c (List.mem_cons_self ..))).append (fit_chars fun x hx => h x (List.mem_cons_of_mem _ hx))

theorem fit_str {s : Bytes} (h : isUtf8 s = true) : Fit (writeStr s) := by
  obtain ⟨cs, h1, rfl⟩ := (isUtf8_iff s).1 h
  exact Fit.cons (by decide) ((fit_chars h1).append (fit_ascii (by decide)))

section
variable {fmt : UInt64 → Bytes}

theorem fit_list : ∀ {xs : List Val} {b : Bytes}, (∀ x ∈ xs, ∀ c, printVal fmt x = some c → Fit c) → printList fmt xs = some b → Fit b
  | [], b, _, h => by rw [printList] at h; injection h with h; subst h; exact fit_nil
  | x :: xs, b, ih, h => by
    rw [printList] at h
    split at h
    · rename_i c d h1 h2
      injection h with h
      subst h
      have k2 := fit_list (fun y hy => ih y (List.mem_cons_of_mem _ hy)) h2
      refine (ih x (List.mem_cons_self ..) c h1).append ?_
      split
      · exact k2
      · exact Fit.cons (by decide) k2
    · cases h

theorem fit_entries : ∀ {ms : List (Bytes × Val)} {b : Bytes}, (∀ m ∈ ms, ∀ c, printVal fmt m.2 = some c → Fit c) →
    printEntries fmt ms = some b → Fit b
  | [], b, _, h => by rw [printEntries] at h; injection h with h; subst h; exact fit_nil
  | (k, v) :: ms, b, ih, h => by
    rw [printEntries] at h
    split at h
    · rename_i hk
      split at h
      · rename_i c d h1 h2
        injection h with h
        subst h
        have k2 := fit_entries (fun y hy => ih y (List.mem_cons_of_mem _ hy)) h2
        refine (fit_str hk).append (Fit.cons (by decide) ((ih (k, v) (List.mem_cons_self ..) c h1).append ?_))
        split
        · exact k2
        · exact Fit.cons (by decide) k2
      · cases h
    · cases h

theorem fit_print (hf : FmtOk fmt) : ∀ {v : Val} {b : Bytes}, printVal fmt v = some b → Fit b := by
  intro v
  induction v using Val.ind with
  | null => intro b h; rw [printVal] at h; injection h with h; subst h; exact fit_ascii (by decide)
  | bool x => intro b h; cases x <;> (rw [printVal] at h; injection h with h; subst h; exact fit_ascii (by decide))
  | int i => intro b h; rw [printVal] at h; injection h with h; subst h; exact fit_dec (intDec_ok ..)
  | uint n => intro b h; rw [printVal] at h; injection h with h; subst h; exact fit_dec (intDec_ok ..)
  | dbl d =>
    intro b h
    rw [printVal] at h
    split at h
    · rename_i hd
      injection h with h
      subst h
      obtain ⟨n, h1, h2, -⟩ := hf d hd
      rw [← h2]; exact fit_dec h1
    · cases h
  | str s =>
    intro b h
    rw [printVal] at h
    split at h
    · rename_i hs
      injection h with h
      subst h
      exact fit_str hs
    · cases h
  | blob s => intro b h; rw [printVal] at h; cases h
  | arr xs ih =>
    intro b h
    rw [printVal, Option.map_eq_some_iff] at h
    obtain ⟨c, h, rfl⟩ := h
    exact Fit.cons (by decide) ((fit_list (fun x hx c hc => ih x hx hc) h).append (fit_ascii (by decide)))
  | map ms ih =>
    intro b h
    rw [printVal, Option.map_eq_some_iff] at h
    obtain ⟨c, h, rfl⟩ := h
    exact Fit.cons (by decide) ((fit_entries (fun x hx c hc => ih x hx hc) h).append (fit_ascii (by decide)))

theorem bytesOf_print {dbg : Bool} {es : List Ev} {b : Bytes} (h : (proto (std fmt) dbg).bytesOf es = .ok b) :
    ∃ s, (writer dbg).run {} es = .ok s ∧ printVal fmt (doc s) = some b := by
  obtain ⟨s, h1, h2⟩ := Res.bind_eq_ok.1 h
  refine ⟨s, h1, ?_⟩
  have h2 : finish (std fmt) s = .ok b := h2
  unfold finish at h2
  split at h2
  · rename_i c hc
    injection h2 with h2
    subst h2
    exact hc
  · cases h2

/-- C87: whatever calls were made, what `finish` returns is a JSON text in UTF-8 without control characters. -/
theorem c87_json_output (hf : FmtOk fmt) {dbg : Bool} {es : List Ev} {b : Bytes} (h : (proto (std fmt) dbg).bytesOf es = .ok b) :
    (∃ d, IsText b d) ∧ Utf8 b ∧ ∀ a ∈ b, 0x20 ≤ a.toNat := by
  obtain ⟨s, -, h⟩ := bytesOf_print h
  obtain ⟨c, h1, h2⟩ := printVal_value hf (printable_of_print h)
  rw [h] at h1
  injection h1 with h1
  subst h1
  have := fit_print hf h
  exact ⟨⟨_, isText_of_value h2⟩, (isUtf8_iff b).1 this.1, this.2⟩

/-- The lines of a text; each ends with a line feed. -/
def lines : Bytes → Bytes → List Bytes
  | _, [] => []
  | acc, a :: r => if a = 0x0a then acc :: lines [] r else lines (acc ++ [a]) r

theorem lines_one : ∀ {b : Bytes}, (0x0a : UInt8) ∉ b → ∀ acc r, lines acc (b ++ 0x0a :: r) = (acc ++ b) :: lines [] r
  | [], _, acc, r => by simp [lines]
  | a :: b, h, acc, r => by
    have : a ≠ 0x0a := fun e => h (by rw [e]; exact List.mem_cons_self ..)
    simp only [List.cons_append, lines, if_neg this]
    rw [lines_one (fun hb => h (List.mem_cons_of_mem _ hb))]
    simp

/-- C87: messages written one per line are the lines. -/
theorem c87_json_lines (hf : FmtOk fmt) {dbg : Bool} : ∀ {bs : List Bytes}, (∀ b ∈ bs, ∃ es, (proto (std fmt) dbg).bytesOf es = .ok b) →
    lines [] (bs.flatMap (fun b => b ++ [0x0a])) = bs
  | [], _ => rfl
  | b :: bs, h => by
    obtain ⟨es, hb⟩ := h b (List.mem_cons_self ..)
    have hn : (0x0a : UInt8) ∉ b := fun hm => absurd ((c87_json_output hf hb).2.2 _ hm) (by decide)
    rw [List.flatMap_cons, List.append_assoc, List.singleton_append, lines_one hn, c87_json_lines hf (fun x hx => h x (List.mem_cons_of_mem _ hx))]
    rfl

/-- C32 in terms of RFC 8259: what is written is a JSON text that stands for the value, and reading it presents the value. Missing: as
for `c32_json_round_trip_partial`. -/
theorem c32_json_rfc_partial (hf : FmtOk fmt) (dbg : Bool) {v : Val} (ht : Textual (std fmt) v) (hp : Plain v) (hk : KeysOk v) :
    ∃ b r, (proto (std fmt) dbg).serialize v = .ok b ∧ IsText b (toDom v).canon ∧ opn (std fmt) b = .ok r ∧ reader.Agrees r v := by
  obtain ⟨b, h1, h2⟩ := (serialize_ok_iff (dbg := dbg) (std_law hf) hk).1 ht
  exact ⟨b, _, h1, (readText_iff b _).1 h2, by simp only [opn, h2], agrees_dom hp⟩

/-! ### C74: truncated texts -/

/-- Numbers: their texts can be continued. -/
def Number : Val → Prop
  | .int _ | .uint _ | .dbl _ => True
  | _ => False

theorem dec_real_number {n : Dec} {v : Val} (h : n.real = some v) : Number v := by
  unfold Dec.real at h
  rw [Option.map_eq_some_iff] at h
  obtain ⟨d, -, rfl⟩ := h
  trivial

theorem dec_number {n : Dec} {v : Val} (h : n.val = some v) : Number v := by
  unfold Dec.val at h
  split at h
  · split at h
    · split at h
      · injection h with h; subst h; trivial
      · exact dec_real_number h
    · split at h
      · injection h with h; subst h; trivial
      · exact dec_real_number h
  · exact dec_real_number h

/-- Whether a value is a number shows in the first byte. -/
theorem isValue_first {b : Bytes} {v : Val} (h : IsValue b v) : ∃ a t, b = a :: t ∧ ((a = 0x2d ∨ (0x30 ≤ a.toNat ∧ a.toNat ≤ 0x39)) ↔ Number v) := by
  cases h with
  | null => exact ⟨_, _, rfl, by simp [Number]⟩
  | false => exact ⟨_, _, rfl, by simp [Number]⟩
  | true => exact ⟨_, _, rfl, by simp [Number]⟩
  | str h => obtain ⟨t, -, rfl⟩ := h; exact ⟨_, _, rfl, by simp [Number]⟩
  | arr0 => exact ⟨_, _, rfl, by simp [Number]⟩
  | arr => exact ⟨_, _, rfl, by simp [Number]⟩
  | obj0 => exact ⟨_, _, rfl, by simp [Number]⟩
  | obj => exact ⟨_, _, rfl, by simp [Number]⟩
  | num hn hv =>
    obtain ⟨a, t, e, ha⟩ := dec_head hn
    exact ⟨a, t, e, ⟨fun _ => dec_number hv, fun _ => ha⟩⟩

theorem isNum_number {b : Bytes} {v : Val} (h : IsValue b v) (hn : IsNum b) : Number v := by
  obtain ⟨n, h1, rfl⟩ := hn
  obtain ⟨a, t, e, ha⟩ := dec_head h1
  obtain ⟨a', t', e', ha'⟩ := isValue_first h
  rw [e] at e'
  injection e' with e'
  exact ha'.1 (e' ▸ ha)

/-- Values other than numbers end where they end. -/
theorem value_cut {c d x y : Bytes} {v w : Val} (hc : IsValue c v) (hd : IsValue d w) (h : c ++ x = d ++ y) (hn : ¬ Number v) :
    v = w ∧ x = y := by
  have hw : ¬ Number w := by
    obtain ⟨a, t, rfl, ha⟩ := isValue_first hc
    obtain ⟨a', t', rfl, ha'⟩ := isValue_first hd
    injection h with h
    subst h
    exact fun hw => hn (ha.1 (ha'.2 hw))
  have h1 := (take_complete (2 * c.length + 2 * d.length)).1 hc (by omega) x (fun hi => absurd (isNum_number hc hi) hn)
  have h2 := (take_complete (2 * c.length + 2 * d.length)).1 hd (by omega) y (fun hi => absurd (isNum_number hd hi) hw)
  rw [h, h2] at h1
  injection h1 with h1
  injection h1 with h1 h3
  exact ⟨h1.symm, h3.symm⟩

theorem isWs_not_value {a : UInt8} {t : Bytes} {v : Val} (h : IsValue (a :: t) v) : isWs a = false := by
  obtain ⟨a', t', e, h, -⟩ := isValue_head h
  injection e with e
  rw [e]; exact h

/-- White space before a value is not part of it. -/
theorem ws_cut {w x c : Bytes} {v : Val} (hw : Ws w) (hc : IsValue c v) : ∀ {d y : Bytes} {u : Bytes}, Ws u → (∃ z, IsValue d z) →
    w ++ (c ++ x) = u ++ (d ++ y) → c ++ x = d ++ y := by
  intro d y u hu hd h
  obtain ⟨z, hd⟩ := hd
  have h1 : skipWs (w ++ (c ++ x)) = c ++ x := by
    obtain ⟨a, t, rfl, ha, -⟩ := isValue_head hc
    rw [skipWs_append hw, List.cons_append, skipWs_cons ha]
  have h2 : skipWs (u ++ (d ++ y)) = d ++ y := by
    obtain ⟨a, t, rfl, ha, -⟩ := isValue_head hd
    rw [skipWs_append hu, List.cons_append, skipWs_cons ha]
  rw [← h1, h, h2]

theorem prefix_no_text {b p t : Bytes} {v : Val} (h : IsValue b v) (hn : ¬ Number v) (e : b = p ++ t) (ht : t ≠ []) : ¬ ∃ w, IsText p w := by
  rintro ⟨w, u, c, u', h1, h2, h3, rfl⟩
  have e' : [] ++ (b ++ []) = u ++ (c ++ (u' ++ t)) := by simp [e]
  have := ws_cut (by simp [Ws]) h h1 ⟨_, h2⟩ e'
  have := (value_cut h h2 this hn).2
  have := congrArg List.length this
  simp only [List.length_nil, List.length_append] at this
  exact ht (List.length_eq_zero_iff.1 (by omega))

theorem domC_number {v : Val} : Number (domC v).canon ↔ Number v := by
  cases v with
  | int i => simp only [domC, Val.canon]; by_cases h : 0 ≤ i.toInt <;> simp [h, Number]
  | _ => simp only [domC, Val.canon, Number]

/-- C74 for JSON: no proper prefix of a serialization is accepted, unless it is a single number. Missing: numbers (`c74_json_refuted`). -/
theorem c74_json_partial (hf : FmtOk fmt) {dbg : Bool} {v : Val} (hn : ¬ Number v) {b p t : Bytes}
    (h : (proto (std fmt) dbg).serialize v = .ok b) (e : b = p ++ t) (ht : t ≠ []) : opn (std fmt) p = .err .deser := by
  rw [serialize_eq] at h
  split at h
  · split at h
    · rename_i c hc
      injection h with h
      subst h
      have hc : printVal fmt (domC v) = some c := hc
      obtain ⟨c', h1, h2⟩ := printVal_value hf (printable_of_print hc)
      rw [hc] at h1
      injection h1 with h1
      subst h1
      exact (c86_json_accepts fmt p).2 (prefix_no_text h2 (fun h => hn (domC_number.1 h)) e ht)
    · cases h
  · cases h

/-- C74 is false of JSON: a prefix of the text of a number is a number. -/
theorem c74_json_refuted (fmt : UInt64 → Bytes) (dbg : Bool) : ∃ (v w : Val) (b p t : Bytes) (r : Val), (proto (std fmt) dbg).serialize v = .ok b ∧ b = p ++ t ∧
    t ≠ [] ∧ opn (std fmt) p = .ok r ∧ reader.Agrees r w := by
  have h : IsText [0x31] (.uint 1) := isText_of_code (by decide +kernel)
  refine ⟨.uint 12, .uint 1, [0x31, 0x32], [0x31], [0x32], .uint 1, ?_, rfl, by simp, ((c86_json_accepts fmt _).1 _).2 h, ?_⟩
  · rw [serialize_eq]
    rfl
  · exact showsInt_uint (n := 1) (by decide) rfl |> fun h => .uint h (fun h => h.elim)

/-! ### C75: bytes after a text -/

/-- C75 for JSON: white space after a text changes nothing; anything else is refused, unless the text is a single number. Missing: other
bytes (`c75_json_refuted`). -/
theorem c75_json_partial {b x : Bytes} {d : Val} (h : opn (std fmt) b = .ok d) :
    (Ws x → opn (std fmt) (b ++ x) = .ok d) ∧ (¬ Number d → ¬ Ws x → opn (std fmt) (b ++ x) = .err .deser) := by
  obtain ⟨w, c, w', h1, h2, h3, rfl⟩ := ((c86_json_accepts fmt b).1 d).1 h
  constructor
  · intro hx
    refine ((c86_json_accepts fmt _).1 d).2 ⟨w, c, w' ++ x, h1, h2, ?_, by simp⟩
    intro a ha
    exact (List.mem_append.1 ha).elim (h3 a) (hx a)
  · intro hn hx
    refine (c86_json_accepts fmt _).2 ?_
    rintro ⟨z, u, e, u', k1, k2, k3, k⟩
    have := ws_cut h1 h2 k1 ⟨_, k2⟩ (x := w' ++ x) (by rw [← k]; simp)
    have := (value_cut h2 k2 this hn).2
    exact hx fun a ha => k3 a (by rw [← this]; exact List.mem_append_right _ ha)

/-- C75 for JSON: no other document is read when bytes follow, unless the text is a single number. -/
theorem c75_json_no_other {b x : Bytes} {d d' : Val} (h : opn (std fmt) b = .ok d) (hn : ¬ Number d)
    (h' : opn (std fmt) (b ++ x) = .ok d') : d' = d := by
  by_cases hx : Ws x
  · rw [(c75_json_partial h).1 hx] at h'
    injection h' with h'
    exact h'.symm
  · rw [(c75_json_partial h).2 hn hx] at h'
    cases h'

/-- C75 is false of JSON: two texts in a row are refused, and digits after a number make another number. -/
theorem c75_json_refuted (fmt : UInt64 → Bytes) :
    (opn (std fmt) [0x7b, 0x7d] = .ok (.map []) ∧ reader.Agrees (.map []) (.map []) ∧ opn (std fmt) [0x7b, 0x7d, 0x7b, 0x7d] = .err .deser) ∧
    (opn (std fmt) [0x31] = .ok (.uint 1) ∧ opn (std fmt) [0x31, 0x32] = .ok (.uint 12)) := by
  have h0 : IsText [0x7b, 0x7d] (.map []) := isText_of_code (by decide +kernel)
  have h1 : IsText [0x31] (.uint 1) := isText_of_code (by decide +kernel)
  have h2 : IsText [0x31, 0x32] (.uint 12) := isText_of_code (by decide +kernel)
  have k0 := ((c86_json_accepts fmt _).1 _).2 h0
  refine ⟨⟨k0, agrees_doc (fmt := fmt) ⟨trivial, trivial⟩ ⟨trivial, trivial⟩, ?_⟩, ((c86_json_accepts fmt _).1 _).2 h1, ((c86_json_accepts fmt _).1 _).2 h2⟩
  exact (c75_json_partial (x := [0x7b, 0x7d]) k0).2 (by simp [Number]) (by simp [Ws, isWs])

end

/-- The sample value can be written, and its text cut anywhere. -/
example : Textual (std (fun d => (exactDec d).text)) sampleVal ∧ Plain sampleVal ∧ KeysOk sampleVal ∧ ¬ Number sampleVal :=
  ⟨by simp [sampleVal, Textual, Val.Each, Val.eachList, Val.eachEntries, std]; decide,
    by simp [sampleVal, Plain, Val.Each, Val.eachList, Val.eachEntries, Mimic],
    by simp [sampleVal, KeysOk, Val.Each, Val.eachList, Val.eachEntries, KeyOk], by simp [sampleVal, Number]⟩

/-- Two messages, one per line. -/
example : ∀ b ∈ ([[0x5b, 0x5d], [0x22, 0x5c, 0x6e, 0x22]] : List Bytes), ∃ es, (proto (std (fun d => (exactDec d).text)) true).bytesOf es = .ok b := by
  intro b hb
  simp only [List.mem_cons, List.not_mem_nil, or_false] at hb
  rcases hb with rfl | rfl
  · exact ⟨[.beginArr 0, .endArr], rfl⟩
  · exact ⟨[.str [0x0a]], rfl⟩

/-- Reading the text of a number. -/
theorem readText_num {n : Dec} (hn : n.Ok) : readText n.text = n.val := by
  obtain ⟨a, t, e, ha⟩ := dec_head hn
  have hk := takeNum_text hn (r := []) trivial
  rw [List.append_nil, e] at hk
  have h1 : a ≠ 0x6e := by rintro rfl; simp at ha
  have h2 : a ≠ 0x66 := by rintro rfl; simp at ha
  have h3 : a ≠ 0x74 := by rintro rfl; simp at ha
  have h4 : a ≠ 0x22 := by rintro rfl; simp at ha
  have h5 : a ≠ 0x5b := by rintro rfl; simp at ha
  have h6 : a ≠ 0x7b := by rintro rfl; simp at ha
  have hw : isWs a = false := by
    cases h : isWs a
    · rfl
    · simp only [isWs, Bool.or_eq_true, beq_iff_eq] at h
      rcases h with ((rfl | rfl) | rfl) | rfl <;> simp at ha
  unfold readText
  rw [e]
  simp only [skipWs, hw, Bool.false_eq_true, if_false]
  rw [takeValue.eq_def]
  simp only [h1, h2, h3, h4, h5, h6, if_false, hk]
  cases n.val with
  | none => rfl
  | some v => rfl

theorem dist_between {a b c u : Nat} (h1 : a ≤ b) (h2 : b ≤ c) (h : dist c u ≤ dist a u) : dist b u ≤ dist a u := by
  unfold dist at *
  omega

theorem toInt_neg {n : Nat} (h : n ≤ 2 ^ 63) : (Int64.ofInt (-(n : Int))).toInt = -n := by
  rw [Int64.toInt_ofInt, Int.bmod_eq_of_le] <;> simp only [Int64.size] <;> omega

theorem decDouble_eq {neg : Bool} {m u den : Nat} {e : Int} (hu : u = m * 10 ^ e.toNat * 2 ^ 1074) (hden : den = 10 ^ (-e).toNat) :
    decDouble neg m e = if roundRat u den < 2047 * 2 ^ 52 then some (UInt64.ofNat ((if neg then 2 ^ 63 else 0) + roundRat u den)) else none := by
  rw [hu, hden, decDouble]

/-- C86, numbers: an integer that fits 64 bits is read as that integer (a negative one as a signed, any other as an unsigned
one); of anything else the nearest double is read (of two nearest ones the even one), unless that is infinity. `u / den` is
the number in units of 2^-1074, and `dblUnits` the value of a bit pattern in these units. -/
theorem c86_json_number (fmt : UInt64 → Bytes) {n : Dec} (hn : n.Ok) {e : Int} {u den : Nat} (he : e = expVal n.exp - n.frac.length)
    (hu : u = natOf (n.int ++ n.frac) * 10 ^ e.toNat * 2 ^ 1074) (hden : den = 10 ^ (-e).toNat) :
    (n.frac = [] → n.exp = none → n.neg = false → natOf n.int < 2 ^ 64 → ∃ m, opn (std fmt) n.text = .ok (.uint m) ∧ m.toNat = natOf n.int) ∧
    (n.frac = [] → n.exp = none → n.neg = true → natOf n.int ≤ 2 ^ 63 → ∃ i, opn (std fmt) n.text = .ok (.int i) ∧ i.toInt = -natOf n.int) ∧
    (¬ (n.frac = [] ∧ n.exp = none ∧ natOf n.int ≤ (if n.neg then 2 ^ 63 else 2 ^ 64 - 1)) →
      (∃ d, opn (std fmt) n.text = .ok (.dbl d) ∧ (n.neg = true ↔ 2 ^ 63 ≤ d.toNat) ∧ mag d < 2047 * 2 ^ 52 ∧
        ∀ g, dist (dblUnits (mag d) * den) u < dist (dblUnits g * den) u ∨ g = mag d ∨
          (dist (dblUnits (mag d) * den) u = dist (dblUnits g * den) u ∧ mag d % 2 = 0)) ∨
      (opn (std fmt) n.text = .err .deser ∧
        ∀ g, g < 2047 * 2 ^ 52 → dist (dblUnits (2047 * 2 ^ 52) * den) u ≤ dist (dblUnits g * den) u)) := by
  have hd : 0 < den := by rw [hden]; exact Nat.pow_pos (by decide)
  have ho : opn (std fmt) n.text = match n.val with | some d => .ok d | none => .err .deser := by
    rw [← readText_num hn]; rfl
  refine ⟨fun h1 h2 h3 h4 => ?_, fun h1 h2 h3 h4 => ?_, fun h => ?_⟩
  · refine ⟨UInt64.ofNat (natOf n.int), ?_, ?_⟩
    · rw [ho, Dec.val, if_pos ⟨h1, h2⟩, h3, if_neg Bool.false_ne_true, if_pos h4]
    · rw [UInt64.toNat_ofNat']; omega
  · refine ⟨Int64.ofInt (-(natOf n.int : Int)), ?_, ?_⟩
    · rw [ho, Dec.val, if_pos ⟨h1, h2⟩, h3, if_pos rfl, if_pos h4]
    · exact toInt_neg h4
  · have hv : n.val = n.real := by
      unfold Dec.val
      split
      · rename_i hh
        split
        · rename_i hg
          rw [if_neg (fun hl => h ⟨hh.1, hh.2, by rw [if_pos hg]; exact hl⟩)]
        · rename_i hg
          rw [if_neg (fun hl => h ⟨hh.1, hh.2, by rw [if_neg hg]; omega⟩)]
      · rfl
    have ho' : opn (std fmt) n.text = if roundRat u den < 2047 * 2 ^ 52 then
        .ok (.dbl (UInt64.ofNat ((if n.neg then 2 ^ 63 else 0) + roundRat u den))) else .err .deser := by
      rw [ho, hv, Dec.real, ← he, decDouble_eq hu hden]
      by_cases h : roundRat u den < 2047 * 2 ^ 52
      · rw [if_pos h, if_pos h]; rfl
      · rw [if_neg h, if_neg h]; rfl
    rw [ho']
    have hs := roundRat_spec (u := u) hd
    clear hu hden he ho' ho hv
    have hI : 2047 * 2 ^ 52 < 2 ^ 63 := by decide
    generalize 2047 * 2 ^ 52 = I at hI ⊢
    by_cases hr : roundRat u den < I
    · left
      rw [if_pos hr]
      have hm : (UInt64.ofNat ((if n.neg = true then 2 ^ 63 else 0) + roundRat u den)).toNat =
          (if n.neg = true then 2 ^ 63 else 0) + roundRat u den := by
        rw [UInt64.toNat_ofNat']
        split <;> omega
      have hm' : mag (UInt64.ofNat ((if n.neg = true then 2 ^ 63 else 0) + roundRat u den)) = roundRat u den := by
        rw [mag, hm]
        split <;> omega
      refine ⟨_, rfl, ?_, by rw [hm']; exact hr, fun g => by rw [hm']; exact hs g⟩
      rw [hm]
      cases n.neg
      · simp; omega
      · simp
    · right
      rw [if_neg hr]
      refine ⟨rfl, fun g hg => ?_⟩
      refine dist_between (Nat.mul_le_mul_right _ (dblUnits_le (Nat.le_of_lt hg)))
        (Nat.mul_le_mul_right _ (dblUnits_le (Nat.le_of_not_lt hr))) ?_
      rcases hs g with h | h | h
      · exact Nat.le_of_lt h
      · exact absurd (h ▸ hg) hr
      · exact Nat.le_of_eq h.1

/-- 1.5, 1e400 -/
example : Dec.text ⟨false, [1], [5], none⟩ = [0x31, 0x2e, 0x35] ∧ decDouble false 15 (-1) = some 0x3ff8000000000000 ∧
    decDouble false 1 400 = none := by decide +kernel

end Zer.Json
