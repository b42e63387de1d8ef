import Verif.Json.Pretty
import Verif.Props.JsonText
import Verif.Reach

/-!
# Properties of `to_string()` of the JSON reader (C51, C52, C70)
-/

namespace Zer.Json

variable {fmt : UInt64 → Bytes}

/-! ### Parts of a document -/

theorem printable_idx {d r : Val} {i : Nat} (h : Printable (std fmt) d) (e : reader.getIdx d i = .ok r) : Printable (std fmt) r := by
  have e : getIdx d i = .ok r := e
  unfold getIdx at e
  split at e
  · split at e
    · rename_i v hv
      injection e with e
      subst e
      exact h.arr _ (List.mem_of_getElem? hv)
    · cases e
  · cases e

theorem printable_key {d r : Val} {k : Bytes} (h : Printable (std fmt) d) (e : reader.getKey d k = .ok r) : Printable (std fmt) r := by
  have e : getKey d k = .ok r := e
  unfold getKey at e
  split at e
  · split at e
    · rename_i v hv
      injection e with e
      subst e
      exact (h.map _ (firstVal_mem hv)).2
    · cases e
  · cases e

theorem printable_reach {d r : Val} (h : Printable (std fmt) d) (hr : Reader.Reach reader d r) : Printable (std fmt) r := by
  induction hr with
  | refl => exact h
  | idx i _ e ih => exact printable_idx ih e
  | key k _ e ih => exact printable_key ih e

theorem toText_value (hf : FmtOk fmt) (pretty : Bool) {v : Val} (h : Printable (std fmt) v) : IsValue (toText fmt pretty (some v)) v.canon := by
  cases pretty
  · obtain ⟨b, h1, h2⟩ := printVal_value hf h
    simpa [toText, h1] using h2
  · obtain ⟨b, h1, h2⟩ := prettyVal_value hf h 0
    simpa [toText, h1] using h2

/-! ### C52 -/

/-- C52 for JSON: on whatever text a reader was opened, `to_string` of every part of the document is a JSON text that stands for
that part, laid out or not; it never reports a failure. -/
theorem c52_json_text (hf : FmtOk fmt) (pretty : Bool) {b : Bytes} {d r : Val} (h : opn (std fmt) b = .ok d) (hr : Reader.Reach reader d r) :
    IsText (toText fmt pretty (some r)) r.canon ∧ toText fmt pretty (some r) ≠ failText := by
  have hp : Printable (std fmt) d := isText_printable (((c86_json_accepts fmt b).1 d).1 h)
  have hv := toText_value hf pretty (printable_reach hp hr)
  refine ⟨isText_of_value hv, fun e => ?_⟩
  have h1 : readText failText = some r.canon := (readText_iff _ _).2 (e ▸ isText_of_value hv)
  have h2 : (readText failText).isNone = true := by decide +kernel
  rw [h1] at h2
  cases h2

/-- C52 for JSON: the text can be read again and presents the same as the part it was taken from. Integers from 2^63 on and arrays
that look like blobs excepted, as for every text (C86). -/
theorem c52_json_again (hf : FmtOk fmt) (pretty : Bool) {b : Bytes} {d r : Val} (h : opn (std fmt) b = .ok d) (hr : Reader.Reach reader d r)
    (hp : Plain r.canon) : ∃ d', opn (std fmt) (toText fmt pretty (some r)) = .ok d' ∧ reader.Agrees d' r.canon :=
  c86_json_reader_partial fmt (c52_json_text hf pretty h hr).1 hp

mutual
theorem writeVal_canon : ∀ v : Val, printVal fmt v.canon = printVal fmt v
  | .null => rfl
  | .bool _ => rfl
  | .int i => by
    simp only [Val.canon]
    split
    · rename_i h
      simp only [printVal]
      congr 2
      have := Int64.toNat_toUInt64_of_le (x := i) (Int64.le_iff_toInt_le.2 (by simpa using h))
      rw [this]; exact Int.toNat_of_nonneg (by simpa using h)
    · rfl
  | .uint _ => rfl
  | .dbl _ => rfl
  | .str _ => rfl
  | .blob _ => rfl
  | .arr xs => by simp only [Val.canon, printVal, writeList_canon xs]
  | .map ms => by simp only [Val.canon, printVal, writeEntries_canon ms]
theorem writeList_canon : ∀ xs : List Val, printList fmt (Val.canonList xs) = printList fmt xs
  | [] => rfl
  | x :: xs => by
    simp only [Val.canonList, printList, writeVal_canon x, writeList_canon xs]
    cases xs <;> rfl
theorem writeEntries_canon : ∀ ms : List (Bytes × Val), printEntries fmt (Val.canonEntries ms) = printEntries fmt ms
  | [] => rfl
  | (k, v) :: ms => by
    simp only [Val.canonEntries, printEntries, writeVal_canon v, writeEntries_canon ms]
    cases ms <;> rfl
end

/-- C52 for JSON: `to_string(false)` of a reader over a serialized value returns the serialization, byte for byte. -/
theorem c52_json_compact (hf : FmtOk fmt) {dbg : Bool} {v : Val} {b : Bytes} (hk : KeysOk v) (h : (proto (std fmt) dbg).serialize v = .ok b) :
    ∃ d, opn (std fmt) b = .ok d ∧ toText fmt false (some d) = b := by
  have L := std_law hf
  have ht : Textual (std fmt) v := by
    apply Classical.byContradiction
    intro hn
    rw [(serialize_ok_iff (dbg := dbg) L hk).2 hn] at h
    cases h
  obtain ⟨b', h1, h2⟩ := (serialize_ok_iff (dbg := dbg) L hk).1 ht
  rw [h] at h1
  injection h1 with h1
  subst h1
  refine ⟨(toDom v).canon, by simp only [opn, h2], ?_⟩
  rw [serialize_eq, keysB_ok dbg hk, domC_eq hk, if_pos rfl] at h
  have e : (std fmt).print (toDom v) = printVal fmt (toDom v) := rfl
  rw [e] at h
  split at h
  · rename_i c hc
    injection h with h
    subst h
    simp [toText, writeVal_canon, hc]
  · cases h

/-! ### C51 -/

/-- C51 for JSON: a string is written without control characters, as a JSON string that stands for it, and different strings
differently. -/
theorem c51_json_escape {s : Bytes} (hs : isUtf8 s = true) :
    IsStr (writeStr s) s ∧ (∀ a ∈ writeStr s, 0x20 ≤ a.toNat) ∧ ∀ t, isUtf8 t = true → writeStr s = writeStr t → s = t := by
  refine ⟨writeStr_isStr hs, (fit_str hs).2, fun t ht e => ?_⟩
  have h1 : IsText (writeStr s) (.str s) := isText_of_value (.str (writeStr_isStr hs))
  have h2 : IsText (writeStr s) (.str t) := isText_of_value (.str (e ▸ writeStr_isStr ht))
  have := c86_json_unambiguous h1 h2
  injection this

example : isUtf8 [0x61, 0x22, 0x0a, 0xc3, 0xa9] = true ∧
    writeStr [0x61, 0x22, 0x0a, 0xc3, 0xa9] = [0x22, 0x61, 0x5c, 0x22, 0x5c, 0x6e, 0xc3, 0xa9, 0x22] := by decide +kernel

/-! ### C70 -/

mutual
theorem canon_twice : ∀ v : Val, v.canon.canon = v.canon
  | .null => rfl
  | .bool _ => rfl
  | .int i => by
    simp only [Val.canon]
    split
    · rfl
    · rename_i h; simp only [Val.canon, if_neg h]
  | .uint _ => rfl
  | .dbl _ => rfl
  | .str _ => rfl
  | .blob _ => rfl
  | .arr xs => by simp only [Val.canon, canonList_twice xs]
  | .map ms => by simp only [Val.canon, canonEntries_twice ms]
theorem canonList_twice : ∀ xs : List Val, Val.canonList (Val.canonList xs) = Val.canonList xs
  | [] => rfl
  | x :: xs => by simp only [Val.canonList, canon_twice x, canonList_twice xs]
theorem canonEntries_twice : ∀ ms : List (Bytes × Val), Val.canonEntries (Val.canonEntries ms) = Val.canonEntries ms
  | [] => rfl
  | (k, v) :: ms => by simp only [Val.canonEntries, canon_twice v, canonEntries_twice ms]
end

/-- C70 for JSON: if `to_string` prints the same for parts of two documents, with whatever layouts, the parts are the same up to the
sign type of integers. -/
theorem c70_json_text (hf : FmtOk fmt) {p q : Bool} {b c : Bytes} {d e r s : Val} (hb : opn (std fmt) b = .ok d) (hc : opn (std fmt) c = .ok e)
    (hr : Reader.Reach reader d r) (hs : Reader.Reach reader e s) (h : toText fmt p (some r) = toText fmt q (some s)) : r.canon = s.canon :=
  c86_json_unambiguous (c52_json_text hf p hb hr).1 (h ▸ (c52_json_text hf q hc hs).1)

/-- C70 for JSON: two serialized values whose readers print the same are the same up to the sign type of integers, blobs included;
none of them may contain an array that looks like a blob. -/
theorem c70_json_values (hf : FmtOk fmt) {dbg p q : Bool} {v w : Val} (hv : Textual (std fmt) v) (hw : Textual (std fmt) w)
    (kv : KeysOk v) (kw : KeysOk w) (mv : NoMimic v) (mw : NoMimic w) {b c : Bytes} {d e : Val}
    (h1 : (proto (std fmt) dbg).serialize v = .ok b) (h2 : (proto (std fmt) dbg).serialize w = .ok c)
    (h3 : opn (std fmt) b = .ok d) (h4 : opn (std fmt) c = .ok e) (h : toText fmt p (some d) = toText fmt q (some e)) : v.Same w := by
  have L := std_law hf
  obtain ⟨b', k1, k2⟩ := (serialize_ok_iff (dbg := dbg) L kv).1 hv
  obtain ⟨c', l1, l2⟩ := (serialize_ok_iff (dbg := dbg) L kw).1 hw
  rw [h1] at k1; injection k1 with k1; subst k1
  rw [h2] at l1; injection l1 with l1; subst l1
  simp only [opn, k2] at h3
  simp only [opn, l2] at h4
  injection h3 with h3
  injection h4 with h4
  subst h3
  subst h4
  have t1 : opn (std fmt) b = .ok (toDom v).canon := by simp only [opn, k2]
  have t2 : opn (std fmt) c = .ok (toDom w).canon := by simp only [opn, l2]
  have := c70_json_text hf t1 t2 .refl .refl h
  rw [canon_twice, canon_twice] at this
  exact toDom_inj mv mw this

/-- C70 without that condition is false: a blob and the array of three strings that stands for it print the same. -/
theorem c70_json_values_refuted (hf : FmtOk fmt) (dbg p : Bool) : ∃ v w : Val, ¬ v.Same w ∧ ∃ b c d e,
    (proto (std fmt) dbg).serialize v = .ok b ∧ (proto (std fmt) dbg).serialize w = .ok c ∧ opn (std fmt) b = .ok d ∧ opn (std fmt) c = .ok e ∧
    toText fmt p (some d) = toText fmt p (some e) := by
  have L := std_law hf
  have kv : KeysOk (.blob []) := by simp [KeysOk, Val.Each]
  have kw : KeysOk (.arr [.str blobTag, .str [], .str blobEncoding]) := by simp [KeysOk, Val.Each, Val.eachList]
  have hv : Textual (std fmt) (.blob []) := by simp [Textual, Val.Each]
  have hw : Textual (std fmt) (.arr [.str blobTag, .str [], .str blobEncoding]) := by
    simp only [Textual, Val.Each, Val.eachList, true_and, and_true]
    exact ⟨show isUtf8 blobTag = true by decide +kernel, rfl, show isUtf8 blobEncoding = true by decide +kernel⟩
  obtain ⟨b, k1, k2⟩ := (serialize_ok_iff (dbg := dbg) L kv).1 hv
  obtain ⟨c, l1, l2⟩ := (serialize_ok_iff (dbg := dbg) L kw).1 hw
  refine ⟨_, _, fun h => ?_, b, c, _, _, k1, l1, by simp only [opn, k2]; rfl, by simp only [opn, l2]; rfl, rfl⟩
  have : (Val.blob []).canon = (Val.arr [.str blobTag, .str [], .str blobEncoding]).canon := h
  cases this

/-- C70: a reader left behind by a move prints as null does. -/
theorem c70_json_moved_refuted (p : Bool) : toText fmt p none = toText fmt p (some .null) := by
  cases p <;> rfl

/-- `{"a": [1, {}], "b": []}` laid out. -/
example : toText (fun _ => []) true (some (.map [([0x61], .arr [.uint 1, .map []]), ([0x62], .arr [])])) =
    [0x7b, 0x0a] ++ indent 1 ++ [0x22, 0x61, 0x22, 0x3a, 0x20, 0x5b, 0x0a] ++ indent 2 ++ [0x31, 0x2c, 0x0a] ++ indent 2 ++ [0x7b, 0x7d, 0x0a] ++
    indent 1 ++ [0x5d, 0x2c, 0x0a] ++ indent 1 ++ [0x22, 0x62, 0x22, 0x3a, 0x20, 0x5b, 0x5d, 0x0a, 0x7d] := by
  decide +kernel

example : Reader.Reach reader sampleDoc (.uint 1) := .idx 0 (.key [0x61] .refl rfl) rfl

end Zer.Json
