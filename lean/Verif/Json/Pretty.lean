import Verif.Json.Print

/-!
# `to_string()` of the JSON reader

`prettyVal` stands for `yyjson_val_write` with `YYJSON_WRITE_PRETTY`: four spaces per level, one element or entry per line, a blank
after the colon, empty containers on one line. Without the flag the function writes what `printVal` writes.
-/

namespace Zer.Json

/-- Four spaces per level. -/
def indent (n : Nat) : Bytes := List.replicate (4 * n) 0x20

mutual
/-- `yyjson_val_write(val, YYJSON_WRITE_PRETTY)` at level `n`; `none` is NULL. -/
def prettyVal (fmt : UInt64 → Bytes) (n : Nat) : Val → Option Bytes
  | .null => some [0x6e, 0x75, 0x6c, 0x6c]
  | .bool false => some [0x66, 0x61, 0x6c, 0x73, 0x65]
  | .bool true => some [0x74, 0x72, 0x75, 0x65]
  | .int i => some (writeInt i.toInt)
  | .uint k => some (writeInt k.toNat)
  | .dbl d => if finiteBits d then some (fmt d) else none
  | .str s => if isUtf8 s then some (writeStr s) else none
  | .blob _ => none
  | .arr [] => some [0x5b, 0x5d]
  | .arr (x :: xs) => (prettyList fmt (n + 1) (x :: xs)).map (fun b => 0x5b :: ((0x0a :: (b ++ (0x0a :: indent n))) ++ [0x5d]))
  | .map [] => some [0x7b, 0x7d]
  | .map (m :: ms) => (prettyEntries fmt (n + 1) (m :: ms)).map (fun b => 0x7b :: ((0x0a :: (b ++ (0x0a :: indent n))) ++ [0x7d]))
/-- Elements, one per line. -/
def prettyList (fmt : UInt64 → Bytes) (n : Nat) : List Val → Option Bytes
  | [] => some []
  | x :: xs =>
    match prettyVal fmt n x, prettyList fmt n xs with
    | some b, some c => some (indent n ++ (b ++ (if xs.isEmpty then c else 0x2c :: 0x0a :: c)))
    | _, _ => none
/-- Entries, one per line. -/
def prettyEntries (fmt : UInt64 → Bytes) (n : Nat) : List (Bytes × Val) → Option Bytes
  | [] => some []
  | (k, v) :: ms =>
    if isUtf8 k then
      match prettyVal fmt n v, prettyEntries fmt n ms with
      | some b, some c => some (indent n ++ (writeStr k ++ 0x3a :: 0x20 :: (b ++ (if ms.isEmpty then c else 0x2c :: 0x0a :: c))))
      | _, _ => none
    else none
end

/-- What `to_string` returns if nothing could be written, json.hpp:224 -/
def failText : Bytes :=
  [0x28, 0x79, 0x79, 0x6a, 0x73, 0x6f, 0x6e, 0x5f, 0x76, 0x61, 0x6c, 0x5f, 0x77, 0x72, 0x69, 0x74, 0x65, 0x20, 0x66, 0x61, 0x69, 0x6c, 0x65, 0x64, 0x29]

/-- `to_string(pretty)`, json.hpp:219-227; `none` is a reader without a value, left behind by a move (json.hpp:123-126). -/
def toText (fmt : UInt64 → Bytes) (pretty : Bool) : Option Val → Bytes
  | none => [0x6e, 0x75, 0x6c, 0x6c]
  | some v => ((if pretty then prettyVal fmt 0 v else printVal fmt v)).getD failText

theorem ws_indent (n : Nat) : Ws (indent n) := by
  intro a ha
  rw [(List.mem_replicate.1 ha).2]
  rfl

theorem ws_cons {a : UInt8} {w : Bytes} (h : isWs a = true) (hw : Ws w) : Ws (a :: w) := by
  intro x hx
  rcases List.mem_cons.1 hx with rfl | hx
  · exact h
  · exact hw x hx

theorem ws_append {v w : Bytes} (hv : Ws v) (hw : Ws w) : Ws (v ++ w) :=
  fun x hx => (List.mem_append.1 hx).elim (hv x) (hw x)

/-- White space around the elements. -/
theorem isElems_ws {w : Bytes} (hw : Ws w) : ∀ {b : Bytes} {xs : List Val}, IsElems b xs →
    IsElems (b ++ w) xs
  | _, _, .one h1 h2 h3 => by
    have := IsElems.one h1 h2 (ws_append h3 hw)
    simpa using this
  | _, _, .more h1 h2 h3 h4 => by
    have := IsElems.more h1 h2 h3 (isElems_ws hw h4)
    simpa using this

theorem isElems_lead {v b : Bytes} {xs : List Val} (hv : Ws v) (h : IsElems b xs) : IsElems (v ++ b) xs := by
  cases h with
  | one h1 h2 h3 => have := IsElems.one (ws_append hv h1) h2 h3; simpa using this
  | more h1 h2 h3 h4 => have := IsElems.more (ws_append hv h1) h2 h3 h4; simpa using this

theorem isMembers_ws {w : Bytes} (hw : Ws w) : ∀ {b : Bytes} {ms : List (Bytes × Val)}, IsMembers b ms → IsMembers (b ++ w) ms
  | _, _, .one h1 k h2 h3 h4 h5 => by
    have := IsMembers.one h1 k h2 h3 h4 (ws_append h5 hw)
    simpa using this
  | _, _, .more h1 k h2 h3 h4 h5 h6 => by
    have := IsMembers.more h1 k h2 h3 h4 h5 (isMembers_ws hw h6)
    simpa using this

theorem isMembers_lead {v b : Bytes} {ms : List (Bytes × Val)} (hv : Ws v) (h : IsMembers b ms) : IsMembers (v ++ b) ms := by
  cases h with
  | one h1 k h2 h3 h4 h5 => have := IsMembers.one (ws_append hv h1) k h2 h3 h4 h5; simpa using this
  | more h1 k h2 h3 h4 h5 h6 => have := IsMembers.more (ws_append hv h1) k h2 h3 h4 h5 h6; simpa using this

section
variable {fmt : UInt64 → Bytes}

theorem prettyList_elems {n : Nat} {xs : List Val} (hne : xs ≠ [])
    (ih : ∀ x ∈ xs, Printable (std fmt) x → ∃ b, prettyVal fmt n x = some b ∧ IsValue b x.canon)
    (h : ∀ x ∈ xs, Printable (std fmt) x) : ∃ b, prettyList fmt n xs = some b ∧ IsElems b (Val.canonList xs) := by
  induction xs with
  | nil => exact absurd rfl hne
  | cons x xs ihx =>
    obtain ⟨b, h1, h2⟩ := ih x (List.mem_cons_self ..) (h x (List.mem_cons_self ..))
    have hw : Ws [] := by simp [Ws]
    cases xs with
    | nil =>
      have := IsElems.one (ws_indent n) h2 hw
      simp only [List.append_nil] at this
      exact ⟨indent n ++ b, by simp [prettyList, h1], by simpa [Val.canonList] using this⟩
    | cons y ys =>
      obtain ⟨c, h3, h4⟩ := ihx (by simp) (fun x hx => ih x (List.mem_cons_of_mem _ hx)) (fun x hx => h x (List.mem_cons_of_mem _ hx))
      have := IsElems.more (ws_indent n) h2 hw (isElems_lead (v := [0x0a]) (ws_cons rfl hw) h4)
      simp only [List.nil_append, List.cons_append] at this
      refine ⟨indent n ++ (b ++ 0x2c :: 0x0a :: c), ?_, this⟩
      rw [prettyList, h1, h3]
      rfl

theorem prettyEntries_members {n : Nat} {ms : List (Bytes × Val)} (hne : ms ≠ [])
    (ih : ∀ m ∈ ms, Printable (std fmt) m.2 → ∃ b, prettyVal fmt n m.2 = some b ∧ IsValue b m.2.canon)
    (h : ∀ m ∈ ms, isUtf8 m.1 = true ∧ Printable (std fmt) m.2) :
    ∃ b, prettyEntries fmt n ms = some b ∧ IsMembers b (Val.canonEntries ms) := by
  induction ms with
  | nil => exact absurd rfl hne
  | cons m ms ihx =>
    obtain ⟨k, v⟩ := m
    obtain ⟨hk, hv⟩ := h _ (List.mem_cons_self ..)
    obtain ⟨b, h1, h2⟩ := ih _ (List.mem_cons_self ..) hv
    have hw : Ws [] := by simp [Ws]
    have hb : Ws [0x20] := ws_cons rfl hw
    cases ms with
    | nil =>
      have := IsMembers.one (ws_indent n) (writeStr_isStr hk) hw hb h2 hw
      simp only [List.nil_append, List.append_nil, List.cons_append] at this
      refine ⟨indent n ++ (writeStr k ++ 0x3a :: 0x20 :: b), ?_, by simpa [Val.canonEntries] using this⟩
      rw [prettyEntries, if_pos hk, h1, prettyEntries]
      simp
    | cons y ys =>
      obtain ⟨c, h3, h4⟩ := ihx (by simp) (fun x hx => ih x (List.mem_cons_of_mem _ hx)) (fun x hx => h x (List.mem_cons_of_mem _ hx))
      have := IsMembers.more (ws_indent n) (writeStr_isStr hk) hw hb h2 hw (isMembers_lead (v := [0x0a]) (ws_cons rfl hw) h4)
      simp only [List.nil_append, List.cons_append] at this
      refine ⟨indent n ++ (writeStr k ++ 0x3a :: 0x20 :: (b ++ 0x2c :: 0x0a :: c)), ?_, this⟩
      rw [prettyEntries, if_pos hk, h1, h3]
      rfl

/-- The pretty text is a JSON value that stands for the document. -/
theorem prettyVal_value (hf : FmtOk fmt) : ∀ {v : Val}, Printable (std fmt) v → ∀ n, ∃ b, prettyVal fmt n v = some b ∧ IsValue b v.canon := by
  intro v
  have hw : Ws [] := by simp [Ws]
  induction v using Val.ind with
  | null => intro _ n; exact ⟨_, by simp only [prettyVal], .null⟩
  | bool b => intro _ n; cases b <;> exact ⟨_, by rw [prettyVal], by constructor⟩
  | int i => intro _ n; exact ⟨_, by simp only [prettyVal], writeInt_canon i⟩
  | uint k => intro _ n; exact ⟨_, by simp only [prettyVal], writeInt_nat k⟩
  | dbl d =>
    intro h n
    have h : finiteBits d = true := h
    obtain ⟨m, h1, h2, h3⟩ := hf d h
    refine ⟨fmt d, by simp only [prettyVal, h, if_true], ?_⟩
    rw [← h2]; exact .num h1 h3
  | str s =>
    intro h n
    have h : isUtf8 s = true := h
    exact ⟨_, by simp only [prettyVal, h, if_true], .str (writeStr_isStr h)⟩
  | blob s => intro h; exact absurd h (by simp [Printable, Val.Each])
  | arr xs ih =>
    intro h n
    cases xs with
    | nil => exact ⟨[0x5b, 0x5d], by rw [prettyVal], .arr0 (w := []) hw⟩
    | cons x xs =>
      obtain ⟨b, h1, h2⟩ := prettyList_elems (n := n + 1) (by simp) (fun x hx hp => ih x hx hp (n + 1)) (fun x hx => h.arr x hx)
      refine ⟨_, by rw [prettyVal, h1]; rfl, .arr ?_⟩
      exact isElems_lead (v := [0x0a]) (ws_cons rfl hw) (isElems_ws (ws_cons rfl (ws_indent n)) h2)
  | map ms ih =>
    intro h n
    cases ms with
    | nil => exact ⟨[0x7b, 0x7d], by rw [prettyVal], .obj0 (w := []) hw⟩
    | cons m ms =>
      obtain ⟨b, h1, h2⟩ := prettyEntries_members (n := n + 1) (by simp) (fun m hm hp => ih m hm hp (n + 1)) (fun m hm => h.map m hm)
      refine ⟨_, by rw [prettyVal, h1]; rfl, .obj ?_⟩
      exact isMembers_lead (v := [0x0a]) (ws_cons rfl hw) (isMembers_ws (ws_cons rfl (ws_indent n)) h2)

end

end Zer.Json
