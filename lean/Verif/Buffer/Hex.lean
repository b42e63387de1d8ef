import Verif.Buffer.Model

namespace Zer.Buf

theorem hexDigits_zero : hexDigits 0 = [] := by rw [hexDigits]; rfl

theorem hexDigits_small {n : Nat} (h0 : n ≠ 0) (h : n < 16) : hexDigits n = [hexDigit n] := by
  rw [hexDigits, dif_neg h0, Nat.div_eq_of_lt h, hexDigits_zero, Nat.mod_eq_of_lt h]; rfl

/-- A byte is shown as two lowercase hexadecimal digits. -/
theorem hexNum_byte {n : Nat} (h : n < 256) : hexNum 2 n = [hexDigit (n / 16), hexDigit (n % 16)] := by
  unfold hexNum
  by_cases h0 : n = 0
  · subst h0; decide
  simp only [if_neg h0]
  by_cases h1 : n < 16
  · rw [hexDigits_small h0 h1, Nat.div_eq_of_lt h1, Nat.mod_eq_of_lt h1]; rfl
  · rw [hexDigits, dif_neg h0, hexDigits_small (n := n / 16) (by omega) (by omega)]; rfl

theorem hexDigit_inj {a b : Nat} (ha : a < 16) (hb : b < 16) (h : hexDigit a = hexDigit b) : a = b := by
  have : ∀ x : Fin 16, ∀ y : Fin 16, hexDigit x.1 = hexDigit y.1 → x = y := by decide
  have := this ⟨a, ha⟩ ⟨b, hb⟩ h
  exact congrArg (·.1) this

theorem hexDigit_ne_space {a : Nat} (ha : a < 16) : hexDigit a ≠ 0x20 := by
  have : ∀ x : Fin 16, hexDigit x.1 ≠ 0x20 := by decide
  exact this ⟨a, ha⟩

/-- What stands in place `j` of a row: two digits or two spaces, a space, and one more after the eighth place. -/
def place (c : Bytes) (j : Nat) : Bytes :=
  (match c[j]? with
    | some b => [hexDigit (b.toNat / 16), hexDigit (b.toNat % 16), 0x20]
    | none => [0x20, 0x20, 0x20]) ++ (if j = 7 then [0x20] else [])

/-- A row: offset, hex column of `r` places, ASCII column. -/
def rowText (isprint : UInt8 → Bool) (r off : Nat) (c : Bytes) : Bytes :=
  hexNum 8 off ++ [0x20, 0x20] ++ (List.range r).flatMap (place c) ++ [0x20, 0x7c] ++
    c.map (fun b => if isprint b then b else 0x2e) ++ [0x7c, 0x0a]

/-- The rows: `r` bytes each, the last may be shorter. -/
def chunks (r : Nat) (p : Bytes) : List Bytes :=
  if h : p = [] ∨ r = 0 then [] else p.take r :: chunks r (p.drop r)
termination_by p.length
decreasing_by
  have : 0 < p.length := List.length_pos_iff.2 fun e => h (.inl e)
  simp; omega

theorem chunks_nil (r : Nat) : chunks r [] = [] := by rw [chunks]; simp

theorem chunks_cons {r : Nat} {p : Bytes} (hr : 0 < r) (hp : p ≠ []) :
    chunks r p = p.take r :: chunks r (p.drop r) := by
  rw [chunks]; simp [hp, Nat.ne_of_gt hr]

/-- The rows hold every byte once, in order. -/
theorem chunks_flatten {r : Nat} (hr : 0 < r) : ∀ p : Bytes, (chunks r p).flatten = p := by
  intro p
  induction hn : p.length using Nat.strongRecOn generalizing p with
  | _ n ih =>
    by_cases hp : p = []
    · subst hp; rw [chunks_nil]; rfl
    · have : 0 < p.length := List.length_pos_iff.2 hp
      rw [chunks_cons hr hp, List.flatten_cons, ih _ (by simp; omega) _ rfl, List.take_append_drop]

theorem chunks_row {r : Nat} (hr : 0 < r) : ∀ p : Bytes, ∀ c ∈ chunks r p, 0 < c.length ∧ c.length ≤ r := by
  intro p
  induction hn : p.length using Nat.strongRecOn generalizing p with
  | _ n ih =>
    by_cases hp : p = []
    · subst hp; rw [chunks_nil]; simp
    · have : 0 < p.length := List.length_pos_iff.2 hp
      rw [chunks_cons hr hp]
      intro c hc
      rcases List.mem_cons.1 hc with rfl | hc
      · simp; omega
      · exact ih _ (by simp; omega) _ rfl c hc

theorem if_get (p : Bytes) (i : Nat) : (if i < p.length then p[i]? else none) = p[i]? := by
  split
  · rfl
  · rw [List.getElem?_eq_none (by omega)]

theorem hexPlace_eq (c : Bytes) (j : Nat) : hexPlace j c[j]? = place c j := by
  unfold place
  cases h : c[j]? with
  | none => rfl
  | some b => simp only [hexPlace]; rw [hexNum_byte b.toNat_lt]; rfl

theorem hexLoop_eq (p : Bytes) (i : Nat) : ∀ k j, hexLoop p i j k = (List.range' j k).flatMap (place (p.drop i)) := by
  intro k
  induction k with
  | zero => intro j; simp [hexLoop]
  | succ k ih =>
    intro j
    rw [hexLoop, ih, List.range'_succ, List.flatMap_cons, if_get, ← hexPlace_eq, List.getElem?_drop]

theorem flatMap_congr' {α β : Type} {f g : α → List β} : ∀ {l : List α}, (∀ x ∈ l, f x = g x) → l.flatMap f = l.flatMap g
  | [], _ => rfl
  | x :: l, h => by
    rw [List.flatMap_cons, List.flatMap_cons, h x (by simp), flatMap_congr' fun y hy => h y (List.mem_cons_of_mem _ hy)]

theorem hexLoop_row (p : Bytes) (i r : Nat) :
    hexLoop p i 0 r = (List.range r).flatMap (place ((p.drop i).take r)) := by
  rw [hexLoop_eq, List.range_eq_range']
  refine flatMap_congr' fun j hj => ?_
  have : j < r := by simpa using hj
  unfold place
  rw [List.getElem?_take_of_lt this]

theorem asciiLoop_eq (isprint : UInt8 → Bool) (p : Bytes) (i : Nat) : ∀ k j, asciiLoop isprint p i j k =
    ((p.drop (i + j)).take k).map (fun b => if isprint b then b else 0x2e) := by
  intro k
  induction k with
  | zero => intro j; simp [asciiLoop]
  | succ k ih =>
    intro j
    rw [asciiLoop, if_get]
    cases h : p[i + j]? with
    | none =>
      have : p.length ≤ i + j := List.getElem?_eq_none_iff.1 h
      simp [List.drop_eq_nil_of_le this]
    | some c =>
      obtain ⟨hl, e⟩ := List.getElem?_eq_some_iff.1 h
      rw [List.drop_eq_getElem_cons hl, e]
      simp only [List.take_succ_cons, List.map_cons, ih]
      rfl

/-- Rows from the `i`-th byte on. -/
def rowsFrom (isprint : UInt8 → Bool) (r : Nat) : Nat → List Bytes → Bytes
  | _, [] => []
  | off, c :: cs => rowText isprint r off c ++ rowsFrom isprint r (off + r) cs

theorem hexRows_eq (isprint : UInt8 → Bool) (p : Bytes) {r : Nat} (hr : 0 < r) (hr2 : r < 2 ^ 64)
    (hp : p.length ≤ 2 ^ 63) : ∀ fuel i, i = 0 ∨ r ≤ i → p.length - i < fuel →
    hexRows isprint p r fuel i = .ok (rowsFrom isprint r i (chunks r (p.drop i))) := by
  intro fuel
  induction fuel with
  | zero => intro i _ h; omega
  | succ f ih =>
    intro i hi h
    rw [hexRows]
    by_cases hl : i < p.length
    · have hw : (i + r) % 2 ^ 64 = i + r := Nat.mod_eq_of_lt (by omega)
      have hn : p.drop i ≠ [] := fun e => by
        have := congrArg List.length e
        simp at this; omega
      rw [if_pos hl, hw, ih (i + r) (.inr (by omega)) (by omega), chunks_cons hr hn, rowsFrom, rowText, hexLoop_row,
        asciiLoop_eq, List.drop_drop]
      simp
    · rw [if_neg hl, List.drop_eq_nil_of_le (by omega), chunks_nil]; rfl

theorem place_length (c d : Bytes) (j : Nat) : (place c j).length = (place d j).length := by
  unfold place
  cases c[j]? <;> cases d[j]? <;> simp

theorem places_length (c d : Bytes) (l : List Nat) : (l.flatMap (place c)).length = (l.flatMap (place d)).length := by
  induction l with
  | nil => rfl
  | cons j l ih => simp only [List.flatMap_cons, List.length_append, ih, place_length c d j]

theorem place_inj {c d : Bytes} {j : Nat} (h : place c j = place d j) : c[j]? = d[j]? := by
  unfold place at h
  have h := List.append_cancel_right h
  cases e1 : c[j]? with
  | none =>
    cases e2 : d[j]? with
    | none => rfl
    | some y =>
      rw [e1, e2] at h
      simp only [List.cons.injEq] at h
      exact absurd h.1.symm (hexDigit_ne_space (by have := y.toNat_lt; omega))
  | some x =>
    cases e2 : d[j]? with
    | none =>
      rw [e1, e2] at h
      simp only [List.cons.injEq] at h
      exact absurd h.1 (hexDigit_ne_space (by have := x.toNat_lt; omega))
    | some y =>
      rw [e1, e2] at h
      simp only [List.cons.injEq] at h
      have hx := x.toNat_lt
      have hy := y.toNat_lt
      have a := hexDigit_inj (by omega) (by omega) h.1
      have b := hexDigit_inj (by omega) (by omega) h.2.1
      congr 1
      exact UInt8.toNat_inj.1 (by omega)

theorem places_inj {c d : Bytes} : ∀ {l : List Nat}, l.flatMap (place c) = l.flatMap (place d) → ∀ j ∈ l, c[j]? = d[j]?
  | [], _, _, h => by cases h
  | k :: l, h, j, hj => by
    rw [List.flatMap_cons, List.flatMap_cons] at h
    obtain ⟨h1, h2⟩ := List.append_inj h (place_length c d k)
    rcases List.mem_cons.1 hj with rfl | hj
    · exact place_inj h1
    · exact places_inj h2 j hj

theorem rowText_inj {isprint : UInt8 → Bool} {r off : Nat} {c d x y : Bytes} (hc : c.length ≤ r) (hd : d.length ≤ r)
    (h : rowText isprint r off c ++ x = rowText isprint r off d ++ y) : c = d ∧ x = y := by
  have h0 := h
  unfold rowText at h
  simp only [List.append_assoc] at h
  obtain ⟨-, h⟩ := List.append_inj h rfl
  obtain ⟨-, h⟩ := List.append_inj h rfl
  obtain ⟨h, -⟩ := List.append_inj h (places_length c d _)
  have e : c = d := by
    apply List.ext_getElem?
    intro j
    by_cases hj : j < r
    · exact places_inj h j (by simpa using hj)
    · rw [List.getElem?_eq_none (by omega), List.getElem?_eq_none (by omega)]
  subst e
  exact ⟨rfl, List.append_cancel_left h0⟩

theorem rowText_ne_nil {isprint : UInt8 → Bool} {r off : Nat} {c : Bytes} : rowText isprint r off c ≠ [] := by
  unfold rowText; simp

theorem rowsFrom_inj {isprint : UInt8 → Bool} {r : Nat} : ∀ {cs ds : List Bytes} {off : Nat},
    (∀ c ∈ cs, c.length ≤ r) → (∀ d ∈ ds, d.length ≤ r) →
    rowsFrom isprint r off cs = rowsFrom isprint r off ds → cs = ds
  | [], [], _, _, _, _ => rfl
  | [], d :: ds, _, _, _, h => by
    simp only [rowsFrom] at h
    exact absurd (List.append_eq_nil_iff.1 h.symm).1 rowText_ne_nil
  | c :: cs, [], _, _, _, h => by
    simp only [rowsFrom] at h
    exact absurd (List.append_eq_nil_iff.1 h).1 rowText_ne_nil
  | c :: cs, d :: ds, off, h1, h2, h => by
    simp only [rowsFrom] at h
    obtain ⟨e1, e2⟩ := rowText_inj (h1 c (by simp)) (h2 d (by simp)) h
    rw [e1, rowsFrom_inj (fun c hc => h1 c (List.mem_cons_of_mem _ hc)) (fun d hd => h2 d (List.mem_cons_of_mem _ hd)) e2]

end Zer.Buf
