import Verif.Reader

/-!
# Conditions on every part of a value
-/

namespace Zer

mutual
/-- `P` holds of the value and of every value inside it, `K` of every key. -/
def Val.Each (P : Val → Prop) (K : Bytes → Prop) : Val → Prop
  | .null => P .null
  | .bool b => P (.bool b)
  | .int i => P (.int i)
  | .uint n => P (.uint n)
  | .dbl d => P (.dbl d)
  | .str s => P (.str s)
  | .blob s => P (.blob s)
  | .arr xs => P (.arr xs) ∧ eachList P K xs
  | .map ms => P (.map ms) ∧ eachEntries P K ms
def Val.eachList (P : Val → Prop) (K : Bytes → Prop) : List Val → Prop
  | [] => True
  | x :: xs => x.Each P K ∧ eachList P K xs
def Val.eachEntries (P : Val → Prop) (K : Bytes → Prop) : List (Bytes × Val) → Prop
  | [] => True
  | (k, v) :: ms => K k ∧ v.Each P K ∧ eachEntries P K ms
end

namespace Val
variable {P : Val → Prop} {K : Bytes → Prop}

theorem eachList_iff (xs : List Val) : eachList P K xs ↔ ∀ x ∈ xs, x.Each P K := by
  induction xs with
  | nil => simp [eachList]
  | cons x xs ih => simp [eachList, ih]

theorem eachEntries_iff (ms : List (Bytes × Val)) :
    eachEntries P K ms ↔ ∀ m ∈ ms, K m.1 ∧ m.2.Each P K := by
  induction ms with
  | nil => simp [eachEntries]
  | cons m ms ih => obtain ⟨k, v⟩ := m; simp [eachEntries, ih, and_assoc]

theorem Each.arr {xs : List Val} (h : (Val.arr xs).Each P K) : ∀ x ∈ xs, x.Each P K :=
  (eachList_iff xs).1 h.2

theorem Each.map {ms : List (Bytes × Val)} (h : (Val.map ms).Each P K) :
    ∀ m ∈ ms, K m.1 ∧ m.2.Each P K := (eachEntries_iff ms).1 h.2

theorem Each.self {v : Val} (h : v.Each P K) : P v := by
  cases v <;> simp only [Each] at h <;> first | exact h | exact h.1

theorem Each.mono {P' : Val → Prop} {K' : Bytes → Prop} (hP : ∀ v, P v → P' v)
    (hK : ∀ k, K k → K' k) : ∀ {v : Val}, v.Each P K → v.Each P' K' := by
  intro v
  induction v using Val.ind with
  | arr xs ih =>
    intro h
    exact ⟨hP _ h.1, (eachList_iff xs).2 (fun x hx => ih x hx (h.arr x hx))⟩
  | map ms ih =>
    intro h
    exact ⟨hP _ h.1, (eachEntries_iff ms).2 (fun m hm => ⟨hK _ (h.map m hm).1, ih m hm (h.map m hm).2⟩)⟩
  | _ => intro h; exact hP _ h

end Val
end Zer
